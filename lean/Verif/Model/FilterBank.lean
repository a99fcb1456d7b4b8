import Verif.Model.Biquad

/-!
Changing running filters: retuning and clearing a cascade, and one filter shape run over every
component of a vector.

Modelled: `Biquad::set_coefficients` (`crates/multicalc/src/signal_processing/biquad.rs:456-458`), the
rest of `BiquadCascade` and the whole of `MultiChannelBiquad`
(`crates/multicalc/src/signal_processing/cascade.rs`).  The array of sections is a list, the array of
channels a function on `Fin n`; a method that changes its receiver returns the changed receiver.
-/

namespace Multicalc

variable {T : Type}

/-- `Biquad::set_coefficients`, `biquad.rs:456-458`. -/
def Biquad.setCoefficients (f : Biquad T) (c : BiquadCoefficients T) : Biquad T :=
  { f with coefficients := c }

/-- `BiquadCascade::new`, `cascade.rs:37-41`. -/
def cascadeNew [Zero T] (cs : List (BiquadCoefficients T)) : List (Biquad T) :=
  cs.map Biquad.new

/-- `BiquadCascade::set_section`, `cascade.rs:57-67`: the result and the cascade afterwards. -/
def cascadeSetSection (fs : List (Biquad T)) (index : ℕ) (c : BiquadCoefficients T) :
    Except SignalError Unit × List (Biquad T) :=
  if fs.length ≤ index then (.error .sectionIndexOutOfRange, fs)
  else (.ok (), fs.modify index fun f => f.setCoefficients c)

/-- `BiquadCascade::reset`, `cascade.rs:82-86`. -/
def cascadeReset [Zero T] (fs : List (Biquad T)) : List (Biquad T) :=
  fs.map Biquad.reset

/-- `MultiChannelBiquad`, `cascade.rs:163-166`. -/
structure MultiChannelBiquad (n : ℕ) (T : Type) where
  channels : Fin n → Biquad T

namespace MultiChannelBiquad

variable {n : ℕ}

/-- `MultiChannelBiquad::new`, `cascade.rs:171-175`. -/
def new [Zero T] (c : BiquadCoefficients T) : MultiChannelBiquad n T := ⟨fun _ => Biquad.new c⟩

/-- `MultiChannelBiquad::filter`, `cascade.rs:179-181`. -/
def filter [Add T] [Sub T] [Mul T] (f : MultiChannelBiquad n T) (input : Fin n → T) :
    (Fin n → T) × MultiChannelBiquad n T :=
  (fun i => ((f.channels i).filter (input i)).1, ⟨fun i => ((f.channels i).filter (input i)).2⟩)

/-- `MultiChannelBiquad::set_coefficients`, `cascade.rs:184-188`. -/
def setCoefficients (f : MultiChannelBiquad n T) (c : BiquadCoefficients T) : MultiChannelBiquad n T :=
  ⟨fun i => (f.channels i).setCoefficients c⟩

/-- `MultiChannelBiquad::settle_to`, `cascade.rs:191-195`. -/
def settleTo [One T] [Add T] [Sub T] [Mul T] [Div T] (f : MultiChannelBiquad n T) (value : Fin n → T) :
    MultiChannelBiquad n T :=
  ⟨fun i => (f.channels i).settleTo (value i)⟩

/-- `MultiChannelBiquad::reset`, `cascade.rs:198-202`. -/
def reset [Zero T] (f : MultiChannelBiquad n T) : MultiChannelBiquad n T :=
  ⟨fun i => (f.channels i).reset⟩

/-- `MultiChannelBiquad::value`, `cascade.rs:205-207`. -/
def value (f : MultiChannelBiquad n T) : Fin n → T := fun i => (f.channels i).lastOutput

end MultiChannelBiquad

end Multicalc
