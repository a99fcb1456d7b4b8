import Verif.Model.Signal

/-!
# Savitzky–Golay filter

Models `crates/multicalc/src/signal_processing/savitzky_golay.rs`.
The pseudo-inverse (`linear_algebra/svd.rs:211-217`) is a parameter: the weights are whatever it
returns for the fit matrix.
-/

namespace Multicalc
variable {T : Type} {W P : ℕ}

/-- `struct SavitzkyGolay`, `savitzky_golay.rs:52-67`; the window fields are the ring of `window.rs`
with the same update (`savitzky_golay.rs:99-109`). -/
structure SavitzkyGolay (W : ℕ) (T : Type) where
  ring : Ring T
  smoothing : Fin W → T
  first : Fin W → T
  second : Fin W → T
  delay : T

/-- The fit matrix, `savitzky_golay.rs:167-170`. -/
def sgFit [One T] [NatCast T] [Sub T] [Mul T] [Div T] (W P readPosition : ℕ) :
    Fin W → Fin P → T :=
  fun sample term => powi ((sample : ℕ) - (readPosition : ℕ) : T) (term : ℕ)

/-- `SavitzkyGolay::build`, `savitzky_golay.rs:153-200`. -/
def SavitzkyGolay.build [Zero T] [One T] [NatCast T] [Sub T] [Mul T] [Div T] [LE T] [DecidableLE T]
    [Fns T] (pinv : (Fin W → Fin P → T) → Except SignalError (Fin P → Fin W → T))
    (timestep : T) (readPosition : ℕ) : Except SignalError (SavitzkyGolay W T) :=
  if !Fns.isFinite timestep then .error .nonFinite
  else if timestep ≤ 0 then .error .nonPositiveTimestep
  else if W = 0 ∨ P = 0 then .error .windowTooShort
  else if W < P then .error .polynomialOrderTooHigh
  else match pinv (sgFit W P readPosition) with
  | .error e => .error e
  | .ok inverse => .ok {
      ring := Ring.empty W
      smoothing := fun sample => if h : 0 < P then inverse ⟨0, h⟩ sample else 0
      first := fun sample => if h : 1 < P then inverse ⟨1, h⟩ sample / timestep else 0
      second := fun sample =>
        if h : 2 < P then (2 : ℕ) * inverse ⟨2, h⟩ sample / (timestep * timestep) else 0
      delay := ((W - 1 - readPosition : ℕ) : T) * timestep }

/-- `SavitzkyGolay::latest`, `savitzky_golay.rs:92-94`.  Simplified: for a window of zero the code
computes `WINDOW - 1` on an unsigned zero (a panic in a checked build); here it is truncated. -/
def SavitzkyGolay.latest [Zero T] [One T] [NatCast T] [Sub T] [Mul T] [Div T] [LE T] [DecidableLE T]
    [Fns T] (pinv : (Fin W → Fin P → T) → Except SignalError (Fin P → Fin W → T)) (timestep : T) :
    Except SignalError (SavitzkyGolay W T) :=
  SavitzkyGolay.build pinv timestep (W - 1)

/-- `SavitzkyGolay::centered`, `savitzky_golay.rs:77-82`. -/
def SavitzkyGolay.centered [Zero T] [One T] [NatCast T] [Sub T] [Mul T] [Div T] [LE T]
    [DecidableLE T] [Fns T] (pinv : (Fin W → Fin P → T) → Except SignalError (Fin P → Fin W → T))
    (timestep : T) : Except SignalError (SavitzkyGolay W T) :=
  if W % 2 = 0 then .error .windowEvenLength else SavitzkyGolay.build pinv timestep ((W - 1) / 2)

/-- `SavitzkyGolay::weighted_sum`, `savitzky_golay.rs:204-211`. -/
def weightedSum [Zero T] [Add T] [Mul T] (r : Ring T) (weights : Fin W → T) : T :=
  (List.finRange W).foldl (fun total position =>
    total + weights position * r.samples.getD ((r.next + position) % W) 0) 0

/-- `SavitzkyGolay::filter` and `value`, `savitzky_golay.rs:99-109,123-125`. -/
def SavitzkyGolay.filter [Zero T] [Add T] [Mul T] (f : SavitzkyGolay W T) (input : T) :
    T × SavitzkyGolay W T :=
  let f := { f with ring := f.ring.push W input }
  (weightedSum f.ring f.smoothing, f)

/-- `value`, `savitzky_golay.rs:123-125`. -/
def SavitzkyGolay.value [Zero T] [Add T] [Mul T] (f : SavitzkyGolay W T) : T :=
  weightedSum f.ring f.smoothing

/-- `first_derivative`, `savitzky_golay.rs:130-132`. -/
def SavitzkyGolay.firstDerivative [Zero T] [Add T] [Mul T] (f : SavitzkyGolay W T) : T :=
  weightedSum f.ring f.first

/-- `second_derivative`, `savitzky_golay.rs:137-139`. -/
def SavitzkyGolay.secondDerivative [Zero T] [Add T] [Mul T] (f : SavitzkyGolay W T) : T :=
  weightedSum f.ring f.second

end Multicalc
