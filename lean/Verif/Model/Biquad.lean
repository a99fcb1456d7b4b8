import Verif.Model.Signal

/-!
# Second-order filters

Models `signal_processing/biquad.rs` and `signal_processing/cascade.rs`.
-/

namespace Multicalc
variable {T : Type}

/-- `struct BiquadCoefficients`, `biquad.rs:39-46`: `feed_forward = [b0, b1, b2]`,
`feedback = [a1, a2]`. -/
structure BiquadCoefficients (T : Type) where
  b0 : T
  b1 : T
  b2 : T
  a1 : T
  a2 : T
  timestep : T

/-- `enum Design`, `biquad.rs:51-56`. -/
inductive Design
  | lowPass
  | highPass
  | bandPass
  | notch
  deriving DecidableEq

namespace BiquadCoefficients

/-- `BiquadCoefficients::new`, `biquad.rs:64-81`. -/
def new [Zero T] [LE T] [DecidableLE T] [Fns T] (b0 b1 b2 a1 a2 timestep : T) :
    Except SignalError (BiquadCoefficients T) :=
  if !(Fns.isFinite b0 && Fns.isFinite b1 && Fns.isFinite b2 && Fns.isFinite a1 && Fns.isFinite a2)
  then .error .nonFinite
  else if !Fns.isFinite timestep then .error .nonFinite
  else if timestep ≤ 0 then .error .nonPositiveTimestep
  else .ok ⟨b0, b1, b2, a1, a2, timestep⟩

/-- `BiquadCoefficients::response_parts`, `biquad.rs:276-293`. -/
def responseParts [One T] [NatCast T] [Add T] [Mul T] [Neg T] [Fns T] (c : BiquadCoefficients T)
    (frequencyHz : T) : T × T × T × T :=
  let angle := 2 * Fns.pi * frequencyHz * c.timestep
  let cosine := Fns.cos angle
  let sine := Fns.sin angle
  let doubleCosine := Fns.cos (2 * angle)
  let doubleSine := Fns.sin (2 * angle)
  (c.b0 + c.b1 * cosine + c.b2 * doubleCosine,
   -(c.b1 * sine + c.b2 * doubleSine),
   1 + c.a1 * cosine + c.a2 * doubleCosine,
   -(c.a1 * sine + c.a2 * doubleSine))

/-- `BiquadCoefficients::magnitude_at`, `biquad.rs:198-202`. -/
def magnitudeAt [Zero T] [One T] [NatCast T] [Add T] [Mul T] [Div T] [Neg T] [LT T] [DecidableLT T]
    [BEq T] [Fns T] (c : BiquadCoefficients T) (frequencyHz : T) : T :=
  let p := c.responseParts frequencyHz
  hypot p.1 p.2.1 / hypot p.2.2.1 p.2.2.2

/-- `BiquadCoefficients::phase_at`, `biquad.rs:223-230`. -/
def phaseAt [One T] [NatCast T] [Add T] [Sub T] [Mul T] [Neg T] [Fns T] (c : BiquadCoefficients T)
    (frequencyHz : T) : T :=
  let p := c.responseParts frequencyHz
  Fns.atan2 p.2.1 p.1 - Fns.atan2 p.2.2.2 p.2.2.1

/-- The literal `20.0 / core::f64::consts::LN_10` as the double it is, `biquad.rs:211`, `cascade.rs:103`. -/
def decibelsPerNeper [Fns T] : T := Fns.lit (611215145896421 / 70368744177664)

/-- `BiquadCoefficients::magnitude_in_decibels_at`, `biquad.rs:210-212`. -/
def magnitudeInDecibelsAt [Zero T] [One T] [NatCast T] [Add T] [Mul T] [Div T] [Neg T] [LT T] [DecidableLT T]
    [BEq T] [Fns T] (c : BiquadCoefficients T) (frequencyHz : T) : T :=
  decibelsPerNeper * Fns.log (c.magnitudeAt frequencyHz)

/-- `BiquadCoefficients::delay_at`, `biquad.rs:247-252`. -/
def delayAt [Zero T] [One T] [NatCast T] [Add T] [Sub T] [Mul T] [Div T] [Neg T] [BEq T] [Fns T]
    (c : BiquadCoefficients T) (frequencyHz : T) : T :=
  if frequencyHz == 0 then 0 else -c.phaseAt frequencyHz / (2 * Fns.pi * frequencyHz)

/-- `BiquadCoefficients::is_stable`, `biquad.rs:269-271`. -/
def isStable [One T] [Add T] [LT T] [DecidableLT T] [Fns T] (c : BiquadCoefficients T) : Bool :=
  decide (Fns.abs c.a2 < 1) && decide (Fns.abs c.a1 < 1 + c.a2)

/-- `BiquadCoefficients::check_design`, `biquad.rs:296-310`. -/
def checkDesign [Zero T] [One T] [NatCast T] [Mul T] [Div T] [LE T] [DecidableLE T] [Fns T]
    (frequencyHz qualityFactor timestep : T) : Except SignalError Unit :=
  if !Fns.isFinite frequencyHz || !Fns.isFinite qualityFactor || !Fns.isFinite timestep then
    .error .nonFinite
  else if timestep ≤ 0 then .error .nonPositiveTimestep
  else if qualityFactor ≤ 0 then .error .nonPositiveQualityFactor
  else if frequencyHz ≤ 0 ∨ 1 / 2 ≤ frequencyHz * timestep then .error .frequencyOutOfRange
  else .ok ()

/-- `BiquadCoefficients::from_unnormalized`, `biquad.rs:358-369`. -/
def fromUnnormalized [Div T] (b0 b1 b2 leading a1 a2 timestep : T) : BiquadCoefficients T :=
  ⟨b0 / leading, b1 / leading, b2 / leading, a1 / leading, a2 / leading, timestep⟩

/-- `BiquadCoefficients::build`, `biquad.rs:313-352`. -/
def build [Zero T] [One T] [NatCast T] [Add T] [Sub T] [Mul T] [Div T] [Neg T] [LE T]
    [DecidableLE T] [Fns T] (design : Design) (frequencyHz qualityFactor timestep : T) :
    Except SignalError (BiquadCoefficients T) :=
  match checkDesign frequencyHz qualityFactor timestep with
  | .error e => .error e
  | .ok () =>
    let angle := 2 * Fns.pi * frequencyHz * timestep
    let cosine := Fns.cos angle
    let alpha := match design with
      | .lowPass | .highPass => Fns.sin angle / (2 * qualityFactor)
      | .bandPass | .notch => Fns.tan (angle / (2 * qualityFactor))
    let ff : T × T × T := match design with
      | .lowPass => let shared := 1 - cosine; (shared * (1 / 2), shared, shared * (1 / 2))
      | .highPass => let shared := 1 + cosine; (shared * (1 / 2), -shared, shared * (1 / 2))
      | .bandPass => (alpha, 0, -alpha)
      | .notch => (1, -(2 * cosine), 1)
    .ok (fromUnnormalized ff.1 ff.2.1 ff.2.2 (1 + alpha) (-(2 * cosine)) (1 - alpha) timestep)

end BiquadCoefficients

/-- `struct Biquad`, `biquad.rs:418-423`. -/
structure Biquad (T : Type) where
  coefficients : BiquadCoefficients T
  firstState : T
  secondState : T
  lastOutput : T

namespace Biquad

/-- `Biquad::new`, `biquad.rs:430-437`. -/
def new [Zero T] (c : BiquadCoefficients T) : Biquad T := ⟨c, 0, 0, 0⟩

/-- `Biquad::filter`, `biquad.rs:442-452`. -/
def filter [Add T] [Sub T] [Mul T] (f : Biquad T) (input : T) : T × Biquad T :=
  let c := f.coefficients
  let output := c.b0 * input + f.firstState
  let firstState := c.b1 * input - c.a1 * output + f.secondState
  let secondState := c.b2 * input - c.a2 * output
  (output, { f with firstState := firstState, secondState := secondState, lastOutput := output })

/-- `Biquad::settle_to`, `biquad.rs:466-475`. -/
def settleTo [One T] [Add T] [Sub T] [Mul T] [Div T] (f : Biquad T) (value : T) : Biquad T :=
  let c := f.coefficients
  let steady := value * (c.b0 + c.b1 + c.b2) / (1 + c.a1 + c.a2)
  let secondState := c.b2 * value - c.a2 * steady
  let firstState := c.b1 * value - c.a1 * steady + secondState
  { f with firstState := firstState, secondState := secondState, lastOutput := steady }

/-- `Biquad::reset`, `biquad.rs:479-483`. -/
def reset [Zero T] (f : Biquad T) : Biquad T :=
  { f with firstState := 0, secondState := 0, lastOutput := 0 }

end Biquad

/-- `BiquadCascade::filter`, `cascade.rs:46-52`: the sections in order, each fed the output of the
one before.  The array of sections is a list. -/
def cascadeFilter [Add T] [Sub T] [Mul T] : List (Biquad T) → T → T × List (Biquad T)
  | [], x => (x, [])
  | f :: fs, x =>
    let r := f.filter x
    let rs := cascadeFilter fs r.1
    (rs.1, r.2 :: rs.2)

/-- `BiquadCascade::settle_to`, `cascade.rs:73-79`. -/
def cascadeSettleTo [One T] [Add T] [Sub T] [Mul T] [Div T] : List (Biquad T) → T → List (Biquad T)
  | [], _ => []
  | f :: fs, x =>
    let f := f.settleTo x
    f :: cascadeSettleTo fs f.lastOutput

/-- `BiquadCascade::value`, `cascade.rs:137-139`. -/
def cascadeValue [Zero T] (fs : List (Biquad T)) : T :=
  match fs.getLast? with
  | some f => f.lastOutput
  | none => 0

/-- `BiquadCascade::magnitude_at`, `cascade.rs:91-95`. -/
def cascadeMagnitudeAt [Zero T] [One T] [NatCast T] [Add T] [Mul T] [Div T] [Neg T] [LT T]
    [DecidableLT T] [BEq T] [Fns T] (fs : List (Biquad T)) (frequencyHz : T) : T :=
  fs.foldl (fun carried f => carried * f.coefficients.magnitudeAt frequencyHz) 1

/-- `BiquadCascade::phase_at`, `cascade.rs:109-115`. -/
def cascadePhaseAt [Zero T] [One T] [NatCast T] [Add T] [Sub T] [Mul T] [Neg T] [Fns T]
    (fs : List (Biquad T)) (frequencyHz : T) : T :=
  fs.foldl (fun carried f => carried + f.coefficients.phaseAt frequencyHz) 0

/-- `BiquadCascade::magnitude_in_decibels_at`, `cascade.rs:102-104`. -/
def cascadeMagnitudeInDecibelsAt [Zero T] [One T] [NatCast T] [Add T] [Mul T] [Div T] [Neg T] [LT T]
    [DecidableLT T] [BEq T] [Fns T] (fs : List (Biquad T)) (frequencyHz : T) : T :=
  BiquadCoefficients.decibelsPerNeper * Fns.log (cascadeMagnitudeAt fs frequencyHz)

/-- `BiquadCascade::delay_at`, `cascade.rs:120-125`. -/
def cascadeDelayAt [Zero T] [One T] [NatCast T] [Add T] [Sub T] [Mul T] [Div T] [Neg T] [BEq T] [Fns T]
    (fs : List (Biquad T)) (frequencyHz : T) : T :=
  if frequencyHz == 0 then 0 else -cascadePhaseAt fs frequencyHz / (2 * Fns.pi * frequencyHz)

/-- `BiquadCascade::is_stable`, `cascade.rs:129-133`. -/
def cascadeIsStable [One T] [Add T] [LT T] [DecidableLT T] [Fns T] (fs : List (Biquad T)) : Bool :=
  fs.all fun f => f.coefficients.isStable

/-- `harmonic_notch_coefficients`, `cascade.rs:243-268`; the array is a list. -/
def harmonicNotch [Zero T] [One T] [NatCast T] [Add T] [Sub T] [Mul T] [Div T] [Neg T] [LE T]
    [DecidableLE T] [Fns T] (sections : ℕ) (fundamentalHz qualityFactor timestep : T) :
    Except SignalError (List (BiquadCoefficients T)) :=
  if sections = 0 then .error .windowTooShort
  else
    match BiquadCoefficients.build .notch fundamentalHz qualityFactor timestep with
    | .error e => .error e
    | .ok fundamental =>
      if 1 / 2 ≤ fundamentalHz * (sections : T) * timestep then .error .frequencyOutOfRange
      else
        match ((List.range (sections - 1)).map (· + 1)).mapM (fun (index : ℕ) =>
            BiquadCoefficients.build .notch (fundamentalHz * ((index + 1 : ℕ) : T)) qualityFactor
              timestep) with
        | .error e => .error e
        | .ok rest => .ok (fundamental :: rest)

end Multicalc
