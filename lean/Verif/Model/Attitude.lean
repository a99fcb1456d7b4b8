import Verif.Model.Spatial
import Verif.Model.Kalman

/-!
# Attitude integration and complementary attitude filters

Models `crates/multicalc/src/ode/exponential_map.rs` and
`crates/multicalc/src/estimation/{attitude_correction,mahony_filter,madgwick_filter}.rs`.
-/

namespace Multicalc

variable {T : Type} [Zero T] [One T] [NatCast T] [Add T] [Sub T] [Neg T] [Mul T] [Div T] [LT T] [LE T] [BEq T]
  [DecidableLT T] [DecidableLE T] [Max T] [Min T] [Fns T]

/-- `ExponentialMap::attitude_step`, `exponential_map.rs:53-59`. -/
def attitudeStep (orientation : SO3 T) (angularRate : Fin 3 → T) (timestep : T) : SO3 T :=
  orientation.compose (SO3.exp (vscaleBy angularRate timestep))

/-- `attitude_step_with_angular_acceleration`, `exponential_map.rs:89-97`. -/
def attitudeStepWithAngularAcceleration (orientation : SO3 T) (angularRate angularAcceleration : Fin 3 → T)
    (timestep : T) : SO3 T :=
  let halfWayRate := vadd angularRate (vscaleBy angularAcceleration (timestep * half))
  orientation.compose (SO3.exp (vscaleBy halfWayRate timestep))

/-- One pass of `integrate_attitude`, `exponential_map.rs:156-166`. -/
def integrateAttitudeStep (rateAt : T → SO3 T → Fin 3 → T) (timestep time : T) (orientation : SO3 T) :
    Except IntegrateError (T × SO3 T) :=
  let rateAtStart := rateAt time orientation
  if !vecIsFinite rateAtStart then .error .nonFinite
  else
    let halfWay := attitudeStep orientation rateAtStart (timestep * half)
    let halfWayRate := rateAt (time + timestep * half) halfWay
    if !vecIsFinite halfWayRate then .error .nonFinite
    else .ok (time + timestep, attitudeStep orientation halfWayRate timestep)

/-- The loop of `integrate_attitude`, `exponential_map.rs:155-169`, with what the observer sees. -/
def integrateAttitudeLoop (rateAt : T → SO3 T → Fin 3 → T) (timestep : T) :
    ℕ → T → SO3 T → List (T × SO3 T) × Except IntegrateError (SO3 T)
  | 0, _, orientation => ([], .ok orientation)
  | steps + 1, time, orientation =>
    match integrateAttitudeStep rateAt timestep time orientation with
    | .error e => ([], .error e)
    | .ok next =>
      let rest := integrateAttitudeLoop rateAt timestep steps next.1 next.2
      (next :: rest.1, rest.2)

/-- `ExponentialMap::integrate_attitude`, `exponential_map.rs:132-170`, with what the observer sees. -/
def integrateAttitude (rateAt : T → SO3 T → Fin 3 → T) (timeStart : T) (start : SO3 T) (timestep : T) (steps : ℕ) :
    List (T × SO3 T) × Except IntegrateError (SO3 T) :=
  if !Fns.isFinite timestep then ([], .error .nonFinite)
  else if timestep ≤ 0 then ([], .error .nonPositiveTimestep)
  else
    let rest := integrateAttitudeLoop rateAt timestep steps timeStart start
    ((timeStart, start) :: rest.1, rest.2)

/-- `readings_are_finite`, `attitude_correction.rs:22-32`. -/
def readingsAreFinite (gyroscope accelerometer : Fin 3 → T) (magnetometer : Option (Fin 3 → T)) (timestep : T) :
    Bool :=
  vecIsFinite gyroscope && vecIsFinite accelerometer && Fns.isFinite timestep
    && (match magnetometer with
      | none => true
      | some m => vecIsFinite m)

/-- `orientation_is_finite`, `attitude_correction.rs:36-39`. -/
def orientationIsFinite (orientation : SO3 T) : Bool :=
  let q := orientation.quaternion
  Fns.isFinite q.w && Fns.isFinite q.x && Fns.isFinite q.y && Fns.isFinite q.z

/-- The accelerometer's share, `attitude_correction.rs:62-64`. -/
def gravityCorrection (orientation : SO3 T) (accelerometer upward : Fin 3 → T) : Fin 3 → T :=
  match vtryNormalized accelerometer with
  | some measured => vadd (fun _ => 0) (cross measured (orientation.inverse.act upward))
  | none => fun _ => 0

/-- `correction`, `attitude_correction.rs:53-81`. -/
def attitudeCorrection (orientation : SO3 T) (accelerometer : Fin 3 → T) (magnetometer : Option (Fin 3 → T))
    (upward north : Fin 3 → T) : Fin 3 → T :=
  let total := gravityCorrection orientation accelerometer upward
  match magnetometer.bind vtryNormalized with
  | some measured =>
    let inWorld := orientation.act measured
    let vertical := vdot inWorld upward
    let across := 1 - vertical * vertical
    let horizontal := if 0 < across then Fns.sqrt across else 0
    let reference := vadd (vscaleBy north horizontal) (vscaleBy upward vertical)
    vadd total (cross measured (orientation.inverse.act reference))
  | none => total

/-- `stepped_orientation`, `attitude_correction.rs:89-95`. -/
def steppedOrientation (orientation : SO3 T) (correctedRate : Fin 3 → T) (timestep : T) : SO3 T :=
  (attitudeStep orientation correctedRate timestep).normalized

/-- `MahonyFilter`, `mahony_filter.rs:61-74`. -/
structure MahonyFilter (T : Type) where
  orientation : SO3 T
  gyroscopeBias : Fin 3 → T
  proportionalGain : T
  integralGain : T
  upwardReference : Fin 3 → T
  northReference : Fin 3 → T

/-- `MadgwickFilter`, `madgwick_filter.rs:64-77`. -/
structure MadgwickFilter (T : Type) where
  orientation : SO3 T
  gyroscopeBias : Fin 3 → T
  correctionGain : T
  biasGain : T
  upwardReference : Fin 3 → T
  northReference : Fin 3 → T

/-- `with_reference_directions`, `mahony_filter.rs:114-129` and `madgwick_filter.rs:118-133`: the new upward and north
references, or the old ones. -/
def referenceDirections (oldUpward oldNorth upwardReference northReference : Fin 3 → T) :
    (Fin 3 → T) × (Fin 3 → T) :=
  match vtryNormalized upwardReference with
  | none => (oldUpward, oldNorth)
  | some upward =>
    match vtryNormalized (vsub northReference (vscaleBy upward (vdot northReference upward))) with
    | none => (oldUpward, oldNorth)
    | some north => (upward, north)

namespace MahonyFilter

/-- `MahonyFilter::new`, `mahony_filter.rs:83-92`. -/
def new (initial : SO3 T) : MahonyFilter T :=
  ⟨initial, fun _ => 0, 1, Fns.lit (1 / 10), ![0, 0, 1], ![1, 0, 0]⟩

/-- `with_reference_directions`, `mahony_filter.rs:114-129`. -/
def withReferenceDirections (f : MahonyFilter T) (upward north : Fin 3 → T) : MahonyFilter T :=
  let r := referenceDirections f.upwardReference f.northReference upward north
  { f with upwardReference := r.1, northReference := r.2 }

/-- `MahonyFilter::step`, `mahony_filter.rs:149-187`; `step_without_magnetometer` passes `none`. -/
def step (f : MahonyFilter T) (gyroscope accelerometer : Fin 3 → T) (magnetometer : Option (Fin 3 → T))
    (timestep : T) : MahonyFilter T × Except EstimationError Unit :=
  if !readingsAreFinite gyroscope accelerometer magnetometer timestep then (f, .error .nonFinite)
  else
    let correction := attitudeCorrection f.orientation accelerometer magnetometer f.upwardReference f.northReference
    let gyroscopeBias := vsub f.gyroscopeBias (vscaleBy (vscaleBy correction f.integralGain) timestep)
    let correctedRate := vadd (vsub gyroscope gyroscopeBias) (vscaleBy correction f.proportionalGain)
    let orientation := steppedOrientation f.orientation correctedRate timestep
    if !vecIsFinite gyroscopeBias || !orientationIsFinite orientation then (f, .error .nonFinite)
    else ({ f with gyroscopeBias, orientation }, .ok ())

end MahonyFilter

namespace MadgwickFilter

/-- `MadgwickFilter::new`, `madgwick_filter.rs:86-95`. -/
def new (initial : SO3 T) : MadgwickFilter T :=
  ⟨initial, fun _ => 0, Fns.lit (1 / 10), Fns.lit (1 / 100), ![0, 0, 1], ![1, 0, 0]⟩

/-- `with_reference_directions`, `madgwick_filter.rs:118-133`. -/
def withReferenceDirections (f : MadgwickFilter T) (upward north : Fin 3 → T) : MadgwickFilter T :=
  let r := referenceDirections f.upwardReference f.northReference upward north
  { f with upwardReference := r.1, northReference := r.2 }

/-- `MadgwickFilter::step`, `madgwick_filter.rs:153-192`; `step_without_magnetometer` passes `none`. -/
def step (f : MadgwickFilter T) (gyroscope accelerometer : Fin 3 → T) (magnetometer : Option (Fin 3 → T))
    (timestep : T) : MadgwickFilter T × Except EstimationError Unit :=
  if !readingsAreFinite gyroscope accelerometer magnetometer timestep then (f, .error .nonFinite)
  else
    let correction := attitudeCorrection f.orientation accelerometer magnetometer f.upwardReference f.northReference
    let direction := (vtryNormalized correction).getD fun _ => 0
    let gyroscopeBias := vsub f.gyroscopeBias (vscaleBy (vscaleBy direction f.biasGain) timestep)
    let correctedRate := vadd (vsub gyroscope gyroscopeBias) (vscaleBy direction f.correctionGain)
    let orientation := steppedOrientation f.orientation correctedRate timestep
    if !vecIsFinite gyroscopeBias || !orientationIsFinite orientation then (f, .error .nonFinite)
    else ({ f with gyroscopeBias, orientation }, .ok ())

end MadgwickFilter
end Multicalc
