import Verif.Model.Pid
import Verif.Model.Spatial
import Verif.Model.Ode

/-!
# Attitude control on rotations, and thrust commands

Models `crates/multicalc/src/control/geometric_attitude.rs` and `control/thrust_command.rs`.
-/

namespace Multicalc

section
variable {T : Type} [Zero T] [One T] [NatCast T] [Add T] [Sub T] [Mul T] [Div T] [Neg T] [LT T] [DecidableLT T]
  [LE T] [DecidableLE T] [BEq T] [Max T] [Fns T]

/-- `GeometricAttitudeController`, `geometric_attitude.rs:42-46`; the accessors (`:125-142`) read the fields. -/
structure GeometricAttitude (T : Type) where
  attitudeGain : T
  rateGain : T
  inertia : Matrix (Fin 3) (Fin 3) T

/-- `new`, `geometric_attitude.rs:59-77`. -/
def GeometricAttitude.new (attitudeGain rateGain : T) (inertia : Matrix (Fin 3) (Fin 3) T) :
    Except ControlError (GeometricAttitude T) :=
  if !Fns.isFinite attitudeGain || !Fns.isFinite rateGain || !mIsFinite inertia then .error .nonFinite
  else if attitudeGain ≤ 0 ∨ rateGain ≤ 0 then .error .nonPositiveGain
  else if !isSymmetric inertia then .error .notSymmetricInertia
  else
    match cholesky inertia with
    | .error _ => .error .nonPositiveInertia
    | .ok _ => .ok ⟨attitudeGain, rateGain, inertia⟩

/-- `attitude_error`, `geometric_attitude.rs:87-90`. -/
def GeometricAttitude.attitudeError (attitude desired : SO3 T) : Fin 3 → T :=
  let relative := mmul (mtranspose attitude.toMatrix) desired.toMatrix
  vscale (SO3.vee (msub (mtranspose relative) relative)) half

/-- `torque`, `geometric_attitude.rs:97-122`. -/
def GeometricAttitude.torque (c : GeometricAttitude T) (attitude : SO3 T) (bodyRate : Fin 3 → T) (desired : SO3 T)
    (desiredRate desiredRateDerivative : Fin 3 → T) : Fin 3 → T :=
  let relative := mmul (mtranspose attitude.toMatrix) desired.toMatrix
  let attitudeError := vscale (SO3.vee (msub (mtranspose relative) relative)) half
  let carriedRate := mmulVec relative desiredRate
  let carriedRateChange := mmulVec relative desiredRateDerivative
  let rateError := vsub bodyRate carriedRate
  let spinResistance := cross bodyRate (mmulVec c.inertia bodyRate)
  let following := mmulVec c.inertia (vsub (cross bodyRate carriedRate) carriedRateChange)
  vsub (vadd (vsub (vscale attitudeError (-c.attitudeGain)) (vscale rateError c.rateGain)) spinResistance) following

/-- `ThrustCommand`, `thrust_command.rs:17-20`. -/
structure ThrustCommand (T : Type) where
  attitude : SO3 T
  thrustAcceleration : T

/-- `thrust_force`, `thrust_command.rs:38-42`. -/
def ThrustCommand.thrustForce (c : ThrustCommand T) (mass : T) : T := c.thrustAcceleration * mass

/-- `thrust_command_from_acceleration`, `thrust_command.rs:87-127`. -/
def thrustCommandFromAcceleration (accelerationCommand : Fin 3 → T) (desiredHeading gravity : T) :
    Except ControlError (ThrustCommand T) :=
  if !vecIsFinite accelerationCommand || !Fns.isFinite desiredHeading || !Fns.isFinite gravity then .error .nonFinite
  else
    let push := vadd accelerationCommand ![0, 0, gravity]
    match vtryNormalized push with
    | none => .error .undefinedThrustDirection
    | some up =>
      match vtryNormalized (cross up ![Fns.cos desiredHeading, Fns.sin desiredHeading, 0]) with
      | none => .error .undefinedHeadingDirection
      | some side =>
        let forward := cross side up
        let rotation : Matrix (Fin 3) (Fin 3) T :=
          !![forward 0, side 0, up 0; forward 1, side 1, up 1; forward 2, side 2, up 2]
        match SO3.tryFromMatrix rotation with
        | none => .error .nonFinite
        | some attitude => .ok ⟨attitude, vnorm push⟩

end
end Multicalc
