import Verif.Model.Spatial

/-!
# Differential drive, odometry and the unicycle

`crates/multicalc/src/kinematics/{differential_drive,odometry,unicycle}.rs`.
-/

namespace Multicalc

/-- `KinematicsError` (`error.rs:96-131`). -/
inductive KinematicsError where
  | nonPositiveParameter | nonFinite | capacityExceeded | jointCountMismatch | parentOutOfOrder
  | axisHasNoDirection | limitsReversed | toolIndexOutOfRange | stateShapeMismatch
  | nonPositiveWeight | floatingJointNotAtRoot | configurationCapacityExceeded
  | orientationHasNoDirection | continuousJointHasLimits | startCapacityExceeded
  | collisionCapacityExceeded | linalg (e : LinalgError)
  deriving DecidableEq, Repr

/-- `WheelVelocities` and `WheelRotations` (`differential_drive.rs:32-42`): a left and a right value.
One structure stands for both. -/
@[ext] structure Wheels (T : Type) where
  left : T
  right : T

/-- `BodyTwist` (`differential_drive.rs:49-52`). -/
@[ext] structure BodyTwist (T : Type) where
  linear : T
  angular : T

/-- `BodyArc` (`differential_drive.rs:59-62`). -/
@[ext] structure BodyArc (T : Type) where
  linear : T
  angular : T

/-- `DifferentialDrive` (`differential_drive.rs:238-241`). -/
structure DifferentialDrive (T : Type) where
  wheelRadius : T
  wheelbase : T

section

variable {T : Type} [Zero T] [One T] [NatCast T] [Add T] [Sub T] [Mul T] [Div T] [Neg T] [LT T]
  [DecidableLT T] [LE T] [DecidableLE T] [Fns T]

/-- `to_body` (`differential_drive.rs:12-17`). -/
def toBody (wheelRadius wheelbase left right : T) : T × T :=
  (wheelRadius * (right + left) * half, wheelRadius * (right - left) / wheelbase)

/-- `to_wheels` (`differential_drive.rs:22-28`). -/
def toWheels (wheelRadius wheelbase linear angular : T) : T × T :=
  let halfSpan := angular * wheelbase * half
  ((linear - halfSpan) / wheelRadius, (linear + halfSpan) / wheelRadius)

/-- `BodyTwist::to_tangent` (`differential_drive.rs:164-166`). -/
def BodyTwist.toTangent (b : BodyTwist T) : Fin 3 → T := ![b.linear, 0, b.angular]

/-- `BodyTwist::project_tangent` (`differential_drive.rs:175-178`). -/
def BodyTwist.projectTangent (v : Fin 3 → T) : BodyTwist T := ⟨v 0, v 2⟩

/-- `BodyTwist::tangent_slip` (`differential_drive.rs:184-187`). -/
def BodyTwist.tangentSlip (v : Fin 3 → T) : T := v 1

/-- `BodyTwist::integrate_over` (`differential_drive.rs:192-197`). -/
def BodyTwist.integrateOver (b : BodyTwist T) (timestep : T) : BodyArc T :=
  ⟨b.linear * timestep, b.angular * timestep⟩

/-- `DifferentialDrive::new` (`differential_drive.rs:265-277`). -/
def DifferentialDrive.new (wheelRadius wheelbase : T) : Except KinematicsError (DifferentialDrive T) :=
  if !Fns.isFinite wheelRadius || !Fns.isFinite wheelbase then .error .nonFinite
  else if wheelRadius ≤ 0 ∨ wheelbase ≤ 0 then .error .nonPositiveParameter
  else .ok ⟨wheelRadius, wheelbase⟩

/-- `DifferentialDrive::forward` (`differential_drive.rs:296-299`). -/
def DifferentialDrive.forward (d : DifferentialDrive T) (w : Wheels T) : BodyTwist T :=
  let la := toBody d.wheelRadius d.wheelbase w.left w.right
  ⟨la.1, la.2⟩

/-- `DifferentialDrive::inverse` (`differential_drive.rs:304-312`). -/
def DifferentialDrive.inverse (d : DifferentialDrive T) (b : BodyTwist T) : Wheels T :=
  let lr := toWheels d.wheelRadius d.wheelbase b.linear b.angular
  ⟨lr.1, lr.2⟩

/-- `DifferentialDrive::forward_arc` (`differential_drive.rs:317-325`). -/
def DifferentialDrive.forwardArc (d : DifferentialDrive T) (w : Wheels T) : BodyArc T :=
  let la := toBody d.wheelRadius d.wheelbase w.left w.right
  ⟨la.1, la.2⟩

/-- `DifferentialDrive::inverse_arc` (`differential_drive.rs:330-338`). -/
def DifferentialDrive.inverseArc (d : DifferentialDrive T) (a : BodyArc T) : Wheels T :=
  let lr := toWheels d.wheelRadius d.wheelbase a.linear a.angular
  ⟨lr.1, lr.2⟩

/-- `DifferentialDrive::wheel_rotations_from_travel` (`differential_drive.rs:343-345`). -/
def DifferentialDrive.wheelRotationsFromTravel (d : DifferentialDrive T) (leftM rightM : T) : Wheels T :=
  ⟨leftM / d.wheelRadius, rightM / d.wheelRadius⟩

/-- `DifferentialDrive::wheel_travel` (`differential_drive.rs:350-355`). -/
def DifferentialDrive.wheelTravel (d : DifferentialDrive T) (w : Wheels T) : T × T :=
  (w.left * d.wheelRadius, w.right * d.wheelRadius)

/-- `odometry::integrate` (`odometry.rs:30-32`). -/
def odometryIntegrate (pose : SE2 T) (arc : BodyArc T) : SE2 T :=
  pose.compose (SE2.exp ![arc.linear, 0, arc.angular])

/-- `DifferentialDrive::odometry_step` (`differential_drive.rs:360-362`). -/
def DifferentialDrive.odometryStep (d : DifferentialDrive T) (pose : SE2 T) (w : Wheels T) : SE2 T :=
  odometryIntegrate pose (d.forwardArc w)

/-- `OdometryStep::eval` (`odometry.rs:45-51`). -/
def odometryEval (state : Fin 5 → T) : Fin 3 → T :=
  let pose : SE2 T := ⟨SO2.exp (state 2), ![state 0, state 1]⟩
  let next := pose.compose (SE2.exp ![state 3, 0, state 4])
  ![next.translation 0, next.translation 1, next.rotation.log]

/-- `Unicycle::derivative` (`unicycle.rs:40-48`). -/
def unicycleDerivative (twist : BodyTwist T) (state : Fin 3 → T) : Fin 3 → T :=
  let velocity := twist.linear
  let theta := state 2
  ![velocity * Fns.cos theta, velocity * Fns.sin theta, twist.angular]

end

end Multicalc
