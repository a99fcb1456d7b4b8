import Verif.Model.Attitude

/-!
# A free rigid body

Models `crates/multicalc/src/dynamics/rigid_body.rs`.
-/

namespace Multicalc

variable {T : Type} [Zero T] [One T] [NatCast T] [Add T] [Sub T] [Neg T] [Mul T] [Div T] [LT T] [LE T] [BEq T]
  [DecidableLT T] [DecidableLE T] [Max T] [Min T] [Fns T]

/-- `DynamicsError`, `error.rs:249-256`. -/
inductive DynamicsError where
  | nonFinite
  | nonPositiveInertia
  | linalg (e : LinalgError)

/-- `SpatialInertia::is_finite`, `inertia.rs:322-326`. -/
def SpatialInertia.isFinite (b : SpatialInertia T) : Bool :=
  Fns.isFinite b.mass && vecIsFinite b.centerOfMass && mIsFinite b.rotationalInertia

/-- `RigidBody`, `rigid_body.rs:47-51`. -/
structure RigidBody (T : Type) where
  inertia : SpatialInertia T
  inverseRotationalInertia : Matrix (Fin 3) (Fin 3) T
  gravity : Fin 3 → T

/-- `RigidBodyAcceleration`, `rigid_body.rs:382-385`. -/
structure RigidBodyAcceleration (T : Type) where
  linear : Fin 3 → T
  angular : Fin 3 → T

namespace RigidBody

/-- `RigidBody::new`, `rigid_body.rs:62-76`.  `largest` is the largest finite number, which only the inverse of
matrices larger than four by four looks at. -/
def new (largest : T) (inertia : SpatialInertia T) (gravity : Fin 3 → T) : Except DynamicsError (RigidBody T) :=
  if !inertia.isFinite || !vecIsFinite gravity then .error .nonFinite
  else
    match cholesky inertia.rotationalInertia with
    | .error _ => .error .nonPositiveInertia
    | .ok _ =>
      match minverse largest inertia.rotationalInertia with
      | .error e => .error (.linalg e)
      | .ok inverse => .ok ⟨inertia, inverse, gravity⟩

/-- `RigidBody::accelerations`, `rigid_body.rs:137-164`. -/
def accelerations (b : RigidBody T) (orientation : SO3 T) (angularRate : Fin 3 → T) (appliedWrench : Wrench T) :
    RigidBodyAcceleration T :=
  let mass := b.inertia.mass
  let balancePoint := b.inertia.centerOfMass
  let rotationalInertia := b.inertia.rotationalInertia
  let force := appliedWrench.force
  let turnAboutBalancePoint := vsub appliedWrench.torque (cross balancePoint force)
  let spinResistance := cross angularRate (mmulVec rotationalInertia angularRate)
  let angular := mmulVec b.inverseRotationalInertia (vsub turnAboutBalancePoint spinResistance)
  let balancePointAcceleration := vadd (vscaleBy (orientation.act force) (1 / mass)) b.gravity
  let swing := vadd (cross angular balancePoint) (cross angularRate (cross angularRate balancePoint))
  ⟨vsub balancePointAcceleration (orientation.act swing), angular⟩

/-- `RigidBody::stepped`, `rigid_body.rs:220-252`. -/
def stepped (b : RigidBody T) (state : FreeJointState T) (appliedWrench : Wrench T) (timestep : T) :
    FreeJointState T :=
  let orientation := state.pose.rotation
  let position := state.pose.translation
  let linearVelocity := state.velocity.linear
  let angularRate := state.velocity.angular
  let halfStep := timestep * half
  let atStart := b.accelerations orientation angularRate appliedWrench
  let halfWayOrientation := attitudeStep orientation angularRate halfStep
  let halfWayLinearVelocity := vadd linearVelocity (vscaleBy atStart.linear halfStep)
  let halfWayAngularRate := vadd angularRate (vscaleBy atStart.angular halfStep)
  let halfWay := b.accelerations halfWayOrientation halfWayAngularRate appliedWrench
  ⟨⟨attitudeStep orientation halfWayAngularRate timestep, vadd position (vscaleBy halfWayLinearVelocity timestep)⟩,
    ⟨vadd linearVelocity (vscaleBy halfWay.linear timestep), vadd angularRate (vscaleBy halfWay.angular timestep)⟩⟩

/-- `RigidBody::state_derivative`, `rigid_body.rs:307-335`. -/
def stateDerivative (b : RigidBody T) (state : Fin 13 → T) (appliedWrench : Wrench T) : Fin 13 → T :=
  let stored : Quat T := ⟨state 3, state 4, state 5, state 6⟩
  match stored.tryNormalized with
  | none => fun _ => 0
  | some unit =>
    let angularRate : Fin 3 → T := ![state 10, state 11, state 12]
    let acceleration := b.accelerations (SO3.fromQuaternion unit) angularRate appliedWrench
    let w := stored.w
    let x := stored.x
    let y := stored.y
    let z := stored.z
    let rateX := angularRate 0
    let rateY := angularRate 1
    let rateZ := angularRate 2
    ![state 7, state 8, state 9,
      half * (-x * rateX - y * rateY - z * rateZ),
      half * (w * rateX + y * rateZ - z * rateY),
      half * (w * rateY + z * rateX - x * rateZ),
      half * (w * rateZ + x * rateY - y * rateX),
      acceleration.linear 0, acceleration.linear 1, acceleration.linear 2,
      acceleration.angular 0, acceleration.angular 1, acceleration.angular 2]

end RigidBody

/-- `state_vector_from_free_joint`, `rigid_body.rs:343-355`. -/
def stateVectorFromFreeJoint (state : FreeJointState T) : Fin 13 → T := fun index =>
  if h : index.val < 7 then state.generalizedPosition ⟨index.val, h⟩
  else state.generalizedVelocity ⟨index.val - 7, by omega⟩

/-- `free_joint_from_state_vector`, `rigid_body.rs:363-375`. -/
def freeJointFromStateVector (state : Fin 13 → T) : Option (FreeJointState T) :=
  FreeJointState.fromGeneralizedVectors (fun index => state ⟨index.val, by omega⟩)
    (fun index => state ⟨index.val + 7, by omega⟩)

end Multicalc
