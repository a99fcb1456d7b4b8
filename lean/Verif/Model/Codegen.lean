import Verif.Model.RobotModel

/-!
# Writing a robot out as Rust source

`crates/multicalc-robot-model/src/codegen.rs`.

The emitted text is represented by what it says: one statement per joint, the numbers written in it, the comment above
it, and the two capacities.  `run` gives the emitted function its meaning, statement by statement.  What is trusted is
that a number written with `{:?}` reads back as itself when it is finite, and that the fixed text around the numbers is
Rust; a number that is not finite is written `inf` or `NaN`, which is not Rust, and `Source.compiles` says so.  The two
element types are that of the model (`T`, `f64` in Rust) and that of the emitted function (`S`); `narrow` is the `as`
conversion of `GeneratedScalar::format` (`codegen.rs:33-38`), the identity for `GeneratedScalar::F64`.
-/

namespace Multicalc

/-- `RustSourceOptions` (`codegen.rs:43-51`) without the words that only change comments and the function's name;
the scalar is `narrow`. -/
structure RustSourceOptions (T S : Type) where
  narrow : T → S
  capacity : ℕ
  configurationCapacity : ℕ
  tip : Option String

/-- The joint expression of one statement (`codegen.rs:275-321`): the two arguments of `pose`, and for a joint that
moves its constructor, its axis and the builder calls, of which `with_anchor` and `with_limits` may be absent. -/
inductive JointExpression (S : Type) where
  | fixed (translation : Fin 3 → S) (quaternion : Quat S)
  | floating (translation : Fin 3 → S) (quaternion : Quat S)
  | movable (kind : JointKind) (axis : Fin 3 → S) (translation : Fin 3 → S) (quaternion : Quat S)
      (anchor : Option (Fin 3 → S)) (limits : Option (S × S)) (zeroOffset armature damping frictionLoss : S)

/-- One `tree.push(..)` with the comment line above it (`codegen.rs:274-329`). -/
structure PushStatement (S : Type) where
  comment : String
  joint : JointExpression S
  parent : JointParent

/-- The emitted function (`codegen.rs:206-221`). -/
structure Source (S : Type) where
  capacity : ℕ
  configurationCapacity : ℕ
  pushes : List (PushStatement S)

namespace Codegen

variable {T S : Type}

/-- Four numbers written with `format` (`codegen.rs:262-265`). -/
def narrowQuat (narrow : T → S) (q : Quat T) : Quat S := ⟨narrow q.w, narrow q.x, narrow q.y, narrow q.z⟩

/-- `render_push` (`codegen.rs:247-329`). -/
def renderPush (narrow : T → S) (name : String) (joint : Joint T) (parent : JointParent) : PushStatement S :=
  let translation := fun i => narrow (joint.origin.translation i)
  let quaternion := narrowQuat narrow joint.origin.rotation.quaternion
  let expression := match joint.kind with
    | .fixed => .fixed translation quaternion
    | .floating => .floating translation quaternion
    | kind => .movable kind (fun i => narrow (joint.axis i)) translation quaternion
        (if kind = .revolute ∨ kind = .continuous then some fun i => narrow (joint.anchor i) else none)
        (joint.limits.map fun limits => (narrow limits.1, narrow limits.2))
        (narrow joint.zeroOffset) (narrow joint.armature) (narrow joint.damping) (narrow joint.frictionLoss)
  ⟨name, expression, parent⟩

/-- `render` (`codegen.rs:175-245`): the joints, the parents and the names side by side. -/
def render (narrow : T → S) (joints : List (Joint T)) (parents : List JointParent) (names : List String)
    (capacity configurationCapacity : ℕ) : Source S :=
  ⟨capacity, configurationCapacity,
    ((joints.zip parents).zip names).map fun entry => renderPush narrow entry.2 entry.1.1 entry.1.2⟩

/-- `VALIDATION_CAPACITY` (`codegen.rs:12`). -/
def validationCapacity : ℕ := 128

/-- `VALIDATION_CONFIGURATION_CAPACITY` (`codegen.rs:14`). -/
def validationConfigurationCapacity : ℕ := validationCapacity + 6

section Emit

variable [Zero T] [One T] [NatCast T] [Add T] [Sub T] [Mul T] [Div T] [Neg T] [LT T]
  [DecidableLT T] [LE T] [DecidableLE T] [BEq T] [Fns T]

/-- The bodies to write, `codegen.rs:127-130`. -/
def slotsOf (bodies : List (BodyDescription T)) : Option String → Except ModelError (List ℕ)
  | some tip => RobotModel.pathTo bodies tip
  | none => .ok (List.range bodies.length)

/-- `to_rust_source` (`codegen.rs:126-171`). -/
def toRustSource (bodies : List (BodyDescription T)) (floatingBase : Bool) (options : RustSourceOptions T S) :
    Except ModelError (Source S) := do
  let slots ← slotsOf bodies options.tip
  RobotModel.rejectMimicJoints bodies slots
  let capacity := if options.capacity = 0 then slots.length else options.capacity
  if capacity < slots.length then
    .error (.treeCapacityExceeded slots.length capacity)
  let configurationCapacity :=
    if options.configurationCapacity = 0 then capacity + (if floatingBase then 6 else 0)
    else options.configurationCapacity
  let pairs ← RobotModel.jointsAndParents bodies slots
  match KinematicTree.tryFromJoints (maxJoints := validationCapacity)
      (maxConfig := validationConfigurationCapacity) (pairs.map Prod.fst) (pairs.map Prod.snd) with
  | .error e => .error (.kinematics e)
  | .ok _ =>
    match slots.mapM fun index => bodies[index]? with
    | none => .error .panics
    | some chain => .ok (render options.narrow (pairs.map Prod.fst) (pairs.map Prod.snd) (chain.map (·.name))
        capacity configurationCapacity)

end Emit

section Run

variable [Zero S] [One S] [NatCast S] [Add S] [Sub S] [Mul S] [Div S] [Neg S] [LT S]
  [DecidableLT S] [LE S] [DecidableLE S] [BEq S] [Fns S]

/-- The emitted `pose` (`codegen.rs:229-241`); `none` is its `unreachable!`. -/
def pose (translation : Fin 3 → S) (quaternion : Quat S) : Option (SE3 S) :=
  match quaternion.tryNormalized with
  | none => none
  | some turn => some ⟨SO3.fromQuaternion turn, translation⟩

/-- The value of a joint expression: the constructors and the builder calls of `joint.rs:79-254`. -/
def evaluate : JointExpression S → Option (Joint S)
  | .fixed translation quaternion => (pose translation quaternion).map Joint.fixed
  | .floating translation quaternion => (pose translation quaternion).map Joint.floating
  | .movable kind axis translation quaternion anchor limits zeroOffset armature damping frictionLoss =>
    (pose translation quaternion).map fun origin =>
      let joint := Joint.fromKind kind axis origin
      let joint := match anchor with | some anchor => { joint with anchor := anchor } | none => joint
      let joint := match limits with | some limits => { joint with limits := some limits } | none => joint
      { joint with zeroOffset := zeroOffset, armature := armature, damping := damping, frictionLoss := frictionLoss }

/-- One statement: `unreachable!` where the push is refused (`codegen.rs:325-328`). -/
def runPush {maxJoints maxConfig : ℕ} (tree : KinematicTree maxJoints maxConfig S) (statement : PushStatement S) :
    Option (KinematicTree maxJoints maxConfig S) :=
  match evaluate statement.joint with
  | none => none
  | some joint =>
    match tree.push joint statement.parent with
    | .error _ => none
    | .ok tree => some tree

/-- Calling the emitted function (`codegen.rs:206-221`); `none` is a panic. -/
def run (source : Source S) : Option (KinematicTree source.capacity source.configurationCapacity S) :=
  source.pushes.foldlM runPush KinematicTree.new

end Run

section Compiles

variable [Fns S]

/-- The numbers a joint expression writes. -/
def numbers : JointExpression S → List S
  | .fixed t q => [t 0, t 1, t 2, q.w, q.x, q.y, q.z]
  | .floating t q => [t 0, t 1, t 2, q.w, q.x, q.y, q.z]
  | .movable _ axis t q anchor limits zeroOffset armature damping frictionLoss =>
    [axis 0, axis 1, axis 2, t 0, t 1, t 2, q.w, q.x, q.y, q.z] ++
      (match anchor with | some a => [a 0, a 1, a 2] | none => []) ++
      (match limits with | some (lower, upper) => [lower, upper] | none => []) ++
      [zeroOffset, armature, damping, frictionLoss]

/-- Every number written is a Rust literal (see the head of this file). -/
def compiles (source : Source S) : Prop :=
  ∀ statement ∈ source.pushes, ∀ x ∈ numbers statement.joint, Fns.isFinite x = true

end Compiles

end Codegen
end Multicalc
