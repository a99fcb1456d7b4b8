import Verif.Model.Drive

/-!
# Joints, kinematic trees, forward kinematics and the geometric Jacobian

`crates/multicalc/src/kinematics/{joint,kinematic_tree,kinematic_tree_state,kinematic_jacobian}.rs`.

The Rust tree holds two arrays of `MAX_JOINTS` entries and a length; the model holds the list of the
first `length` entries, the rest being unreachable.  A configuration `Vector<MAX_CONFIG, T>` is a
function on `Fin maxConfig`, and reading it outside its range gives `none` as `Vector::get` does.
-/

namespace Multicalc

/-- `JointKind` (`joint.rs:10-21`). -/
inductive JointKind where
  | revolute | prismatic | continuous | fixed | floating
  deriving DecidableEq, Repr

/-- `JointParent` (`joint.rs:25-30`). -/
inductive JointParent where
  | world
  | joint (index : ℕ)
  deriving DecidableEq, Repr

/-- The parent test of `push` (`kinematic_tree.rs:184-186`). -/
def JointParent.outOfOrder (p : JointParent) (length : ℕ) : Bool :=
  match p with
  | .joint index => decide (length ≤ index)
  | .world => false

/-- `Joint` (`joint.rs:45-55`). -/
structure Joint (T : Type) where
  kind : JointKind
  axis : Fin 3 → T
  anchor : Fin 3 → T
  origin : SE3 T
  zeroOffset : T
  limits : Option (T × T)
  armature : T
  damping : T
  frictionLoss : T

/-- `KinematicTree` (`kinematic_tree.rs:39-46`). -/
structure KinematicTree (maxJoints maxConfig : ℕ) (T : Type) where
  joints : List (Joint T × JointParent)

/-- `KinematicTreeState` (`kinematic_tree_state.rs:13-18`). -/
structure KinematicTreeState (T : Type) where
  poses : ℕ → SE3 T
  length : ℕ

/-- `JacobianFrame` (`kinematic_jacobian.rs:14-20`). -/
inductive JacobianFrame where
  | world | body
  deriving DecidableEq, Repr

/-- `KinematicJacobian` (`kinematic_jacobian.rs:76-83`). -/
structure KinematicJacobian (maxConfig : ℕ) (T : Type) where
  entries : Matrix (Fin 6) (Fin maxConfig) T
  columns : ℕ
  frame : JacobianFrame

/-- `KinematicTreeState::pose` (`kinematic_tree_state.rs:44-49`). -/
def KinematicTreeState.pose {T : Type} (s : KinematicTreeState T) (index : ℕ) : Option (SE3 T) :=
  if s.length ≤ index then none else some (s.poses index)

namespace KinematicTree

variable {maxJoints maxConfig : ℕ} {T : Type}

/-- `KinematicTree::new` (`kinematic_tree.rs:65-71`). -/
def new : KinematicTree maxJoints maxConfig T := ⟨[]⟩

/-- `KinematicTree::len` (`kinematic_tree.rs:253-255`). -/
def len (t : KinematicTree maxJoints maxConfig T) : ℕ := t.joints.length

/-- `KinematicTree::joint` (`kinematic_tree.rs:267-272`). -/
def joint (t : KinematicTree maxJoints maxConfig T) (index : ℕ) : Option (Joint T) :=
  t.joints[index]?.map Prod.fst

/-- `KinematicTree::parent` (`kinematic_tree.rs:277-282`). -/
def parent (t : KinematicTree maxJoints maxConfig T) (index : ℕ) : Option JointParent :=
  t.joints[index]?.map Prod.snd

/-- `KinematicTree::has_floating_base` (`kinematic_tree.rs:94-100`). -/
def hasFloatingBase (t : KinematicTree maxJoints maxConfig T) : Bool :=
  match t.joints with
  | [] => false
  | first :: _ => first.1.kind == .floating

/-- `KinematicTree::config_offset` (`kinematic_tree.rs:109-118`). -/
def configOffset (t : KinematicTree maxJoints maxConfig T) (index : ℕ) : Option ℕ :=
  if t.len ≤ index then none
  else if t.hasFloatingBase && decide (0 < index) then some (index + 6) else some index

/-- `KinematicTree::velocity_offset` (`kinematic_tree.rs:127-136`). -/
def velocityOffset (t : KinematicTree maxJoints maxConfig T) (index : ℕ) : Option ℕ :=
  if t.len ≤ index then none
  else if t.hasFloatingBase && decide (0 < index) then some (index + 5) else some index

/-- `KinematicTree::config_len` (`kinematic_tree.rs:142-150`). -/
def configLen (t : KinematicTree maxJoints maxConfig T) : ℕ :=
  if t.len = 0 then 0 else if t.hasFloatingBase then t.len + 6 else t.len

/-- `KinematicTree::velocity_len` (`kinematic_tree.rs:156-164`). -/
def velocityLen (t : KinematicTree maxJoints maxConfig T) : ℕ :=
  if t.len = 0 then 0 else if t.hasFloatingBase then t.len + 5 else t.len

/-- `Vector::get` on a configuration. -/
def reading (c : Fin maxConfig → T) (k : ℕ) : Option T :=
  if h : k < maxConfig then some (c ⟨k, h⟩) else none

/-- How many configuration slots a joint takes (`kinematic_tree.rs:227-231`, `336-340`). -/
def _root_.Multicalc.Joint.width (j : Joint T) : ℕ := if j.kind = .floating then 7 else 1

variable [Zero T] [One T] [NatCast T] [Add T] [Sub T] [Mul T] [Div T] [Neg T] [LT T]
  [DecidableLT T] [LE T] [DecidableLE T] [BEq T] [Fns T]

/-- `Joint::from_kind` (`joint.rs:191-203`), which `revolute`, `continuous` and `prismatic` call. -/
def _root_.Multicalc.Joint.fromKind (kind : JointKind) (axis : Fin 3 → T) (origin : SE3 T) : Joint T :=
  ⟨kind, axis, fun _ => 0, origin, 0, none, 0, 0, 0⟩

/-- `Joint::fixed` (`joint.rs:145-151`). -/
def _root_.Multicalc.Joint.fixed (origin : SE3 T) : Joint T := Joint.fromKind .fixed ![1, 0, 0] origin

/-- `Joint::floating` (`joint.rs:175-181`). -/
def _root_.Multicalc.Joint.floating (origin : SE3 T) : Joint T :=
  Joint.fromKind .floating ![1, 0, 0] origin

/-- The finiteness test of `push` (`kinematic_tree.rs:192-204`). -/
def _root_.Multicalc.Joint.isFinite (j : Joint T) : Bool :=
  vecIsFinite j.origin.translation &&
    (Fns.isFinite j.origin.rotation.quaternion.w && Fns.isFinite j.origin.rotation.quaternion.x &&
      Fns.isFinite j.origin.rotation.quaternion.y && Fns.isFinite j.origin.rotation.quaternion.z) &&
    vecIsFinite j.axis && vecIsFinite j.anchor && Fns.isFinite j.zeroOffset &&
    Fns.isFinite j.armature && Fns.isFinite j.damping && Fns.isFinite j.frictionLoss

/-- The limits test of `push` (`kinematic_tree.rs:205-212`). -/
def _root_.Multicalc.Joint.checkLimits (j : Joint T) : Except KinematicsError Unit :=
  match j.limits with
  | none => .ok ()
  | some (lower, upper) =>
    if Fns.isFinite lower = false ∨ Fns.isFinite upper = false then .error .nonFinite
    else if upper < lower then .error .limitsReversed
    else .ok ()

/-- The axis step of `push` (`kinematic_tree.rs:217-225`). -/
def _root_.Multicalc.Joint.normalizeAxis (j : Joint T) : Except KinematicsError (Joint T) :=
  match j.kind with
  | .fixed => .ok j
  | .floating => .ok j
  | _ =>
    match vtryNormalized j.axis with
    | none => .error .axisHasNoDirection
    | some axis => .ok { j with axis := axis }

/-- `KinematicTree::push` (`kinematic_tree.rs:179-248`).  An error leaves the Rust tree as it was, so
the model returns only the error. -/
def push (t : KinematicTree maxJoints maxConfig T) (j : Joint T) (parent : JointParent) :
    Except KinematicsError (KinematicTree maxJoints maxConfig T) :=
  if t.len = maxJoints then .error .capacityExceeded
  else if parent.outOfOrder t.len = true then .error .parentOutOfOrder
  else if j.kind = .floating ∧ (t.len ≠ 0 ∨ parent ≠ .world) then .error .floatingJointNotAtRoot
  else if j.isFinite = false then .error .nonFinite
  else
    match j.checkLimits with
    | .error e => .error e
    | .ok _ =>
      if j.kind = .continuous ∧ j.limits.isSome then .error .continuousJointHasLimits
      else
        match j.normalizeAxis with
        | .error e => .error e
        | .ok j =>
          if maxConfig < t.configLen + j.width then .error .configurationCapacityExceeded
          else .ok ⟨t.joints ++ [(j, parent)]⟩

/-- `KinematicTree::try_from_joints` (`kinematic_tree.rs:77-89`). -/
def tryFromJoints (joints : List (Joint T)) (parents : List JointParent) :
    Except KinematicsError (KinematicTree maxJoints maxConfig T) :=
  if joints.length ≠ parents.length then .error .jointCountMismatch
  else (joints.zip parents).foldlM (fun t p => t.push p.1 p.2) new

/-- The readings one joint needs are there and finite (`kinematic_tree.rs:327-348`). -/
def checkReadings (t : KinematicTree maxJoints maxConfig T) (c : Fin maxConfig → T) (index : ℕ) :
    Except KinematicsError Unit :=
  match t.joint index, t.configOffset index with
  | some joint, some offset =>
    (List.range joint.width).forM fun slot =>
      match reading c (offset + slot) with
      | none => .error .nonFinite
      | some value =>
        if joint.kind ≠ .fixed ∧ Fns.isFinite value = false then .error .nonFinite else .ok ()
  | _, _ => .error .capacityExceeded

/-- A revolute joint's motion (`kinematic_tree.rs:370-375`). -/
def _root_.Multicalc.Joint.turn (j : Joint T) (reading : T) : SE3 T :=
  let displacement := reading - j.zeroOffset
  let rotation := SO3.exp (vscaleBy j.axis displacement)
  ⟨rotation, vsub j.anchor (rotation.act j.anchor)⟩

/-- A prismatic joint's motion (`kinematic_tree.rs:377-383`). -/
def _root_.Multicalc.Joint.slide (j : Joint T) (reading : T) : SE3 T :=
  let displacement := reading - j.zeroOffset
  ⟨SO3.identity, vscaleBy j.axis displacement⟩

/-- A joint's motion at a configuration (`kinematic_tree.rs:365-396`). -/
def localPose (j : Joint T) (c : Fin maxConfig → T) (offset : ℕ) : Except KinematicsError (SE3 T) :=
  match j.kind with
  | .revolute | .continuous =>
    match reading c offset with
    | none => .error .nonFinite
    | some value => .ok (j.turn value)
  | .prismatic =>
    match reading c offset with
    | none => .error .nonFinite
    | some value => .ok (j.slide value)
  | .fixed => .ok SE3.identity
  | .floating =>
    if h : offset + 7 ≤ maxConfig then
      match FreeJointState.fromGeneralizedVectors (fun slot : Fin 7 => c ⟨offset + slot, by omega⟩)
        (fun _ => 0) with
      | none => .error .orientationHasNoDirection
      | some state => .ok state.pose
    else .error .nonFinite

/-- The pose a joint hangs off (`kinematic_tree.rs:356-361`). -/
def parentPose (t : KinematicTree maxJoints maxConfig T) (poses : ℕ → SE3 T) (index : ℕ) :
    Except KinematicsError (SE3 T) :=
  match t.parent index with
  | some (.joint p) => if p < maxJoints then .ok (poses p) else .error .parentOutOfOrder
  | _ => .ok SE3.identity

/-- One step of the forward sweep (`kinematic_tree.rs:351-402`). -/
def sweepStep (t : KinematicTree maxJoints maxConfig T) (c : Fin maxConfig → T)
    (poses : ℕ → SE3 T) (index : ℕ) : Except KinematicsError (ℕ → SE3 T) :=
  match t.joint index, t.configOffset index with
  | some joint, some offset => do
    let parent ← t.parentPose poses index
    let motion ← localPose joint c offset
    return Function.update poses index ((parent.compose joint.origin).compose motion)
  | _, _ => .error .capacityExceeded

/-- `KinematicTree::forward_kinematics` (`kinematic_tree.rs:323-405`). -/
def forwardKinematics (t : KinematicTree maxJoints maxConfig T) (c : Fin maxConfig → T) :
    Except KinematicsError (KinematicTreeState T) := do
  (List.range t.len).forM (t.checkReadings c)
  let poses ← (List.range t.len).foldlM (t.sweepStep c) fun _ => SE3.identity
  return ⟨poses, t.len⟩

/-- The loop marking the joints from the tool down to the world (`kinematic_tree.rs:482-492`); the
first argument is what is left of its `MAX_JOINTS` passes. -/
def carriesLoop (t : KinematicTree maxJoints maxConfig T) :
    ℕ → ℕ → (ℕ → Bool) → Except KinematicsError (ℕ → Bool)
  | 0, _, marks => .ok marks
  | fuel + 1, current, marks =>
    if current < maxJoints then
      match t.parent current with
      | some (.joint p) => t.carriesLoop fuel p (Function.update marks current true)
      | _ => .ok (Function.update marks current true)
    else .error .parentOutOfOrder

/-- The columns one joint fills, in order, as (linear, angular) (`kinematic_tree.rs:524-566`). -/
def jointColumns (j : Joint T) (pose : SE3 T) (toolOrigin : Fin 3 → T) :
    List ((Fin 3 → T) × (Fin 3 → T)) :=
  match j.kind with
  | .revolute | .continuous =>
    let axisInWorld := pose.rotation.act j.axis
    let axisPoint := pose.act j.anchor
    [(cross axisInWorld (vsub toolOrigin axisPoint), axisInWorld)]
  | .prismatic => [(pose.rotation.act j.axis, fun _ => 0)]
  | .fixed => []
  | .floating =>
    let basis : Fin 3 → Fin 3 → T := fun localAxis row => if row = localAxis then 1 else 0
    let turning : Fin 3 → (Fin 3 → T) × (Fin 3 → T) := fun localAxis =>
      let directionInWorld := pose.rotation.act (basis localAxis)
      (cross directionInWorld (vsub toolOrigin pose.translation), directionInWorld)
    [(basis 0, fun _ => 0), (basis 1, fun _ => 0), (basis 2, fun _ => 0),
      turning 0, turning 1, turning 2]

/-- Writing one column (`kinematic_tree.rs:572-582`). -/
def writeColumn (entries : Matrix (Fin 6) (Fin maxConfig) T) (k : ℕ) (column : Fin 6 → T) :
    Except KinematicsError (Matrix (Fin 6) (Fin maxConfig) T) :=
  if k < maxConfig then
    .ok fun row col => if col.val = k then column row else entries row col
  else .error .capacityExceeded

/-- A column in the requested axes (`kinematic_tree.rs:572-577`). -/
def inFrame (frame : JacobianFrame) (intoToolAxes : SO3 T) (column : (Fin 3 → T) × (Fin 3 → T)) :
    Fin 6 → T :=
  match frame with
  | .world => Twist.toVector ⟨column.1, column.2⟩
  | .body => Twist.toVector ⟨intoToolAxes.act column.1, intoToolAxes.act column.2⟩

/-- Writing a joint's columns side by side (`kinematic_tree.rs:568-583`). -/
def writeColumns (frame : JacobianFrame) (intoToolAxes : SO3 T) :
    Matrix (Fin 6) (Fin maxConfig) T → ℕ → List ((Fin 3 → T) × (Fin 3 → T)) →
      Except KinematicsError (Matrix (Fin 6) (Fin maxConfig) T)
  | entries, _, [] => .ok entries
  | entries, k, column :: rest => do
    let entries ← writeColumn entries k (inFrame frame intoToolAxes column)
    writeColumns frame intoToolAxes entries (k + 1) rest

/-- One joint's share of the Jacobian (`kinematic_tree.rs:496-584`). -/
def jacobianStep (t : KinematicTree maxJoints maxConfig T) (state : KinematicTreeState T)
    (toolPose : SE3 T) (frame : JacobianFrame) (carries : ℕ → Bool)
    (entries : Matrix (Fin 6) (Fin maxConfig) T) (index : ℕ) :
    Except KinematicsError (Matrix (Fin 6) (Fin maxConfig) T) :=
  if carries index = false then .ok entries
  else
    match t.joint index with
    | none => .error .capacityExceeded
    | some joint =>
      if joint.kind = .fixed then .ok entries
      else
        match state.pose index with
        | none => .error .stateShapeMismatch
        | some pose =>
          match t.velocityOffset index with
          | none => .error .capacityExceeded
          | some offset =>
            writeColumns frame toolPose.rotation.inverse entries offset
              (jointColumns joint pose toolPose.translation)

/-- `KinematicTree::geometric_jacobian` (`kinematic_tree.rs:461-591`). -/
def geometricJacobian (t : KinematicTree maxJoints maxConfig T) (state : KinematicTreeState T)
    (toolIndex : ℕ) (frame : JacobianFrame) : Except KinematicsError (KinematicJacobian maxConfig T) :=
  if t.len ≤ toolIndex then .error .toolIndexOutOfRange
  else if state.length ≠ t.len then .error .stateShapeMismatch
  else
    match state.pose toolIndex with
    | none => .error .toolIndexOutOfRange
    | some toolPose => do
      let carries ← t.carriesLoop maxJoints toolIndex fun _ => false
      let entries ← (List.range t.len).foldlM (t.jacobianStep state toolPose frame carries)
        fun _ _ => 0
      return ⟨entries, t.velocityLen, frame⟩

/-- `KinematicTree::geometric_jacobian_at` (`kinematic_tree.rs:640-648`). -/
def geometricJacobianAt (t : KinematicTree maxJoints maxConfig T) (c : Fin maxConfig → T)
    (toolIndex : ℕ) (frame : JacobianFrame) :
    Except KinematicsError (KinematicJacobian maxConfig T) := do
  let state ← t.forwardKinematics c
  t.geometricJacobian state toolIndex frame

/-- `KinematicJacobian::tool_twist` (`kinematic_jacobian.rs:176-178`). -/
def _root_.Multicalc.KinematicJacobian.toolTwist (J : KinematicJacobian maxConfig T)
    (jointVelocities : Fin maxConfig → T) : Twist T :=
  let v := mmulVec J.entries jointVelocities
  ⟨head3 v, tail3 v⟩

/-- `KinematicJacobian::column` (`kinematic_jacobian.rs:129-138`). -/
def _root_.Multicalc.KinematicJacobian.column (J : KinematicJacobian maxConfig T) (index : ℕ) :
    Option (Twist T) :=
  if J.columns ≤ index then none
  else if h : index < maxConfig then
    let v := fun row => J.entries row ⟨index, h⟩
    some ⟨head3 v, tail3 v⟩
  else none

/-- What one joint adds to `configuration_distance` (`kinematic_tree.rs:690-738`). -/
def distanceTerm (j : Joint T) (offset : ℕ) (a b : Fin maxConfig → T) : T :=
  match j.kind with
  | .fixed => 0
  | .continuous =>
    match reading a offset, reading b offset with
    | some x, some y => let difference := wrapToPi (x - y); difference * difference
    | _, _ => 0
  | .revolute | .prismatic =>
    match reading a offset, reading b offset with
    | some x, some y => let difference := x - y; difference * difference
    | _, _ => 0
  | .floating =>
    let place (c : Fin maxConfig → T) : Fin 7 → T := fun slot => (reading c (offset + slot)).getD 0
    match FreeJointState.fromGeneralizedVectors (place a) (fun _ => 0),
      FreeJointState.fromGeneralizedVectors (place b) (fun _ => 0) with
    | some x, some y =>
      let position := vsub x.pose.translation y.pose.translation
      let rotation := (x.pose.rotation.inverse.compose y.pose.rotation).log
      vdot position position + vdot rotation rotation
    | _, _ => 0

/-- `KinematicTree::configuration_distance` (`kinematic_tree.rs:677-741`).  The Rust loop adds the two
terms of a floating joint one after the other; the model adds their sum. -/
def configurationDistance (t : KinematicTree maxJoints maxConfig T) (a b : Fin maxConfig → T) : T :=
  Fns.sqrt ((List.range t.len).foldl (fun total index =>
    match t.joint index, t.configOffset index with
    | some joint, some offset => total + distanceTerm joint offset a b
    | _, _ => total) 0)

end KinematicTree

end Multicalc
