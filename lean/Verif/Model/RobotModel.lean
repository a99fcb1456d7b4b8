import Verif.Model.KinematicTree

/-!
# Robot descriptions: resolving a URDF's links and joints, and turning a model into a tree

`crates/multicalc-robot-model/src/lib.rs` and `src/urdf/tree.rs`, together with the order in which
`src/mjcf/body.rs` visits bodies.

The XML text itself is outside the model: the functions below start from what the attribute readers
hand over.  A `HashMap` from names to indices that keeps the first entry is a search for the first
link of that name.  Rust's vectors indexed by link (`incoming`, `children`, `visited`) are functions
on `ℕ`.  Recursion that Rust leaves unbounded carries fuel here, and running out is an outcome of its
own, so that termination is something to prove.
-/

namespace Multicalc

/-- `MimicDescription` (`lib.rs:364-369`). -/
structure MimicDescription (T : Type) where
  joint : String
  multiplier : T
  offset : T

/-- `JointDescription` (`lib.rs:395-409`). -/
structure JointDescription (T : Type) where
  name : String
  kind : JointKind
  axis : Fin 3 → T
  anchor : Fin 3 → T
  limits : Option (T × T)
  zeroOffset : T
  armature : T
  damping : T
  frictionLoss : T
  springReference : T
  springStiffness : T
  mimic : Option (MimicDescription T)

/-- `BodyDescription` (`lib.rs:311-318`). -/
structure BodyDescription (T : Type) where
  name : String
  parent : Option ℕ
  pose : SE3 T
  inertia : Option (SpatialInertia T)
  joint : Option (JointDescription T)

/-- `ParsedLink` (`urdf/link.rs:14-17`). -/
structure ParsedLink (T : Type) where
  name : String
  inertia : Option (SpatialInertia T)

/-- `ParsedJoint` (`urdf/joint.rs:16-24`). -/
structure ParsedJoint (T : Type) where
  name : String
  parentLink : String
  childLink : String
  origin : SE3 T
  description : Option (JointDescription T)

/-- The variants of `ModelError` (`error.rs`) met below, and two that are no Rust error: `diverges`,
a recursion or loop that never ends, and `panics`, an `unreachable!`. -/
inductive ModelError where
  | unknownLink (joint link : String)
  | linkHasTwoParents (link : String) (joints : List String)
  | missingRootLink
  | multipleRootLinks (names : List String)
  | cyclicLinkage (link : String)
  | freeJointNotAtRoot (body : String)
  | unknownBody (name : String)
  | treeCapacityExceeded (needed capacity : ℕ)
  | mimicJointInTree (joint follows : String)
  | kinematics (e : KinematicsError)
  | noBodies
  | reader (message : String)
  | diverges
  | panics
  deriving DecidableEq

namespace Urdf

variable {T : Type}

/-- `Vec::<String>::sort`, used on the names in an error (`tree.rs:48`, `69`). -/
def sortNames (names : List String) : List String := names.mergeSort fun a b => decide (a ≤ b)

/-- The link a name stands for (`tree.rs:23-36`). -/
def find (links : List (ParsedLink T)) (joint : ParsedJoint T) (link : String) :
    Except ModelError ℕ :=
  match links.findIdx? fun l => l.name == link with
  | some index => .ok index
  | none => .error (.unknownLink joint.name link)

/-- What the loop over the joints builds (`tree.rs:39-41`). -/
structure Resolved where
  incoming : ℕ → Option ℕ
  children : ℕ → List ℕ
  driven : List ℕ

/-- One turn of the loop over the joints (`tree.rs:42-57`). -/
def resolveStep (links : List (ParsedLink T)) (joints : List (ParsedJoint T)) (r : Resolved)
    (jointIndex : ℕ) : Except ModelError Resolved :=
  match joints[jointIndex]? with
  | none => .error .panics
  | some joint => do
    let parent ← find links joint joint.parentLink
    let child ← find links joint joint.childLink
    match r.incoming child with
    | some claimed =>
      .error (.linkHasTwoParents ((links[child]?.map fun l => l.name).getD "")
        (sortNames [(joints[claimed]?.map fun j => j.name).getD "", joint.name]))
    | none =>
      .ok ⟨Function.update r.incoming child (some jointIndex),
        Function.update r.children parent (r.children parent ++ [jointIndex]),
        r.driven ++ [child]⟩

/-- The loop over the joints (`tree.rs:39-57`). -/
def resolve (links : List (ParsedLink T)) (joints : List (ParsedJoint T)) :
    Except ModelError Resolved :=
  (List.range joints.length).foldlM (resolveStep links joints) ⟨fun _ => none, fun _ => [], []⟩

variable [Zero T] [One T]

/-- `walk` (`tree.rs:119-160`).  `none` is the recursion going deeper than the fuel. -/
def walk (links : List (ParsedLink T)) (joints : List (ParsedJoint T)) (r : Resolved) :
    ℕ → ℕ → Option ℕ → Option ℕ → (ℕ → Bool) × List (BodyDescription T) →
      Option ((ℕ → Bool) × List (BodyDescription T))
  | 0, _, _, _, _ => none
  | fuel + 1, linkIndex, parentBody, incoming, (visited, bodies) =>
    match links[linkIndex]? with
    | none => none
    | some link =>
      let joint := incoming.bind fun index => joints[index]?
      let bodyIndex := bodies.length
      let body : BodyDescription T :=
        { name := link.name
          parent := parentBody
          pose := (joint.map fun j => j.origin).getD SE3.identity
          inertia := link.inertia
          joint := joint.bind fun j => j.description }
      (r.children linkIndex).foldlM
        (fun s jointIndex =>
          walk links joints r fuel (r.driven.getD jointIndex 0) (some bodyIndex) (some jointIndex) s)
        (Function.update visited linkIndex true, bodies ++ [body])

/-- The test for a floating joint (`tree.rs:97-107`). -/
def isFloating (b : BodyDescription T) : Bool :=
  match b.joint with
  | some joint => joint.kind == .floating
  | none => false

/-- `build` (`tree.rs:18-110`). -/
def build (links : List (ParsedLink T)) (joints : List (ParsedJoint T)) :
    Except ModelError (List (BodyDescription T)) :=
  match resolve links joints with
  | .error e => .error e
  | .ok r =>
    match (List.range links.length).filter fun index => (r.incoming index).isNone with
    | [] => .error .missingRootLink
    | [root] =>
      match walk links joints r links.length root none none (fun _ => false, []) with
      | none => .error .diverges
      | some (visited, bodies) =>
        match (List.range links.length).find? fun index => !visited index with
        | some stranded => .error (.cyclicLinkage ((links[stranded]?.map fun l => l.name).getD ""))
        | none =>
          match bodies.find? isFloating with
          | some body => .error (.freeJointNotAtRoot body.name)
          | none => .ok bodies
    | several =>
      .error (.multipleRootLinks
        (sortNames (several.map fun index => (links[index]?.map fun l => l.name).getD "")))

end Urdf

namespace Mjcf

variable {T : Type}

/-- A `<body>` element once its own attributes are read (`mjcf/body.rs:99-152`): its name, its pose,
its inertia, whether its only joint-like child is a free joint, what `read_joint` returned otherwise,
and its `<body>` children.  A reader's error is kept as the message. -/
inductive BodyElement (T : Type) where
  | mk (name : String) (pose : SE3 T) (free : Bool)
    (joint : Except String (Option (JointDescription T)))
    (inertia : Except String (Option (SpatialInertia T))) (children : List (BodyElement T))

variable [Zero T] [One T]

/-- `JointDescription::floating` (`lib.rs:496-511`): a free joint named after its body, with nothing else
stated. -/
def floatingDescription (name : String) : JointDescription T :=
  ⟨name, .floating, ![1, 0, 0], fun _ => 0, none, 0, 0, 0, 0, 0, 0, none⟩

mutual

/-- `walk_body` (`mjcf/body.rs:95-170`), from a body's own attributes on.  The pair is the bodies so
far and `floating_base`. -/
def walkBody : BodyElement T → Option ℕ → List (BodyDescription T) × Bool →
    Except ModelError (List (BodyDescription T) × Bool)
  | .mk name pose free joint inertia children, parent, (bodies, floatingBase) =>
    match (if free then
        if parent.isSome then .error (.freeJointNotAtRoot name)
        else .ok (some (floatingDescription name), true)
      else
        match joint with
        | .error message => .error (.reader message)
        | .ok description => .ok (description, floatingBase) :
        Except ModelError (Option (JointDescription T) × Bool)) with
    | .error e => .error e
    | .ok (description, floatingBase) =>
      match inertia with
      | .error message => .error (.reader message)
      | .ok inertia =>
        walkBodies children (some bodies.length)
          (bodies ++ [⟨name, parent, pose, inertia, description⟩], floatingBase)

/-- The loop over the `<body>` children (`mjcf/body.rs:159-169`), and over the top-level bodies
(`body.rs:53-63`). -/
def walkBodies : List (BodyElement T) → Option ℕ → List (BodyDescription T) × Bool →
    Except ModelError (List (BodyDescription T) × Bool)
  | [], _, state => .ok state
  | child :: rest, parent, state =>
    match walkBody child parent state with
    | .error e => .error e
    | .ok state => walkBodies rest parent state

end

/-- `read` (`mjcf/body.rs:44-76`), from the top-level bodies on. -/
def read (tops : List (BodyElement T)) : Except ModelError (List (BodyDescription T) × Bool) :=
  match walkBodies tops none ([], false) with
  | .error e => .error e
  | .ok (bodies, floatingBase) =>
    if bodies.isEmpty then .error .noBodies else .ok (bodies, floatingBase)

end Mjcf

namespace RobotModel

variable {T : Type}

/-- The climb in `path_to` (`lib.rs:196-200`), the path kept root first.  `diverges` is the loop
running past the fuel. -/
def climb (bodies : List (BodyDescription T)) : ℕ → ℕ → List ℕ → Except ModelError (List ℕ)
  | 0, _, _ => .error .diverges
  | fuel + 1, index, path =>
    match bodies[index]? with
    | none => .error .panics
    | some body =>
      match body.parent with
      | none => .ok path
      | some parent => climb bodies fuel parent (parent :: path)

/-- `RobotModel::path_to` (`lib.rs:187-203`). -/
def pathTo (bodies : List (BodyDescription T)) (tip : String) : Except ModelError (List ℕ) :=
  match bodies.findIdx? fun b => b.name == tip with
  | none => .error (.unknownBody tip)
  | some index => climb bodies bodies.length index [index]

/-- One turn of `reject_mimic_joints` (`lib.rs:233-243`). -/
def rejectMimic (bodies : List (BodyDescription T)) (index : ℕ) : Except ModelError Unit :=
  match bodies[index]? with
  | none => .error .panics
  | some body =>
    match body.joint with
    | none => .ok ()
    | some description =>
      match description.mimic with
      | none => .ok ()
      | some mimic => .error (.mimicJointInTree description.name mimic.joint)

/-- `RobotModel::reject_mimic_joints` (`lib.rs:232-245`). -/
def rejectMimicJoints (bodies : List (BodyDescription T)) (slots : List ℕ) :
    Except ModelError Unit :=
  slots.forM (rejectMimic bodies)

variable [Zero T] [One T]

/-- `build_joint` (`lib.rs:275-308`).  `none` is the `unreachable!` for a fixed description. -/
def buildJoint (body : BodyDescription T) : Option (Joint T) :=
  match body.joint with
  | none => some (Joint.fixed body.pose)
  | some description =>
    let finish (joint : Joint T) : Joint T :=
      { joint with
        zeroOffset := description.zeroOffset
        armature := description.armature
        damping := description.damping
        frictionLoss := description.frictionLoss
        limits := match description.limits with
          | some limits => some limits
          | none => joint.limits }
    match description.kind with
    | .revolute =>
      some (finish { Joint.fromKind .revolute description.axis body.pose with
        anchor := description.anchor })
    | .continuous =>
      some (finish { Joint.fromKind .continuous description.axis body.pose with
        anchor := description.anchor })
    | .prismatic => some (finish (Joint.fromKind .prismatic description.axis body.pose))
    | .floating => some (Joint.floating SE3.identity)
    | .fixed => none

/-- One turn of `joints_and_parents` (`lib.rs:254-269`). -/
def jointAndParent (bodies : List (BodyDescription T)) (slots : List ℕ) (index : ℕ) :
    Except ModelError (Joint T × JointParent) :=
  match bodies[index]? with
  | none => .error .panics
  | some body =>
    match buildJoint body with
    | none => .error .panics
    | some joint =>
      match body.parent with
      | none => .ok (joint, .world)
      | some parentIndex =>
        match slots.findIdx? fun slot => slot == parentIndex with
        | none => .error .panics
        | some position => .ok (joint, .joint position)

/-- `RobotModel::joints_and_parents` (`lib.rs:248-272`), the two vectors as one list of pairs. -/
def jointsAndParents (bodies : List (BodyDescription T)) (slots : List ℕ) :
    Except ModelError (List (Joint T × JointParent)) :=
  slots.mapM (jointAndParent bodies slots)

variable [NatCast T] [Add T] [Sub T] [Mul T] [Div T] [Neg T] [LT T]
  [DecidableLT T] [LE T] [DecidableLE T] [BEq T] [Fns T]

/-- `RobotModel::build_tree` (`lib.rs:212-226`). -/
def buildTree (maxJoints maxConfig : ℕ) (bodies : List (BodyDescription T)) (slots : List ℕ) :
    Except ModelError (KinematicTree maxJoints maxConfig T) := do
  rejectMimicJoints bodies slots
  if maxJoints < slots.length then
    .error (.treeCapacityExceeded slots.length maxJoints)
  let pairs ← jointsAndParents bodies slots
  match KinematicTree.tryFromJoints (pairs.map Prod.fst) (pairs.map Prod.snd) with
  | .error e => .error (.kinematics e)
  | .ok tree => .ok tree

/-- `RobotModel::kinematic_tree` (`lib.rs:160-165`). -/
def kinematicTree (maxJoints maxConfig : ℕ) (bodies : List (BodyDescription T)) :
    Except ModelError (KinematicTree maxJoints maxConfig T) :=
  buildTree maxJoints maxConfig bodies (List.range bodies.length)

/-- `RobotModel::kinematic_tree_to` (`lib.rs:176-182`). -/
def kinematicTreeTo (maxJoints maxConfig : ℕ) (bodies : List (BodyDescription T)) (tip : String) :
    Except ModelError (KinematicTree maxJoints maxConfig T) := do
  let slots ← pathTo bodies tip
  buildTree maxJoints maxConfig bodies slots

end RobotModel

end Multicalc
