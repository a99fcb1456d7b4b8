import Verif.Model.RobotModel

/-!
# Reading a URDF: from XML elements to links, joints and a robot model

`crates/multicalc-robot-model/src/xml.rs`, `src/urdf/link.rs`, `src/urdf/joint.rs` and
`src/urdf/mod.rs`.

The model starts from the element tree that `roxmltree::Document::parse` returns.  Rust's
`str::parse::<f64>` is a parameter `parse`: nothing below depends on which spellings of a number it
takes.
-/

namespace Multicalc

/-- A node of a parsed document.  Comments, text and processing instructions are `other`. -/
inductive XmlNode where
  | element (tag : String) (attributes : List (String × String)) (children : List XmlNode)
  | other

namespace XmlNode

/-- `Node::is_element`. -/
def isElement : XmlNode → Bool
  | element _ _ _ => true
  | other => false

/-- `Node::tag_name().name()`, which is empty for a node that is no element. -/
def tag : XmlNode → String
  | element tag _ _ => tag
  | other => ""

/-- `Node::children`. -/
def children : XmlNode → List XmlNode
  | element _ _ children => children
  | other => []

/-- `Node::attribute`. -/
def attr (node : XmlNode) (name : String) : Option String :=
  match node with
  | element _ attributes _ => (attributes.find? fun a => a.1 == name).map Prod.snd
  | other => none

/-- `elements` (`xml.rs:11-17`). -/
def elements (node : XmlNode) (tag : String) : List XmlNode :=
  node.children.filter fun child => child.isElement && child.tag == tag

/-- `element` (`xml.rs:19-26`). -/
def child (node : XmlNode) (tag : String) : Option XmlNode := (node.elements tag).head?

end XmlNode

namespace Urdf

/-- The variants of `ModelError` (`error.rs`) that the URDF reader returns; `tree` wraps those of
`tree::build`. -/
inductive ReadError where
  | badAttribute (element attr value : String)
  | inertia (e : SpatialError)
  | unsupportedJoint (body jointType : String)
  | jointNeedsLimit (joint : String)
  | unexpectedRootElement (found : String)
  | tree (e : ModelError)
  | noBodies

/-- `bad_attribute` (`xml.rs:47-55`). -/
def badAttribute (node : XmlNode) (name text : String) : ReadError := .badAttribute node.tag name text

/-- `char::is_ascii_whitespace`: space, tab, line feed, form feed, carriage return. -/
def isAsciiWhitespace (c : Char) : Bool :=
  c == ' ' || c == '\t' || c == '\n' || c == '\x0c' || c == '\r'

/-- `str::split_ascii_whitespace`, the field being read kept in reverse. -/
def fieldsFrom : List Char → List Char → List (List Char)
  | current, [] => if current.isEmpty then [] else [current.reverse]
  | current, c :: rest =>
    if isAsciiWhitespace c then
      if current.isEmpty then fieldsFrom [] rest else current.reverse :: fieldsFrom [] rest
    else fieldsFrom (c :: current) rest

/-- `str::split_ascii_whitespace`. -/
def splitAsciiWhitespace (text : String) : List String :=
  (fieldsFrom [] text.toList).map String.ofList

/-- `Option::ok_or_else`. -/
def okOr {α : Type} (e : ReadError) : Option α → Except ReadError α
  | some a => .ok a
  | none => .error e

variable {T : Type} (parse : String → Option T)

/-- `parse_list` (`xml.rs:57-70`). -/
def parseList (node : XmlNode) (name : String) : Except ReadError (Option (List T)) :=
  match node.attr name with
  | none => .ok none
  | some text =>
    match (splitAsciiWhitespace text).mapM parse with
    | some values => .ok (some values)
    | none => .error (badAttribute node name text)

/-- `fixed` (`xml.rs:101-117`). -/
def fixed (n : ℕ) (node : XmlNode) (name : String) : Except ReadError (Option (Fin n → T)) := do
  match ← parseList parse node name with
  | none => .ok none
  | some values =>
    if h : values.length = n then .ok (some fun i => values[i]'(by omega))
    else .error (badAttribute node name ((node.attr name).getD ""))

/-- `parse_scalar` (`xml.rs:72-75`). -/
def parseScalar (node : XmlNode) (name : String) : Except ReadError (Option T) := do
  let v ← fixed parse 1 node name
  .ok (v.map fun v => v 0)

/-- `required` (`link.rs:84-87`). -/
def required (node : XmlNode) (name : String) : Except ReadError T := do
  okOr (badAttribute node name "") (← parseScalar parse node name)

/-- `linked` (`joint.rs:150-156`). -/
def linked (node : XmlNode) (tag : String) : Except ReadError String :=
  okOr (badAttribute node tag "") ((node.child tag).bind fun child => child.attr "link")

/-- `read_mimic` (`joint.rs:134-148`). -/
def readMimic [Zero T] [One T] (node : XmlNode) : Except ReadError (Option (MimicDescription T)) :=
  match node.child "mimic" with
  | none => .ok none
  | some mimicNode => do
    let joint ← okOr (badAttribute mimicNode "joint" "") (mimicNode.attr "joint")
    let multiplier ← parseScalar parse mimicNode "multiplier"
    let offset ← parseScalar parse mimicNode "offset"
    .ok (some ⟨joint, multiplier.getD 1, offset.getD 0⟩)

/-- `read_limits` (`joint.rs:123-132`). -/
def readLimits (node : XmlNode) (name : String) : Except ReadError (T × T) := do
  let limitNode ← okOr (.jointNeedsLimit name) (node.child "limit")
  let lower ← okOr (.jointNeedsLimit name) (← parseScalar parse limitNode "lower")
  let upper ← okOr (.jointNeedsLimit name) (← parseScalar parse limitNode "upper")
  .ok (lower, upper)

/-- The closure `setting` in `movable` (`joint.rs:97-103`). -/
def dynamicsSetting [Zero T] (node : XmlNode) (name : String) : Except ReadError T :=
  match node.child "dynamics" with
  | some dynamics => do .ok ((← parseScalar parse dynamics name).getD 0)
  | none => .ok 0

/-- The joint types that URDF knows and the reader takes (`joint.rs:40-53`). -/
def jointKind (jointType : String) : Option JointKind :=
  if jointType = "revolute" then some .revolute
  else if jointType = "continuous" then some .continuous
  else if jointType = "prismatic" then some .prismatic
  else if jointType = "fixed" then some .fixed
  else if jointType = "floating" then some .floating
  else none

/-- `ignored_sections` (`xml.rs:119-134`); `Vec::dedup` drops an entry equal to the one before. -/
def dedup : List String → List String
  | a :: b :: rest => if a = b then dedup (b :: rest) else a :: dedup (b :: rest)
  | short => short

@[inherit_doc dedup]
def ignoredSections (root : XmlNode) (read : List String) : List String :=
  dedup (sortNames
    (((root.children.filter fun n => n.isElement).map fun n => n.tag).filter fun name => !read.contains name))

variable [Zero T] [One T] [NatCast T] [Add T] [Sub T] [Mul T] [Div T] [Neg T] [LE T] [DecidableLE T]
  [LT T] [DecidableLT T] [BEq T] [Max T] [Min T] [Fns T]

/-- `read_origin` (`link.rs:69-82`). -/
def readOrigin (parent : XmlNode) : Except ReadError (SE3 T) :=
  match parent.child "origin" with
  | none => .ok SE3.identity
  | some node => do
    let translation := (← fixed parse 3 node "xyz").getD fun _ => 0
    let rpy := (← fixed parse 3 node "rpy").getD fun _ => 0
    .ok ⟨SO3.fromQuaternion (Quat.fromEulerZyx (rpy 0) (rpy 1) (rpy 2)), translation⟩

/-- `read_inertial` (`link.rs:34-67`). -/
def readInertial (node : XmlNode) : Except ReadError (SpatialInertia T) := do
  let origin ← readOrigin parse node
  let massNode ← okOr (badAttribute node "mass" "") (node.child "mass")
  let mass ← required parse massNode "value"
  let inertiaNode ← okOr (badAttribute node "inertia" "") (node.child "inertia")
  let ixx ← required parse inertiaNode "ixx"
  let ixy ← required parse inertiaNode "ixy"
  let ixz ← required parse inertiaNode "ixz"
  let iyy ← required parse inertiaNode "iyy"
  let iyz ← required parse inertiaNode "iyz"
  let izz ← required parse inertiaNode "izz"
  let stated : Matrix (Fin 3) (Fin 3) T := !![ixx, ixy, ixz; ixy, iyy, iyz; ixz, iyz, izz]
  let rotation := origin.rotation.toMatrix
  let tensor := mmul (mmul rotation stated) (mtranspose rotation)
  match SpatialInertia.new mass origin.translation tensor with
  | .ok inertia => .ok inertia
  | .error e => .error (.inertia e)

/-- One turn of `read_links` (`link.rs:20-31`). -/
def readLink (node : XmlNode) : Except ReadError (ParsedLink T) := do
  let name := (node.attr "name").getD "link"
  let inertia ← (match node.child "inertial" with
    | some inertial => do .ok (some (← readInertial parse inertial))
    | none => .ok none : Except ReadError (Option (SpatialInertia T)))
  .ok ⟨name, inertia⟩

/-- The axis in `movable` (`joint.rs:76-88`). -/
def readAxis (node : XmlNode) : Except ReadError (Fin 3 → T) :=
  match node.child "axis" with
  | some axisNode => do
    let stated := (← fixed parse 3 axisNode "xyz").getD ![1, 0, 0]
    okOr (badAttribute axisNode "xyz" ((axisNode.attr "xyz").getD "")) (vtryNormalized stated)
  | none => .ok ![1, 0, 0]

omit [Zero T] [One T] [NatCast T] [Add T] [Sub T] [Mul T] [Div T] [Neg T] [LE T] [DecidableLE T]
  [LT T] [DecidableLT T] [BEq T] [Max T] [Min T] [Fns T] in
/-- The limits in `movable` (`joint.rs:90-95`). -/
def readTravel (node : XmlNode) (name : String) (kind : JointKind) : Except ReadError (Option (T × T)) :=
  match kind with
  | .continuous => .ok none
  | _ => do .ok (some (← readLimits parse node name))

/-- `movable` (`joint.rs:74-121`). -/
def movable (node : XmlNode) (name : String) (kind : JointKind) :
    Except ReadError (JointDescription T) := do
  let axis ← readAxis parse node
  let limits ← readTravel parse node name kind
  let damping ← dynamicsSetting parse node "damping"
  let friction ← dynamicsSetting parse node "friction"
  let mimic ← readMimic parse node
  .ok
    { name := name
      kind := kind
      axis := axis
      anchor := fun _ => 0
      limits := limits
      zeroOffset := 0
      armature := 0
      damping := damping
      frictionLoss := friction
      springReference := 0
      springStiffness := 0
      mimic := mimic }

/-- `read_joint` (`joint.rs:34-72`). -/
def readJoint (node : XmlNode) : Except ReadError (ParsedJoint T) := do
  let name := (node.attr "name").getD "joint"
  let parentLink ← linked node "parent"
  let childLink ← linked node "child"
  let jointType := (node.attr "type").getD ""
  let kind ← okOr (.unsupportedJoint childLink jointType) (jointKind jointType)
  let origin ← readOrigin parse node
  let description ← (match kind with
    | .fixed => .ok none
    | .floating => .ok (some (Mjcf.floatingDescription name))
    | _ => do .ok (some (← movable parse node name kind)) :
    Except ReadError (Option (JointDescription T)))
  .ok ⟨name, parentLink, childLink, origin, description⟩

/-- `RobotModel` as `load_str` fills it (`urdf/mod.rs:42-49`). -/
structure Loaded (T : Type) where
  name : String
  bodies : List (BodyDescription T)
  floatingBase : Bool
  ignored : List String

/-- `load_str` (`urdf/mod.rs:24-50`), from the root element on. -/
def load (root : XmlNode) : Except ReadError (Loaded T) :=
  if root.tag ≠ "robot" then .error (.unexpectedRootElement root.tag)
  else do
    let links ← (root.elements "link").mapM (readLink parse)
    let joints ← (root.elements "joint").mapM (readJoint parse)
    match build links joints with
    | .error e => .error (.tree e)
    | .ok bodies =>
      if bodies.isEmpty then .error .noBodies
      else .ok ⟨(root.attr "name").getD "model", bodies, false, ignoredSections root ["link", "joint"]⟩

end Urdf

end Multicalc
