import Verif.Model.Mjcf
import Verif.Model.Urdf

/-!
# Reading an MJCF: from XML elements to a robot model

`crates/multicalc-robot-model/src/mjcf/mod.rs`, and the halves of `mjcf/{body,compiler,defaults,geometry,joint}.rs`
that look at elements and attributes.

The model starts from the element tree that `roxmltree::Document::parse` returns, includes already spliced in
(`Verif/Model/MjcfDocument.lean`).  What the settings in effect mean is in `Verif/Model/Mjcf.lean`.  Rust's
`str::parse::<f64>` is a parameter `parse`.  An error of the record level does not name its body.
-/

namespace Multicalc.Mjcf

/-- The variants of `ModelError` (`error.rs`) that the MJCF reader returns. -/
inductive LoadError where
  | xml (e : Urdf.ReadError)
  | geom (e : GeomError)
  | freeJointNotAtRoot (body : String)
  | missingWorldbody
  | noBodies
  | includeNeedsFile

/-- `?` on an error of the attribute level. -/
def ofXml {A : Type} : Except Urdf.ReadError A → Except LoadError A
  | .ok a => .ok a
  | .error e => .error (.xml e)

/-- `?` on an error of the record level. -/
def ofGeom {A : Type} : Except GeomError A → Except LoadError A
  | .ok a => .ok a
  | .error e => .error (.geom e)

/-- `CompilerSettings::read` (`compiler.rs:31-62`). -/
def compilerSettings (root : XmlNode) : Except Urdf.ReadError CompilerSettings :=
  match root.child "compiler" with
  | none => .ok ⟨true, true, .auto⟩
  | some compiler => do
    let angleInDegrees ← (match (compiler.attr "angle").getD "degree" with
      | "degree" => .ok true
      | "radian" => .ok false
      | value => .error (Urdf.badAttribute compiler "angle" value) : Except Urdf.ReadError Bool)
    let autoLimits ← (match (compiler.attr "autolimits").getD "true" with
      | "true" => .ok true
      | "false" => .ok false
      | value => .error (Urdf.badAttribute compiler "autolimits" value) : Except Urdf.ReadError Bool)
    let inertiaFromGeom ← (match (compiler.attr "inertiafromgeom").getD "auto" with
      | "false" => .ok .never
      | "auto" => .ok .auto
      | "true" => .ok .always
      | value => .error (Urdf.badAttribute compiler "inertiafromgeom" value) : Except Urdf.ReadError InertiaFromGeom)
    .ok ⟨angleInDegrees, autoLimits, inertiaFromGeom⟩

/-- `reject_orientation_attributes` (`defaults.rs:171-185`): the attribute it complains about. -/
def orientationAttribute (node : XmlNode) : Option String :=
  ["euler", "axisangle", "xyaxes", "zaxis"].find? fun name => (node.attr name).isSome

variable {T : Type} (parse : String → Option T)

/-- `GeomDefaults::read` (`defaults.rs:29-40`). -/
def geomDefaults (node : XmlNode) : Except Urdf.ReadError (GeomDefaults T) := do
  let size ← Urdf.parseList parse node "size"
  let fromto ← Urdf.fixed parse 6 node "fromto"
  let pos ← Urdf.fixed parse 3 node "pos"
  let quat ← Urdf.fixed parse 4 node "quat"
  let mass ← Urdf.parseScalar parse node "mass"
  let density ← Urdf.parseScalar parse node "density"
  .ok ⟨node.attr "type", size, fromto, pos, quat, mass, density⟩

/-- `JointDefaults::read` (`defaults.rs:74-89`). -/
def jointDefaults (node : XmlNode) : Except Urdf.ReadError (JointDefaults T) := do
  let axis ← Urdf.fixed parse 3 node "axis"
  let pos ← Urdf.fixed parse 3 node "pos"
  let range ← Urdf.fixed parse 2 node "range"
  let armature ← Urdf.parseScalar parse node "armature"
  let damping ← Urdf.parseScalar parse node "damping"
  let frictionLoss ← Urdf.parseScalar parse node "frictionloss"
  let reference ← Urdf.parseScalar parse node "ref"
  let springReference ← Urdf.parseScalar parse node "springref"
  let stiffness ← Urdf.parseScalar parse node "stiffness"
  .ok ⟨node.attr "type", axis, pos, range.map fun r => (r 0, r 1), node.attr "limited", armature, damping, frictionLoss,
    reference, springReference, stiffness⟩

mutual

/-- `DefaultTable::walk` (`defaults.rs:147-168`), on the element. -/
def walkDefaultNode : XmlNode → ClassDefaults T → DefaultTable T → Except Urdf.ReadError (DefaultTable T)
  | .other, _, table => .ok table
  | .element tag attributes children, inherited, table => do
    let node := XmlNode.element tag attributes children
    let geoms ← (node.elements "geom").mapM (geomDefaults parse)
    let joints ← (node.elements "joint").mapM (jointDefaults parse)
    let settings := blockSettings geoms joints inherited
    walkDefaultNodes children settings (table.store (node.attr "class") settings)

/-- The loop over the nested `<default>` elements (`defaults.rs:164-166`) and over the root's
(`defaults.rs:128-130`). -/
def walkDefaultNodes : List XmlNode → ClassDefaults T → DefaultTable T → Except Urdf.ReadError (DefaultTable T)
  | [], _, table => .ok table
  | child :: rest, inherited, table =>
    if child.isElement && child.tag == "default" then do
      let table ← walkDefaultNode child inherited table
      walkDefaultNodes rest inherited table
    else walkDefaultNodes rest inherited table

end

/-- `DefaultTable::build` (`defaults.rs:125-132`), on the root element. -/
def defaultTable (root : XmlNode) : Except Urdf.ReadError (DefaultTable T) :=
  walkDefaultNodes parse root.children {} {}

mutual

/-- `top_level_bodies` (`body.rs:81-91`). -/
def topLevelBodies : XmlNode → List XmlNode
  | .other => []
  | .element _ _ children => topLevelIn children

@[inherit_doc topLevelBodies]
def topLevelIn : List XmlNode → List XmlNode
  | [] => []
  | child :: rest =>
    (if child.isElement && child.tag == "body" then [child]
      else if child.isElement && child.tag == "worldbody" then topLevelBodies child else []) ++ topLevelIn rest

end

/-- The joint-like children of a body (`body.rs:110-115`, `joint.rs:26-31`). -/
def jointLike (node : XmlNode) : List XmlNode :=
  node.children.filter fun child => child.isElement && (child.tag == "joint" || child.tag == "freejoint")

/-- `is_free_joint` (`body.rs:174-180`). -/
def isFreeJoint (node : XmlNode) : Bool :=
  match node.tag with
  | "freejoint" => true
  | "joint" => node.attr "type" == some "free"
  | _ => false

/-- The guard of the first arm over the joint-like children (`body.rs:117`). -/
def carriesFreeJoint (node : XmlNode) : Bool :=
  match jointLike node with
  | [only] => isFreeJoint only
  | _ => false

mutual

/-- Whether the element or one below it is an `<include>` (`mod.rs:29-32`). -/
def hasInclude : XmlNode → Bool
  | .other => false
  | .element tag _ children => tag == "include" || anyInclude children

@[inherit_doc hasInclude]
def anyInclude : List XmlNode → Bool
  | [] => false
  | child :: rest => hasInclude child || anyInclude rest

end

section Numbers

variable [Zero T] [One T] [NatCast T] [Add T] [Sub T] [Neg T] [Mul T] [Div T] [LT T] [DecidableLT T]
  [LE T] [DecidableLE T] [BEq T] [Max T] [Fns T]

/-- The pose of a body (`body.rs:105-113`). -/
def bodyPose (node : XmlNode) : Except LoadError (SE3 T) :=
  match orientationAttribute node with
  | some name => .error (.geom (.unsupportedOrientation name))
  | none => do
    let position ← ofXml (Urdf.fixed parse 3 node "pos")
    let quat ← ofXml (Urdf.fixed parse 4 node "quat")
    let rotation ← ofGeom (unitQuaternion (quat.getD ![1, 0, 0, 0]))
    .ok ⟨SO3.fromQuaternion rotation, position.getD fun _ => 0⟩

/-- `read_joint` (`joint.rs:19-96`), on the joint-like children: the classes are looked up before the element's own
attributes are read. -/
def readJointNodes (table : DefaultTable T) (classChain : Option String) (settings : CompilerSettings) :
    List XmlNode → Except LoadError (Option (JointDescription T))
  | [] => .ok none
  | [node] => do
    let _ ← ofGeom (effectiveJoint table classChain (node.attr "class") {})
    let own ← ofXml (jointDefaults parse node)
    ofGeom (readJoint table classChain settings [⟨node.attr "name", node.attr "class", own⟩])
  | many => .error (.geom (.multipleJoints many.length))

/-- `read_geom` (`geometry.rs:46-158`), on the element. -/
def readGeomNode (table : DefaultTable T) (classChain : Option String) (node : XmlNode) :
    Except LoadError (Option (GeomMass T)) :=
  match orientationAttribute node with
  | some name => .error (.geom (.unsupportedOrientation name))
  | none => do
    let _ ← ofGeom (effectiveGeom table classChain (node.attr "class") {})
    let own ← ofXml (geomDefaults parse node)
    ofGeom (readGeom table classChain ⟨none, node.attr "class", own⟩)

/-- `synthesized_inertia` (`body.rs:214-251`), on the element. -/
def synthesizedFrom (table : DefaultTable T) (classChain : Option String) (node : XmlNode) :
    Except LoadError (SpatialInertia T) := do
  let shapes ← (node.elements "geom").mapM (readGeomNode parse table classChain)
  ofGeom (composite (shapes.flatMap fun shape => shape.toList))

/-- The attributes of an `<inertial>` that are read (`body.rs:184-188`, `198`): `quat` only beside a `diaginertia`. -/
def inertialAttributes (node : XmlNode) : Except Urdf.ReadError (InertialElement T) := do
  let pos ← Urdf.fixed parse 3 node "pos"
  let mass ← Urdf.required parse node "mass"
  let diagonal ← Urdf.fixed parse 3 node "diaginertia"
  let full ← Urdf.fixed parse 6 node "fullinertia"
  let quat ← (if diagonal.isSome && full.isNone then Urdf.fixed parse 4 node "quat" else .ok none :
    Except Urdf.ReadError (Option (Fin 4 → T)))
  .ok ⟨none, pos, some mass, diagonal, full, quat⟩

/-- `stated_inertia` (`body.rs:183-212`), on the element, behind `reject_orientation_attributes`. -/
def statedFrom (node : XmlNode) : Except LoadError (SpatialInertia T) :=
  match orientationAttribute node with
  | some name => .error (.geom (.unsupportedOrientation name))
  | none => do
    let inertial ← ofXml (inertialAttributes parse node)
    ofGeom (statedInertia inertial)

/-- Where a body's inertia comes from (`body.rs:128-147`), on the element. -/
def inertiaFrom (settings : CompilerSettings) (table : DefaultTable T) (classChain : Option String)
    (node : XmlNode) : Except LoadError (SpatialInertia T) :=
  match settings.inertiaFromGeom, node.child "inertial" with
  | .always, _ => synthesizedFrom parse table classChain node
  | .never, none => .error (.geom .noInertiaSource)
  | .never, some inertial => statedFrom parse inertial
  | .auto, some inertial => statedFrom parse inertial
  | .auto, none => synthesizedFrom parse table classChain node

/-- The joint of a body, and whether it makes the base floating (`body.rs:110-126`). -/
def bodyJoint (settings : CompilerSettings) (table : DefaultTable T) (classChain : Option String)
    (hasParent : Bool) (node : XmlNode) : Except LoadError (Option (JointDescription T) × Bool) :=
  if carriesFreeJoint node then
    if hasParent then .error (.freeJointNotAtRoot ((node.attr "name").getD "body"))
    else .ok (some (floatingDescription ((node.attr "name").getD "body")), true)
  else do
    let joint ← readJointNodes parse table classChain settings (jointLike node)
    .ok (joint, false)

mutual

/-- `walk_body` (`body.rs:95-172`).  The pair is the bodies so far and `floating_base`. -/
def walkNode (settings : CompilerSettings) (table : DefaultTable T) : XmlNode → Option ℕ → Option String →
    List (BodyDescription T) × Bool → Except LoadError (List (BodyDescription T) × Bool)
  | .other, _, _, state => .ok state
  | .element tag attributes children, parent, inheritedClass, state => do
    let node := XmlNode.element tag attributes children
    let pose ← bodyPose parse node
    let classChain := (node.attr "childclass").or inheritedClass
    let joint ← bodyJoint parse settings table classChain parent.isSome node
    let inertia ← inertiaFrom parse settings table classChain node
    walkNodes settings table children (some state.1.length) classChain
      (state.1 ++ [⟨(node.attr "name").getD "body", parent, pose, some inertia, joint.1⟩], state.2 || joint.2)

/-- The loop over the `<body>` children (`body.rs:159-170`). -/
def walkNodes (settings : CompilerSettings) (table : DefaultTable T) : List XmlNode → Option ℕ → Option String →
    List (BodyDescription T) × Bool → Except LoadError (List (BodyDescription T) × Bool)
  | [], _, _, state => .ok state
  | child :: rest, parent, classChain, state =>
    if child.isElement && child.tag == "body" then do
      let state ← walkNode settings table child parent classChain state
      walkNodes settings table rest parent classChain state
    else walkNodes settings table rest parent classChain state

end

/-- `read` (`body.rs:44-76`). -/
def readRoot (root : XmlNode) : Except LoadError (Urdf.Loaded T) := do
  let settings ← ofXml (compilerSettings root)
  let table ← ofXml (defaultTable parse root)
  match root.child "worldbody" with
  | none => .error .missingWorldbody
  | some worldbody => do
    let (bodies, floatingBase) ← walkNodes parse settings table (topLevelBodies worldbody) none none ([], false)
    if bodies.isEmpty then .error .noBodies
    else .ok ⟨(root.attr "model").getD "model", bodies, floatingBase,
      Urdf.ignoredSections root ["compiler", "default", "worldbody"]⟩

/-- `load_str` (`mod.rs:25-52`), from the root element on. -/
def load (root : XmlNode) : Except LoadError (Urdf.Loaded T) :=
  if hasInclude root then .error .includeNeedsFile else readRoot parse root

end Numbers

end Multicalc.Mjcf
