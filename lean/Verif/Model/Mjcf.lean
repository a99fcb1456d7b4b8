import Verif.Model.RobotModel

/-!
# MJCF settings, geoms and joints

`crates/multicalc-robot-model/src/mjcf/{defaults,geometry,joint,compiler}.rs` and the inertia half of
`mjcf/body.rs`.

The XML text is outside the model: an element is the record of what its attributes parse to, absent
attributes being `none`.  A parse error of an attribute's text is therefore not modelled.  A
`HashMap` of classes is a function from names.  `f64` is the type `T`.
-/

namespace Multicalc.Mjcf

/-- The variants of `ModelError` (`error.rs`) the functions below return. -/
inductive GeomError where
  | undefinedClass (name : String)
  | unsupportedOrientation (attr : String)
  | meshInertiaUnsupported
  | unsupportedGeomType (geomType : String)
  | unsupportedFromTo (geomType : String)
  | conflictingPlacement
  | badAttribute (attr : String)
  | noInertiaSource
  | inertia (e : SpatialError)
  | multipleJoints (count : ℕ)
  | unsupportedJoint (jointType : String)
  | limitsNeedRange
  deriving DecidableEq

variable {T : Type}

/-! ### Defaults -/

/-- `GeomDefaults` (`defaults.rs:16-26`). -/
structure GeomDefaults (T : Type) where
  geomType : Option String := none
  size : Option (List T) := none
  fromto : Option (Fin 6 → T) := none
  pos : Option (Fin 3 → T) := none
  quat : Option (Fin 4 → T) := none
  mass : Option T := none
  density : Option T := none

/-- `GeomDefaults::overridden_by` (`defaults.rs:42-54`). -/
def GeomDefaults.overriddenBy (self other : GeomDefaults T) : GeomDefaults T :=
  { geomType := other.geomType.or self.geomType
    size := other.size.or self.size
    fromto := other.fromto.or self.fromto
    pos := other.pos.or self.pos
    quat := other.quat.or self.quat
    mass := other.mass.or self.mass
    density := other.density.or self.density }

/-- `JointDefaults` (`defaults.rs:57-71`). -/
structure JointDefaults (T : Type) where
  jointType : Option String := none
  axis : Option (Fin 3 → T) := none
  pos : Option (Fin 3 → T) := none
  range : Option (T × T) := none
  limited : Option String := none
  armature : Option T := none
  damping : Option T := none
  frictionLoss : Option T := none
  reference : Option T := none
  springReference : Option T := none
  stiffness : Option T := none

/-- `JointDefaults::overridden_by` (`defaults.rs:91-107`). -/
def JointDefaults.overriddenBy (self other : JointDefaults T) : JointDefaults T :=
  { jointType := other.jointType.or self.jointType
    axis := other.axis.or self.axis
    pos := other.pos.or self.pos
    range := other.range.or self.range
    limited := other.limited.or self.limited
    armature := other.armature.or self.armature
    damping := other.damping.or self.damping
    frictionLoss := other.frictionLoss.or self.frictionLoss
    reference := other.reference.or self.reference
    springReference := other.springReference.or self.springReference
    stiffness := other.stiffness.or self.stiffness }

/-- `ClassDefaults` (`defaults.rs:110-115`). -/
structure ClassDefaults (T : Type) where
  geom : GeomDefaults T := {}
  joint : JointDefaults T := {}

/-- `DefaultTable` (`defaults.rs:117-122`). -/
structure DefaultTable (T : Type) where
  root : ClassDefaults T := {}
  classes : String → Option (ClassDefaults T) := fun _ => none

/-- A `<default>` block: its `class`, its `<geom>` and `<joint>` children as read, and its nested
blocks. -/
inductive DefaultBlock (T : Type) where
  | mk (className : Option String) (geoms : List (GeomDefaults T)) (joints : List (JointDefaults T))
    (nested : List (DefaultBlock T))

/-- What a block adds to the settings it inherits (`defaults.rs:149-155`). -/
def blockSettings (geoms : List (GeomDefaults T)) (joints : List (JointDefaults T))
    (inherited : ClassDefaults T) : ClassDefaults T :=
  { geom := geoms.foldl GeomDefaults.overriddenBy inherited.geom
    joint := joints.foldl JointDefaults.overriddenBy inherited.joint }

/-- Where a block's settings are kept (`defaults.rs:157-162`). -/
def DefaultTable.store (table : DefaultTable T) (className : Option String)
    (settings : ClassDefaults T) : DefaultTable T :=
  match className with
  | some name => { table with classes := Function.update table.classes name (some settings) }
  | none => { table with root := settings }

mutual

/-- `DefaultTable::walk` (`defaults.rs:147-168`). -/
def walkDefault : DefaultBlock T → ClassDefaults T → DefaultTable T → DefaultTable T
  | .mk className geoms joints nested, inherited, table =>
    walkDefaults nested (blockSettings geoms joints inherited)
      (table.store className (blockSettings geoms joints inherited))

/-- The loops over nested blocks (`defaults.rs:164-166`) and over the top-level blocks
(`defaults.rs:128-130`). -/
def walkDefaults : List (DefaultBlock T) → ClassDefaults T → DefaultTable T → DefaultTable T
  | [], _, table => table
  | block :: rest, inherited, table => walkDefaults rest inherited (walkDefault block inherited table)

end

/-- `DefaultTable::build` (`defaults.rs:125-132`). -/
def DefaultTable.build (blocks : List (DefaultBlock T)) : DefaultTable T := walkDefaults blocks {} {}

/-- `DefaultTable::resolve` (`defaults.rs:134-145`). -/
def DefaultTable.resolve (table : DefaultTable T) :
    Option String → Except GeomError (ClassDefaults T)
  | none => .ok table.root
  | some name =>
    match table.classes name with
    | some settings => .ok settings
    | none => .error (.undefinedClass name)

/-- A class's settings over the settings so far, or those unchanged when no class is named
(`geometry.rs:168-173`, `joint.rs:133-138`). -/
def DefaultTable.apply {S : Type} (table : DefaultTable T) (pick : ClassDefaults T → S)
    (overriddenBy : S → S → S) (className : Option String) (settings : S) : Except GeomError S :=
  match className with
  | none => .ok settings
  | some name =>
    match table.resolve (some name) with
    | .error e => .error e
    | .ok c => .ok (overriddenBy settings (pick c))

/-- `effective`, of a geom (`geometry.rs:160-175`): `className` is its own `class` attribute. -/
def effectiveGeom (table : DefaultTable T) (classChain className : Option String)
    (own : GeomDefaults T) : Except GeomError (GeomDefaults T) := do
  let settings ← table.apply (·.geom) GeomDefaults.overriddenBy classChain table.root.geom
  let settings ← table.apply (·.geom) GeomDefaults.overriddenBy className settings
  .ok (settings.overriddenBy own)

/-- `effective`, of a joint (`joint.rs:125-140`). -/
def effectiveJoint (table : DefaultTable T) (classChain className : Option String)
    (own : JointDefaults T) : Except GeomError (JointDefaults T) := do
  let settings ← table.apply (·.joint) JointDefaults.overriddenBy classChain table.root.joint
  let settings ← table.apply (·.joint) JointDefaults.overriddenBy className settings
  .ok (settings.overriddenBy own)

/-! ### Geoms -/

/-- `Shape` (`geometry.rs:19-26`). -/
inductive Shape where
  | sphere
  | ellipsoid
  | box
  | cylinder
  | capsule
  deriving DecidableEq

/-- The shape a `type` names (`geometry.rs:62-79`). -/
def shapeOf (geomType : Option String) : Except GeomError Shape :=
  let name := geomType.getD "sphere"
  if name = "sphere" then .ok .sphere
  else if name = "ellipsoid" then .ok .ellipsoid
  else if name = "box" then .ok .box
  else if name = "cylinder" then .ok .cylinder
  else if name = "capsule" then .ok .capsule
  else if name = "mesh" then .error .meshInertiaUnsupported
  else .error (.unsupportedGeomType name)

/-- `Axis` (`geometry.rs:28-34`). -/
structure Axis (T : Type) where
  halfLength : T
  center : Fin 3 → T
  turn : Quat T

/-- `GeomMass` (`geometry.rs:36-44`). -/
structure GeomMass (T : Type) where
  mass : T
  center : Fin 3 → T
  inertia : Matrix (Fin 3) (Fin 3) T

/-- A `<geom>` element: the first of the orientation attributes not supported
(`defaults.rs:171-185`), its `class`, and its own settings. -/
structure GeomElement (T : Type) where
  orientation : Option String := none
  className : Option String := none
  own : GeomDefaults T

/-- `extents` (`geometry.rs:270-295`). -/
def extents (size : Option (List T)) (shape : Shape) (axis : Option (Axis T)) :
    Except GeomError (Fin 3 → T) :=
  let reach : Option (Fin 3 → T) :=
    match shape, size.getD [], axis with
    | .cylinder, radius :: _, some axis => some ![radius, radius, axis.halfLength]
    | .capsule, radius :: _, some axis => some ![radius, radius, axis.halfLength]
    | .sphere, [radius], none => some ![radius, radius, radius]
    | .cylinder, [radius, halfLength], none => some ![radius, radius, halfLength]
    | .capsule, [radius, halfLength], none => some ![radius, radius, halfLength]
    | .ellipsoid, [a, b, c], _ => some ![a, b, c]
    | .box, [a, b, c], _ => some ![a, b, c]
    | _, _, _ => none
  match reach with
  | some e => .ok e
  | none => .error (.badAttribute "size")

section Numbers

variable [Zero T] [One T] [NatCast T] [Add T] [Sub T] [Neg T] [Mul T] [Div T] [LT T] [DecidableLT T]
  [LE T] [DecidableLE T] [BEq T] [Max T] [Fns T]

/-- `capsule` (`geometry.rs:177-212`). -/
def capsule (radius halfLength : T) : T × (Fin 3 → T) :=
  let barrel := ((2 : ℕ) : T) * Fns.pi * radius * radius * halfLength
  let caps := ((4 : ℕ) : T) / ((3 : ℕ) : T) * Fns.pi * radius * radius * radius
  let volume := barrel + caps
  if volume == 0 then (0, fun _ => 0)
  else
    let barrelShare := barrel / volume
    let capsShare := caps / volume
    let across := radius * radius / ((5 : ℕ) : T)
    let along := halfLength * halfLength + Fns.lit (3 / 4) * radius * halfLength + across
    (volume,
      ![barrelShare * radius * radius / ((4 : ℕ) : T) + capsShare * across,
        barrelShare * radius * radius / ((4 : ℕ) : T) + capsShare * across,
        barrelShare * halfLength * halfLength / ((3 : ℕ) : T) + capsShare * along])

/-- A shape's volume and mean square extents (`geometry.rs:86-122`). -/
def volumeSpread (shape : Shape) (e : Fin 3 → T) : T × (Fin 3 → T) :=
  match shape with
  | .sphere | .ellipsoid =>
    (((4 : ℕ) : T) / ((3 : ℕ) : T) * Fns.pi * e 0 * e 1 * e 2,
      ![e 0 * e 0 / ((5 : ℕ) : T), e 1 * e 1 / ((5 : ℕ) : T), e 2 * e 2 / ((5 : ℕ) : T)])
  | .box =>
    (((8 : ℕ) : T) * e 0 * e 1 * e 2,
      ![e 0 * e 0 / ((3 : ℕ) : T), e 1 * e 1 / ((3 : ℕ) : T), e 2 * e 2 / ((3 : ℕ) : T)])
  | .cylinder =>
    (((2 : ℕ) : T) * Fns.pi * e 0 * e 0 * e 2,
      ![e 0 * e 0 / ((4 : ℕ) : T), e 0 * e 0 / ((4 : ℕ) : T), e 2 * e 2 / ((3 : ℕ) : T)])
  | .capsule => capsule (e 0) (e 2)

/-- `axis` (`geometry.rs:214-268`). -/
def axisOf (settings : GeomDefaults T) (shape : Shape) : Except GeomError (Option (Axis T)) :=
  match settings.fromto with
  | none => .ok none
  | some ends =>
    if ¬(shape = .cylinder ∨ shape = .capsule) then
      .error (.unsupportedFromTo (settings.geomType.getD "sphere"))
    else if settings.pos.isSome then .error .conflictingPlacement
    else
      let start := ![ends 0, ends 1, ends 2]
      let stop := ![ends 3, ends 4, ends 5]
      let along := vsub stop start
      let length := vnorm along
      if length == 0 then .error (.badAttribute "fromto")
      else .ok (some ⟨length / ((2 : ℕ) : T), vscaleBy (vadd start stop) half,
        Quat.fromTwoVectors ![0, 0, 1] along⟩)

/-- `unit_quaternion` (`xml.rs:29-45`). -/
def unitQuaternion (quat : Fin 4 → T) : Except GeomError (Quat T) :=
  match (⟨quat 0, quat 1, quat 2, quat 3⟩ : Quat T).tryNormalized with
  | some q => .ok q
  | none => .error (.badAttribute "quat")

/-- The turn of a geom (`geometry.rs:141-144`). -/
def turnOf (settings : GeomDefaults T) (axis : Option (Axis T)) : Except GeomError (Quat T) :=
  match axis with
  | some axis => .ok axis.turn
  | none => unitQuaternion (settings.quat.getD ![1, 0, 0, 0])

/-- The center of a geom (`geometry.rs:148-151`). -/
def centerOf (settings : GeomDefaults T) (axis : Option (Axis T)) : Fin 3 → T :=
  match axis with
  | some axis => axis.center
  | none => settings.pos.getD fun _ => 0

/-- The mass of a geom (`geometry.rs:124-127`). -/
def massOf (settings : GeomDefaults T) (volume : T) : T :=
  match settings.mass with
  | some stated => stated
  | none => settings.density.getD ((1000 : ℕ) : T) * volume

/-- A tensor with principal moments `principal` in a frame turned by `turn`
(`geometry.rs:145-146`, `body.rs:198-199`). -/
def turnedTensor (turn : Quat T) (principal : Fin 3 → T) : Matrix (Fin 3) (Fin 3) T :=
  let rotation := turn.toRotationMatrix
  mmul (mmul rotation (mdiagonal principal)) (mtranspose rotation)

/-- `read_geom` once the settings in effect are known (`geometry.rs:56-158`). -/
def readSettings (settings : GeomDefaults T) : Except GeomError (Option (GeomMass T)) :=
  if (settings.mass.any fun m => m == 0) then .ok none
  else do
    let shape ← shapeOf settings.geomType
    let axis ← axisOf settings shape
    let e ← extents settings.size shape axis
    let (volume, spread) := volumeSpread shape e
    let mass := massOf settings volume
    if mass == 0 then .ok none
    else do
      let principal := ![mass * (spread 1 + spread 2), mass * (spread 0 + spread 2),
        mass * (spread 0 + spread 1)]
      let turn ← turnOf settings axis
      .ok (some ⟨mass, centerOf settings axis, turnedTensor turn principal⟩)

/-- `read_geom` (`geometry.rs:46-158`). -/
def readGeom (table : DefaultTable T) (classChain : Option String) (geom : GeomElement T) :
    Except GeomError (Option (GeomMass T)) :=
  match geom.orientation with
  | some attr => .error (.unsupportedOrientation attr)
  | none => do
    let settings ← effectiveGeom table classChain geom.className geom.own
    readSettings settings

/-! ### Inertia of a body -/

/-- The loop over a body's geoms (`body.rs:223-228`). -/
def readGeoms (table : DefaultTable T) (classChain : Option String) :
    List (GeomElement T) → Except GeomError (List (GeomMass T))
  | [] => .ok []
  | geom :: rest => do
    let shape ← readGeom table classChain geom
    let shapes ← readGeoms table classChain rest
    .ok (shape.toList ++ shapes)

/-- `shifted` (`body.rs:253-260`). -/
def shifted (mass : T) (offset : Fin 3 → T) : Matrix (Fin 3) (Fin 3) T :=
  let distanceSquared := vdot offset offset
  fun row column =>
    let alongDiagonal := if row = column then distanceSquared else 0
    mass * (alongDiagonal - offset row * offset column)

/-- The composite of a body's geoms (`body.rs:230-250`). -/
def composite (shapes : List (GeomMass T)) : Except GeomError (SpatialInertia T) :=
  let totalMass := shapes.foldl (fun sum shape => sum + shape.mass) 0
  if totalMass == 0 then .error .noInertiaSource
  else
    let weighted := shapes.foldl (fun running shape => vadd running (vscaleBy shape.center shape.mass))
      fun _ => 0
    let centerOfMass := vscaleBy weighted (1 / totalMass)
    let summed := shapes.foldl (fun running shape =>
      madd (madd running shape.inertia) (shifted shape.mass (vsub shape.center centerOfMass)))
      (fun _ _ => 0)
    match SpatialInertia.new totalMass centerOfMass summed with
    | .ok i => .ok i
    | .error e => .error (.inertia e)

/-- `synthesized_inertia` (`body.rs:214-251`). -/
def synthesizedInertia (table : DefaultTable T) (classChain : Option String)
    (geoms : List (GeomElement T)) : Except GeomError (SpatialInertia T) := do
  let shapes ← readGeoms table classChain geoms
  composite shapes

/-- An `<inertial>` element (`body.rs:183-188`, `198`). -/
structure InertialElement (T : Type) where
  orientation : Option String := none
  pos : Option (Fin 3 → T) := none
  mass : Option T := none
  diagonal : Option (Fin 3 → T) := none
  full : Option (Fin 6 → T) := none
  quat : Option (Fin 4 → T) := none

/-- `stated_inertia` (`body.rs:183-212`). -/
def statedInertia (node : InertialElement T) : Except GeomError (SpatialInertia T) :=
  match node.mass with
  | none => .error (.badAttribute "mass")
  | some mass => do
    let tensor ← (match node.diagonal, node.full with
      | some principal, none => do
        let turn ← unitQuaternion (node.quat.getD ![1, 0, 0, 0])
        .ok (turnedTensor turn principal)
      | none, some f => .ok (fun i j => (!![f 0, f 3, f 4; f 3, f 1, f 5; f 4, f 5, f 2]) i j)
      | _, _ => .error (.badAttribute "fullinertia") :
      Except GeomError (Matrix (Fin 3) (Fin 3) T))
    match SpatialInertia.new mass (node.pos.getD fun _ => 0) tensor with
    | .ok i => .ok i
    | .error e => .error (.inertia e)

/-! ### Joints and compiler settings -/

/-- `InertiaFromGeom` (`compiler.rs:18-26`). -/
inductive InertiaFromGeom where
  | never
  | auto
  | always
  deriving DecidableEq

/-- `CompilerSettings` (`compiler.rs:8-16`). -/
structure CompilerSettings where
  angleInDegrees : Bool := true
  autoLimits : Bool := true
  inertiaFromGeom : InertiaFromGeom := .auto

/-- `CompilerSettings::to_radians` (`compiler.rs:64-71`). -/
def CompilerSettings.toRadians (settings : CompilerSettings) (value : T) : T :=
  if settings.angleInDegrees then value * Fns.pi / ((180 : ℕ) : T) else value

/-- Where a body's inertia comes from (`body.rs:128-147`). -/
def bodyInertia (settings : CompilerSettings) (table : DefaultTable T) (classChain : Option String)
    (inertial : Option (InertialElement T)) (geoms : List (GeomElement T)) :
    Except GeomError (SpatialInertia T) :=
  let stated (node : InertialElement T) : Except GeomError (SpatialInertia T) :=
    match node.orientation with
    | some attr => .error (.unsupportedOrientation attr)
    | none => statedInertia node
  match settings.inertiaFromGeom, inertial with
  | .always, _ => synthesizedInertia table classChain geoms
  | .never, none => .error .noInertiaSource
  | .never, some node => stated node
  | .auto, some node => stated node
  | .auto, none => synthesizedInertia table classChain geoms

/-- `read_limits` (`joint.rs:98-123`). -/
def readLimits (resolved : JointDefaults T) (autoLimits : Bool) (toRadians : T → T) :
    Except GeomError (Option (T × T)) :=
  let limited := resolved.limited.getD "auto"
  if limited = "false" then .ok none
  else if limited = "true" then
    match resolved.range with
    | some (lower, upper) => .ok (some (toRadians lower, toRadians upper))
    | none => .error .limitsNeedRange
  else if limited = "auto" then
    match resolved.range with
    | some (lower, upper) =>
      if autoLimits then .ok (some (toRadians lower, toRadians upper)) else .error .limitsNeedRange
    | none => .ok none
  else .error (.badAttribute "limited")

/-- A `<joint>` element: its name, its `class` and its own settings. -/
structure JointElement (T : Type) where
  name : Option String := none
  className : Option String := none
  own : JointDefaults T

/-- `read_joint` (`joint.rs:16-96`), over the joint-like children of a body. -/
def readJoint (table : DefaultTable T) (classChain : Option String) (settings : CompilerSettings) :
    List (JointElement T) → Except GeomError (Option (JointDescription T))
  | [] => .ok none
  | [node] => do
    let resolved ← effectiveJoint table classChain node.className node.own
    let jointType := resolved.jointType.getD "hinge"
    let isRevolute := decide (jointType = "hinge")
    let baseKind ← (if jointType = "hinge" then .ok .revolute
      else if jointType = "slide" then .ok .prismatic
      else .error (.unsupportedJoint jointType) : Except GeomError JointKind)
    let toRadians := fun value : T => if isRevolute then settings.toRadians value else value
    match vtryNormalized (resolved.axis.getD ![0, 0, 1]) with
    | none => .error (.badAttribute "axis")
    | some axis => do
      let limits ← readLimits resolved settings.autoLimits toRadians
      let kind := if isRevolute && limits.isNone then .continuous else baseKind
      .ok (some
        { name := node.name.getD "joint"
          kind := kind
          axis := axis
          anchor := resolved.pos.getD fun _ => 0
          limits := limits
          zeroOffset := toRadians (resolved.reference.getD 0)
          armature := resolved.armature.getD 0
          damping := resolved.damping.getD 0
          frictionLoss := resolved.frictionLoss.getD 0
          springReference := toRadians (resolved.springReference.getD 0)
          springStiffness := resolved.stiffness.getD 0
          mimic := none })
  | many => .error (.multipleJoints many.length)

end Numbers

end Multicalc.Mjcf
