import Verif.Model.LinearAlgebra
import Verif.Model.PolynomialConstruction
import Verif.Model.Piecewise
import Verif.Model.MotionProfile
import Verif.Model.Ode

/-!
# Degree-seven pieces from endpoint data, and minimum-snap paths

Models `crates/multicalc/src/polynomial/construction.rs:282-334, 382-427` and
`crates/multicalc/src/motion/minimum_snap.rs`.  As in `Verif.Model.LinearAlgebra`, `largest` is `T::MAX`.
-/

namespace Multicalc

section
variable {T : Type} [Zero T] [One T] [NatCast T] [Add T] [Sub T] [Mul T] [Div T] [Neg T] [LT T] [DecidableLT T]
  [LE T] [DecidableLE T] [BEq T] [Max T] [Min T] [Fns T]

namespace Poly

/-- The running product `ways` of `endpoint_mapping` at the start of a piece (`construction.rs:296-304`). -/
def startWays (order : ℕ) : T := (List.range order).foldl (fun ways step => ways * ((step + 1 : ℕ) : T)) 1

/-- The product `ways` of `endpoint_mapping` at the end of a piece (`construction.rs:316-319`). -/
def endWays (order column : ℕ) : T := (List.range order).foldl (fun ways step => ways * ((column - step : ℕ) : T)) 1

/-- `endpoint_mapping` (`construction.rs:287-326`); each entry is written at most once. -/
def endpointMapping (span : T) : Matrix (Fin 8) (Fin 8) T := fun row column =>
  if row.val = 0 then if column.val = 0 then 1 else 0
  else if row.val < 4 then if row.val = column.val then startWays row.val / spanRaised span row.val else 0
  else if row.val = 4 then 1
  else
    let order := row.val - 4
    if order ≤ column.val then endWays order column.val / spanRaised span order else 0

/-- `endpoint_mapping_inverse` (`construction.rs:330-334`). -/
def endpointMappingInverse (largest span : T) : Except LinalgError (Matrix (Fin 8) (Fin 8) T) :=
  minverse largest (endpointMapping span)

/-- `Polynomial::<8>::from_endpoint_derivatives` (`construction.rs:403-426`). -/
def fromEndpointDerivatives (largest : T) (start finish : Fin 4 → T) (span : T) : Except PolynomialError (List T) :=
  if !Fns.isFinite span || (List.ofFn start ++ List.ofFn finish).any (fun value => !Fns.isFinite value) then
    .error .nonFinite
  else if span ≤ 0 then .error .spanNotPositive
  else
    let wanted : Fin 8 → T := Fin.append start finish
    match endpointMappingInverse largest span with
    | .error _ => .error .linalg
    | .ok inverse => .ok (List.ofFn (mmulVec inverse wanted))

end Poly

/-- `BoundaryDerivatives`, `minimum_snap.rs:20-27`. -/
structure BoundaryDerivatives (d : ℕ) (T : Type) where
  velocity : Fin d → T
  acceleration : Fin d → T
  jerk : Fin d → T

/-- `EndpointDerivative`, `minimum_snap.rs:56-61`. -/
inductive EndpointDerivative (d : ℕ) (T : Type) where
  | fixed (value : Fin d → T)
  | free (row : ℕ)

/-- `MinimumSnapPlanner`, `minimum_snap.rs:150-158`; the two capacities are arguments of `plan`. `with_start` and
`with_end` (`:192-203`) assign the fields. -/
structure MinimumSnapPlanner (d : ℕ) (T : Type) where
  start : BoundaryDerivatives d T
  finish : BoundaryDerivatives d T

variable {d n : ℕ}

/-- `BoundaryDerivatives::default`, `minimum_snap.rs:30-36`. -/
def BoundaryDerivatives.default : BoundaryDerivatives d T := ⟨fun _ => 0, fun _ => 0, fun _ => 0⟩

/-- `all_finite`, `minimum_snap.rs:41-43`. -/
def BoundaryDerivatives.allFinite (b : BoundaryDerivatives d T) : Bool :=
  vIsFinite b.velocity && vIsFinite b.acceleration && vIsFinite b.jerk

/-- `at_order`, `minimum_snap.rs:46-52`. -/
def BoundaryDerivatives.atOrder (b : BoundaryDerivatives d T) (order : ℕ) : Fin d → T :=
  if order = 1 then b.velocity else if order = 2 then b.acceleration else b.jerk

/-- `ways_after_four_derivatives`, `minimum_snap.rs:65-71`. -/
def waysAfterFourDerivatives (index : ℕ) : T :=
  (List.range 4).foldl (fun product step => product * ((index - step : ℕ) : T)) 1

/-- `snap_cost`, `minimum_snap.rs:77-90`. -/
def snapCost : Matrix (Fin 8) (Fin 8) T := fun row column =>
  if 4 ≤ row.val ∧ 4 ≤ column.val then
    waysAfterFourDerivatives row.val * waysAfterFourDerivatives column.val / ((row.val + column.val - 7 : ℕ) : T)
  else 0

/-- What `plan` accumulates (`minimum_snap.rs:278-279`). -/
structure SnapSystem (n d : ℕ) (T : Type) where
  reduced : Matrix (Fin n) (Fin n) T
  knownSide : Matrix (Fin n) (Fin d) T

namespace MinimumSnapPlanner

/-- `new`, `minimum_snap.rs:182-187`. -/
def new : MinimumSnapPlanner d T := ⟨.default, .default⟩

/-- `classify`, `minimum_snap.rs:206-227`. -/
def classify (p : MinimumSnapPlanner d T) (waypoints : List (Fin d → T)) (segments waypoint order : ℕ) :
    EndpointDerivative d T :=
  if order = 0 then .fixed (waypoints.getD waypoint fun _ => 0)
  else if waypoint = 0 then .fixed (p.start.atOrder order)
  else if waypoint = segments then .fixed (p.finish.atOrder order)
  else .free (3 * (waypoint - 1) + (order - 1))

/-- The body of the innermost loop, `minimum_snap.rs:298-323`. -/
def assembleEntry (p : MinimumSnapPlanner d T) (waypoints : List (Fin d → T)) (segments segment : ℕ)
    (terms : Matrix (Fin 8) (Fin 8) T) (localRow : Fin 8) (freeRow : ℕ) (s : SnapSystem n d T) (localColumn : Fin 8) :
    SnapSystem n d T :=
  let entry := terms localRow localColumn
  match p.classify waypoints segments (segment + localColumn.val / 4) (localColumn.val % 4) with
  | .free freeColumn =>
    { s with reduced := fun i j => if i.val = freeRow ∧ j.val = freeColumn then s.reduced i j + entry else s.reduced i j }
  | .fixed value =>
    { s with knownSide := fun i axis =>
        if i.val = freeRow then s.knownSide i axis - entry * value axis else s.knownSide i axis }

/-- One row of one segment, `minimum_snap.rs:288-324`. -/
def assembleRow (p : MinimumSnapPlanner d T) (waypoints : List (Fin d → T)) (segments segment : ℕ)
    (terms : Matrix (Fin 8) (Fin 8) T) (s : SnapSystem n d T) (localRow : Fin 8) : SnapSystem n d T :=
  match p.classify waypoints segments (segment + localRow.val / 4) (localRow.val % 4) with
  | .fixed _ => s
  | .free freeRow => (List.finRange 8).foldl (p.assembleEntry waypoints segments segment terms localRow freeRow) s

/-- The loop over the segments, `minimum_snap.rs:281-325`; `segment` counts those done. -/
def assemble (p : MinimumSnapPlanner d T) (largest : T) (waypoints : List (Fin d → T)) (segments : ℕ) :
    ℕ → List T → SnapSystem n d T → Except MotionError (SnapSystem n d T)
  | _, [], s => .ok s
  | segment, duration :: rest, s =>
    match Poly.endpointMappingInverse largest duration with
    | .error _ => .error .linalg
    | .ok inverse =>
      let terms := mmul (mmul (mtranspose inverse) (mscale snapCost (powi duration (-7)))) inverse
      assemble p largest waypoints segments (segment + 1) rest
        ((List.finRange 8).foldl (p.assembleRow waypoints segments segment terms) s)

/-- The symmetrized system with ones on the unused diagonal, `minimum_snap.rs:329-336`. -/
def paddedSystem (freeCount : ℕ) (reduced : Matrix (Fin n) (Fin n) T) : Matrix (Fin n) (Fin n) T := fun i j =>
  if i = j ∧ freeCount ≤ i.val then 1
  else mscale (madd reduced (mtranspose reduced)) (1 / ((2 : ℕ) : T)) i j

/-- The four values at a waypoint, `minimum_snap.rs:351-366`: known ones directly, chosen ones from the solve. -/
def waypointBlock (p : MinimumSnapPlanner d T) (waypoints : List (Fin d → T)) (segments : ℕ)
    (solved : Matrix (Fin n) (Fin d) T) (waypoint : ℕ) (axis : Fin d) (order : Fin 4) : T :=
  match p.classify waypoints segments waypoint order.val with
  | .fixed value => value axis
  | .free row => if h : row < n then solved ⟨row, h⟩ axis else 0

/-- One segment's polynomials, `minimum_snap.rs:383-392`: the first axis that fails ends the call. -/
def collectAxes {α ε : Type} (f : Fin d → Except ε (List α)) : Except ε (Fin d → List α) :=
  match (List.finRange d).findSome? fun axis => match f axis with | .error e => some e | .ok _ => none with
  | some e => .error e
  | none => .ok fun axis => match f axis with | .ok piece => piece | .error _ => []

/-- The loop over the segments, `minimum_snap.rs:374-396`. -/
def buildPieces (largest : T) (block : ℕ → Fin d → Fin 4 → T) :
    ℕ → List T → Except Poly.PolynomialError (List (Fin d → List T))
  | _, [] => .ok []
  | segment, duration :: rest =>
    match collectAxes fun axis =>
        Poly.fromEndpointDerivatives largest (block segment axis) (block (segment + 1) axis) duration with
    | .error e => .error e
    | .ok piece =>
      match buildPieces largest block (segment + 1) rest with
      | .error e => .error e
      | .ok pieces => .ok (piece :: pieces)

/-- `plan`, `minimum_snap.rs:241-402`; the planner's `MAX_SEGMENTS` is `maxSegments` and its `MAX_FREE_DERIVATIVES` is `n`. -/
def plan (p : MinimumSnapPlanner d T) (largest : T) (maxSegments n : ℕ) (waypoints : List (Fin d → T))
    (durations : List T) : Except MotionError (List (Poly.Piece d T)) :=
  if waypoints.length < 2 then .error .pathTooShort
  else
    let segments := waypoints.length - 1
    if maxSegments < segments then .error .capacityExceeded
    else if durations.length ≠ segments then .error .segmentCountMismatch
    else if durations.any fun duration => !Fns.isFinite duration || decide (duration ≤ 0) then
      .error .durationNotPositive
    else if waypoints.any (fun waypoint => !vIsFinite waypoint) || !p.start.allFinite || !p.finish.allFinite then
      .error .nonFinite
    else
      let freeCount := 3 * (segments - 1)
      if n < freeCount then .error .workspaceTooSmall
      else
        match p.assemble (n := n) largest waypoints segments 0 durations ⟨fun _ _ => 0, fun _ _ => 0⟩ with
        | .error e => .error e
        | .ok s =>
          let solved : Except MotionError (Matrix (Fin n) (Fin d) T) :=
            if freeCount = 0 then .ok fun _ _ => 0
            else match luDecompose largest (paddedSystem freeCount s.reduced) with
              | .error _ => .error .linalg
              | .ok f => .ok (f.solveMatrix s.knownSide)
          match solved with
          | .error e => .error e
          | .ok solved =>
            match buildPieces largest (p.waypointBlock waypoints segments solved) 0 durations with
            | .error _ => .error .polynomial
            | .ok pieces =>
              match Poly.tryFromPieces maxSegments pieces durations with
              | .error _ => .error .polynomial
              | .ok curve => .ok curve

end MinimumSnapPlanner

/-- The loop of `durations_from_average_speed`, `minimum_snap.rs:449-458`: the times as left, and the verdict. -/
def fillDurations (averageSpeed : T) : List (Fin d → T) → List T → List T × Except MotionError Unit
  | start :: finish :: waypoints, slot :: durations =>
    let distance := vnorm (vsub finish start)
    if distance ≤ 0 then (slot :: durations, .error .durationNotPositive)
    else
      let rest := fillDurations averageSpeed (finish :: waypoints) durations
      (distance / averageSpeed :: rest.1, rest.2)
  | _, durations => (durations, .ok ())

/-- `durations_from_average_speed`, `minimum_snap.rs:431-460`: the times as left, and the verdict. -/
def durationsFromAverageSpeed (waypoints : List (Fin d → T)) (averageSpeed : T) (durations : List T) :
    List T × Except MotionError Unit :=
  if waypoints.length < 2 then (durations, .error .pathTooShort)
  else if durations.length ≠ waypoints.length - 1 then (durations, .error .segmentCountMismatch)
  else if !Fns.isFinite averageSpeed || decide (averageSpeed ≤ 0) then (durations, .error .durationNotPositive)
  else if waypoints.any fun waypoint => !vIsFinite waypoint then (durations, .error .nonFinite)
  else fillDurations averageSpeed waypoints durations

end
end Multicalc
