import Verif.Model.XR

/-!
# Occupancy maps and scan geometry

Models `crates/multicalc/src/mapping/occupancy_grid.rs` and `mapping/scan_geometry.rs`.

Simplified: `usize` and `isize` are `ℕ` and `ℤ` (the constructor's overflow check is kept); the
numbers of columns and rows are taken to fit a `usize`.
-/

namespace Multicalc

/-- `usize::MAX` on a 64-bit target. -/
def usizeMax : ℕ := 2 ^ 64 - 1

/-- Rust's `value.to_f64() as usize` (`scalar/primal.rs`, `Primal::to_f64`): truncates, saturates at both ends, NaN gives zero. -/
class AsUsize (T : Type) where
  asUsize : T → ℕ

noncomputable instance : AsUsize ℝ := ⟨fun x => min ⌊x⌋₊ usizeMax⟩

/-- The cast at the extended reals. -/
noncomputable instance : AsUsize XR where
  asUsize := fun
    | .fin x => min ⌊x⌋₊ usizeMax
    | .pinf => usizeMax
    | .ninf => 0
    | .nan => 0

export AsUsize (asUsize)

/-- `error.rs`, `enum MappingError` (the variants these files return). -/
inductive MappingError where
  | emptyGrid
  | gridTooLarge
  | nonFinite
  | nonPositiveResolution
  | tooFewBeams
  | invalidFieldOfView
  | nonPositiveRange
  | invalidRangeLimits
  deriving DecidableEq

/-- The required methods of `trait OccupancyMap`, `occupancy_grid.rs:17-36`. -/
structure OccupancyMap (T : Type) where
  columns : ℕ
  rows : ℕ
  resolution : T
  originX : T
  originY : T
  isOccupied : ℕ → ℕ → Bool

section
variable {T : Type} [Zero T] [One T] [NatCast T] [Add T] [Sub T] [Neg T] [Mul T] [Div T] [LT T] [LE T]
  [DecidableLT T] [DecidableLE T] [BEq T] [Max T] [Min T] [Fns T] [AsUsize T]

namespace OccupancyMap

/-- `OccupancyMap::cell_of`, `occupancy_grid.rs:78-91`. -/
def cellOf (m : OccupancyMap T) (px py : T) : Option (ℕ × ℕ) :=
  let column := Fns.floor ((px - m.originX) / m.resolution)
  let row := Fns.floor ((py - m.originY) / m.resolution)
  if column < 0 ∨ row < 0 then none
  else if asUsize column < m.columns ∧ asUsize row < m.rows then some (asUsize row, asUsize column)
  else none

/-- One pass of the loop of `entry_distance`, `occupancy_grid.rs:606-620`; `none` is the early return. -/
def slabStep (nearFar : T × T) (start step low high : T) : Option (T × T) :=
  if step == 0 then
    if start < low ∨ high < start then none else some nearFar
  else
    let inverse := 1 / step
    let first := (low - start) * inverse
    let second := (high - start) * inverse
    let (first, second) := if second < first then (second, first) else (first, second)
    some (max nearFar.1 first, min nearFar.2 second)

/-- `entry_distance`, `occupancy_grid.rs:580-626`. -/
def entryDistance (m : OccupancyMap T) (sx sy dx dy : T) : Option T :=
  let highX := m.originX + ((m.columns : ℕ) : T) * m.resolution
  let highY := m.originY + ((m.rows : ℕ) : T) * m.resolution
  match slabStep (Fns.negInfinity, Fns.infinity) sx dx m.originX highX with
  | none => none
  | some nf =>
    match slabStep nf sy dy m.originY highY with
    | none => none
    | some nf => if nf.2 < nf.1 ∨ nf.2 < 0 then none else some (max nf.1 0)

/-- `axis_step`, `occupancy_grid.rs:630-632`. -/
def axisStep (component : T) : ℤ := if 0 < component then 1 else -1

/-- `boundary_distance`, `occupancy_grid.rs:635-649`. The index is never negative where it is called. -/
def boundaryDistance (startAxis directionAxis : T) (index step : ℤ) (lowest resolution : T) : T :=
  if directionAxis == 0 then Fns.infinity
  else
    let nextIndex := if 0 < step then index + 1 else index
    let boundary := lowest + ((nextIndex.toNat : ℕ) : T) * resolution
    (boundary - startAxis) / directionAxis

/-- `clamp_index`, `occupancy_grid.rs:653-662`. -/
def clampIndex (value : T) (length : ℕ) : ℤ :=
  let floored := Fns.floor value
  if floored < 0 then 0
  else if length ≤ asUsize floored then (length : ℤ) - 1
  else (asUsize floored : ℤ)

/-- The stride along one axis, `occupancy_grid.rs:179-188`. -/
def stride (direction resolution : T) : T :=
  if direction == 0 then Fns.infinity else resolution / Fns.abs direction

/-- The loop of `cast_ray`, `occupancy_grid.rs:210-234`, run for at most the given number of passes;
`none` when they are used up. -/
def castLoop (m : OccupancyMap T) (maximumRange : T) (stepColumn stepRow : ℤ) (strideColumn strideRow : T) :
    ℕ → ℤ → ℤ → T → T → T → Option (Option T)
  | 0, _, _, _, _, _ => none
  | n + 1, column, row, entered, nextColumn, nextRow =>
    if maximumRange < entered then some none
    else if column < 0 ∨ row < 0 then some none
    else if m.columns ≤ column.toNat ∨ m.rows ≤ row.toNat then some none
    else if m.isOccupied row.toNat column.toNat then some (some entered)
    else if nextColumn < nextRow then
      castLoop m maximumRange stepColumn stepRow strideColumn strideRow n
        (column + stepColumn) row nextColumn (nextColumn + strideColumn) nextRow
    else
      castLoop m maximumRange stepColumn stepRow strideColumn strideRow n
        column (row + stepRow) nextRow nextColumn (nextRow + strideRow)

/-- `cast_ray`, `occupancy_grid.rs:151-235`, with its loop run for at most `passes` passes; the outer
`none` means they were used up. -/
def castRayRun (m : OccupancyMap T) (sx sy bearing maximumRange : T) (passes : ℕ) : Option (Option T) :=
  if m.columns = 0 ∨ m.rows = 0 then some none
  else
    let dx := Fns.cos bearing
    let dy := Fns.sin bearing
    match entryDistance m sx sy dx dy with
    | none => some none
    | some entry =>
      if maximumRange < entry then some none
      else
        let px := sx + entry * dx
        let py := sy + entry * dy
        let column := clampIndex ((px - m.originX) / m.resolution) m.columns
        let row := clampIndex ((py - m.originY) / m.resolution) m.rows
        castLoop m maximumRange (axisStep dx) (axisStep dy) (stride dx m.resolution) (stride dy m.resolution)
          passes column row entry
          (boundaryDistance sx dx column (axisStep dx) m.originX m.resolution)
          (boundaryDistance sy dy row (axisStep dy) m.originY m.resolution)

/-- `cast_ray`, `occupancy_grid.rs:151-235`. The loop is given as many passes as the map has columns and
rows together; `castRay_terminates` proves it never needs more. -/
def castRay (m : OccupancyMap T) (sx sy bearing maximumRange : T) : Option T :=
  (castRayRun m sx sy bearing maximumRange (m.columns + m.rows)).getD none

end OccupancyMap

/-- `DynamicOccupancyGrid`, `occupancy_grid.rs:480-486`. -/
structure DynamicOccupancyGrid (T : Type) where
  columns : ℕ
  rows : ℕ
  resolution : T
  originX : T
  originY : T
  cells : List Bool

namespace DynamicOccupancyGrid

/-- `DynamicOccupancyGrid::try_new`, `occupancy_grid.rs:500-525`. -/
def tryNew (columns rows : ℕ) (resolution originX originY : T) :
    Except MappingError (DynamicOccupancyGrid T) :=
  if columns = 0 ∨ rows = 0 then .error .emptyGrid
  else if usizeMax < columns * rows then .error .gridTooLarge
  else if !Fns.isFinite resolution || !Fns.isFinite originX || !Fns.isFinite originY then .error .nonFinite
  else if resolution ≤ 0 then .error .nonPositiveResolution
  else .ok ⟨columns, rows, resolution, originX, originY, List.replicate (columns * rows) false⟩

/-- `index_of`, `occupancy_grid.rs:531-533`. -/
def indexOf (g : DynamicOccupancyGrid T) (row column : ℕ) : Option ℕ :=
  if row < g.rows ∧ column < g.columns then some (row * g.columns + column) else none

/-- `is_occupied`, `occupancy_grid.rs:554-559`. -/
def isOccupied (g : DynamicOccupancyGrid T) (row column : ℕ) : Bool :=
  match g.indexOf row column with
  | none => false
  | some index => (g.cells[index]?).getD false

/-- `impl OccupancyMap for DynamicOccupancyGrid`, `occupancy_grid.rs:537-560`. -/
def toMap (g : DynamicOccupancyGrid T) : OccupancyMap T :=
  ⟨g.columns, g.rows, g.resolution, g.originX, g.originY, g.isOccupied⟩

/-- `set_cell`, `occupancy_grid.rs:564-571`. -/
def setCell (g : DynamicOccupancyGrid T) (row column : ℕ) (occupied : Bool) : DynamicOccupancyGrid T :=
  match g.indexOf row column with
  | none => g
  | some index => { g with cells := g.cells.set index occupied }

/-- `clear`, `occupancy_grid.rs:573-575`. -/
def clear (g : DynamicOccupancyGrid T) : DynamicOccupancyGrid T :=
  { g with cells := g.cells.map fun _ => false }

/-- `occupy_point`, `occupancy_grid.rs:247-251`. -/
def occupyPoint (g : DynamicOccupancyGrid T) (px py : T) : DynamicOccupancyGrid T :=
  match g.toMap.cellOf px py with
  | none => g
  | some (row, column) => g.setCell row column true

/-- How many steps an edge is cut into, `occupancy_grid.rs:329-330`. -/
def edgeSamples (step : T) (a b : T × T) : ℕ :=
  asUsize (max (Fns.ceil (hypot (b.1 - a.1) (b.2 - a.2) / step)) 1)

/-- The point `sample` of an edge, `occupancy_grid.rs:332-336`. -/
def edgePoint (a b : T × T) (samples sample : ℕ) : T × T :=
  let fraction := ((sample : ℕ) : T) / ((samples : ℕ) : T)
  (a.1 + fraction * (b.1 - a.1), a.2 + fraction * (b.2 - a.2))

/-- The inner loop of `occupy_polyline`, `occupancy_grid.rs:329-337`. -/
def occupyEdge (g : DynamicOccupancyGrid T) (step : T) (a b : T × T) : DynamicOccupancyGrid T :=
  let samples := edgeSamples step a b
  (List.range (samples + 1)).foldl
    (fun g sample => g.occupyPoint (edgePoint a b samples sample).1 (edgePoint a b samples sample).2) g

/-- `occupy_polyline`, `occupancy_grid.rs:314-339`. -/
def occupyPolyline (g : DynamicOccupancyGrid T) (polyline : List (T × T)) (closed : Bool) :
    DynamicOccupancyGrid T :=
  let step := Fns.lit (2 / 5) * g.resolution
  let count := polyline.length
  let edges := if closed then count else count - 1
  (List.range edges).foldl
    (fun g index =>
      match polyline[index]?, polyline[(index + 1) % max count 1]? with
      | some a, some b => g.occupyEdge step a b
      | _, _ => g) g

/-- The step of `occupy_circle`, `occupancy_grid.rs:388`. -/
def circleStep (g : DynamicOccupancyGrid T) (radius : T) : T :=
  max (Fns.lit (2 / 5) * g.resolution / radius) (Fns.lit (1 / 1000))

/-- The loop of `occupy_circle`, `occupancy_grid.rs:390-396`, run for at most the given number of passes;
`none` when they are used up. -/
def circleLoop (cx cy radius step : T) : ℕ → T → DynamicOccupancyGrid T → Option (DynamicOccupancyGrid T)
  | 0, _, _ => none
  | n + 1, angle, g =>
    if angle < ((2 : ℕ) : T) * Fns.pi then
      circleLoop cx cy radius step n (angle + step)
        (g.occupyPoint (cx + radius * Fns.cos angle) (cy + radius * Fns.sin angle))
    else some g

/-- `occupy_circle`, `occupancy_grid.rs:387-397`, its loop run for at most `passes` passes. -/
def occupyCircleRun (g : DynamicOccupancyGrid T) (cx cy radius : T) (passes : ℕ) :
    Option (DynamicOccupancyGrid T) :=
  circleLoop cx cy radius (g.circleStep radius) passes 0 g

end DynamicOccupancyGrid

/-- `ScanGeometry`, `scan_geometry.rs:36-43`. -/
structure ScanGeometry (numBeams : ℕ) (T : Type) where
  fieldOfView : T
  minimumRange : T
  maximumRange : T

/-- `beam_angle_across`, `scan_geometry.rs:300-303`. -/
def beamAngleAcross (fieldOfView : T) (numBeams index : ℕ) : T :=
  -fieldOfView * (1 / ((2 : ℕ) : T)) + fieldOfView * ((index : ℕ) : T) / (((numBeams - 1 : ℕ)) : T)

namespace ScanGeometry
variable {numBeams : ℕ}

/-- `ScanGeometry::try_new`, `scan_geometry.rs:55-73`. -/
def tryNew (numBeams : ℕ) (fieldOfView maximumRange : T) : Except MappingError (ScanGeometry numBeams T) :=
  if numBeams < 2 then .error .tooFewBeams
  else if !Fns.isFinite fieldOfView || !Fns.isFinite maximumRange then .error .nonFinite
  else if fieldOfView ≤ 0 ∨ ((2 : ℕ) : T) * Fns.pi < fieldOfView then .error .invalidFieldOfView
  else if maximumRange ≤ 0 then .error .nonPositiveRange
  else .ok ⟨fieldOfView, 0, maximumRange⟩

/-- `with_minimum_range`, `scan_geometry.rs:94-103`. -/
def withMinimumRange (s : ScanGeometry numBeams T) (minimumRange : T) :
    Except MappingError (ScanGeometry numBeams T) :=
  if !Fns.isFinite minimumRange then .error .nonFinite
  else if minimumRange < 0 ∨ s.maximumRange ≤ minimumRange then .error .invalidRangeLimits
  else .ok { s with minimumRange := minimumRange }

/-- `angle_increment`, `scan_geometry.rs:150-153`. -/
def angleIncrement (s : ScanGeometry numBeams T) : T := s.fieldOfView / (((numBeams - 1 : ℕ)) : T)

/-- `range_is_valid`, `scan_geometry.rs:184-186`. -/
def rangeIsValid (s : ScanGeometry numBeams T) (range : T) : Bool :=
  Fns.isFinite range && decide (s.minimumRange ≤ range) && decide (range ≤ s.maximumRange)

/-- `beam_angle`, `scan_geometry.rs:210-212`. -/
def beamAngle (s : ScanGeometry numBeams T) (index : ℕ) : Option T :=
  if index < numBeams then some (beamAngleAcross s.fieldOfView numBeams index) else none

/-- `nearest_beam_index`, `scan_geometry.rs:248-265`. -/
def nearestBeamIndex (s : ScanGeometry numBeams T) (angle : T) : Option ℕ :=
  let halfTheArc := s.fieldOfView * (1 / ((2 : ℕ) : T))
  if !Fns.isFinite angle || decide (angle < -halfTheArc) || decide (halfTheArc < angle) then none
  else
    let steps := Fns.round ((angle + halfTheArc) / s.angleIncrement)
    if steps < 0 then some 0
    else some (min (asUsize steps) (numBeams - 1))

end ScanGeometry
end
end Multicalc
