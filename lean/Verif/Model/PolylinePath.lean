import Verif.Model.MotionProfile
import Verif.Model.Spatial

/-!
# Waypoint paths

Models `crates/multicalc/src/motion/polyline_path.rs`.  The fixed arrays with a runtime length are lists of
the live entries; `maxPoints` is the capacity.
-/

namespace Multicalc

/-- `error.rs`, `enum MotionError` (the variants the path returns). -/
inductive PathError where
  | capacityExceeded
  | nonFinite
  | pathTooShort
  | outOfSync
  deriving DecidableEq

/-- `EndOfPath`, `polyline_path.rs:10-15`. -/
inductive EndOfPath where
  | stop
  | loop
  deriving DecidableEq

/-- `PathProjection`, `polyline_path.rs:19-24`. -/
structure PathProjection (n : ℕ) (T : Type) where
  point : Fin n → T
  segmentIndex : ℕ
  arcLength : T
  distance : T

/-- `PolylinePath`, `polyline_path.rs:84-89`. -/
structure PolylinePath (n : ℕ) (T : Type) where
  points : List (Fin n → T)
  cumulative : List T
  endOfPath : EndOfPath

namespace PolylinePath

section
variable {n : ℕ} {T : Type} [Zero T] [One T] [Add T] [Sub T] [Mul T] [Div T] [LT T] [LE T] [BEq T]
  [DecidableLT T] [DecidableLE T] [Max T] [Min T] [Fns T]

/-- `PolylinePath::new`, `polyline_path.rs:105-112`. -/
def new : PolylinePath n T := ⟨[], [], .stop⟩

/-- The running lengths of `try_from_points`, `polyline_path.rs:131-147`: `a` is the last point stored, `acc`
the length so far. -/
def cumulativeFrom (acc : T) : (Fin n → T) → List (Fin n → T) → List T
  | _, [] => [acc]
  | a, b :: rest => acc :: cumulativeFrom (acc + vnorm (vsub b a)) b rest

/-- `PolylinePath::try_from_points`, `polyline_path.rs:118-151`. -/
def tryFromPoints (maxPoints : ℕ) (points : List (Fin n → T)) : Except PathError (PolylinePath n T) :=
  if maxPoints < points.length then .error .capacityExceeded
  else if points.any fun point => !vecIsFinite point then .error .nonFinite
  else match points with
    | [] => .ok new
    | first :: rest => .ok ⟨points, cumulativeFrom 0 first rest, .stop⟩

/-- `PolylinePath::push`, `polyline_path.rs:157-195`. -/
def push (maxPoints : ℕ) (p : PolylinePath n T) (point : Fin n → T) : Except PathError (PolylinePath n T) :=
  if p.points.length = maxPoints then .error .capacityExceeded
  else if !vecIsFinite point then .error .nonFinite
  else if p.points.length = 0 then .ok ⟨p.points ++ [point], p.cumulative ++ [0], p.endOfPath⟩
  else match p.points[p.points.length - 1]?, p.cumulative[p.points.length - 1]? with
    | some lastPoint, some lastCumulative =>
      .ok ⟨p.points ++ [point], p.cumulative ++ [lastCumulative + vnorm (vsub point lastPoint)], p.endOfPath⟩
    | _, _ => .error .capacityExceeded

/-- `PolylinePath::with_end_of_path`, `polyline_path.rs:200-203`. -/
def withEndOfPath (p : PolylinePath n T) (mode : EndOfPath) : PolylinePath n T := { p with endOfPath := mode }

/-- `PolylinePath::total_arc_length`, `polyline_path.rs:227-236`. -/
def totalArcLength (p : PolylinePath n T) : T :=
  if p.points.length = 0 then 0 else (p.cumulative[p.points.length - 1]?).getD 0

/-- The candidate of one segment, `polyline_path.rs:266-276`: the point and its parameter. -/
def segmentCandidate (query a b : Fin n → T) : (Fin n → T) × T :=
  let direction := vsub b a
  let denominator := vnormSquared direction
  if denominator == 0 then (a, 0)
  else
    let parameter := min (max (vdot (vsub query a) direction / denominator) 0) 1
    (vadd a (vscaleBy direction parameter), parameter)

/-- The `improved` test, `polyline_path.rs:278-281`. -/
def improved (distance : T) : Option (PathProjection n T) → Bool
  | some current => decide (distance < current.distance)
  | none => true

/-- The loop of `closest_point`, `polyline_path.rs:261-295`. -/
def closestLoop (cumulative : List T) (query : Fin n → T) :
    List (Fin n → T) → ℕ → Option (PathProjection n T) → Except PathError (Option (PathProjection n T))
  | a :: b :: rest, segmentIndex, best =>
    let segmentLength := vnorm (vsub b a)
    let c := segmentCandidate query a b
    let distance := vnorm (vsub query c.1)
    if improved distance best then
      match cumulative[segmentIndex]? with
      | none => .error .outOfSync
      | some start =>
        closestLoop cumulative query (b :: rest) (segmentIndex + 1)
          (some ⟨c.1, segmentIndex, start + segmentLength * c.2, distance⟩)
    else closestLoop cumulative query (b :: rest) (segmentIndex + 1) best
  | _, _, best => .ok best

/-- `PolylinePath::closest_point`, `polyline_path.rs:242-297`. -/
def closestPoint (p : PolylinePath n T) (query : Fin n → T) : Except PathError (PathProjection n T) :=
  match p.points with
  | [] => .error .pathTooShort
  | [first] => .ok ⟨first, 0, 0, vnorm (vsub query first)⟩
  | points =>
    match closestLoop p.cumulative query points 0 none with
    | .error e => .error e
    | .ok none => .error .pathTooShort
    | .ok (some best) => .ok best

/-- The loop of `lookahead_point`, `polyline_path.rs:337-358`. -/
def lookaheadLoop (cumulative : List T) (target : T) (last : Fin n → T) :
    List (Fin n → T) → ℕ → Except PathError (Fin n → T)
  | a :: b :: rest, segmentIndex =>
    let direction := vsub b a
    let segmentLength := vnorm direction
    if segmentLength == 0 then lookaheadLoop cumulative target last (b :: rest) (segmentIndex + 1)
    else
      match cumulative[segmentIndex]? with
      | none => .error .outOfSync
      | some arcLength =>
        if target ≤ arcLength + segmentLength then
          .ok (vadd a (vscaleBy direction ((target - arcLength) / segmentLength)))
        else lookaheadLoop cumulative target last (b :: rest) (segmentIndex + 1)
  | _, _ => .ok last

/-- `PolylinePath::lookahead_point`, `polyline_path.rs:305-359`. -/
def lookaheadPoint (p : PolylinePath n T) (fromArcLength lookahead : T) : Except PathError (Fin n → T) :=
  match p.points with
  | [] => .error .pathTooShort
  | [first] => .ok first
  | first :: rest =>
    let last := (first :: rest).getLastD first
    let total := p.totalArcLength
    let target := fromArcLength + lookahead
    match p.endOfPath with
    | .stop =>
      if total ≤ target then .ok last
      else lookaheadLoop p.cumulative target last (first :: rest) 0
    | .loop =>
      if 0 < total then
        lookaheadLoop p.cumulative (target - total * Fns.floor (target / total)) last (first :: rest) 0
      else .ok first

end
end PolylinePath
end Multicalc
