import Verif.Model.Pid
import Verif.Model.Drive
import Verif.Model.Mapping

/-!
# Reactive gap following

Models `crates/multicalc/src/control/follow_the_gap.rs`.  A scan of `beams` readings is a function on `Fin beams`.
-/

namespace Multicalc

/-- `FollowTheGap`, `follow_the_gap.rs:28-49`. -/
structure FollowTheGap (T : Type) where
  fieldOfView : T
  maximumRange : T
  chassisWidth : T
  freeRangeThreshold : T
  cruiseSpeed : T
  steeringGain : T
  goalBias : T
  stoppingDistance : T
  clearDistance : T
  frontalHalfAngle : T

/-- `FollowTheGapOutput`, `follow_the_gap.rs:53-60`. -/
structure FollowTheGapOutput (T : Type) where
  bodyTwist : BodyTwist T
  heading : T
  gapStartIndex : ℕ
  gapEndIndex : ℕ
  minimumClearance : T
  blocked : Bool

/-- The variables of the gap search, `follow_the_gap.rs:322-324`. -/
structure GapSearch (T : Type) where
  bestScore : T
  bestGap : Option (ℕ × ℕ × T)
  runStart : Option ℕ

namespace FollowTheGap

section
variable {T : Type} [Zero T] [One T] [NatCast T] [Add T] [Sub T] [Neg T] [Mul T] [Div T] [LT T] [LE T] [BEq T]
  [DecidableLT T] [DecidableLE T] [Max T] [Min T] [Fns T] {beams : ℕ}

/-- `FollowTheGap::try_new`, `follow_the_gap.rs:135-183`. -/
def tryNew (beams : ℕ) (fieldOfView maximumRange chassisWidth freeRangeThreshold cruiseSpeed : T) :
    Except ControlError (FollowTheGap T) :=
  if beams < 2 then .error .invalidBeamCount
  else if !Fns.isFinite fieldOfView || !Fns.isFinite maximumRange || !Fns.isFinite chassisWidth
      || !Fns.isFinite freeRangeThreshold || !Fns.isFinite cruiseSpeed then .error .nonFinite
  else if fieldOfView ≤ 0 ∨ ((2 : ℕ) : T) * Fns.pi < fieldOfView then .error .invalidFieldOfView
  else if maximumRange ≤ 0 ∨ freeRangeThreshold ≤ 0 ∨ maximumRange < freeRangeThreshold then
    .error .nonPositiveRange
  else if chassisWidth ≤ 0 ∨ maximumRange ≤ chassisWidth * (1 / ((2 : ℕ) : T)) then
    .error .nonPositiveChassisWidth
  else if cruiseSpeed ≤ 0 then .error .nonPositiveSpeed
  else .ok
    { fieldOfView, maximumRange, chassisWidth, freeRangeThreshold, cruiseSpeed
      steeringGain := Fns.lit (3 / 2)
      goalBias := Fns.lit (1 / 2)
      stoppingDistance := chassisWidth * (1 / ((2 : ℕ) : T))
      clearDistance := maximumRange
      frontalHalfAngle := fieldOfView / Fns.lit 4 }

/-- `with_steering_gain`, `follow_the_gap.rs:189-198`. -/
def withSteeringGain (f : FollowTheGap T) (steeringGain : T) : Except ControlError (FollowTheGap T) :=
  if !Fns.isFinite steeringGain then .error .nonFinite
  else if steeringGain ≤ 0 then .error .nonPositiveSpeed
  else .ok { f with steeringGain }

/-- `with_goal_bias`, `follow_the_gap.rs:204-213`. -/
def withGoalBias (f : FollowTheGap T) (goalBias : T) : Except ControlError (FollowTheGap T) :=
  if !Fns.isFinite goalBias then .error .nonFinite
  else if goalBias < 0 then .error .negativeGoalBias
  else .ok { f with goalBias }

/-- `with_speed_scaling`, `follow_the_gap.rs:220-234`. -/
def withSpeedScaling (f : FollowTheGap T) (stoppingDistance clearDistance : T) :
    Except ControlError (FollowTheGap T) :=
  if !Fns.isFinite stoppingDistance || !Fns.isFinite clearDistance then .error .nonFinite
  else if stoppingDistance < 0 ∨ clearDistance ≤ stoppingDistance then .error .invalidSpeedScaling
  else .ok { f with stoppingDistance, clearDistance }

/-- `with_frontal_half_angle`, `follow_the_gap.rs:241-250`. -/
def withFrontalHalfAngle (f : FollowTheGap T) (frontalHalfAngle : T) : Except ControlError (FollowTheGap T) :=
  if !Fns.isFinite frontalHalfAngle then .error .nonFinite
  else if frontalHalfAngle ≤ 0 ∨ f.fieldOfView * (1 / ((2 : ℕ) : T)) < frontalHalfAngle then
    .error .invalidFieldOfView
  else .ok { f with frontalHalfAngle }

/-- `sanitized_range`, `follow_the_gap.rs:427-432`. -/
def sanitizedRange (f : FollowTheGap T) (ranges : Fin beams → T) (index : ℕ) : T :=
  if h : index < beams then
    let range := ranges ⟨index, h⟩
    if Fns.isFinite range && decide (0 < range) then min range f.maximumRange else f.maximumRange
  else f.maximumRange

/-- `beam_angle_unchecked`, `follow_the_gap.rs:437-442`. -/
def beamAngle (f : FollowTheGap T) (beams index : ℕ) : T := beamAngleAcross f.fieldOfView beams index

/-- `gap_width`, `follow_the_gap.rs:453-463`. -/
def gapWidth (f : FollowTheGap T) (ranges : Fin beams → T) (start stop : ℕ) : Option T :=
  if start = 0 then none
  else if stop + 1 < beams then
    let before := start - 1
    let after := stop + 1
    let rangeA := f.sanitizedRange ranges before
    let rangeB := f.sanitizedRange ranges after
    let separation := f.beamAngle beams after - f.beamAngle beams before
    let squared := rangeA * rangeA + rangeB * rangeB - ((2 : ℕ) : T) * rangeA * rangeB * Fns.cos separation
    some (Fns.sqrt (max squared 0))
  else none

/-- The inward margin at an edge obstacle, `follow_the_gap.rs:475-477`. -/
def inset (f : FollowTheGap T) (ranges : Fin beams → T) (index : ℕ) : T :=
  atan (f.chassisWidth * (1 / ((2 : ℕ) : T)) / f.sanitizedRange ranges index)

/-- `aim_bounds`, `follow_the_gap.rs:474-485`. -/
def aimBounds (f : FollowTheGap T) (ranges : Fin beams → T) (start stop : ℕ) : T × T :=
  (f.beamAngle beams start + (if start = 0 then 0 else f.inset ranges (start - 1)),
    f.beamAngle beams stop - (if stop + 1 < beams then f.inset ranges (stop + 1) else 0))

/-- The aim within a run, `follow_the_gap.rs:346-355`. -/
def aimOf (f : FollowTheGap T) (ranges : Fin beams → T) (goal : T) (start stop : ℕ) : T :=
  let bounds := f.aimBounds ranges start stop
  if bounds.2 < bounds.1 then (f.beamAngle beams start + f.beamAngle beams stop) * (1 / ((2 : ℕ) : T))
  else min (max goal bounds.1) bounds.2

/-- The score of a run, `follow_the_gap.rs:357-358`. -/
def scoreOf (f : FollowTheGap T) (ranges : Fin beams → T) (goal : T) (start stop : ℕ) : T :=
  let bounds := f.aimBounds ranges start stop
  max (bounds.2 - bounds.1) 0 - f.goalBias * Fns.abs (f.aimOf ranges goal start stop - goal)

/-- Whether a run is too narrow, `follow_the_gap.rs:338-341`. -/
def tooNarrow (f : FollowTheGap T) (ranges : Fin beams → T) (start stop : ℕ) : Bool :=
  match f.gapWidth ranges start stop with
  | some width => decide (width < f.chassisWidth)
  | none => false

/-- Whether a beam counts as open space, `follow_the_gap.rs:327-328`. -/
def isFree (f : FollowTheGap T) (ranges : Fin beams → T) (index : ℕ) : Bool :=
  decide (index < beams) && decide (f.freeRangeThreshold ≤ f.sanitizedRange ranges index)

/-- The `wins` test, `follow_the_gap.rs:363-369`. -/
def wins (s : GapSearch T) (score aim : T) : Bool :=
  match s.bestGap with
  | none => true
  | some (_, _, bestAim) =>
    decide (s.bestScore < score) || ((score == s.bestScore) && decide (Fns.abs aim < Fns.abs bestAim))

/-- One pass of the gap search, `follow_the_gap.rs:326-377`. -/
def searchStep (f : FollowTheGap T) (ranges : Fin beams → T) (goal : T) (s : GapSearch T) (index : ℕ) :
    GapSearch T :=
  match f.isFree ranges index, s.runStart with
  | true, none => { s with runStart := some index }
  | false, some start =>
    let stop := index - 1
    if f.tooNarrow ranges start stop then { s with runStart := none }
    else
      let aim := f.aimOf ranges goal start stop
      let score := f.scoreOf ranges goal start stop
      if wins s score aim then ⟨score, some (start, stop, aim), none⟩
      else { s with runStart := none }
  | _, _ => s

/-- The clearance loops, `follow_the_gap.rs:311-317` and `:387-395`: the least reading among the beams `keep`. -/
def clearance (f : FollowTheGap T) (ranges : Fin beams → T) (keep : ℕ → Bool) : T :=
  (List.range beams).foldl (fun least index =>
    let range := f.sanitizedRange ranges index
    if keep index && decide (range < least) then range else least) f.maximumRange

/-- `FollowTheGap::compute`, `follow_the_gap.rs:301-416`. -/
def compute (f : FollowTheGap T) (ranges : Fin beams → T) (goal : T) :
    Except ControlError (FollowTheGapOutput T) :=
  if !Fns.isFinite goal then .error .nonFinite
  else
    let minimumClearance := f.clearance ranges fun _ => true
    let search := (List.range (beams + 1)).foldl (f.searchStep ranges goal) ⟨Fns.negInfinity, none, none⟩
    match search.bestGap with
    | none => .ok ⟨⟨0, 0⟩, 0, 0, 0, minimumClearance, true⟩
    | some (gapStart, gapEnd, heading) =>
      let frontalClearance := f.clearance ranges fun index =>
        decide (Fns.abs (f.beamAngle beams index) ≤ f.frontalHalfAngle)
      let span := f.clearDistance - f.stoppingDistance
      let speedScale := min (max ((frontalClearance - f.stoppingDistance) / span) 0) 1
      .ok ⟨⟨f.cruiseSpeed * speedScale, f.steeringGain * heading⟩, heading, gapStart, gapEnd,
        minimumClearance, false⟩

end
end FollowTheGap
end Multicalc
