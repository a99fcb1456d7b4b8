import Verif.Model.Drive

/-!
# Sphere and capsule proximity

`crates/multicalc/src/kinematics/collision.rs`.  The solved tree state is a function giving the pose of
each frame it has.  The fixed-capacity arrays with their counts are lists; `T::MAX`, from which the search
for the smallest clearance starts, is a parameter.
-/

namespace Multicalc

/-- `Primitive` (`collision.rs:16-29`). -/
inductive Primitive (T : Type) where
  | sphere (radius : T)
  | capsule (radius halfLength : T)

/-- `CollisionSource` (`collision.rs:265-270`). -/
inductive CollisionSource where
  | selfPrimitive (i : ℕ)
  | environment (i : ℕ)
  deriving DecidableEq

/-- `CollisionReport` (`collision.rs:275-281`). -/
structure CollisionReport (T : Type) where
  minimumClearance : T
  closestPair : Option (CollisionSource × CollisionSource)

/-- `AttachedPrimitive` (`collision.rs:250-254`). -/
structure AttachedPrimitive (T : Type) where
  frameIndex : ℕ
  shape : Primitive T
  localPose : SE3 T

/-- `WorldPrimitive` (`collision.rs:258-261`). -/
structure WorldPrimitive (T : Type) where
  shape : Primitive T
  pose : SE3 T

/-- `CollisionQuery` (`collision.rs:327-339`). -/
structure CollisionQuery (T : Type) where
  selfPrimitives : List (AttachedPrimitive T)
  environmentPrimitives : List (WorldPrimitive T)
  excludedPairs : List (ℕ × ℕ)

section

variable {T : Type}

/-- `CollisionQuery::new` (`collision.rs:354-372`). -/
def CollisionQuery.new : CollisionQuery T := ⟨[], [], []⟩

/-- `CollisionQuery::push_self_primitive` (`collision.rs:379-397`); `maxSelf` is `MAX_SELF`. -/
def CollisionQuery.pushSelf (maxSelf : ℕ) (q : CollisionQuery T) (frame : ℕ) (shape : Primitive T)
    (localPose : SE3 T) : Except KinematicsError (ℕ × CollisionQuery T) :=
  let index := q.selfPrimitives.length
  if index < maxSelf then
    .ok (index, { q with selfPrimitives := q.selfPrimitives ++ [⟨frame, shape, localPose⟩] })
  else .error .collisionCapacityExceeded

/-- `CollisionQuery::push_environment_primitive` (`collision.rs:403-416`). -/
def CollisionQuery.pushEnvironment (maxEnv : ℕ) (q : CollisionQuery T) (shape : Primitive T)
    (pose : SE3 T) : Except KinematicsError (ℕ × CollisionQuery T) :=
  let index := q.environmentPrimitives.length
  if index < maxEnv then
    .ok (index, { q with environmentPrimitives := q.environmentPrimitives ++ [⟨shape, pose⟩] })
  else .error .collisionCapacityExceeded

/-- `CollisionQuery::exclude_pair` (`collision.rs:423-431`). -/
def CollisionQuery.excludePair (maxEx : ℕ) (q : CollisionQuery T) (first second : ℕ) :
    Except KinematicsError (CollisionQuery T) :=
  if q.excludedPairs.length < maxEx then
    .ok { q with excludedPairs := q.excludedPairs ++ [(first, second)] }
  else .error .collisionCapacityExceeded

/-- `CollisionQuery::is_excluded` (`collision.rs:445-451`). -/
def CollisionQuery.isExcluded (q : CollisionQuery T) (first second : ℕ) : Bool :=
  q.excludedPairs.any fun pair => pair == (first, second) || pair == (second, first)

/-- `CollisionReport::is_clear` (`collision.rs:286-288`). -/
def CollisionReport.isClear [LE T] [DecidableLE T] (r : CollisionReport T) (required : T) : Bool :=
  r.closestPair.isNone || decide (required ≤ r.minimumClearance)

variable [Zero T] [One T] [NatCast T] [Add T] [Sub T] [Mul T] [Div T] [Neg T] [LT T]
  [DecidableLT T] [LE T] [DecidableLE T] [Fns T]

/-- `capsule_axis` (`collision.rs:94-96`). -/
def capsuleAxis (pose : SE3 T) : Fin 3 → T := pose.rotation.act ![0, 0, 1]

/-- `capsule_segment` (`collision.rs:99-105`). -/
def capsuleSegment (pose : SE3 T) (halfLength : T) : (Fin 3 → T) × (Fin 3 → T) :=
  let axis := capsuleAxis pose
  (vsub pose.translation (vscaleBy axis halfLength), vadd pose.translation (vscaleBy axis halfLength))

/-- `closest_point_on_segment` (`collision.rs:109-123`). -/
def closestPointOnSegment (point start stop : Fin 3 → T) : Fin 3 → T :=
  let segment := vsub stop start
  let lengthSquared := vdot segment segment
  if lengthSquared ≤ Fns.epsilon then start
  else
    let parameter := smin (smax (vdot (vsub point start) segment / lengthSquared) 0) 1
    vadd start (vscaleBy segment parameter)

/-- The parameters found by `closest_points_between_segments` (`collision.rs:135-197`), from the two
squared lengths `a`, `e`, the alignment `b` and the two offsets `c`, `f`, in the main case. -/
def segmentParameters (a e b c f : T) : T × T :=
  let denominator := a * e - b * b
  let candidate :=
    if Fns.epsilon < denominator then smin (smax ((b * f - c * e) / denominator) 0) 1 else 0
  let secondCandidate := (b * candidate + f) / e
  if secondCandidate < 0 then (smin (smax (-c / a) 0) 1, 0)
  else if 1 < secondCandidate then (smin (smax ((b - c) / a) 0) 1, 1)
  else (candidate, secondCandidate)

/-- `closest_points_between_segments` (`collision.rs:129-202`). -/
def closestPointsBetweenSegments (firstStart firstEnd secondStart secondEnd : Fin 3 → T) :
    (Fin 3 → T) × (Fin 3 → T) :=
  let firstDirection := vsub firstEnd firstStart
  let secondDirection := vsub secondEnd secondStart
  let startOffset := vsub firstStart secondStart
  let a := vdot firstDirection firstDirection
  let e := vdot secondDirection secondDirection
  let f := vdot secondDirection startOffset
  if a ≤ Fns.epsilon ∧ e ≤ Fns.epsilon then (firstStart, secondStart)
  else
    let st : T × T :=
      if a ≤ Fns.epsilon then (0, smin (smax (f / e) 0) 1)
      else
        let c := vdot firstDirection startOffset
        if e ≤ Fns.epsilon then (smin (smax (-c / a) 0) 1, 0)
        else segmentParameters a e (vdot firstDirection secondDirection) c f
    (vadd firstStart (vscaleBy firstDirection st.1), vadd secondStart (vscaleBy secondDirection st.2))

/-- `sphere_sphere_distance` (`collision.rs:206-213`). -/
def sphereSphereDistance (p : SE3 T) (r : T) (q : SE3 T) (s : T) : T :=
  vnorm (vsub p.translation q.translation) - r - s

/-- `capsule_capsule_distance` (`collision.rs:218-231`). -/
def capsuleCapsuleDistance (p : SE3 T) (r h : T) (q : SE3 T) (s k : T) : T :=
  let first := capsuleSegment p h
  let second := capsuleSegment q k
  let closest := closestPointsBetweenSegments first.1 first.2 second.1 second.2
  vnorm (vsub closest.1 closest.2) - r - s

/-- `sphere_capsule_distance` (`collision.rs:236-246`). -/
def sphereCapsuleDistance (p : SE3 T) (r : T) (q : SE3 T) (s k : T) : T :=
  let segment := capsuleSegment q k
  let centre := p.translation
  vnorm (vsub centre (closestPointOnSegment centre segment.1 segment.2)) - r - s

/-- `Primitive::distance_to` (`collision.rs:49-90`). -/
def Primitive.distanceTo (x : Primitive T) (p : SE3 T) (y : Primitive T) (q : SE3 T) : T :=
  match x, y with
  | .sphere r, .sphere s => sphereSphereDistance p r q s
  | .capsule r h, .capsule s k => capsuleCapsuleDistance p r h q s k
  | .sphere r, .capsule s k => sphereCapsuleDistance p r q s k
  | .capsule s k, .sphere r => sphereCapsuleDistance q r p s k

/-- One comparison of `check` (`collision.rs:487-494`, `501-508`). -/
def improve (acc : T × Option (CollisionSource × CollisionSource)) (clearance : T)
    (pair : CollisionSource × CollisionSource) : T × Option (CollisionSource × CollisionSource) :=
  if clearance < acc.1 then (clearance, some pair) else acc

/-- World pose of an attached primitive (`collision.rs:474-478`, `483-486`). -/
def attachedPose (pose : ℕ → Option (SE3 T)) (x : AttachedPrimitive T) : Except KinematicsError (SE3 T) :=
  match pose x.frameIndex with
  | none => .error .toolIndexOutOfRange
  | some p => .ok (p.compose x.localPose)

/-- The inner loop over later self-primitives (`collision.rs:480-495`). -/
def CollisionQuery.selfLoop (q : CollisionQuery T) (pose : ℕ → Option (SE3 T)) (i : ℕ)
    (x : AttachedPrimitive T) (p : SE3 T) (later : List (AttachedPrimitive T × ℕ))
    (acc : T × Option (CollisionSource × CollisionSource)) :
    Except KinematicsError (T × Option (CollisionSource × CollisionSource)) :=
  later.foldlM (fun acc yj =>
    if q.isExcluded i yj.2 then .ok acc
    else do
      let r ← attachedPose pose yj.1
      return improve acc (x.shape.distanceTo p yj.1.shape r) (.selfPrimitive i, .selfPrimitive yj.2)) acc

/-- The inner loop over the environment (`collision.rs:497-508`). -/
def CollisionQuery.environmentLoop (q : CollisionQuery T) (i : ℕ)
    (x : AttachedPrimitive T) (p : SE3 T) (acc : T × Option (CollisionSource × CollisionSource)) :
    T × Option (CollisionSource × CollisionSource) :=
  q.environmentPrimitives.zipIdx.foldl (fun acc ok =>
    improve acc (x.shape.distanceTo p ok.1.shape ok.1.pose) (.selfPrimitive i, .environment ok.2)) acc

/-- `CollisionQuery::check` (`collision.rs:458-519`); `big` is `T::MAX`. -/
def CollisionQuery.check (big : T) (q : CollisionQuery T) (pose : ℕ → Option (SE3 T)) :
    Except KinematicsError (CollisionReport T) := do
  let acc ← q.selfPrimitives.zipIdx.foldlM (fun acc xi => do
    let p ← attachedPose pose xi.1
    let acc ← q.selfLoop pose xi.2 xi.1 p (q.selfPrimitives.zipIdx.drop (xi.2 + 1)) acc
    return q.environmentLoop xi.2 xi.1 p acc) (big, none)
  return ⟨if acc.2.isSome then acc.1 else 0, acc.2⟩

end

end Multicalc
