import Verif.Model.XR

/-!
# Point-to-point motion profiles

Models `crates/multicalc/src/motion/motion_profile.rs`.  The seven-element arrays are lists.
-/

namespace Multicalc

/-- `error.rs:305-328`, `enum MotionError`; what the last two variants carry is not recorded. -/
inductive MotionError where
  | nonFinite
  | capacityExceeded
  | outOfSync
  | pathTooShort
  | segmentCountMismatch
  | durationNotPositive
  | workspaceTooSmall
  | limitNotPositive
  | jerkLimitRequired
  | linalg
  | polynomial
  deriving DecidableEq

/-- `ProfileLimits`, `motion_profile.rs:16-20`. -/
structure ProfileLimits (T : Type) where
  speed : T
  acceleration : T
  jerk : Option T

/-- `ProfileStrategy`, `motion_profile.rs:68-76`. -/
inductive ProfileStrategy where
  | automatic
  | trapezoidal
  | jerkLimited
  deriving DecidableEq

/-- `ProfileState`, `motion_profile.rs:80-89`. -/
structure ProfileState (T : Type) where
  position : T
  velocity : T
  acceleration : T
  jerk : T

/-- `ProfilePhase`, `motion_profile.rs:93-99`. -/
structure ProfilePhase (T : Type) where
  duration : T
  jerk : T
  startPosition : T
  startVelocity : T
  startAcceleration : T

/-- `MotionProfile`, `motion_profile.rs:144-148`. -/
structure MotionProfile (T : Type) where
  phases : List (ProfilePhase T)
  duration : T
  distance : T

/-- `MotionProfilePlanner`, `motion_profile.rs:460-463`. -/
structure MotionProfilePlanner (T : Type) where
  limits : ProfileLimits T
  strategy : ProfileStrategy

section
variable {T : Type} [Zero T] [One T] [NatCast T] [Add T] [Sub T] [Neg T] [Mul T] [Div T] [LT T] [LE T]
  [DecidableLT T] [DecidableLE T] [Max T] [Min T] [Fns T]

/-- The test of `ProfileLimits::try_new`, `motion_profile.rs:28`. -/
def isPositiveLimit (value : T) : Bool := Fns.isFinite value && decide (0 < value)

/-- `ProfileLimits::try_new`, `motion_profile.rs:27-42`. -/
def ProfileLimits.tryNew (speed acceleration : T) (jerk : Option T) : Except MotionError (ProfileLimits T) :=
  if !isPositiveLimit speed || !isPositiveLimit acceleration then .error .limitNotPositive
  else match jerk with
    | none => .ok ⟨speed, acceleration, jerk⟩
    | some jerkLimit =>
      if !isPositiveLimit jerkLimit then .error .limitNotPositive else .ok ⟨speed, acceleration, jerk⟩

namespace ProfilePhase

/-- The position `elapsed` into a phase, `motion_profile.rs:181-184` and `:274-277`. -/
def positionAt (p : ProfilePhase T) (elapsed : T) : T :=
  p.startPosition + p.startVelocity * elapsed
    + p.startAcceleration * elapsed * elapsed * (1 / ((2 : ℕ) : T))
    + p.jerk * elapsed * elapsed * elapsed / ((6 : ℕ) : T)

/-- The velocity `elapsed` into a phase, `motion_profile.rs:185-186` and `:278-280`. -/
def velocityAt (p : ProfilePhase T) (elapsed : T) : T :=
  p.startVelocity + p.startAcceleration * elapsed + p.jerk * elapsed * elapsed * (1 / ((2 : ℕ) : T))

/-- The state `elapsed` into a phase, `motion_profile.rs:273-283`. -/
def stateAt (p : ProfilePhase T) (elapsed : T) : ProfileState T :=
  ⟨p.positionAt elapsed, p.velocityAt elapsed, p.startAcceleration + p.jerk * elapsed, p.jerk⟩

end ProfilePhase

namespace MotionProfile

/-- The loop of `from_phase_plan`, `motion_profile.rs:163-188`: the stored phases, the total duration and
the last position. A plan entry is a duration, a jerk and a starting acceleration. -/
def planLoop (sign : T) : List (T × T × T) → T → T → T → List (ProfilePhase T) × T × T
  | [], total, position, _ => ([], total, position)
  | (duration, jerk, acceleration) :: rest, total, position, velocity =>
    let phase : ProfilePhase T := ⟨duration, jerk * sign, position, velocity, acceleration * sign⟩
    let r := planLoop sign rest (total + duration) (phase.positionAt duration) (phase.velocityAt duration)
    (phase :: r.1, r.2)

/-- `MotionProfile::from_phase_plan`, `motion_profile.rs:157-195`. -/
def fromPhasePlan (plan : List (T × T × T)) (sign : T) : MotionProfile T :=
  let r := planLoop sign plan 0 0 0
  ⟨r.1, r.2.1, r.2.2⟩

/-- `MotionProfile::peak_speed`, `motion_profile.rs:213-217`. -/
def peakSpeed (p : MotionProfile T) : T :=
  match p.phases[3]? with
  | none => 0
  | some cruise => cruise.startVelocity

/-- `MotionProfile::stretched_to`, `motion_profile.rs:240-255`. -/
def stretchedTo (p : MotionProfile T) (duration : T) : MotionProfile T :=
  if !Fns.isFinite duration || decide (duration ≤ p.duration) || decide (p.duration ≤ 0) then p
  else
    let scale := duration / p.duration
    { phases := p.phases.map fun phase =>
        { phase with
          duration := phase.duration * scale
          startVelocity := phase.startVelocity / scale
          startAcceleration := phase.startAcceleration / (scale * scale)
          jerk := phase.jerk / (scale * scale * scale) }
      duration := duration
      distance := p.distance }

/-- The loop of `state_at`, `motion_profile.rs:268-294`. -/
def stateLoop (distance clamped : T) : List (ProfilePhase T) → T → ProfileState T
  | [], _ => ⟨distance, 0, 0, 0⟩
  | phase :: rest, phaseStart =>
    let phaseEnd := phaseStart + phase.duration
    if clamped < phaseEnd then phase.stateAt (clamped - phaseStart)
    else stateLoop distance clamped rest phaseEnd

/-- `MotionProfile::state_at`, `motion_profile.rs:262-295`. -/
def stateAt (p : MotionProfile T) (time : T) : Except MotionError (ProfileState T) :=
  if !Fns.isFinite time then .error .nonFinite
  else .ok (stateLoop p.distance (min (max time 0) p.duration) p.phases 0)

end MotionProfile

open MotionProfile

/-- `plan_still`, `motion_profile.rs:300-307`. -/
def planStill (sign : T) : MotionProfile T :=
  fromPhasePlan (List.replicate 7 (0, 0, 0)) sign

/-- `plan_trapezoidal`, `motion_profile.rs:313-352`. -/
def planTrapezoidal (distance : T) (limits : ProfileLimits T) (sign : T) : MotionProfile T :=
  let accelerationLimit := limits.acceleration
  let speedReachable := Fns.sqrt (distance * accelerationLimit)
  let peakSpeed := min limits.speed speedReachable
  if peakSpeed ≤ 0 then planStill sign
  else
    let accelerationTime := peakSpeed / accelerationLimit
    let cruiseTime := max ((distance - peakSpeed * accelerationTime) / peakSpeed) 0
    fromPhasePlan
      [(0, 0, 0), (accelerationTime, 0, accelerationLimit), (0, 0, 0), (cruiseTime, 0, 0), (0, 0, 0),
        (accelerationTime, 0, -accelerationLimit), (0, 0, 0)] sign

/-- `acceleration_ramp`, `motion_profile.rs:359-367`. -/
def accelerationRamp (peakSpeed accelerationLimit jerkLimit : T) : T × T :=
  if accelerationLimit * accelerationLimit ≤ peakSpeed * jerkLimit then
    let jerkTime := accelerationLimit / jerkLimit
    (jerkTime, max (peakSpeed / accelerationLimit - jerkTime) 0)
  else (Fns.sqrt (peakSpeed / jerkLimit), 0)

/-- The reachable speed of `plan_jerk_limited`, `motion_profile.rs:383-391`. -/
def speedReachable (distance accelerationLimit jerkLimit : T) : T :=
  let speedTriangular := Fns.cbrt (distance * distance * jerkLimit / ((4 : ℕ) : T))
  if speedTriangular * jerkLimit < accelerationLimit * accelerationLimit then speedTriangular
  else
    let ratio := accelerationLimit * accelerationLimit / jerkLimit
    (-ratio + Fns.sqrt (ratio * ratio + accelerationLimit * distance * ((4 : ℕ) : T))) * (1 / ((2 : ℕ) : T))

/-- `plan_jerk_limited`, `motion_profile.rs:373-433`. -/
def planJerkLimited (distance : T) (limits : ProfileLimits T) (jerkLimit sign : T) : MotionProfile T :=
  let accelerationLimit := limits.acceleration
  let peakSpeed := min limits.speed (speedReachable distance accelerationLimit jerkLimit)
  if peakSpeed ≤ 0 then planStill sign
  else
    let ramp := accelerationRamp peakSpeed accelerationLimit jerkLimit
    let jerkTime := ramp.1
    let holdTime := ramp.2
    let rampTime := jerkTime + jerkTime + holdTime
    let cruiseTime := max ((distance - peakSpeed * rampTime) / peakSpeed) 0
    let peakAcceleration := jerkLimit * jerkTime
    fromPhasePlan
      [(jerkTime, jerkLimit, 0), (holdTime, 0, peakAcceleration), (jerkTime, -jerkLimit, peakAcceleration),
        (cruiseTime, 0, 0), (jerkTime, -jerkLimit, 0), (holdTime, 0, -peakAcceleration),
        (jerkTime, jerkLimit, -peakAcceleration)] sign

/-- `MotionProfilePlanner::plan`, `motion_profile.rs:504-521`. -/
def MotionProfilePlanner.plan (p : MotionProfilePlanner T) (distance : T) : Except MotionError (MotionProfile T) :=
  if !Fns.isFinite distance then .error .nonFinite
  else
    let magnitude := Fns.abs distance
    let sign : T := if distance < 0 then -1 else 1
    match p.strategy, p.limits.jerk with
    | .jerkLimited, none => .error .jerkLimitRequired
    | .trapezoidal, _ => .ok (planTrapezoidal magnitude p.limits sign)
    | .automatic, none => .ok (planTrapezoidal magnitude p.limits sign)
    | .automatic, some jerkLimit => .ok (planJerkLimited magnitude p.limits jerkLimit sign)
    | .jerkLimited, some jerkLimit => .ok (planJerkLimited magnitude p.limits jerkLimit sign)

/-- `SynchronizedProfile`, `motion_profile.rs:565-568`. -/
structure SynchronizedProfile (T : Type) where
  axes : List (MotionProfile T)
  duration : T

namespace SynchronizedProfile

/-- `slowest_duration`, `motion_profile.rs:650-653`. -/
def slowestDuration (axes : List (MotionProfile T)) : T :=
  axes.foldl (fun longest axis => max longest axis.duration) 0

/-- `from_profiles`, `motion_profile.rs:575-581`; `stretched_axes` is `:657-668`. -/
def fromProfiles (axes : List (MotionProfile T)) : SynchronizedProfile T :=
  let slowest := slowestDuration axes
  ⟨axes.map fun axis => axis.stretchedTo slowest, slowest⟩

/-- `try_from_profiles_over`, `motion_profile.rs:587-600`. -/
def tryFromProfilesOver (axes : List (MotionProfile T)) (duration : T) :
    Except MotionError (SynchronizedProfile T) :=
  if !Fns.isFinite duration || decide (duration ≤ 0) then .error .durationNotPositive
  else
    let target := max duration (slowestDuration axes)
    .ok ⟨axes.map fun axis => axis.stretchedTo target, target⟩

/-- `SynchronizedProfile::state_at`, `motion_profile.rs:619-647`: one state per axis. -/
def stateAt (p : SynchronizedProfile T) (time : T) : Except MotionError (List (ProfileState T)) :=
  p.axes.mapM fun axis => axis.stateAt time

end SynchronizedProfile
end
end Multicalc
