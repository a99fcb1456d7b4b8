import Verif.Model.Signal
import Verif.Model.XR

/-!
# PID controller

Models `control/pid.rs`.
-/

namespace Multicalc
variable {T : Type}

/-- `enum ControlError`, `error.rs:201-246`; only the variants the modelled code can return. -/
inductive ControlError
  | nonFinite
  | nonPositiveTimestep
  | invalidOutputLimits
  | nonPositiveLookaheadDistance
  | invalidBeamCount
  | invalidFieldOfView
  | nonPositiveRange
  | nonPositiveChassisWidth
  | nonPositiveSpeed
  | invalidSpeedScaling
  | negativeGoalBias
  | nonPositiveGain
  | notSymmetricInertia
  | nonPositiveInertia
  | undefinedThrustDirection
  | undefinedHeadingDirection
  | linalg
  | signal (e : SignalError)
  deriving DecidableEq

/-- `struct Pid`, `pid.rs:40-52`. -/
structure Pid (T : Type) where
  proportionalGain : T
  integralGain : T
  derivativeGain : T
  timestep : T
  outputMinimum : T
  outputMaximum : T
  integral : T
  derivativeFilter : OnePole T
  previousMeasurement : T
  previousError : T
  hasPreviousMeasurement : Bool

namespace Pid

/-- `Pid::new`, `pid.rs:60-89`. -/
def new [Zero T] [One T] [LT T] [DecidableLT T] [LE T] [DecidableLE T] [Fns T]
    (kp ki kd timestep : T) : Except ControlError (Pid T) :=
  if !Fns.isFinite kp || !Fns.isFinite ki || !Fns.isFinite kd || !Fns.isFinite timestep then
    .error .nonFinite
  else if timestep ≤ 0 then .error .nonPositiveTimestep
  else
    match OnePole.new (1 : T) with
    | .error e => .error (.signal e)
    | .ok f => .ok ⟨kp, ki, kd, timestep, Fns.negInfinity, Fns.infinity, 0, f, 0, 0, false⟩

/-- `Pid::with_output_limits`, `pid.rs:95-105`. -/
def withOutputLimits [LT T] [DecidableLT T] [Fns T] (p : Pid T) (minimum maximum : T) :
    Except ControlError (Pid T) :=
  if Fns.isNan minimum || Fns.isNan maximum then .error .nonFinite
  else if maximum < minimum then .error .invalidOutputLimits
  else .ok { p with outputMinimum := minimum, outputMaximum := maximum }

/-- `Pid::with_derivative_filter`, `pid.rs:114-117`. -/
def withDerivativeFilter [Zero T] [One T] [LT T] [DecidableLT T] [Fns T] (p : Pid T)
    (smoothing : T) : Except ControlError (Pid T) :=
  match OnePole.new smoothing with
  | .error e => .error (.signal e)
  | .ok f => .ok { p with derivativeFilter := f }

/-- `Pid::set_gains`, `pid.rs:128-150`; on an error the controller is left as it was. -/
def setGains [Add T] [Sub T] [Mul T] [Fns T] (p : Pid T) (kp ki kd : T) :
    Except ControlError (Pid T) :=
  if !Fns.isFinite kp || !Fns.isFinite ki || !Fns.isFinite kd then .error .nonFinite
  else
    let integral :=
      if p.hasPreviousMeasurement then
        p.integral + (p.proportionalGain - kp) * p.previousError
          + (p.derivativeGain - kd) * p.derivativeFilter.state
      else p.integral
    .ok { p with integral := integral, proportionalGain := kp, integralGain := ki,
                 derivativeGain := kd }

/-- `Pid::resume_from`, `pid.rs:162-182`. -/
def resumeFrom [Zero T] [Sub T] [Mul T] [Fns T] (p : Pid T) (output setpoint measurement : T) :
    Except ControlError (Pid T) :=
  if !Fns.isFinite output || !Fns.isFinite setpoint || !Fns.isFinite measurement then
    .error .nonFinite
  else
    let error := setpoint - measurement
    .ok { p with
      integral := output - p.proportionalGain * error - p.integralGain * error * p.timestep
      derivativeFilter := p.derivativeFilter.reset
      previousMeasurement := measurement
      previousError := error
      hasPreviousMeasurement := true }

/-- `Pid::update`, `pid.rs:186-217`. -/
def update [Zero T] [One T] [Add T] [Sub T] [Mul T] [Div T] [LT T] [DecidableLT T] [Max T] [Min T]
    (p : Pid T) (setpoint measurement : T) : T × Pid T :=
  let error := setpoint - measurement
  let proportionalTerm := p.proportionalGain * error
  let rawDerivative :=
    if p.hasPreviousMeasurement then (p.previousMeasurement - measurement) / p.timestep else 0
  let fd := p.derivativeFilter.filter rawDerivative
  let derivativeTerm := p.derivativeGain * fd.1
  let candidate := p.integral + p.integralGain * error * p.timestep
  let unsaturated := proportionalTerm + candidate + derivativeTerm
  let output := min (max unsaturated p.outputMinimum) p.outputMaximum
  let pushingDeeper :=
    (decide (p.outputMaximum < unsaturated) && decide (0 < error)) ||
    (decide (unsaturated < p.outputMinimum) && decide (error < 0))
  (output, { p with
    derivativeFilter := fd.2
    previousMeasurement := measurement
    previousError := error
    hasPreviousMeasurement := true
    integral := if pushingDeeper then p.integral else candidate })

/-- `Pid::reset`, `pid.rs:220-226`. -/
def reset [Zero T] (p : Pid T) : Pid T :=
  { p with
    integral := 0
    hasPreviousMeasurement := false
    previousMeasurement := 0
    previousError := 0
    derivativeFilter := p.derivativeFilter.reset }

/-- A run of `update` calls on `(setpoint, measurement)` pairs. -/
def run [Zero T] [One T] [Add T] [Sub T] [Mul T] [Div T] [LT T] [DecidableLT T] [Max T] [Min T]
    (p : Pid T) (xs : List (T × T)) : List T × Pid T :=
  runFilter (fun p x => p.update x.1 x.2) p xs

end Pid
end Multicalc
