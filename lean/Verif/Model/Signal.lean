import Verif.Model.Scalar

/-!
# Signal processing: windows, conditioning, one-pole filter

Models `crates/multicalc/src/signal_processing/{window,conditioning,one_pole}.rs`.
-/

namespace Multicalc

/-- `enum SignalError`, `error.rs:169-196`.  The payload of `Linalg` is dropped. -/
inductive SignalError
  | nonFinite | nonPositiveTimestep | coefficientOutOfRange | frequencyOutOfRange
  | nonPositiveQualityFactor | negativeThreshold | thresholdsOutOfOrder | nonPositiveRate
  | windowTooShort | windowEvenLength | polynomialOrderTooHigh | sectionIndexOutOfRange | linalg
deriving DecidableEq

variable {T : Type}

/-! ## Windows -/

/-- The fields shared by `MovingAverage` and `RunningMedian`, `window.rs:28-35,121-128`.
The array `[T; WINDOW]` is a list; every operation keeps its length. -/
structure Ring (T : Type) where
  samples : List T
  next : ℕ
  initialized : Bool
deriving DecidableEq

namespace Ring

/-- The empty ring of `new` and `reset`, `window.rs:45-49,67-71,142-146,164-168`. -/
def empty [Zero T] (window : ℕ) : Ring T := ⟨List.replicate window 0, 0, false⟩

/-- `push`, `window.rs:192-206`. -/
def push (window : ℕ) (r : Ring T) (input : T) : Ring T :=
  if r.initialized then
    { r with samples := r.samples.set r.next input, next := (r.next + 1) % window }
  else ⟨List.replicate window input, 0, true⟩

end Ring

/-- `MovingAverage::new`, `window.rs:41-50`. -/
def movingAverageNew [Zero T] (window : ℕ) : Except SignalError (Ring T) :=
  if window = 0 then .error .windowTooShort else .ok (Ring.empty window)

/-- `MovingAverage::value`, `window.rs:76-82`. -/
def movingAverageValue [Zero T] [Add T] [Div T] [NatCast T] (window : ℕ) (r : Ring T) : T :=
  (r.samples.foldl (fun total sample => total + sample) 0) / (window : T)

/-- `MovingAverage::filter`, `window.rs:55-63`. -/
def movingAverageFilter [Zero T] [Add T] [Div T] [NatCast T] (window : ℕ) (r : Ring T)
    (input : T) : T × Ring T :=
  let r := r.push window input
  (movingAverageValue window r, r)

/-- `RunningMedian::new`, `window.rs:135-147`. -/
def runningMedianNew [Zero T] (window : ℕ) : Except SignalError (Ring T) :=
  if window = 0 then .error .windowTooShort
  else if window % 2 = 0 then .error .windowEvenLength
  else .ok (Ring.empty window)

/-- The inner loop of `RunningMedian::value`, `window.rs:179-184`. -/
def shiftInto [Zero T] [LT T] [DecidableLT T] (moving : T) : List T → ℕ → List T
  | sorted, 0 => sorted.set 0 moving
  | sorted, slot + 1 =>
    if moving < sorted.getD slot 0 then
      shiftInto moving (sorted.set (slot + 1) (sorted.getD slot 0)) slot
    else sorted.set (slot + 1) moving

/-- The sort of `RunningMedian::value`, `window.rs:174-185`. -/
def windowSort [Zero T] [LT T] [DecidableLT T] (window : ℕ) (samples : List T) : List T :=
  (List.range' 1 (window - 1)).foldl
    (fun sorted placed => shiftInto (sorted.getD placed 0) sorted placed) samples

/-- `RunningMedian::value`, `window.rs:173-187`. -/
def runningMedianValue [Zero T] [LT T] [DecidableLT T] (window : ℕ) (r : Ring T) : T :=
  (windowSort window r.samples).getD (window / 2) 0

/-- `RunningMedian::filter`, `window.rs:152-160`. -/
def runningMedianFilter [Zero T] [LT T] [DecidableLT T] (window : ℕ) (r : Ring T) (input : T) :
    T × Ring T :=
  let r := r.push window input
  (runningMedianValue window r, r)

/-! ## Conditioning -/

/-- `struct Deadband`, `conditioning.rs:31-36`. -/
structure Deadband (T : Type) where
  threshold : T
  recentered : Bool

/-- `Deadband::build`, `conditioning.rs:75-86` (`plain` and `recentered` pass the flag,
`conditioning.rs:44-53`). -/
def Deadband.build [Zero T] [LT T] [DecidableLT T] [Fns T] (threshold : T) (recentered : Bool) :
    Except SignalError (Deadband T) :=
  if !Fns.isFinite threshold then .error .nonFinite
  else if threshold < 0 then .error .negativeThreshold
  else .ok ⟨threshold, recentered⟩

/-- `Deadband::apply`, `conditioning.rs:58-66`. -/
def Deadband.apply [Zero T] [Sub T] [LE T] [DecidableLE T] [Fns T] (d : Deadband T) (input : T) :
    T :=
  if Fns.abs input ≤ d.threshold then 0
  else if d.recentered then input - Fns.copysign d.threshold input
  else input

/-- `struct Hysteresis`, `conditioning.rs:115-122`. -/
structure Hysteresis (T : Type) where
  lower : T
  upper : T
  isHigh : Bool

/-- `Hysteresis::new`, `conditioning.rs:129-141`. -/
def Hysteresis.new [LE T] [DecidableLE T] [Fns T] (lower upper : T) :
    Except SignalError (Hysteresis T) :=
  if !Fns.isFinite lower || !Fns.isFinite upper then .error .nonFinite
  else if upper ≤ lower then .error .thresholdsOutOfOrder
  else .ok ⟨lower, upper, false⟩

/-- `Hysteresis::update`, `conditioning.rs:146-153`. -/
def Hysteresis.update [LT T] [DecidableLT T] (h : Hysteresis T) (input : T) :
    Bool × Hysteresis T :=
  let h :=
    if h.upper < input then { h with isHigh := true }
    else if input < h.lower then { h with isHigh := false }
    else h
  (h.isHigh, h)

/-- `Hysteresis::reset`, `conditioning.rs:157-159`. -/
def Hysteresis.reset (h : Hysteresis T) : Hysteresis T := { h with isHigh := false }

/-- `struct SlewRateLimiter`, `conditioning.rs:201-212`. -/
structure SlewRateLimiter (T : Type) where
  risePerSecond : T
  fallPerSecond : T
  timestep : T
  state : T
  initialized : Bool

/-- `SlewRateLimiter::new`, `conditioning.rs:220-237`. -/
def SlewRateLimiter.new [Zero T] [LE T] [DecidableLE T] [Fns T] (rise fall timestep : T) :
    Except SignalError (SlewRateLimiter T) :=
  if !Fns.isFinite rise || !Fns.isFinite fall || !Fns.isFinite timestep then .error .nonFinite
  else if timestep ≤ 0 then .error .nonPositiveTimestep
  else if rise ≤ 0 ∨ fall ≤ 0 then .error .nonPositiveRate
  else .ok ⟨rise, fall, timestep, 0, false⟩

/-- `SlewRateLimiter::filter`, `conditioning.rs:249-269`. -/
def SlewRateLimiter.filter [Add T] [Sub T] [Mul T] [Neg T] [LT T] [DecidableLT T]
    (s : SlewRateLimiter T) (target : T) : T × SlewRateLimiter T :=
  if !s.initialized then
    (target, { s with state := target, initialized := true })
  else
    let riseStep := s.risePerSecond * s.timestep
    let fallStep := s.fallPerSecond * s.timestep
    let step := target - s.state
    let state := s.state +
      (if riseStep < step then riseStep else if step < -fallStep then -fallStep else step)
    (state, { s with state := state })

/-- `SlewRateLimiter::reset`, `conditioning.rs:273-276`. -/
def SlewRateLimiter.reset [Zero T] (s : SlewRateLimiter T) : SlewRateLimiter T :=
  { s with state := 0, initialized := false }

/-! ## One-pole low-pass -/

/-- `struct OnePoleLowPass`, `one_pole.rs:32-36`. -/
structure OnePole (T : Type) where
  smoothing : T
  state : T
  initialized : Bool

/-- `OnePoleLowPass::new`, `one_pole.rs:43-55`. -/
def OnePole.new [Zero T] [One T] [LT T] [DecidableLT T] [Fns T] (smoothing : T) :
    Except SignalError (OnePole T) :=
  if !Fns.isFinite smoothing then .error .nonFinite
  else if smoothing < 0 ∨ 1 < smoothing then .error .coefficientOutOfRange
  else .ok ⟨smoothing, 0, false⟩

/-- `OnePoleLowPass::from_cutoff`, `one_pole.rs:63-76`. -/
def OnePole.fromCutoff [Zero T] [One T] [NatCast T] [Add T] [Mul T] [Div T] [LT T] [DecidableLT T]
    [LE T] [DecidableLE T] [Fns T] (cutoff timestep : T) : Except SignalError (OnePole T) :=
  if !Fns.isFinite cutoff || !Fns.isFinite timestep then .error .nonFinite
  else if timestep ≤ 0 then .error .nonPositiveTimestep
  else if cutoff < 0 then .error .frequencyOutOfRange
  else
    let a := 2 * Fns.pi * cutoff * timestep
    OnePole.new (a / (a + 1))

/-- `OnePoleLowPass::filter`, `one_pole.rs:81-89`. -/
def OnePole.filter [One T] [Add T] [Sub T] [Mul T] (f : OnePole T) (input : T) :
    T × OnePole T :=
  let f :=
    if f.initialized then
      { f with state := f.smoothing * input + (1 - f.smoothing) * f.state }
    else { f with state := input, initialized := true }
  (f.state, f)

/-- `OnePoleLowPass::reset`, `one_pole.rs:93-96`. -/
def OnePole.reset [Zero T] (f : OnePole T) : OnePole T :=
  { f with state := 0, initialized := false }

/-! ## Histories -/

/-- The outputs of a stateful filter on a sequence of inputs, and its final state. -/
def runFilter {S I O : Type} (step : S → I → O × S) : S → List I → List O × S
  | s, [] => ([], s)
  | s, x :: xs =>
    let r := step s x
    let rs := runFilter step r.2 xs
    (r.1 :: rs.1, rs.2)

end Multicalc
