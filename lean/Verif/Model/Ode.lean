import Verif.Model.Scalar

/-!
# Ordinary differential equations

Models `crates/multicalc/src/ode/rk4.rs`, `ode/rk45.rs` and `ode/tableau.rs`.
A `Vector<N, T>` is a function `Fin n → T`; observers are modelled by the list of values they are
called with.
-/

namespace Multicalc

/-- `enum IntegrateError`, `error.rs:52-72`. -/
inductive IntegrateError
  | iterationsZero
  | limitsIllDefined
  | quadratureOrderOutOfRange
  | stepSizeTooSmall
  | didNotConverge (steps : ℕ)
  | nonFinite
  | indexOutOfRange
  | nonPositiveTimestep
  deriving DecidableEq, Repr

variable {T : Type} {n : ℕ}

/-- `Vector::scale`, `linear_algebra/vector.rs:193-195`. -/
def vscale [Mul T] (v : Fin n → T) (c : T) : Fin n → T := fun i => v i * c

/-- `Vector::is_finite`: every component is finite. -/
def vIsFinite [Fns T] (v : Fin n → T) : Bool := (List.finRange n).all fun i => Fns.isFinite (v i)

/-- `Numeric::powf` default, `scalar/numeric.rs:369-371`.
Simplified: `f32`/`f64` override it with `libm::pow`, the same real function for a positive base. -/
def powf [Mul T] [Fns T] (x e : T) : T := Fns.exp (e * Fns.log x)

/-! ## Rk4 -/

/-- `Rk4::step`, `ode/rk4.rs:24-41`. -/
def rk4Step [One T] [NatCast T] [Add T] [Mul T] [Div T] (f : T → (Fin n → T) → (Fin n → T))
    (time : T) (state : Fin n → T) (timestep : T) : Fin n → T :=
  let half := 1 / 2 * timestep
  let stage1 := f time state
  let stage2 := f (time + half) (state + vscale stage1 half)
  let stage3 := f (time + half) (state + vscale stage2 half)
  let stage4 := f (time + timestep) (state + vscale stage3 timestep)
  let sixth := timestep / (6 : ℕ)
  state + vscale (stage1 + vscale stage2 ((2 : ℕ) : T) + vscale stage3 ((2 : ℕ) : T) + stage4) sixth

/-- Loop of `Rk4::integrate`, `ode/rk4.rs:84-88`: the final time and state and what the observer
sees after the first call. -/
def rk4Loop [One T] [NatCast T] [Add T] [Mul T] [Div T] (f : T → (Fin n → T) → (Fin n → T))
    (timestep : T) : ℕ → T → (Fin n → T) → List (T × (Fin n → T)) × (Fin n → T)
  | 0, _, state => ([], state)
  | steps + 1, time, state =>
    let state' := rk4Step f time state timestep
    let time' := time + timestep
    let rest := rk4Loop f timestep steps time' state'
    ((time', state') :: rest.1, rest.2)

/-- `Rk4::integrate`, `ode/rk4.rs:68-90`: the observer's calls in order and the returned state. -/
def rk4Integrate [One T] [NatCast T] [Add T] [Mul T] [Div T]
    (f : T → (Fin n → T) → (Fin n → T)) (timeStart : T) (stateStart : Fin n → T) (timestep : T)
    (steps : ℕ) : List (T × (Fin n → T)) × (Fin n → T) :=
  let rest := rk4Loop f timestep steps timeStart stateStart
  ((timeStart, stateStart) :: rest.1, rest.2)

/-! ## The Dormand–Prince coefficients, `ode/tableau.rs:4-39` -/

namespace Dopri
/-- `NODE2`, `tableau.rs:4` -/ def node2 : ℚ := 1 / 5
/-- `NODE3`, `tableau.rs:5` -/ def node3 : ℚ := 3 / 10
/-- `NODE4`, `tableau.rs:6` -/ def node4 : ℚ := 4 / 5
/-- `NODE5`, `tableau.rs:7` -/ def node5 : ℚ := 8 / 9
/-- `STAGE_A21`, `tableau.rs:10` -/ def a21 : ℚ := 1 / 5
/-- `STAGE_A31`, `tableau.rs:11` -/ def a31 : ℚ := 3 / 40
/-- `STAGE_A32`, `tableau.rs:12` -/ def a32 : ℚ := 9 / 40
/-- `STAGE_A41`, `tableau.rs:13` -/ def a41 : ℚ := 44 / 45
/-- `STAGE_A42`, `tableau.rs:14` -/ def a42 : ℚ := -56 / 15
/-- `STAGE_A43`, `tableau.rs:15` -/ def a43 : ℚ := 32 / 9
/-- `STAGE_A51`, `tableau.rs:16` -/ def a51 : ℚ := 19372 / 6561
/-- `STAGE_A52`, `tableau.rs:17` -/ def a52 : ℚ := -25360 / 2187
/-- `STAGE_A53`, `tableau.rs:18` -/ def a53 : ℚ := 64448 / 6561
/-- `STAGE_A54`, `tableau.rs:19` -/ def a54 : ℚ := -212 / 729
/-- `STAGE_A61`, `tableau.rs:20` -/ def a61 : ℚ := 9017 / 3168
/-- `STAGE_A62`, `tableau.rs:21` -/ def a62 : ℚ := -355 / 33
/-- `STAGE_A63`, `tableau.rs:22` -/ def a63 : ℚ := 46732 / 5247
/-- `STAGE_A64`, `tableau.rs:23` -/ def a64 : ℚ := 49 / 176
/-- `STAGE_A65`, `tableau.rs:24` -/ def a65 : ℚ := -5103 / 18656
/-- `WEIGHT1`, `tableau.rs:27` -/ def weight1 : ℚ := 35 / 384
/-- `WEIGHT3`, `tableau.rs:28` -/ def weight3 : ℚ := 500 / 1113
/-- `WEIGHT4`, `tableau.rs:29` -/ def weight4 : ℚ := 125 / 192
/-- `WEIGHT5`, `tableau.rs:30` -/ def weight5 : ℚ := -2187 / 6784
/-- `WEIGHT6`, `tableau.rs:31` -/ def weight6 : ℚ := 11 / 84
/-- `ERROR1`, `tableau.rs:34` -/ def error1 : ℚ := 71 / 57600
/-- `ERROR3`, `tableau.rs:35` -/ def error3 : ℚ := -71 / 16695
/-- `ERROR4`, `tableau.rs:36` -/ def error4 : ℚ := 71 / 1920
/-- `ERROR5`, `tableau.rs:37` -/ def error5 : ℚ := -17253 / 339200
/-- `ERROR6`, `tableau.rs:38` -/ def error6 : ℚ := 22 / 525
/-- `ERROR7`, `tableau.rs:39` -/ def error7 : ℚ := -1 / 40
end Dopri

/-! ## Rk45 -/

/-- `struct Step`, `ode/rk45.rs:10-23`. -/
structure OdeStep (n : ℕ) (T : Type) where
  timeStart : T
  timeEnd : T
  stateStart : Fin n → T
  stateEnd : Fin n → T
  derivativeStart : Fin n → T
  derivativeEnd : Fin n → T

/-- `Step::interpolate`, `ode/rk45.rs:28-42`. -/
def OdeStep.interpolate [One T] [NatCast T] [Add T] [Sub T] [Mul T] [Div T] [Neg T]
    (s : OdeStep n T) (time : T) : Fin n → T :=
  let h := s.timeEnd - s.timeStart
  let frac := (time - s.timeStart) / h
  let frac2 := frac * frac
  let frac3 := frac2 * frac
  let three : T := (3 : ℕ)
  let two : T := (2 : ℕ)
  let h00 := two * frac3 - three * frac2 + 1
  let h10 := frac3 - two * frac2 + frac
  let h01 := -two * frac3 + three * frac2
  let h11 := frac3 - frac2
  vscale s.stateStart h00 + vscale s.derivativeStart (h10 * h) + vscale s.stateEnd h01
    + vscale s.derivativeEnd (h11 * h)

/-- `struct Rk45`, `ode/rk45.rs:50-57`. -/
structure Rk45 (T : Type) where
  rtol : T
  atol : T
  firstStep : T
  minStep : T
  maxStep : T
  maxSteps : ℕ

section
variable [Zero T] [One T] [NatCast T] [Add T] [Sub T] [Mul T] [Div T] [Neg T] [LT T] [DecidableLT T]
  [LE T] [DecidableLE T] [BEq T] [Max T] [Min T] [Fns T]

/-- `error_norm`, `ode/rk45.rs:121-143`. -/
def errorNorm (err stateStart stateEnd : Fin n → T) (atol rtol : T) : T :=
  if n = 0 then 0
  else
    let sum := (List.finRange n).foldl (fun sum i =>
      let scale := atol + rtol * max (Fns.abs (stateStart i)) (Fns.abs (stateEnd i))
      let ratio := err i / scale
      sum + ratio * ratio) 0
    Fns.sqrt (sum / (n : T))

/-- `scaled_norm`, `ode/rk45.rs:148-164`. -/
def scaledNorm (v y : Fin n → T) (atol rtol : T) : T :=
  if n = 0 then 0
  else
    let sum := (List.finRange n).foldl (fun sum i =>
      let scale := atol + rtol * Fns.abs (y i)
      let ratio := v i / scale
      sum + ratio * ratio) 0
    Fns.sqrt (sum / (n : T))

open Dopri in
/-- `Rk45::dopri_step`, `ode/rk45.rs:172-242`: fifth-order state, error vector, last stage. -/
def dopriStep (f : T → (Fin n → T) → (Fin n → T)) (time : T) (y : Fin n → T) (h : T)
    (stage1 : Fin n → T) : (Fin n → T) × (Fin n → T) × (Fin n → T) :=
  let c (q : ℚ) : T := Fns.lit q
  let stage2 := f (time + c node2 * h) (y + vscale stage1 (c a21 * h))
  let stage3 := f (time + c node3 * h) (y + vscale stage1 (c a31 * h) + vscale stage2 (c a32 * h))
  let stage4 := f (time + c node4 * h)
    (y + vscale stage1 (c a41 * h) + vscale stage2 (c a42 * h) + vscale stage3 (c a43 * h))
  let stage5 := f (time + c node5 * h)
    (y + vscale stage1 (c a51 * h) + vscale stage2 (c a52 * h) + vscale stage3 (c a53 * h)
      + vscale stage4 (c a54 * h))
  let stage6 := f (time + h)
    (y + vscale stage1 (c a61 * h) + vscale stage2 (c a62 * h) + vscale stage3 (c a63 * h)
      + vscale stage4 (c a64 * h) + vscale stage5 (c a65 * h))
  let state5 := y + vscale (vscale stage1 (c weight1) + vscale stage3 (c weight3)
    + vscale stage4 (c weight4) + vscale stage5 (c weight5) + vscale stage6 (c weight6)) h
  let stage7 := f (time + h) state5
  let err := vscale (vscale stage1 (c error1) + vscale stage3 (c error3) + vscale stage4 (c error4)
    + vscale stage5 (c error5) + vscale stage6 (c error6) + vscale stage7 (c error7)) h
  (state5, err, stage7)

/-- `Rk45::select_initial_step`, `ode/rk45.rs:252-293`. -/
def selectInitialStep (cfg : Rk45 T) (f : T → (Fin n → T) → (Fin n → T)) (timeStart : T)
    (stateStart derivativeStart : Fin n → T) (dir span : T) : T :=
  if 0 < cfg.firstStep then
    dir * min (min cfg.firstStep cfg.maxStep) span
  else
    let norm0 := scaledNorm stateStart stateStart cfg.atol cfg.rtol
    let norm1 := scaledNorm derivativeStart stateStart cfg.atol cfg.rtol
    let step0 : T := if norm0 < Fns.lit (1 / 10 ^ 5) ∨ norm1 < Fns.lit (1 / 10 ^ 5)
      then Fns.lit (1 / 10 ^ 6)
      else Fns.lit (1 / 100) * norm0 / norm1
    let stateEnd := stateStart + vscale derivativeStart (dir * step0)
    let derivativeEnd := f (timeStart + dir * step0) stateEnd
    let norm2 := scaledNorm (derivativeEnd - derivativeStart) stateStart cfg.atol cfg.rtol / step0
    let step1 : T := if max norm1 norm2 ≤ Fns.lit (1 / 10 ^ 15)
      then max (step0 * Fns.lit (1 / 10 ^ 3)) (Fns.lit (1 / 10 ^ 6))
      else powf (Fns.lit (1 / 100) / max norm1 norm2) (1 / (6 : ℕ))
    dir * min (min ((100 : ℕ) * step0) step1) (min span cfg.maxStep)

/-- The mutable variables of the stepping loop, `ode/rk45.rs:340-349`. -/
structure Rk45State (n : ℕ) (T : Type) where
  time : T
  y : Fin n → T
  stage1 : Fin n → T
  h : T
  errPrev : T
  kahanC : T

/-- The clamp at the top of the loop, `ode/rk45.rs:354-357`. -/
def clampStep (timeFinal time h : T) : T :=
  let remaining := timeFinal - time
  if Fns.abs remaining < Fns.abs h then remaining else h

/-- The step-size update, `ode/rk45.rs:389-400`. -/
def nextStepSize (cfg : Rk45 T) (h err errPrev : T) (accept : Bool) : T :=
  let errI := max err (Fns.lit (1 / 10 ^ 10))
  let factor := Fns.lit (9 / 10) * powf errI (-Fns.lit (17 / 100)) * powf errPrev (Fns.lit (4 / 100))
  let factor := min (max factor (Fns.lit (2 / 10))) (10 : ℕ)
  let factor := if accept then factor else min factor 1
  let h := h * factor
  if cfg.maxStep < Fns.abs h then Fns.copysign cfg.maxStep h else h

/-- Loop of `Rk45::for_each_step`, `ode/rk45.rs:351-408`.  Returns the accepted steps in the order the
observer sees them, and the result. -/
def rk45Loop (cfg : Rk45 T) (f : T → (Fin n → T) → (Fin n → T)) (timeFinal : T) :
    (fuel steps : ℕ) → Rk45State n T →
    List (OdeStep n T) × Except IntegrateError (Fin n → T)
  | 0, steps, _ => ([], .error (.didNotConverge steps))
  | fuel + 1, steps, s =>
    let h := clampStep timeFinal s.time s.h
    let r := dopriStep f s.time s.y h s.stage1
    let state5 := r.1
    let errVec := r.2.1
    let stage7 := r.2.2
    if !vIsFinite state5 || !vIsFinite errVec then ([], .error .nonFinite)
    else
      let err := errorNorm errVec s.y state5 cfg.atol cfg.rtol
      let h' := nextStepSize cfg h err s.errPrev (decide (err ≤ 1))
      if err ≤ 1 then
        let delta := h - s.kahanC
        let tnew := s.time + delta
        let kahanC := (tnew - s.time) - delta
        let step : OdeStep n T := ⟨s.time, tnew, s.y, state5, s.stage1, stage7⟩
        if Fns.abs (timeFinal - tnew) ≤ Fns.epsilon * (1 + Fns.abs timeFinal) then
          ([step], .ok state5)
        else if 0 < cfg.minStep ∧ Fns.abs h' < cfg.minStep then ([step], .error .stepSizeTooSmall)
        else
          let rest := rk45Loop cfg f timeFinal fuel (steps + 1)
            ⟨tnew, state5, stage7, h', max err (Fns.lit (1 / 10 ^ 4)), kahanC⟩
          (step :: rest.1, rest.2)
      else if 0 < cfg.minStep ∧ Fns.abs h' < cfg.minStep then ([], .error .stepSizeTooSmall)
      else rk45Loop cfg f timeFinal fuel (steps + 1) { s with h := h' }

/-- `Rk45::for_each_step`, `ode/rk45.rs:318-409`. -/
def forEachStep (cfg : Rk45 T) (f : T → (Fin n → T) → (Fin n → T)) (timeStart : T)
    (stateStart : Fin n → T) (timeFinal : T) :
    List (OdeStep n T) × Except IntegrateError (Fin n → T) :=
  if !Fns.isFinite timeStart || !Fns.isFinite timeFinal || timeStart == timeFinal then
    ([], .error .limitsIllDefined)
  else
    let span := Fns.abs (timeFinal - timeStart)
    let dir : T := if timeStart < timeFinal then 1 else -1
    let stage1 := f timeStart stateStart
    if !vIsFinite stateStart || !vIsFinite stage1 then ([], .error .nonFinite)
    else
      let h := selectInitialStep cfg f timeStart stateStart stage1 dir span
      rk45Loop cfg f timeFinal cfg.maxSteps 0 ⟨timeStart, stateStart, stage1, h,
        Fns.lit (1 / 10 ^ 4), 0⟩

/-- `Rk45::solve`, `ode/rk45.rs:412-423`. -/
def rk45Solve (cfg : Rk45 T) (f : T → (Fin n → T) → (Fin n → T)) (timeStart : T)
    (stateStart : Fin n → T) (timeFinal : T) : Except IntegrateError (Fin n → T) :=
  (forEachStep cfg f timeStart stateStart timeFinal).2

/-- The containment test of `solve_on_grid`, `ode/rk45.rs:468-472`. -/
def OdeStep.contains (s : OdeStep n T) (t : T) : Bool :=
  if s.timeStart ≤ s.timeEnd then decide (s.timeStart ≤ t) && decide (t ≤ s.timeEnd)
  else decide (t ≤ s.timeStart) && decide (s.timeEnd ≤ t)

/-- The observer of `solve_on_grid` over all steps, `ode/rk45.rs:464-480`: each step takes the leading
remaining times that fall in it.  Returns the written outputs and the times left over. -/
def gridConsume : List (OdeStep n T) → List T → List (Fin n → T) × List T
  | [], times => ([], times)
  | s :: steps, times =>
    let rest := gridConsume steps (times.dropWhile s.contains)
    ((times.takeWhile s.contains).map s.interpolate ++ rest.1, rest.2)

/-- `Rk45::solve_on_grid`, `ode/rk45.rs:445-486`.
Simplified: the output slice is returned (so its length matches by construction and the length check
at `rk45.rs:456` is not modelled); on an error the partially written slice is not returned. -/
def solveOnGrid (cfg : Rk45 T) (f : T → (Fin n → T) → (Fin n → T)) (timeStart : T)
    (stateStart : Fin n → T) (times : List T) : Except IntegrateError (List (Fin n → T)) :=
  match times.getLast? with
  | none => .ok []
  | some timeFinal =>
    let run := forEachStep cfg f timeStart stateStart timeFinal
    match run.2 with
    | .error e => .error e
    | .ok _ =>
      let r := gridConsume run.1 times
      if r.2.isEmpty then .ok r.1 else .error .limitsIllDefined

end

end Multicalc
