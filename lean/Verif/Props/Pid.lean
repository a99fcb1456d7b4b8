import Verif.Model.Pid
import Verif.Lemmas.Signal
import Mathlib.Tactic

/-!
# Properties C33–C35, C82: PID controller
-/

namespace Multicalc
variable {T : Type}

namespace Pid

section basic
variable [Zero T] [One T] [Add T] [Sub T] [Mul T] [Div T] [LT T] [DecidableLT T] [Max T] [Min T]

theorem run_cons (p : Pid T) (x : T × T) (xs : List (T × T)) :
    p.run (x :: xs) = ((p.update x.1 x.2).1 :: ((p.update x.1 x.2).2.run xs).1,
      ((p.update x.1 x.2).2.run xs).2) := rfl

theorem update_limits (p : Pid T) (s m : T) :
    (p.update s m).2.outputMinimum = p.outputMinimum ∧
    (p.update s m).2.outputMaximum = p.outputMaximum := ⟨rfl, rfl⟩

end basic

/-- C33. With any arithmetic whatsoever on an ordered scalar (so with any rounding), from any state
and for every history, every output lies within the limits. -/
theorem output_in_limits [Zero T] [One T] [Add T] [Sub T] [Mul T] [Div T] [LinearOrder T]
    (p : Pid T) (hl : p.outputMinimum ≤ p.outputMaximum) (xs : List (T × T)) :
    ∀ y ∈ (p.run xs).1, p.outputMinimum ≤ y ∧ y ≤ p.outputMaximum := by
  induction xs generalizing p with
  | nil => intro y hy; simp [run, runFilter] at hy
  | cons x xs ih =>
    intro y hy
    rw [run_cons] at hy
    rcases List.mem_cons.mp hy with rfl | hy
    · simp only [update]
      exact ⟨le_min (le_max_right _ _) hl, min_le_right _ _⟩
    · obtain ⟨h1, h2⟩ := update_limits p x.1 x.2
      have := ih (p.update x.1 x.2).2 (by rw [h1, h2]; exact hl) y hy
      rwa [h1, h2] at this

theorem XR_clamp (u lo hi : XR) (hlo : lo ≠ .nan) (hhi : hi ≠ .nan) (hl : ¬ hi < lo) :
    lo ≤ min (max u lo) hi ∧ min (max u lo) hi ≤ hi := by
  have hm : max u lo ≠ .nan ∧ ¬ max u lo < lo := by
    by_cases hu : u = .nan
    · subst hu; rw [XR.nan_max]; exact ⟨hlo, XR.not_lt_self lo⟩
    · rw [XR.max_of_ne hu hlo]
      split
      · exact ⟨hlo, XR.not_lt_self lo⟩
      · next h => exact ⟨hu, h⟩
  rw [XR.min_of_ne hm.1 hhi]
  split
  · exact ⟨XR.le_of_not_lt hlo hhi hl, XR.le_of_not_lt hhi hhi (XR.not_lt_self hi)⟩
  · next h => exact ⟨XR.le_of_not_lt hlo hm.1 hm.2, XR.le_of_not_lt hm.1 hhi h⟩

/-- C33. The same with infinities and NaN in the gains, state and inputs: a controller accepted by
`with_output_limits` never returns anything (not even NaN) outside its limits. -/
theorem output_in_limits_special (q p : Pid XR) (lo hi : XR)
    (h : q.withOutputLimits lo hi = .ok p) (xs : List (XR × XR)) :
    ∀ y ∈ (p.run xs).1, lo ≤ y ∧ y ≤ hi := by
  obtain ⟨h1, h2, h3, h4, h5⟩ : lo ≠ .nan ∧ hi ≠ .nan ∧ ¬ hi < lo ∧
      p.outputMinimum = lo ∧ p.outputMaximum = hi := by
    unfold withOutputLimits at h
    split at h
    · simp at h
    · split at h
      · simp at h
      · next ha hb =>
        simp only [Bool.or_eq_true, not_or, Bool.not_eq_true] at ha
        simp only [Except.ok.injEq] at h
        exact ⟨by rintro rfl; simp [Fns.isNan] at ha, by rintro rfl; simp [Fns.isNan] at ha, hb,
          by rw [← h], by rw [← h]⟩
  clear h
  induction xs generalizing p with
  | nil => intro y hy; simp [run, runFilter] at hy
  | cons x xs ih =>
    intro y hy
    rw [run_cons] at hy
    rcases List.mem_cons.mp hy with rfl | hy
    · have := XR_clamp (p.proportionalGain * (x.1 - x.2) +
        (p.integral + p.integralGain * (x.1 - x.2) * p.timestep) + p.derivativeGain *
        (p.derivativeFilter.filter (if p.hasPreviousMeasurement then
          (p.previousMeasurement - x.2) / p.timestep else 0)).1) lo hi h1 h2 h3
      rw [← h4, ← h5] at this ⊢
      exact this
    · exact ih (p.update x.1 x.2).2 h4 h5 y hy

/-- A controller with limits `[-1, 1]` is accepted. -/
example : ∃ q p : Pid XR, Pid.new (1 : XR) 1 0 1 = .ok q ∧
    q.withOutputLimits (-1) 1 = .ok p := by
  refine ⟨⟨1, 1, 0, 1, .ninf, .pinf, 0, ⟨1, 0, false⟩, 0, 0, false⟩,
    ⟨1, 1, 0, 1, -1, 1, 0, ⟨1, 0, false⟩, 0, 0, false⟩, ?_, ?_⟩
  · unfold Pid.new OnePole.new
    simp only [Fns.isFinite, XR.one_def, XR.zero_def, XR.fin_le, XR.fin_lt]
    norm_num [Fns.infinity, Fns.negInfinity]
  · unfold withOutputLimits
    simp only [Fns.isNan, XR.one_def, XR.fin_neg, XR.fin_lt]
    norm_num

/-! ## One step, written out -/

/-- Specification: the derivative after a sample, low-passed; zero on the first sample. -/
def specDerivative {K : Type} [Field K] (p : Pid K) (m : K) : K :=
  let raw := if p.hasPreviousMeasurement then (p.previousMeasurement - m) / p.timestep else 0
  if p.derivativeFilter.initialized then
    p.derivativeFilter.smoothing * raw + (1 - p.derivativeFilter.smoothing) *
      p.derivativeFilter.state
  else raw

/-- Specification: the textbook sum of the three terms, before the limits. -/
def specSum {K : Type} [Field K] (p : Pid K) (s m : K) : K :=
  p.proportionalGain * (s - m) + (p.integral + p.integralGain * (s - m) * p.timestep) +
    p.derivativeGain * p.specDerivative m

section field
variable {K : Type} [Field K] [LinearOrder K]

theorem update_eq (p : Pid K) (s m : K) :
    (p.update s m).1 = min (max (p.specSum s m) p.outputMinimum) p.outputMaximum ∧
    (p.update s m).2.integral =
      (if (p.outputMaximum < p.specSum s m ∧ 0 < s - m) ∨
          (p.specSum s m < p.outputMinimum ∧ s - m < 0)
        then p.integral else p.integral + p.integralGain * (s - m) * p.timestep) ∧
    (p.update s m).2.derivativeFilter.state = p.specDerivative m := by
  have hd : (p.derivativeFilter.filter (if p.hasPreviousMeasurement then
      (p.previousMeasurement - m) / p.timestep else 0)).1 = p.specDerivative m := by
    unfold specDerivative OnePole.filter
    simp only
    split <;> simp_all
  have hd2 : (p.derivativeFilter.filter (if p.hasPreviousMeasurement then
      (p.previousMeasurement - m) / p.timestep else 0)).2.state = p.specDerivative m := by
    rw [← hd]; rfl
  simp only [update, hd, hd2]
  refine ⟨rfl, ?_, trivial⟩
  rw [specSum]
  simp only [Bool.or_eq_true, Bool.and_eq_true, decide_eq_true_eq]

variable [IsStrictOrderedRing K]

/-- C34. Inside the limits one step adds exactly gain times error times step to the integral, and
the output is the textbook sum. -/
theorem integral_accumulates (p : Pid K) (s m : K)
    (h1 : p.outputMinimum ≤ p.specSum s m) (h2 : p.specSum s m ≤ p.outputMaximum) :
    (p.update s m).1 = p.specSum s m ∧
    (p.update s m).2.integral = p.integral + p.integralGain * (s - m) * p.timestep := by
  obtain ⟨e1, e2, -⟩ := update_eq p s m
  rw [e1, e2]
  refine ⟨by rw [max_eq_left h1, min_eq_left h2], ?_⟩
  rw [if_neg]
  rintro (⟨h, -⟩ | ⟨h, -⟩) <;> linarith

/-- C34. Anti-windup: beyond a limit with the error pushing further out the integral is held; beyond
a limit with the error pulling back it accumulates as usual. -/
theorem integral_held (p : Pid K) (s m : K) :
    (p.outputMaximum < p.specSum s m → 0 < s - m → (p.update s m).2.integral = p.integral) ∧
    (p.specSum s m < p.outputMinimum → s - m < 0 → (p.update s m).2.integral = p.integral) ∧
    (p.outputMaximum < p.specSum s m → s - m ≤ 0 → p.outputMinimum ≤ p.outputMaximum →
      (p.update s m).2.integral = p.integral + p.integralGain * (s - m) * p.timestep) ∧
    (p.specSum s m < p.outputMinimum → 0 ≤ s - m → p.outputMinimum ≤ p.outputMaximum →
      (p.update s m).2.integral = p.integral + p.integralGain * (s - m) * p.timestep) := by
  obtain ⟨-, e2, -⟩ := update_eq p s m
  rw [e2]
  refine ⟨fun h1 h2 => if_pos (Or.inl ⟨h1, h2⟩), fun h1 h2 => if_pos (Or.inr ⟨h1, h2⟩), ?_, ?_⟩
  · intro h1 h2 h3
    rw [if_neg]
    rintro (⟨_, h⟩ | ⟨h, -⟩) <;> linarith
  · intro h1 h2 h3
    rw [if_neg]
    rintro (⟨h, -⟩ | ⟨_, h⟩) <;> linarith

/-- C34. Wind-up is bounded for every history: with non-negative gains and no derivative action the
integral never leaves the output range extended to its starting value. -/
theorem integral_bounded (p : Pid K) (hp : 0 ≤ p.proportionalGain) (hi : 0 ≤ p.integralGain)
    (hd : p.derivativeGain = 0) (ht : 0 < p.timestep) (xs : List (K × K)) :
    min p.integral p.outputMinimum ≤ (p.run xs).2.integral ∧
    (p.run xs).2.integral ≤ max p.integral p.outputMaximum := by
  have key : ∀ (lo hi' : K) (xs : List (K × K)) (p : Pid K), 0 ≤ p.proportionalGain →
      0 ≤ p.integralGain → p.derivativeGain = 0 → 0 < p.timestep → lo ≤ p.outputMinimum →
      p.outputMaximum ≤ hi' → lo ≤ p.integral → p.integral ≤ hi' →
      lo ≤ (p.run xs).2.integral ∧ (p.run xs).2.integral ≤ hi' := by
    intro lo hi' xs
    induction xs with
    | nil => intro p _ _ _ _ _ _ h1 h2; exact ⟨h1, h2⟩
    | cons x xs ih =>
      intro p hp hi hd ht hl hh h1 h2
      rw [run_cons]
      obtain ⟨-, e2, -⟩ := update_eq p x.1 x.2
      refine ih (p.update x.1 x.2).2 hp hi hd ht hl hh ?_ ?_
      · rw [e2]
        split
        · exact h1
        · next hn =>
          push Not at hn
          rcases lt_or_ge (x.1 - x.2) 0 with he | he
          · have h3 := le_of_not_gt fun h => absurd he (not_lt.mpr (hn.2 h))
            simp only [specSum, hd, zero_mul, add_zero] at h3
            have : p.proportionalGain * (x.1 - x.2) ≤ 0 :=
              mul_nonpos_of_nonneg_of_nonpos hp he.le
            linarith
          · have : 0 ≤ p.integralGain * (x.1 - x.2) * p.timestep := by positivity
            linarith
      · rw [e2]
        split
        · exact h2
        · next hn =>
          push Not at hn
          rcases lt_or_ge 0 (x.1 - x.2) with he | he
          · have h3 := le_of_not_gt fun h => absurd he (not_lt.mpr (hn.1 h))
            simp only [specSum, hd, zero_mul, add_zero] at h3
            have : 0 ≤ p.proportionalGain * (x.1 - x.2) := mul_nonneg hp he.le
            linarith
          · have : p.integralGain * (x.1 - x.2) * p.timestep ≤ 0 :=
              mul_nonpos_of_nonpos_of_nonneg (mul_nonpos_of_nonneg_of_nonpos hi he) ht.le
            linarith
  exact key _ _ xs p hp hi hd ht (min_le_right _ _) (le_max_right _ _) (min_le_left _ _)
    (le_max_left _ _)

end field

/-- Unit proportional and integral gain with limits `[-1, 1]` driven hard into saturation. -/
example : let p : Pid ℚ := ⟨1, 1, 0, 1, -1, 1, 0, ⟨1, 0, false⟩, 0, 0, false⟩
    0 ≤ p.proportionalGain ∧ 0 ≤ p.integralGain ∧ p.derivativeGain = 0 ∧ 0 < p.timestep ∧
    p.outputMaximum < p.specSum 5 0 ∧ 0 < (5 : ℚ) - 0 := by
  norm_num [specSum, specDerivative]

/-- C34. An unconfigured controller (infinite limits, pass-through derivative) is the textbook PID:
after any finite history the output is the proportional term, plus the integral gain times the step
times the sum of all errors, plus the derivative gain times the last difference quotient of the
measurement. -/
theorem textbook (kp ki kd dt : ℝ) (hdt : 0 < dt) (p : Pid XR)
    (hp : Pid.new (.fin kp) (.fin ki) (.fin kd) (.fin dt) = .ok p) (xs : List (ℝ × ℝ))
    (s₀ m₀ s m : ℝ) :
    (((p.run ((xs ++ [(s₀, m₀)]).map fun x => (XR.fin x.1, XR.fin x.2))).2).update
        (.fin s) (.fin m)).1 =
      .fin (kp * (s - m) + ki * dt * ((xs ++ [(s₀, m₀), (s, m)]).map fun x => x.1 - x.2).sum
        + kd * ((m₀ - m) / dt)) := by
  have hp' : p = ⟨.fin kp, .fin ki, .fin kd, .fin dt, .ninf, .pinf, 0, ⟨1, 0, false⟩, 0, 0,
      false⟩ := by
    unfold Pid.new OnePole.new at hp
    simp only [Fns.isFinite, XR.one_def, XR.zero_def, XR.fin_le, XR.fin_lt, not_le.mpr hdt] at hp
    norm_num [Fns.infinity, Fns.negInfinity] at hp
    rw [← hp]; simp
  have lims : ∀ x : ℝ, min (max (XR.fin x) .ninf) .pinf = .fin x := by
    intro x
    rw [XR.max_of_ne (by simp) (by simp), if_neg (by simp), XR.min_of_ne (by simp) (by simp),
      if_neg (by simp)]
  have step : ∀ (p : Pid XR) (I d y e : ℝ) (b i : Bool) (s m : ℝ),
      p = ⟨.fin kp, .fin ki, .fin kd, .fin dt, .ninf, .pinf, .fin I, ⟨1, .fin d, i⟩, .fin y,
        .fin e, b⟩ → (i = false → b = false) →
      (p.update (.fin s) (.fin m)).2 = ⟨.fin kp, .fin ki, .fin kd, .fin dt, .ninf, .pinf,
        .fin (I + ki * dt * (s - m)), ⟨1, .fin (if b then (y - m) / dt else 0), true⟩, .fin m,
        .fin (s - m), true⟩ ∧
      (p.update (.fin s) (.fin m)).1 =
        .fin (kp * (s - m) + (I + ki * dt * (s - m)) + kd * (if b then (y - m) / dt else 0)) := by
    rintro p I d y e b i s m rfl hib
    have hd : ((⟨1, .fin d, i⟩ : OnePole XR).filter
        (if b = true then (XR.fin y - XR.fin m) / XR.fin dt else 0)) =
        (.fin (if b then (y - m) / dt else 0), ⟨1, .fin (if b then (y - m) / dt else 0), true⟩) := by
      cases b <;> cases i <;>
        simp_all [OnePole.filter, XR.fin_div _ _ hdt.ne']
    simp only [update]
    rw [hd]
    simp only [XR.fin_sub, XR.fin_mul, XR.fin_add, lims, XR.not_pinf_lt,
      XR.not_lt_ninf, decide_false, Bool.false_and, Bool.or_self, Bool.false_eq_true, if_false]
    constructor
    · congr 2; ring
    · congr 1; ring
  have inv : ∀ xs : List (ℝ × ℝ), ∃ (d y e : ℝ) (b : Bool),
      (p.run (xs.map fun x => (XR.fin x.1, XR.fin x.2))).2 =
        ⟨.fin kp, .fin ki, .fin kd, .fin dt, .ninf, .pinf,
          .fin (ki * dt * (xs.map fun x => x.1 - x.2).sum), ⟨1, .fin d, b⟩, .fin y, .fin e, b⟩ ∧
      (∀ z ∈ xs.getLast?, y = z.2 ∧ b = true) := by
    intro xs
    induction xs using List.reverseRecOn with
    | nil => exact ⟨0, 0, 0, false, by simp [run, runFilter, hp'], by simp⟩
    | append_singleton xs x ih =>
      obtain ⟨d, y, e, b, h, -⟩ := ih
      refine ⟨if b then (y - x.2) / dt else 0, x.2, x.1 - x.2, true, ?_, ?_⟩
      swap
      · intro z hz
        simp at hz
        exact ⟨by rw [hz], rfl⟩
      · rw [List.map_append, run, runFilter_append]
        simp only [List.map_cons, List.map_nil, runFilter]
        have := (step _ _ d y e b b x.1 x.2 h (fun h => h)).1
        rw [run] at this
        rw [this]
        congr 2
        simp [mul_add]
  obtain ⟨d, y, e, b, h, hl⟩ := inv (xs ++ [(s₀, m₀)])
  obtain ⟨hy, hb⟩ := hl (s₀, m₀) (by simp)
  subst hb
  simp only at hy
  rw [hy] at h
  rw [(step _ _ d m₀ e true true s m h (fun h => h)).2]
  congr 1
  simp only [List.map_append, List.map_cons, List.map_nil, List.sum_append, List.sum_cons,
    List.sum_nil, if_true]
  ring

/-! ## Bumpless changes (C35) -/

/-- C35. Complete accounting of a gain change: on the next sample the new gains give what the old
ones would have given, plus the change of each gain times how far its own term has moved since the
last sample, plus the new integral step.  So a sample with the error and derivative of the last one
differs only by the integral step. -/
theorem setGains_bump_partial (p q : Pid ℝ) (kp ki kd : ℝ) (hq : p.setGains kp ki kd = .ok q)
    (hprev : p.hasPreviousMeasurement = true) (s m : ℝ) :
    q.specSum s m = p.specSum s m + (kp - p.proportionalGain) * ((s - m) - p.previousError) +
      (kd - p.derivativeGain) * (p.specDerivative m - p.derivativeFilter.state) +
      (ki - p.integralGain) * (s - m) * p.timestep ∧
    kp * p.previousError + q.integral + kd * q.derivativeFilter.state =
      p.proportionalGain * p.previousError + p.integral +
        p.derivativeGain * p.derivativeFilter.state := by
  unfold setGains at hq
  simp only [Fns.isFinite, hprev, Bool.not_true, Bool.or_self, Bool.false_eq_true, if_false,
    if_true, Except.ok.injEq] at hq
  subst hq
  simp only [specSum, specDerivative, hprev, if_true]
  constructor <;> ring

/-- C35 (finding). The documentation says the command out of the next call "is what the old gains
would have given".  It is not: after measurements 0 then 1 with only derivative action, dropping the
derivative gain makes the next call return -1 where the old gains give 0. -/
theorem setGains_not_bumpless :
    ∃ (p q : Pid ℝ), (∃ p₀ : Pid ℝ, p₀.hasPreviousMeasurement = false ∧ p₀.integral = 0 ∧
        p = (p₀.run [(0, 0), (0, 1)]).2) ∧
      p.setGains 0 0 0 = .ok q ∧ (p.update 0 1).1 = 0 ∧ (q.update 0 1).1 = -1 := by
  let p₀ : Pid ℝ := ⟨0, 0, 1, 1, -10, 10, 0, ⟨1, 0, false⟩, 0, 0, false⟩
  refine ⟨(p₀.run [(0, 0), (0, 1)]).2,
    ⟨0, 0, 0, 1, -10, 10, -1, ⟨1, -1, true⟩, 1, -1, true⟩, ⟨p₀, rfl, rfl, rfl⟩, ?_, ?_, ?_⟩
  · simp only [p₀, run, runFilter, update, OnePole.filter, setGains, Fns.isFinite]
    norm_num
  · simp only [p₀, run, runFilter, update, OnePole.filter]
    norm_num
  · simp only [update, OnePole.filter]
    norm_num

/-- C35. Taking over from a command: the first update with the same setpoint and measurement returns
the command, limited to the output range — so exactly the command when it is within the limits. -/
theorem resumeFrom_output (p q : Pid ℝ) (out s m : ℝ) (h : p.resumeFrom out s m = .ok q) :
    (q.update s m).1 = min (max out p.outputMinimum) p.outputMaximum := by
  unfold resumeFrom at h
  simp only [Fns.isFinite, Bool.not_true, Bool.or_self, Bool.false_eq_true, if_false,
    Except.ok.injEq] at h
  subst h
  obtain ⟨e1, -, -⟩ := update_eq
    ({ p with
      integral := out - p.proportionalGain * (s - m) - p.integralGain * (s - m) * p.timestep
      derivativeFilter := p.derivativeFilter.reset
      previousMeasurement := m
      previousError := s - m
      hasPreviousMeasurement := true } : Pid ℝ) s m
  rw [e1]
  congr 2
  simp only [specSum, specDerivative, OnePole.reset, sub_self, zero_div, if_true,
    Bool.false_eq_true, if_false, mul_zero, add_zero]
  ring

/-- C35. Held inputs after a hand-over: the integral is left so that the controller carries on from
the command. -/
theorem resumeFrom_exact (p q : Pid ℝ) (out s m : ℝ) (h : p.resumeFrom out s m = .ok q)
    (h1 : p.outputMinimum ≤ out) (h2 : out ≤ p.outputMaximum) : (q.update s m).1 = out := by
  rw [resumeFrom_output p q out s m h, max_eq_left h1, min_eq_left h2]

/-- C35 (finding). "Calling update with that same pair returns exactly that command" fails for a
command outside the limits. -/
theorem resumeFrom_outside_limits : ∃ (p q : Pid ℝ), p.resumeFrom 2 0 0 = .ok q ∧
    (q.update 0 0).1 ≠ 2 := by
  refine ⟨⟨1, 0, 0, 1, -1, 1, 0, ⟨1, 0, false⟩, 0, 0, false⟩, _, rfl, ?_⟩
  rw [resumeFrom_output _ _ 2 0 0 rfl]
  norm_num

example : ∃ q, (⟨1, 1, 1, 1, -1, 1, 0, ⟨1, 0, false⟩, 0, 0, false⟩ : Pid ℝ).resumeFrom (1/2) 3 2
    = .ok q ∧ (-1 : ℝ) ≤ 1 / 2 ∧ (1 : ℝ) / 2 ≤ 1 := ⟨_, rfl, by norm_num, by norm_num⟩

/-! ## Special values (C82) -/

/-- C82 (finding). One NaN measurement is never absorbed: whatever follows, every later output is
the lower output limit, until `reset`. -/
theorem nan_measurement_sticks (q p : Pid XR) (lo hi : XR) (h : q.withOutputLimits lo hi = .ok p)
    (s : XR) (xs : List (XR × XR)) :
    ∀ y ∈ ((p.update s .nan).2.run xs).1, y = lo := by
  obtain ⟨h1, h2, h3, h4, h5⟩ : lo ≠ .nan ∧ hi ≠ .nan ∧ ¬ hi < lo ∧
      p.outputMinimum = lo ∧ p.outputMaximum = hi := by
    unfold withOutputLimits at h
    split at h
    · simp at h
    · split at h
      · simp at h
      · next ha hb =>
        simp only [Bool.or_eq_true, not_or, Bool.not_eq_true] at ha
        simp only [Except.ok.injEq] at h
        exact ⟨by rintro rfl; simp [Fns.isNan] at ha, by rintro rfl; simp [Fns.isNan] at ha, hb,
          by rw [← h], by rw [← h]⟩
  have key : ∀ (xs : List (XR × XR)) (r : Pid XR), r.integral = .nan → r.outputMinimum = lo →
      r.outputMaximum = hi → ∀ y ∈ (r.run xs).1, y = lo := by
    intro xs
    induction xs with
    | nil => intro r _ _ _ y hy; simp [run, runFilter] at hy
    | cons x xs ih =>
      intro r hr1 hr2 hr3 y hy
      rw [run_cons] at hy
      rcases List.mem_cons.mp hy with rfl | hy
      · simp only [update, hr1, XR.nan_add, XR.add_nan, XR.nan_max, hr2, hr3]
        rw [XR.min_of_ne h1 h2, if_neg h3]
      · refine ih (r.update x.1 x.2).2 ?_ hr2 hr3 y hy
        simp [update, hr1]
  refine key xs _ ?_ h4 h5
  simp [update]

/-- C82. After `reset` a NaN reading is forgotten: the controller is as it was before its first
update, up to the tuning. -/
theorem reset_forgets (p : Pid T) [Zero T] [One T] [Add T] [Sub T] [Mul T] [Div T] [LT T]
    [DecidableLT T] [Max T] [Min T] (xs : List (T × T)) : (p.run xs).2.reset = p.reset := by
  induction xs generalizing p with
  | nil => rfl
  | cons x xs ih =>
    rw [run_cons]
    rw [ih]
    simp only [update, reset, OnePole.filter, OnePole.reset]
    split <;> rfl

end Pid
end Multicalc
