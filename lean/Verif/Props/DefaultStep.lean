import Verif.Model.DefaultStep
import Verif.Props.FiniteDifferenceError
import Verif.Props.Derivatives

/-!
# What noise does to finite differences, the default steps (C127), and the free functions (C09, C10)
-/

namespace Multicalc

open Set Topology

/-- How much one difference amplifies an error in the function values: they may err in opposite directions,
and central differences divide by twice the step. -/
def fdAmplify : DiffMode → ℝ
  | .forward | .backward => 2
  | .central => 1

theorem fdAmplify_eq (mode : DiffMode) : fdAmplify mode * (fdOffsets mode : ℝ × ℝ × ℝ).2.2 = 2 := by
  cases mode <;> simp [fdAmplify, fdOffsets]

theorem fdAmplify_pos (mode : DiffMode) : 0 < fdAmplify mode := by cases mode <;> simp [fdAmplify]

theorem fd_quotient_noise (mode : DiffMode) {a b a' b' s D : ℝ} (hs : 0 < s) (ha : |a - a'| ≤ D) (hb : |b - b'| ≤ D) :
    |(a - b) / ((fdOffsets mode : ℝ × ℝ × ℝ).2.2 * s) - (a' - b') / ((fdOffsets mode : ℝ × ℝ × ℝ).2.2 * s)| ≤
      D * (fdAmplify mode / s) := by
  have hd : 0 < (fdOffsets mode : ℝ × ℝ × ℝ).2.2 := by cases mode <;> simp [fdOffsets]
  set d := (fdOffsets mode : ℝ × ℝ × ℝ).2.2
  have he : fdAmplify mode = 2 / d := by rw [eq_div_iff hd.ne']; exact fdAmplify_eq mode
  rw [← sub_div, abs_div, abs_of_pos (mul_pos hd hs), he, div_le_iff₀ (mul_pos hd hs)]
  have : D * (2 / d / s) * (d * s) = 2 * D := by field_simp
  rw [this]
  have h1 : a - b - (a' - b') = (a - a') - (b - b') := by ring
  rw [h1]
  exact (abs_sub _ _).trans (by linarith)

theorem fdDiff_noise (c : FdConfig ℝ) (hm : 0 < c.multiplier) {f g : ℝ → ℝ} {δ : ℝ}
    (h : ∀ y, |f y - g y| ≤ δ) (k : ℕ) (x s : ℝ) (hs : 0 < s) :
    |fdDiff c f k x s - fdDiff c g k x s| ≤
      δ * ∏ i ∈ Finset.range (k + 1), fdAmplify c.method / (c.multiplier ^ i * s) := by
  induction k generalizing x s with
  | zero =>
    simp only [zero_add, Finset.prod_range_one, pow_zero, one_mul]
    exact fd_quotient_noise c.method hs (h _) (h _)
  | succ k ih =>
    rw [Finset.prod_range_succ', pow_zero, one_mul, ← mul_assoc]
    refine fd_quotient_noise c.method hs ?_ ?_ <;>
    · refine (ih _ _ (mul_pos hm hs)).trans (le_of_eq ?_)
      congr 1
      refine Finset.prod_congr rfl fun i _ => ?_
      rw [pow_succ, mul_assoc]

/-- C127. If every value of the function is off by at most `δ`, a finite difference of order `n` is off by at
most `δ` times the product of the amplifications of its `n` differences: the inverse of each step for central
differences, twice that for one-sided ones.  For the first derivative no smaller bound holds. -/
theorem fdSingle_noise (c : FdConfig ℝ) (hs : 0 < c.stepSize) (hm : 0 < c.multiplier) (n : ℕ) (hn : 0 < n)
    (f g : ℝ → ℝ) (δ x : ℝ) (h : ∀ y, |f y - g y| ≤ δ) :
    (∃ u v, fdSingle c n f x = .ok u ∧ fdSingle c n g x = .ok v ∧
      |u - v| ≤ δ * ∏ i ∈ Finset.range n, (if c.method matches .central then 1 else 2) / (c.multiplier ^ i * c.stepSize)) ∧
    (∃ f' : ℝ → ℝ, (∀ y, |f' y - 0| ≤ δ) ∧ fdSingle c 1 (fun _ => 0) x = .ok 0 ∧
      fdSingle c 1 f' x = .ok (δ * ((if c.method matches .central then 1 else 2) / c.stepSize))) := by
  have hamp : (if c.method matches .central then (1 : ℝ) else 2) = fdAmplify c.method := by
    cases c.method <;> simp [fdAmplify]
  have hδ : 0 ≤ δ := (abs_nonneg _).trans (h x)
  constructor
  · obtain ⟨k, rfl⟩ : ∃ k, n = k + 1 := ⟨n - 1, by omega⟩
    refine ⟨fdDiff c f k x c.stepSize, fdDiff c g k x c.stepSize, ?_, ?_, ?_⟩
    · unfold fdSingle; rw [if_neg (by omega), fd_check_ok hs, Nat.add_sub_cancel]; rfl
    · unfold fdSingle; rw [if_neg (by omega), fd_check_ok hs, Nat.add_sub_cancel]; rfl
    · rw [hamp]; exact fdDiff_noise c hm h k x _ hs
  · refine ⟨fun y => if y ≤ fdLow c.method x c.stepSize then -δ else δ, fun y => ?_, ?_, ?_⟩
    · dsimp only
      split_ifs <;> simp [abs_of_nonneg hδ]
    · unfold fdSingle
      rw [if_neg (by omega), fd_check_ok hs]
      refine congrArg Except.ok ?_
      simp [fdDiff]
    · unfold fdSingle
      rw [if_neg (by omega), fd_check_ok hs]
      refine congrArg Except.ok ?_
      rw [Nat.sub_self, fdDiff_zero_eq, if_neg (not_le.2 (fdLow_lt_fdHigh c.method x hs)), if_pos le_rfl,
        ← fdHigh_sub_fdLow, hamp]
      have := fdAmplify_eq c.method
      have hd : 0 < (fdOffsets c.method : ℝ × ℝ × ℝ).2.2 := by cases c.method <;> simp [fdOffsets]
      have he : fdAmplify c.method = 2 / (fdOffsets c.method : ℝ × ℝ × ℝ).2.2 := by rw [eq_div_iff hd.ne']; exact this
      rw [he]
      field_simp
      ring

/-- A noisy square. -/
example : ∀ y : ℝ, |(y ^ 2 + 1 / 1000 * Real.sin y) - y ^ 2| ≤ 1 / 1000 := fun y => by
  rw [add_sub_cancel_left, abs_mul]
  have := Real.abs_sin_le_one y
  rw [abs_of_pos (by norm_num : (0 : ℝ) < 1 / 1000)]
  linarith

theorem eps_pos' : (0 : ℝ) < 1 / 2 ^ 52 := by positivity

theorem default_central : (DiffMode.defaultStepSize .central : ℝ) = (1 / 2 ^ 52 : ℝ) ^ ((1 : ℝ) / 3) := by
  show realCbrt (1 / 2 ^ 52) = _
  unfold realCbrt
  rw [if_neg (not_lt.2 eps_pos'.le)]

theorem default_cube : (DiffMode.defaultStepSize .central : ℝ) ^ 3 = 1 / 2 ^ 52 := realCbrt_cube _

theorem default_central_pos : 0 < (DiffMode.defaultStepSize .central : ℝ) := by
  rw [default_central]; exact Real.rpow_pos_of_pos eps_pos' _

theorem default_central_sq : (DiffMode.defaultStepSize .central : ℝ) ^ 2 = (1 / 2 ^ 52 : ℝ) ^ ((2 : ℝ) / 3) := by
  rw [default_central, ← Real.rpow_natCast, ← Real.rpow_mul eps_pos'.le]
  norm_num

theorem default_sided (mode : DiffMode) (h : mode ≠ .central) :
    (DiffMode.defaultStepSize mode : ℝ) = 1 / 2 ^ 26 := by
  have : (DiffMode.defaultStepSize mode : ℝ) = √(1 / 2 ^ 52) := by cases mode <;> first | rfl | exact absurd rfl h
  rw [this, show (1 / 2 ^ 52 : ℝ) = (1 / 2 ^ 26) ^ 2 by norm_num, Real.sqrt_sq (by positivity)]

/-- C127. The default steps balance rounding against truncation, as documented.  Of all positive steps the
one-sided default makes `ε / h + h` smallest; the central default makes the cube of `ε / h + h²` at most
`32/27` of what any other step does.  The constant `DEFAULT_STEP_SIZE` is the central default to within
`10⁻²⁰`. -/
theorem default_step_balances (mode : DiffMode) (h : ℝ) (hh : 0 < h) :
    (mode ≠ .central → (1 / 2 ^ 52) / DiffMode.defaultStepSize mode + DiffMode.defaultStepSize mode ≤ (1 / 2 ^ 52) / h + h) ∧
    ((1 / 2 ^ 52) / DiffMode.defaultStepSize .central + (DiffMode.defaultStepSize .central : ℝ) ^ 2) ^ 3 ≤
      32 / 27 * ((1 / 2 ^ 52) / h + h ^ 2) ^ 3 ∧
    |(defaultStepConstant : ℝ) - DiffMode.defaultStepSize .central| ≤ 1 / 10 ^ 20 := by
  refine ⟨fun hc => ?_, ?_, ?_⟩
  · rw [default_sided mode hc]
    have e : (1 / 2 ^ 52 : ℝ) / (1 / 2 ^ 26) + 1 / 2 ^ 26 = 2 * (1 / 2 ^ 26) := by norm_num
    rw [e, div_add' _ _ _ hh.ne', le_div_iff₀ hh]
    nlinarith [sq_nonneg (h - 1 / 2 ^ 26)]
  · set d := (DiffMode.defaultStepSize .central : ℝ) with hd
    have h3 : d ^ 3 = 1 / 2 ^ 52 := default_cube
    have hp : 0 < d := default_central_pos
    rw [← h3]
    have e1 : d ^ 3 / d = d ^ 2 := by field_simp
    rw [e1]
    set a := d ^ 3 / h with ha
    have hapos : 0 < a := by positivity
    have hab : a ^ 2 * h ^ 2 = d ^ 6 := by rw [ha]; field_simp
    have key : 27 / 4 * (a ^ 2 * h ^ 2) ≤ (a + h ^ 2) ^ 3 := by
      have : (a + h ^ 2) ^ 3 - 27 / 4 * (a ^ 2 * h ^ 2) = (a - 2 * h ^ 2) ^ 2 * (a + h ^ 2 / 4) := by ring
      have : 0 ≤ (a - 2 * h ^ 2) ^ 2 * (a + h ^ 2 / 4) := by positivity
      linarith
    rw [hab] at key
    have : (d ^ 2 + d ^ 2) ^ 3 = 8 * d ^ 6 := by ring
    rw [this]
    linarith
  · set d := (DiffMode.defaultStepSize .central : ℝ) with hd
    have h3 : d ^ 3 = 1 / 2 ^ 52 := default_cube
    have hp : 0 < d := default_central_pos
    have hc : (defaultStepConstant : ℝ) = 6055454452393343 / 10 ^ 21 := by simp [defaultStepConstant]
    rw [hc, abs_le]
    constructor
    · by_contra hlt
      push Not at hlt
      have : (6055454452393353 / 10 ^ 21 : ℝ) < d := by norm_num at hlt ⊢; linarith
      have := pow_lt_pow_left₀ this (by norm_num) (by norm_num : (3 : ℕ) ≠ 0)
      rw [h3] at this
      norm_num at this
    · by_contra hlt
      push Not at hlt
      have : d < (6055454452393333 / 10 ^ 21 : ℝ) := by norm_num at hlt ⊢; linarith
      have := pow_lt_pow_left₀ this hp.le (by norm_num : (3 : ℕ) ≠ 0)
      rw [h3] at this
      norm_num at this

example : DiffMode.forward ≠ .central ∧ (0 : ℝ) < 1 := ⟨(by intro h; cases h), one_pos⟩

/-- C127. The default configuration on a function whose every value is off by at most `K` units of rounding:
the first derivative is right to `(K + B/6) ε^(2/3)`, where `B` bounds the third derivative near the point.  A
one-sided difference with its own default step is right to `(2 K + M) √ε`, where `M` bounds the second. -/
theorem default_step_error (mode : DiffMode) (g : ℕ → ℝ → ℝ) (f : ℝ → ℝ) (x K M m : ℝ)
    (hf : ∀ y, |f y - g 0 y| ≤ K * (1 / 2 ^ 52)) (hm : 0 < m)
    (hd : ∀ i ≤ 2, ∀ y, |y - x| ≤ 1 / 10 ^ 5 → HasDerivAt (g i) (g (i + 1) y) y)  :
    ((∀ y, |y - x| ≤ 1 / 10 ^ 5 → |g 3 y| ≤ M) →
      ∃ v, fdSingle FdConfig.default 1 f x = .ok v ∧ |v - g 1 x| ≤ (K + M / 6) * (1 / 2 ^ 52 : ℝ) ^ ((2 : ℝ) / 3)) ∧
    (mode ≠ .central → (∀ y, |y - x| ≤ 1 / 10 ^ 5 → |g 2 y| ≤ M) →
      ∃ v, fdSingle ⟨DiffMode.defaultStepSize mode, mode, m⟩ 1 f x = .ok v ∧ |v - g 1 x| ≤ (2 * K + M) * (1 / 2 ^ 26)) := by
  constructor
  · intro hM
    have hle : (DiffMode.defaultStepSize .central : ℝ) ≤ 1 / 10 ^ 5 := by
      have h := (default_step_balances .central 1 one_pos).2.2
      have hc : (defaultStepConstant : ℝ) = 6055454452393343 / 10 ^ 21 := by simp [defaultStepConstant]
      rw [hc] at h
      have := (abs_le.1 h).1
      norm_num at this ⊢
      linarith
    have hp := default_central_pos
    have hmul : (0 : ℝ) < Fns.lit 10 := by show (0 : ℝ) < ((10 : ℚ) : ℝ); norm_num
    obtain ⟨v, h1, h2⟩ := fdSingle_central_error (FdConfig.default : FdConfig ℝ) rfl hp hmul 1 one_pos g x M
      (fun i hi y hy => hd i (by omega) y (by simpa [FdConfig.default] using hy.trans (by simpa [FdConfig.default] using hle)))
      (fun y hy => hM y (by simpa [FdConfig.default] using hy.trans (by simpa [FdConfig.default] using hle)))
    obtain ⟨⟨u, v', h3, h4, h5⟩, -⟩ := fdSingle_noise (FdConfig.default : FdConfig ℝ) hp hmul 1 one_pos f (g 0) _ x hf
    rw [h1] at h4
    injection h4 with h4
    subst h4
    refine ⟨u, h3, ?_⟩
    rw [← default_central_sq]
    simp only [Finset.prod_range_one, Finset.sum_range_one, pow_zero, one_mul] at h2 h5
    have e : K * (1 / 2 ^ 52 : ℝ) * ((if (FdConfig.default : FdConfig ℝ).method matches .central then (1 : ℝ) else 2) /
        (FdConfig.default : FdConfig ℝ).stepSize) = K * (DiffMode.defaultStepSize .central : ℝ) ^ 2 := by
      rw [← default_cube]
      simp only [FdConfig.default, if_true]
      field_simp
    rw [e] at h5
    calc |u - g 1 x| ≤ |u - v| + |v - g 1 x| := abs_sub_le _ _ _
      _ ≤ K * (DiffMode.defaultStepSize .central : ℝ) ^ 2 + M / 6 * (DiffMode.defaultStepSize .central : ℝ) ^ 2 := add_le_add h5 h2
      _ = _ := by ring
  · intro hc hM
    have hstep := default_sided mode hc
    have hp : 0 < (DiffMode.defaultStepSize mode : ℝ) := by rw [hstep]; positivity
    have hle : (DiffMode.defaultStepSize mode : ℝ) ≤ 1 / 10 ^ 5 := by rw [hstep]; norm_num
    let c : FdConfig ℝ := ⟨DiffMode.defaultStepSize mode, mode, m⟩
    have hin : ∀ y ∈ fdWindow c.method x (c.stepSize * ∑ i ∈ Finset.range 1, c.multiplier ^ i), |y - x| ≤ 1 / 10 ^ 5 := by
      intro y hy
      refine (fdWindow_dist ?_ hy).trans ?_ <;> simp [c] <;> linarith
    obtain ⟨v, h1, h2⟩ := fdSingle_error c hp hm 1 one_pos g x M
      (fun i hi y hy => hd i (by omega) y (hin y hy)) (fun y hy => hM y (hin y hy))
    obtain ⟨⟨u, v', h3, h4, h5⟩, -⟩ := fdSingle_noise c hp hm 1 one_pos f (g 0) _ x hf
    rw [h1] at h4
    injection h4 with h4
    subst h4
    refine ⟨u, h3, ?_⟩
    simp only [Finset.prod_range_one, Finset.sum_range_one, pow_zero, one_mul, mul_one] at h2 h5
    have e : K * (1 / 2 ^ 52 : ℝ) * ((if c.method matches .central then (1 : ℝ) else 2) / c.stepSize) = 2 * K * (1 / 2 ^ 26) := by
      have : (if c.method matches .central then (1 : ℝ) else 2) = 2 := by
        cases mode <;> simp_all [c]
      rw [this, show c.stepSize = 1 / 2 ^ 26 from hstep]
      ring
    rw [e] at h5
    rw [show c.stepSize = 1 / 2 ^ 26 from hstep] at h2
    calc |u - g 1 x| ≤ |u - v| + |v - g 1 x| := abs_sub_le _ _ _
      _ ≤ 2 * K * (1 / 2 ^ 26) + M * (1 / 2 ^ 26) := add_le_add h5 h2
      _ = _ := by ring

/-- The sine with values rounded to `ε`: its derivatives, and a bound on the third. -/
example (rounded : ℝ → ℝ) (h : ∀ y, |rounded y - Real.sin y| ≤ 1 / 2 ^ 52) :
    ∃ v, fdSingle FdConfig.default 1 rounded 0 = .ok v ∧ |v - 1| ≤ (1 + 1 / 6) * (1 / 2 ^ 52 : ℝ) ^ ((2 : ℝ) / 3) := by
  let g : ℕ → ℝ → ℝ := fun i => match i with
    | 0 => Real.sin
    | 1 => Real.cos
    | 2 => fun y => -Real.sin y
    | _ => fun y => -Real.cos y
  have := (default_step_error .central g rounded 0 1 1 1 (by simpa [g] using h) one_pos (by
    intro i hi y _
    interval_cases i
    · exact Real.hasDerivAt_sin y
    · exact Real.hasDerivAt_cos y
    · exact (Real.hasDerivAt_sin y).neg)).1 (fun y _ => by
      show |-Real.cos y| ≤ 1
      rw [abs_neg]; exact Real.abs_cos_le_one y)
  simpa [g] using this

/-- C09. The free functions `derivative` and `partial`: on every program smooth at the point the result is the
derivative, respectively the partial derivative, and `partial` refuses exactly the indices that are no variable. -/
theorem free_derivative (e : Expr 1) (x : ℝ) (h : e.SmoothAt (fun _ => x)) {n : ℕ} (e' : Expr n) (i : ℕ)
    (p : Fin n → ℝ) (h' : e'.SmoothAt p) :
    HasDerivAt (fun s => e.eval (fun _ => s)) (freeDerivative e x) x ∧
    (freePartial e' i p = .error .indexOutOfRange ↔ n ≤ i) ∧
    (∀ hi : i < n, ∃ d, freePartial e' i p = .ok d ∧
      HasDerivAt (fun s => e'.eval (Function.update p ⟨i, hi⟩ s)) d (p ⟨i, hi⟩)) := by
  obtain ⟨d, h1, h2⟩ := autoDiffSingle_one e x h
  refine ⟨?_, ⟨fun hr => ?_, fun hi => ?_⟩, fun hi => autoDiffMulti_one e' ⟨i, hi⟩ p h'⟩
  · injection h1 with h1
    rw [← h1] at h2
    exact h2
  · by_contra hlt
    obtain ⟨d, hd, -⟩ := autoDiffMulti_one e' ⟨i, not_le.1 hlt⟩ p h'
    unfold freePartial at hr
    rw [hd] at hr
    cases hr
  · exact (autoDiff_errors e' e [i] p x 0).2.1 (by simp) ⟨i, by simp, hi⟩

/-- C10. The free function `second_derivative` returns the derivative of the derivative. -/
theorem free_second_derivative (e : Expr 1) (x : ℝ) (h : e.SmoothAt (fun _ => x)) :
    ∃ g : ℝ → ℝ, (∀ᶠ y in 𝓝 x, HasDerivAt (fun s => e.eval (fun _ => s)) (g y) y) ∧
      HasDerivAt g (freeSecondDerivative e x) x := by
  obtain ⟨d, g, h1, h2, h3⟩ := autoDiffSingle_two e x h
  injection h1 with h1
  rw [← h1] at h3
  exact ⟨g, h2, h3⟩

/-- Programs smooth where the theorems ask. -/
example : (Expr.var 0 : Expr 1).SmoothAt (fun _ => 2) ∧ (Expr.var 1 : Expr 2).SmoothAt (fun _ => 2) :=
  ⟨trivial, trivial⟩

end Multicalc
