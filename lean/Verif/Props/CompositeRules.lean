import Verif.Props.Integration
import Mathlib.Analysis.Calculus.Taylor
import Mathlib.Analysis.Calculus.IteratedDeriv.Lemmas
import Mathlib.Topology.UniformSpace.HeineCantor

/-!
# Property C122: the composite rules converge on every continuous integrand, at their own order
-/

namespace Multicalc
open Finset MeasureTheory

/-- What a rule adds up over one panel starting at `x`, with samples `d` apart. -/
noncomputable def panelSum (m : IterativeMethod) (f : ℝ → ℝ) (d x : ℝ) : ℝ :=
  match m with
  | .booles => 2 * d / 45 * (7 * f x + 32 * f (x + d) + 12 * f (x + 2 * d) + 32 * f (x + 3 * d) + 7 * f (x + 4 * d))
  | .simpsons => 3 * d / 8 * (f x + 3 * f (x + d) + 3 * f (x + 2 * d) + f (x + 3 * d))
  | .trapezoidal => d / 2 * (f x + f (x + d))

private theorem booles_split (f : ℝ → ℝ) (d : ℝ) (m iter : ℕ) (hi : iter % 4 = 0) (x : ℝ) :
    2 * d / 45 * (7 * f x + (walkTerms f boolesNext d (4 * m + 3) iter x 32).sum
      + 7 * f (x + (4 * m + 4) * d)) = ∑ j ∈ range (m + 1), panelSum .booles f d (x + j * (4 * d)) := by
  induction m generalizing iter x with
  | zero =>
    have e1 : (iter + 2) % 2 = 0 := by omega
    have e2 : ¬ (iter + 2) % 4 = 0 := by omega
    have e3 : (iter + 1 + 2) % 2 ≠ 0 := by omega
    simp only [walkTerms, boolesNext, e1, e2, e3, List.sum_cons, List.sum_nil, ne_eq,
      not_true_eq_false, not_false_eq_true, if_true, if_false, lit_cast, sum_range_succ, sum_range_zero, panelSum]
    rw [show x + d + d = x + 2 * d by ring, show x + 2 * d + d = x + 3 * d by ring]
    push_cast
    rw [show x + (4 * (0 : ℝ) + 4) * d = x + 4 * d by ring, show x + 0 * (4 * d) = x by ring]
    ring
  | succ m ih =>
    have e1 : (iter + 2) % 2 = 0 := by omega
    have e2 : ¬ (iter + 2) % 4 = 0 := by omega
    have e3 : (iter + 1 + 2) % 2 ≠ 0 := by omega
    have e4 : (iter + 1 + 1 + 2) % 2 = 0 := by omega
    have e5 : (iter + 1 + 1 + 2) % 4 = 0 := by omega
    have e6 : (iter + 1 + 1 + 1 + 2) % 2 ≠ 0 := by omega
    have hstep : (walkTerms f boolesNext d (4 * (m + 1) + 3) iter x 32).sum =
        32 * f (x + d) + 12 * f (x + 2 * d) + 32 * f (x + 3 * d) + 14 * f (x + 4 * d)
          + (walkTerms f boolesNext d (4 * m + 3) (iter + 4) (x + 4 * d) 32).sum := by
      rw [show 4 * (m + 1) + 3 = (4 * m + 3) + 1 + 1 + 1 + 1 by ring]
      simp only [walkTerms, List.sum_cons]
      rw [show x + d + d = x + 2 * d by ring, show x + 2 * d + d = x + 3 * d by ring,
        show x + 3 * d + d = x + 4 * d by ring]
      simp only [boolesNext, e1, e2, e3, e4, e5, e6, ne_eq, not_true_eq_false, not_false_eq_true,
        if_true, if_false, lit_cast]
      push_cast
      ring
    have h1 := ih (iter + 4) (by omega) (x + 4 * d)
    rw [hstep, sum_range_succ']
    rw [show x + 4 * d + (4 * (m : ℝ) + 4) * d = x + (4 * ((m + 1 : ℕ) : ℝ) + 4) * d by
      push_cast; ring] at h1
    have h3 : ∀ j : ℕ, x + 4 * d + j * (4 * d) = x + ((j + 1 : ℕ) : ℝ) * (4 * d) := by
      intro j; push_cast; ring
    simp only [h3] at h1
    rw [← h1]
    simp only [panelSum, Nat.cast_zero, zero_mul, add_zero]
    ring

private theorem simpsons_split (f : ℝ → ℝ) (d : ℝ) (m iter : ℕ) (hi : iter % 3 = 0) (x : ℝ) :
    3 * d / 8 * (f x + (walkTerms f simpsonsNext d (3 * m + 2) iter x 3).sum
      + f (x + (3 * m + 3) * d)) = ∑ j ∈ range (m + 1), panelSum .simpsons f d (x + j * (3 * d)) := by
  induction m generalizing iter x with
  | zero =>
    have e1 : ¬ (iter + 2) % 3 = 0 := by omega
    simp only [walkTerms, simpsonsNext, e1, List.sum_cons, List.sum_nil, if_false, lit_cast, sum_range_succ,
      sum_range_zero, panelSum]
    rw [show x + d + d = x + 2 * d by ring]
    push_cast
    rw [show x + (3 * (0 : ℝ) + 3) * d = x + 3 * d by ring, show x + 0 * (3 * d) = x by ring]
    ring
  | succ m ih =>
    have e1 : ¬ (iter + 2) % 3 = 0 := by omega
    have e2 : (iter + 1 + 2) % 3 = 0 := by omega
    have e3 : ¬ (iter + 1 + 1 + 2) % 3 = 0 := by omega
    have hstep : (walkTerms f simpsonsNext d (3 * (m + 1) + 2) iter x 3).sum =
        3 * f (x + d) + 3 * f (x + 2 * d) + 2 * f (x + 3 * d)
          + (walkTerms f simpsonsNext d (3 * m + 2) (iter + 3) (x + 3 * d) 3).sum := by
      rw [show 3 * (m + 1) + 2 = (3 * m + 2) + 1 + 1 + 1 by ring]
      simp only [walkTerms, List.sum_cons]
      rw [show x + d + d = x + 2 * d by ring, show x + 2 * d + d = x + 3 * d by ring]
      simp only [simpsonsNext, e1, e2, e3, if_true, if_false, lit_cast]
      push_cast
      ring
    have h1 := ih (iter + 3) (by omega) (x + 3 * d)
    rw [hstep, sum_range_succ']
    rw [show x + 3 * d + (3 * (m : ℝ) + 3) * d = x + (3 * ((m + 1 : ℕ) : ℝ) + 3) * d by
      push_cast; ring] at h1
    have h3 : ∀ j : ℕ, x + 3 * d + j * (3 * d) = x + ((j + 1 : ℕ) : ℝ) * (3 * d) := by
      intro j; push_cast; ring
    simp only [h3] at h1
    rw [← h1]
    simp only [panelSum, Nat.cast_zero, zero_mul, add_zero]
    ring

private theorem trapezoidal_split (f : ℝ → ℝ) (d : ℝ) (m iter : ℕ) (x : ℝ) :
    d / 2 * (f x + (walkTerms f (fun _ => 2) d m iter x 2).sum + f (x + (m + 1) * d))
      = ∑ j ∈ range (m + 1), panelSum .trapezoidal f d (x + j * (1 * d)) := by
  induction m generalizing iter x with
  | zero =>
    simp only [walkTerms, List.sum_nil, sum_range_succ, sum_range_zero, panelSum]
    push_cast
    rw [show x + ((0 : ℝ) + 1) * d = x + d by ring, show x + 0 * (1 * d) = x by ring]
    ring
  | succ m ih =>
    have h1 := ih (iter + 1) (x + d)
    rw [sum_range_succ']
    simp only [walkTerms, List.sum_cons]
    rw [show x + d + ((m : ℝ) + 1) * d = x + (((m + 1 : ℕ) : ℝ) + 1) * d by
      push_cast; ring] at h1
    have h3 : ∀ j : ℕ, x + d + j * (1 * d) = x + ((j + 1 : ℕ) : ℝ) * (1 * d) := by
      intro j; push_cast; ring
    simp only [h3] at h1
    rw [← h1]
    simp only [panelSum, Nat.cast_zero, zero_mul, add_zero]
    ring

/-- A composite rule adds up its panels. -/
theorem integrateRule_panels (c : IterativeConfig) (q : ℕ) (hq : 0 < q) (hc : c.totalIterations = c.method.unit * q)
    (a b : ℝ) (f : ℝ → ℝ) :
    integrateRule c a b (fun x => .ok (f x)) = .ok (∑ j ∈ range q, panelSum c.method f ((b - a) / c.totalIterations)
      (a + j * (c.method.unit * ((b - a) / c.totalIterations)))) := by
  obtain ⟨q, rfl⟩ : ∃ k, q = k + 1 := ⟨q - 1, by omega⟩
  have hn : ((c.totalIterations : ℕ) : ℝ) ≠ 0 := by
    rw [hc]; exact_mod_cast (Nat.mul_pos (by cases c.method <;> decide) q.succ_pos).ne'
  have hb : ∀ k : ℝ, k = c.totalIterations → a + k * ((b - a) / c.totalIterations) = b := by
    rintro k rfl; field_simp; ring
  unfold integrateRule
  cases hm : c.method <;> rw [hm] at hc <;> simp only [IterativeMethod.unit] at hc ⊢
  · rw [show ((4 : ℕ) : ℝ) = 4 by norm_num, ← booles_split f _ q 0 rfl a, hb (4 * q + 4) (by rw [hc]; push_cast; ring)]
    simp only [booles, ruleWalk_ok, show c.totalIterations - 1 = 4 * q + 3 by omega]
    refine congrArg Except.ok ?_
    simp only [accSum_eq_sum, List.sum_cons, List.sum_append, List.sum_nil, lit_cast]
    push_cast
    ring
  · rw [show ((3 : ℕ) : ℝ) = 3 by norm_num, ← simpsons_split f _ q 0 rfl a, hb (3 * q + 3) (by rw [hc]; push_cast; ring)]
    simp only [simpsons, ruleWalk_ok, show c.totalIterations - 1 = 3 * q + 2 by omega]
    refine congrArg Except.ok ?_
    simp only [accSum_eq_sum, List.sum_cons, List.sum_append, List.sum_nil, lit_cast]
    push_cast
    ring
  · rw [Nat.cast_one, ← trapezoidal_split f _ q 0 a, hb (q + 1) (by rw [hc]; push_cast; ring)]
    simp only [trapezoidal, ruleWalk_ok, show c.totalIterations - 1 = q by omega]
    refine congrArg Except.ok ?_
    simp only [accSum_eq_sum, List.sum_cons, List.sum_append, List.sum_nil, lit_cast]
    push_cast
    ring

/-- The weights of one panel are positive and add up to its width. -/
theorem panelSum_close (m : IterativeMethod) (f g : ℝ → ℝ) (d x δ : ℝ) (hd : 0 ≤ d)
    (h : ∀ t ∈ Set.Icc x (x + m.unit * d), |f t - g t| ≤ δ) :
    |panelSum m f d x - panelSum m g d x| ≤ δ * (m.unit * d) := by
  have at' : ∀ k : ℝ, 0 ≤ k → k ≤ m.unit → |f (x + k * d) - g (x + k * d)| ≤ δ := fun k h0 h1 =>
    h _ ⟨by nlinarith, by nlinarith⟩
  cases m <;> simp only [IterativeMethod.unit, panelSum] at at' ⊢ <;> push_cast at at' ⊢
  · have p0 := abs_le.1 (at' 0 (by norm_num) (by norm_num))
    have p1 := abs_le.1 (at' 1 (by norm_num) (by norm_num))
    have p2 := abs_le.1 (at' 2 (by norm_num) (by norm_num))
    have p3 := abs_le.1 (at' 3 (by norm_num) (by norm_num))
    have p4 := abs_le.1 (at' 4 (by norm_num) (by norm_num))
    simp only [zero_mul, add_zero, one_mul] at p0 p1
    have e : 2 * d / 45 * (7 * f x + 32 * f (x + d) + 12 * f (x + 2 * d) + 32 * f (x + 3 * d) + 7 * f (x + 4 * d)) -
        2 * d / 45 * (7 * g x + 32 * g (x + d) + 12 * g (x + 2 * d) + 32 * g (x + 3 * d) + 7 * g (x + 4 * d)) =
        d * (2 / 45 * (7 * (f x - g x) + 32 * (f (x + d) - g (x + d)) + 12 * (f (x + 2 * d) - g (x + 2 * d)) +
          32 * (f (x + 3 * d) - g (x + 3 * d)) + 7 * (f (x + 4 * d) - g (x + 4 * d)))) := by ring
    rw [e, abs_mul, abs_of_nonneg hd, show δ * (4 * d) = d * (4 * δ) by ring]
    refine mul_le_mul_of_nonneg_left (abs_le.2 ⟨?_, ?_⟩) hd <;> linarith [p0.1, p0.2, p1.1, p1.2, p2.1, p2.2, p3.1, p3.2, p4.1, p4.2]
  · have p0 := abs_le.1 (at' 0 (by norm_num) (by norm_num))
    have p1 := abs_le.1 (at' 1 (by norm_num) (by norm_num))
    have p2 := abs_le.1 (at' 2 (by norm_num) (by norm_num))
    have p3 := abs_le.1 (at' 3 (by norm_num) (by norm_num))
    simp only [zero_mul, add_zero, one_mul] at p0 p1
    have e : 3 * d / 8 * (f x + 3 * f (x + d) + 3 * f (x + 2 * d) + f (x + 3 * d)) -
        3 * d / 8 * (g x + 3 * g (x + d) + 3 * g (x + 2 * d) + g (x + 3 * d)) =
        d * (3 / 8 * ((f x - g x) + 3 * (f (x + d) - g (x + d)) + 3 * (f (x + 2 * d) - g (x + 2 * d)) +
          (f (x + 3 * d) - g (x + 3 * d)))) := by ring
    rw [e, abs_mul, abs_of_nonneg hd, show δ * (3 * d) = d * (3 * δ) by ring]
    refine mul_le_mul_of_nonneg_left (abs_le.2 ⟨?_, ?_⟩) hd <;> linarith [p0.1, p0.2, p1.1, p1.2, p2.1, p2.2, p3.1, p3.2]
  · have p0 := abs_le.1 (at' 0 (by norm_num) (by norm_num))
    have p1 := abs_le.1 (at' 1 (by norm_num) (by norm_num))
    simp only [zero_mul, add_zero, one_mul] at p0 p1
    have e : d / 2 * (f x + f (x + d)) - d / 2 * (g x + g (x + d)) =
        d * (1 / 2 * ((f x - g x) + (f (x + d) - g (x + d)))) := by ring
    rw [e, abs_mul, abs_of_nonneg hd, show δ * (1 * d) = d * δ by ring]
    refine mul_le_mul_of_nonneg_left (abs_le.2 ⟨?_, ?_⟩) hd <;> linarith [p0.1, p0.2, p1.1, p1.2]

/-- One panel is exact on the polynomials of its rule. -/
theorem panelSum_poly (m : IterativeMethod) (p : Polynomial ℝ) (hp : p.natDegree ≤ m.exactDegree) (d x : ℝ) :
    panelSum m (fun t => p.eval t) d x = ∫ t in x..(x + m.unit * d), p.eval t := by
  have hev : ∀ k, p.natDegree < k → ∀ x, p.eval x = ∑ i ∈ range k, p.coeff i * x ^ i :=
    fun k hk x => Polynomial.eval_eq_sum_range' hk x
  cases m
  · simp only [hev 6 (Nat.lt_succ_of_le hp), panelSum, integral_coeffs, IterativeMethod.unit]
    exact booles_panel_poly p.coeff d x
  · simp only [hev 4 (Nat.lt_succ_of_le hp), panelSum, integral_coeffs, IterativeMethod.unit]
    exact simpsons_panel_poly p.coeff d x
  · simp only [hev 2 (Nat.lt_succ_of_le hp), panelSum, integral_coeffs, IterativeMethod.unit, Nat.cast_one, one_mul]
    exact trapezoidal_panel_poly p.coeff d x

/-- C122. However irregular the integrand: if on every panel it is within `δ` of a polynomial the rule is exact
on, the result is within `2 δ (b - a)` of the integral, for every rule, count, interval and accumulator. -/
theorem composite_error (m : IterativeMethod) (q : ℕ) (hq : 0 < q) (summation : SummationMethod) (f : ℝ → ℝ)
    (a b : ℝ) (hab : a < b) (hf : ContinuousOn f (Set.Icc a b)) (δ : ℝ)
    (h : ∀ j < q, ∃ p : Polynomial ℝ, p.natDegree ≤ m.exactDegree ∧
      ∀ t ∈ Set.Icc (a + j * ((b - a) / q)) (a + (j + 1) * ((b - a) / q)), |f t - p.eval t| ≤ δ) :
    ∃ v, iterativeSingle ⟨m.unit * q, m, summation⟩ f [(a, b)] = .ok v ∧
      |v - ∫ x in a..b, f x| ≤ 2 * δ * (b - a) := by
  have hunit : 0 < m.unit := by cases m <;> decide
  have hqr : (0 : ℝ) < q := by exact_mod_cast hq
  have hur : (0 : ℝ) < m.unit := by exact_mod_cast hunit
  set d := (b - a) / ((m.unit * q : ℕ) : ℝ) with hd
  have hw : (m.unit : ℝ) * d = (b - a) / q := by
    rw [hd]; push_cast; field_simp
  have hd0 : 0 ≤ d := div_nonneg (by linarith) (Nat.cast_nonneg _)
  set w := (b - a) / q with hwdef
  have hw0 : 0 < w := div_pos (by linarith) hqr
  have hqw : (q : ℝ) * w = b - a := by rw [hwdef]; field_simp
  refine ⟨_, by rw [single_finite _ (Nat.mul_pos hunit hq).ne' _ hab]; exact integrateRule_panels _ q hq rfl a b f, ?_⟩
  simp only [← hd, hw]
  have hsub : ∀ j : ℕ, j < q → Set.Icc (a + j * w) (a + (j + 1) * w) ⊆ Set.Icc a b := by
    intro j hj
    have hj1 : (j : ℝ) + 1 ≤ q := by exact_mod_cast hj
    refine Set.Icc_subset_Icc (by have := mul_nonneg (Nat.cast_nonneg (α := ℝ) j) hw0.le; linarith) ?_
    have := mul_le_mul_of_nonneg_right hj1 hw0.le
    linarith
  have hint : ∀ j < q, IntervalIntegrable f volume (a + (j : ℕ) * w) (a + ((j + 1 : ℕ) : ℝ) * w) := by
    intro j hj
    refine ContinuousOn.intervalIntegrable ?_
    rw [Set.uIcc_of_le (by push_cast; nlinarith)]
    push_cast
    exact hf.mono (hsub j hj)
  have hsplit : ∫ x in a..b, f x = ∑ j ∈ range q, ∫ x in (a + (j : ℕ) * w)..(a + ((j + 1 : ℕ) : ℝ) * w), f x := by
    have := intervalIntegral.sum_integral_adjacent_intervals (μ := volume) (a := fun j : ℕ => a + j * w) (n := q) hint
    rw [this]
    simp only [Nat.cast_zero, zero_mul, add_zero, hqw]
    congr 1
    ring
  rw [hsplit, ← sum_sub_distrib]
  have hpanel : ∀ j ∈ range q, |panelSum m f d (a + j * w) -
      ∫ x in (a + (j : ℕ) * w)..(a + ((j + 1 : ℕ) : ℝ) * w), f x| ≤ 2 * δ * w := by
    intro j hj
    have hj := mem_range.1 hj
    obtain ⟨p, hp, hclose⟩ := h j hj
    have e : a + ((j + 1 : ℕ) : ℝ) * w = a + j * w + m.unit * d := by rw [hw]; push_cast; ring
    have e' : a + ((j : ℝ) + 1) * w = a + j * w + m.unit * d := by rw [hw]; ring
    rw [e'] at hclose
    have h1 := panelSum_close m f (fun t => p.eval t) d (a + j * w) δ hd0 hclose
    rw [panelSum_poly m p hp] at h1
    have h2 : |∫ x in (a + (j : ℕ) * w)..(a + j * w + m.unit * d), (f x - p.eval x)| ≤ δ * (m.unit * d) := by
      have := intervalIntegral.norm_integral_le_of_norm_le_const (a := a + j * w) (b := a + j * w + m.unit * d)
        (f := fun x => f x - p.eval x) (C := δ) (fun x hx => by
          rw [Set.uIoc_of_le (by nlinarith)] at hx
          exact hclose x ⟨hx.1.le, hx.2⟩)
      rwa [add_sub_cancel_left, abs_of_nonneg (mul_nonneg hur.le hd0)] at this
    have hi := hint j hj
    rw [e] at hi ⊢
    rw [intervalIntegral.integral_sub hi (p.continuous.intervalIntegrable _ _)] at h2
    rw [hw] at h1 h2
    rw [abs_le] at h1 h2 ⊢
    rw [hw]
    rw [hw] at *
    constructor <;> linarith [h1.1, h1.2, h2.1, h2.2]
  calc _ ≤ ∑ j ∈ range q, |panelSum m f d (a + j * w) -
        ∫ x in (a + (j : ℕ) * w)..(a + ((j + 1 : ℕ) : ℝ) * w), f x| := abs_sum_le_sum_abs _ _
    _ ≤ ∑ _j ∈ range q, 2 * δ * w := sum_le_sum hpanel
    _ = 2 * δ * (b - a) := by rw [sum_const, card_range, nsmul_eq_mul, ← hqw]; ring

example (δ : ℝ) (hδ : 0 ≤ δ) : ∀ j < 2, ∃ p : Polynomial ℝ, p.natDegree ≤ IterativeMethod.simpsons.exactDegree ∧
    ∀ t ∈ Set.Icc ((0 : ℝ) + (j : ℕ) * ((1 - 0) / (2 : ℕ))) (0 + (j + 1) * ((1 - 0) / (2 : ℕ))), |t ^ 3 - p.eval t| ≤ δ :=
  fun _ _ => ⟨Polynomial.X ^ 3, by rw [Polynomial.natDegree_X_pow]; rfl, fun t _ => by simpa using hδ⟩

/-- C122. Every rule converges on every continuous integrand, with every accumulator: for any accuracy asked, every
large enough number of panels gives it. -/
theorem composite_converges (m : IterativeMethod) (summation : SummationMethod) (f : ℝ → ℝ) (a b : ℝ) (hab : a < b)
    (hf : ContinuousOn f (Set.Icc a b)) (ε : ℝ) (hε : 0 < ε) :
    ∃ q₀ : ℕ, ∀ q : ℕ, q₀ < q → ∃ v, iterativeSingle ⟨m.unit * q, m, summation⟩ f [(a, b)] = .ok v ∧
      |v - ∫ x in a..b, f x| < ε := by
  have hu := isCompact_Icc.uniformContinuousOn_of_continuous hf
  rw [Metric.uniformContinuousOn_iff] at hu
  have hba : 0 < b - a := by linarith
  obtain ⟨η, hη, hclose⟩ := hu (ε / (3 * (b - a))) (by positivity)
  obtain ⟨q₀, hq₀⟩ := exists_nat_gt ((b - a) / η)
  refine ⟨q₀, fun q hq => ?_⟩
  have hqr : ((b - a) / η) < q := hq₀.trans (by exact_mod_cast hq)
  have hq0 : (0 : ℝ) < q := (div_pos hba hη).trans hqr
  have hw0 : 0 < (b - a) / q := div_pos hba hq0
  have hwη : (b - a) / q < η := by rw [div_lt_iff₀ hq0]; rw [div_lt_iff₀ hη] at hqr; linarith
  obtain ⟨v, hv, hb⟩ := composite_error m q (by omega) summation f a b hab hf (ε / (3 * (b - a))) (fun j hj => by
    have hj1 : (j : ℝ) + 1 ≤ q := by exact_mod_cast hj
    have hsub : Set.Icc (a + j * ((b - a) / q)) (a + (j + 1) * ((b - a) / q)) ⊆ Set.Icc a b := by
      refine Set.Icc_subset_Icc (by have := mul_nonneg (Nat.cast_nonneg (α := ℝ) j) hw0.le; linarith) ?_
      have := mul_le_mul_of_nonneg_right hj1 hw0.le
      have e : (q : ℝ) * ((b - a) / q) = b - a := by field_simp
      linarith
    have hstart : a + j * ((b - a) / q) ∈ Set.Icc (a + j * ((b - a) / q)) (a + (j + 1) * ((b - a) / q)) :=
      ⟨le_rfl, by linarith⟩
    refine ⟨Polynomial.C (f (a + j * ((b - a) / q))), by rw [Polynomial.natDegree_C]; exact Nat.zero_le _, fun t ht => ?_⟩
    rw [Polynomial.eval_C]
    have := hclose t (hsub ht) _ (hsub hstart) (by
      rw [Real.dist_eq, abs_of_nonneg (by linarith [ht.1])]
      linarith [ht.2])
    rw [Real.dist_eq] at this
    exact this.le)
  refine ⟨v, hv, lt_of_le_of_lt hb ?_⟩
  have : 2 * (ε / (3 * (b - a))) * (b - a) = 2 / 3 * ε := by field_simp
  rw [this]
  linarith

example : ContinuousOn (fun x : ℝ => Real.sqrt |x|) (Set.Icc (-1) 1) := by fun_prop

/-- C122. On an integrand with Lipschitz constant `L` the error is at most `2 L (b - a)² / q` with `q` panels. -/
theorem composite_lipschitz (m : IterativeMethod) (q : ℕ) (hq : 0 < q) (summation : SummationMethod) (f : ℝ → ℝ)
    (a b : ℝ) (hab : a < b) (L : ℝ) (hL : 0 ≤ L) (hf : ∀ x ∈ Set.Icc a b, ∀ y ∈ Set.Icc a b, |f x - f y| ≤ L * |x - y|) :
    ∃ v, iterativeSingle ⟨m.unit * q, m, summation⟩ f [(a, b)] = .ok v ∧
      |v - ∫ x in a..b, f x| ≤ 2 * L * (b - a) ^ 2 / q := by
  have hqr : (0 : ℝ) < q := by exact_mod_cast hq
  have hw0 : 0 < (b - a) / q := div_pos (by linarith) hqr
  have hcont : ContinuousOn f (Set.Icc a b) := by
    have : LipschitzOnWith ⟨L, hL⟩ f (Set.Icc a b) := LipschitzOnWith.of_dist_le_mul fun x hx y hy => by
      rw [Real.dist_eq, Real.dist_eq]; exact hf x hx y hy
    exact this.continuousOn
  obtain ⟨v, hv, hb⟩ := composite_error m q hq summation f a b hab hcont (L * ((b - a) / q)) (fun j hj => by
    have hj1 : (j : ℝ) + 1 ≤ q := by exact_mod_cast hj
    have hsub : Set.Icc (a + j * ((b - a) / q)) (a + (j + 1) * ((b - a) / q)) ⊆ Set.Icc a b := by
      refine Set.Icc_subset_Icc (by have := mul_nonneg (Nat.cast_nonneg (α := ℝ) j) hw0.le; linarith) ?_
      have := mul_le_mul_of_nonneg_right hj1 hw0.le
      have e : (q : ℝ) * ((b - a) / q) = b - a := by field_simp
      linarith
    have hstart : a + j * ((b - a) / q) ∈ Set.Icc (a + j * ((b - a) / q)) (a + (j + 1) * ((b - a) / q)) :=
      ⟨le_rfl, by linarith⟩
    refine ⟨Polynomial.C (f (a + j * ((b - a) / q))), by rw [Polynomial.natDegree_C]; exact Nat.zero_le _, fun t ht => ?_⟩
    rw [Polynomial.eval_C]
    refine (hf t (hsub ht) _ (hsub hstart)).trans (mul_le_mul_of_nonneg_left ?_ hL)
    rw [abs_of_nonneg (by linarith [ht.1])]
    linarith [ht.2])
  refine ⟨v, hv, hb.trans (le_of_eq ?_)⟩
  field_simp

example : ∀ x ∈ Set.Icc (-1 : ℝ) 1, ∀ y ∈ Set.Icc (-1 : ℝ) 1, |(|x| - |y|)| ≤ 1 * |x - y| :=
  fun x _ y _ => by rw [one_mul]; exact abs_abs_sub_abs_le_abs_sub x y

/-- C122. On a smooth integrand each rule converges at its own order: the error of the trapezoidal rule shrinks with
the square of the number of panels, of Simpson's 3/8 rule with the fourth power, of Boole's rule with the sixth. -/
theorem composite_order (m : IterativeMethod) (q : ℕ) (hq : 0 < q) (summation : SummationMethod) (f : ℝ → ℝ)
    (a b : ℝ) (hab : a < b) (hf : ContDiff ℝ (m.exactDegree + 1) f) (M : ℝ)
    (hM : ∀ x ∈ Set.Icc a b, |iteratedDeriv (m.exactDegree + 1) f x| ≤ M) :
    ∃ v, iterativeSingle ⟨m.unit * q, m, summation⟩ f [(a, b)] = .ok v ∧
      |v - ∫ x in a..b, f x| ≤ 2 * M * (b - a) ^ (m.exactDegree + 2) / (m.exactDegree.factorial * q ^ (m.exactDegree + 1)) := by
  have hqr : (0 : ℝ) < q := by exact_mod_cast hq
  set w := (b - a) / q with hw
  have hw0 : 0 < w := div_pos (by linarith) hqr
  set D := m.exactDegree with hD
  have hM0 : 0 ≤ M := (abs_nonneg _).trans (hM a ⟨le_rfl, hab.le⟩)
  obtain ⟨v, hv, hb⟩ := composite_error m q hq summation f a b hab hf.continuous.continuousOn
    (M * w ^ (D + 1) / D.factorial) (fun j hj => by
    have hj1 : (j : ℝ) + 1 ≤ q := by exact_mod_cast hj
    have hsub : Set.Icc (a + j * w) (a + (j + 1) * w) ⊆ Set.Icc a b := by
      refine Set.Icc_subset_Icc (by have := mul_nonneg (Nat.cast_nonneg (α := ℝ) j) hw0.le; linarith) ?_
      have := mul_le_mul_of_nonneg_right hj1 hw0.le
      have e : (q : ℝ) * w = b - a := by rw [hw]; field_simp
      linarith
    set x₀ := a + j * w with hx₀
    have hlt : x₀ < a + (j + 1) * w := by rw [hx₀]; linarith
    set s := Set.Icc x₀ (a + (j + 1) * w) with hs
    refine ⟨∑ k ∈ range (D + 1), Polynomial.C (((k.factorial : ℝ))⁻¹ * iteratedDerivWithin k f s x₀) *
      (Polynomial.X - Polynomial.C x₀) ^ k, ?_, fun t ht => ?_⟩
    · refine Polynomial.natDegree_sum_le_of_forall_le _ _ fun k hk => ?_
      refine (Polynomial.natDegree_C_mul_le _ _).trans ?_
      rw [Polynomial.natDegree_pow, Polynomial.natDegree_X_sub_C, mul_one]
      exact Nat.lt_succ_iff.1 (mem_range.1 hk)
    · have htaylor := taylor_mean_remainder_bound (f := f) (n := D) (C := M) hlt.le hf.contDiffOn ht (fun y hy => by
        rw [iteratedDerivWithin_eq_iteratedDeriv (uniqueDiffOn_Icc hlt) hf.contDiffAt hy]
        exact hM y (hsub hy))
      rw [taylor_within_apply] at htaylor
      have e : Polynomial.eval t (∑ k ∈ range (D + 1), Polynomial.C (((k.factorial : ℝ))⁻¹ * iteratedDerivWithin k f s x₀) *
          (Polynomial.X - Polynomial.C x₀) ^ k) =
          ∑ k ∈ range (D + 1), ((k.factorial : ℝ)⁻¹ * (t - x₀) ^ k) • iteratedDerivWithin k f s x₀ := by
        rw [Polynomial.eval_finset_sum]
        refine sum_congr rfl fun k _ => ?_
        simp only [Polynomial.eval_mul, Polynomial.eval_C, Polynomial.eval_pow, Polynomial.eval_sub, Polynomial.eval_X,
          smul_eq_mul]
        ring
      rw [e]
      refine htaylor.trans ?_
      have h0 : 0 ≤ t - x₀ := by linarith [ht.1]
      have h1 : t - x₀ ≤ w := by
        have h2 : t ≤ a + (j + 1) * w := ht.2
        rw [hx₀]; linarith
      gcongr)
  refine ⟨v, hv, hb.trans (le_of_eq ?_)⟩
  rw [hw, div_pow]
  field_simp
  ring

/-- The exponential meets the hypotheses of the sixth-order bound. -/
example : ContDiff ℝ (IterativeMethod.booles.exactDegree + 1) Real.exp ∧
    ∀ x ∈ Set.Icc (0 : ℝ) 1, |iteratedDeriv (IterativeMethod.booles.exactDegree + 1) Real.exp x| ≤ Real.exp 1 := by
  refine ⟨Real.contDiff_exp, fun x hx => ?_⟩
  rw [iteratedDeriv_eq_iterate, Real.iter_deriv_exp, abs_of_pos (Real.exp_pos _)]
  exact Real.exp_le_exp.2 hx.2

end Multicalc
