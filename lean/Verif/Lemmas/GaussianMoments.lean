import Mathlib.Tactic
import Mathlib.MeasureTheory.Integral.Gamma
import Mathlib.MeasureTheory.Measure.Lebesgue.Integral
import Mathlib.Analysis.SpecialFunctions.Gaussian.GaussianIntegral
import Mathlib.Analysis.SpecialFunctions.Integrals.Basic
import Mathlib.Analysis.Real.Pi.Bounds

/-!
# Moments of the weights of Gaussian quadrature, and weighted sums against integrals
-/

namespace Multicalc

open MeasureTheory Set

/-- The moments of the constant weight on `[-1, 1]`. -/
theorem legendre_moment (k : ℕ) :
    IntegrableOn (fun x : ℝ => x ^ k * 1) (Icc (-1) 1) ∧
    ∫ x in Icc (-1 : ℝ) 1, x ^ k * 1 = if k % 2 = 0 then 2 / ((k : ℝ) + 1) else 0 := by
  refine ⟨(by fun_prop : Continuous fun x : ℝ => x ^ k * 1).continuousOn.integrableOn_Icc, ?_⟩
  simp only [mul_one]
  rw [integral_Icc_eq_integral_Ioc, ← intervalIntegral.integral_of_le (by norm_num), integral_pow]
  rcases Nat.even_or_odd k with h | h
  · rw [if_pos (Nat.even_iff.1 h), h.add_one.neg_one_pow]
    norm_num
  · rw [if_neg (by rw [Nat.odd_iff.1 h]; norm_num), h.add_one.neg_one_pow]
    norm_num

/-- The moments of `exp (-x)` on the positive numbers. -/
theorem laguerre_moment (k : ℕ) :
    IntegrableOn (fun x : ℝ => x ^ k * Real.exp (-x)) (Ioi 0) ∧
    ∫ x in Ioi (0 : ℝ), x ^ k * Real.exp (-x) = (k.factorial : ℝ) := by
  have e : EqOn (fun x : ℝ => Real.exp (-x) * x ^ ((k + 1 : ℝ) - 1)) (fun x : ℝ => x ^ k * Real.exp (-x)) (Ioi 0) := by
    intro x _
    simp only [add_sub_cancel_right, Real.rpow_natCast]
    ring
  refine ⟨(Real.GammaIntegral_convergent (by positivity : (0 : ℝ) < k + 1)).congr_fun e measurableSet_Ioi, ?_⟩
  rw [← Real.Gamma_nat_eq_factorial, Real.Gamma_eq_integral (by positivity)]
  exact (setIntegral_congr_fun measurableSet_Ioi e).symm

theorem hermite_integrable (k : ℕ) : Integrable fun x : ℝ => x ^ k * Real.exp (-x ^ 2) := by
  have h := integrable_rpow_mul_exp_neg_mul_sq (b := 1) one_pos (s := k) (lt_of_lt_of_le (by norm_num) k.cast_nonneg)
  simpa only [Real.rpow_natCast, neg_mul, one_mul] using h

/-- The even moments of `exp (-x²)`. -/
theorem hermite_moment_even (j : ℕ) :
    ∫ x : ℝ, x ^ (2 * j) * Real.exp (-x ^ 2) = (Nat.doubleFactorial (2 * j - 1) : ℝ) / 2 ^ j * Real.sqrt Real.pi := by
  have e : (fun x : ℝ => x ^ (2 * j) * Real.exp (-x ^ 2)) =
      fun x : ℝ => (fun y : ℝ => y ^ (2 * j) * Real.exp (-y ^ 2)) |x| := by
    funext x
    simp only [pow_mul, sq_abs]
  rw [e]
  refine (integral_comp_abs (f := fun y : ℝ => y ^ (2 * j) * Real.exp (-y ^ 2))).trans ?_
  have h := integral_rpow_mul_exp_neg_rpow (p := 2) (q := (2 * j : ℕ)) two_pos
    (lt_of_lt_of_le (by norm_num) (Nat.cast_nonneg _))
  have e2 : ∀ x : ℝ, x ^ (((2 * j : ℕ)) : ℝ) * Real.exp (-x ^ (2 : ℝ)) = x ^ (2 * j) * Real.exp (-x ^ 2) := by
    intro x
    rw [Real.rpow_natCast, Real.rpow_two]
  simp only [e2] at h
  rw [h]
  have e3 : (((2 * j : ℕ) : ℝ) + 1) / 2 = j + 1 / 2 := by push_cast; ring
  rw [e3, Real.Gamma_nat_add_half]
  ring

/-- The odd moments of `exp (-x²)`. -/
theorem hermite_moment_odd {k : ℕ} (hk : k % 2 = 1) : ∫ x : ℝ, x ^ k * Real.exp (-x ^ 2) = 0 := by
  have h := integral_neg_eq_self (fun x : ℝ => x ^ k * Real.exp (-x ^ 2)) volume
  have e : ∀ x : ℝ, (-x) ^ k * Real.exp (-(-x) ^ 2) = -(x ^ k * Real.exp (-x ^ 2)) := by
    intro x
    rw [(Nat.odd_iff.2 hk).neg_pow, neg_sq]
    ring
  simp only [e, integral_neg] at h
  linarith

theorem sqrt_pi_close : |Real.sqrt Real.pi - 177245385090551602730 / 10 ^ 20| ≤ 1 / 10 ^ 18 := by
  have h1 := Real.pi_gt_d20
  have h2 := Real.pi_lt_d20
  rw [abs_le]
  constructor
  · have : (177245385090551602730 / 10 ^ 20 - 1 / 10 ^ 18 : ℝ) ≤ Real.sqrt Real.pi :=
      Real.le_sqrt_of_sq_le (by norm_num at h1 ⊢; linarith)
    linarith
  · have : Real.sqrt Real.pi ≤ (177245385090551602730 / 10 ^ 20 + 1 / 10 ^ 18 : ℝ) :=
      (Real.sqrt_le_left (by norm_num)).2 (by norm_num at h2 ⊢; linarith)
    linarith

/-- A weighted sum whose first moments are nearly those of a weight nearly integrates polynomials. -/
theorem quadrature_polynomial {S : Set ℝ} {ρ : ℝ → ℝ} {t : List (ℝ × ℝ)} {τ : ℕ → ℝ} {N : ℕ}
    (hint : ∀ k < N, IntegrableOn (fun x => x ^ k * ρ x) S)
    (hmom : ∀ k < N, |(t.map fun p => p.1 * p.2 ^ k).sum - ∫ x in S, x ^ k * ρ x| ≤ τ k)
    (p : Polynomial ℝ) (hp : p.natDegree < N) :
    IntegrableOn (fun x => p.eval x * ρ x) S ∧
    |(t.map fun q => q.1 * p.eval q.2).sum - ∫ x in S, p.eval x * ρ x| ≤
      ∑ k ∈ Finset.range N, |p.coeff k| * τ k := by
  have e : (fun x => p.eval x * ρ x) = fun x => ∑ k ∈ Finset.range N, p.coeff k * (x ^ k * ρ x) := by
    funext x
    rw [Polynomial.eval_eq_sum_range' hp, Finset.sum_mul]
    exact Finset.sum_congr rfl fun k _ => by ring
  have hi : ∀ k ∈ Finset.range N, IntegrableOn (fun x => p.coeff k * (x ^ k * ρ x)) S := fun k hk =>
    (hint k (Finset.mem_range.1 hk)).const_mul _
  refine ⟨by rw [e]; exact integrable_finset_sum _ hi, ?_⟩
  have es : (t.map fun q => q.1 * p.eval q.2).sum =
      ∑ k ∈ Finset.range N, p.coeff k * (t.map fun q => q.1 * q.2 ^ k).sum := by
    clear hmom
    induction t with
    | nil => simp
    | cons a t ih =>
      simp only [List.map_cons, List.sum_cons, mul_add, Finset.sum_add_distrib, ih]
      congr 1
      rw [Polynomial.eval_eq_sum_range' hp, Finset.mul_sum]
      exact Finset.sum_congr rfl fun k _ => by ring
  rw [es, e, integral_finset_sum _ hi, ← Finset.sum_sub_distrib]
  refine (Finset.abs_sum_le_sum_abs _ _).trans (Finset.sum_le_sum fun k hk => ?_)
  rw [integral_const_mul, ← mul_sub, abs_mul]
  exact mul_le_mul_of_nonneg_left (hmom k (Finset.mem_range.1 hk)) (abs_nonneg _)

/-- The same for what a polynomial approximates. -/
theorem quadrature_near {S : Set ℝ} {ρ : ℝ → ℝ} {t : List (ℝ × ℝ)} {τ : ℕ → ℝ} {N : ℕ} (hN : 0 < N)
    (hS : MeasurableSet S) (hρ : ∀ x ∈ S, 0 ≤ ρ x)
    (hint : ∀ k < N, IntegrableOn (fun x => x ^ k * ρ x) S)
    (hmom : ∀ k < N, |(t.map fun p => p.1 * p.2 ^ k).sum - ∫ x in S, x ^ k * ρ x| ≤ τ k)
    (hw : ∀ q ∈ t, 0 ≤ q.1 ∧ q.2 ∈ S)
    (p : Polynomial ℝ) (hp : p.natDegree < N) (f : ℝ → ℝ) (hf : IntegrableOn (fun x => f x * ρ x) S) {η : ℝ}
    (hη0 : 0 ≤ η) (hη : ∀ x ∈ S, |f x - p.eval x| ≤ η) :
    |(t.map fun q => q.1 * f q.2).sum - ∫ x in S, f x * ρ x| ≤
      η * (2 * (∫ x in S, ρ x) + τ 0) + ∑ k ∈ Finset.range N, |p.coeff k| * τ k := by
  obtain ⟨hpi, hpoly⟩ := quadrature_polynomial hint hmom p hp
  have h0 : |(t.map fun q => q.1).sum - ∫ x in S, ρ x| ≤ τ 0 := by simpa using hmom 0 hN
  have hρi : IntegrableOn ρ S := by simpa using hint 0 hN
  have hsum : |(t.map fun q => q.1 * f q.2).sum - (t.map fun q => q.1 * p.eval q.2).sum| ≤
      η * (t.map fun q => q.1).sum := by
    clear hmom hpoly h0
    induction t with
    | nil => simp
    | cons a t ih =>
      simp only [List.map_cons, List.sum_cons]
      have h1 := ih fun q hq => hw q (List.mem_cons_of_mem _ hq)
      obtain ⟨ha, hm⟩ := hw a (List.mem_cons_self ..)
      have h2 := hη a.2 hm
      have h3 : |a.1 * f a.2 - a.1 * p.eval a.2| ≤ η * a.1 := by
        rw [← mul_sub, abs_mul, abs_of_nonneg ha, mul_comm]
        exact mul_le_mul_of_nonneg_right h2 ha
      rw [abs_le] at h1 h3 ⊢
      constructor <;> linarith [h1.1, h1.2, h3.1, h3.2]
  have hdiff : |(∫ x in S, p.eval x * ρ x) - ∫ x in S, f x * ρ x| ≤ η * ∫ x in S, ρ x := by
    rw [← integral_sub hpi hf, ← integral_const_mul]
    refine (abs_integral_le_integral_abs).trans (setIntegral_mono_on (hpi.sub hf).abs (hρi.const_mul η) hS fun x hx => ?_)
    rw [← sub_mul, abs_mul, abs_of_nonneg (hρ x hx), abs_sub_comm]
    exact mul_le_mul_of_nonneg_right (hη x hx) (hρ x hx)
  have hbound : η * (t.map fun q => q.1).sum ≤ η * ((∫ x in S, ρ x) + τ 0) := by
    refine mul_le_mul_of_nonneg_left ?_ hη0
    linarith [(abs_le.1 h0).2]
  rw [abs_le] at hsum hdiff hpoly ⊢
  constructor <;> nlinarith [hsum.1, hsum.2, hdiff.1, hdiff.2, hpoly.1, hpoly.2]

end Multicalc
