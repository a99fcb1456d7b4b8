import Mathlib.Analysis.Normed.Algebra.Exponential
import Mathlib.Analysis.SpecialFunctions.Exponential
import Mathlib.Analysis.SpecificLimits.Normed
import Mathlib.Analysis.Complex.ExponentialBounds
import Mathlib.Tactic

/-!
# The degree-6 diagonal Padé approximant of the exponential

In a complete normed algebra, `den x * exp x - num x` is a power series starting at `x ^ 13`.
-/

namespace Multicalc

open NormedSpace

/-- The coefficients of the Padé approximant. -/
noncomputable def padeC : ℕ → ℝ
  | 0 => 1
  | 1 => 1 / 2
  | 2 => 5 / 44
  | 3 => 1 / 66
  | 4 => 1 / 792
  | 5 => 1 / 15840
  | 6 => 1 / 665280
  | _ => 0

theorem padeC_nonneg (k : ℕ) : 0 ≤ padeC k := by
  unfold padeC; split <;> norm_num

section
variable {𝔸 : Type*} [Ring 𝔸] [Algebra ℝ 𝔸]

/-- Numerator. -/
noncomputable def padeNum (x : 𝔸) : 𝔸 := ∑ k ∈ Finset.range 7, padeC k • x ^ k

/-- Denominator. -/
noncomputable def padeDen (x : 𝔸) : 𝔸 := ∑ k ∈ Finset.range 7, ((-1) ^ k * padeC k) • x ^ k

theorem padeDen_eq (x : 𝔸) : padeDen x = padeNum (-x) := by
  unfold padeDen padeNum
  refine Finset.sum_congr rfl fun k _ => ?_
  rcases Nat.even_or_odd k with e | e
  · rw [e.neg_one_pow, e.neg_pow, one_mul]
  · rw [e.neg_one_pow, e.neg_pow, smul_neg, neg_one_mul, neg_smul]

theorem padeNum_eq (x : 𝔸) : padeNum x = padeDen (-x) := by rw [padeDen_eq, neg_neg]

theorem padeNum_commute {x y : 𝔸} (h : Commute x y) : Commute (padeNum x) y :=
  Commute.sum_left _ _ _ fun k _ => (h.pow_left k).smul_left _

theorem padeDen_commute {x y : 𝔸} (h : Commute x y) : Commute (padeDen x) y :=
  Commute.sum_left _ _ _ fun k _ => (h.pow_left k).smul_left _
end

theorem cast_descFactorial_succ (m k : ℕ) :
    ((m.descFactorial (k + 1) : ℕ) : ℝ) = ((m : ℝ) - k) * m.descFactorial k := by
  rw [Nat.descFactorial_succ]
  rcases le_or_gt k m with h | h
  · push_cast [Nat.cast_sub h]; ring
  · rw [Nat.descFactorial_of_lt h]; simp

/-- The coefficient of `x ^ m` in the series of `den x * exp x`, times `m!`. -/
theorem pade_identity (m : ℕ) :
    ∑ j ∈ Finset.range 7, (-1) ^ j * padeC j * (m.descFactorial j : ℝ) =
      1 / 665280 * (((m : ℝ) - 7) * (m - 8) * (m - 9) * (m - 10) * (m - 11) * (m - 12)) := by
  simp only [Finset.sum_range_succ, Finset.sum_range_zero, cast_descFactorial_succ,
    Nat.descFactorial_zero, padeC]
  push_cast
  ring

/-- The coefficient of `x ^ m` in the series of `den x * exp x`. -/
noncomputable def padeE (m : ℕ) : ℝ :=
  1 / 665280 * (((m : ℝ) - 7) * (m - 8) * (m - 9) * (m - 10) * (m - 11) * (m - 12)) / (m.factorial : ℝ)

theorem padeE_small (m : ℕ) (h : m < 13) : padeE m = padeC m := by
  interval_cases m <;> norm_num [padeE, padeC, Nat.factorial]

theorem padeE_nonneg (k : ℕ) : 0 ≤ padeE (k + 13) := by
  unfold padeE
  push_cast
  have : (0 : ℝ) ≤ k := k.cast_nonneg
  apply div_nonneg _ (Nat.cast_nonneg _)
  have h : ((k : ℝ) + 13 - 7) * (k + 13 - 8) * (k + 13 - 9) * (k + 13 - 10) * (k + 13 - 11) * (k + 13 - 12) =
    (k + 6) * (k + 5) * (k + 4) * (k + 3) * (k + 2) * (k + 1) := by ring
  rw [h]
  positivity

theorem padeE_succ (k : ℕ) : padeE (k + 1 + 13) ≤ padeE (k + 13) * (1 / 2) := by
  unfold padeE
  have hk : (0 : ℝ) ≤ k := k.cast_nonneg
  have hf : ((k + 1 + 13).factorial : ℝ) = (k + 14) * (k + 13).factorial := by
    rw [show k + 1 + 13 = (k + 13) + 1 by ring, Nat.factorial_succ]; push_cast; ring
  have hp : (0 : ℝ) < ((k + 13).factorial : ℕ) := by exact_mod_cast Nat.factorial_pos _
  rw [hf, div_mul_eq_mul_div _ ((k + 13).factorial : ℝ), div_le_div_iff₀ (by positivity) hp]
  generalize ((k + 13).factorial : ℝ) = f at hp
  push_cast
  have h1 : 1 / 665280 * (((k : ℝ) + 13 - 7) * (k + 13 - 8) * (k + 13 - 9) * (k + 13 - 10) * (k + 13 - 11)
      * (k + 13 - 12)) * (1 / 2) * ((k + 14) * f) -
      1 / 665280 * (((k : ℝ) + 1 + 13 - 7) * (k + 1 + 13 - 8) * (k + 1 + 13 - 9) * (k + 1 + 13 - 10)
        * (k + 1 + 13 - 11) * (k + 1 + 13 - 12)) * f =
      1 / 665280 * f * ((k + 6) * (k + 5) * (k + 4) * (k + 3) * (k + 2)) * ((k * (k + 13)) / 2) := by ring
  have h2 : 0 ≤ 1 / 665280 * f * (((k : ℝ) + 6) * (k + 5) * (k + 4) * (k + 3) * (k + 2)) * ((k * (k + 13)) / 2) := by
    positivity
  linarith

theorem padeE_le (k : ℕ) : padeE (k + 13) ≤ padeE 13 * (1 / 2) ^ k := by
  induction k with
  | zero => simp
  | succ k ih =>
    refine (padeE_succ k).trans ?_
    rw [pow_succ, ← mul_assoc]
    exact mul_le_mul_of_nonneg_right ih (by norm_num)

section
variable {𝔸 : Type*} [NormedRing 𝔸] [NormedAlgebra ℝ 𝔸] [CompleteSpace 𝔸]

theorem pade_hasSum (x : 𝔸) : HasSum (fun m => padeE m • x ^ m) (padeDen x * exp x) := by
  have hexp : HasSum (fun n : ℕ => ((n.factorial : ℝ)⁻¹) • x ^ n) (exp x) := exp_series_hasSum_exp' x
  have hj : ∀ j : ℕ, HasSum (fun m : ℕ => ((-1) ^ j * padeC j * (m.descFactorial j : ℝ) / m.factorial) • x ^ m)
      ((((-1) ^ j * padeC j) • x ^ j) * exp x) := by
    intro j
    have h1 := hexp.mul_left (((-1) ^ j * padeC j) • x ^ j)
    have hinj : Function.Injective (fun n : ℕ => n + j) := add_left_injective j
    rw [← hinj.hasSum_iff]
    · refine (congrArg (fun f => HasSum f _) (funext fun n => ?_)).mpr h1
      simp only [Function.comp_apply, smul_mul_smul_comm, ← pow_add]
      rw [add_comm j n, mul_div_assoc]
      congr 2
      have h3 : ((n + j).factorial : ℝ) = n.factorial * ((n + j).descFactorial j : ℕ) := by
        have := Nat.factorial_mul_descFactorial (show j ≤ n + j by omega)
        rw [Nat.add_sub_cancel] at this
        exact_mod_cast this.symm
      have h4 : ((n + j).factorial : ℝ) ≠ 0 := by exact_mod_cast (Nat.factorial_pos _).ne'
      rw [h3] at h4 ⊢
      field_simp
    · intro m hm
      have : m < j := by
        by_contra h
        exact hm ⟨m - j, by simp; omega⟩
      rw [Nat.descFactorial_of_lt this]
      simp
  have h2 := hasSum_sum (s := Finset.range 7) fun j _ => hj j
  rw [← Finset.sum_mul] at h2
  refine (congrArg (fun f => HasSum f _) (funext fun m => ?_)).mpr h2
  rw [← Finset.sum_smul, ← Finset.sum_div, pade_identity]
  rfl

theorem pade_remainder {x : 𝔸} (hx : ‖x‖ ≤ 1 / 2) :
    ‖padeDen x * exp x - padeNum x‖ ≤ padeE 13 * (1 / 2) ^ 13 * (4 / 3) := by
  have h := (hasSum_nat_add_iff' 13).2 (pade_hasSum x)
  have hs : ∑ i ∈ Finset.range 13, padeE i • x ^ i = padeNum x := by
    rw [show (13 : ℕ) = 7 + 6 by norm_num, Finset.sum_range_add]
    have h0 : ∑ i ∈ Finset.range 6, padeE (7 + i) • x ^ (7 + i) = 0 := by
      refine Finset.sum_eq_zero fun i hi => ?_
      rw [Finset.mem_range] at hi
      rw [padeE_small _ (by omega)]
      interval_cases i <;> simp [padeC]
    rw [h0, add_zero]
    refine Finset.sum_congr rfl fun i hi => ?_
    rw [Finset.mem_range] at hi
    rw [padeE_small _ (by omega)]
  rw [hs] at h
  have hg : HasSum (fun k : ℕ => padeE 13 * (1 / 2) ^ 13 * (1 / 4 : ℝ) ^ k) (padeE 13 * (1 / 2) ^ 13 * (4 / 3)) := by
    have := (hasSum_geometric_of_lt_one (r := (1 / 4 : ℝ)) (by norm_num) (by norm_num)).mul_left
      (padeE 13 * (1 / 2) ^ 13)
    rw [show (4 / 3 : ℝ) = (1 - 1 / 4)⁻¹ by norm_num]
    exact this
  rw [← h.tsum_eq]
  refine tsum_of_norm_bounded hg fun k => ?_
  rw [norm_smul, Real.norm_eq_abs, abs_of_nonneg (padeE_nonneg k)]
  have h1 : ‖x ^ (k + 13)‖ ≤ (1 / 2 : ℝ) ^ (k + 13) :=
    (norm_pow_le' x (by omega)).trans (pow_le_pow_left₀ (norm_nonneg _) hx _)
  calc padeE (k + 13) * ‖x ^ (k + 13)‖ ≤ (padeE 13 * (1 / 2) ^ k) * (1 / 2) ^ (k + 13) :=
        mul_le_mul (padeE_le k) h1 (norm_nonneg _) (mul_nonneg (padeE_nonneg 0) (by positivity))
    _ = padeE 13 * (1 / 2) ^ 13 * (1 / 4) ^ k := by
        rw [pow_add, show (1 / 4 : ℝ) = 1 / 2 * (1 / 2) by norm_num, mul_pow]; ring

theorem pade_exact {x : 𝔸} (hx : x ^ 13 = 0) : padeDen x * exp x = padeNum x := by
  have h := pade_hasSum x
  have h' : HasSum (fun m => padeE m • x ^ m) (padeNum x) := by
    have := hasSum_sum_of_ne_finset_zero (f := fun m => padeE m • x ^ m) (s := Finset.range 7)
      (L := SummationFilter.unconditional ℕ) ?_
    · convert this using 1
      refine Finset.sum_congr rfl fun i hi => ?_
      rw [Finset.mem_range] at hi
      rw [padeE_small _ (by omega)]
    · intro m hm
      rw [Finset.mem_range, not_lt] at hm
      rcases lt_or_ge m 13 with h | h
      · rw [padeE_small _ h]
        interval_cases m <;> simp [padeC]
      · rw [show m = 13 + (m - 13) by omega, pow_add, hx, zero_mul, smul_zero]
  exact h.unique h'

variable [NormOneClass 𝔸]

omit [CompleteSpace 𝔸] in
theorem padeDen_near_one {x : 𝔸} (hx : ‖x‖ ≤ 1 / 2) : ‖padeDen x - 1‖ ≤ 2 / 7 := by
  have h : padeDen x - 1 = ∑ k ∈ Finset.range 6, ((-1) ^ (k + 1) * padeC (k + 1)) • x ^ (k + 1) := by
    rw [padeDen, Finset.sum_range_succ']
    simp [padeC]
  rw [h]
  have h1 : ∀ k ∈ Finset.range 6, ‖((-1) ^ (k + 1) * padeC (k + 1)) • x ^ (k + 1)‖ ≤
      padeC (k + 1) * (1 / 2) ^ (k + 1) := by
    intro k _
    rw [norm_smul, norm_mul, norm_pow, norm_neg, norm_one, one_pow, one_mul, Real.norm_eq_abs,
      abs_of_nonneg (padeC_nonneg _)]
    exact mul_le_mul_of_nonneg_left ((norm_pow_le x _).trans (pow_le_pow_left₀ (norm_nonneg _) hx _))
      (padeC_nonneg _)
  refine (norm_sum_le_of_le _ h1).trans ?_
  simp only [Finset.sum_range_succ, Finset.sum_range_zero, padeC]
  norm_num

theorem norm_exp_bound (x : 𝔸) : ‖exp x‖ ≤ Real.exp ‖x‖ := by
  have h1 : HasSum (fun n : ℕ => ((n.factorial : ℝ)⁻¹) • x ^ n) (exp x) := exp_series_hasSum_exp' x
  have h2 : HasSum (fun n : ℕ => ((n.factorial : ℝ)⁻¹) • ‖x‖ ^ n) (exp ‖x‖) := exp_series_hasSum_exp' ‖x‖
  rw [Real.exp_eq_exp_ℝ, ← h1.tsum_eq]
  refine tsum_of_norm_bounded h2 fun n => ?_
  rw [norm_smul, Real.norm_eq_abs, abs_of_nonneg (by positivity), smul_eq_mul]
  exact mul_le_mul_of_nonneg_left (norm_pow_le x n) (by positivity)

/-- A solution of `den x * r = num x` is `exp x` up to a relative error below `2⁻⁵³`. -/
theorem pade_relative {x r : 𝔸} (hx : ‖x‖ ≤ 1 / 2) (hr : padeDen x * r = padeNum x) :
    ‖exp (-x) * r - 1‖ ≤ 1 / 2 ^ 53 := by
  set d := r - exp x with hd
  have h1 : padeDen x * d = -(padeDen x * exp x - padeNum x) := by rw [hd, mul_sub, hr]; abel
  have h2 : d = -(padeDen x * exp x - padeNum x) - (padeDen x - 1) * d := by
    rw [← h1]; noncomm_ring
  have h3 : ‖d‖ ≤ padeE 13 * (1 / 2) ^ 13 * (4 / 3) + 2 / 7 * ‖d‖ := by
    calc ‖d‖ = ‖-(padeDen x * exp x - padeNum x) - (padeDen x - 1) * d‖ := by rw [← h2]
      _ ≤ ‖-(padeDen x * exp x - padeNum x)‖ + ‖(padeDen x - 1) * d‖ := norm_sub_le _ _
      _ ≤ padeE 13 * (1 / 2) ^ 13 * (4 / 3) + 2 / 7 * ‖d‖ := by
        rw [norm_neg]
        exact add_le_add (pade_remainder hx) ((norm_mul_le _ _).trans
          (mul_le_mul_of_nonneg_right (padeDen_near_one hx) (norm_nonneg _)))
  have hinv : exp (-x) * exp x = 1 := by
    let _ : NormedAlgebra ℚ 𝔸 := NormedAlgebra.restrictScalars ℚ ℝ 𝔸
    rw [← exp_add_of_commute ((Commute.refl x).neg_left), neg_add_cancel, exp_zero]
  have h4 : exp (-x) * r - 1 = exp (-x) * d := by rw [hd, mul_sub, hinv]
  have h5 : ‖exp (-x)‖ ≤ 33 / 20 := by
    refine (norm_exp_bound _).trans ?_
    rw [norm_neg]
    refine (Real.exp_le_exp.2 hx).trans ?_
    have h := Real.exp_one_lt_d9
    have h6 : Real.exp (1 / 2) * Real.exp (1 / 2) = Real.exp 1 := by rw [← Real.exp_add]; norm_num
    nlinarith [Real.exp_pos (1 / 2)]
  rw [h4]
  refine (norm_mul_le _ _).trans ?_
  have h6 : padeE 13 = 1 / 665280 * 720 / 6227020800 := by norm_num [padeE, Nat.factorial]
  rw [h6] at h3
  have h7 : ‖d‖ ≤ 1 / 2 ^ 53 * (20 / 33) := by
    norm_num at h3 ⊢
    linarith
  calc ‖exp (-x)‖ * ‖d‖ ≤ 33 / 20 * (1 / 2 ^ 53 * (20 / 33)) :=
        mul_le_mul h5 h7 (norm_nonneg _) (by norm_num)
    _ = 1 / 2 ^ 53 := by norm_num

omit [NormedAlgebra ℝ 𝔸] [CompleteSpace 𝔸] in
/-- Relative errors under repeated squaring. -/
theorem norm_one_add_pow_sub_one (e : 𝔸) (N : ℕ) : ‖(1 + e) ^ N - 1‖ ≤ (1 + ‖e‖) ^ N - 1 := by
  induction N with
  | zero => simp
  | succ N ih =>
    have h : (1 + e) ^ (N + 1) - 1 = ((1 + e) ^ N - 1) * (1 + e) + e := by rw [pow_succ]; noncomm_ring
    rw [h]
    have h1 : ‖1 + e‖ ≤ 1 + ‖e‖ := (norm_add_le _ _).trans (by rw [norm_one])
    calc ‖((1 + e) ^ N - 1) * (1 + e) + e‖ ≤ ‖(1 + e) ^ N - 1‖ * ‖1 + e‖ + ‖e‖ :=
          (norm_add_le _ _).trans (add_le_add_left (norm_mul_le _ _) _)
      _ ≤ ((1 + ‖e‖) ^ N - 1) * (1 + ‖e‖) + ‖e‖ := by
          gcongr
          exact (norm_nonneg _).trans ih
      _ = (1 + ‖e‖) ^ (N + 1) - 1 := by ring
end
end Multicalc
