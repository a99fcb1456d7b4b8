import Verif.Props.Septic
import Mathlib.Analysis.Calculus.ContDiff.Basic
import Mathlib.MeasureTheory.Integral.IntervalIntegral.IntegrationByParts
import Mathlib.Analysis.SpecialFunctions.Integrals.Basic

/-!
# The total squared fourth derivative of a path
-/

namespace Multicalc
namespace Snap

open MeasureTheory intervalIntegral

theorem hasDerivAt_iter {f : ℝ → ℝ} {n : ℕ} (hf : ContDiff ℝ n f) {k : ℕ} (hk : k < n) (t : ℝ) :
    HasDerivAt (iteratedDeriv k f) (iteratedDeriv (k + 1) f t) t := by
  have : Differentiable ℝ (iteratedDeriv k f) := hf.differentiable_iteratedDeriv k (by exact_mod_cast hk)
  rw [iteratedDeriv_succ]
  exact (this t).hasDerivAt

theorem continuous_iter {f : ℝ → ℝ} {n : ℕ} (hf : ContDiff ℝ n f) {k : ℕ} (hk : k ≤ n) :
    Continuous (iteratedDeriv k f) := hf.continuous_iteratedDeriv k (by exact_mod_cast hk)

/-- Integrating by parts four times: against the fourth derivative of a function whose value and first three derivatives
vanish at both ends, the fourth derivative of anything whose eighth derivative vanishes integrates to nothing. -/
theorem snap_orthogonal {p g : ℝ → ℝ} (hp : ContDiff ℝ 8 p) (h8 : iteratedDeriv 8 p = 0) (hg : ContDiff ℝ 4 g) {a b : ℝ}
    (ha : ∀ k < 4, iteratedDeriv k g a = 0) (hb : ∀ k < 4, iteratedDeriv k g b = 0) :
    ∫ t in a..b, iteratedDeriv 4 p t * iteratedDeriv 4 g t = 0 := by
  have step : ∀ k < 4, ∫ t in a..b, iteratedDeriv (7 - k) p t * iteratedDeriv (k + 1) g t =
      -∫ t in a..b, iteratedDeriv (7 - k + 1) p t * iteratedDeriv k g t := by
    intro k hk
    have h1 := integral_mul_deriv_eq_deriv_mul (a := a) (b := b) (u := iteratedDeriv (7 - k) p)
      (v := iteratedDeriv k g) (u' := iteratedDeriv (7 - k + 1) p) (v' := iteratedDeriv (k + 1) g)
      (fun t _ => hasDerivAt_iter (n := 8) hp (by omega) t) (fun t _ => hasDerivAt_iter (n := 4) hg hk t)
      ((continuous_iter (n := 8) hp (by omega)).intervalIntegrable _ _) ((continuous_iter (n := 4) hg (by omega)).intervalIntegrable _ _)
    rw [h1, ha k hk, hb k hk]
    ring
  have s3 := step 3 (by norm_num)
  have s2 := step 2 (by norm_num)
  have s1 := step 1 (by norm_num)
  have s0 := step 0 (by norm_num)
  norm_num [h8] at s3 s2 s1 s0
  rw [s3, s2, s1, s0]
  norm_num

/-- A function whose fourth derivative vanishes on an interval and which starts with everything at zero stays there. -/
theorem stays_zero {g : ℝ → ℝ} (hg : ContDiff ℝ 4 g) {a b : ℝ}
    (ha : ∀ k < 4, iteratedDeriv k g a = 0) (h4 : ∀ t ∈ Set.Icc a b, iteratedDeriv 4 g t = 0) :
    ∀ k ≤ 4, ∀ t ∈ Set.Icc a b, iteratedDeriv k g t = 0 := by
  suffices H : ∀ j ≤ 4, ∀ t ∈ Set.Icc a b, iteratedDeriv (4 - j) g t = 0 by
    intro k hk
    have := H (4 - k) (by omega)
    rwa [show 4 - (4 - k) = k by omega] at this
  intro j
  induction j with
  | zero => intro _; simpa using h4
  | succ j ih =>
    intro hj t ht
    have ih := ih (by omega)
    have hd : ∀ x ∈ Set.uIcc a t, HasDerivAt (iteratedDeriv (4 - (j + 1)) g) (iteratedDeriv (4 - j) g x) x := by
      intro x _
      have := hasDerivAt_iter (n := 4) hg (k := 4 - (j + 1)) (by omega) x
      rwa [show 4 - (j + 1) + 1 = 4 - j by omega] at this
    have h1 := integral_eq_sub_of_hasDerivAt hd ((continuous_iter (n := 4) hg (by omega)).intervalIntegrable _ _)
    rw [ha _ (by omega), sub_zero] at h1
    rw [← h1, integral_congr (g := fun _ => 0)]
    · simp
    · intro x hx
      rw [Set.uIcc_of_le ht.1] at hx
      exact ih x ⟨hx.1, hx.2.trans ht.2⟩

open Polynomial Poly Matrix

/-- A piece with coefficients `c` on its own clock, starting at `a` and lasting `s`. -/
noncomputable def piece (c : Fin 8 → ℝ) (a s t : ℝ) : ℝ := (septic c).eval ((t - a) / s)

theorem piece_smooth (c : Fin 8 → ℝ) (a s : ℝ) {n : ℕ} : ContDiff ℝ n (piece c a s) := by
  unfold piece
  have h1 : ContDiff ℝ n fun t : ℝ => (t - a) / s := by fun_prop
  have h2 : ContDiff ℝ n fun x : ℝ => (septic c).eval x := by
    rw [septic_eq]; simp only [eval_add, eval_mul, eval_C, eval_pow, eval_X]; fun_prop
  exact h2.comp h1

theorem septic_degree (c : Fin 8 → ℝ) : (septic c).natDegree < 8 := by
  rw [septic_eq]
  apply Nat.lt_succ_of_le
  compute_degree

theorem piece_deriv8 (c : Fin 8 → ℝ) (a s : ℝ) : iteratedDeriv 8 (piece c a s) = 0 := by
  unfold piece
  rw [iteratedDeriv_piece, iterate_derivative_eq_zero (septic_degree c)]
  funext u
  simp

theorem septic_snap (c : Fin 8 → ℝ) (x : ℝ) : (Polynomial.derivative^[4] (septic c)).eval x =
    24 * c 4 + 120 * c 5 * x + 360 * c 6 * x ^ 2 + 840 * c 7 * x ^ 3 := by
  have e : septic c = C (c 0) * X ^ 0 + C (c 1) * X ^ 1 + C (c 2) * X ^ 2 + C (c 3) * X ^ 3 +
      C (c 4) * X ^ 4 + C (c 5) * X ^ 5 + C (c 6) * X ^ 6 + C (c 7) * X ^ 7 := by
    rw [septic_eq, pow_zero, mul_one, pow_one]
  rw [e]
  simp only [iterate_map_add, iterate_derivative_C_mul, iterate_derivative_X_pow_eq_smul]
  simp only [eval_add, eval_mul, eval_smul, eval_C, eval_pow, eval_X, Nat.descFactorial, smul_eq_mul, nsmul_eq_mul]
  norm_num
  ring

theorem integral_series (e : Fin 7 → ℝ) : ∫ x in (0 : ℝ)..1, ∑ k, e k * x ^ k.val = ∑ k, e k / (k.val + 1) := by
  rw [integral_finset_sum fun k _ => (by fun_prop : Continuous fun x : ℝ => e k * x ^ k.val).intervalIntegrable _ _]
  refine Finset.sum_congr rfl fun k _ => ?_
  rw [intervalIntegral.integral_const_mul, integral_pow]
  simp
  ring

/-- `snap_cost`, scaled as `plan` scales it, is the integral of the product of two fourth derivatives. -/
theorem snapCost_spec (c c' : Fin 8 → ℝ) (a : ℝ) {s : ℝ} (hs : 0 < s) :
    ∫ t in a..(a + s), iteratedDeriv 4 (piece c a s) t * iteratedDeriv 4 (piece c' a s) t =
      c ⬝ᵥ (mscale snapCost (powi s (-7)) *ᵥ c') := by
  obtain ⟨F, hF⟩ : ∃ F : ℝ → ℝ, F = fun x => 1 / s ^ 8 * ∑ k : Fin 7, (![576 * c 4 * c' 4, 2880 * (c 4 * c' 5 + c 5 * c' 4),
      8640 * (c 4 * c' 6 + c 6 * c' 4) + 14400 * c 5 * c' 5, 20160 * (c 4 * c' 7 + c 7 * c' 4) + 43200 * (c 5 * c' 6 + c 6 * c' 5),
      100800 * (c 5 * c' 7 + c 7 * c' 5) + 129600 * c 6 * c' 6, 302400 * (c 6 * c' 7 + c 7 * c' 6), 705600 * c 7 * c' 7] :
        Fin 7 → ℝ) k * x ^ k.val := ⟨_, rfl⟩
  have h1 : ∀ t, iteratedDeriv 4 (piece c a s) t * iteratedDeriv 4 (piece c' a s) t = F (t / s - a / s) := by
    intro t
    unfold piece
    rw [iteratedDeriv_piece, iteratedDeriv_piece]
    rw [hF]
    dsimp only
    rw [septic_snap, septic_snap, ← sub_div, Fin.sum_univ_seven]
    simp
    ring
  rw [integral_congr fun t _ => h1 t, integral_comp_div_sub F hs.ne', hF, intervalIntegral.integral_const_mul]
  rw [show a / s - a / s = 0 by ring, show (a + s) / s - a / s = 1 by field_simp; ring, integral_series]
  have hp : powi s (-7) = 1 / s ^ 7 := by
    simp [powi, powiLoop]
    ring
  rw [hp]
  simp only [mulVec, dotProduct, Fin.sum_univ_eight, Fin.sum_univ_seven, mscale, snapCost, waysAfterFourDerivatives,
    List.range_succ, List.range_zero, Matrix.cons_val]
  norm_num
  field_simp
  ring

end Snap
end Multicalc
