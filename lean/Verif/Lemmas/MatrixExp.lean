import Verif.Lemmas.Pade
import Mathlib.Analysis.Normed.Algebra.MatrixExponential
import Mathlib.Analysis.Matrix.Normed
import Mathlib.Analysis.Calculus.Deriv.Comp
import Mathlib.Topology.Algebra.Module.FiniteDimension

/-!
# The Padé approximant on real matrices, with the column-sum norm
-/

namespace Multicalc

open NormedSpace Matrix

variable {n m : ℕ}

/-- Every absolute column sum is at most `ν`. -/
def ColumnSums {r c : ℕ} (a : Matrix (Fin r) (Fin c) ℝ) (ν : ℝ) : Prop := ∀ j, ∑ i, |a i j| ≤ ν

section
open scoped Matrix.Norms.Operator

theorem norm_transpose_le {a : Matrix (Fin n) (Fin n) ℝ} {ν : ℝ} (hν : 0 ≤ ν) :
    ‖aᵀ‖ ≤ ν ↔ ColumnSums a ν := by
  lift ν to NNReal using hν
  rw [← coe_nnnorm, NNReal.coe_le_coe, Matrix.linfty_opNNNorm_def, Finset.sup_le_iff]
  simp only [Finset.mem_univ, true_imp_iff, ColumnSums, ← NNReal.coe_le_coe, NNReal.coe_sum, coe_nnnorm,
    Real.norm_eq_abs, Matrix.transpose_apply]

theorem padeNum_transpose (a : Matrix (Fin n) (Fin n) ℝ) : padeNum aᵀ = (padeNum a)ᵀ := by
  simp only [padeNum, Matrix.transpose_sum, Matrix.transpose_smul, Matrix.transpose_pow]

theorem padeDen_transpose (a : Matrix (Fin n) (Fin n) ℝ) : padeDen aᵀ = (padeDen a)ᵀ := by
  simp only [padeDen, Matrix.transpose_sum, Matrix.transpose_smul, Matrix.transpose_pow]

set_option backward.isDefEq.respectTransparency false in
theorem padeDen_inverse_bound {a : Matrix (Fin n) (Fin n) ℝ} (h : ColumnSums a (1 / 2)) :
    ∃ x, padeDen a * x = 1 ∧ ColumnSums x (7 / 5) ∧ ColumnSums (padeDen a) (9 / 7) := by
  rcases Nat.eq_zero_or_pos n with rfl | hn
  · exact ⟨0, Subsingleton.elim _ _, fun j => j.elim0, fun j => j.elim0⟩
  have : Nonempty (Fin n) := ⟨⟨0, hn⟩⟩
  have h1 : ‖aᵀ‖ ≤ 1 / 2 := (norm_transpose_le (by norm_num)).2 h
  have h2 : ‖(padeDen a)ᵀ - 1‖ ≤ 2 / 7 := by
    rw [← padeDen_transpose]; exact padeDen_near_one h1
  have h3 : IsUnit ((padeDen a)ᵀ) := by
    have := isUnit_one_sub_of_norm_lt_one (x := 1 - (padeDen a)ᵀ)
      (by rw [norm_sub_rev]; exact h2.trans_lt (by norm_num))
    rwa [sub_sub_cancel] at this
  obtain ⟨w, h4, h4'⟩ : ∃ w, (padeDen a)ᵀ * w = 1 ∧ w * (padeDen a)ᵀ = 1 := by
    obtain ⟨u, hu⟩ := h3
    exact ⟨↑u⁻¹, by rw [← hu]; simp, by rw [← hu]; simp⟩
  have h5 : ‖w‖ ≤ 7 / 5 := by
    have e : w = 1 - ((padeDen a)ᵀ - 1) * w := by rw [sub_mul, h4, one_mul]; abel
    have h6 : ‖w‖ ≤ 1 + 2 / 7 * ‖w‖ := by
      calc ‖w‖ = ‖1 - ((padeDen a)ᵀ - 1) * w‖ := by rw [← e]
        _ ≤ ‖(1 : Matrix (Fin n) (Fin n) ℝ)‖ + ‖((padeDen a)ᵀ - 1) * w‖ := norm_sub_le _ _
        _ ≤ 1 + 2 / 7 * ‖w‖ := by
          rw [norm_one]
          gcongr
          exact (norm_mul_le _ _).trans (by gcongr)
    generalize ‖w‖ = q at h6 ⊢
    linarith
  have h6 : ‖(padeDen a)ᵀ‖ ≤ 9 / 7 := by
    calc ‖(padeDen a)ᵀ‖ = ‖((padeDen a)ᵀ - 1) + 1‖ := by rw [sub_add_cancel]
      _ ≤ 2 / 7 + 1 := (norm_add_le _ _).trans (by rw [norm_one]; gcongr)
      _ = 9 / 7 := by norm_num
  refine ⟨wᵀ, ?_, ?_, (norm_transpose_le (by norm_num)).1 h6⟩
  · rw [← Matrix.transpose_inj, Matrix.transpose_mul, Matrix.transpose_transpose, h4', Matrix.transpose_one]
  · rw [← norm_transpose_le (by norm_num), Matrix.transpose_transpose]; exact h5

set_option backward.isDefEq.respectTransparency false in
theorem pade_relative_matrix {a r : Matrix (Fin n) (Fin n) ℝ} (h : ColumnSums a (1 / 2))
    (hr : padeDen a * r = padeNum a) : ColumnSums (r * exp (-a) - 1) (1 / 2 ^ 53) := by
  rcases Nat.eq_zero_or_pos n with rfl | hn
  · exact fun j => j.elim0
  have : Nonempty (Fin n) := ⟨⟨0, hn⟩⟩
  obtain ⟨x, hx, -, -⟩ := padeDen_inverse_bound h
  have hcomm : Commute (padeDen a) r := by
    have hx' : x * padeDen a = 1 := mul_eq_one_comm.1 hx
    have e : r = x * padeNum a := by rw [← hr, ← mul_assoc, hx', one_mul]
    have c1 : Commute (padeDen a) (padeNum a) :=
      (padeNum_commute (padeDen_commute (Commute.refl a)).symm).symm
    have c2 : Commute (padeDen a) x := by rw [Commute, SemiconjBy, hx, hx']
    rw [e]; exact c2.mul_right c1
  have h1 : ‖aᵀ‖ ≤ 1 / 2 := (norm_transpose_le (by norm_num)).2 h
  have h2 : padeDen aᵀ * rᵀ = padeNum aᵀ := by
    rw [padeDen_transpose, padeNum_transpose, ← Matrix.transpose_mul, ← hcomm.eq, hr]
  have h3 := pade_relative h1 h2
  rw [← norm_transpose_le (by norm_num)]
  rw [Matrix.transpose_sub, Matrix.transpose_mul, ← Matrix.exp_transpose, Matrix.transpose_one,
    Matrix.transpose_neg]
  exact h3

set_option backward.isDefEq.respectTransparency false in
theorem columnSums_pow {e : Matrix (Fin n) (Fin n) ℝ} {ε : ℝ} (hε : 0 ≤ ε) (h : ColumnSums e ε) (N : ℕ) :
    ColumnSums ((1 + e) ^ N - 1) ((1 + ε) ^ N - 1) := by
  rcases Nat.eq_zero_or_pos n with rfl | hn
  · exact fun j => j.elim0
  have : Nonempty (Fin n) := ⟨⟨0, hn⟩⟩
  have h1 : ‖eᵀ‖ ≤ ε := (norm_transpose_le hε).2 h
  have h0 : 0 ≤ (1 + ε) ^ N - 1 := by
    have := one_le_pow₀ (show (1 : ℝ) ≤ 1 + ε by linarith) (n := N)
    linarith
  rw [← norm_transpose_le h0, Matrix.transpose_sub, Matrix.transpose_pow, Matrix.transpose_add, Matrix.transpose_one]
  refine (norm_one_add_pow_sub_one _ N).trans ?_
  gcongr

set_option backward.isDefEq.respectTransparency false in
theorem pade_exact_matrix {a : Matrix (Fin n) (Fin n) ℝ} (h : a ^ 13 = 0) :
    padeDen a * exp a = padeNum a := pade_exact h

set_option backward.isDefEq.respectTransparency false in
theorem exp_intertwine {a : Matrix (Fin n) (Fin n) ℝ} {b : Matrix (Fin m) (Fin m) ℝ}
    {p : Matrix (Fin n) (Fin m) ℝ} (h : a * p = p * b) : exp a * p = p * exp b := by
  have hp : ∀ k : ℕ, a ^ k * p = p * b ^ k := by
    intro k
    induction k with
    | zero => simp
    | succ k ih => rw [pow_succ, pow_succ, Matrix.mul_assoc, h, ← Matrix.mul_assoc, ih, Matrix.mul_assoc]
  have h1 : HasSum (fun n : ℕ => ((n.factorial : ℝ)⁻¹) • a ^ n) (exp a) := exp_series_hasSum_exp' a
  have h2 : HasSum (fun n : ℕ => ((n.factorial : ℝ)⁻¹) • b ^ n) (exp b) := exp_series_hasSum_exp' b
  have e1 := h1.map (AddMonoidHom.mk' (fun x : Matrix (Fin n) (Fin n) ℝ => x * p) fun x y => Matrix.add_mul x y p)
    (by exact continuous_id.matrix_mul continuous_const)
  have e2 := h2.map (AddMonoidHom.mk' (fun x : Matrix (Fin m) (Fin m) ℝ => p * x) fun x y => Matrix.mul_add p x y)
    (by exact continuous_const.matrix_mul continuous_id)
  refine e1.unique ((congrArg (fun f => HasSum f _) (funext fun k => ?_)).mpr e2)
  simp [hp]

set_option backward.isDefEq.respectTransparency false in
theorem hasDerivAt_exp_matrix (a : Matrix (Fin n) (Fin n) ℝ) (t : ℝ) (i j : Fin n) :
    HasDerivAt (fun t : ℝ => exp (t • a) i j) ((exp (t • a) * a) i j) t := by
  have h := hasDerivAt_exp_smul_const (𝕂 := ℝ) a t
  let f : Matrix (Fin n) (Fin n) ℝ →L[ℝ] ℝ := LinearMap.toContinuousLinearMap (Matrix.entryLinearMap ℝ ℝ i j)
  exact (f.hasFDerivAt.comp_hasDerivAt t h : _)
end
end Multicalc
