import Verif.Model.MatrixBuilders
import Verif.Props.LinearAlgebra
import Verif.Props.Lie

/-!
# Built matrices (C40) and the tangent space of the plane rotations (C46)
-/

namespace Multicalc

open Matrix

variable {n : ℕ}

private theorem real_sin (x : ℝ) : Fns.sin x = Real.sin x := rfl

private theorem real_cos (x : ℝ) : Fns.cos x = Real.cos x := rfl

/-- C40. `symmetric_positive_definite` does what its name says, for every list of entries long enough to
fill the matrix: the result is symmetric, `x · A x` is at least a quarter of `x · x`, and `cholesky` accepts
it.  On a shorter list it panics. -/
theorem symmetric_positive_definite_spec (entries : List ℝ) :
    (n * n ≤ entries.length → ∃ A, symmetricPositiveDefinite n entries = some A ∧ A.IsSymm ∧
      (∀ x : Fin n → ℝ, vdot x x / 4 ≤ vdot x (mmulVec A x)) ∧ (∃ L, cholesky A = .ok L) ∧
      ∀ i j, A i j = (∑ k : Fin n, entries[i.val * n + k.val]! * entries[j.val * n + k.val]!) + if i = j then 1 / 4 else 0) ∧
    (entries.length < n * n → symmetricPositiveDefinite n entries = none) := by
  constructor
  · intro hlen
    have h : ∀ row column : Fin n, row.val * n + column.val < entries.length := by
      intro r c
      have hr := r.2
      have hc := c.2
      have : r.val * n + n ≤ n * n := by
        calc r.val * n + n = (r.val + 1) * n := by ring
          _ ≤ n * n := Nat.mul_le_mul_right n hr
      omega
    let F : Matrix (Fin n) (Fin n) ℝ := fun r c => entries[r.val * n + c.val]'(h r c)
    let A : Matrix (Fin n) (Fin n) ℝ := fun r c => mmul F (mtranspose F) r c + if r = c then Fns.lit (1 / 4) else 0
    have hA : A = F * Fᵀ + (1 / 4 : ℝ) • (1 : Matrix (Fin n) (Fin n) ℝ) := by
      ext r c
      show mmul F (mtranspose F) r c + _ = _
      rw [mmul_eq, Matrix.add_apply, Matrix.smul_apply, Matrix.one_apply]
      congr 1
      split_ifs <;> simp [real_lit]
    have hsym : A.IsSymm := by
      rw [hA, Matrix.IsSymm, Matrix.transpose_add, Matrix.transpose_mul, Matrix.transpose_transpose,
        Matrix.transpose_smul, Matrix.transpose_one]
    have hq : ∀ x : Fin n → ℝ, vdot x x / 4 ≤ vdot x (mmulVec A x) := by
      intro x
      rw [vdot_eq, vdot_eq, mmulVec_eq, hA, Matrix.add_mulVec, dotProduct_add, Matrix.smul_mulVec, Matrix.one_mulVec,
        dotProduct_smul, ← Matrix.mulVec_mulVec, Matrix.dotProduct_mulVec, ← Matrix.mulVec_transpose, smul_eq_mul]
      have : 0 ≤ (Fᵀ *ᵥ x) ⬝ᵥ (Fᵀ *ᵥ x) := Finset.sum_nonneg fun i _ => mul_self_nonneg _
      linarith
    refine ⟨A, dif_pos h, hsym, hq, ?_, fun i j => ?_⟩
    · refine (cholesky_iff_positive_definite A hsym).1.2 fun x hx => lt_of_lt_of_le ?_ (hq x)
      have : 0 < x ⬝ᵥ x := by
        refine lt_of_le_of_ne (Finset.sum_nonneg fun i _ => mul_self_nonneg _) fun h0 => hx ?_
        funext i
        exact mul_self_eq_zero.1 ((Finset.sum_eq_zero_iff_of_nonneg fun i _ => mul_self_nonneg _).1
          h0.symm i (Finset.mem_univ i))
      rw [vdot_eq]; linarith
    · have e : ∀ r c : Fin n, entries[r.val * n + c.val]! = F r c := fun r c => getElem!_pos entries _ (h r c)
      rw [hA, Matrix.add_apply, Matrix.smul_apply, Matrix.one_apply, Matrix.mul_apply]
      simp only [e, Matrix.transpose_apply]
      congr 1
      split_ifs <;> simp
  · intro hlen
    have hn : 0 < n := by
      rcases Nat.eq_zero_or_pos n with h0 | h0
      · subst h0; omega
      · exact h0
    refine dif_neg fun h => ?_
    have := h ⟨n - 1, by omega⟩ ⟨n - 1, by omega⟩
    have e : (n - 1) * n + (n - 1) + 1 = n * n := by
      obtain ⟨k, rfl⟩ : ∃ k, n = k + 1 := ⟨n - 1, by omega⟩
      simp; ring
    simp only at this
    omega

/-- A filled matrix and a list too short. -/
example : (2 * 2 ≤ [1, 2, 3, (4 : ℝ)].length) ∧ symmetricPositiveDefinite 2 [1, 2, (3 : ℝ)] = none :=
  ⟨by simp, (symmetric_positive_definite_spec (n := 2) [1, 2, (3 : ℝ)]).2 (by simp)⟩

/-- C46. The tangent space of the plane rotations: `vee` undoes `hat` and `hat` undoes `vee` on the
antisymmetric matrices; `hat` is the velocity of the rotation matrix as seen from either side; the adjoint
carries a tangent through a rotation unchanged, as it must; and the left and right Jacobians are what
relates a change of the angle to a small turn on either side, `exp (a + d) = exp (J d) exp a = exp a exp (J d)`,
each its own inverse. -/
theorem so2_tangent (a d : ℝ) (p : SO2 ℝ) (hp : p.IsUnit) (m : Matrix (Fin 2) (Fin 2) ℝ) (hm : mᵀ = -m) :
    SO2.vee (SO2.hat a) = a ∧ SO2.hat (SO2.vee m) = m ∧
    (∀ i j, HasDerivAt (fun t => (SO2.exp (t * d)).toMatrix i j) ((SO2.hat d * (SO2.exp (a * d)).toMatrix) i j) a) ∧
    SO2.hat d * (SO2.exp (a * d)).toMatrix = (SO2.exp (a * d)).toMatrix * SO2.hat d ∧
    (p.compose (SO2.exp d)).compose p.inverse = SO2.exp (p.adjoint * d) ∧
    SO2.exp (a + d) = (SO2.exp (SO2.jacobian a * d)).compose (SO2.exp a) ∧
    SO2.exp (a + d) = (SO2.exp a).compose (SO2.exp (SO2.jacobian a * d)) ∧
    SO2.jacobian a * SO2.jacobian a = (1 : ℝ) := by
  have h00 : m 0 0 = 0 := by have := congrFun (congrFun hm 0) 0; simp at this; linarith
  have h11 : m 1 1 = 0 := by have := congrFun (congrFun hm 1) 1; simp at this; linarith
  have h01 : m 0 1 = -m 1 0 := by have := congrFun (congrFun hm 1) 0; simpa using this
  have hc : HasDerivAt (fun t => Real.cos (t * d)) (-Real.sin (a * d) * d) a := by
    have h := (Real.hasDerivAt_cos (a * d)).comp a ((hasDerivAt_id a).mul_const d)
    exact h.congr_deriv (by simp)
  have hs : HasDerivAt (fun t => Real.sin (t * d)) (Real.cos (a * d) * d) a := by
    have h := (Real.hasDerivAt_sin (a * d)).comp a ((hasDerivAt_id a).mul_const d)
    exact h.congr_deriv (by simp)
  refine ⟨rfl, ?_, ?_, ?_, ?_, ?_, ?_, ?_⟩
  · ext i j
    fin_cases i <;> fin_cases j <;> simp [SO2.hat, SO2.vee, h00, h11, h01]
  · intro i j
    fin_cases i <;> fin_cases j
    · refine hc.congr_deriv ?_
      simp [SO2.hat, SO2.toMatrix, SO2.exp, Matrix.mul_apply, Fin.sum_univ_two, real_sin, real_cos]; ring
    · refine hs.neg.congr_deriv ?_
      simp [SO2.hat, SO2.toMatrix, SO2.exp, Matrix.mul_apply, Fin.sum_univ_two, real_sin, real_cos]; ring
    · refine hs.congr_deriv ?_
      simp [SO2.hat, SO2.toMatrix, SO2.exp, Matrix.mul_apply, Fin.sum_univ_two, real_sin, real_cos]; ring
    · refine hc.congr_deriv ?_
      simp [SO2.hat, SO2.toMatrix, SO2.exp, Matrix.mul_apply, Fin.sum_univ_two, real_sin, real_cos]; ring
  · ext i j
    fin_cases i <;> fin_cases j <;>
      simp [SO2.hat, SO2.toMatrix, SO2.exp, Matrix.mul_apply, Fin.sum_univ_two, real_sin, real_cos] <;> ring
  · have h1 : p.cos ^ 2 + p.sin ^ 2 = 1 := by
      have := hp
      simp only [SO2.IsUnit] at this
      nlinarith
    ext
    · simp only [SO2.compose, SO2.exp, SO2.inverse, SO2.adjoint, real_sin, real_cos, one_mul]
      linear_combination Real.cos d * h1
    · simp only [SO2.compose, SO2.exp, SO2.inverse, SO2.adjoint, real_sin, real_cos, one_mul]
      linear_combination Real.sin d * h1
  · ext
    · simp only [SO2.compose, SO2.exp, SO2.jacobian, real_sin, real_cos, one_mul, Real.cos_add]; ring
    · simp only [SO2.compose, SO2.exp, SO2.jacobian, real_sin, real_cos, one_mul, Real.sin_add]; ring
  · ext
    · simp only [SO2.compose, SO2.exp, SO2.jacobian, real_sin, real_cos, one_mul, Real.cos_add]
    · simp only [SO2.compose, SO2.exp, SO2.jacobian, real_sin, real_cos, one_mul, Real.sin_add]; ring
  · simp [SO2.jacobian]

/-- A quarter turn and an antisymmetric matrix. -/
example : (⟨0, 1⟩ : SO2 ℝ).IsUnit ∧ (!![0, -2; 2, 0] : Matrix (Fin 2) (Fin 2) ℝ)ᵀ = -!![0, -2; 2, 0] := by
  refine ⟨by simp [SO2.IsUnit], ?_⟩
  ext i j
  fin_cases i <;> fin_cases j <;> simp

end Multicalc
