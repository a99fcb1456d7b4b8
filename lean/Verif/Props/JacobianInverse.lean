import Verif.Props.InverseKinematics
import Mathlib.LinearAlgebra.Matrix.Gershgorin

/-!
# Damped inverses of a kinematic Jacobian (C99)
-/

namespace Multicalc

open Matrix KinematicTree

variable {maxJoints maxConfig : ℕ}

/-- The decomposition has perpendicular left vectors and nothing between zero and the default tolerance. -/
def Svd.Exact {m n : ℕ} (d : Svd m n ℝ) : Prop :=
  (∀ p q, p ≠ q → ∑ i, d.left i p * d.left i q = 0) ∧ ∀ k, d.singularValues k ≤ d.defaultTol → d.singularValues k = 0

/-- The columns past the ones in use are zero. -/
def KinematicJacobian.Padded (J : KinematicJacobian maxConfig ℝ) : Prop :=
  ∀ row (k : Fin maxConfig), J.columns ≤ k.val → J.entries row k = 0

/-- A generalised inverse of `B·Bᵀ + c·1` acts as an inverse on the range of `B`. -/
theorem gram_absorb {m n : ℕ} (B : Matrix (Fin m) (Fin n) ℝ) (c : ℝ) (hc : 0 ≤ c) (P : Matrix (Fin m) (Fin m) ℝ)
    (h : (B * Bᵀ + c • 1) * P * (B * Bᵀ + c • 1) = B * Bᵀ + c • 1) :
    (B * Bᵀ + c • 1) * P * B = B ∧ (c ≠ 0 → (B * Bᵀ + c • 1) * P = 1) := by
  set M := B * Bᵀ + c • (1 : Matrix (Fin m) (Fin m) ℝ) with hM
  set K := M * P - 1 with hK
  have h0 : K * M * Kᵀ = 0 := by
    have : K * M = 0 := by rw [hK, Matrix.sub_mul, h, Matrix.one_mul, sub_self]
    rw [this, Matrix.zero_mul]
  have h1 : K * M * Kᵀ = (K * B) * (K * B)ᵀ + c • (K * Kᵀ) := by
    rw [hM, Matrix.mul_add, Matrix.add_mul, transpose_mul, Matrix.mul_smul, Matrix.smul_mul, Matrix.mul_one]
    simp only [Matrix.mul_assoc]
  have hdiag : ∀ i, ∑ k, (K * B) i k ^ 2 + c * ∑ k, K i k ^ 2 = 0 := by
    intro i
    have := congrFun (congrFun (h1.symm.trans h0) i) i
    rw [Matrix.add_apply, Matrix.smul_apply, Matrix.mul_apply, Matrix.mul_apply] at this
    simpa [sq] using this
  have hB : K * B = 0 := by
    ext i k
    have h1 := hdiag i
    have h2 : 0 ≤ ∑ k, K i k ^ 2 := Finset.sum_nonneg fun _ _ => sq_nonneg _
    have h3 : ∑ k, (K * B) i k ^ 2 = 0 :=
      le_antisymm (by nlinarith [mul_nonneg hc h2]) (Finset.sum_nonneg fun _ _ => sq_nonneg _)
    have := (Finset.sum_eq_zero_iff_of_nonneg (fun _ _ => sq_nonneg _)).1 h3 k (Finset.mem_univ k)
    simpa using this
  constructor
  · rw [hK, Matrix.sub_mul, Matrix.one_mul] at hB
    exact sub_eq_zero.1 hB
  · intro hc0
    have : K = 0 := by
      ext i k
      have h1 := hdiag i
      have h2 : 0 ≤ ∑ k, (K * B) i k ^ 2 := Finset.sum_nonneg fun _ _ => sq_nonneg _
      have h4 : 0 ≤ ∑ k, K i k ^ 2 := Finset.sum_nonneg fun _ _ => sq_nonneg _
      have hcp : 0 < c := lt_of_le_of_ne hc (Ne.symm hc0)
      have h3 : ∑ k, K i k ^ 2 = 0 := by
        apply le_antisymm _ h4
        by_contra hn
        push Not at hn
        have := mul_pos hcp hn
        linarith
      have := (Finset.sum_eq_zero_iff_of_nonneg (fun _ _ => sq_nonneg _)).1 h3 k (Finset.mem_univ k)
      simpa using this
    exact sub_eq_zero.1 (hK ▸ this)

/-- `J·W⁻¹·Jᵀ` is a square, and `W` times the weighted transpose is the transpose. -/
theorem weighted_gram (J : KinematicJacobian maxConfig ℝ) (w : Fin maxConfig → ℝ) (hw : ∀ k, 0 < w k) (hJ : J.Padded)
    (hcol : J.columns ≤ maxConfig) :
    ∃ (X : Matrix (Fin maxConfig) (Fin 6) ℝ) (B : Matrix (Fin 6) (Fin maxConfig) ℝ),
      J.weightedTranspose w = .ok X ∧ diagonal w * X = J.entriesᵀ ∧ J.entries * X = B * Bᵀ
      ∧ J.entries = B * diagonal fun k => √(w k) := by
  have hok : weightsOk J.columns w = true := by
    unfold weightsOk
    rw [List.all_eq_true]
    intro k hk
    rw [List.mem_range] at hk
    rw [reading, dif_pos (by omega)]
    simpa using hw _
  obtain ⟨X, hX⟩ : ∃ X : Matrix (Fin maxConfig) (Fin 6) ℝ, X = fun index row =>
    if J.columns ≤ index.val then 0 else J.entries row index / w index := ⟨_, rfl⟩
  obtain ⟨B, hB⟩ : ∃ B : Matrix (Fin 6) (Fin maxConfig) ℝ, B = fun row k => J.entries row k / √(w k) := ⟨_, rfl⟩
  have hXa : ∀ k row, X k row = if J.columns ≤ k.val then 0 else J.entries row k / w k := fun k row => by rw [hX]
  have hBa : ∀ row k, B row k = J.entries row k / √(w k) := fun row k => by rw [hB]
  refine ⟨X, B, hX ▸ weightedTranspose_ok hok, ?_, ?_, ?_⟩
  · ext k row
    rw [Matrix.diagonal_mul, transpose_apply, hXa]
    split_ifs with h
    · rw [hJ row k h, mul_zero]
    · have := (hw k).ne'
      field_simp
  · ext a b
    rw [Matrix.mul_apply, Matrix.mul_apply]
    refine Finset.sum_congr rfl fun k _ => ?_
    rw [transpose_apply, hXa, hBa, hBa]
    split_ifs with h
    · rw [hJ a k h, hJ b k h]; simp
    · have h1 := Real.mul_self_sqrt (hw k).le
      have h2 := (Real.sqrt_pos.2 (hw k)).ne'
      rw [div_mul_div_comm, h1, mul_div_assoc]
  · ext row k
    rw [Matrix.mul_diagonal, hBa]
    have h2 := (Real.sqrt_pos.2 (hw k)).ne'
    field_simp

theorem weighted_scalar (w : Fin maxConfig → ℝ) (x : Fin maxConfig → ℝ) : x ⬝ᵥ (diagonal w *ᵥ x) = ∑ k, w k * x k ^ 2 := by
  simp only [dotProduct, Matrix.mulVec_diagonal]
  exact Finset.sum_congr rfl fun k _ => by ring

theorem normal_optimal {m n : ℕ} (J : Matrix (Fin m) (Fin n) ℝ) (w : Fin n → ℝ) (hw : ∀ k, 0 < w k) (c : ℝ) (hc : 0 ≤ c)
    (e : Fin m → ℝ) (p x : Fin n → ℝ) (h : Jᵀ *ᵥ (J *ᵥ p) + c • (diagonal w *ᵥ p) = Jᵀ *ᵥ e) :
    (J *ᵥ p - e) ⬝ᵥ (J *ᵥ p - e) + c * ∑ k, w k * p k ^ 2 ≤ (J *ᵥ x - e) ⬝ᵥ (J *ᵥ x - e) + c * ∑ k, w k * x k ^ 2 := by
  obtain ⟨y, rfl⟩ : ∃ y, x = p + y := ⟨x - p, by simp⟩
  have e1 : J *ᵥ (p + y) - e = (J *ᵥ p - e) + J *ᵥ y := by rw [Matrix.mulVec_add]; abel
  have e2 : (J *ᵥ p - e) ⬝ᵥ (J *ᵥ y) = -(c * ∑ k, w k * p k * y k) := by
    rw [Matrix.dotProduct_mulVec, ← Matrix.mulVec_transpose, Matrix.mulVec_sub, ← h]
    rw [show Jᵀ *ᵥ (J *ᵥ p) - (Jᵀ *ᵥ (J *ᵥ p) + c • (diagonal w *ᵥ p)) = -(c • (diagonal w *ᵥ p)) by abel]
    rw [neg_dotProduct, smul_dotProduct, smul_eq_mul]
    simp only [dotProduct, Matrix.mulVec_diagonal]
  have e3 : ∑ k, w k * (p + y) k ^ 2 = ∑ k, w k * p k ^ 2 + 2 * ∑ k, w k * p k * y k + ∑ k, w k * y k ^ 2 := by
    rw [Finset.mul_sum, ← Finset.sum_add_distrib, ← Finset.sum_add_distrib]
    exact Finset.sum_congr rfl fun k _ => by simp only [Pi.add_apply]; ring
  rw [e1, add_dotProduct, dotProduct_add, dotProduct_add, dotProduct_comm (J *ᵥ y) (J *ᵥ p - e), e2, e3]
  have h1 : 0 ≤ (J *ᵥ y) ⬝ᵥ (J *ᵥ y) := Finset.sum_nonneg fun i _ => mul_self_nonneg _
  have h2 : 0 ≤ ∑ k, w k * y k ^ 2 := Finset.sum_nonneg fun k _ => mul_nonneg (hw k).le (sq_nonneg _)
  nlinarith [mul_nonneg hc h2]

/-- C99. `damped_pseudo_inverse` refuses nothing when the weights are positive.  Where the decomposition inside it is
exact, `x = J⁺e` minimises `‖Jx − e‖² + λ²·Σ wᵢxᵢ²`, is the least `Σ wᵢxᵢ²` among the rates with the same twist, and every
twist the joints can produce is reproduced when `λ = 0`. -/
theorem damped_pseudo_inverse_optimal (J : KinematicJacobian maxConfig ℝ) (w : Fin maxConfig → ℝ) (hw : ∀ k, 0 < w k)
    (hJ : J.Padded) (hcol : J.columns ≤ maxConfig) (damping : ℝ) :
    ∃ X d P, J.weightedTranspose w = .ok X
      ∧ svd (J.entries * X + (damping * damping) • 1) = .ok d ∧ J.dampedPseudoInverse w damping = .ok P
      ∧ (d.Exact →
        (∀ e x, (J.entries *ᵥ (P *ᵥ e) - e) ⬝ᵥ (J.entries *ᵥ (P *ᵥ e) - e) + damping ^ 2 * ∑ k, w k * (P *ᵥ e) k ^ 2
          ≤ (J.entries *ᵥ x - e) ⬝ᵥ (J.entries *ᵥ x - e) + damping ^ 2 * ∑ k, w k * x k ^ 2)
        ∧ (∀ e x, J.entries *ᵥ x = J.entries *ᵥ (P *ᵥ e) → ∑ k, w k * (P *ᵥ e) k ^ 2 ≤ ∑ k, w k * x k ^ 2)
        ∧ (damping = 0 → J.entries * P * J.entries = J.entries)) := by
  obtain ⟨X, B, h1, h2, h3, h4⟩ := weighted_gram J w hw hJ hcol
  obtain ⟨d, hd, -⟩ := svd_spec (J.entries * X + (damping * damping) • 1) le_rfl
  have hsum : madd (mmul J.entries X) (mscale (midentity 6) (damping * damping))
      = J.entries * X + (damping * damping) • 1 := by
    rw [madd_eq, mmul_eq, midentity_eq]
    congr 1
    ext i j
    simp [mscale, mul_comm]
  refine ⟨X, d, X * d.pseudoInverse, h1, hd, ?_, fun hex => ?_⟩
  · unfold KinematicJacobian.dampedPseudoInverse
    rw [h1]
    dsimp only
    rw [hsum, hd]
    dsimp only
    rw [mmul_eq]
  have hc : 0 ≤ damping * damping := mul_self_nonneg _
  obtain ⟨hmp, -⟩ := svd_solve _ d hd hex.1 hex.2 0
  set Q := d.pseudoInverse
  rw [h3] at hmp
  obtain ⟨ha, -⟩ := gram_absorb B _ hc Q hmp.left
  have hMJ : (B * Bᵀ + (damping * damping) • 1) * Q * J.entries = J.entries := by
    rw [h4, ← Matrix.mul_assoc, ha]
  have hJM : J.entriesᵀ * ((B * Bᵀ + (damping * damping) • 1) * Q) = J.entriesᵀ := by
    have := congrArg transpose hMJ
    rwa [transpose_mul, hmp.range] at this
  have hnormal : ∀ e, J.entriesᵀ *ᵥ (J.entries *ᵥ ((X * Q) *ᵥ e)) + (damping * damping) • (diagonal w *ᵥ ((X * Q) *ᵥ e))
      = J.entriesᵀ *ᵥ e := by
    intro e
    rw [Matrix.mulVec_mulVec, Matrix.mulVec_mulVec, Matrix.mulVec_mulVec, ← Matrix.smul_mulVec, ← Matrix.add_mulVec]
    congr 1
    rw [← Matrix.mul_assoc (diagonal w), h2]
    calc _ = J.entriesᵀ * ((J.entries * X + (damping * damping) • 1) * Q) := by
          rw [Matrix.add_mul, Matrix.mul_add, Matrix.smul_mul, Matrix.one_mul, Matrix.mul_smul]
          simp only [Matrix.mul_assoc]
      _ = _ := by rw [h3, hJM]
  refine ⟨fun e x => ?_, fun e x hx => ?_, fun h0 => ?_⟩
  · rw [sq]
    exact normal_optimal J.entries w hw _ hc e _ x (hnormal e)
  · obtain ⟨y, rfl⟩ : ∃ y, x = (X * Q) *ᵥ e + y := ⟨x - (X * Q) *ᵥ e, by simp⟩
    have hy : J.entries *ᵥ y = 0 := by
      rw [Matrix.mulVec_add] at hx
      simpa using hx
    have hcross : ∑ k, w k * ((X * Q) *ᵥ e) k * y k = 0 := by
      have : (diagonal w *ᵥ ((X * Q) *ᵥ e)) ⬝ᵥ y = 0 := by
        rw [Matrix.mulVec_mulVec, ← Matrix.mul_assoc, h2, ← Matrix.mulVec_mulVec, Matrix.mulVec_transpose,
          ← Matrix.dotProduct_mulVec, hy, dotProduct_zero]
      simpa only [dotProduct, Matrix.mulVec_diagonal] using this
    have e3 : ∑ k, w k * ((X * Q) *ᵥ e + y) k ^ 2
        = ∑ k, w k * ((X * Q) *ᵥ e) k ^ 2 + 2 * ∑ k, w k * ((X * Q) *ᵥ e) k * y k + ∑ k, w k * y k ^ 2 := by
      rw [Finset.mul_sum, ← Finset.sum_add_distrib, ← Finset.sum_add_distrib]
      exact Finset.sum_congr rfl fun k _ => by simp only [Pi.add_apply]; ring
    rw [e3, hcross]
    have h2 : 0 ≤ ∑ k, w k * y k ^ 2 := Finset.sum_nonneg fun k _ => mul_nonneg (hw k).le (sq_nonneg _)
    linarith
  · subst h0
    rw [← Matrix.mul_assoc, h3]
    simpa using hMJ

/-- C99. Where the decomposition is exact, the undamped null-space projector is a projector onto the rates that produce
no twist. -/
theorem null_space_projector_spec (J : KinematicJacobian maxConfig ℝ) (w : Fin maxConfig → ℝ) (hw : ∀ k, 0 < w k)
    (hJ : J.Padded) (hcol : J.columns ≤ maxConfig) :
    ∃ X d N, J.weightedTranspose w = .ok X ∧ svd (J.entries * X + (0 * 0 : ℝ) • 1) = .ok d
      ∧ J.nullSpaceProjector w 0 = .ok N
      ∧ (d.Exact → J.entries * N = 0 ∧ N * N = N ∧ ∀ x, J.entries *ᵥ x = 0 ↔ N *ᵥ x = x) := by
  obtain ⟨X, d, P, h1, h2, h3, h4⟩ := damped_pseudo_inverse_optimal J w hw hJ hcol 0
  refine ⟨X, d, 1 - P * J.entries, h1, h2, ?_, fun hex => ?_⟩
  · unfold KinematicJacobian.nullSpaceProjector
    rw [h3]
    dsimp only
    rw [msub_eq, mmul_eq, midentity_eq]
  · have hJPJ := (h4 hex).2.2 rfl
    have hJN : J.entries * (1 - P * J.entries) = 0 := by
      rw [Matrix.mul_sub, Matrix.mul_one, ← Matrix.mul_assoc, hJPJ, sub_self]
    refine ⟨hJN, ?_, fun x => ⟨fun hx => ?_, fun hx => ?_⟩⟩
    · rw [Matrix.sub_mul, Matrix.one_mul, Matrix.mul_assoc, hJN, Matrix.mul_zero, sub_zero]
    · rw [Matrix.sub_mulVec, Matrix.one_mulVec, ← Matrix.mulVec_mulVec, hx, Matrix.mulVec_zero, sub_zero]
    · rw [← hx, Matrix.mulVec_mulVec, hJN, Matrix.zero_mulVec]

/-- C57. Away from singularities, where the decomposition is exact, one step of the solver takes out the whole task error
to first order, and the secondary objective moves nothing at the tool. -/
theorem joint_step_task (J : KinematicJacobian maxConfig ℝ) (w : Fin maxConfig → ℝ) (hw : ∀ k, 0 < w k) (hJ : J.Padded)
    (hcol : J.columns ≤ maxConfig) (e : Fin 6 → ℝ) (b : Fin maxConfig → ℝ) (threshold damping : ℝ)
    (hthr : 0 < threshold) :
    ∃ X d step, J.weightedTranspose w = .ok X ∧ svd (J.entries * X) = .ok d
      ∧ jointStep J e b w threshold damping = .ok step
      ∧ (d.Exact → threshold ≤ √(d.singularValues 5) → J.entries *ᵥ step = e) := by
  obtain ⟨X, B, h1, h2, h3, h4⟩ := weighted_gram J w hw hJ hcol
  obtain ⟨d, hd, s1, s2, s3, s4, s5, s6, -⟩ := svd_spec (J.entries * X) le_rfl
  have hok : weightsOk J.columns w = true := by
    by_contra hcon
    unfold KinematicJacobian.weightedTranspose at h1
    rw [if_pos (by simpa using hcon)] at h1
    cases h1
  obtain ⟨step, hstep⟩ := jointStep_ok hok e b threshold damping
  refine ⟨X, d, step, h1, hd, hstep, fun hex hbig => ?_⟩
  unfold jointStep at hstep
  rw [h1] at hstep
  dsimp only at hstep
  rw [mmul_eq, hd] at hstep
  dsimp only at hstep
  rw [max_eq_left (s3 5), real_sqrt, if_pos hbig] at hstep
  have hz : madd (J.entries * X) (mscale (midentity 6) (0 : ℝ)) = J.entries * X := by
    ext i j; simp [madd, mscale]
  rw [hz, hd] at hstep
  dsimp only at hstep
  injection hstep with hstep
  obtain ⟨hmp, -⟩ := svd_solve _ d hd hex.1 hex.2 0
  have hpos : ∀ k, d.singularValues k ≠ 0 := by
    intro k
    have h5 : 0 < d.singularValues 5 := by
      rcases (s3 5).lt_or_eq with h | h
      · exact h
      · rw [← h] at hbig; simp at hbig; linarith
    exact (h5.trans_le (s4 k 5 (Fin.le_last k))).ne'
  have hU : d.leftᵀ * d.left = 1 := by
    ext p q
    rw [Matrix.mul_apply]
    simp only [transpose_apply]
    by_cases hpq : p = q
    · subst hpq
      have := s6 p
      rw [if_neg (hpos p)] at this
      simpa [sq] using this
    · rw [hex.1 p q hpq, one_apply_ne hpq]
  have hunit : IsUnit (J.entries * X) := by
    rw [← s1, Matrix.isUnit_iff_isUnit_det, Matrix.det_mul, Matrix.det_mul, Matrix.det_diagonal]
    have u1 : IsUnit d.left.det := by
      have := congrArg Matrix.det hU
      rw [Matrix.det_mul, Matrix.det_transpose, Matrix.det_one] at this
      exact IsUnit.of_mul_eq_one _ this
    have u2 : IsUnit d.rightᵀ.det := by
      have := congrArg Matrix.det s2
      rw [Matrix.det_mul, Matrix.det_one] at this
      exact IsUnit.of_mul_eq_one _ this
    exact (u1.mul (isUnit_iff_ne_zero.2 (Finset.prod_ne_zero_iff.2 fun k _ => hpos k))).mul u2
  have hinv : J.entries * X * d.pseudoInverse = 1 := by
    have := hmp.left
    have h' : J.entries * X * d.pseudoInverse * (J.entries * X) = 1 * (J.entries * X) := by rw [this, Matrix.one_mul]
    exact hunit.mul_right_cancel h'
  rw [← hstep, (svd_pseudo_inverse_eq d 0 _).2, (svd_pseudo_inverse_eq d 0 _).2]
  simp only [mmulVec_eq]
  change J.entries *ᵥ (X *ᵥ (d.pseudoInverse *ᵥ e) + (b - X *ᵥ (d.pseudoInverse *ᵥ (J.entries *ᵥ b)))) = e
  rw [Matrix.mulVec_add, Matrix.mulVec_sub]
  simp only [Matrix.mulVec_mulVec]
  rw [← Matrix.mul_assoc, hinv, ← Matrix.mul_assoc X, ← Matrix.mul_assoc J.entries (X * _), ← Matrix.mul_assoc J.entries X,
    hinv]
  simp

/-- C99 (finding). The documentation of `null_space_projector` and of `SecondaryObjective` promises that what is projected
moves nothing at the tool.  With damping it always does: the projected rates produce a twist exactly when the rates
themselves did. -/
theorem null_space_damped_partial (J : KinematicJacobian maxConfig ℝ) (w : Fin maxConfig → ℝ) (hw : ∀ k, 0 < w k)
    (hJ : J.Padded) (hcol : J.columns ≤ maxConfig) (damping : ℝ) (h0 : damping ≠ 0) :
    ∃ X d N, J.weightedTranspose w = .ok X ∧ svd (J.entries * X + (damping * damping) • 1) = .ok d
      ∧ J.nullSpaceProjector w damping = .ok N
      ∧ (d.Exact → ∀ x, J.entries *ᵥ (N *ᵥ x) = 0 ↔ J.entries *ᵥ x = 0) := by
  obtain ⟨X, B, h1, h2, h3, h4⟩ := weighted_gram J w hw hJ hcol
  obtain ⟨X', d, P, h1', hd, hP, -⟩ := damped_pseudo_inverse_optimal J w hw hJ hcol damping
  rw [h1] at h1'
  injection h1' with h1'
  subst h1'
  have hPX : P = X * d.pseudoInverse := by
    unfold KinematicJacobian.dampedPseudoInverse at hP
    rw [h1] at hP
    dsimp only at hP
    have hsum : madd (mmul J.entries X) (mscale (midentity 6) (damping * damping))
        = J.entries * X + (damping * damping) • 1 := by
      rw [madd_eq, mmul_eq, midentity_eq]
      congr 1
      ext i j
      simp [mscale, mul_comm]
    rw [hsum, hd] at hP
    injection hP with hP
    rw [← hP, mmul_eq]
  refine ⟨X, d, 1 - P * J.entries, h1, hd, ?_, fun hex x => ?_⟩
  · unfold KinematicJacobian.nullSpaceProjector
    rw [hP]
    simp only
    rw [msub_eq, mmul_eq, midentity_eq]
  obtain ⟨hmp, -⟩ := svd_solve _ d hd hex.1 hex.2 0
  set Q := d.pseudoInverse
  have hc : 0 ≤ damping * damping := mul_self_nonneg _
  rw [h3] at hmp
  have hMQ := (gram_absorb B _ hc Q hmp.left).2 (mul_ne_zero h0 h0)
  rw [← h3] at hMQ
  have hJN : J.entries * (1 - P * J.entries) = (damping * damping) • (Q * J.entries) := by
    calc _ = (J.entries * X + (damping * damping) • 1) * Q * J.entries - J.entries * X * Q * J.entries := by
          rw [hMQ, Matrix.one_mul, hPX, Matrix.mul_sub, Matrix.mul_one]
          simp only [Matrix.mul_assoc]
      _ = _ := by
          rw [Matrix.add_mul, Matrix.add_mul, Matrix.smul_mul, Matrix.smul_mul, Matrix.one_mul]
          abel
  rw [Matrix.mulVec_mulVec, hJN, Matrix.smul_mulVec, ← Matrix.mulVec_mulVec]
  constructor
  · intro h
    have hz : Q *ᵥ (J.entries *ᵥ x) = 0 := by
      rcases smul_eq_zero.1 h with h | h
      · exact absurd h (mul_ne_zero h0 h0)
      · exact h
    have := congrArg (fun v => (J.entries * X + (damping * damping) • 1) *ᵥ v) hz
    rwa [Matrix.mulVec_mulVec, hMQ, Matrix.one_mulVec, Matrix.mulVec_zero] at this
  · intro h
    rw [h, Matrix.mulVec_zero, smul_zero]

/-- The decomposition of a diagonal matrix with entries between 1 and 2 is exact. -/
theorem svd_diagonal_exact (a : Fin 6 → ℝ) (h : ∀ k, 1 ≤ a k ∧ a k ≤ 2) {d : Svd 6 6 ℝ} (hd : svd (diagonal a) = .ok d) :
    d.Exact ∧ ∃ σ : Equiv.Perm (Fin 6), ∀ k, d.singularValues k = a (σ k) := by
  obtain ⟨d', hd', h1, σ, h2⟩ := svd_orthogonal_columns (diagonal a) le_rfl (by
    intro p q hpq
    refine Finset.sum_eq_zero fun i _ => ?_
    by_cases hp : i = p
    · rw [diagonal_apply_ne a (hp ▸ hpq : i ≠ q), mul_zero]
    · rw [diagonal_apply_ne a hp, zero_mul])
  rw [hd] at hd'
  injection hd' with hd'
  subst hd'
  have hs : ∀ k, d.singularValues k = a (σ k) := by
    intro k
    rw [h2, Finset.sum_eq_single (σ k) (fun i _ hi => by rw [diagonal_apply_ne a hi]; simp) (by simp), diagonal_apply_eq,
      Real.sqrt_sq (by linarith [(h (σ k)).1])]
  refine ⟨⟨h1, fun k hk => ?_⟩, σ, hs⟩
  exfalso
  unfold Svd.defaultTol at hk
  rw [dif_neg (by norm_num), show (Fns.epsilon : ℝ) = 1 / 2 ^ 52 from rfl, hs, hs] at hk
  have h1 := (h (σ k)).1
  have h2 := (h (σ 0)).2
  norm_num at hk
  linarith

/-- Six joints, each moving the tool along one coordinate. -/
noncomputable def cartesian : KinematicJacobian 6 ℝ := ⟨1, 6, .world⟩

theorem cartesian_padded : cartesian.Padded := fun _ k h => absurd h (by have := k.isLt; simp only [cartesian]; omega)

theorem cartesian_transpose {X : Matrix (Fin 6) (Fin 6) ℝ} (h : cartesian.weightedTranspose (fun _ => 1) = .ok X) :
    cartesian.entries * X = 1 := by
  obtain ⟨X', -, h1, h2, -⟩ := weighted_gram cartesian (fun _ => 1) (fun _ => one_pos) cartesian_padded le_rfl
  rw [h] at h1
  injection h1 with h1
  subst h1
  have : (diagonal fun _ : Fin 6 => (1 : ℝ)) = 1 := diagonal_one
  rw [this, Matrix.one_mul] at h2
  rw [h2]
  simp [cartesian]

example : ∃ N, cartesian.nullSpaceProjector (fun _ => 1) 1 = .ok N
    ∧ cartesian.entries *ᵥ (N *ᵥ fun _ => 1) ≠ 0 := by
  obtain ⟨X, d, N, h1, h2, h3, h4⟩ := null_space_damped_partial cartesian (fun _ => 1) (fun _ => one_pos)
    cartesian_padded le_rfl 1 one_ne_zero
  refine ⟨N, h3, ?_⟩
  rw [cartesian_transpose h1] at h2
  have e : (1 : Matrix (Fin 6) (Fin 6) ℝ) + ((1 : ℝ) * 1) • 1 = diagonal fun _ => 2 := by
    ext i j
    by_cases h : i = j
    · subst h; simp; norm_num
    · simp [h]
  rw [e] at h2
  rw [Ne, h4 (svd_diagonal_exact _ (fun _ => by norm_num) h2).1]
  intro h
  have := congrFun h 0
  simp [cartesian] at this

example : ∃ N, cartesian.nullSpaceProjector (fun _ => 1) 0 = .ok N ∧ cartesian.entries * N = 0 := by
  obtain ⟨X, d, N, h1, h2, h3, h4⟩ := null_space_projector_spec cartesian (fun _ => 1) (fun _ => one_pos)
    cartesian_padded le_rfl
  refine ⟨N, h3, ?_⟩
  rw [cartesian_transpose h1] at h2
  have e : (1 : Matrix (Fin 6) (Fin 6) ℝ) + ((0 : ℝ) * 0) • 1 = diagonal fun _ => 1 := by simp
  rw [e] at h2
  exact (h4 (svd_diagonal_exact _ (fun _ => by norm_num) h2).1).1

example : ∃ P, cartesian.dampedPseudoInverse (fun _ => 1) 0 = .ok P ∧ cartesian.entries * P * cartesian.entries
    = cartesian.entries := by
  obtain ⟨X, d, P, h1, h2, h3, h4⟩ := damped_pseudo_inverse_optimal cartesian (fun _ => 1) (fun _ => one_pos)
    cartesian_padded le_rfl 0
  refine ⟨P, h3, ?_⟩
  rw [cartesian_transpose h1] at h2
  have e : (1 : Matrix (Fin 6) (Fin 6) ℝ) + ((0 : ℝ) * 0) • 1 = diagonal fun _ => 1 := by simp
  rw [e] at h2
  exact (h4 (svd_diagonal_exact _ (fun _ => by norm_num) h2).1).2.2 rfl

example (e : Fin 6 → ℝ) : ∃ step, jointStep cartesian e (fun _ => 3) (fun _ => 1) (1 / 1000) (1 / 100) = .ok step
    ∧ cartesian.entries *ᵥ step = e := by
  obtain ⟨X, d, step, h1, h2, h3, h4⟩ := joint_step_task cartesian (fun _ => 1) (fun _ => one_pos)
    cartesian_padded le_rfl e (fun _ => 3) (1 / 1000) (1 / 100) (by norm_num)
  refine ⟨step, h3, ?_⟩
  rw [cartesian_transpose h1, ← diagonal_one] at h2
  obtain ⟨hex, σ, hs⟩ := svd_diagonal_exact _ (fun _ => by norm_num) h2
  refine h4 hex ?_
  rw [hs]
  norm_num

/-- C99. The Jacobian a tree gives is within `MAX_CONFIG` columns, with zeros past the ones in use. -/
theorem geometric_jacobian_padded {t : KinematicTree maxJoints maxConfig ℝ} (hb : Built t) (s : KinematicTreeState ℝ)
    (tool : ℕ) (frame : JacobianFrame) (J : KinematicJacobian maxConfig ℝ)
    (h : t.geometricJacobian s tool frame = .ok J) : J.Padded ∧ J.columns ≤ maxConfig := by
  have hshape : tool < t.len ∧ s.length = t.len := by
    unfold geometricJacobian at h
    split_ifs at h with h1 h2
    exact ⟨by omega, by simpa using h2⟩
  obtain ⟨J', hJ', hcol, -, hmul⟩ := jacobian_ok hb s hshape.2 tool hshape.1 frame
  rw [h] at hJ'
  injection hJ' with hJ'
  subst hJ'
  obtain ⟨-, -, -, hv, -, hmax⟩ := offsets_partition hb
  refine ⟨fun row k hk => ?_, by rw [hcol]; exact hmax⟩
  rw [hcol] at hk
  have hcs : ∀ (cs : List ((Fin 3 → ℝ) × (Fin 3 → ℝ))) (o : ℕ) (r : ℕ → ℝ), (∀ i, o ≤ i → i < o + cs.length → r i = 0) →
      colSum r o cs = 0 := by
    intro cs
    induction cs with
    | nil => intro o r _; rfl
    | cons c cs ih =>
      intro o r hr
      rw [colSum, hr o le_rfl (by simp), zero_smul, zero_add]
      exact ih _ _ fun i h1 h2 => hr i (by omega) (by simp; omega)
  have htotal : ∀ p, total t s.poses (slot (Pi.single k (1 : ℝ))) p tool = 0 := by
    intro p
    unfold total
    refine Finset.sum_eq_zero fun i _ => ?_
    split_ifs
    · unfold contrib
      cases hj : t.joint i with
      | none => rfl
      | some j =>
        cases ho : t.velocityOffset i with
        | none => rfl
        | some o =>
          dsimp only
          have hle := hv i j o hj ho
          refine hcs _ _ _ fun a h1 h2 => ?_
          have hlen : (jointColumns j (s.poses i) p).length ≤ if j.kind = .floating then 6 else 1 := by
            unfold jointColumns
            cases hk : j.kind <;> simp
          have ha : a < maxConfig := by omega
          rw [slot_eq _ ha, Pi.single_apply, if_neg]
          intro e
          have := congrArg Fin.val e
          simp only at this
          omega
    · rfl
  have := hmul (Pi.single k 1)
  rw [htotal, mmulVec_eq, Matrix.mulVec_single_one] at this
  have h1 := congrFun this row
  rw [Matrix.col_apply] at h1
  rw [h1]
  cases frame
  · fin_cases row <;> simp [inFrame, Twist.toVector]
  · unfold inFrame
    dsimp only
    rw [show ((0 : (Fin 3 → ℝ) × (Fin 3 → ℝ)).1) = 0 from rfl, show ((0 : (Fin 3 → ℝ) × (Fin 3 → ℝ)).2) = 0 from rfl, so3_act_zero]
    fin_cases row <;> simp [Twist.toVector]

theorem gram_form (J : Matrix (Fin 6) (Fin maxConfig) ℝ) (x y : Fin 6 → ℝ) :
    (Jᵀ *ᵥ x) ⬝ᵥ (Jᵀ *ᵥ y) = x ⬝ᵥ ((J * Jᵀ) *ᵥ y) := by
  rw [← Matrix.mulVec_mulVec, Matrix.dotProduct_mulVec x, ← Matrix.mulVec_transpose]

theorem dot_sq_le {n : ℕ} (x y : Fin n → ℝ) : (x ⬝ᵥ y) ^ 2 ≤ (x ⬝ᵥ x) * (y ⬝ᵥ y) := by
  simp only [dotProduct, ← sq]
  exact Finset.sum_mul_sq_le_sq_mul_sq _ _ _

theorem dot_nonneg {n : ℕ} (x : Fin n → ℝ) : 0 ≤ x ⬝ᵥ x := Finset.sum_nonneg fun i _ => mul_self_nonneg _

/-- The last right vector is a unit wrench that does at most the square root of the last singular value. -/
theorem last_direction (J : Matrix (Fin 6) (Fin maxConfig) ℝ) (d : Svd 6 6 ℝ) (hd : svd (J * Jᵀ) = .ok d) :
    (fun i => d.right i 5) ⬝ᵥ (fun i => d.right i 5) = 1
    ∧ (Jᵀ *ᵥ fun i => d.right i 5) ⬝ᵥ (Jᵀ *ᵥ fun i => d.right i 5) ≤ d.singularValues 5 := by
  obtain ⟨d', hd', s1, s2, s3, s4, s5, s6, -⟩ := svd_spec (J * Jᵀ) le_rfl
  rw [hd] at hd'
  injection hd' with hd'
  subst hd'
  have hunit : (fun i => d.right i 5) ⬝ᵥ (fun i => d.right i 5) = 1 := by
    have := congrFun (congrFun s2 5) 5
    rwa [Matrix.mul_apply, one_apply_eq] at this
  refine ⟨hunit, ?_⟩
  rw [gram_form]
  have hAv : (J * Jᵀ) *ᵥ (fun i => d.right i 5) = fun i => d.singularValues 5 * d.left i 5 := by
    have e : (J * Jᵀ) * d.right = d.left * diagonal d.singularValues := by
      conv_lhs => rw [← s1]
      rw [Matrix.mul_assoc, s2, Matrix.mul_one]
    ext i
    have := congrFun (congrFun e i) 5
    rw [Matrix.mul_apply, Matrix.mul_diagonal] at this
    rw [mul_comm, ← this]
    rfl
  rw [hAv]
  have hle : ((fun i => d.right i 5) ⬝ᵥ (fun i => d.singularValues 5 * d.left i 5)) ^ 2 ≤ d.singularValues 5 ^ 2 := by
    refine (dot_sq_le _ _).trans ?_
    rw [hunit, one_mul]
    have : (fun i => d.singularValues 5 * d.left i 5) ⬝ᵥ (fun i => d.singularValues 5 * d.left i 5)
        = d.singularValues 5 ^ 2 * ∑ i, d.left i 5 ^ 2 := by
      rw [Finset.mul_sum]
      exact Finset.sum_congr rfl fun i _ => by ring
    rw [this, s6 5]
    split_ifs with h
    · rw [h]; norm_num
    · rw [mul_one]
  exact le_of_sq_le_sq hle (s3 5)

/-- C99. `smallest_singular_value` never fails, and some unit wrench does no more than that much at the joints.  Where the
decomposition is exact, none does less: the value is how far the Jacobian is from losing a direction. -/
theorem smallest_singular_value_bound (J : KinematicJacobian maxConfig ℝ) :
    ∃ d σ, svd (J.entries * J.entriesᵀ) = .ok d ∧ J.smallestSingularValue = .ok σ ∧ 0 ≤ σ
      ∧ (∃ x, x ⬝ᵥ x = 1 ∧ (J.entriesᵀ *ᵥ x) ⬝ᵥ (J.entriesᵀ *ᵥ x) ≤ σ ^ 2)
      ∧ (d.Exact → ∀ x, σ ^ 2 * (x ⬝ᵥ x) ≤ (J.entriesᵀ *ᵥ x) ⬝ᵥ (J.entriesᵀ *ᵥ x)) := by
  obtain ⟨d, hd, s1, s2, s3, s4, s5, s6, -⟩ := svd_spec (J.entries * J.entriesᵀ) le_rfl
  refine ⟨d, √(d.singularValues 5), hd, ?_, Real.sqrt_nonneg _, ?_, fun hex => ?_⟩
  · unfold KinematicJacobian.smallestSingularValue
    rw [mmul_eq, mtranspose_eq, hd]
    dsimp only
    rw [max_eq_left (s3 5), real_sqrt]
  · rw [Real.sq_sqrt (s3 5)]
    exact ⟨_, last_direction J.entries d hd⟩
  rw [Real.sq_sqrt (s3 5)]
  intro x
  rcases (s3 5).lt_or_eq with hpos | hz
  · have hbound : ∀ y, d.singularValues 5 ^ 2 * (y ⬝ᵥ y)
        ≤ ((J.entries * J.entriesᵀ) *ᵥ y) ⬝ᵥ ((J.entries * J.entriesᵀ) *ᵥ y) :=
      fun y => (svd_condition_number (J.entries * J.entriesᵀ) d hd hex.1 hpos y).2.1
    have hinj : Function.Injective ((J.entries * J.entriesᵀ) *ᵥ ·) := by
      intro a b hab
      dsimp only at hab
      have h0 : (J.entries * J.entriesᵀ) *ᵥ (a - b) = 0 := by rw [Matrix.mulVec_sub, hab, sub_self]
      have := hbound (a - b)
      rw [h0, dotProduct_zero] at this
      have h1 : (a - b) ⬝ᵥ (a - b) ≤ 0 := by
        by_contra hc
        push Not at hc
        have := mul_pos (pow_pos hpos 2) hc
        linarith
      exact sub_eq_zero.1 (dotProduct_self_zero h1)
    obtain ⟨y, hy⟩ : ∃ y, (J.entries * J.entriesᵀ) *ᵥ y = x := by
      have hu := Matrix.mulVec_injective_iff_isUnit.1 hinj
      exact ⟨(J.entries * J.entriesᵀ)⁻¹ *ᵥ x, by
        rw [Matrix.mulVec_mulVec, Matrix.mul_nonsing_inv _ ((Matrix.isUnit_iff_isUnit_det _).1 hu), Matrix.one_mulVec]⟩
    have h1 := hbound y
    rw [hy] at h1
    have h2 := dot_sq_le (J.entriesᵀ *ᵥ x) (J.entriesᵀ *ᵥ y)
    rw [gram_form _ x y, gram_form _ y y, hy] at h2
    have h3 := dot_sq_le y x
    have hx := dot_nonneg x
    have hq := dot_nonneg (J.entriesᵀ *ᵥ x)
    set q := (J.entriesᵀ *ᵥ x) ⬝ᵥ (J.entriesᵀ *ᵥ x)
    have hσ := hpos
    set σ := d.singularValues 5
    rcases hx.lt_or_eq with hxp | hxz
    · -- σ·(y·x) ≤ x·x
      have h4 : σ * (y ⬝ᵥ x) ≤ x ⬝ᵥ x := by
        apply le_of_sq_le_sq _ hx
        calc (σ * (y ⬝ᵥ x)) ^ 2 = σ ^ 2 * (y ⬝ᵥ x) ^ 2 := by ring
          _ ≤ σ ^ 2 * ((y ⬝ᵥ y) * (x ⬝ᵥ x)) := by gcongr
          _ = σ ^ 2 * (y ⬝ᵥ y) * (x ⬝ᵥ x) := by ring
          _ ≤ (x ⬝ᵥ x) * (x ⬝ᵥ x) := by gcongr
          _ = (x ⬝ᵥ x) ^ 2 := by ring
      have h5 : σ * (x ⬝ᵥ x) * (x ⬝ᵥ x) ≤ q * (x ⬝ᵥ x) := by
        calc σ * (x ⬝ᵥ x) * (x ⬝ᵥ x) = σ * (x ⬝ᵥ x) ^ 2 := by ring
          _ ≤ σ * (q * (y ⬝ᵥ x)) := by gcongr
          _ = q * (σ * (y ⬝ᵥ x)) := by ring
          _ ≤ q * (x ⬝ᵥ x) := by gcongr
      exact le_of_mul_le_mul_right h5 hxp
    · rw [← hxz, mul_zero]; exact hq
  · rw [← hz, zero_mul]; exact dot_nonneg _

/-- C99. With fewer than six columns the smallest singular value is zero, whatever the pose, as soon as the decomposition
of the Gram matrix has its left vectors perpendicular to within rounding. -/
theorem smallest_singular_value_deficient (J : KinematicJacobian maxConfig ℝ) (hJ : J.Padded) (hcol : J.columns < 6)
    (d : Svd 6 6 ℝ) (hd : svd (J.entries * J.entriesᵀ) = .ok d)
    (horth : ∀ p q, p ≠ q → |∑ i, d.left i p * d.left i q| ≤ 1 / 2 ^ 52) : J.smallestSingularValue = .ok 0 := by
  obtain ⟨d', hd', s1, s2, s3, s4, s5, s6, -⟩ := svd_spec (J.entries * J.entriesᵀ) le_rfl
  rw [hd] at hd'
  injection hd' with hd'
  subst hd'
  suffices h : d.singularValues 5 = 0 by
    unfold KinematicJacobian.smallestSingularValue
    rw [mmul_eq, mtranspose_eq, hd]
    dsimp only
    rw [h, real_sqrt]; simp
  by_contra hne
  have hpos : ∀ k, d.singularValues k ≠ 0 := fun k =>
    ((lt_of_le_of_ne (s3 5) (Ne.symm hne)).trans_le (s4 k 5 (Fin.le_last k))).ne'
  have hdet : (d.leftᵀ * d.left).det ≠ 0 := by
    refine det_ne_zero_of_sum_row_lt_diag fun k => ?_
    have hd1 : (d.leftᵀ * d.left) k k = 1 := by
      rw [Matrix.mul_apply]
      have := s6 k
      rw [if_neg (hpos k)] at this
      simpa [sq] using this
    rw [hd1, norm_one]
    calc ∑ j ∈ Finset.univ.erase k, ‖(d.leftᵀ * d.left) k j‖ ≤ ∑ j ∈ Finset.univ.erase k, (1 / 2 ^ 52 : ℝ) := by
          refine Finset.sum_le_sum fun j hj => ?_
          rw [Matrix.mul_apply, Real.norm_eq_abs]
          exact horth k j (Finset.ne_of_mem_erase hj).symm
      _ < 1 := by
          rw [Finset.sum_const, Finset.card_erase_of_mem (Finset.mem_univ k)]
          norm_num
  have hA : (J.entries * J.entriesᵀ).det ≠ 0 := by
    rw [← s1, Matrix.det_mul, Matrix.det_mul, Matrix.det_diagonal]
    rw [Matrix.det_mul, Matrix.det_transpose] at hdet
    have h2 : d.rightᵀ.det ≠ 0 := by
      have := congrArg Matrix.det s2
      rw [Matrix.det_mul, Matrix.det_one] at this
      exact left_ne_zero_of_mul_eq_one this
    exact mul_ne_zero (mul_ne_zero (left_ne_zero_of_mul hdet) (Finset.prod_ne_zero_iff.2 fun k _ => hpos k)) h2
  apply hA
  rw [← Matrix.exists_mulVec_eq_zero_iff]
  have hrank : ∃ x : Fin 6 → ℝ, x ≠ 0 ∧ ∀ k : Fin J.columns, ∑ i, (if h : k.val < maxConfig then J.entries i ⟨k, h⟩ else 0) * x i = 0 := by
    obtain ⟨x, hx, hne⟩ := Submodule.ne_bot_iff _ |>.1 (LinearMap.ker_ne_bot_of_finrank_lt
      (f := Matrix.toLin' (Matrix.of fun (k : Fin J.columns) (i : Fin 6) =>
        if h : k.val < maxConfig then J.entries i ⟨k, h⟩ else 0)) (by simpa using hcol))
    refine ⟨x, hne, fun k => ?_⟩
    rw [LinearMap.mem_ker, Matrix.toLin'_apply] at hx
    exact congrFun hx k
  obtain ⟨x, hx, hz⟩ := hrank
  refine ⟨x, hx, ?_⟩
  rw [← Matrix.mulVec_mulVec]
  have : J.entriesᵀ *ᵥ x = 0 := by
    ext k
    by_cases h : k.val < J.columns
    · have := hz ⟨k.val, h⟩
      simp only [k.isLt, dif_pos] at this
      exact this
    · change ∑ i, J.entries i k * x i = 0
      exact Finset.sum_eq_zero fun i _ => by rw [hJ i k (by omega), zero_mul]
  rw [this, Matrix.mulVec_zero]

/-- One joint, moving the tool along one coordinate. -/
noncomputable def slider : KinematicJacobian 1 ℝ := ⟨Matrix.of fun row _ => if row = 0 then 1 else 0, 1, .world⟩

example : slider.smallestSingularValue = .ok 0 := by
  have he : ∀ i k, slider.entries i k = if i = 0 then 1 else 0 := fun _ _ => rfl
  obtain ⟨d, h1, h2, -⟩ := svd_orthogonal_columns (slider.entries * slider.entriesᵀ) le_rfl (by
      intro p q hpq
      refine Finset.sum_eq_zero fun i _ => ?_
      rw [Matrix.mul_apply, Matrix.mul_apply]
      simp only [transpose_apply, Finset.univ_unique, Finset.sum_singleton, he]
      by_cases hp : p = 0
      · rw [if_neg (fun hq => hpq (hp.trans hq.symm) : ¬ q = 0)]; simp
      · simp [hp])
  exact smallest_singular_value_deficient slider (fun _ k h => absurd h (by have := k.isLt; simp only [slider]; omega))
    (by norm_num [slider]) d h1 fun p q hpq => by rw [h2 p q hpq]; norm_num

/-- C99. `classify_singularity` answers `None` exactly when the smallest singular value reaches the threshold.  Otherwise
there is a unit wrench that does no more than that value, and the answer is `Positional` when more than two thirds of it is
force, `Rotational` when more than two thirds is torque, and `Mixed` in between. -/
theorem classify_singularity_spec (J : KinematicJacobian maxConfig ℝ) (threshold : ℝ) :
    ∃ σ kind x, J.smallestSingularValue = .ok σ ∧ J.classifySingularity threshold = .ok kind
      ∧ x ⬝ᵥ x = 1 ∧ (J.entriesᵀ *ᵥ x) ⬝ᵥ (J.entriesᵀ *ᵥ x) ≤ σ ^ 2
      ∧ (kind = .none ↔ threshold ≤ σ)
      ∧ (kind = .positional ↔ σ < threshold ∧ 2 / 3 < vdot (head3 x) (head3 x))
      ∧ (kind = .rotational ↔ σ < threshold ∧ 2 / 3 < vdot (tail3 x) (tail3 x)) := by
  obtain ⟨d, hd, s1, s2, s3, s4, s5, s6, -⟩ := svd_spec (J.entries * J.entriesᵀ) le_rfl
  obtain ⟨g1, g2⟩ := last_direction J.entries d hd
  have hsplit : vdot (head3 fun i => d.right i 5) (head3 fun i => d.right i 5)
      + vdot (tail3 fun i => d.right i 5) (tail3 fun i => d.right i 5) = 1 := by
    rw [← g1, vdot3, vdot3]
    simp only [head3, tail3, dotProduct, Fin.sum_univ_six, Matrix.cons_val]
    ring
  have hσ : J.smallestSingularValue = .ok √(d.singularValues 5) := by
    unfold KinematicJacobian.smallestSingularValue
    rw [mmul_eq, mtranspose_eq, hd]
    dsimp only
    rw [max_eq_left (s3 5), real_sqrt]
  have hl : ([0, 1, 2] : List (Fin 6)).foldl (fun acc row => acc + d.right row 5 * d.right row 5) 0
      = vdot (head3 fun i => d.right i 5) (head3 fun i => d.right i 5) := by
    rw [vdot3]; simp [head3]
  have ha : ([3, 4, 5] : List (Fin 6)).foldl (fun acc row => acc + d.right row 5 * d.right row 5) 0
      = vdot (tail3 fun i => d.right i 5) (tail3 fun i => d.right i 5) := by
    rw [vdot3]; simp [tail3]
  have hk : J.classifySingularity threshold = .ok (if threshold ≤ √(d.singularValues 5) then .none
      else if 2 / 3 < vdot (head3 fun i => d.right i 5) (head3 fun i => d.right i 5) then .positional
      else if 2 / 3 < vdot (tail3 fun i => d.right i 5) (tail3 fun i => d.right i 5) then .rotational else .mixed) := by
    unfold KinematicJacobian.classifySingularity
    rw [mmul_eq, mtranspose_eq, hd]
    dsimp only
    rw [max_eq_left (s3 5), real_sqrt, hl, ha, hsplit]
    split_ifs <;> first | rfl | (exfalso; norm_num [real_lit] at *; done) | (exfalso; norm_num [real_lit] at *; linarith)
  refine ⟨_, _, fun i => d.right i 5, hσ, hk, g1, by rw [Real.sq_sqrt (s3 5)]; exact g2, ?_, ?_, ?_⟩
  · split_ifs with h1 <;> simp [h1]
  · split_ifs with h1 h2 h3
    · simp [h1]
    · simp [not_le.1 h1, h2]
    · simp [h2]
    · simp [h2]
  · split_ifs with h1 h2 h3
    · simp [h1]
    · simp only [reduceCtorEq, false_iff, not_and, not_lt]
      intro _; linarith
    · simp [not_le.1 h1, h3]
    · simp [h3]

example : cartesian.classifySingularity (1 / 2) = .ok .none := by
  obtain ⟨d, σ, h1, h2, h3, -, h5⟩ := smallest_singular_value_bound cartesian
  have hd : svd (diagonal fun _ : Fin 6 => (1 : ℝ)) = .ok d := by rw [← h1]; simp [cartesian]
  obtain ⟨-, e, hs⟩ := svd_diagonal_exact _ (fun _ => by norm_num) hd
  obtain ⟨σ', kind, x, g1, g2, g3, g4, g5, -⟩ := classify_singularity_spec cartesian (1 / 2)
  rw [h2] at g1
  injection g1 with g1
  subst g1
  rw [g2, g5.2 ?_]
  have e : (cartesian.entriesᵀ *ᵥ x) = x := by simp [cartesian]
  rw [e, g3] at g4
  by_contra hc
  nlinarith

end Multicalc
