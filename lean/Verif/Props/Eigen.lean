import Verif.Lemmas.Eigen

/-!
# Symmetric eigen-decomposition
-/

namespace Multicalc

open Matrix

variable {n : ℕ}

/-- How far the pairs `(values, vectors)` are from satisfying `A v = λ v`: the sum of the squares of
all components of all `A v - λ v`. -/
noncomputable def eigenResidual (A : Matrix (Fin n) (Fin n) ℝ) (d : SymmetricEigen n ℝ) : ℝ :=
  ∑ k, ∑ i, (mmulVec A (fun j => d.vectors j k) i - d.values k * d.vectors i k) ^ 2

/-- C43. On a symmetric matrix the decomposition succeeds with orthonormal directions, eigenvalues
largest first whose sum is the trace, and the largest entry of each direction positive.  The
directions satisfy `A v = λ v` up to a residual that is never above the off-diagonal mass of `A`, and
that is within `n ε max|A|` unless all sixty sweeps were used and each removed at least
`2 (ε max|A|)²`. -/
theorem symmetricEigen_spec (A : Matrix (Fin n) (Fin n) ℝ) (hA : A.IsSymm) :
    ∃ d, symmetricEigen A = .ok d ∧
      mmul (mtranspose d.vectors) d.vectors = midentity n ∧
      (∀ i j, i ≤ j → d.values j ≤ d.values i) ∧
      ∑ i, d.values i = ∑ i, A i i ∧
      (∀ k, ∃ r, ∀ i, |d.vectors i k| ≤ d.vectors r k) ∧
      eigenResidual A d ≤ (∑ i, ∑ j, if i = j then 0 else A i j ^ 2) ∧
      (eigenResidual A d ≤ (n * (1 / 2 ^ 52 * maxAbs A)) ^ 2 ∨
        eigenResidual A d ≤ (∑ i, ∑ j, if i = j then 0 else A i j ^ 2) -
          2 * 60 * (1 / 2 ^ 52 * maxAbs A) ^ 2) := by
  set thr : ℝ := 1 / 2 ^ 52 * maxAbs A with hthr
  have hthr0 : 0 ≤ thr := mul_nonneg (by positivity) (maxAbs_nonneg A)
  have heps : (Fns.epsilon : ℝ) = 1 / 2 ^ 52 := rfl
  have hfin : mIsFinite A = true := by simp [mIsFinite, Fns.isFinite]
  have hinit : JacobiInvariant A ⟨A, midentity n, 0⟩ := by
    refine ⟨hA, ?_, ?_⟩
    · change (midentity n : Matrix _ _ ℝ)ᵀ * midentity n = 1
      rw [midentity_eq]; simp
    · change (midentity n : Matrix _ _ ℝ)ᵀ * A * midentity n = A
      rw [midentity_eq]; simp
  obtain ⟨j1, j2, j3⟩ := jacobiSweeps_spec hthr0 60 _ hinit
  simp only at j2 j3
  set s := jacobiSweeps thr 60 ⟨A, midentity n, 0⟩ with hs
  obtain ⟨⟨σ, s1, s2⟩, s3⟩ := sort_spec (fun i => s.working i i) s.vectors (List.finRange n) []
    ((fun i => s.working i i), s.vectors) (by simp) ⟨1, by simp, by simp⟩ (by simp)
  set t := (List.finRange n).foldl sortStep ((fun i => s.working i i), s.vectors) with ht
  obtain ⟨e, e1, e2, e3⟩ := fixSigns_spec t.2
  refine ⟨⟨t.1, fixSigns t.2⟩, ?_, ?_, s3, ?_, e3, ?_⟩
  · unfold symmetricEigen
    simp only [hfin, (symmetrized_spec A).2.2 hA, Bool.not_true, Bool.false_eq_true, if_false]
    rw [heps, ← hthr, ← hs, ← ht]
  · rw [mmul_eq, midentity_eq]
    ext a b
    have hab := congrFun (congrFun j1.orthogonal (σ a)) (σ b)
    rw [Matrix.mul_apply] at hab ⊢
    have : ∀ i, mtranspose (fixSigns t.2) a i * fixSigns t.2 i b =
        e a * e b * ((s.vectors)ᵀ (σ a) i * s.vectors i (σ b)) := by
      intro i
      simp only [mtranspose, e2, s2, Matrix.transpose_apply]; ring
    simp only [this, ← Finset.mul_sum, hab]
    by_cases h : a = b
    · subst h; simp [e1]
    · rw [Matrix.one_apply_ne h, Matrix.one_apply_ne (fun h' => h (σ.injective h')), mul_zero]
  · have h1 : ∑ i, t.1 i = s.working.trace := by
      rw [Finset.sum_congr rfl fun i _ => s1 i]
      exact Equiv.sum_comp σ (fun i => s.working i i)
    have h2 : s.working.trace = A.trace := by
      rw [← j1.similar, Matrix.trace_mul_comm, ← Matrix.mul_assoc,
        mul_eq_one_comm.1 j1.orthogonal, Matrix.one_mul]
    simp only
    rw [h1, h2]; rfl
  · have hres : eigenResidual A ⟨t.1, fixSigns t.2⟩ = offMass s.working := by
      have hAV : A * s.vectors = s.vectors * s.working := by
        rw [← j1.similar, Matrix.mul_assoc, ← Matrix.mul_assoc s.vectors,
          mul_eq_one_comm.1 j1.orthogonal, Matrix.one_mul]
      set D : Matrix (Fin n) (Fin n) ℝ := Matrix.diagonal fun i => s.working i i with hD
      have h1 : squareMass (A * s.vectors - s.vectors * D) = offMass s.working := by
        rw [hAV, ← Matrix.mul_sub]
        have := (squareMass_orthogonal (s.working - D) (s.vectorsᵀ)
          (by rw [Matrix.transpose_transpose]; exact mul_eq_one_comm.1 j1.orthogonal)).2
        rw [Matrix.transpose_transpose] at this
        rw [this]
        unfold squareMass offMass
        refine Finset.sum_congr rfl fun i _ => Finset.sum_congr rfl fun j _ => ?_
        by_cases h : i = j
        · subst h; simp [hD]
        · simp [hD, h]
      rw [← h1]
      unfold eigenResidual squareMass
      rw [Finset.sum_comm]
      refine Finset.sum_congr rfl fun i _ => ?_
      rw [← Equiv.sum_comp σ fun j => (A * s.vectors - s.vectors * D) i j ^ 2]
      refine Finset.sum_congr rfl fun k _ => ?_
      rw [mmulVec_eq]
      have h2 : (A *ᵥ fun j => fixSigns t.2 j k) i = e k * (A * s.vectors) i (σ k) := by
        rw [Matrix.mulVec, dotProduct, Matrix.mul_apply, Finset.mul_sum]
        refine Finset.sum_congr rfl fun j _ => ?_
        rw [e2, s2]; ring
      have h3 : (s.vectors * D) i (σ k) = s.vectors i (σ k) * s.working (σ k) (σ k) := by
        rw [hD, Matrix.mul_diagonal]
      rw [Matrix.sub_apply, h3]
      dsimp only
      rw [h2, e2, s1, s2]
      have := e1 k
      linear_combination ((A * s.vectors) i (σ k) - s.vectors i (σ k) * s.working (σ k) (σ k)) ^ 2 * this
    rw [hres]
    refine ⟨j2, ?_⟩
    rcases j3 with j3 | j3
    · left
      have hb : offMass s.working ≤ ∑ _i : Fin n, ∑ _j : Fin n, thr ^ 2 := by
        refine Finset.sum_le_sum fun i _ => Finset.sum_le_sum fun j _ => ?_
        split_ifs with h
        · positivity
        · rw [← sq_abs]; exact pow_le_pow_left₀ (abs_nonneg _) (j3 i j h) 2
      refine hb.trans (le_of_eq ?_)
      simp only [Finset.sum_const, Finset.card_univ, Fintype.card_fin, nsmul_eq_mul]
      ring
    · right
      push_cast at j3
      exact j3

/-- C43. A matrix that is not symmetric to within rounding is refused, whatever the scalar type. -/
theorem symmetricEigen_refuses {T : Type} [Zero T] [One T] [NatCast T] [Add T] [Sub T] [Mul T] [Div T]
    [Neg T] [LT T] [DecidableLT T] [LE T] [DecidableLE T] [Max T] [Fns T]
    (A : Matrix (Fin n) (Fin n) T) :
    (mIsFinite A = false → symmetricEigen A = .error .nonFinite) ∧
    (mIsFinite A = true → isSymmetric A = false → symmetricEigen A = .error .notSymmetric) ∧
    ((∃ d, symmetricEigen A = .ok d) → ∀ i j, Fns.isFinite (A i j) = true) := by
  refine ⟨fun h => by simp [symmetricEigen, h], fun h h' => by simp [symmetricEigen, h, h'], ?_⟩
  rintro ⟨d, hd⟩ i j
  unfold symmetricEigen at hd
  by_cases h : mIsFinite A = true
  · simp only [mIsFinite, List.all_eq_true, List.mem_finRange, true_imp_iff] at h
    exact h i j
  · simp [h] at hd

/-- C43. `clamped` returns a matrix that is exactly symmetric for every scalar type, rounding
included. -/
theorem clamped_symmetric {T : Type} [Zero T] [Add T] [Mul T] [Max T] (d : SymmetricEigen n T) (m : T)
    (i j : Fin n) : d.clamped m i j = d.clamped m j i := by
  unfold SymmetricEigen.clamped
  rcases lt_trichotomy i j with h | rfl | h
  · simp [h.le, not_le.2 h]
  · rfl
  · simp [h.le, not_le.2 h]

/-- C43. With orthonormal directions `clamped(m)` is a matrix whose quadratic form is at least
`m ‖x‖²`, with the same directions and the eigenvalues raised to at least `m`. -/
theorem clamped_spec (d : SymmetricEigen n ℝ) (m : ℝ)
    (hV : mmul (mtranspose d.vectors) d.vectors = midentity n) :
    (∀ x : Fin n → ℝ, m * vdot x x ≤ vdot x (mmulVec (d.clamped m) x)) ∧
    (∀ k, mmulVec (d.clamped m) (fun j => d.vectors j k) =
      fun i => max (d.values k) m * d.vectors i k) := by
  have hV' : d.vectorsᵀ * d.vectors = 1 := by
    rw [mmul_eq, midentity_eq] at hV; exact hV
  have hVV : d.vectors * d.vectorsᵀ = 1 := mul_eq_one_comm.1 hV'
  set D : Matrix (Fin n) (Fin n) ℝ := Matrix.diagonal fun i => max (d.values i) m with hD
  have hC : d.clamped m = d.vectors * D * d.vectorsᵀ := by
    have hsum : ∀ a b, (d.vectors * D * d.vectorsᵀ) a b =
        ∑ k, d.vectors a k * max (d.values k) m * d.vectors b k := by
      intro a b
      rw [Matrix.mul_apply]
      refine Finset.sum_congr rfl fun k _ => ?_
      rw [hD, Matrix.mul_diagonal, Matrix.transpose_apply]
    ext a b
    rw [hsum]
    unfold SymmetricEigen.clamped
    simp only [sumLoop_eq]
    split_ifs
    · rfl
    · exact Finset.sum_congr rfl fun k _ => by ring
  constructor
  · intro x
    simp only [vdot_eq, mmulVec_eq, hC]
    set y := d.vectorsᵀ *ᵥ x with hy
    have h1 : x ⬝ᵥ (d.vectors * D * d.vectorsᵀ) *ᵥ x = y ⬝ᵥ D *ᵥ y := by
      rw [← Matrix.mulVec_mulVec, ← Matrix.mulVec_mulVec, Matrix.dotProduct_mulVec,
        ← Matrix.mulVec_transpose]
    have h2 : x ⬝ᵥ x = y ⬝ᵥ y := by
      have : x = d.vectors *ᵥ y := by
        rw [hy, Matrix.mulVec_mulVec, hVV, Matrix.one_mulVec]
      conv_lhs => rw [this]
      rw [Matrix.dotProduct_mulVec, ← Matrix.mulVec_transpose, Matrix.mulVec_mulVec, hV',
        Matrix.one_mulVec]
    rw [h1, h2]
    simp only [dotProduct, hD, Matrix.mulVec_diagonal, Finset.mul_sum]
    refine Finset.sum_le_sum fun i _ => ?_
    nlinarith [mul_self_nonneg (y i), le_max_right (d.values i) m]
  · intro k
    rw [mmulVec_eq, hC]
    have h1 : (fun j => d.vectors j k) = d.vectors *ᵥ Pi.single k 1 := by
      funext j; simp
    rw [h1, Matrix.mulVec_mulVec, Matrix.mul_assoc, hV', Matrix.mul_one]
    funext i
    rw [← Matrix.mulVec_mulVec]
    simp [hD, Matrix.mulVec_diagonal, mul_comm]

/-- C43. With exact eigenpairs the derived answers are right: the determinant is the product of the
eigenvalues, and `is_positive_definite` holds exactly when the quadratic form is positive. -/
theorem eigen_derived (A : Matrix (Fin n) (Fin n) ℝ) (d : SymmetricEigen n ℝ)
    (hV : mmul (mtranspose d.vectors) d.vectors = midentity n)
    (hsorted : ∀ i j, i ≤ j → d.values j ≤ d.values i) (hex : eigenResidual A d = 0) :
    d.determinant = A.det ∧
    (d.isPositiveDefinite = true ↔ ∀ x : Fin n → ℝ, x ≠ 0 → 0 < vdot x (mmulVec A x)) := by
  have hV' : d.vectorsᵀ * d.vectors = 1 := by
    rw [mmul_eq, midentity_eq] at hV; exact hV
  have hVV : d.vectors * d.vectorsᵀ = 1 := mul_eq_one_comm.1 hV'
  have hpair : ∀ k i, (A *ᵥ fun j => d.vectors j k) i = d.values k * d.vectors i k := by
    intro k i
    unfold eigenResidual at hex
    rw [Finset.sum_eq_zero_iff_of_nonneg (fun _ _ => Finset.sum_nonneg fun _ _ => sq_nonneg _)] at hex
    have := (Finset.sum_eq_zero_iff_of_nonneg (fun _ _ => sq_nonneg _)).1 (hex k (Finset.mem_univ k)) i
      (Finset.mem_univ i)
    rw [mmulVec_eq] at this
    exact sub_eq_zero.1 (pow_eq_zero_iff (two_ne_zero) |>.1 this)
  have hA : A = d.vectors * Matrix.diagonal d.values * d.vectorsᵀ := by
    have h1 : A * d.vectors = d.vectors * Matrix.diagonal d.values := by
      ext i k
      rw [Matrix.mul_diagonal, mul_comm (d.vectors i k), ← hpair k i]
      rfl
    rw [← h1, Matrix.mul_assoc, hVV, Matrix.mul_one]
  constructor
  · rw [SymmetricEigen.determinant, prodLoop_eq, one_mul, hA, Matrix.det_mul, Matrix.det_mul,
      Matrix.det_diagonal, mul_right_comm, ← Matrix.det_mul, hVV, Matrix.det_one, one_mul]
  · have hq : ∀ x, vdot x (mmulVec A x) = ∑ i, d.values i * (d.vectorsᵀ *ᵥ x) i ^ 2 := by
      intro x
      rw [vdot_eq, mmulVec_eq]
      conv_lhs => rw [hA]
      rw [← Matrix.mulVec_mulVec, ← Matrix.mulVec_mulVec, Matrix.dotProduct_mulVec,
        ← Matrix.mulVec_transpose]
      simp only [dotProduct, Matrix.mulVec_diagonal]
      exact Finset.sum_congr rfl fun i _ => by ring
    have hall : d.isPositiveDefinite = true ↔ ∀ i, 0 < d.values i := by
      match n, d, hsorted with
      | 0, d, _ => simp [SymmetricEigen.isPositiveDefinite]
      | n + 1, d, hsorted =>
        simp only [SymmetricEigen.isPositiveDefinite, decide_eq_true_eq]
        exact ⟨fun h i => h.trans_le (hsorted i _ (Fin.le_last i)), fun h => h _⟩
    rw [hall]
    constructor
    · intro h x hx
      rw [hq]
      have hne : d.vectorsᵀ *ᵥ x ≠ 0 := by
        intro h0
        have := congrArg (d.vectors *ᵥ ·) h0
        simp only [Matrix.mulVec_mulVec, hVV, Matrix.one_mulVec, Matrix.mulVec_zero] at this
        exact hx this
      obtain ⟨i, hi⟩ : ∃ i, (d.vectorsᵀ *ᵥ x) i ≠ 0 := by
        by_contra hcon
        push Not at hcon
        exact hne (funext hcon)
      exact Finset.sum_pos' (fun j _ => mul_nonneg (h j).le (sq_nonneg _))
        ⟨i, Finset.mem_univ i, mul_pos (h i) (by positivity)⟩
    · intro h k
      have h1 : (fun j => d.vectors j k) = d.vectors *ᵥ Pi.single k 1 := by
        funext j; simp
      have h2 : d.vectorsᵀ *ᵥ (fun j => d.vectors j k) = Pi.single k 1 := by
        rw [h1, Matrix.mulVec_mulVec, hV', Matrix.one_mulVec]
      have hne : (fun j => d.vectors j k) ≠ 0 := by
        intro h0
        rw [h0, Matrix.mulVec_zero] at h2
        have := congrFun h2 k
        simp at this
      have := h _ hne
      rw [hq, h2] at this
      simpa [Pi.single_apply] using this

/-- A symmetric matrix with off-diagonal mass, and exact eigenpairs for it. -/
example : (!![1, 2; 2, 1] : Matrix (Fin 2) (Fin 2) ℝ).IsSymm ∧
    eigenResidual (!![1, 2; 2, 1] : Matrix (Fin 2) (Fin 2) ℝ)
      ⟨![3, -1], !![1 / Real.sqrt 2, 1 / Real.sqrt 2; 1 / Real.sqrt 2, -(1 / Real.sqrt 2)]⟩ = 0 ∧
    mmul (mtranspose (!![1 / Real.sqrt 2, 1 / Real.sqrt 2; 1 / Real.sqrt 2, -(1 / Real.sqrt 2)] :
      Matrix (Fin 2) (Fin 2) ℝ)) !![1 / Real.sqrt 2, 1 / Real.sqrt 2; 1 / Real.sqrt 2,
        -(1 / Real.sqrt 2)] = midentity 2 := by
  refine ⟨?_, ?_, ?_⟩
  · ext i j; fin_cases i <;> fin_cases j <;> rfl
  · simp [eigenResidual, mmulVec_eq, Matrix.mulVec, dotProduct, Fin.sum_univ_two]
    ring
  · have h2 : Real.sqrt 2 * Real.sqrt 2 = 2 := Real.mul_self_sqrt (by norm_num)
    have h3 : (Real.sqrt 2)⁻¹ * (Real.sqrt 2)⁻¹ = 1 / 2 := by
      rw [← mul_inv, h2]; norm_num
    rw [mmul_eq, midentity_eq]
    ext i j
    fin_cases i <;> fin_cases j <;> simp [Matrix.mul_apply, Fin.sum_univ_two, mtranspose, h3] <;> norm_num

end Multicalc
