import Verif.Lemmas.LinearAlgebra
import Verif.Props.Scalar

/-!
# Matrices, LU and Cholesky
-/

namespace Multicalc

open Matrix

variable {n r c k l : ℕ}

/-! ### The loops against the mathematical operations -/

theorem mmul_eq {R : Type} [NonUnitalNonAssocSemiring R] (a : Matrix (Fin r) (Fin k) R)
    (b : Matrix (Fin k) (Fin c) R) : mmul a b = a * b := by
  ext i j; rw [mmul, sumLoop_eq, Matrix.mul_apply]

theorem mmulVec_eq {R : Type} [NonUnitalNonAssocSemiring R] (a : Matrix (Fin r) (Fin c) R)
    (v : Fin c → R) : mmulVec a v = a *ᵥ v := by
  funext i; rw [mmulVec, sumLoop_eq]; rfl

theorem vdot_eq {R : Type} [NonUnitalNonAssocSemiring R] (a b : Fin n → R) :
    vdot a b = a ⬝ᵥ b := by
  rw [vdot, sumLoop_eq]; rfl

theorem midentity_eq {R : Type} [Zero R] [One R] : (midentity n : Matrix (Fin n) (Fin n) R) = 1 := by
  ext i j
  by_cases h : j = i
  · subst h; simp [midentity, mdiagonal]
  · simp [midentity, mdiagonal, h, Ne.symm h]

theorem mtrace_eq {R : Type} [AddCommMonoid R] (m : Matrix (Fin n) (Fin n) R) :
    mtrace m = m.trace := by
  rw [mtrace, sumLoop_eq]; rfl

/-- C42. The matrix operators obey the laws of linear algebra over any commutative ring and for every
shape: products associate and distribute, the identity is neutral, transposing reverses products,
scaling and the matrix-vector product agree with the matrix product, and the trace is symmetric. -/
theorem matrix_ring_laws {R : Type} [CommRing R] (a a' : Matrix (Fin r) (Fin k) R)
    (b b' : Matrix (Fin k) (Fin c) R) (d : Matrix (Fin c) (Fin l) R) (v w : Fin c → R) (s : R) :
    mmul (mmul a b) d = mmul a (mmul b d) ∧
    mmul a (madd b b') = madd (mmul a b) (mmul a b') ∧
    mmul (madd a a') b = madd (mmul a b) (mmul a' b) ∧
    mmul a (msub b b') = msub (mmul a b) (mmul a b') ∧
    mmul (mneg a) b = mneg (mmul a b) ∧
    mmul (midentity r) a = a ∧ mmul a (midentity k) = a ∧
    mtranspose (mmul a b) = mmul (mtranspose b) (mtranspose a) ∧
    mtranspose (mtranspose a) = a ∧
    mmul (mscale a s) b = mscale (mmul a b) s ∧ mmul a (mscale b s) = mscale (mmul a b) s ∧
    mmulVec (mmul a b) v = mmulVec a (mmulVec b v) ∧
    mmulVec (midentity c) v = v ∧
    mmulVec b (vadd v w) = vadd (mmulVec b v) (mmulVec b w) ∧
    mtrace (mmul a (mtranspose a')) = mtrace (mmul (mtranspose a') a) := by
  have e1 : ∀ {p q : ℕ} (x y : Matrix (Fin p) (Fin q) R), madd x y = x + y := fun _ _ => rfl
  have e2 : ∀ {p q : ℕ} (x y : Matrix (Fin p) (Fin q) R), msub x y = x - y := fun _ _ => rfl
  have e3 : ∀ {p q : ℕ} (x : Matrix (Fin p) (Fin q) R), mneg x = -x := fun _ => rfl
  have e4 : ∀ {p q : ℕ} (x : Matrix (Fin p) (Fin q) R), mtranspose x = xᵀ := fun _ => rfl
  have e5 : ∀ {p q : ℕ} (x : Matrix (Fin p) (Fin q) R), mscale x s = s • x := fun x => by
    ext i j; simp [mscale, mul_comm]
  have e6 : ∀ {p : ℕ} (x y : Fin p → R), vadd x y = x + y := fun _ _ => rfl
  simp only [e1, e2, e3, e4, e5, e6, mmul_eq, mmulVec_eq, midentity_eq, mtrace_eq]
  refine ⟨Matrix.mul_assoc _ _ _, Matrix.mul_add _ _ _, Matrix.add_mul _ _ _, Matrix.mul_sub _ _ _,
    Matrix.neg_mul _ _, Matrix.one_mul _, Matrix.mul_one _, Matrix.transpose_mul _ _,
    Matrix.transpose_transpose _, Matrix.smul_mul _ _ _, Matrix.mul_smul _ _ _, ?_,
    Matrix.one_mulVec _, Matrix.mulVec_add _ _ _, Matrix.trace_mul_comm _ _⟩
  rw [Matrix.mulVec_mulVec]

/-- Products really multiply: a rotation by a quarter turn applied twice is minus the identity. -/
example : mmul (!![0, -1; 1, 0] : Matrix (Fin 2) (Fin 2) ℤ) !![0, -1; 1, 0] = mneg (midentity 2) := by
  rw [mmul_eq]
  ext i j
  fin_cases i <;> fin_cases j <;> simp [mneg, midentity, mdiagonal]

/-- C42. The cross product is bilinear in the sense users rely on: antisymmetric, orthogonal to both
factors, with Lagrange's identity for its length and a cyclic scalar triple product. -/
theorem cross_laws {R : Type} [CommRing R] (a b d : Fin 3 → R) :
    cross a b = vneg (cross b a) ∧
    vdot a (cross a b) = 0 ∧ vdot b (cross a b) = 0 ∧
    cross a (vadd b d) = vadd (cross a b) (cross a d) ∧
    vnormSquared (cross a b) = vnormSquared a * vnormSquared b - vdot a b * vdot a b ∧
    scalarTriple a b d = scalarTriple b d a ∧
    scalarTriple a b d = Matrix.det !![a 0, a 1, a 2; b 0, b 1, b 2; d 0, d 1, d 2] ∧
    cross a (cross b d) = vsub (vscaleBy b (vdot a d)) (vscaleBy d (vdot a b)) := by
  simp only [vnormSquared, scalarTriple, vdot_eq, dotProduct, Fin.sum_univ_three, cross, vadd, vneg,
    vsub, vscaleBy, Matrix.det_fin_three]
  refine ⟨?_, ?_, ?_, ?_, ?_, ?_, ?_, ?_⟩
  · funext i; fin_cases i <;> simp [vneg] <;> ring
  · simp; ring
  · simp; ring
  · funext i; fin_cases i <;> simp [vadd] <;> ring
  · simp; ring
  · simp; ring
  · simp; ring
  · funext i; fin_cases i <;> simp [vsub, vscaleBy] <;> ring

example : cross ![1, 0, 0] ![0, 1, 0] = (![0, 0, 1] : Fin 3 → ℤ) := by
  funext i; fin_cases i <;> simp [cross]

/-- C42. Normalising: `try_normalized` refuses exactly the zero vector and otherwise returns the unit
vector along the same direction. -/
theorem vtryNormalized_spec (a : Fin n → ℝ) :
    (vtryNormalized a = none ↔ a = 0) ∧
    ∀ u, vtryNormalized a = some u → vnorm u = 1 ∧ vscaleBy u (vnorm a) = a := by
  have hn : ∀ v : Fin n → ℝ, vnorm v = Real.sqrt (∑ i, v i * v i) := fun v => by
    rw [vnorm, vnormSquared, vdot_eq, real_sqrt]; rfl
  have hz : vnorm a = 0 ↔ a = 0 := by
    rw [hn, Real.sqrt_eq_zero (Finset.sum_nonneg fun i _ => mul_self_nonneg _),
      Finset.sum_eq_zero_iff_of_nonneg fun i _ => mul_self_nonneg _]
    constructor
    · intro h; funext i; exact mul_self_eq_zero.1 (h i (Finset.mem_univ i))
    · rintro rfl; simp
  have hb : ∀ x : ℝ, (Fns.isNan x || x == 0) = decide (x = 0) := fun x => by
    have : Fns.isNan x = false := rfl
    rw [this, Bool.false_or]
    by_cases h : x = 0 <;> simp [h]
  unfold vtryNormalized
  rw [hb]
  constructor
  · rw [← hz]
    by_cases h : vnorm a = 0 <;> simp [h]
  · intro u hu
    by_cases h : vnorm a = 0
    · simp [h] at hu
    · simp only [decide_eq_true_eq, if_neg h, Option.some.injEq] at hu
      subst hu
      constructor
      · have : ∑ i, a i / vnorm a * (a i / vnorm a) = 1 := by
          have e : ∀ i, a i / vnorm a * (a i / vnorm a) = a i * a i / (vnorm a * vnorm a) :=
            fun i => by field_simp
          have hs : vnorm a * vnorm a = ∑ i, a i * a i := by
            rw [hn, Real.mul_self_sqrt (Finset.sum_nonneg fun i _ => mul_self_nonneg _)]
          rw [Finset.sum_congr rfl fun i _ => e i, ← Finset.sum_div, ← hs,
            div_self (mul_ne_zero h h)]
        rw [hn]
        simp only [vdivBy, this, Real.sqrt_one]
      · funext i; simp only [vscaleBy, vdivBy]; field_simp

example : vtryNormalized (![3, 4] : Fin 2 → ℝ) ≠ none :=
  fun h => by
    have := congrFun ((vtryNormalized_spec _).1.1 h) 0
    norm_num at this

/-- C42. `symmetrized` returns a symmetric matrix, namely the symmetric part `(M + Mᵀ)/2`, and leaves
a symmetric matrix alone; a symmetric matrix passes `is_symmetric`. -/
theorem symmetrized_spec (m : Matrix (Fin n) (Fin n) ℝ) :
    (∀ i j, symmetrized m i j = (m i j + m j i) / 2) ∧ (m.IsSymm → symmetrized m = m) ∧
    (m.IsSymm → isSymmetric m = true) := by
  have h1 : ∀ i j, symmetrized m i j = (m i j + m j i) / 2 := by
    intro i j
    unfold symmetrized
    rcases lt_trichotomy i j with h | rfl | h
    · rw [if_pos h]; push_cast; ring
    · simp
    · rw [if_neg h.asymm, if_pos h]; push_cast; ring
  refine ⟨h1, fun hm => ?_, fun hm => ?_⟩
  · ext i j; rw [h1, hm.apply]; ring
  · simp only [isSymmetric, List.all_eq_true, List.mem_finRange, true_imp_iff]
    intro i j
    split_ifs
    · rw [hm.apply i j, sub_self]
      simp only [real_abs, abs_zero, Bool.not_eq_true', decide_eq_false_iff_not, not_lt]
      have : (0 : ℝ) ≤ epsilonX30 := by
        simp only [epsilonX30, Fns.epsilon]; positivity
      exact mul_nonneg this (le_trans zero_le_one (le_max_right _ _))
    · rfl

example : symmetrized (!![1, 2; 4, 5] : Matrix (Fin 2) (Fin 2) ℝ) = !![1, 3; 3, 5] := by
  ext i j
  rw [(symmetrized_spec _).1]
  fin_cases i <;> fin_cases j <;> norm_num

/-! ### LU -/

theorem smallestPivot_check (largest : ℝ) (A : Matrix (Fin n) (Fin n) ℝ) (s : LuState n ℝ)
    (h : luDecompose largest A = .ok s) :
    factorLu largest A = .ok s ∧ (1 / 2 ^ 52 : ℝ) * maxAbs A < s.smallestPivot := by
  unfold luDecompose at h
  split at h
  · simp at h
  next s' hs =>
    split at h
    · simp at h
    next hne =>
      simp only [Except.ok.injEq] at h
      subst h
      refine ⟨hs, ?_⟩
      have := not_le.1 hne
      simpa [Fns.epsilon] using this

/-- C39. A successful factorization is one: `L` is unit lower triangular with entries of magnitude at
most one, `U` is upper triangular, their product is the input with its rows permuted, and the stored
sign is the sign of that permutation. -/
theorem lu_factors (largest : ℝ) (A : Matrix (Fin n) (Fin n) ℝ) (s : LuState n ℝ)
    (h : luDecompose largest A = .ok s) :
    ∃ σ : Equiv.Perm (Fin n), (∀ i, s.perm i = σ i) ∧ s.sign = ((Equiv.Perm.sign σ : ℤ) : ℝ) ∧
      (∀ i j, mmul s.lower s.upper i j = A (s.perm i) j) ∧
      (∀ i, s.lower i i = 1) ∧ (∀ i j, i < j → s.lower i j = 0) ∧
      (∀ i j, |s.lower i j| ≤ 1) ∧ (∀ i j, j < i → s.upper i j = 0) ∧
      (∀ i, (1 / 2 ^ 52 : ℝ) * maxAbs A < |s.upper i i|) := by
  obtain ⟨h, hpiv⟩ := smallestPivot_check largest A s h
  rcases factorLu_spec largest A with ⟨h1, -⟩ | ⟨s', σ, h1, h2⟩
  · rw [h] at h1; simp at h1
  · rw [h] at h1
    simp only [Except.ok.injEq] at h1
    subst h1
    obtain ⟨h3, -, -, -⟩ := luInvariant_factors h2
    refine ⟨σ, fun i => by rw [h2.perm], h2.sign, ?_, ?_, ?_, ?_, ?_, ?_⟩
    · intro i j
      rw [mmul_eq, h3, h2.perm]; rfl
    · intro i; simp [LuState.lower]
    · intro i j hij; simp [LuState.lower, hij.ne, hij.asymm]
    · intro i j
      simp only [LuState.lower]
      split_ifs with h4 h5
      · simp
      · exact h2.bound i j j.2 h5
      · simp
    · intro i j hij; simp [LuState.upper, hij]
    · intro i
      have : s.upper i i = s.a i i := by simp [LuState.upper]
      rw [this]
      exact hpiv.trans_le (h2.pivots i i.2)

/-- C39. What a successful factorization delivers: `solve` returns the one solution of `A x = b`,
`solve_matrix` does so for every column, the determinant is the determinant, and the inverse is a
two-sided inverse. -/
theorem lu_solves (largest : ℝ) (A : Matrix (Fin n) (Fin n) ℝ) (s : LuState n ℝ)
    (h : luDecompose largest A = .ok s) :
    (∀ b x, mmulVec A x = b ↔ x = s.solve b) ∧
    (∀ B : Matrix (Fin n) (Fin k) ℝ, mmul A (s.solveMatrix B) = B) ∧
    s.determinant = A.det ∧ A.det ≠ 0 ∧
    mmul A s.inverse = midentity n ∧ mmul s.inverse A = midentity n := by
  obtain ⟨h, -⟩ := smallestPivot_check largest A s h
  rcases factorLu_spec largest A with ⟨h1, -⟩ | ⟨s', σ, h1, h2⟩
  · rw [h] at h1; simp at h1
  · rw [h] at h1
    simp only [Except.ok.injEq] at h1
    subst h1
    obtain ⟨hd, hne⟩ := luInvariant_det h2
    have hsol := luInvariant_solve h2
    have hmat : ∀ {k : ℕ} (B : Matrix (Fin n) (Fin k) ℝ), A * s.solveMatrix B = B := by
      intro k B
      ext i j
      exact congrFun (hsol fun row => B row j) i
    have hinv : A * s.inverse = 1 := by
      rw [LuState.inverse, hmat, midentity_eq]
    refine ⟨?_, fun B => by rw [mmul_eq, hmat], hd, hne, ?_, ?_⟩
    · intro b x
      rw [mmulVec_eq]
      refine ⟨fun hx => ?_, fun hx => by rw [hx]; exact hsol b⟩
      have hunit : IsUnit A.det := isUnit_iff_ne_zero.2 hne
      have := congrArg (A⁻¹ *ᵥ ·) (hx.trans (hsol b).symm)
      simpa [Matrix.mulVec_mulVec, Matrix.nonsing_inv_mul _ hunit] using this
    · rw [mmul_eq, hinv, midentity_eq]
    · rw [mmul_eq, midentity_eq]; exact mul_eq_one_comm.1 hinv

/-- C39. `Matrix::solve` returns only true solutions, and whatever is refused is refused for cause:
`Singular` means the determinant is zero, and a matrix with zero determinant is never accepted. -/
theorem solve_sound (largest : ℝ) (A : Matrix (Fin n) (Fin n) ℝ) (b : Fin n → ℝ) :
    (∀ x, msolve largest A b = .ok x → mmulVec A x = b ∧ ∀ y, mmulVec A y = b → y = x) ∧
    (msolve largest A b = .error .singular → A.det = 0) ∧
    (A.det = 0 → msolve largest A b = .error .singular) := by
  have hcase : ∀ x, msolve largest A b = .ok x → ∃ s, luDecompose largest A = .ok s ∧
      s.solve b = x := by
    intro x hx
    unfold msolve at hx
    split at hx
    · simp at hx
    next s hs => exact ⟨s, hs, by simpa using hx⟩
  refine ⟨?_, ?_, ?_⟩
  · intro x hx
    obtain ⟨s, hs, rfl⟩ := hcase x hx
    have := (lu_solves (k := 0) largest A s hs).1 b
    exact ⟨(this _).2 rfl, fun y hy => (this y).1 hy⟩
  · intro hx
    rcases factorLu_spec largest A with ⟨h1, h2⟩ | ⟨s, σ, h1, -⟩
    · exact h2
    · unfold msolve luDecompose at hx
      rw [h1] at hx
      dsimp only at hx
      split at hx
      next e he =>
        split at he
        · simp at he
          subst he
          simp at hx
        · simp at he
      · simp at hx
  · intro hdet
    rcases factorLu_spec largest A with ⟨h1, -⟩ | ⟨s, σ, h1, h2⟩
    · unfold msolve luDecompose
      rw [h1]
    · exact absurd hdet (luInvariant_det h2).2

/-- A matrix whose first pivot needs a row swap. -/
example : ∃ s, factorLu (10 ^ 300) (!![0, 1; 1, 0] : Matrix (Fin 2) (Fin 2) ℝ) = .ok s := by
  rcases factorLu_spec (10 ^ 300) (!![0, 1; 1, 0] : Matrix (Fin 2) (Fin 2) ℝ) with ⟨-, h⟩ | ⟨s, -, h, -⟩
  · norm_num [Matrix.det_fin_two] at h
  · exact ⟨s, h⟩

/-! ### Determinant and inverse -/

theorem determinant4_eq {R : Type} [CommRing R] (m : Matrix (Fin 4) (Fin 4) R) :
    determinant4 m = m.det := by
  rw [Matrix.det_succ_row_zero]
  simp only [Fin.sum_univ_four, Matrix.det_fin_three, Matrix.submatrix_apply]
  simp [determinant4, rowPairMinors, Fin.succAbove, Fin.lt_def]
  ring

/-- C41. `determinant` is the determinant (the signed sum over permutations) for every square matrix
of every size: closed forms up to four, elimination above, zero exactly when singular. -/
theorem determinant_correct (largest : ℝ) (m : Matrix (Fin n) (Fin n) ℝ) :
    mdeterminant largest m = ∑ σ : Equiv.Perm (Fin n), (Equiv.Perm.sign σ : ℤ) * ∏ i, m (σ i) i := by
  rw [← Matrix.det_apply']
  match n, m with
  | 0, m => simp [mdeterminant]
  | 1, m => simp [mdeterminant]
  | 2, m => simp only [mdeterminant, determinant2, Matrix.det_fin_two]
  | 3, m => rw [Matrix.det_fin_three]; simp only [mdeterminant, determinant3]; ring
  | 4, m => rw [← determinant4_eq]; rfl
  | n + 5, m =>
    rcases factorLu_spec largest m with ⟨h1, h2⟩ | ⟨s, σ, h1, h2⟩
    · simp only [mdeterminant, h1, h2]
    · simp only [mdeterminant, h1]
      exact (luInvariant_det h2).1

/-- C41. The closed forms are exact identities over every commutative ring, not only the reals. -/
theorem determinant_closed_forms {R : Type} [CommRing R] (m2 : Matrix (Fin 2) (Fin 2) R)
    (m3 : Matrix (Fin 3) (Fin 3) R) (m4 : Matrix (Fin 4) (Fin 4) R) :
    determinant2 m2 = m2.det ∧ determinant3 m3 = m3.det ∧ determinant4 m4 = m4.det := by
  refine ⟨(Matrix.det_fin_two m2).symm, ?_, determinant4_eq m4⟩
  rw [Matrix.det_fin_three]; simp only [determinant3]; ring

theorem detNearSingular_ne (det scale : ℝ) (hs : 0 ≤ scale) (n : ℕ)
    (h : detNearSingular det scale n = false) : det ≠ 0 := by
  rintro rfl
  simp only [detNearSingular, decide_eq_false_iff_not, not_le, real_abs, abs_zero, powi_eq_zpow] at h
  have : (0 : ℝ) ≤ Fns.epsilon := by simp only [Fns.epsilon]; positivity
  have h2 : (0 : ℝ) ≤ Fns.epsilon * (n : ℝ) * scale ^ ((n : ℕ) : ℤ) := by positivity
  linarith

theorem maxAbs_nonneg (m : Matrix (Fin r) (Fin c) ℝ) : 0 ≤ maxAbs m := by
  have hin : ∀ (l : List (Fin c)) (f : Fin c → ℝ) (x : ℝ), 0 ≤ x →
      0 ≤ l.foldl (fun best j => max best (f j)) x := by
    intro l f
    induction l with
    | nil => intro x hx; exact hx
    | cons j l ih => intro x hx; exact ih _ (le_trans hx (le_max_left _ _))
  have hout : ∀ (l : List (Fin r)) (x : ℝ), 0 ≤ x → 0 ≤ l.foldl (fun best i =>
      (List.finRange c).foldl (fun best j => max best (Fns.abs (m i j))) best) x := by
    intro l
    induction l with
    | nil => intro x hx; exact hx
    | cons i l ih => intro x hx; exact ih _ (hin _ _ _ hx)
  exact hout _ _ le_rfl

/-- C41. Every inverse returned is a two-sided inverse, at every size. -/
theorem inverse_correct (largest : ℝ) (m w : Matrix (Fin n) (Fin n) ℝ)
    (h : minverse largest m = .ok w) : mmul m w = midentity n ∧ mmul w m = midentity n := by
  suffices hr : m * w = 1 by
    rw [mmul_eq, mmul_eq, midentity_eq]
    exact ⟨hr, mul_eq_one_comm.1 hr⟩
  match n, m, w, h with
  | 0, m, w, h => exact Subsingleton.elim _ _
  | 1, m, w, h =>
    simp only [minverse, inverse1] at h
    split at h
    · simp at h
    next hne =>
      have h0 := detNearSingular_ne _ (Fns.abs (m 0 0)) (abs_nonneg (m 0 0)) _ (by simpa using hne)
      have hw : w 0 0 = 1 / m 0 0 := (congrFun (congrFun (Except.ok.inj h) 0) 0).symm
      ext i j
      rw [Subsingleton.elim i 0, Subsingleton.elim j 0, Matrix.mul_apply, Fin.sum_univ_one,
        Matrix.one_apply_eq, hw]
      exact mul_one_div_cancel h0
  | 2, m, w, h =>
    simp only [minverse, inverse2] at h
    split at h
    · simp at h
    next hne =>
      have h0 := detNearSingular_ne _ _ (maxAbs_nonneg m) _ (by simpa using hne)
      simp only [Except.ok.injEq] at h
      subst h
      have h1 : ∀ x, x * (1 / determinant2 m) = x / determinant2 m := fun x => by ring
      ext i j
      simp only [h1]
      generalize hd : determinant2 m = d at h0 ⊢
      have hd' : d = m 0 0 * m 1 1 - m 0 1 * m 1 0 := hd.symm
      fin_cases i <;> fin_cases j <;>
        simp [Matrix.mul_apply, Fin.sum_univ_two] <;> field_simp <;> rw [hd'] <;> ring
  | 3, m, w, h =>
    simp only [minverse, inverse3] at h
    split at h
    · simp at h
    next hne =>
      have h0 := detNearSingular_ne _ _ (maxAbs_nonneg m) _ (by simpa using hne)
      simp only [Except.ok.injEq] at h
      subst h
      generalize hd : determinant3 m = d at h0 ⊢
      have key : m * !![
          m 1 1 * m 2 2 - m 1 2 * m 2 1, m 0 2 * m 2 1 - m 0 1 * m 2 2, m 0 1 * m 1 2 - m 0 2 * m 1 1;
          m 1 2 * m 2 0 - m 1 0 * m 2 2, m 0 0 * m 2 2 - m 0 2 * m 2 0, m 0 2 * m 1 0 - m 0 0 * m 1 2;
          m 1 0 * m 2 1 - m 1 1 * m 2 0, m 0 1 * m 2 0 - m 0 0 * m 2 1, m 0 0 * m 1 1 - m 0 1 * m 1 0]
          = d • 1 := by
        rw [← hd]
        ext i j
        fin_cases i <;> fin_cases j <;>
          simp [Matrix.mul_apply, Fin.sum_univ_three, determinant3] <;> ring
      have e : ∀ q : Matrix (Fin 3) (Fin 3) ℝ, mscale q (1 / d) = (1 / d) • q := fun q => by
        ext i j; simp [mscale, mul_comm]
      rw [e, Matrix.mul_smul, key, smul_smul, one_div, inv_mul_cancel₀ h0, one_smul]
  | 4, m, w, h =>
    simp only [minverse, inverse4] at h
    split at h
    · simp at h
    next hne =>
      have h0 := detNearSingular_ne _ _ (maxAbs_nonneg m) _ (by simpa using hne)
      simp only [Except.ok.injEq] at h
      subst h
      generalize hd : (rowPairMinors m).1 0 * (rowPairMinors m).2 5 -
        (rowPairMinors m).1 1 * (rowPairMinors m).2 4 + (rowPairMinors m).1 2 * (rowPairMinors m).2 3 +
        (rowPairMinors m).1 3 * (rowPairMinors m).2 2 - (rowPairMinors m).1 4 * (rowPairMinors m).2 1 +
        (rowPairMinors m).1 5 * (rowPairMinors m).2 0 = d at h0 ⊢
      have e : ∀ q : Matrix (Fin 4) (Fin 4) ℝ, mscale q (1 / d) = (1 / d) • q := fun q => by
        ext i j; simp [mscale, mul_comm]
      have hsc : ∀ q : Matrix (Fin 4) (Fin 4) ℝ, m * q = d • 1 → (1 / d) • (m * q) = 1 :=
        fun q hq => by rw [hq, smul_smul, one_div, inv_mul_cancel₀ h0, one_smul]
      rw [e, Matrix.mul_smul]
      apply hsc
      rw [← hd]
      ext i j
      simp only [rowPairMinors]
      fin_cases i <;> fin_cases j <;>
        simp [Matrix.mul_apply, Fin.sum_univ_four] <;> ring
  | n + 5, m, w, h =>
    simp only [minverse] at h
    split at h
    · simp at h
    next s hs =>
      simp only [Except.ok.injEq] at h
      subst h
      have := (lu_solves (k := 0) largest m s hs).2.2.2.2.1
      rwa [mmul_eq, midentity_eq] at this

/-- C41. A singular matrix is never inverted: whatever the size, zero determinant means `Singular`. -/
theorem inverse_refuses_singular (largest : ℝ) (m : Matrix (Fin n) (Fin n) ℝ) (h : m.det = 0) :
    minverse largest m = .error .singular := by
  cases hw : minverse largest m with
  | ok w =>
    have := (inverse_correct largest m w hw).1
    rw [mmul_eq, midentity_eq] at this
    have hd := congrArg Matrix.det this
    rw [Matrix.det_mul, h, zero_mul, Matrix.det_one] at hd
    exact absurd hd zero_ne_one
  | error e =>
    match n, m, h, hw with
    | 0, m, h, hw => simp [minverse] at hw
    | 1, m, h, hw =>
      simp only [minverse, inverse1] at hw
      split at hw <;> simp_all
    | 2, m, h, hw =>
      simp only [minverse, inverse2] at hw
      split at hw <;> simp_all
    | 3, m, h, hw =>
      simp only [minverse, inverse3] at hw
      split at hw <;> simp_all
    | 4, m, h, hw =>
      simp only [minverse, inverse4] at hw
      split at hw <;> simp_all
    | n + 5, m, h, hw =>
      simp only [minverse, luDecompose] at hw
      rcases factorLu_spec largest m with ⟨h1, -⟩ | ⟨s, σ, h1, h2⟩
      · rw [h1] at hw; simpa using hw.symm
      · exact absurd h (luInvariant_det h2).2

/-- A three by three matrix that is inverted. -/
example : ∃ w, minverse (10 ^ 300) (!![2, 0, 0; 0, 1, 0; 0, 0, 1] : Matrix (Fin 3) (Fin 3) ℝ) = .ok w := by
  suffices hk : ¬ detNearSingular (determinant3 (!![2, 0, 0; 0, 1, 0; 0, 0, 1] : Matrix _ _ ℝ))
      (maxAbs (!![2, 0, 0; 0, 1, 0; 0, 0, 1] : Matrix (Fin 3) (Fin 3) ℝ)) 3 = true by
    simp only [minverse, inverse3, if_neg hk]
    exact ⟨_, rfl⟩
  have h1 : maxAbs (!![2, 0, 0; 0, 1, 0; 0, 0, 1] : Matrix (Fin 3) (Fin 3) ℝ) = 2 := by
    simp [maxAbs, List.finRange_succ, real_abs]
  rw [h1]
  simp [detNearSingular, determinant3, real_abs, powi_eq_zpow, Fns.epsilon]
  norm_num

/-! ### Cholesky -/

/-- C40. On a symmetric matrix Cholesky succeeds exactly when the matrix is positive definite, and the
only error it returns is `NotPositiveDefinite`. -/
theorem cholesky_iff_positive_definite (A : Matrix (Fin n) (Fin n) ℝ) (hA : A.IsSymm) :
    ((∃ L, cholesky A = .ok L) ↔ ∀ x : Fin n → ℝ, x ≠ 0 → 0 < vdot x (mmulVec A x)) ∧
    ∀ e, cholesky A = .error e → e = .notPositiveDefinite := by
  simp only [vdot_eq, mmulVec_eq]
  rcases cholesky_run A with ⟨h1, j, L, h2, h3⟩ | ⟨L, h1, h2⟩
  · refine ⟨⟨fun ⟨L', h'⟩ => by rw [h1] at h'; simp at h', fun hp => ?_⟩, fun e he => ?_⟩
    · obtain ⟨v, hv, hvA⟩ := cholesky_refused hA h2
      have := hp v hv
      rw [hvA] at this
      exact absurd h3 (not_le.2 this)
    · rw [h1] at he; simpa using he.symm
  · refine ⟨⟨fun _ x hx => ?_, fun _ => ⟨L, h1⟩⟩, fun e he => by rw [h1] at he; simp at he⟩
    have hmul := choleskyInvariant_mul hA h2
    have hdet := (choleskyInvariant_det h2).2
    have e : x ⬝ᵥ A *ᵥ x = (Lᵀ *ᵥ x) ⬝ᵥ (Lᵀ *ᵥ x) := by
      rw [← hmul, ← Matrix.mulVec_mulVec, Matrix.dotProduct_mulVec, ← Matrix.mulVec_transpose]
    rw [e]
    have hne : Lᵀ *ᵥ x ≠ 0 := by
      intro h0
      have hunit : IsUnit (Lᵀ).det := by
        rw [Matrix.det_transpose]; exact isUnit_iff_ne_zero.2 hdet
      have := congrArg ((Lᵀ)⁻¹ *ᵥ ·) h0
      simp only [Matrix.mulVec_mulVec, Matrix.nonsing_inv_mul _ hunit, Matrix.one_mulVec,
        Matrix.mulVec_zero] at this
      exact hx this
    have hnn : 0 ≤ (Lᵀ *ᵥ x) ⬝ᵥ (Lᵀ *ᵥ x) :=
      Finset.sum_nonneg fun i _ => mul_self_nonneg _
    refine lt_of_le_of_ne hnn fun h0 => hne ?_
    funext i
    exact mul_self_eq_zero.1 ((Finset.sum_eq_zero_iff_of_nonneg fun i _ => mul_self_nonneg _).1
      h0.symm i (Finset.mem_univ i))

/-- C40. What a successful factorization delivers, for symmetric input: a lower triangular factor with
positive diagonal whose product with its transpose is the input, the unique solution of every system,
the determinant, and a two-sided inverse. -/
theorem cholesky_factors (A L : Matrix (Fin n) (Fin n) ℝ) (hA : A.IsSymm) (h : cholesky A = .ok L) :
    mmul L (mtranspose L) = A ∧ (∀ i, 0 < L i i) ∧ (∀ i j, i < j → L i j = 0) ∧
    (∀ b x, mmulVec A x = b ↔ x = choleskySolve L b) ∧
    (∀ B : Matrix (Fin n) (Fin k) ℝ, mmul A (choleskySolveMatrix L B) = B) ∧
    choleskyDeterminant L = A.det ∧ 0 < A.det ∧
    mmul A (choleskyInverse L) = midentity n ∧ mmul (choleskyInverse L) A = midentity n := by
  rcases cholesky_run A with ⟨h1, -⟩ | ⟨L', h1, h2⟩
  · rw [h1] at h; simp at h
  rw [h1] at h
  simp only [Except.ok.injEq] at h
  subst h
  have hmul := choleskyInvariant_mul hA h2
  obtain ⟨hd, hdet⟩ := choleskyInvariant_det h2
  have hdetA : A.det = L'.det * L'.det := by
    rw [← hmul, Matrix.det_mul, Matrix.det_transpose]
  have hpos : 0 < A.det := by rw [hdetA]; exact mul_self_pos.2 hdet
  have hsol : ∀ b, A *ᵥ choleskySolve L' b = b := fun b => by
    have := choleskyInvariant_solve h2 b
    rwa [hmul] at this
  have hmat : ∀ {k : ℕ} (B : Matrix (Fin n) (Fin k) ℝ), A * choleskySolveMatrix L' B = B := by
    intro k B
    ext i j
    exact congrFun (hsol fun row => B row j) i
  have hinv : A * choleskyInverse L' = 1 := by rw [choleskyInverse, hmat, midentity_eq]
  refine ⟨by rw [mmul_eq]; exact hmul, fun i => h2.diag i i.2, h2.lower, ?_,
    fun B => by rw [mmul_eq, hmat], ?_, hpos, ?_, ?_⟩
  · intro b x
    rw [mmulVec_eq]
    refine ⟨fun hx => ?_, fun hx => by rw [hx]; exact hsol b⟩
    have hunit : IsUnit A.det := isUnit_iff_ne_zero.2 hpos.ne'
    have := congrArg (A⁻¹ *ᵥ ·) (hx.trans (hsol b).symm)
    simpa [Matrix.mulVec_mulVec, Matrix.nonsing_inv_mul _ hunit] using this
  · rw [choleskyDeterminant, prodLoop_eq, one_mul, Finset.prod_mul_distrib, ← hd, hdetA]
  · rw [mmul_eq, hinv, midentity_eq]
  · rw [mmul_eq, midentity_eq]; exact mul_eq_one_comm.1 hinv

/-- C40. Only the lower triangle is read: two matrices agreeing there factor alike. -/
theorem cholesky_reads_lower {T : Type} [Zero T] [Sub T] [Mul T] [Div T] [LE T] [DecidableLE T] [Fns T]
    (A B : Matrix (Fin n) (Fin n) T) (h : ∀ i j, j ≤ i → A i j = B i j) : cholesky A = cholesky B := by
  have hres : ∀ (L : Matrix (Fin n) (Fin n) T) i j, j ≤ i →
      choleskyResidual A L i j = choleskyResidual B L i j := fun L i j hij => by
    simp only [choleskyResidual, h i j hij]
  have hstep : ∀ (L : Matrix (Fin n) (Fin n) T) j, choleskyStep A L j = choleskyStep B L j := by
    intro L j
    simp only [choleskyStep, hres L j j le_rfl]
    have : ∀ row, (if j < row then choleskyResidual A L row j /
        Fns.sqrt (choleskyResidual B L j j) else L row j) = (if j < row then choleskyResidual B L row j /
        Fns.sqrt (choleskyResidual B L j j) else L row j) := by
      intro row
      by_cases hr : j < row
      · rw [if_pos hr, if_pos hr, hres L row j hr.le]
      · rw [if_neg hr, if_neg hr]
    split_ifs
    · rfl
    · congr 1
      funext row column
      by_cases hc : column = j
      · subst hc
        simp only [if_true, this row]
      · simp only [if_neg hc]
  have hloop : ∀ (l : List (Fin n)) (L : Matrix (Fin n) (Fin n) T),
      choleskyLoop A l L = choleskyLoop B l L := by
    intro l
    induction l with
    | nil => intro L; rfl
    | cons j l ih =>
      intro L
      simp only [choleskyLoop, hstep]
      cases choleskyStep B L j <;> simp [ih]
  exact hloop _ _

/-- A positive definite matrix that is not diagonal. -/
example : ∃ L, cholesky (!![2, 1; 1, 2] : Matrix (Fin 2) (Fin 2) ℝ) = .ok L := by
  refine ((cholesky_iff_positive_definite _ ?_).1).2 ?_
  · ext i j; fin_cases i <;> fin_cases j <;> rfl
  · intro x hx
    simp only [vdot_eq, mmulVec_eq, dotProduct, Matrix.mulVec, Fin.sum_univ_two]
    simp
    have : x 0 ≠ 0 ∨ x 1 ≠ 0 := by
      by_contra h
      push Not at h
      exact hx (by funext i; fin_cases i <;> simp [h.1, h.2])
    rcases this with h | h
    · nlinarith [sq_nonneg (x 0 + x 1), sq_pos_of_ne_zero h, sq_nonneg (x 1)]
    · nlinarith [sq_nonneg (x 0 + x 1), sq_pos_of_ne_zero h, sq_nonneg (x 0)]

end Multicalc
