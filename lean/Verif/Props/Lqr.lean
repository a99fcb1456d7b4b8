import Verif.Model.Lqr
import Verif.Props.LinearAlgebra
import Mathlib.Analysis.Matrix.Normed

/-!
# Lyapunov and Riccati equations, linear-quadratic feedback
-/

namespace Multicalc

open Matrix
open scoped Matrix.Norms.Frobenius

variable {n m r c : ℕ}

theorem frobeniusNorm_sq (w : Matrix (Fin r) (Fin c) ℝ) :
    frobeniusNorm w = Real.sqrt (∑ i, ∑ j, w i j * w i j) := by
  have h : ∀ (l : List (Fin r)) (a : ℝ), l.foldl (fun acc i => (List.finRange c).foldl
      (fun acc j => acc + w i j * w i j) acc) a = a + (l.map fun i => ∑ j, w i j * w i j).sum := by
    intro l
    induction l with
    | nil => simp
    | cons i l ih =>
      intro a
      rw [List.foldl_cons, ih, foldl_add_eq, List.map_cons, List.sum_cons, ← List.sum_ofFn,
        List.ofFn_eq_map]
      ring
  rw [frobeniusNorm, real_sqrt, h, zero_add, ← List.sum_ofFn, List.ofFn_eq_map]

theorem frobeniusNorm_eq (w : Matrix (Fin r) (Fin c) ℝ) : frobeniusNorm w = ‖w‖ := by
  rw [frobeniusNorm_sq, Matrix.frobenius_norm_def, ← Real.sqrt_eq_rpow]
  congr 1
  refine Finset.sum_congr rfl fun i _ => Finset.sum_congr rfl fun j _ => ?_
  rw [Real.rpow_two, Real.norm_eq_abs, sq_abs, sq]

theorem real_mIsFinite (w : Matrix (Fin r) (Fin c) ℝ) : mIsFinite w = true := by
  simp [mIsFinite, Fns.isFinite]

theorem real_isFinite (x : ℝ) : Fns.isFinite x = true := rfl

theorem epsilonX30_real : (epsilonX30 : ℝ) = 30 / 2 ^ 52 := by
  simp only [epsilonX30, Fns.epsilon]; push_cast; ring

/-- The partial sums of the Lyapunov series. -/
noncomputable def lyapunovSum (A Q : Matrix (Fin n) (Fin n) ℝ) (N : ℕ) : Matrix (Fin n) (Fin n) ℝ :=
  ∑ k ∈ Finset.range N, (Aᵀ) ^ k * Q * A ^ k

theorem lyapunovSum_symm (A Q : Matrix (Fin n) (Fin n) ℝ) (hQ : Q.IsSymm) (N : ℕ) :
    (lyapunovSum A Q N).IsSymm := by
  unfold lyapunovSum Matrix.IsSymm
  rw [Matrix.transpose_sum]
  refine Finset.sum_congr rfl fun k _ => ?_
  rw [Matrix.transpose_mul, Matrix.transpose_mul, hQ.eq, Matrix.transpose_pow, Matrix.transpose_pow,
    Matrix.transpose_transpose, Matrix.mul_assoc]

theorem lyapunovSum_add (A Q : Matrix (Fin n) (Fin n) ℝ) (N M : ℕ) :
    lyapunovSum A Q (N + M) = lyapunovSum A Q N + (A ^ N)ᵀ * lyapunovSum A Q M * A ^ N := by
  unfold lyapunovSum
  rw [Finset.sum_range_add, Matrix.mul_sum, Matrix.sum_mul]
  congr 1
  refine Finset.sum_congr rfl fun k _ => ?_
  rw [Matrix.transpose_pow, pow_add, add_comm N k, pow_add A k N]
  simp only [Matrix.mul_assoc]

/-- One pass over the reals. -/
theorem lyapunovLoop_succ (A Q : Matrix (Fin n) (Fin n) ℝ) (hQ : Q.IsSymm) (k j : ℕ) :
    lyapunovLoop (k + 1) (lyapunovSum A Q (2 ^ j)) (A ^ 2 ^ j) =
      if ‖lyapunovSum A Q (2 ^ (j + 1)) - lyapunovSum A Q (2 ^ j)‖ ≤
          30 / 2 ^ 52 * max ‖lyapunovSum A Q (2 ^ (j + 1))‖ 1 then
        .ok (lyapunovSum A Q (2 ^ (j + 1)))
      else lyapunovLoop k (lyapunovSum A Q (2 ^ (j + 1))) (A ^ 2 ^ (j + 1)) := by
  have hinc : mmul (mmul (mtranspose (A ^ 2 ^ j)) (lyapunovSum A Q (2 ^ j))) (A ^ 2 ^ j) =
      lyapunovSum A Q (2 ^ (j + 1)) - lyapunovSum A Q (2 ^ j) := by
    rw [mmul_eq, mmul_eq, pow_succ 2 j, mul_two, lyapunovSum_add, add_sub_cancel_left]; rfl
  have htot : madd (lyapunovSum A Q (2 ^ j)) (lyapunovSum A Q (2 ^ (j + 1)) - lyapunovSum A Q (2 ^ j)) =
      lyapunovSum A Q (2 ^ (j + 1)) := by
    change lyapunovSum A Q (2 ^ j) + (lyapunovSum A Q (2 ^ (j + 1)) - lyapunovSum A Q (2 ^ j)) = _
    abel
  have hpow : mmul (A ^ 2 ^ j) (A ^ 2 ^ j) = A ^ 2 ^ (j + 1) := by
    rw [mmul_eq, ← pow_add, ← mul_two, ← pow_succ]
  rw [lyapunovLoop]
  simp only [hinc, htot, hpow, (symmetrized_spec _).2.1 (lyapunovSum_symm A Q hQ _), real_mIsFinite,
    real_isFinite, Bool.not_true, Bool.or_self, Bool.false_eq_true, if_false, frobeniusNorm_eq,
    epsilonX30_real]

theorem lyapunovLoop_spec (A Q : Matrix (Fin n) (Fin n) ℝ) (hQ : Q.IsSymm) :
    ∀ (k j : ℕ) (P : Matrix (Fin n) (Fin n) ℝ),
      lyapunovLoop k (lyapunovSum A Q (2 ^ j)) (A ^ 2 ^ j) = .ok P →
      ∃ i, j ≤ i ∧ i < j + k ∧ P = lyapunovSum A Q (2 ^ (i + 1)) ∧
        ‖P - lyapunovSum A Q (2 ^ i)‖ ≤ 30 / 2 ^ 52 * max ‖P‖ 1 := by
  intro k
  induction k with
  | zero => intro j P h; simp [lyapunovLoop] at h
  | succ k ih =>
    intro j P h
    rw [lyapunovLoop_succ A Q hQ] at h
    split_ifs at h with hc
    · simp only [Except.ok.injEq] at h
      subst h
      exact ⟨j, le_rfl, by omega, rfl, hc⟩
    · obtain ⟨i, h1, h2, h3, h4⟩ := ih (j + 1) P h
      exact ⟨i, by omega, by omega, h3, h4⟩

theorem solveLyapunov_eq (A Q : Matrix (Fin n) (Fin n) ℝ) (hQ : Q.IsSymm) :
    solveLyapunov A Q = lyapunovLoop 64 (lyapunovSum A Q (2 ^ 0)) (A ^ 2 ^ 0) := by
  unfold solveLyapunov
  simp only [real_mIsFinite, (symmetrized_spec Q).2.2 hQ, Bool.not_true, Bool.or_self,
    Bool.false_eq_true, if_false]
  simp [lyapunovSum]

/-- C37. What `solve_discrete_lyapunov` returns: within 64 doublings, exactly the sum of the first
`2^j` terms of the series; it is symmetric, leaves exactly the next term `(Aᵀ)^N Q A^N` in the
equation, and the last half of the terms is within the settling tolerance. -/
theorem lyapunov_result (A Q P : Matrix (Fin n) (Fin n) ℝ) (hQ : Q.IsSymm)
    (h : solveLyapunov A Q = .ok P) :
    ∃ j, 1 ≤ j ∧ j ≤ 64 ∧ P = ∑ k ∈ Finset.range (2 ^ j), (Aᵀ) ^ k * Q * A ^ k ∧ P.IsSymm ∧
      Aᵀ * P * A - P + Q = (Aᵀ) ^ 2 ^ j * Q * A ^ 2 ^ j ∧
      frobeniusNorm (P - ∑ k ∈ Finset.range (2 ^ (j - 1)), (Aᵀ) ^ k * Q * A ^ k) ≤
        30 / 2 ^ 52 * max (frobeniusNorm P) 1 := by
  rw [solveLyapunov_eq A Q hQ] at h
  obtain ⟨i, -, h2, h3, h4⟩ := lyapunovLoop_spec A Q hQ 64 0 P h
  refine ⟨i + 1, by omega, by omega, h3, ?_, ?_, ?_⟩
  · rw [h3]; exact lyapunovSum_symm A Q hQ _
  · have e1 := lyapunovSum_add A Q (2 ^ (i + 1)) 1
    have e2 := lyapunovSum_add A Q 1 (2 ^ (i + 1))
    rw [add_comm 1, e1] at e2
    have h1 : lyapunovSum A Q 1 = Q := by simp [lyapunovSum]
    rw [h1, pow_one, ← h3, Matrix.transpose_pow] at e2
    rw [eq_comm, ← sub_eq_zero]
    have : (Aᵀ) ^ 2 ^ (i + 1) * Q * A ^ 2 ^ (i + 1) = Q + Aᵀ * P * A - P := by
      rw [← e2]; abel
    rw [this]; abel
  · rw [frobeniusNorm_eq, frobeniusNorm_eq]; exact h4

/-- C37. A matrix that shrinks is never turned away: when some `A^(2^j)` with `j < 64` has
Frobenius norm squared at most fifteen rounding units, the solver answers. -/
theorem lyapunov_answers (A Q : Matrix (Fin n) (Fin n) ℝ) (hQ : Q.IsSymm) (j : ℕ) (hj : j < 64)
    (hA : frobeniusNorm (A ^ 2 ^ j) ^ 2 ≤ 15 / 2 ^ 52) : ∃ P, solveLyapunov A Q = .ok P := by
  rw [frobeniusNorm_eq] at hA
  rw [solveLyapunov_eq A Q hQ]
  have hstop : ‖lyapunovSum A Q (2 ^ (j + 1)) - lyapunovSum A Q (2 ^ j)‖ ≤
      30 / 2 ^ 52 * max ‖lyapunovSum A Q (2 ^ (j + 1))‖ 1 := by
    set S := lyapunovSum A Q (2 ^ j)
    have hS : lyapunovSum A Q (2 ^ (j + 1)) - S = (A ^ 2 ^ j)ᵀ * S * A ^ 2 ^ j := by
      rw [pow_succ 2 j, mul_two, lyapunovSum_add, add_sub_cancel_left]
    have hb : ‖lyapunovSum A Q (2 ^ (j + 1)) - S‖ ≤ 15 / 2 ^ 52 * ‖S‖ := by
      rw [hS]
      calc ‖(A ^ 2 ^ j)ᵀ * S * A ^ 2 ^ j‖ ≤ ‖(A ^ 2 ^ j)ᵀ * S‖ * ‖A ^ 2 ^ j‖ :=
            Matrix.frobenius_norm_mul _ _
        _ ≤ ‖(A ^ 2 ^ j)ᵀ‖ * ‖S‖ * ‖A ^ 2 ^ j‖ := by
            gcongr; exact Matrix.frobenius_norm_mul _ _
        _ = ‖A ^ 2 ^ j‖ ^ 2 * ‖S‖ := by rw [Matrix.frobenius_norm_transpose]; ring
        _ ≤ _ := by gcongr
    have htri : ‖S‖ ≤ ‖lyapunovSum A Q (2 ^ (j + 1))‖ + ‖lyapunovSum A Q (2 ^ (j + 1)) - S‖ := by
      have := norm_sub_le (lyapunovSum A Q (2 ^ (j + 1))) (lyapunovSum A Q (2 ^ (j + 1)) - S)
      rwa [sub_sub_cancel] at this
    have hm := le_max_left ‖lyapunovSum A Q (2 ^ (j + 1))‖ 1
    have hn := norm_nonneg S
    norm_num at hb ⊢
    nlinarith
  have key : ∀ d i, i + d = j → ∃ P, lyapunovLoop (64 - i) (lyapunovSum A Q (2 ^ i)) (A ^ 2 ^ i) = .ok P := by
    intro d
    induction d with
    | zero =>
      intro i hi
      obtain rfl : i = j := hi
      rw [show 64 - i = (64 - i - 1) + 1 by omega, lyapunovLoop_succ A Q hQ, if_pos hstop]
      exact ⟨_, rfl⟩
    | succ d ih =>
      intro i hi
      rw [show 64 - i = (64 - (i + 1)) + 1 by omega, lyapunovLoop_succ A Q hQ]
      split_ifs
      · exact ⟨_, rfl⟩
      · exact ih (i + 1) (by omega)
  exact key j 0 (by omega)

/-- Halving shrinks: the sixth doubling is far below rounding. -/
example : ∃ P, solveLyapunov (Matrix.of ![![(1 / 2 : ℝ)]]) 1 = .ok P := by
  refine lyapunov_answers _ _ (by simp [Matrix.IsSymm]) 6 (by norm_num) ?_
  have : (Matrix.of ![![(1 / 2 : ℝ)]]) = (1 / 2 : ℝ) • (1 : Matrix (Fin 1) (Fin 1) ℝ) := by
    ext i j; fin_cases i; fin_cases j; simp
  rw [this, smul_pow, one_pow, frobeniusNorm_sq]
  simp
  norm_num

/-- C37. The energy `xᵀPx` of the returned certificate changes over one step of `A` by exactly minus
the state cost plus the next term of the series; so it goes down on every step where that term is
below the state cost.  Missing for the documented claim: that the term is small, which the settling
test does not ensure. -/
theorem lyapunov_energy_partial (A Q P : Matrix (Fin n) (Fin n) ℝ) (hQ : Q.IsSymm)
    (h : solveLyapunov A Q = .ok P) :
    ∃ j, 1 ≤ j ∧ j ≤ 64 ∧ ∀ x : Fin n → ℝ,
      vdot (mmulVec A x) (mmulVec P (mmulVec A x)) = vdot x (mmulVec P x) - vdot x (mmulVec Q x) +
        vdot (mmulVec (A ^ 2 ^ j) x) (mmulVec Q (mmulVec (A ^ 2 ^ j) x)) := by
  obtain ⟨j, h1, h2, -, -, h3, -⟩ := lyapunov_result A Q P hQ h
  refine ⟨j, h1, h2, fun x => ?_⟩
  simp only [vdot_eq, mmulVec_eq]
  have hq : ∀ B M : Matrix (Fin n) (Fin n) ℝ, (B *ᵥ x) ⬝ᵥ M *ᵥ (B *ᵥ x) = x ⬝ᵥ (Bᵀ * M * B) *ᵥ x := by
    intro B M
    rw [← Matrix.mulVec_mulVec, ← Matrix.mulVec_mulVec, Matrix.dotProduct_mulVec x,
      ← Matrix.mulVec_transpose, Matrix.transpose_transpose]
  rw [hq, hq, Matrix.transpose_pow, ← h3, ← dotProduct_sub, ← Matrix.sub_mulVec, ← dotProduct_add,
    ← Matrix.add_mulVec]
  congr 2
  abel

example : ∃ P, solveLyapunov (0 : Matrix (Fin 2) (Fin 2) ℝ) 1 = .ok P :=
  lyapunov_answers _ _ (by simp [Matrix.IsSymm]) 0 (by norm_num) (by
    rw [frobeniusNorm_sq]; simp; norm_num)

theorem symmetrized_symm (w : Matrix (Fin n) (Fin n) ℝ) : (symmetrized w).IsSymm := by
  ext i j
  rw [Matrix.transpose_apply, (symmetrized_spec w).1, (symmetrized_spec w).1, add_comm]

theorem riccatiLoop_symm (largest : ℝ) : ∀ (k : ℕ) (s c g P : Matrix (Fin n) (Fin n) ℝ),
    (0 < k ∨ c.IsSymm) → riccatiLoop largest k s c g = .ok P → P.IsSymm := by
  intro k
  induction k with
  | zero =>
    intro s c g P hc h
    simp only [riccatiLoop, Except.ok.injEq] at h
    subst h
    simpa using hc
  | succ k ih =>
    intro s c g P _ h
    rw [riccatiLoop] at h
    split at h
    · simp at h
    dsimp only at h
    split at h
    · simp at h
    split at h
    · simp only [Except.ok.injEq] at h
      subst h
      exact symmetrized_symm _
    · exact ih _ _ _ _ (Or.inr (symmetrized_symm _)) h

theorem solveRiccati_symm {largest : ℝ} {A : Matrix (Fin n) (Fin n) ℝ} {B : Matrix (Fin n) (Fin m) ℝ}
    {Q : Matrix (Fin n) (Fin n) ℝ} {R : Matrix (Fin m) (Fin m) ℝ} {P : Matrix (Fin n) (Fin n) ℝ}
    (h : solveRiccati largest A B Q R = .ok P) : P.IsSymm := by
  unfold solveRiccati at h
  split at h
  · simp at h
  split at h
  · simp at h
  split at h
  · simp at h
  split at h
  · simp at h
  next cost' hc =>
  split at h
  · simp at h
  dsimp only at h
  split at h
  · simp at h
  simp only [Except.ok.injEq] at h
  subst h
  exact riccatiLoop_symm largest 64 _ _ _ _ (Or.inl (by norm_num)) hc

/-- C37. `Lqr::new` returns a gain with `(R + BᵀPB) K = BᵀPA`, the closed loop `A - BK`, and a
cost-to-go whose Riccati residual is within the check; `control` is `-K x`. -/
theorem lqr_new_spec (largest : ℝ) (A : Matrix (Fin n) (Fin n) ℝ) (B : Matrix (Fin n) (Fin m) ℝ)
    (Q : Matrix (Fin n) (Fin n) ℝ) (R : Matrix (Fin m) (Fin m) ℝ) (l : Lqr n m ℝ) (hR : R.IsSymm)
    (h : Lqr.new largest A B Q R = .ok l) :
    l.costToGo.IsSymm ∧
    (R + Bᵀ * l.costToGo * B) * l.gain = Bᵀ * l.costToGo * A ∧
    l.closedLoop = A - B * l.gain ∧ l.stateCost = Q ∧
    frobeniusNorm (Aᵀ * l.costToGo * A - l.costToGo -
      (Bᵀ * l.costToGo * A)ᵀ * (R + Bᵀ * l.costToGo * B)⁻¹ * (Bᵀ * l.costToGo * A) + Q) ≤
      Real.sqrt (1 / 2 ^ 52) * max (frobeniusNorm l.costToGo) 1 ∧
    (∀ x, l.control x = fun i => -∑ j, l.gain i j * x j) ∧
    (∀ x ref ff, l.controlTracking x ref ff = fun i => ff i - ∑ j, l.gain i j * (x j - ref j)) := by
  unfold Lqr.new at h
  split at h
  · simp at h
  next cost hcost =>
  dsimp only at h
  split at h
  · simp at h
  next factor hfactor =>
  simp only [Except.ok.injEq] at h
  subst h
  have hP : cost.IsSymm := solveRiccati_symm hcost
  simp only [mmul_eq] at hfactor
  have e1 : ∀ {p q : ℕ} (x y : Matrix (Fin p) (Fin q) ℝ), madd x y = x + y := fun _ _ => rfl
  have e2 : ∀ {p q : ℕ} (x y : Matrix (Fin p) (Fin q) ℝ), msub x y = x - y := fun _ _ => rfl
  have e4 : ∀ {p q : ℕ} (x : Matrix (Fin p) (Fin q) ℝ), mtranspose x = xᵀ := fun _ => rfl
  rw [e1, e4] at hfactor
  have hsym : (R + Bᵀ * cost * B).IsSymm := by
    rw [Matrix.IsSymm, Matrix.transpose_add, hR.eq, Matrix.transpose_mul, Matrix.transpose_mul,
      Matrix.transpose_transpose, hP.eq, Matrix.mul_assoc]
  have hf := cholesky_factors (k := n) _ _ hsym hfactor
  have hsolve : ∀ M : Matrix (Fin m) (Fin n) ℝ, (R + Bᵀ * cost * B) * choleskySolveMatrix factor M = M := by
    intro M
    have := hf.2.2.2.2.1 M
    rwa [mmul_eq] at this
  have hunit : IsUnit (R + Bᵀ * cost * B).det := isUnit_iff_ne_zero.2 hf.2.2.2.2.2.2.1.ne'
  have hinv : ∀ M : Matrix (Fin m) (Fin n) ℝ,
      choleskySolveMatrix factor M = (R + Bᵀ * cost * B)⁻¹ * M := by
    intro M
    have := congrArg ((R + Bᵀ * cost * B)⁻¹ * ·) (hsolve M)
    simp only [← Matrix.mul_assoc, Matrix.nonsing_inv_mul _ hunit, Matrix.one_mul] at this
    exact this
  simp only [mmul_eq, e4]
  refine ⟨hP, hsolve _, rfl, trivial, ?_, ?_, ?_⟩
  · unfold solveRiccati at hcost
    split at hcost
    · simp at hcost
    split at hcost
    · simp at hcost
    split at hcost
    · simp at hcost
    split at hcost
    · simp at hcost
    next cost' _ =>
    split at hcost
    · simp at hcost
    next factor' hf' =>
    dsimp only at hcost
    split at hcost
    · simp at hcost
    next hres =>
    simp only [Except.ok.injEq] at hcost
    subst hcost
    simp only [mmul_eq, e1, e4] at hf'
    rw [hfactor] at hf'
    simp only [Except.ok.injEq] at hf'
    subst hf'
    simp only [real_mIsFinite, Bool.not_true, Bool.false_or, decide_eq_true_eq, not_lt] at hres
    simp only [riccatiResidual, mmul_eq, e1, e2, e4, hinv, ← Matrix.mul_assoc, real_sqrt] at hres
    simpa [Matrix.mul_assoc, Fns.epsilon] using hres
  · intro x
    funext i
    simp only [Lqr.control, vneg, mmulVec_eq, Matrix.mulVec, dotProduct]
  · intro x ref ff
    funext i
    simp only [Lqr.controlTracking, vsub, mmulVec_eq, Matrix.mulVec, dotProduct]

/-- A diagonal system that doubles its second coordinate and cannot be steered. -/
noncomputable def certA : Matrix (Fin 2) (Fin 2) ℝ := !![0, 0; 0, 2]
/-- A positive definite cost that weighs the first coordinate far more than the second. -/
noncomputable def certQ : Matrix (Fin 2) (Fin 2) ℝ := !![2 ^ 60, 0; 0, 1]
/-- The certificate handed back. -/
noncomputable def certP : Matrix (Fin 2) (Fin 2) ℝ := !![2 ^ 60, 0; 0, 5]

theorem certQ_symm : certQ.IsSymm := by
  ext i j; fin_cases i <;> fin_cases j <;> simp [certQ]

theorem certP_symm : certP.IsSymm := by
  ext i j; fin_cases i <;> fin_cases j <;> simp [certP]

theorem certP_norm : (2 : ℝ) ^ 60 ≤ frobeniusNorm certP := by
  rw [frobeniusNorm_sq]
  apply Real.le_sqrt_of_sq_le
  simp [Fin.sum_univ_two, certP]
  norm_num

theorem cert_increment : certAᵀ * certQ * certA = !![0, 0; 0, 4] := by
  ext i j; fin_cases i <;> fin_cases j <;> simp [certA, certQ, Matrix.mul_apply, Fin.sum_univ_two] <;>
    norm_num

theorem cert_settled : frobeniusNorm (certAᵀ * certQ * certA) ≤ 30 / 2 ^ 52 * max (frobeniusNorm certP) 1 := by
  have h4 : frobeniusNorm (certAᵀ * certQ * certA) = 4 := by
    rw [cert_increment, frobeniusNorm_sq]
    simp [Fin.sum_univ_two]
  rw [h4]
  have := le_trans certP_norm (le_max_left _ 1)
  calc (4 : ℝ) ≤ 30 / 2 ^ 52 * 2 ^ 60 := by norm_num
    _ ≤ _ := by gcongr

theorem cert_total : certQ + certAᵀ * certQ * certA = certP := by
  rw [cert_increment]
  ext i j; fin_cases i <;> fin_cases j <;> simp [certP, certQ] <;> norm_num

theorem cert_lyapunov : solveLyapunov certA certQ = .ok certP := by
  rw [solveLyapunov_eq _ _ certQ_symm, lyapunovLoop_succ _ _ certQ_symm]
  have h1 : lyapunovSum certA certQ (2 ^ 0) = certQ := by simp [lyapunovSum]
  have h2 : lyapunovSum certA certQ (2 ^ (0 + 1)) = certP := by
    rw [← cert_total]; simp [lyapunovSum, Finset.sum_range_succ]
  rw [h1, h2, if_pos]
  rw [← frobeniusNorm_eq, ← frobeniusNorm_eq]
  have : certP - certQ = certAᵀ * certQ * certA := by rw [← cert_total]; abel
  rw [this]
  exact cert_settled

theorem cholesky_ok_of_pd (A : Matrix (Fin n) (Fin n) ℝ) (hA : A.IsSymm)
    (h : ∀ x : Fin n → ℝ, x ≠ 0 → 0 < x ⬝ᵥ A *ᵥ x) : ∃ L, cholesky A = .ok L := by
  apply (cholesky_iff_positive_definite A hA).1.2
  simpa only [vdot_eq, mmulVec_eq] using h

theorem cert_chol_one : ∃ L, cholesky (1 : Matrix (Fin 1) (Fin 1) ℝ) = .ok L ∧
    ∀ k, choleskySolveMatrix L (0 : Matrix (Fin 1) (Fin k) ℝ) = 0 := by
  obtain ⟨L, hL⟩ := cholesky_ok_of_pd (1 : Matrix (Fin 1) (Fin 1) ℝ) (by simp [Matrix.IsSymm]) (by
    intro x hx
    rw [Matrix.one_mulVec]
    exact lt_of_le_of_ne (Finset.sum_nonneg fun i _ => mul_self_nonneg _) fun h => hx (by
      simp only [dotProduct, Fin.sum_univ_one] at h
      funext i
      rw [Subsingleton.elim i 0]
      exact mul_self_eq_zero.1 h.symm))
  refine ⟨L, hL, fun k => ?_⟩
  have := (cholesky_factors (k := k) _ _ (by simp [Matrix.IsSymm]) hL).2.2.2.2.1 0
  rwa [mmul_eq, Matrix.one_mul] at this

theorem cert_chol_P : ∃ L, cholesky certP = .ok L := by
  refine cholesky_ok_of_pd _ certP_symm fun x hx => ?_
  have e : x ⬝ᵥ certP *ᵥ x = 2 ^ 60 * x 0 ^ 2 + 5 * x 1 ^ 2 := by
    simp [dotProduct, Matrix.mulVec, Fin.sum_univ_two, certP]; ring
  rw [e]
  have h : x 0 ≠ 0 ∨ x 1 ≠ 0 := by
    by_contra hcon
    push Not at hcon
    exact hx (by funext i; fin_cases i; exacts [hcon.1, hcon.2])
  rcases h with h | h
  · have := pow_pos (abs_pos.2 h) 2; rw [sq_abs] at this; positivity
  · have := pow_pos (abs_pos.2 h) 2; rw [sq_abs] at this; positivity

theorem cert_new (largest : ℝ) : Lqr.new largest certA (0 : Matrix (Fin 2) (Fin 1) ℝ) certQ 1 =
    .ok ⟨0, certA, certP, certQ⟩ := by
  obtain ⟨L, hL, hL0⟩ := cert_chol_one
  have e1 : ∀ {p q : ℕ} (x y : Matrix (Fin p) (Fin q) ℝ), madd x y = x + y := fun _ _ => rfl
  have e2 : ∀ {p q : ℕ} (x y : Matrix (Fin p) (Fin q) ℝ), msub x y = x - y := fun _ _ => rfl
  have e4 : ∀ {p q : ℕ} (x : Matrix (Fin p) (Fin q) ℝ), mtranspose x = xᵀ := fun _ => rfl
  have hinv : minverse largest (1 : Matrix (Fin 2) (Fin 2) ℝ) = .ok 1 := by
    have hm : maxAbs (1 : Matrix (Fin 2) (Fin 2) ℝ) = 1 := by
      simp [maxAbs, List.finRange_succ, Fns.abs]
    simp only [minverse, inverse2, detNearSingular, hm, determinant2, powi_eq_zpow]
    norm_num [Fns.abs, Fns.epsilon]
    congr 1
    ext i j; fin_cases i <;> fin_cases j <;> simp
  have hric : solveRiccati largest certA (0 : Matrix (Fin 2) (Fin 1) ℝ) certQ 1 = .ok certP := by
    have hloop : riccatiLoop largest 64 certA certQ 0 = .ok certP := by
      rw [riccatiLoop]
      simp only [mmul_eq, e1, e4, midentity_eq, Matrix.zero_mul, add_zero, hinv, Matrix.one_mul,
        Matrix.mul_zero, real_mIsFinite, real_isFinite, cert_total, epsilonX30_real]
      have hs : symmetrized (certQ + certAᵀ * certQ * certA) = certP := by
        rw [cert_total, (symmetrized_spec _).2.1 certP_symm]
      simp only [(symmetrized_spec _).2.1 certP_symm, cert_settled]
      simp
    unfold solveRiccati
    have h1 : isSymmetric (1 : Matrix (Fin 1) (Fin 1) ℝ) = true :=
      (symmetrized_spec _).2.2 (by simp [Matrix.IsSymm])
    simp only [real_mIsFinite, (symmetrized_spec _).2.2 certQ_symm, h1, hL, mmul_eq, e4,
      Matrix.zero_mul, hloop, e1, Matrix.mul_zero, add_zero, Bool.not_true, Bool.or_self,
      Bool.false_eq_true, if_false, Bool.false_or, decide_eq_true_eq]
    rw [if_neg]
    rw [not_lt]
    have hr : riccatiResidual certA (0 : Matrix (Fin 2) (Fin 1) ℝ) certQ certP L = !![0, 0; 0, 16] := by
      simp only [riccatiResidual, mmul_eq, e1, e2, e4, Matrix.transpose_zero, Matrix.zero_mul]
      ext i j; fin_cases i <;> fin_cases j <;>
        simp [certA, certQ, certP, Matrix.mul_apply, Fin.sum_univ_two] <;> norm_num
    have hn : frobeniusNorm (!![0, 0; 0, 16] : Matrix (Fin 2) (Fin 2) ℝ) = 16 := by
      rw [frobeniusNorm_sq]
      simp [Fin.sum_univ_two]
    rw [hr, hn]
    have hsq : Fns.sqrt (Fns.epsilon : ℝ) = 1 / 2 ^ 26 := by
      rw [real_sqrt, show (Fns.epsilon : ℝ) = (1 / 2 ^ 26) ^ 2 by norm_num [Fns.epsilon]]
      exact Real.sqrt_sq (by positivity)
    rw [hsq]
    have := le_trans certP_norm (le_max_left _ 1)
    calc (16 : ℝ) ≤ 1 / 2 ^ 26 * 2 ^ 60 := by norm_num
      _ ≤ _ := by gcongr
  unfold Lqr.new
  simp only [hric, mmul_eq, e1, e2, e4, Matrix.transpose_zero, Matrix.zero_mul, add_zero, hL, hL0,
    sub_zero]

/-- C37 (finding). `certify_stability` certifies a loop that does not settle: with
`A = diag(0, 2)`, no input authority and the positive definite cost `diag(2^60, 1)`, the design and
the certificate both succeed, while the closed loop doubles its second coordinate at every step. -/
theorem lqr_certifies_unstable (largest : ℝ) :
    ∃ l, Lqr.new largest !![0, 0; 0, 2] (0 : Matrix (Fin 2) (Fin 1) ℝ) !![2 ^ 60, 0; 0, 1] 1 = .ok l ∧
      (∃ P, l.certifyStability = .ok P) ∧
      ∀ k : ℕ, (l.closedLoop ^ k *ᵥ ![0, 1]) 1 = 2 ^ k := by
  refine ⟨_, cert_new largest, ?_, ?_⟩
  · obtain ⟨L, hL⟩ := cert_chol_P
    refine ⟨certP, ?_⟩
    simp only [Lqr.certifyStability, cert_lyapunov, hL]
  · intro k
    have : certA ^ k *ᵥ ![0, 1] = ![0, 2 ^ k] := by
      induction k with
      | zero => simp
      | succ k ih =>
        rw [pow_succ', ← Matrix.mulVec_mulVec, ih]
        funext i
        fin_cases i
        · simp [certA, Matrix.mulVec, dotProduct, Fin.sum_univ_two]
        · simp [certA, Matrix.mulVec, dotProduct, Fin.sum_univ_two, pow_succ']
    rw [this]
    simp

/-- The design theorem applies to the system above. -/
example : ∃ l, Lqr.new 0 certA (0 : Matrix (Fin 2) (Fin 1) ℝ) certQ 1 = .ok l := ⟨_, cert_new 0⟩

/-- C37. A certificate that is handed back is symmetric and positive definite. -/
theorem certify_stability_posdef (l : Lqr n m ℝ) (hQ : l.stateCost.IsSymm)
    (P : Matrix (Fin n) (Fin n) ℝ) (h : l.certifyStability = .ok P) :
    solveLyapunov l.closedLoop l.stateCost = .ok P ∧ P.IsSymm ∧
      ∀ x : Fin n → ℝ, x ≠ 0 → 0 < vdot x (mmulVec P x) := by
  unfold Lqr.certifyStability at h
  split at h
  · simp at h
  next c hc =>
  split at h
  · simp at h
  next L hL =>
  simp only [Except.ok.injEq] at h
  subst h
  obtain ⟨j, -, -, -, hs, -⟩ := lyapunov_result _ _ _ hQ hc
  exact ⟨hc, hs, (cholesky_iff_positive_definite _ hs).1.1 ⟨L, hL⟩⟩

end Multicalc
