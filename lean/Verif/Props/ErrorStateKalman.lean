import Verif.Model.ErrorStateKalman
import Verif.Model.XR
import Verif.Props.Kalman
import Verif.Props.Attitude
import Verif.Props.Eigen
import Verif.Props.Slerp
import Verif.Props.Rigid
import Verif.Props.LieJacobian
import Verif.Props.Autodiff

/-!
# The error-state Kalman filter (C102)
-/

namespace Multicalc

open Matrix

variable {m : ℕ}

/-! ### The fifteen error numbers in five groups -/

/-- Entry `i` of the group `p` of the error: position, velocity, rotation, turn-rate offset, push offset. -/
def errIx (p : Fin 5) (i : Fin 3) : Fin 15 := ⟨3 * p + i, by omega⟩

/-- The group `p` of an error. -/
def errGroup {T : Type} (e : Fin 15 → T) (p : Fin 5) : Fin 3 → T := fun i => e (errIx p i)

theorem errIx_sum (f : Fin 15 → ℝ) : ∑ j, f j = ∑ q, ∑ k, f (errIx q k) := by
  rw [← Fintype.sum_prod_type' (f := fun q k => f (errIx q k))]
  refine (Fintype.sum_equiv (finProdFinEquiv (m := 5) (n := 3)) _ _ fun x => ?_).symm
  congr 1
  apply Fin.ext
  simp [errIx, finProdFinEquiv]
  omega

theorem err_ext {T : Type} {a b : Fin 15 → T} (h : ∀ p, errGroup a p = errGroup b p) : a = b := by
  funext j
  have := congrFun (h ⟨j / 3, by omega⟩) ⟨j % 3, by omega⟩
  have e : errIx ⟨j / 3, by omega⟩ ⟨j % 3, by omega⟩ = j := by
    apply Fin.ext; simp only [errIx]; omega
  simpa only [errGroup, e] using this

theorem writeBlock_ix {T : Type} (M : Matrix (Fin 15) (Fin 15) T) (a b : Fin 5) (B : Matrix (Fin 3) (Fin 3) T)
    (p q : Fin 5) (i k : Fin 3) : writeBlock M (3 * a) (3 * b) B (errIx p i) (errIx q k) =
      if p = a ∧ q = b then B i k else M (errIx p i) (errIx q k) := by
  unfold writeBlock
  by_cases h : p = a ∧ q = b
  · obtain ⟨rfl, rfl⟩ := h
    rw [dif_pos (by simp only [errIx]; omega), if_pos ⟨rfl, rfl⟩]
    congr 1 <;> (apply Fin.ext; simp [errIx])
  · rw [dif_neg (by simp only [errIx]; intro h'; apply h; constructor <;> apply Fin.ext <;> omega), if_neg h]

theorem one_ix (p q : Fin 5) (i k : Fin 3) : (midentity 15 : Matrix (Fin 15) (Fin 15) ℝ) (errIx p i) (errIx q k) =
    if p = q then (1 : Matrix (Fin 3) (Fin 3) ℝ) i k else 0 := by
  rw [midentity_eq]
  simp only [Matrix.one_apply]
  have : errIx p i = errIx q k ↔ p = q ∧ i = k := by
    simp only [errIx, Fin.ext_iff]; omega
  simp only [this]
  split_ifs <;> simp_all

/-- The transition with its five written blocks. -/
noncomputable def blockTransition (C A B D E : Matrix (Fin 3) (Fin 3) ℝ) : Matrix (Fin 15) (Fin 15) ℝ :=
  writeBlock (writeBlock (writeBlock (writeBlock (writeBlock (midentity 15) 0 3 C) 3 6 A) 3 12 B) 6 6 D) 6 9 E

theorem blockTransition_ix (C A B D E : Matrix (Fin 3) (Fin 3) ℝ) (p q : Fin 5) (i k : Fin 3) :
    blockTransition C A B D E (errIx p i) (errIx q k) =
      if p = 2 ∧ q = 3 then E i k else if p = 2 ∧ q = 2 then D i k else if p = 1 ∧ q = 4 then B i k
      else if p = 1 ∧ q = 2 then A i k else if p = 0 ∧ q = 1 then C i k
      else if p = q then (1 : Matrix (Fin 3) (Fin 3) ℝ) i k else 0 := by
  unfold blockTransition
  rw [← one_ix]
  have h := fun M (a b : Fin 5) B => writeBlock_ix (T := ℝ) M a b B p q i k
  have e1 := fun M => h M 2 3 E
  have e2 := fun M => h M 2 2 D
  have e3 := fun M => h M 1 4 B
  have e4 := fun M => h M 1 2 A
  have e5 := fun M => h M 0 1 C
  norm_num at e1 e2 e3 e4 e5
  rw [e1, e2, e3, e4, e5]

theorem blockTransition_vec (C A B D E : Matrix (Fin 3) (Fin 3) ℝ) (v : Fin 15 → ℝ) :
    let F := blockTransition C A B D E
    errGroup (F *ᵥ v) 0 = errGroup v 0 + C *ᵥ errGroup v 1 ∧
    errGroup (F *ᵥ v) 1 = errGroup v 1 + A *ᵥ errGroup v 2 + B *ᵥ errGroup v 4 ∧
    errGroup (F *ᵥ v) 2 = D *ᵥ errGroup v 2 + E *ᵥ errGroup v 3 ∧
    errGroup (F *ᵥ v) 3 = errGroup v 3 ∧ errGroup (F *ᵥ v) 4 = errGroup v 4 := by
  intro F
  have h : ∀ p i, errGroup (F *ᵥ v) p i = ∑ q, ∑ k, F (errIx p i) (errIx q k) * v (errIx q k) := by
    intro p i
    simp only [errGroup, mulVec, dotProduct]
    exact errIx_sum _
  have h1 : ∀ (w : Fin 3 → ℝ) i, ∑ k, (1 : Matrix (Fin 3) (Fin 3) ℝ) i k * w k = w i := by
    intro w i
    have := congrFun (Matrix.one_mulVec w) i
    simpa only [mulVec, dotProduct] using this
  have h2 : ∀ p i, v (errIx p i) = errGroup v p i := fun _ _ => rfl
  refine ⟨?_, ?_, ?_, ?_, ?_⟩ <;> funext i <;> rw [h] <;>
    simp [F, blockTransition_ix, Fin.sum_univ_five, h1, h2, mulVec, dotProduct]

theorem blockTransition_vecMul (C A B D E : Matrix (Fin 3) (Fin 3) ℝ) (v : Fin 15 → ℝ) :
    let F := (blockTransition C A B D E)ᵀ
    errGroup (F *ᵥ v) 0 = errGroup v 0 ∧
    errGroup (F *ᵥ v) 1 = errGroup v 1 + Cᵀ *ᵥ errGroup v 0 ∧
    errGroup (F *ᵥ v) 2 = Aᵀ *ᵥ errGroup v 1 + Dᵀ *ᵥ errGroup v 2 ∧
    errGroup (F *ᵥ v) 3 = errGroup v 3 + Eᵀ *ᵥ errGroup v 2 ∧
    errGroup (F *ᵥ v) 4 = errGroup v 4 + Bᵀ *ᵥ errGroup v 1 := by
  intro F
  have h : ∀ p i, errGroup (F *ᵥ v) p i =
      ∑ q, ∑ k, blockTransition C A B D E (errIx q k) (errIx p i) * v (errIx q k) := by
    intro p i
    simp only [errGroup, mulVec, dotProduct]
    exact errIx_sum _
  have h1 : ∀ (w : Fin 3 → ℝ) i, ∑ k, (1 : Matrix (Fin 3) (Fin 3) ℝ) k i * w k = w i := by
    intro w i
    have := congrFun (Matrix.one_mulVec w) i
    rw [← Matrix.transpose_one] at this
    simpa only [mulVec, dotProduct, Matrix.transpose_apply] using this
  have h2 : ∀ p i, v (errIx p i) = errGroup v p i := fun _ _ => rfl
  refine ⟨?_, ?_, ?_, ?_, ?_⟩ <;> funext i <;> rw [h] <;>
    simp [blockTransition_ix, Fin.sum_univ_five, h1, h2, mulVec, dotProduct, Matrix.transpose_apply] <;> ring

/-- A positive definite matrix carried through an injective transpose stays positive definite. -/
theorem Pd.sandwich {n k : ℕ} {A : Matrix (Fin n) (Fin n) ℝ} (ha : Pd A) (F : Matrix (Fin k) (Fin n) ℝ)
    (hF : ∀ x, Fᵀ *ᵥ x = 0 → x = 0) : Pd (F * A * Fᵀ) := by
  refine ⟨(ha.psd.sandwich F).1, fun x hx => ?_⟩
  have e : x ⬝ᵥ (F * A * Fᵀ) *ᵥ x = (Fᵀ *ᵥ x) ⬝ᵥ A *ᵥ (Fᵀ *ᵥ x) := by
    rw [← mulVec_mulVec, ← mulVec_mulVec, dotProduct_mulVec, ← mulVec_transpose]
  rw [e]
  exact ha.2 _ fun h => hx (hF x h)

theorem Pd.add_psd {n : ℕ} {A B : Matrix (Fin n) (Fin n) ℝ} (ha : Pd A) (hb : Psd B) : Pd (A + B) := by
  rw [add_comm]; exact hb.add_pd ha

/-! ### Rotations that are unit only up to the small-angle series -/

theorem toMatrix_vec (q : SO3 ℝ) (v : Fin 3 → ℝ) :
    q.toMatrix *ᵥ v = fun i => q.act v i + (1 - q.quaternion.normSquared) * v i := by
  funext i
  fin_cases i <;>
    simp [SO3.toMatrix, Quat.toRotationMatrix, SO3.act, transformPoint_explicit, mulVec, dotProduct,
      Fin.sum_univ_three, Quat.normSquared] <;> ring

theorem toMatrix_transpose (q : SO3 ℝ) : q.toMatrixᵀ = q.inverse.toMatrix := by
  ext i j
  fin_cases i <;> fin_cases j <;>
    simp [SO3.toMatrix, Quat.toRotationMatrix, SO3.inverse, Quat.conjugate] <;> ring

theorem act_normSq (q : SO3 ℝ) (v : Fin 3 → ℝ) :
    vdot (q.act v) (q.act v) = q.quaternion.normSquared ^ 2 * vdot v v := by
  simp [SO3.act, transformPoint_explicit, vdot3, Quat.normSquared]; ring

/-- The exponential of any rotation vector is a unit quaternion up to the fourth power of the small-angle switch. -/
theorem exp_normSq (φ : Fin 3 → ℝ) :
    1 - 1 / 2 ^ 195 ≤ (SO3.exp φ).quaternion.normSquared ∧ (SO3.exp φ).quaternion.normSquared ≤ 1 := by
  by_cases h : 30 / 2 ^ 52 ≤ vnorm φ
  · have h1 := ((exp_spec φ).1 h).1
    have h2 : (SO3.exp φ).quaternion.normSquared = 1 := by
      rw [Quat.IsUnit] at h1
      simp only [SO3.exp, Quat.normSquared]
      linarith
    rw [h2]
    norm_num
  · push Not at h
    have h0 := vnorm_nonneg φ
    have hsq : φ 0 * φ 0 + φ 1 * φ 1 + φ 2 * φ 2 = vnorm φ ^ 2 := by rw [sq, vnorm_sq, vdot3]
    have e : (SO3.exp φ).quaternion.normSquared =
        1 - (vnorm φ ^ 2) ^ 2 / 192 + (vnorm φ ^ 2) ^ 3 / 2304 := by
      rw [SO3.exp, fromScaledAxis_small h]
      simp only [Quat.normSquared]
      linear_combination ((1 / 2 - vnorm φ ^ 2 / 48) ^ 2) * hsq
    rw [e]
    have hs0 : 0 ≤ vnorm φ ^ 2 := sq_nonneg _
    have hs1 : vnorm φ ^ 2 ≤ (30 / 2 ^ 52) ^ 2 := pow_le_pow_left₀ h0 h.le 2
    have hs2 : (vnorm φ ^ 2) ^ 2 ≤ ((30 / 2 ^ 52) ^ 2) ^ 2 := pow_le_pow_left₀ hs0 hs1 2
    have h3 : 0 ≤ (vnorm φ ^ 2) ^ 3 := pow_nonneg hs0 3
    constructor
    · have : ((30 / 2 ^ 52 : ℝ) ^ 2) ^ 2 / 192 ≤ 1 / 2 ^ 195 := by norm_num
      nlinarith
    · have : (vnorm φ ^ 2) ^ 3 ≤ (vnorm φ ^ 2) ^ 2 := by
        have : vnorm φ ^ 2 ≤ 1 := le_trans hs1 (by norm_num)
        nlinarith [sq_nonneg (vnorm φ ^ 2)]
      nlinarith [sq_nonneg (vnorm φ ^ 2)]

theorem toMatrix_injective (q : SO3 ℝ) (h : 1 / 2 < q.quaternion.normSquared) (x : Fin 3 → ℝ)
    (hx : q.toMatrixᵀ *ᵥ x = 0) : x = 0 := by
  rw [toMatrix_transpose, toMatrix_vec] at hx
  have hn : q.inverse.quaternion.normSquared = q.quaternion.normSquared := by
    simp [SO3.inverse, Quat.conjugate, Quat.normSquared]
  have e := act_normSq q.inverse x
  have hi : ∀ i, q.inverse.act x i = -((1 - q.quaternion.normSquared) * x i) := fun i => by
    have := congrFun hx i
    rw [hn] at this
    simp only [Pi.zero_apply] at this
    linarith
  rw [vdot3, hi, hi, hi, vdot3, hn] at e
  have hz : x 0 * x 0 + x 1 * x 1 + x 2 * x 2 = 0 := by
    have : (2 * q.quaternion.normSquared - 1) * (x 0 * x 0 + x 1 * x 1 + x 2 * x 2) = 0 := by linear_combination -e
    rcases mul_eq_zero.1 this with h' | h'
    · linarith
    · exact h'
  funext i
  have := mul_self_nonneg (x 0)
  have := mul_self_nonneg (x 1)
  have := mul_self_nonneg (x 2)
  fin_cases i
  · exact mul_self_eq_zero.1 (show x 0 * x 0 = 0 by linarith)
  · exact mul_self_eq_zero.1 (show x 1 * x 1 = 0 by linarith)
  · exact mul_self_eq_zero.1 (show x 2 * x 2 = 0 by linarith)

namespace ErrorStateKalmanFilter

/-! ### The covariance through a prediction, a correction and a reset -/

/-- The noise a step of length `dt` puts on the diagonal. -/
noncomputable def stepNoise (noise : ImuNoise ℝ) (dt : ℝ) : Fin 15 → ℝ := fun i =>
  if i.val < 3 then 0
  else if i.val < 6 then (noise.accelerometerNoiseDensity * dt) ^ 2
  else if i.val < 9 then (noise.gyroscopeNoiseDensity * dt) ^ 2
  else if i.val < 12 then noise.gyroscopeBiasRandomWalk ^ 2 * dt
  else noise.accelerometerBiasRandomWalk ^ 2 * dt

theorem stepNoise_nonneg (noise : ImuNoise ℝ) {dt : ℝ} (h : 0 ≤ dt) (i : Fin 15) : 0 ≤ stepNoise noise dt i := by
  unfold stepNoise
  split_ifs <;> positivity

theorem psd_diagonal {n : ℕ} {d : Fin n → ℝ} (h : ∀ i, 0 ≤ d i) : Psd (Matrix.diagonal d) := by
  refine ⟨Matrix.diagonal_transpose d, fun x => ?_⟩
  simp only [dotProduct, Matrix.mulVec_diagonal]
  exact Finset.sum_nonneg fun i _ => by nlinarith [mul_nonneg (h i) (mul_self_nonneg (x i))]

theorem propagateCovariance_eq (f : ErrorStateKalmanFilter m ℝ) (F : Matrix (Fin 15) (Fin 15) ℝ) (dt : ℝ)
    (hP : f.covarianceᵀ = f.covariance) :
    f.propagateCovariance F dt = F * f.covariance * Fᵀ + Matrix.diagonal (stepNoise f.imuNoise dt) := by
  have hs : (F * f.covariance * Fᵀ + Matrix.diagonal (stepNoise f.imuNoise dt)).IsSymm := by
    rw [Matrix.IsSymm, transpose_add, transpose_mul, transpose_mul, transpose_transpose, hP, Matrix.mul_assoc,
      Matrix.diagonal_transpose]
  rw [← (symmetrized_spec _).2.1 hs]
  unfold propagateCovariance
  dsimp only
  congr 1
  rw [mmul_eq, mmul_eq, mtranspose_eq]
  ext i j
  simp only [addDiagonal, Matrix.add_apply, Matrix.diagonal_apply, stepNoise]
  by_cases hij : i = j
  · subst hij
    simp only [true_and, if_true]
    split_ifs <;> first | omega | ring
  · simp [hij]

theorem transition_blocks (f : ErrorStateKalmanFilter m ℝ) (gy ac : Fin 3 → ℝ) (dt : ℝ) :
    f.errorStateTransition gy ac dt = blockTransition (mscale (midentity 3) dt)
      (mneg (mscale (mmul f.nominalState.orientation.toMatrix
        (skew3 (vsub ac f.nominalState.accelerometerBias))) dt))
      (mneg (mscale f.nominalState.orientation.toMatrix dt))
      (SO3.exp (vscale (vneg (vsub gy f.nominalState.gyroscopeBias)) dt)).toMatrix
      (mscale (midentity 3) (-dt)) := rfl

theorem transition_injective (f : ErrorStateKalmanFilter m ℝ) (gy ac : Fin 3 → ℝ) (dt : ℝ) (x : Fin 15 → ℝ)
    (h : (f.errorStateTransition gy ac dt)ᵀ *ᵥ x = 0) : x = 0 := by
  rw [transition_blocks] at h
  obtain ⟨h0, h1, h2, h3, h4⟩ := blockTransition_vecMul _ _ _ _ _ x
  rw [h] at h0 h1 h2 h3 h4
  have z : ∀ p, errGroup (0 : Fin 15 → ℝ) p = 0 := fun p => rfl
  rw [z] at h0 h1 h2 h3 h4
  rw [← h0, mulVec_zero, add_zero] at h1
  rw [← h1, mulVec_zero, zero_add] at h2
  have h2' := toMatrix_injective _ (lt_of_lt_of_le (by norm_num) (exp_normSq _).1) _ h2.symm
  rw [h2', mulVec_zero, add_zero] at h3
  rw [← h1, mulVec_zero, add_zero] at h4
  apply err_ext
  intro p
  rw [z]
  fin_cases p
  · exact h0.symm
  · exact h1.symm
  · exact h2'
  · exact h3.symm
  · exact h4.symm

/-- The reset's matrix. -/
noncomputable def resetMatrix (error : Fin 15 → ℝ) : Matrix (Fin 15) (Fin 15) ℝ :=
  writeBlock (midentity 15) 6 6 (msub (midentity 3) (mscale (skew3 ![error 6, error 7, error 8]) half))

theorem reset_vecMul (D : Matrix (Fin 3) (Fin 3) ℝ) (v : Fin 15 → ℝ) (p : Fin 5) :
    errGroup ((writeBlock (midentity 15) 6 6 D)ᵀ *ᵥ v) p = if p = 2 then Dᵀ *ᵥ errGroup v 2 else errGroup v p := by
  have e : writeBlock (midentity 15) 6 6 D = blockTransition 0 0 0 D 0 := by
    ext a b
    obtain ⟨p, i, rfl⟩ : ∃ p i, a = errIx p i := ⟨⟨a / 3, by omega⟩, ⟨a % 3, by omega⟩, by
      apply Fin.ext; simp only [errIx]; omega⟩
    obtain ⟨q, k, rfl⟩ : ∃ q k, b = errIx q k := ⟨⟨b / 3, by omega⟩, ⟨b % 3, by omega⟩, by
      apply Fin.ext; simp only [errIx]; omega⟩
    have h := writeBlock_ix (midentity 15) 2 2 D p q i k
    norm_num at h
    rw [blockTransition_ix, h, one_ix]
    fin_cases p <;> fin_cases q <;> simp
  rw [e]
  obtain ⟨h0, h1, h2, h3, h4⟩ := blockTransition_vecMul 0 0 0 D 0 v
  fin_cases p
  · exact h0
  · simpa using h1
  · simpa using h2
  · simpa using h3
  · simpa using h4

theorem reset_injective (error x : Fin 15 → ℝ) (h : (resetMatrix error)ᵀ *ᵥ x = 0) : x = 0 := by
  have hv := reset_vecMul (msub (midentity 3) (mscale (skew3 ![error 6, error 7, error 8]) half)) x
  have h' : (writeBlock (midentity 15) 6 6
      (msub (midentity 3) (mscale (skew3 ![error 6, error 7, error 8]) half)))ᵀ *ᵥ x = 0 := h
  rw [h'] at hv
  have z : ∀ p, errGroup (0 : Fin 15 → ℝ) p = 0 := fun p => rfl
  apply err_ext
  intro p
  rw [z]
  by_cases hp : p = 2
  · subst hp
    have e := hv 2
    rw [z, if_pos rfl, midentity_eq] at e
    generalize errGroup x 2 = w at e
    have e0 := congrFun e 0
    have e1 := congrFun e 1
    have e2 := congrFun e 2
    simp [mulVec, dotProduct, Fin.sum_univ_three, msub, mscale, skew3, half_real, Matrix.transpose_apply] at e0 e1 e2
    have hz : w 0 * w 0 + w 1 * w 1 + w 2 * w 2 = 0 := by linear_combination - w 0 * e0 - w 1 * e1 - w 2 * e2
    have := mul_self_nonneg (w 0)
    have := mul_self_nonneg (w 1)
    have := mul_self_nonneg (w 2)
    funext i
    fin_cases i
    · exact mul_self_eq_zero.1 (show w 0 * w 0 = 0 by linarith)
    · exact mul_self_eq_zero.1 (show w 1 * w 1 = 0 by linarith)
    · exact mul_self_eq_zero.1 (show w 2 * w 2 = 0 by linarith)
  · have e := hv p
    rw [z, if_neg hp] at e
    exact e.symm

theorem inject_covariance (f : ErrorStateKalmanFilter m ℝ) (error : Fin 15 → ℝ) :
    (f.injectErrorAndReset error).covariance = resetMatrix error * f.covariance * (resetMatrix error)ᵀ := by
  unfold injectErrorAndReset
  dsimp only
  rw [mmul_eq, mmul_eq, mtranspose_eq]
  rfl

theorem real_state_isFinite (s : NominalState ℝ) : s.isFinite = true := by
  unfold NominalState.isFinite
  simp only [real_vIsFinite]
  rfl

/-- A body turned about the vertical, moving and with offsets, of unit covariance. -/
noncomputable def demoEskf : ErrorStateKalmanFilter 3 ℝ :=
  ErrorStateKalmanFilter.new ⟨![1, 2, 3], ![4, 5, 6], ⟨⟨3 / 5, 0, 0, 4 / 5⟩⟩, ![1, 0, 0], ![0, 1, 0]⟩ 1 ⟨1, 2, 3, 4⟩ 1

theorem demoEskf_pd : Pd demoEskf.covariance ∧ Pd demoEskf.measurementNoise ∧ Psd demoEskf.covariance :=
  ⟨pd_one, pd_one, pd_one.psd⟩

theorem demoEskf_unit : demoEskf.nominalState.orientation.quaternion.IsUnit := by
  show Quat.IsUnit (⟨3 / 5, 0, 0, 4 / 5⟩ : Quat ℝ)
  norm_num [Quat.IsUnit]

/-- C102. A prediction never fails on real readings.  It moves the state by `propagated`, carries the covariance to
`F P Fᵀ` plus the noise of the step, `(density · dt)²` on the velocity and rotation groups and `walk² · dt` on the two
offset groups, and touches nothing else; a symmetric positive semidefinite covariance stays one, and a positive definite
one stays positive definite. -/
theorem eskf_predict (f : ErrorStateKalmanFilter m ℝ) (gy ac : Fin 3 → ℝ) (dt : ℝ) (hP : Psd f.covariance) :
    let F := f.errorStateTransition gy ac dt
    ∃ g, f.predict gy ac dt = (g, .ok ()) ∧
      g = { f with nominalState := f.nominalState.propagated gy ac dt f.gravity
                   covariance := F * f.covariance * Fᵀ + Matrix.diagonal (stepNoise f.imuNoise dt) } ∧
      (0 ≤ dt → Psd g.covariance) ∧ (0 ≤ dt → Pd f.covariance → Pd g.covariance) := by
  intro F
  refine ⟨_, ?_, rfl, fun h => (hP.sandwich F).add (psd_diagonal (stepNoise_nonneg _ h)), fun h hp =>
    (hp.sandwich F (f.transition_injective gy ac dt)).add_psd (psd_diagonal (stepNoise_nonneg _ h))⟩
  unfold predict
  rw [if_neg (by rw [real_vIsFinite, real_vIsFinite, real_isFinite]; simp)]
  dsimp only
  rw [if_neg (by rw [real_state_isFinite, real_mIsFinite]; simp), if_neg (by rw [real_mIsFinite]; simp),
    f.propagateCovariance_eq _ dt hP.1]

example : (∃ g, demoEskf.predict ![0, 0, 1] ![0, 0, 10] (1 / 100) = (g, .ok ()) ∧ Pd g.covariance) := by
  obtain ⟨g, h1, -, -, h2⟩ := demoEskf.eskf_predict ![0, 0, 1] ![0, 0, 10] (1 / 100) demoEskf_pd.2.2
  exact ⟨g, h1, h2 (by norm_num) demoEskf_pd.1⟩

/-- C102. From a symmetric positive semidefinite covariance, with positive definite measurement noise, every correction
succeeds, whatever the sensor and whichever covariance form is chosen.  With `H` the sensor's Jacobian and `K` the gain
solving `K (H P Hᵀ + R) = P Hᵀ`, the state moves by the error `K r`, and the covariance becomes the smallest one any gain
leaves, `(1 - K H) P`, carried through the reset.  It stays symmetric positive semidefinite, and positive definite if it
was; the part before the reset is not larger than the old covariance. -/
theorem eskf_fold {w : ℕ} (f : ErrorStateKalmanFilter m ℝ) (model : NominalStateFn w ℝ) (r : Fin w → ℝ)
    (R : Matrix (Fin w) (Fin w) ℝ) (hP : Psd f.covariance) (hR : Pd R) :
    let H := f.measurementJacobian model
    let P := f.covariance
    let after (L : Matrix (Fin 15) (Fin w) ℝ) := (1 - L * H) * P * (1 - L * H)ᵀ + L * R * Lᵀ
    ∃ K, K * (H * P * Hᵀ + R) = P * Hᵀ ∧ after K = (1 - K * H) * P ∧ (∀ L, Psd (after L - after K)) ∧
      Psd (P - after K) ∧
      ∃ g, f.foldIn model r R = (g, .ok (H * P * Hᵀ + R)) ∧
      g = { f with nominalState := f.nominalState.plusError (K *ᵥ r)
                   covariance := resetMatrix (K *ᵥ r) * after K * (resetMatrix (K *ᵥ r))ᵀ } ∧
      Psd g.covariance ∧ (Pd P → Pd g.covariance) := by
  intro H P after
  have hS : Pd (H * P * Hᵀ + R) := innovationCov_pd hP hR
  obtain ⟨L, hL, hK⟩ := gain_spec (H := H) hP hS
  set K := kalmanGain H P L with hKdef
  have hex := joseph_expand hP.1 hS.1 hK
  have hJ : after K = (1 - K * H) * P := by
    have := hex K
    rwa [sub_self, Matrix.zero_mul, Matrix.zero_mul, add_zero] at this
  have hpsd : Psd (after K) := by rw [hJ]; exact naive_psd hP hR.psd hS.1 hK
  have hg : Psd (resetMatrix (K *ᵥ r) * after K * (resetMatrix (K *ᵥ r))ᵀ) := hpsd.sandwich _
  refine ⟨K, hK, hJ, fun M => ?_, ?_, _, ?_, rfl, hg, fun hp => ?_⟩
  · rw [hJ]
    have : after M - (1 - K * H) * P = (M - K) * (H * P * Hᵀ + R) * (M - K)ᵀ := by
      show (1 - M * H) * P * (1 - M * H)ᵀ + M * R * Mᵀ - _ = _
      rw [hex M]
      abel
    rw [this]
    exact hS.psd.sandwich _
  · rw [hJ, naive_drop hP.1 hS.1 hK]
    exact hS.psd.sandwich K
  · unfold foldIn
    rw [if_neg (by rw [real_vIsFinite]; simp)]
    dsimp only
    rw [if_neg (by rw [real_mIsFinite]; simp), if_neg (by rw [real_mIsFinite]; simp), hL]
    dsimp only
    rw [inject_covariance]
    dsimp only
    rw [joseph_eq_naive hP.1 hS.1 hK, mmulVec_eq, ← hJ, (symmetrized_spec _).2.1 hg.1, innovationCov_eq]
    rfl
  · have h1 := information_inverse hp hR hK
    have h2 : Pd (P⁻¹ + Hᵀ * R⁻¹ * H) := by
      have := (hR.inv.psd.sandwich Hᵀ)
      rw [transpose_transpose] at this
      exact hp.inv.add_psd this
    have h3 : Pd (after K) := by
      rw [hJ, show (1 - K * H) * P = (P⁻¹ + Hᵀ * R⁻¹ * H)⁻¹ from (Matrix.inv_eq_left_inv h1).symm]
      exact h2.inv
    exact h3.sandwich _ (reset_injective _)

example (model : NominalStateFn 3 ℝ) : ∃ g S, demoEskf.foldIn model ![1, 2, 3] 1 = (g, .ok S) ∧ Pd g.covariance := by
  obtain ⟨K, -, -, -, -, g, h1, -, -, h2⟩ := demoEskf.eskf_fold model ![1, 2, 3] 1 demoEskf_pd.2.2 pd_one
  exact ⟨g, _, h1, h2 demoEskf_pd.1⟩

/-- C102. The innovation and its covariance are those of the last correction of the declared width; a correction of
another width does the same to the state and covariance and leaves them alone. -/
theorem eskf_update {w : ℕ} (f : ErrorStateKalmanFilter m ℝ) (hP : Psd f.covariance) (hR : Pd f.measurementNoise)
    (model : NominalStateFn m ℝ) (z : Fin m → ℝ) (other : NominalStateFn w ℝ) (r : Fin w → ℝ)
    (R : Matrix (Fin w) (Fin w) ℝ) (hR' : Pd R) :
    let y := z - model.eval f.nominalState
    let H := f.measurementJacobian model
    (∃ g, f.foldIn model y f.measurementNoise = (g, .ok (H * f.covariance * Hᵀ + f.measurementNoise)) ∧
      f.update model z = ({ g with innovation := y
                                   innovationCovariance := H * f.covariance * Hᵀ + f.measurementNoise }, .ok ()) ∧
      f.updateWithResidual model y = f.update model z) ∧
    (∃ g S, f.foldIn other r R = (g, .ok S) ∧ f.updateOther other r R = (g, .ok ()) ∧
      g.innovation = f.innovation ∧ g.innovationCovariance = f.innovationCovariance) := by
  intro y H
  constructor
  · obtain ⟨K, -, -, -, -, g, hg, -⟩ := f.eskf_fold model y f.measurementNoise hP hR
    have hu : f.updateWithResidual model y = ({ g with innovation := y
                                                       innovationCovariance := H * f.covariance * Hᵀ + f.measurementNoise }, .ok ()) := by
      unfold updateWithResidual
      rw [hg]
    refine ⟨g, hg, ?_, ?_⟩
    · unfold update
      rw [if_neg (by rw [real_vIsFinite]; simp)]
      exact hu
    · unfold update
      rw [if_neg (by rw [real_vIsFinite]; simp)]
      rfl
  · obtain ⟨K, -, -, -, -, g, hg, he, -⟩ := f.eskf_fold other r R hP hR'
    refine ⟨g, _, hg, ?_, by rw [he], by rw [he]⟩
    unfold updateOther
    rw [hg]

example (model : NominalStateFn 3 ℝ) (other : NominalStateFn 1 ℝ) :
    ∃ g, demoEskf.updateOther other ![2] 1 = (g, .ok ()) ∧ g.innovation = demoEskf.innovation := by
  obtain ⟨-, g, S, -, h1, h2, -⟩ := demoEskf.eskf_update demoEskf_pd.2.2 demoEskf_pd.2.1 model ![1, 2, 3] other ![2] 1 pd_one
  exact ⟨g, h1, h2⟩

/-- C102. `condition_covariance` never fails on real entries.  Whatever the covariance was, afterwards it is symmetric
and no direction has less than the minimum. -/
theorem eskf_condition (f : ErrorStateKalmanFilter m ℝ) (least : ℝ) :
    ∃ P, f.conditionCovariance least = ({ f with covariance := P }, .ok ()) ∧ Pᵀ = P ∧
      ∀ x : Fin 15 → ℝ, least * (x ⬝ᵥ x) ≤ x ⬝ᵥ P *ᵥ x := by
  have hs : (symmetrized f.covariance).IsSymm := by
    ext i j
    rw [Matrix.transpose_apply, (symmetrized_spec _).1, (symmetrized_spec _).1, add_comm]
  obtain ⟨d, hd, hV, -⟩ := symmetricEigen_spec _ hs
  refine ⟨d.clamped least, ?_, ?_, fun x => ?_⟩
  · unfold conditionCovariance; rw [hd]
  · ext i j; exact clamped_symmetric d least j i
  · have := (clamped_spec d least hV).1 x
    rwa [vdot_eq, vdot_eq, mmulVec_eq] at this

example : ∃ P, ({ demoEskf with covariance := 0 }).conditionCovariance 1 = ({ demoEskf with covariance := P }, .ok ()) ∧
    1 ≤ P 0 0 := by
  obtain ⟨P, h1, -, h2⟩ := ({ demoEskf with covariance := 0 } : ErrorStateKalmanFilter 3 ℝ).eskf_condition 1
  refine ⟨P, h1, ?_⟩
  have := h2 (Pi.single 0 1)
  simpa using this

/-! ### Every history of calls -/

/-- The filters reachable from `f` in `n` calls, by any mixture of predictions with steps that do not go back in time,
corrections of either kind by any sensors with positive definite noise, error injections and covariance repairs. -/
inductive Reach (f : ErrorStateKalmanFilter m ℝ) : ℕ → ErrorStateKalmanFilter m ℝ → Prop
  | start : Reach f 0 f
  | predict {n g} (gy ac : Fin 3 → ℝ) (dt : ℝ) : Reach f n g → 0 ≤ dt → Reach f (n + 1) (g.predict gy ac dt).1
  | update {n g} (model : NominalStateFn m ℝ) (z : Fin m → ℝ) : Reach f n g → Reach f (n + 1) (g.update model z).1
  | updateOther {n g w} (model : NominalStateFn w ℝ) (r : Fin w → ℝ) (R : Matrix (Fin w) (Fin w) ℝ) :
    Reach f n g → Pd R → Reach f (n + 1) (g.updateOther model r R).1
  | inject {n g} (error : Fin 15 → ℝ) : Reach f n g → Reach f (n + 1) (g.injectErrorAndReset error)
  | condition {n g} (least : ℝ) : Reach f n g → 0 < least → Reach f (n + 1) (g.conditionCovariance least).1

theorem drift_step {n : ℕ} (p : SO3 ℝ) (φ : Fin 3 → ℝ) (h : 1 - (n : ℝ) / 2 ^ 195 ≤ p.quaternion.normSquared ∧
    p.quaternion.normSquared ≤ 1) : 1 - ((n + 1 : ℕ) : ℝ) / 2 ^ 195 ≤ (p.compose (SO3.exp φ)).quaternion.normSquared ∧
    (p.compose (SO3.exp φ)).quaternion.normSquared ≤ 1 := by
  have e : (p.compose (SO3.exp φ)).quaternion.normSquared =
      p.quaternion.normSquared * (SO3.exp φ).quaternion.normSquared := normSquared_mul _ _
  obtain ⟨h1, h2⟩ := exp_normSq φ
  have h0 : 0 ≤ p.quaternion.normSquared := by
    simp only [Quat.normSquared]; nlinarith [sq_nonneg p.quaternion.w, sq_nonneg p.quaternion.x,
      sq_nonneg p.quaternion.y, sq_nonneg p.quaternion.z]
  rw [e]
  push_cast
  rw [add_div]
  constructor
  · nlinarith
  · nlinarith

/-- C102. Along every history of calls the covariance stays symmetric positive semidefinite, and positive definite if it
started so; the facing stays on the rotation group, its squared quaternion norm losing at most `2⁻¹⁹⁵` per call and never
exceeding one; and the settings never change. -/
theorem eskf_history (f g : ErrorStateKalmanFilter m ℝ) (n : ℕ) (hP : Psd f.covariance) (hR : Pd f.measurementNoise)
    (hq : f.nominalState.orientation.quaternion.IsUnit) (h : Reach f n g) :
    Psd g.covariance ∧ (Pd f.covariance → Pd g.covariance) ∧
    1 - (n : ℝ) / 2 ^ 195 ≤ g.nominalState.orientation.quaternion.normSquared ∧
    g.nominalState.orientation.quaternion.normSquared ≤ 1 ∧
    g.measurementNoise = f.measurementNoise ∧ g.imuNoise = f.imuNoise ∧ g.gravity = f.gravity ∧
    g.covarianceUpdate = f.covarianceUpdate := by
  induction h with
  | start =>
    have : f.nominalState.orientation.quaternion.normSquared = 1 := by
      rw [Quat.IsUnit] at hq; simp only [Quat.normSquared]; linarith
    refine ⟨hP, id, ?_, this.le, rfl, rfl, rfl, rfl⟩
    rw [this]; simp
  | @predict n g gy ac dt _ hdt ih =>
    obtain ⟨i1, i2, i3, i4, i5, i6, i7, i8⟩ := ih
    obtain ⟨g', h1, h2, h3, h4⟩ := g.eskf_predict gy ac dt i1
    rw [h1]
    obtain ⟨d1, d2⟩ := drift_step g.nominalState.orientation
      (vscale (vsub gy g.nominalState.gyroscopeBias) dt) ⟨i3, i4⟩
    exact ⟨h3 hdt, fun hp => h4 hdt (i2 hp), by rw [h2]; exact d1, by rw [h2]; exact d2, by rw [h2]; exact i5,
      by rw [h2]; exact i6, by rw [h2]; exact i7, by rw [h2]; exact i8⟩
  | @update n g model z _ ih =>
    obtain ⟨i1, i2, i3, i4, i5, i6, i7, i8⟩ := ih
    obtain ⟨⟨g', h1, h2, -⟩, -⟩ := g.eskf_update i1 (by rw [i5]; exact hR) model z model z _ hR
    obtain ⟨K, -, -, -, -, g'', h3, h4, h5, h6⟩ := g.eskf_fold model (z - model.eval g.nominalState)
      g.measurementNoise i1 (by rw [i5]; exact hR)
    have hgg : g'' = g' := by rw [h1] at h3; exact (congrArg Prod.fst h3).symm
    subst hgg
    rw [h2]
    obtain ⟨d1, d2⟩ := drift_step g.nominalState.orientation
      ![(K *ᵥ (z - model.eval g.nominalState)) 6, (K *ᵥ (z - model.eval g.nominalState)) 7,
        (K *ᵥ (z - model.eval g.nominalState)) 8] ⟨i3, i4⟩
    refine ⟨h5, fun hp => h6 (i2 hp), ?_, ?_, ?_, ?_, ?_, ?_⟩ <;> dsimp only <;> rw [h4]
    exacts [d1, d2, i5, i6, i7, i8]
  | @updateOther n g w model r R _ hR' ih =>
    obtain ⟨i1, i2, i3, i4, i5, i6, i7, i8⟩ := ih
    obtain ⟨K, -, -, -, -, g'', h3, h4, h5, h6⟩ := g.eskf_fold model r R i1 hR'
    have hu : (g.updateOther model r R).1 = g'' := by unfold ErrorStateKalmanFilter.updateOther; rw [h3]
    rw [hu]
    obtain ⟨d1, d2⟩ := drift_step g.nominalState.orientation ![(K *ᵥ r) 6, (K *ᵥ r) 7, (K *ᵥ r) 8] ⟨i3, i4⟩
    refine ⟨h5, fun hp => h6 (i2 hp), ?_, ?_, ?_, ?_, ?_, ?_⟩ <;> rw [h4]
    exacts [d1, d2, i5, i6, i7, i8]
  | @inject n g error _ ih =>
    obtain ⟨i1, i2, i3, i4, i5, i6, i7, i8⟩ := ih
    obtain ⟨d1, d2⟩ := drift_step g.nominalState.orientation ![error 6, error 7, error 8] ⟨i3, i4⟩
    refine ⟨?_, fun hp => ?_, d1, d2, i5, i6, i7, i8⟩
    · rw [inject_covariance]; exact i1.sandwich _
    · rw [inject_covariance]; exact (i2 hp).sandwich _ (reset_injective _)
  | @condition n g least _ hl ih =>
    obtain ⟨i1, i2, i3, i4, i5, i6, i7, i8⟩ := ih
    obtain ⟨P, h1, h2, h3⟩ := g.eskf_condition least
    rw [h1]
    have hpd : Pd P := ⟨h2, fun x hx => by
      have h0 : 0 < x ⬝ᵥ x := by
        rcases (Finset.sum_nonneg fun i _ => mul_self_nonneg (x i) : 0 ≤ x ⬝ᵥ x).lt_or_eq with h | h
        · exact h
        · refine absurd (funext fun i => ?_) hx
          have := (Finset.sum_eq_zero_iff_of_nonneg fun i _ => mul_self_nonneg (x i)).1 h.symm i (Finset.mem_univ i)
          exact mul_self_eq_zero.1 this
      exact lt_of_lt_of_le (mul_pos hl h0) (h3 x)⟩
    refine ⟨hpd.psd, fun _ => hpd, le_trans ?_ i3, i4, i5, i6, i7, i8⟩
    push_cast
    rw [add_div]
    have : (0 : ℝ) ≤ 1 / 2 ^ 195 := by positivity
    linarith

example (model : NominalStateFn 3 ℝ) : Pd (((demoEskf.predict ![0, 0, 1] ![0, 0, 10] (1 / 100)).1).update model ![1, 2, 3]).1.covariance :=
  (eskf_history demoEskf _ 2 demoEskf_pd.2.2 demoEskf_pd.2.1 demoEskf_unit
    ((Reach.start.predict _ _ _ (by norm_num)).update model ![1, 2, 3])).2.1 demoEskf_pd.1

end ErrorStateKalmanFilter

/-! ### Folding an error in and reading it back -/

theorem act_compose (p q : SO3 ℝ) (v : Fin 3 → ℝ) : (p.compose q).act v = p.act (q.act v) := by
  apply vec3_ext <;> simp [SO3.act, SO3.compose, Quat.mul, transformPoint_explicit] <;> ring

theorem four_products {a b c d e0 e1 e2 e3 ε : ℝ} (ha : |a| ≤ 1) (hb : |b| ≤ 1) (hc : |c| ≤ 1) (hd : |d| ≤ 1)
    (h0 : |e0| ≤ ε) (h1 : |e1| ≤ ε) (h2 : |e2| ≤ ε) (h3 : |e3| ≤ ε) : |a * e0 + b * e1 + c * e2 + d * e3| ≤ 4 * ε := by
  have key : ∀ {x y : ℝ}, |x| ≤ 1 → |y| ≤ ε → |x * y| ≤ ε := by
    intro x y hx hy
    rw [abs_mul]
    nlinarith [abs_nonneg x, abs_nonneg y]
  have := abs_add_le (a * e0 + b * e1 + c * e2) (d * e3)
  have := abs_add_le (a * e0 + b * e1) (c * e2)
  have := abs_add_le (a * e0) (b * e1)
  linarith [key ha h0, key hb h1, key hc h2, key hd h3]

theorem unit_entries {p : Quat ℝ} (hp : p.IsUnit) : |p.w| ≤ 1 ∧ |p.x| ≤ 1 ∧ |p.y| ≤ 1 ∧ |p.z| ≤ 1 := by
  obtain ⟨w, x, y, z⟩ := p
  simp only [Quat.IsUnit] at hp
  have hc : ∀ a : ℝ, a ^ 2 ≤ 1 → |a| ≤ 1 := fun a h => by
    rw [abs_le]; constructor <;> nlinarith
  exact ⟨hc _ (by nlinarith), hc _ (by nlinarith), hc _ (by nlinarith), hc _ (by nlinarith)⟩

theorem near_product {q p u : Quat ℝ} {k ε : ℝ} (hq : q.IsUnit) (hp : p.IsUnit) (k0 : 0 ≤ 1 - k) (k1 : 1 - k ≤ ε)
    (kw : |u.w - p.w| ≤ ε) (kx : u.x = p.x * k) (ky : u.y = p.y * k) (kz : u.z = p.z * k) :
    |(q.mul u).w - (q.mul p).w| ≤ 4 * ε ∧ |(q.mul u).x - (q.mul p).x| ≤ 4 * ε ∧
    |(q.mul u).y - (q.mul p).y| ≤ 4 * ε ∧ |(q.mul u).z - (q.mul p).z| ≤ 4 * ε := by
  obtain ⟨c0, c1, c2, c3⟩ := unit_entries hq
  obtain ⟨-, p1, p2, p3⟩ := unit_entries hp
  have hk : ∀ a : ℝ, |a| ≤ 1 → |a * k - a| ≤ ε := fun a h => by
    have : a * k - a = -(a * (1 - k)) := by ring
    rw [this, abs_neg, abs_mul, abs_of_nonneg k0]
    nlinarith [abs_nonneg a]
  have e1 : |u.x - p.x| ≤ ε := by rw [kx]; exact hk _ p1
  have e2 : |u.y - p.y| ≤ ε := by rw [ky]; exact hk _ p2
  have e3 : |u.z - p.z| ≤ ε := by rw [kz]; exact hk _ p3
  have n1 : |-q.x| ≤ 1 := by rwa [abs_neg]
  have n2 : |-q.y| ≤ 1 := by rwa [abs_neg]
  have n3 : |-q.z| ≤ 1 := by rwa [abs_neg]
  simp only [Quat.mul]
  refine ⟨?_, ?_, ?_, ?_⟩
  · refine le_of_eq_of_le ?_ (four_products c0 n1 n2 n3 kw e1 e2 e3); congr 1; ring
  · refine le_of_eq_of_le ?_ (four_products c0 c1 c2 n3 e1 kw e3 e2); congr 1; ring
  · refine le_of_eq_of_le ?_ (four_products c0 n1 c2 c3 e2 e3 kw e1); congr 1; ring
  · refine le_of_eq_of_le ?_ (four_products c0 c1 n2 c3 e3 e2 e1 kw); congr 1; ring

namespace NominalState

/-- C102. Folding an error into a state and reading it back: the position, velocity and offset groups come back exactly;
the rotation group comes back exactly once its length is between 96 rounding units and a half turn, and below that
shortened by at most a sixteenth of its squared length. -/
theorem error_of_plus (s : NominalState ℝ) (hs : s.orientation.quaternion.IsUnit) (e : Fin 15 → ℝ)
    (h : vnorm (errGroup e 2) ≤ Real.pi) :
    (∀ p, p ≠ 2 → errGroup ((s.plusError e).errorFrom s) p = errGroup e p) ∧
    (∃ k : ℝ, errGroup ((s.plusError e).errorFrom s) 2 = (fun i => errGroup e 2 i * k) ∧
      1 - vnorm (errGroup e 2) ^ 2 / 16 ≤ k ∧ k ≤ 1) ∧
    (96 / 2 ^ 52 ≤ vnorm (errGroup e 2) → (s.plusError e).errorFrom s = e) := by
  have hg : (![e 6, e 7, e 8] : Fin 3 → ℝ) = errGroup e 2 := by funext i; fin_cases i <;> rfl
  have hlog : (s.orientation.inverse.compose (s.plusError e).orientation).log = (SO3.exp (errGroup e 2)).log := by
    have hi := (so3_group s.orientation s.orientation SO3.identity hs hs 0 0).2.1
    have h1 := so3_group s.orientation.inverse s.orientation (SO3.exp (errGroup e 2)) hi hs 0 0
    have h2 := (so3_group s.orientation s.orientation SO3.identity hs hs 0 0).2.2.2.2.2.2.1
    have e1 : s.orientation.inverse.compose (s.plusError e).orientation = SO3.exp (errGroup e 2) := by
      show s.orientation.inverse.compose (s.orientation.compose (SO3.exp ![e 6, e 7, e 8])) = _
      rw [hg, ← h1.2.2.1, h2]
      simp [SO3.compose, SO3.identity, Quat.mul, Quat.identity]
    rw [e1]
  have hrest : ∀ p, p ≠ 2 → errGroup ((s.plusError e).errorFrom s) p = errGroup e p := by
    intro p hp
    funext i
    fin_cases p <;> first | exact absurd rfl hp | skip
    all_goals fin_cases i <;> simp [errGroup, errIx, errorFrom, plusError, vsub, vadd] <;> rfl
  have hrot : errGroup ((s.plusError e).errorFrom s) 2 = (SO3.exp (errGroup e 2)).log := by
    rw [← hlog]
    funext i
    fin_cases i <;> rfl
  obtain ⟨k, h1, h2, h3, h4⟩ := so3_log_exp (errGroup e 2) h
  refine ⟨hrest, ⟨k, by rw [hrot, h1], h2, h3⟩, fun hl => ?_⟩
  apply err_ext
  intro p
  by_cases hp : p = 2
  · subst hp; rw [hrot, h4 hl]
  · exact hrest p hp

example : ∃ e : Fin 15 → ℝ, e ≠ 0 ∧ vnorm (errGroup e 2) ≤ Real.pi ∧ 96 / 2 ^ 52 ≤ vnorm (errGroup e 2) := by
  refine ⟨fun i => if i = 6 then 1 else if i.val < 6 then 5 else 0, fun h => ?_, ?_⟩
  · have := congrFun h 6; simp at this
  · have e : vnorm (errGroup (fun i : Fin 15 => if i = 6 then (1 : ℝ) else if i.val < 6 then 5 else 0) 2) = 1 := by
      simp [vnorm, vnormSquared, vdot3, real_sqrt, errGroup, errIx]
    rw [e]
    exact ⟨by linarith [Real.pi_gt_three], by norm_num⟩

/-- C102. Reading the error between any two states and folding it into the first gives the second back: the positions,
velocities and offsets exactly, and the facing as the same rotation, with the same quaternion or its negative, as soon as
the turn between the two has a quaternion vector part of at least 30 rounding units; below that each quaternion entry is
off by at most four times the square of that part.  The error's rotation is never longer than a half turn. -/
theorem plus_of_error (s t : NominalState ℝ) (hs : s.orientation.quaternion.IsUnit)
    (ht : t.orientation.quaternion.IsUnit) :
    let r := s.plusError (t.errorFrom s)
    let turn := vnorm (s.orientation.inverse.compose t.orientation).quaternion.shortest.vec
    r.position = t.position ∧ r.velocity = t.velocity ∧ r.gyroscopeBias = t.gyroscopeBias ∧
    r.accelerometerBias = t.accelerometerBias ∧ vnorm (errGroup (t.errorFrom s) 2) ≤ Real.pi ∧
    (30 / 2 ^ 52 ≤ turn → (r.orientation.quaternion = t.orientation.quaternion ∨
      r.orientation.quaternion = t.orientation.quaternion.neg) ∧
      ∀ v, r.orientation.act v = t.orientation.act v) ∧
    (turn < 30 / 2 ^ 52 → ∃ σ : ℝ, (σ = 1 ∨ σ = -1) ∧
      |r.orientation.quaternion.w - σ * t.orientation.quaternion.w| ≤ 4 * turn ^ 2 ∧
      |r.orientation.quaternion.x - σ * t.orientation.quaternion.x| ≤ 4 * turn ^ 2 ∧
      |r.orientation.quaternion.y - σ * t.orientation.quaternion.y| ≤ 4 * turn ^ 2 ∧
      |r.orientation.quaternion.z - σ * t.orientation.quaternion.z| ≤ 4 * turn ^ 2) := by
  intro r turn
  set R := s.orientation.inverse.compose t.orientation with hR
  have hRu : R.quaternion.IsUnit := by
    have hi := (so3_group s.orientation s.orientation SO3.identity hs hs 0 0).2.1
    exact (so3_group s.orientation.inverse t.orientation SO3.identity hi ht 0 0).1
  have hrot : (![t.errorFrom s 6, t.errorFrom s 7, t.errorFrom s 8] : Fin 3 → ℝ) = R.log := by
    funext i; fin_cases i <;> rfl
  have hgrp : errGroup (t.errorFrom s) 2 = R.log := by funext i; fin_cases i <;> rfl
  have hro : r.orientation = s.orientation.compose (SO3.exp R.log) := by
    rw [← hrot]; rfl
  obtain ⟨h1, h2, h3⟩ := so3_exp_log R hRu
  have hs' := hs
  rw [Quat.IsUnit] at hs'
  -- composing back
  have hback : ∃ σ : ℝ, (σ = 1 ∨ σ = -1) ∧
      s.orientation.quaternion.mul R.quaternion.shortest = ⟨σ * t.orientation.quaternion.w,
        σ * t.orientation.quaternion.x, σ * t.orientation.quaternion.y, σ * t.orientation.quaternion.z⟩ := by
    have e : ∀ σ : ℝ, s.orientation.quaternion.mul ⟨σ * R.quaternion.w, σ * R.quaternion.x, σ * R.quaternion.y,
        σ * R.quaternion.z⟩ = ⟨σ * t.orientation.quaternion.w,
        σ * t.orientation.quaternion.x, σ * t.orientation.quaternion.y, σ * t.orientation.quaternion.z⟩ := by
      intro σ
      apply Quat.ext <;> simp only [hR, Quat.mul, SO3.compose, SO3.inverse, Quat.conjugate]
      · linear_combination (σ * t.orientation.quaternion.w) * hs'
      · linear_combination (σ * t.orientation.quaternion.x) * hs'
      · linear_combination (σ * t.orientation.quaternion.y) * hs'
      · linear_combination (σ * t.orientation.quaternion.z) * hs'
    by_cases hw : R.quaternion.w < 0
    · refine ⟨-1, Or.inr rfl, ?_⟩
      rw [← e (-1), Quat.shortest, if_pos hw]
      simp [Quat.neg]
    · refine ⟨1, Or.inl rfl, ?_⟩
      rw [← e 1, Quat.shortest, if_neg hw]
      simp
  obtain ⟨σ, hσ, hback⟩ := hback
  refine ⟨?_, ?_, ?_, ?_, by rw [hgrp]; exact h1, fun hl => ?_, fun hl => ?_⟩
  · funext i; fin_cases i <;> simp [r, plusError, errorFrom, vadd, vsub]
  · funext i; fin_cases i <;> simp [r, plusError, errorFrom, vadd, vsub]
  · funext i; fin_cases i <;> simp [r, plusError, errorFrom, vadd, vsub]
  · funext i; fin_cases i <;> simp [r, plusError, errorFrom, vadd, vsub]
  · have e : r.orientation.quaternion = ⟨σ * t.orientation.quaternion.w,
        σ * t.orientation.quaternion.x, σ * t.orientation.quaternion.y, σ * t.orientation.quaternion.z⟩ := by
      rw [hro, h2 hl]; exact hback
    have hsq : σ * σ = 1 := by rcases hσ with rfl | rfl <;> norm_num
    refine ⟨?_, fun v => ?_⟩
    · rcases hσ with rfl | rfl
      · left; rw [e]; apply Quat.ext <;> simp
      · right; rw [e]; apply Quat.ext <;> simp [Quat.neg]
    · simp only [SO3.act, transformPoint_explicit, e]
      funext i
      fin_cases i <;> rcases hσ with rfl | rfl <;> simp
  · obtain ⟨k, k0, k1, kw, kx, ky, kz⟩ := h3 hl
    refine ⟨σ, hσ, ?_⟩
    have hRu' := (shortest_spec R.quaternion hRu).2.1
    have hb := (near_product hs hRu' k0 k1 kw kx ky kz)
    rw [hback] at hb
    rw [hro]
    exact hb

example : (⟨⟨3 / 5, 0, 0, 4 / 5⟩⟩ : SO3 ℝ).quaternion.IsUnit ∧ (⟨⟨0, 1, 0, 0⟩⟩ : SO3 ℝ).quaternion.IsUnit := by
  norm_num [Quat.IsUnit]

end NominalState

/-! ### How an error moves through a step -/

/-- The four quaternion entries of the exponential of a small multiple of `θ`, to first order. -/
theorem exp_entries_deriv (θ : Fin 3 → ℝ) :
    HasDerivAt (fun ε : ℝ => (Quat.fromScaledAxis fun k => ε * θ k).w) 0 0 ∧
    HasDerivAt (fun ε : ℝ => (Quat.fromScaledAxis fun k => ε * θ k).x) (θ 0 / 2) 0 ∧
    HasDerivAt (fun ε : ℝ => (Quat.fromScaledAxis fun k => ε * θ k).y) (θ 1 / 2) 0 ∧
    HasDerivAt (fun ε : ℝ => (Quat.fromScaledAxis fun k => ε * θ k).z) (θ 2 / 2) 0 := by
  have hev : ∀ᶠ ε : ℝ in nhds 0, vdot (fun k => ε * θ k) (fun k => ε * θ k) < (smallAngleSq : ℝ) := by
    have hc : ContinuousAt (fun ε : ℝ => vdot (fun k => ε * θ k) (fun k => ε * θ k)) 0 := by
      simp only [vdot3]
      fun_prop
    refine hc.eventually (gt_mem_nhds ?_)
    simp only [vdot3]
    have : (0 : ℝ) < smallAngleSq := by
      rw [smallAngleSq, smallAngle_real]; positivity
    simpa using this
  have hs : ∀ ε : ℝ, vdot (fun k => ε * θ k) (fun k => ε * θ k) = ε ^ 2 * vdot θ θ := by
    intro ε; simp only [vdot3]; ring
  have heq : ∀ᶠ ε : ℝ in nhds 0, (Quat.fromScaledAxis fun k => ε * θ k) =
      ⟨1 - ε ^ 2 * vdot θ θ / 8, ε * θ 0 * (1 / 2 - ε ^ 2 * vdot θ θ / 48),
        ε * θ 1 * (1 / 2 - ε ^ 2 * vdot θ θ / 48), ε * θ 2 * (1 / 2 - ε ^ 2 * vdot θ θ / 48)⟩ := by
    filter_upwards [hev] with ε hε
    unfold Quat.fromScaledAxis
    dsimp only
    rw [if_pos hε, hs, half_real, real_lit, real_lit]
    push_cast
    rfl
  have hid := hasDerivAt_id (0 : ℝ)
  have hsq : HasDerivAt (fun ε : ℝ => ε ^ 2 * vdot θ θ) 0 0 := by
    have := (hid.pow 2).mul_const (vdot θ θ)
    refine this.congr_deriv ?_
    simp
  have hw : HasDerivAt (fun ε : ℝ => 1 - ε ^ 2 * vdot θ θ / 8) 0 0 := by
    have := (hasDerivAt_const (0 : ℝ) (1 : ℝ)).sub (hsq.div_const 8)
    refine this.congr_deriv ?_
    simp
  have hv : ∀ a : ℝ, HasDerivAt (fun ε : ℝ => ε * a * (1 / 2 - ε ^ 2 * vdot θ θ / 48)) (a / 2) 0 := by
    intro a
    have := (hid.mul_const a).mul ((hasDerivAt_const (0 : ℝ) (1 / 2 : ℝ)).sub (hsq.div_const 48))
    refine this.congr_deriv ?_
    simp
    ring
  refine ⟨hw.congr_of_eventuallyEq ?_, (hv _).congr_of_eventuallyEq ?_, (hv _).congr_of_eventuallyEq ?_,
    (hv _).congr_of_eventuallyEq ?_⟩ <;> filter_upwards [heq] with ε hε <;> rw [hε]

/-- Turning a moving vector by a small multiple of `θ`. -/
theorem exp_act_deriv (θ a b : Fin 3 → ℝ) (i : Fin 3) :
    HasDerivAt (fun ε : ℝ => (SO3.exp fun k => ε * θ k).act (fun k => a k + ε * b k) i) (cross θ a i + b i) 0 := by
  obtain ⟨hw, hx, hy, hz⟩ := exp_entries_deriv θ
  have h0 : Quat.fromScaledAxis (fun k => (0 : ℝ) * θ k) = ⟨1, 0, 0, 0⟩ := by
    have e : (fun k => (0 : ℝ) * θ k) = 0 := by funext k; simp
    rw [e, fromScaledAxis_small (by simp [vnorm, vnormSquared, vdot3, real_sqrt])]
    simp [vnorm, vnormSquared, vdot3, real_sqrt]
  have hp : ∀ k, HasDerivAt (fun ε : ℝ => a k + ε * b k) (b k) 0 := fun k => by
    have := ((hasDerivAt_id (0 : ℝ)).mul_const (b k)).const_add (a k)
    simpa using this
  have gen : ∀ {w x y z p q r : ℝ → ℝ} {w' x' y' z' p' q' r' : ℝ}, HasDerivAt w w' 0 → HasDerivAt x x' 0 →
      HasDerivAt y y' 0 → HasDerivAt z z' 0 → HasDerivAt p p' 0 → HasDerivAt q q' 0 → HasDerivAt r r' 0 →
      w 0 = 1 → x 0 = 0 → y 0 = 0 → z 0 = 0 →
      HasDerivAt (fun t => (w t ^ 2 + x t ^ 2 - y t ^ 2 - z t ^ 2) * p t + 2 * (x t * y t - w t * z t) * q t +
        2 * (x t * z t + w t * y t) * r t) (2 * w' * p 0 + p' - 2 * z' * q 0 + 2 * y' * r 0) 0 := by
    intro w x y z p q r w' x' y' z' p' q' r' hw hx hy hz hp hq hr w0 x0 y0 z0
    have := ((((((hw.pow 2).add (hx.pow 2)).sub (hy.pow 2)).sub (hz.pow 2)).mul hp).add
      ((((hx.mul hy).sub (hw.mul hz)).const_mul 2).mul hq)).add ((((hx.mul hz).add (hw.mul hy)).const_mul 2).mul hr)
    refine this.congr_deriv ?_
    simp [w0, x0, y0, z0]
    ring
  have z0 : (Quat.fromScaledAxis (fun k => (0 : ℝ) * θ k)).w = 1 := by rw [h0]
  have z1 : (Quat.fromScaledAxis (fun k => (0 : ℝ) * θ k)).x = 0 := by rw [h0]
  have z2 : (Quat.fromScaledAxis (fun k => (0 : ℝ) * θ k)).y = 0 := by rw [h0]
  have z3 : (Quat.fromScaledAxis (fun k => (0 : ℝ) * θ k)).z = 0 := by rw [h0]
  fin_cases i
  · refine ((gen hw hx hy hz (hp 0) (hp 1) (hp 2) z0 z1 z2 z3).congr_deriv ?_).congr_of_eventuallyEq ?_
    · simp [cross]; ring
    · filter_upwards with ε
      simp [SO3.act, SO3.exp, transformPoint_explicit]
  · refine ((gen hw hy hz hx (hp 1) (hp 2) (hp 0) z0 z2 z3 z1).congr_deriv ?_).congr_of_eventuallyEq ?_
    · simp [cross]; ring
    · filter_upwards with ε
      simp [SO3.act, SO3.exp, transformPoint_explicit]; ring
  · refine ((gen hw hz hx hy (hp 2) (hp 0) (hp 1) z0 z3 z1 z2).congr_deriv ?_).congr_of_eventuallyEq ?_
    · simp [cross]; ring
    · filter_upwards with ε
      simp [SO3.act, SO3.exp, transformPoint_explicit]; ring

theorem act_deriv (p : SO3 ℝ) {c : ℝ → Fin 3 → ℝ} {c' : Fin 3 → ℝ} {t : ℝ}
    (h : ∀ i, HasDerivAt (fun ε => c ε i) (c' i) t) (i : Fin 3) :
    HasDerivAt (fun ε => p.act (c ε) i) (p.act c' i) t := by
  simp only [SO3.act, transformPoint_explicit]
  fin_cases i
  · exact (((h 0).const_mul _).add ((h 1).const_mul _)).add ((h 2).const_mul _)
  · exact (((h 0).const_mul _).add ((h 1).const_mul _)).add ((h 2).const_mul _)
  · exact (((h 0).const_mul _).add ((h 1).const_mul _)).add ((h 2).const_mul _)

theorem skew3_vec (a v : Fin 3 → ℝ) : skew3 a *ᵥ v = cross a v := by
  funext i
  fin_cases i <;> simp [skew3, cross, mulVec, dotProduct, Fin.sum_univ_three] <;> ring

namespace ErrorStateKalmanFilter

theorem transition_vec (f : ErrorStateKalmanFilter m ℝ) (hq : f.nominalState.orientation.quaternion.IsUnit)
    (gy ac : Fin 3 → ℝ) (dt : ℝ) (d : Fin 15 → ℝ) :
    let s := f.nominalState
    let F := f.errorStateTransition gy ac dt
    (∀ i, errGroup (F *ᵥ d) 0 i = errGroup d 0 i + dt * errGroup d 1 i) ∧
    (∀ i, errGroup (F *ᵥ d) 1 i = errGroup d 1 i + dt * s.orientation.act
      (fun k => cross (errGroup d 2) (fun k => ac k - s.accelerometerBias k) k - errGroup d 4 k) i) ∧
    (∀ i, errGroup (F *ᵥ d) 2 i =
      ((SO3.exp (vscale (vneg (vsub gy s.gyroscopeBias)) dt)).toMatrix *ᵥ errGroup d 2) i - dt * errGroup d 3 i) := by
  intro s F
  obtain ⟨h0, h1, h2, -, -⟩ := blockTransition_vec (mscale (midentity 3) dt)
      (mneg (mscale (mmul f.nominalState.orientation.toMatrix
        (skew3 (vsub ac f.nominalState.accelerometerBias))) dt))
      (mneg (mscale f.nominalState.orientation.toMatrix dt))
      (SO3.exp (vscale (vneg (vsub gy f.nominalState.gyroscopeBias)) dt)).toMatrix
      (mscale (midentity 3) (-dt)) d
  rw [← transition_blocks] at h0 h1 h2
  have sc : ∀ (M : Matrix (Fin 3) (Fin 3) ℝ) (a : ℝ), mscale M a = a • M := by
    intro M a; ext i j; simp [mscale, mul_comm]
  have ng : ∀ (M : Matrix (Fin 3) (Fin 3) ℝ), mneg M = -M := fun M => rfl
  have n1 : s.orientation.quaternion.normSquared = 1 := by
    rw [Quat.IsUnit] at hq; simp only [Quat.normSquared]; linarith
  have tm : ∀ v, s.orientation.toMatrix *ᵥ v = s.orientation.act v := by
    intro v; rw [toMatrix_vec, n1]; funext i; ring
  refine ⟨fun i => ?_, fun i => ?_, fun i => ?_⟩
  · rw [h0, sc, midentity_eq, smul_mulVec, one_mulVec]; rfl
  · rw [h1, sc, sc, ng, ng, mmul_eq, neg_mulVec, neg_mulVec, smul_mulVec, smul_mulVec, ← mulVec_mulVec, skew3_vec, tm, tm]
    simp only [Pi.add_apply, Pi.neg_apply, Pi.smul_apply, smul_eq_mul, SO3.act, transformPoint_explicit, vsub, cross]
    fin_cases i <;> simp [s] <;> ring
  · rw [h2, sc, midentity_eq, smul_mulVec, one_mulVec]
    simp [s]
    ring

/-- C102. How an error in the estimate moves through a step, in any direction `d` of the fifteen: the velocity's change is
exactly the velocity row of `error_state_transition`, and the position's is its position row plus the half-step term the
documentation says it leaves out. -/
theorem transition_velocity_position (f : ErrorStateKalmanFilter m ℝ)
    (hq : f.nominalState.orientation.quaternion.IsUnit) (gy ac : Fin 3 → ℝ) (dt : ℝ) (d : Fin 15 → ℝ) (i : Fin 3) :
    let step := fun ε : ℝ => (f.nominalState.plusError fun j => ε * d j).propagated gy ac dt f.gravity
    let Fd := f.errorStateTransition gy ac dt *ᵥ d
    HasDerivAt (fun ε => (step ε).velocity i) (errGroup Fd 1 i) 0 ∧
    HasDerivAt (fun ε => (step ε).position i)
      (errGroup Fd 0 i + dt / 2 * (errGroup Fd 1 i - errGroup d 1 i)) 0 := by
  intro step Fd
  obtain ⟨h0, h1, -⟩ := f.transition_vec hq gy ac dt d
  have hpush : HasDerivAt (fun ε : ℝ => (f.nominalState.orientation.compose (SO3.exp fun k => ε * errGroup d 2 k)).act
      (fun k => (ac k - f.nominalState.accelerometerBias k) + ε * (-errGroup d 4 k)) i)
      (f.nominalState.orientation.act
        (fun k => cross (errGroup d 2) (fun k => ac k - f.nominalState.accelerometerBias k) k - errGroup d 4 k) i) 0 := by
    simp only [act_compose]
    refine act_deriv _ (fun k => ?_) i
    exact (exp_act_deriv (errGroup d 2) _ (fun k => -errGroup d 4 k) k)
  set push := fun ε : ℝ => (f.nominalState.orientation.compose (SO3.exp fun k => ε * errGroup d 2 k)).act
      (fun k => (ac k - f.nominalState.accelerometerBias k) + ε * (-errGroup d 4 k)) i with hpushdef
  have hstep : ∀ ε : ℝ, (f.nominalState.plusError fun j => ε * d j).orientation.act
      (vsub ac (f.nominalState.plusError fun j => ε * d j).accelerometerBias) i = push ε := by
    intro ε
    have e1 : (![ε * d 6, ε * d 7, ε * d 8] : Fin 3 → ℝ) = fun k => ε * errGroup d 2 k := by
      funext k; fin_cases k <;> rfl
    have e2 : vsub ac (f.nominalState.plusError fun j => ε * d j).accelerometerBias =
        fun k => (ac k - f.nominalState.accelerometerBias k) + ε * (-errGroup d 4 k) := by
      funext k
      fin_cases k <;> simp [vsub, NominalState.plusError, vadd, errGroup, errIx] <;> ring
    rw [e2]
    show (f.nominalState.orientation.compose (SO3.exp ![ε * d 6, ε * d 7, ε * d 8])).act _ i = _
    rw [e1]
  have hvel : ∀ ε : ℝ, (f.nominalState.plusError fun j => ε * d j).velocity i =
      f.nominalState.velocity i + ε * errGroup d 1 i := by
    intro ε; fin_cases i <;> simp [NominalState.plusError, vadd, errGroup, errIx]
  have hpos : ∀ ε : ℝ, (f.nominalState.plusError fun j => ε * d j).position i =
      f.nominalState.position i + ε * errGroup d 0 i := by
    intro ε; fin_cases i <;> simp [NominalState.plusError, vadd, errGroup, errIx]
  have line : ∀ a b : ℝ, HasDerivAt (fun ε : ℝ => a + ε * b) b 0 := fun a b => by
    have := ((hasDerivAt_id (0 : ℝ)).mul_const b).const_add a
    simpa using this
  have hg := hpush.add_const (f.gravity i)
  constructor
  · refine (((line (f.nominalState.velocity i) (errGroup d 1 i)).add (hg.mul_const dt)).congr_deriv ?_).congr_of_eventuallyEq ?_
    · rw [h1]; ring
    · filter_upwards with ε
      show (f.nominalState.plusError fun j => ε * d j).velocity i +
        ((f.nominalState.plusError fun j => ε * d j).orientation.act
          (vsub ac (f.nominalState.plusError fun j => ε * d j).accelerometerBias) i + f.gravity i) * dt = _
      rw [hvel, hstep]
      rfl
  · refine ((((line (f.nominalState.position i) (errGroup d 0 i)).add
      ((line (f.nominalState.velocity i) (errGroup d 1 i)).mul_const dt)).add
      (hg.mul_const (dt * dt * half))).congr_deriv ?_).congr_of_eventuallyEq ?_
    · rw [h0, h1, half_real]; ring
    · filter_upwards with ε
      show (f.nominalState.plusError fun j => ε * d j).position i +
        (f.nominalState.plusError fun j => ε * d j).velocity i * dt +
        ((f.nominalState.plusError fun j => ε * d j).orientation.act
          (vsub ac (f.nominalState.plusError fun j => ε * d j).accelerometerBias) i + f.gravity i) *
          (dt * dt * half) = _
      rw [hvel, hstep, hpos]
      rfl

example := demoEskf.transition_velocity_position demoEskf_unit ![0, 0, 1] ![0, 0, 10] (1 / 100) fun i => i

theorem exp_inverse (φ : Fin 3 → ℝ) : SO3.exp (vneg φ) = (SO3.exp φ).inverse := by
  have h : vdot (vneg φ) (vneg φ) = vdot φ φ := by simp [vdot3, vneg]
  simp only [SO3.exp, SO3.inverse, Quat.fromScaledAxis, h, Quat.conjugate, vneg, neg_mul]

/-- Conjugating an exponential by a rotation turns its rotation vector. -/
theorem exp_conjugate (u : SO3 ℝ) (hu : u.quaternion.IsUnit) (θ : Fin 3 → ℝ) :
    u.inverse.compose ((SO3.exp θ).compose u) = SO3.exp (u.inverse.act θ) := by
  have hi := (so3_group u u SO3.identity hu hu 0 0).2.1
  have h : vdot (u.inverse.act θ) (u.inverse.act θ) = vdot θ θ :=
    (so3_group u.inverse u.inverse SO3.identity hi hi θ θ).2.2.2.2.2.2.2.2.2.2.2.1
  simp only [SO3.exp, Quat.fromScaledAxis, h]
  generalize (if vdot θ θ < smallAngleSq then _ else _ : ℝ × ℝ) = ws
  rw [Quat.IsUnit] at hu
  simp only [SO3.compose, SO3.inverse, SO3.act, Quat.mul, Quat.conjugate, transformPoint_explicit]
  congr 1
  apply Quat.ext <;> simp
  · linear_combination ws.1 * hu
  · ring
  · ring
  · ring

/-- C102. The rotation row is exact, not only to first order: for an error of any size with no turn-rate offset error, the
turn from the propagated estimate to the propagated truth is exactly the exponential of the rotation row applied to the
error. -/
theorem transition_rotation (f : ErrorStateKalmanFilter m ℝ) (hq : f.nominalState.orientation.quaternion.IsUnit)
    (gy ac : Fin 3 → ℝ) (dt : ℝ)
    (hu : (SO3.exp (vscale (vsub gy f.nominalState.gyroscopeBias) dt)).quaternion.IsUnit)
    (e : Fin 15 → ℝ) (he : errGroup e 3 = 0) :
    (f.nominalState.propagated gy ac dt f.gravity).orientation.inverse.compose
      ((f.nominalState.plusError e).propagated gy ac dt f.gravity).orientation =
      SO3.exp (errGroup (f.errorStateTransition gy ac dt *ᵥ e) 2) := by
  set s := f.nominalState with hs
  set u := SO3.exp (vscale (vsub gy s.gyroscopeBias) dt) with hudef
  obtain ⟨-, -, h2⟩ := f.transition_vec hq gy ac dt e
  have n1 : (u.inverse).quaternion.normSquared = 1 := by
    rw [Quat.IsUnit] at hu; simp only [SO3.inverse, Quat.conjugate, Quat.normSquared]; linarith
  have e1 : vscale (vneg (vsub gy s.gyroscopeBias)) dt = vneg (vscale (vsub gy s.gyroscopeBias) dt) := by
    funext k; simp [vscale, vneg]
  have hrow : errGroup (f.errorStateTransition gy ac dt *ᵥ e) 2 = u.inverse.act (errGroup e 2) := by
    funext i
    rw [h2 i, ← hs, e1, exp_inverse, ← hudef, toMatrix_vec, n1, he]
    simp
  have e2 : (![e 6, e 7, e 8] : Fin 3 → ℝ) = errGroup e 2 := by funext k; fin_cases k <;> rfl
  have e3 : (s.plusError e).gyroscopeBias = s.gyroscopeBias := by
    funext k
    have := congrFun he k
    fin_cases k <;> simp_all [NominalState.plusError, vadd, errGroup, errIx]
  rw [hrow, ← exp_conjugate u hu]
  show (s.orientation.compose u).inverse.compose ((s.orientation.compose (SO3.exp ![e 6, e 7, e 8])).compose
    (SO3.exp (vscale (vsub gy (s.plusError e).gyroscopeBias) dt))) = _
  rw [e2, e3, ← hudef]
  generalize SO3.exp (errGroup e 2) = x
  rw [Quat.IsUnit] at hq
  generalize s.orientation = o at hq ⊢
  obtain ⟨⟨qw, qx, qy, qz⟩⟩ := o
  clear_value u
  obtain ⟨⟨uw, ux, uy, uz⟩⟩ := u
  obtain ⟨⟨xw, xx, xy, xz⟩⟩ := x
  simp only [SO3.compose, SO3.inverse, Quat.mul, Quat.conjugate]
  congr 1
  have hw : qw ^ 2 = 1 - qx ^ 2 - qy ^ 2 - qz ^ 2 := by linarith
  apply Quat.ext <;> simp only <;> grind

example (a : ℝ) : vscale (vsub ![1 + a, 0, 0] demoEskf.nominalState.gyroscopeBias) 1 = ![a, 0, 0] ∧
    (a = 1 → (SO3.exp (![a, 0, 0] : Fin 3 → ℝ)).quaternion.IsUnit) := by
  constructor
  · funext i; fin_cases i <;> simp [vscale, vsub, demoEskf, ErrorStateKalmanFilter.new]
  · rintro rfl
    refine ((exp_spec (![1, 0, 0] : Fin 3 → ℝ)).1 ?_).1
    have e : vnorm (![1, 0, 0] : Fin 3 → ℝ) = 1 := by
      simp [vnorm, vnormSquared, vdot3, real_sqrt]
    rw [e]; norm_num

/-- C102. What the rotation row leaves out: a turn-rate offset error `b` really turns the facing by `-dt · J b`, where `J`
is the right Jacobian of the step's turn; the transition has `-dt · b`. -/
theorem transition_gyroscope_bias (f : ErrorStateKalmanFilter m ℝ)
    (hq : f.nominalState.orientation.quaternion.IsUnit) (gy ac : Fin 3 → ℝ) (dt : ℝ) (d : Fin 15 → ℝ)
    (hd : errGroup d 2 = 0) (v : Fin 3 → ℝ) (i : Fin 3)
    (hturn : let φ := vscale (vsub gy f.nominalState.gyroscopeBias) dt
      1 / 6000 ≤ vdot φ φ) :
    let φ := vscale (vsub gy f.nominalState.gyroscopeBias) dt
    (∀ k, errGroup (f.errorStateTransition gy ac dt *ᵥ d) 2 k = -dt * errGroup d 3 k) ∧
    HasDerivAt (fun ε : ℝ => ((f.nominalState.propagated gy ac dt f.gravity).orientation.inverse.compose
      ((f.nominalState.plusError fun j => ε * d j).propagated gy ac dt f.gravity).orientation).act v i)
      (cross (fun k => -dt * mmulVec (SO3.rightJacobian φ) (errGroup d 3) k) v i) 0 := by
  intro φ
  have hsq := vnorm_sq φ
  have hφ : 30 / 2 ^ 52 < vnorm φ := by
    by_contra hc
    push Not at hc
    have h0 := vnorm_nonneg φ
    have h1 : vnorm φ * vnorm φ ≤ (30 / 2 ^ 52) * (30 / 2 ^ 52) := mul_le_mul hc hc h0 (by norm_num)
    have h2 : (1 / 6000 : ℝ) ≤ vdot φ φ := hturn
    rw [← hsq] at h2
    norm_num at h1 h2
    linarith
  have hu := ((exp_spec φ).1 hφ.le).1
  obtain ⟨-, -, h2⟩ := f.transition_vec hq gy ac dt d
  refine ⟨fun k => ?_, ?_⟩
  · rw [h2 k, hd]; simp
  obtain ⟨a, b, -, -, hab, hder⟩ := so3_left_jacobian_derivative φ hφ
  obtain ⟨ha, hb⟩ := hab hturn
  subst ha hb
  have hη := fun i => hder (fun k => -dt * errGroup d 3 k) v i
  simp only [zero_mul, add_zero] at hη
  have hR := so3_right_jacobian φ (fun k => -dt * errGroup d 3 k) hturn
  have hrel : ∀ ε : ℝ, ((f.nominalState.propagated gy ac dt f.gravity).orientation.inverse.compose
      ((f.nominalState.plusError fun j => ε * d j).propagated gy ac dt f.gravity).orientation).act v =
      (SO3.exp φ).inverse.act ((SO3.exp fun k => φ k + ε * (-dt * errGroup d 3 k)).act v) := by
    intro ε
    have e1 : (![ε * d 6, ε * d 7, ε * d 8] : Fin 3 → ℝ) = fun _ => 0 := by
      funext k
      have := congrFun hd k
      fin_cases k <;> simp_all [errGroup, errIx]
    have e2 : vscale (vsub gy (f.nominalState.plusError fun j => ε * d j).gyroscopeBias) dt =
        fun k => φ k + ε * (-dt * errGroup d 3 k) := by
      funext k
      fin_cases k <;> simp [φ, vscale, vsub, NominalState.plusError, vadd, errGroup, errIx] <;> ring
    have e3 : SO3.exp (fun _ => (0 : ℝ)) = SO3.identity := by
      have := fromScaledAxis_small (φ := fun _ => (0 : ℝ)) (by simp [vnorm, vnormSquared, vdot3, real_sqrt])
      rw [SO3.exp, this]
      simp [SO3.identity, Quat.identity, vnorm, vnormSquared, vdot3, real_sqrt]
    show ((f.nominalState.orientation.compose (SO3.exp φ)).inverse.compose
      ((f.nominalState.orientation.compose (SO3.exp ![ε * d 6, ε * d 7, ε * d 8])).compose
        (SO3.exp (vscale (vsub gy (f.nominalState.plusError fun j => ε * d j).gyroscopeBias) dt)))).act v = _
    rw [e1, e2, e3]
    have e4 : f.nominalState.orientation.compose SO3.identity = f.nominalState.orientation :=
      (so3_group _ _ SO3.identity hq hq 0 0).2.2.2.2.1
    have e5 : (f.nominalState.orientation.compose (SO3.exp φ)).inverse =
        (SO3.exp φ).inverse.compose f.nominalState.orientation.inverse := by
      simp only [SO3.inverse, SO3.compose, Quat.mul, Quat.conjugate]
      congr 1
      apply Quat.ext <;> simp only <;> ring
    rw [e4, e5, act_compose, act_compose, act_compose,
      (so3_group _ _ SO3.identity hq hq _ 0).2.2.2.2.2.2.2.2.2.1]
  simp only [hrel]
  refine (act_deriv (SO3.exp φ).inverse hη i).congr_deriv ?_
  have hlin : mmulVec (SO3.rightJacobian φ) (fun k => -dt * errGroup d 3 k) =
      fun k => -dt * mmulVec (SO3.rightJacobian φ) (errGroup d 3) k := by
    have := Matrix.mulVec_smul (SO3.rightJacobian φ) (-dt) (errGroup d 3)
    rw [mmulVec_eq, mmulVec_eq]
    exact this
  rw [← hlin]
  have hL : SO3.leftJacobian φ = leftJacobianSo3 φ := rfl
  show (SO3.exp φ).inverse.act (cross (mmulVec (SO3.leftJacobian φ) fun k => -dt * errGroup d 3 k)
    ((SO3.exp φ).act v)) i = _
  rw [← hR]
  have hu' : (SO3.exp φ).quaternion.IsUnit := hu
  have hc := (so3_group (SO3.exp φ) (SO3.exp φ) SO3.identity hu' hu'
    (mmulVec (SO3.rightJacobian φ) fun k => -dt * errGroup d 3 k) v).2.2.2.2.2.2.2.2.2.2.2.2.1
  rw [hc, (so3_group (SO3.exp φ) (SO3.exp φ) SO3.identity hu' hu' _ 0).2.2.2.2.2.2.2.2.2.1]

example : let φ := vscale (vsub ![2, 0, 0] demoEskf.nominalState.gyroscopeBias) 1
    (1 : ℝ) / 6000 ≤ vdot φ φ := by
  intro φ
  have : φ = ![1, 0, 0] := by
    funext i; fin_cases i <;> norm_num [φ, vscale, vsub, demoEskf, ErrorStateKalmanFilter.new]
  rw [this, vdot3]; simp; norm_num

/-! ### The sensor's Jacobian -/

/-- The sixteen numbers of a state, which a sensor model reads. -/
def coords {T : Type} (s : NominalState T) : Fin 16 → T :=
  ![s.position 0, s.position 1, s.position 2, s.velocity 0, s.velocity 1, s.velocity 2, s.orientation.quaternion.w,
    s.orientation.quaternion.x, s.orientation.quaternion.y, s.orientation.quaternion.z, s.gyroscopeBias 0,
    s.gyroscopeBias 1, s.gyroscopeBias 2, s.accelerometerBias 0, s.accelerometerBias 1, s.accelerometerBias 2]

/-- A sensor whose outputs are programs over the sixteen numbers, run at both scalar types. -/
noncomputable def sensor {w : ℕ} (program : Fin w → Expr 16) : NominalStateFn w ℝ where
  eval s r := (program r).eval (coords s)
  evalDual s r := (program r).eval (coords s)

/-- How the sixteen numbers start to move when the error starts to move in direction `d`. -/
noncomputable def tangent (s : NominalState ℝ) (d : Fin 15 → ℝ) : Fin 16 → ℝ :=
  let q := s.orientation.quaternion
  let r := q.mul ⟨0, d 6 / 2, d 7 / 2, d 8 / 2⟩
  ![d 0, d 1, d 2, d 3, d 4, d 5, r.w, r.x, r.y, r.z, d 9, d 10, d 11, d 12, d 13, d 14]

theorem coords_deriv (s : NominalState ℝ) (d : Fin 15 → ℝ) (j : Fin 16) :
    HasDerivAt (fun ε : ℝ => coords (s.plusError fun i => ε * d i) j) (tangent s d j) 0 := by
  have line : ∀ a b : ℝ, HasDerivAt (fun ε : ℝ => a + ε * b) b 0 := fun a b => by
    have := ((hasDerivAt_id (0 : ℝ)).mul_const b).const_add a
    simpa using this
  obtain ⟨hw, hx, hy, hz⟩ := exp_entries_deriv (errGroup d 2)
  have e1 : ∀ ε : ℝ, (s.plusError fun i => ε * d i).orientation.quaternion =
      s.orientation.quaternion.mul (Quat.fromScaledAxis fun k => ε * errGroup d 2 k) := by
    intro ε
    have e1 : (![ε * d 6, ε * d 7, ε * d 8] : Fin 3 → ℝ) = fun k => ε * errGroup d 2 k := by
      funext k; fin_cases k <;> rfl
    rw [← e1]
    rfl
  have g6 : errGroup d 2 0 = d 6 := rfl
  have g7 : errGroup d 2 1 = d 7 := rfl
  have g8 : errGroup d 2 2 = d 8 := rfl
  rw [g6] at hx
  rw [g7] at hy
  rw [g8] at hz
  fin_cases j
  · exact line _ _
  · exact line _ _
  · exact line _ _
  · exact line _ _
  · exact line _ _
  · exact line _ _
  · show HasDerivAt (fun ε : ℝ => (s.plusError fun i => ε * d i).orientation.quaternion.w)
      (s.orientation.quaternion.mul ⟨0, d 6 / 2, d 7 / 2, d 8 / 2⟩).w 0
    simp only [e1, Quat.mul]
    exact (((hw.const_mul _).sub (hx.const_mul _)).sub (hy.const_mul _)).sub (hz.const_mul _)
  · show HasDerivAt (fun ε : ℝ => (s.plusError fun i => ε * d i).orientation.quaternion.x)
      (s.orientation.quaternion.mul ⟨0, d 6 / 2, d 7 / 2, d 8 / 2⟩).x 0
    simp only [e1, Quat.mul]
    exact (((hx.const_mul _).add (hw.const_mul _)).add (hz.const_mul _)).sub (hy.const_mul _)
  · show HasDerivAt (fun ε : ℝ => (s.plusError fun i => ε * d i).orientation.quaternion.y)
      (s.orientation.quaternion.mul ⟨0, d 6 / 2, d 7 / 2, d 8 / 2⟩).y 0
    simp only [e1, Quat.mul]
    exact (((hy.const_mul _).sub (hz.const_mul _)).add (hw.const_mul _)).add (hx.const_mul _)
  · show HasDerivAt (fun ε : ℝ => (s.plusError fun i => ε * d i).orientation.quaternion.z)
      (s.orientation.quaternion.mul ⟨0, d 6 / 2, d 7 / 2, d 8 / 2⟩).z 0
    simp only [e1, Quat.mul]
    exact (((hz.const_mul _).add (hy.const_mul _)).sub (hx.const_mul _)).add (hw.const_mul _)
  · exact line _ _
  · exact line _ _
  · exact line _ _
  · exact line _ _
  · exact line _ _
  · exact line _ _

theorem dual_ops (a b : Dual ℝ) (q : ℚ) (k : ℕ) :
    a + b = ⟨a.value + b.value, a.deriv + b.deriv⟩ ∧ a - b = ⟨a.value - b.value, a.deriv - b.deriv⟩ ∧
    a * b = ⟨a.value * b.value, a.value * b.deriv + a.deriv * b.value⟩ ∧
    a / b = ⟨a.value / b.value, (a.deriv * b.value - a.value * b.deriv) / (b.value * b.value)⟩ ∧
    (0 : Dual ℝ) = ⟨0, 0⟩ ∧ (1 : Dual ℝ) = ⟨1, 0⟩ ∧ (Fns.lit q : Dual ℝ) = ⟨q, 0⟩ ∧ ((k : ℕ) : Dual ℝ) = ⟨k, 0⟩ ∧
    (Fns.sqrt a : Dual ℝ) = ⟨Real.sqrt a.value, a.deriv / (((2 : ℕ) : ℝ) * Real.sqrt a.value)⟩ :=
  ⟨rfl, rfl, rfl, rfl, rfl, rfl, rfl, rfl, rfl⟩

/-- Run on dual numbers, the exponential of an error that is zero and moving by `d`. -/
theorem dual_exp (a b c : ℝ) : (SO3.exp (![⟨0, a⟩, ⟨0, b⟩, ⟨0, c⟩] : Fin 3 → Dual ℝ)).quaternion =
    ⟨⟨1, 0⟩, ⟨0, a / 2⟩, ⟨0, b / 2⟩, ⟨0, c / 2⟩⟩ := by
  have hadd := fun a b => (dual_ops a b 0 0).1
  have hsub := fun a b => (dual_ops a b 0 0).2.1
  have hmul := fun a b => (dual_ops a b 0 0).2.2.1
  have hdiv := fun a b => (dual_ops a b 0 0).2.2.2.1
  have h0 := (dual_ops 0 0 0 0).2.2.2.2.1
  have h1 := (dual_ops 0 0 0 0).2.2.2.2.2.1
  have hlit := fun q => (dual_ops 0 0 q 0).2.2.2.2.2.2.1
  have hnat := fun k => (dual_ops 0 0 0 k).2.2.2.2.2.2.2.1
  have hhalf : (half : Dual ℝ) = ⟨1 / 2, 0⟩ := by
    show (1 : Dual ℝ) / ((2 : ℕ) : Dual ℝ) = _
    rw [hdiv, h1, hnat]; simp
  have hdot : vdot (![⟨0, a⟩, ⟨0, b⟩, ⟨0, c⟩] : Fin 3 → Dual ℝ) ![⟨0, a⟩, ⟨0, b⟩, ⟨0, c⟩] = ⟨0, 0⟩ := by
    show (0 + (⟨0, a⟩ : Dual ℝ) * ⟨0, a⟩ + (⟨0, b⟩ : Dual ℝ) * ⟨0, b⟩ + (⟨0, c⟩ : Dual ℝ) * ⟨0, c⟩ : Dual ℝ) = _
    simp [hadd, hmul, h0]
  have hsm : (⟨0, 0⟩ : Dual ℝ) < smallAngleSq := by
    show (0 : ℝ) < (Fns.epsilon * ((30 : ℕ) : ℝ)) * (Fns.epsilon * ((30 : ℕ) : ℝ))
    have : (Fns.epsilon : ℝ) = 1 / 2 ^ 52 := rfl
    rw [this]
    positivity
  simp only [SO3.exp, Quat.fromScaledAxis, hdot, if_pos hsm]
  simp [hhalf, hadd, hmul, hsub, hdiv, h1, hlit, hnat]
  refine ⟨?_, ?_, ?_⟩ <;> ring

theorem lifted_coords (s : NominalState ℝ) (hs : s.orientation.quaternion.IsUnit) (d : Fin 15 → ℝ) :
    coords (s.liftedToDual.plusError fun i => ⟨0, d i⟩) = fun j => ⟨coords s j, tangent s d j⟩ := by
  have hadd := fun a b => (dual_ops a b 0 0).1
  have hsub := fun a b => (dual_ops a b 0 0).2.1
  have hmul := fun a b => (dual_ops a b 0 0).2.2.1
  have hdiv := fun a b => (dual_ops a b 0 0).2.2.2.1
  have h1 := (dual_ops 0 0 0 0).2.2.2.2.2.1
  have hsqrt := fun a => (dual_ops a 0 0 0).2.2.2.2.2.2.2.2
  have hq : s.liftedToDual.orientation.quaternion = ⟨⟨s.orientation.quaternion.w, 0⟩, ⟨s.orientation.quaternion.x, 0⟩,
      ⟨s.orientation.quaternion.y, 0⟩, ⟨s.orientation.quaternion.z, 0⟩⟩ := by
    have n1 : s.orientation.quaternion.w * s.orientation.quaternion.w +
        s.orientation.quaternion.x * s.orientation.quaternion.x + s.orientation.quaternion.y * s.orientation.quaternion.y +
        s.orientation.quaternion.z * s.orientation.quaternion.z = 1 := by
      rw [Quat.IsUnit] at hs; linarith
    simp [NominalState.liftedToDual, SO3.fromQuaternion, Quat.normalized, Quat.scale, Quat.norm, Quat.normSquared,
      Dual.constant, hadd, hmul, hsqrt, hdiv, h1, n1]
  have hr : (s.liftedToDual.plusError fun i => (⟨0, d i⟩ : Dual ℝ)).orientation.quaternion =
      (⟨⟨s.orientation.quaternion.w, 0⟩, ⟨s.orientation.quaternion.x, 0⟩,
      ⟨s.orientation.quaternion.y, 0⟩, ⟨s.orientation.quaternion.z, 0⟩⟩ : Quat (Dual ℝ)).mul
      ⟨⟨1, 0⟩, ⟨0, d 6 / 2⟩, ⟨0, d 7 / 2⟩, ⟨0, d 8 / 2⟩⟩ := by
    rw [← hq, ← dual_exp]
    rfl
  have hv : ∀ a b : ℝ, (Dual.constant a + ⟨0, b⟩ : Dual ℝ) = ⟨a, b⟩ := by
    intro a b; simp [Dual.constant, hadd]
  funext j
  fin_cases j
  · exact hv _ _
  · exact hv _ _
  · exact hv _ _
  · exact hv _ _
  · exact hv _ _
  · exact hv _ _
  · show (s.liftedToDual.plusError fun i => (⟨0, d i⟩ : Dual ℝ)).orientation.quaternion.w =
      ⟨s.orientation.quaternion.w, (s.orientation.quaternion.mul ⟨0, d 6 / 2, d 7 / 2, d 8 / 2⟩).w⟩
    rw [hr]; simp [Quat.mul, hadd, hmul, hsub]
  · show (s.liftedToDual.plusError fun i => (⟨0, d i⟩ : Dual ℝ)).orientation.quaternion.x =
      ⟨s.orientation.quaternion.x, (s.orientation.quaternion.mul ⟨0, d 6 / 2, d 7 / 2, d 8 / 2⟩).x⟩
    rw [hr]; simp [Quat.mul, hadd, hmul, hsub]
  · show (s.liftedToDual.plusError fun i => (⟨0, d i⟩ : Dual ℝ)).orientation.quaternion.y =
      ⟨s.orientation.quaternion.y, (s.orientation.quaternion.mul ⟨0, d 6 / 2, d 7 / 2, d 8 / 2⟩).y⟩
    rw [hr]; simp [Quat.mul, hadd, hmul, hsub]
  · show (s.liftedToDual.plusError fun i => (⟨0, d i⟩ : Dual ℝ)).orientation.quaternion.z =
      ⟨s.orientation.quaternion.z, (s.orientation.quaternion.mul ⟨0, d 6 / 2, d 7 / 2, d 8 / 2⟩).z⟩
    rw [hr]; simp [Quat.mul, hadd, hmul, hsub]
  · exact hv _ _
  · exact hv _ _
  · exact hv _ _
  · exact hv _ _
  · exact hv _ _
  · exact hv _ _

/-- C102. For every sensor program that is smooth where the estimate is, column `c` of the Jacobian the filter uses is the
derivative of the reading as the error in direction `c` grows from zero, with the rotation error folded in on the body's
side. -/
theorem measurement_jacobian_exact {w : ℕ} (f : ErrorStateKalmanFilter m ℝ) (program : Fin w → Expr 16)
    (hq : f.nominalState.orientation.quaternion.IsUnit) (hsm : ∀ r, (program r).SmoothAt (coords f.nominalState))
    (r : Fin w) (c : Fin 15) :
    HasDerivAt (fun ε : ℝ => (sensor program).eval (f.nominalState.plusError fun i => if i = c then ε else 0) r)
      (f.measurementJacobian (sensor program) r c) 0 := by
  have hz : coords (f.nominalState.plusError fun i => (0 : ℝ) * (if i = c then 1 else 0)) = coords f.nominalState := by
    have e0 : (fun i : Fin 15 => (0 : ℝ) * (if i = c then 1 else 0)) = fun _ => 0 := by funext i; simp
    rw [e0]
    have e3 : SO3.exp (![0, 0, 0] : Fin 3 → ℝ) = SO3.identity := by
      have hv : (![0, 0, 0] : Fin 3 → ℝ) = fun _ => 0 := by funext k; fin_cases k <;> rfl
      rw [hv]
      have := fromScaledAxis_small (φ := fun _ => (0 : ℝ)) (by simp [vnorm, vnormSquared, vdot3, real_sqrt])
      rw [SO3.exp, this]
      simp [SO3.identity, Quat.identity, vnorm, vnormSquared, vdot3, real_sqrt]
    have hs : f.nominalState.plusError (fun _ => 0) = f.nominalState := by
      apply NominalState.ext
      · funext k; fin_cases k <;> simp [NominalState.plusError, vadd]
      · funext k; fin_cases k <;> simp [NominalState.plusError, vadd]
      · show f.nominalState.orientation.compose (SO3.exp ![0, 0, 0]) = _
        rw [e3]
        exact (so3_group _ _ SO3.identity hq hq 0 0).2.2.2.2.1
      · funext k; fin_cases k <;> simp [NominalState.plusError, vadd]
      · funext k; fin_cases k <;> simp [NominalState.plusError, vadd]
    rw [hs]
  have hd := Expr.dual_hasDerivAt (program r)
    (c := fun ε : ℝ => coords (f.nominalState.plusError fun i => ε * (if i = c then 1 else 0)))
    (coords_deriv f.nominalState fun i => if i = c then 1 else 0) (t := 0) (by rw [hz]; exact hsm r)
  have e1 : ∀ ε : ℝ, (fun i : Fin 15 => ε * (if i = c then (1 : ℝ) else 0)) = fun i => if i = c then ε else 0 := by
    intro ε; funext i; split_ifs <;> simp
  rw [hz] at hd
  simp only [e1] at hd
  refine hd.congr_deriv ?_
  have e2 : (fun i : Fin 15 => if i = c then Dual.variable' (0 : ℝ) else Dual.constant 0) =
      fun i => (⟨0, if i = c then 1 else 0⟩ : Dual ℝ) := by
    funext i; split_ifs <;> rfl
  unfold measurementJacobian
  rw [e2]
  show _ = ((program r).eval (coords (f.nominalState.liftedToDual.plusError fun i =>
    (⟨0, if i = c then 1 else 0⟩ : Dual ℝ)))).deriv
  rw [lifted_coords _ hq]

example : ∀ r : Fin 1, ((![.bin .mul (.var 6) (.var 0)] : Fin 1 → Expr 16) r).SmoothAt (coords demoEskf.nominalState) := by
  intro r; fin_cases r; exact ⟨trivial, trivial, trivial⟩

/-! ### The spread against a known truth -/

/-- C102. Against a known truth the normalised squared error is defined whenever the covariance is positive definite, as
every history keeps it; it is the quadratic form of the inverse covariance, never negative, and zero exactly when the two
states differ by no error. -/
theorem nees_spec (f : ErrorStateKalmanFilter m ℝ) (truth : NominalState ℝ) (hP : Pd f.covariance) :
    let e := truth.errorFrom f.nominalState
    ∃ x, f.normalizedEstimationErrorSquared truth = .ok x ∧ x = e ⬝ᵥ f.covariance⁻¹ *ᵥ e ∧ 0 ≤ x ∧ (x = 0 ↔ e = 0) := by
  intro e
  obtain ⟨L, hL⟩ := cholesky_ok_of_pd f.covariance hP.1 hP.2
  have hs := (cholesky_factors (k := 0) f.covariance L hP.1 hL).2.2.2.1 e
  have hx : choleskySolve L e = f.covariance⁻¹ *ᵥ e := by
    refine ((hs _).1 ?_).symm
    rw [mmulVec_eq, mulVec_mulVec, mul_nonsing_inv _ hP.det, one_mulVec]
  refine ⟨e ⬝ᵥ f.covariance⁻¹ *ᵥ e, ?_, rfl, hP.inv.psd.2 e, fun h => ?_, fun h => by rw [h]; simp⟩
  · unfold normalizedEstimationErrorSquared
    rw [hL]
    dsimp only
    rw [vdot_eq]
    rw [show truth.errorFrom f.nominalState = e from rfl, hx]
  · by_contra hne
    exact (hP.inv.2 e hne).ne' h

example : Pd demoEskf.covariance := demoEskf_pd.1

/-- C102. The normalised innovation is the stored innovation weighed by the inverse of the stored innovation covariance,
never negative; a filter that has folded in nothing has none to give. -/
theorem eskf_normalized_innovation (f : ErrorStateKalmanFilter (m + 1) ℝ) (hS : Pd f.innovationCovariance)
    (state : NominalState ℝ) (P : Matrix (Fin 15) (Fin 15) ℝ) (noise : ImuNoise ℝ) (R : Matrix (Fin (m + 1)) (Fin (m + 1)) ℝ) :
    (∃ ν, f.normalizedInnovationSquared = .ok ν ∧ 0 ≤ ν ∧ ν = f.innovation ⬝ᵥ f.innovationCovariance⁻¹ *ᵥ f.innovation)
    ∧ (new state P noise R).normalizedInnovationSquared = .error .notPositiveDefinite := by
  constructor
  · obtain ⟨L, hL⟩ := cholesky_ok_of_pd _ hS.1 hS.2
    have hsol := ((cholesky_factors (k := 0) _ L hS.1 hL).2.2.2.1 f.innovation
      (f.innovationCovariance⁻¹ *ᵥ f.innovation)).1
      (by rw [mmulVec_eq, mulVec_mulVec, mul_nonsing_inv _ hS.det, one_mulVec])
    refine ⟨_, ?_, hS.inv.psd.2 f.innovation, rfl⟩
    unfold normalizedInnovationSquared
    rw [hL]
    dsimp only
    rw [← hsol, vdot_eq]
  · have hz : (new state P noise R).innovationCovariance = (0 : Matrix _ _ ℝ) := rfl
    unfold normalizedInnovationSquared
    rw [hz]
    obtain ⟨h1, h2⟩ := cholesky_iff_positive_definite (0 : Matrix (Fin (m + 1)) (Fin (m + 1)) ℝ) (by simp [Matrix.IsSymm])
    cases hc : cholesky (0 : Matrix (Fin (m + 1)) (Fin (m + 1)) ℝ) with
    | error e => rfl
    | ok L =>
      exfalso
      have := h1.1 ⟨L, hc⟩ (fun _ => 1) (by intro h; exact one_ne_zero (congrFun h 0))
      rw [vdot_eq, mmulVec_eq] at this
      simp at this

example : Pd ({ demoEskf with innovationCovariance := 1 }).innovationCovariance := pd_one

/-! ### The noise figures -/

/-- `n` predictions in a row with the same readings and timestep. -/
noncomputable def predicted (f : ErrorStateKalmanFilter m ℝ) (gy ac : Fin 3 → ℝ) (dt : ℝ) : ℕ → ErrorStateKalmanFilter m ℝ
  | 0 => f
  | n + 1 => ((f.predicted gy ac dt n).predict gy ac dt).1

/-- C102 (finding). The jitter figures are documented per square root hertz, which makes the spread a stretch of time
builds up independent of how often the sensor is read.  The filter takes the figure as the deviation of each reading
instead: over the same time `τ`, read `n` times, the velocity's variance grows by `a² τ² / n`, so reading four times as
often claims a quarter of the variance.  -/
theorem noise_density_depends_on_rate (f : ErrorStateKalmanFilter m ℝ) (hP : f.covariance = 0) (a τ : ℝ)
    (hτ : 0 ≤ τ) (hn : f.imuNoise = ⟨0, a, 0, 0⟩) (gy ac : Fin 3 → ℝ) (n : ℕ) (hpos : 0 < n) (i : Fin 3) :
    (f.predicted gy ac (τ / n) n).covariance (errIx 1 i) (errIx 1 i) = a ^ 2 * τ ^ 2 / n := by
  set dt := τ / n with hdt
  have hdt0 : 0 ≤ dt := by positivity
  suffices key : ∀ k, Psd (f.predicted gy ac dt k).covariance ∧ (f.predicted gy ac dt k).imuNoise = f.imuNoise ∧
      (∀ p q : Fin 5, ∀ i j, 2 ≤ p → (f.predicted gy ac dt k).covariance (errIx p i) (errIx q j) = 0) ∧
      ∀ i, (f.predicted gy ac dt k).covariance (errIx 1 i) (errIx 1 i) = k * (a * dt) ^ 2 by
    rw [(key n).2.2.2 i, hdt]
    have : (n : ℝ) ≠ 0 := by positivity
    field_simp
  intro k
  induction k with
  | zero =>
    refine ⟨?_, rfl, fun p q i j _ => ?_, fun i => ?_⟩
    · show Psd f.covariance; rw [hP]; exact psd_zero
    · show f.covariance _ _ = 0; rw [hP]; rfl
    · show f.covariance _ _ = _; rw [hP]; simp
  | succ k ih =>
    obtain ⟨h1, h2, h3, h4⟩ := ih
    set g := f.predicted gy ac dt k with hg
    obtain ⟨g', hp, hg', hs, -⟩ := g.eskf_predict gy ac dt h1
    have e : f.predicted gy ac dt (k + 1) = g' := by
      show (g.predict gy ac dt).1 = _; rw [hp]
    have h3' : ∀ p q : Fin 5, ∀ i j, 2 ≤ q → g.covariance (errIx p i) (errIx q j) = 0 := fun p q i j hq => by
      rw [← h1.1]; exact h3 q p j i hq
    have hc : ∀ p q : Fin 5, ∀ i j, g'.covariance (errIx p i) (errIx q j) =
        (∑ p', ∑ i', ∑ q', ∑ j', g.errorStateTransition gy ac dt (errIx p i) (errIx p' i') *
          g.covariance (errIx p' i') (errIx q' j') * g.errorStateTransition gy ac dt (errIx q j) (errIx q' j')) +
        if errIx p i = errIx q j then stepNoise g.imuNoise dt (errIx p i) else 0 := by
      intro p q i j
      rw [hg']
      simp only [Matrix.add_apply, Matrix.diagonal_apply]
      congr 1
      rw [Matrix.mul_assoc, Matrix.mul_apply, errIx_sum]
      refine Finset.sum_congr rfl fun p' _ => Finset.sum_congr rfl fun i' _ => ?_
      rw [Matrix.mul_apply, errIx_sum, Finset.mul_sum]
      refine Finset.sum_congr rfl fun q' _ => ?_
      rw [Finset.mul_sum]
      refine Finset.sum_congr rfl fun j' _ => ?_
      rw [Matrix.transpose_apply, mul_assoc]
    refine ⟨by rw [e]; exact hs hdt0, by rw [e, hg']; exact h2, fun p q i j hp2 => ?_, fun i => ?_⟩
    · rw [e, hc]
      have z1 : ∀ p' i' q' j', g.errorStateTransition gy ac dt (errIx p i) (errIx p' i') *
          g.covariance (errIx p' i') (errIx q' j') * g.errorStateTransition gy ac dt (errIx q j) (errIx q' j') = 0 := by
        intro p' i' q' j'
        by_cases h : 2 ≤ p'
        · rw [h3 p' q' i' j' h]; ring
        · rw [transition_blocks, blockTransition_ix]
          have : p ≠ p' := fun h' => h (h' ▸ hp2)
          have a2 : p' ≠ 2 := fun h' => h (h' ▸ le_refl _)
          have a3 : p' ≠ 3 := fun h' => h (h' ▸ by decide)
          have a4 : p ≠ 1 := fun h' => absurd hp2 (h' ▸ by decide)
          have a5 : p ≠ 0 := fun h' => absurd hp2 (h' ▸ by decide)
          simp [this, a2, a3, a4, a5]
      simp only [z1, Finset.sum_const_zero, zero_add]
      split_ifs with h
      · rw [h2, hn]
        have hv : 6 ≤ (errIx p i).val := by
          have : (2 : ℕ) ≤ p.val := hp2
          simp only [errIx]; omega
        simp only [stepNoise]
        rw [if_neg (by omega), if_neg (by omega)]
        split_ifs <;> simp
      · rfl
    · rw [e, hc, if_pos rfl]
      have hrow : ∀ q j, ¬ 2 ≤ q → g.errorStateTransition gy ac dt (errIx 1 i) (errIx q j) =
          if q = 1 then (1 : Matrix (Fin 3) (Fin 3) ℝ) i j else 0 := by
        intro q j hq
        rw [transition_blocks, blockTransition_ix]
        have a2 : q ≠ 2 := fun h' => hq (h' ▸ le_refl _)
        have a4 : q ≠ 4 := fun h' => hq (h' ▸ by decide)
        simp [a2, a4, eq_comm]
      have hsum : (∑ p', ∑ i', ∑ q', ∑ j', g.errorStateTransition gy ac dt (errIx 1 i) (errIx p' i') *
          g.covariance (errIx p' i') (errIx q' j') * g.errorStateTransition gy ac dt (errIx 1 i) (errIx q' j')) =
          ∑ p' : Fin 5, ∑ i', ∑ q' : Fin 5, ∑ j', (if p' = 1 ∧ q' = 1 ∧ i' = i ∧ j' = i then
            g.covariance (errIx 1 i) (errIx 1 i) else 0) := by
        refine Finset.sum_congr rfl fun p' _ => Finset.sum_congr rfl fun i' _ => Finset.sum_congr rfl fun q' _ =>
          Finset.sum_congr rfl fun j' _ => ?_
        by_cases hp' : 2 ≤ p'
        · rw [h3 _ _ _ _ hp', if_neg (by rintro ⟨rfl, -⟩; exact absurd hp' (by decide))]; ring
        by_cases hq' : 2 ≤ q'
        · rw [h3' _ _ _ _ hq', if_neg (by rintro ⟨-, rfl, -⟩; exact absurd hq' (by decide))]; ring
        rw [hrow _ _ hp', hrow _ _ hq']
        by_cases x1 : p' = 1
        · by_cases x2 : q' = 1
          · subst x1 x2
            by_cases x3 : i' = i
            · by_cases x4 : j' = i
              · subst x3; subst x4; simp
              · simp [x4, Matrix.one_apply, Ne.symm x4]
            · simp [x3, Matrix.one_apply, Ne.symm x3]
          · simp [x2]
        · simp [x1]
      rw [hsum]
      have hone : (∑ p' : Fin 5, ∑ i' : Fin 3, ∑ q' : Fin 5, ∑ j' : Fin 3, (if p' = 1 ∧ q' = 1 ∧ i' = i ∧ j' = i then
            g.covariance (errIx 1 i) (errIx 1 i) else 0)) = g.covariance (errIx 1 i) (errIx 1 i) := by
        rw [Finset.sum_eq_single 1, Finset.sum_eq_single i, Finset.sum_eq_single 1, Finset.sum_eq_single i]
        · simp
        · intro b _ hb; simp [hb]
        · simp
        · intro b _ hb; simp [hb]
        · simp
        · intro b _ hb; simp [hb]
        · simp
        · intro b _ hb; simp [hb]
        · simp
      rw [hone, h4, h2, hn]
      have hv : stepNoise (⟨0, a, 0, 0⟩ : ImuNoise ℝ) dt (errIx 1 i) = (a * dt) ^ 2 := by
        have e1 : (errIx 1 i).val = 3 + i.val := rfl
        unfold stepNoise
        rw [if_neg (by omega), if_pos (by omega)]
      rw [hv]; push_cast; ring

example : let f := { demoEskf with covariance := 0, imuNoise := ⟨0, 1, 0, 0⟩ }
    (f.predicted 0 0 (1 / (100 : ℕ)) 100).covariance 3 3 = 1 / 100 ∧
    (f.predicted 0 0 (1 / (400 : ℕ)) 400).covariance 3 3 = 1 / 400 := by
  intro f
  have h1 := f.noise_density_depends_on_rate rfl 1 1 (by norm_num) rfl 0 0 100 (by norm_num) 0
  have h2 := f.noise_density_depends_on_rate rfl 1 1 (by norm_num) rfl 0 0 400 (by norm_num) 0
  norm_num at h1 h2 ⊢
  exact ⟨h1, h2⟩

/-- C102. The offsets' own variances grow by the square of the walk figure times the time, whatever the rate and whatever
the covariance was. -/
theorem random_walk_rate_free (f : ErrorStateKalmanFilter m ℝ) (hP : Psd f.covariance) (τ : ℝ) (hτ : 0 ≤ τ)
    (gy ac : Fin 3 → ℝ) (n : ℕ) (hpos : 0 < n) (i : Fin 3) :
    (f.predicted gy ac (τ / n) n).covariance (errIx 3 i) (errIx 3 i) =
      f.covariance (errIx 3 i) (errIx 3 i) + f.imuNoise.gyroscopeBiasRandomWalk ^ 2 * τ ∧
    (f.predicted gy ac (τ / n) n).covariance (errIx 4 i) (errIx 4 i) =
      f.covariance (errIx 4 i) (errIx 4 i) + f.imuNoise.accelerometerBiasRandomWalk ^ 2 * τ := by
  set dt := τ / n with hdt
  have hdt0 : 0 ≤ dt := by positivity
  suffices key : ∀ k, Psd (f.predicted gy ac dt k).covariance ∧ (f.predicted gy ac dt k).imuNoise = f.imuNoise ∧
      (f.predicted gy ac dt k).covariance (errIx 3 i) (errIx 3 i) =
        f.covariance (errIx 3 i) (errIx 3 i) + k * (f.imuNoise.gyroscopeBiasRandomWalk ^ 2 * dt) ∧
      (f.predicted gy ac dt k).covariance (errIx 4 i) (errIx 4 i) =
        f.covariance (errIx 4 i) (errIx 4 i) + k * (f.imuNoise.accelerometerBiasRandomWalk ^ 2 * dt) by
    obtain ⟨-, -, h3, h4⟩ := key n
    have : (n : ℝ) ≠ 0 := by positivity
    rw [h3, h4, hdt]
    constructor <;> field_simp
  intro k
  induction k with
  | zero => exact ⟨hP, rfl, by simp [predicted], by simp [predicted]⟩
  | succ k ih =>
    obtain ⟨h1, h2, h3, h4⟩ := ih
    set g := f.predicted gy ac dt k with hg
    obtain ⟨g', hp, hg', hs, -⟩ := g.eskf_predict gy ac dt h1
    have e : f.predicted gy ac dt (k + 1) = g' := by
      show (g.predict gy ac dt).1 = _; rw [hp]
    have hc : ∀ p : Fin 5, 3 ≤ p → ∀ i, g'.covariance (errIx p i) (errIx p i) =
        g.covariance (errIx p i) (errIx p i) + stepNoise g.imuNoise dt (errIx p i) := by
      intro p hp3 i
      rw [hg']
      simp only [Matrix.add_apply, Matrix.diagonal_apply_eq]
      congr 1
      have hrow : ∀ q j, g.errorStateTransition gy ac dt (errIx p i) (errIx q j) =
          (1 : Matrix (Fin 15) (Fin 15) ℝ) (errIx p i) (errIx q j) := by
        intro q j
        rw [transition_blocks, blockTransition_ix, ← midentity_eq (n := 15), one_ix]
        have a2 : p ≠ 2 := fun h' => absurd hp3 (h' ▸ by decide)
        have a4 : p ≠ 1 := fun h' => absurd hp3 (h' ▸ by decide)
        have a5 : p ≠ 0 := fun h' => absurd hp3 (h' ▸ by decide)
        simp [a2, a4, a5]
      have hrow' : (g.errorStateTransition gy ac dt) (errIx p i) = (1 : Matrix (Fin 15) (Fin 15) ℝ) (errIx p i) := by
        apply err_ext
        intro q; funext j; exact hrow q j
      rw [Matrix.mul_assoc, Matrix.mul_apply_eq_vecMul, hrow', ← Matrix.mul_apply_eq_vecMul, Matrix.one_mul,
        Matrix.mul_apply]
      simp only [Matrix.transpose_apply, hrow', Matrix.one_apply]
      simp
    refine ⟨by rw [e]; exact hs hdt0, by rw [e, hg']; exact h2, ?_, ?_⟩
    · rw [e, hc 3 (by decide), h3, h2]
      have : stepNoise f.imuNoise dt (errIx 3 i) = f.imuNoise.gyroscopeBiasRandomWalk ^ 2 * dt := by
        have e1 : (errIx 3 i).val = 9 + i.val := rfl
        unfold stepNoise
        rw [if_neg (by omega), if_neg (by omega), if_neg (by omega), if_pos (by omega)]
      rw [this]; push_cast; ring
    · rw [e, hc 4 (by decide), h4, h2]
      have : stepNoise f.imuNoise dt (errIx 4 i) = f.imuNoise.accelerometerBiasRandomWalk ^ 2 * dt := by
        have e1 : (errIx 4 i).val = 12 + i.val := rfl
        unfold stepNoise
        rw [if_neg (by omega), if_neg (by omega), if_neg (by omega), if_neg (by omega)]
      rw [this]; push_cast; ring

example : (demoEskf.predicted 0 0 (2 / (100 : ℕ)) 100).covariance 9 9 = 19 := by
  have h := (demoEskf.random_walk_rate_free demoEskf_pd.2.2 2 (by norm_num) 0 0 100 (by norm_num) 0).1
  have e : demoEskf.covariance (errIx 3 0) (errIx 3 0) = 1 := Matrix.one_apply_eq _
  rw [e] at h
  refine h.trans ?_
  norm_num [demoEskf, ErrorStateKalmanFilter.new]

/-! ### Bad input, for every scalar type -/

section refusal
variable {T : Type} [Zero T] [One T] [NatCast T] [Add T] [Sub T] [Mul T] [Div T] [Neg T] [LT T]
  [DecidableLT T] [LE T] [DecidableLE T] [BEq T] [Max T] [Fns T]

theorem not_vIsFinite {n : ℕ} {z : Fin n → T} (h : ∃ i, Fns.isFinite (z i) = false) : vIsFinite z = false := by
  obtain ⟨i, hi⟩ := h
  rw [← Bool.not_eq_true, vIsFinite, List.all_eq_true]
  intro hc
  rw [hc i (List.mem_finRange i)] at hi
  cases hi

/-- C102, C59. For every scalar type: a reading, timestep, measurement or residual with an entry that is not finite, in
any position, is refused as such and changes nothing at all. -/
theorem eskf_refuses {w : ℕ} (f : ErrorStateKalmanFilter m T) (gy ac : Fin 3 → T) (dt : T) (model : NominalStateFn m T)
    (z : Fin m → T) (other : NominalStateFn w T) (r : Fin w → T) (R : Matrix (Fin w) (Fin w) T) :
    ((∃ i, Fns.isFinite (gy i) = false) ∨ (∃ i, Fns.isFinite (ac i) = false) ∨ Fns.isFinite dt = false →
      f.predict gy ac dt = (f, .error .nonFinite)) ∧
    ((∃ i, Fns.isFinite (z i) = false) → f.update model z = (f, .error .nonFinite) ∧
      f.updateWithResidual model z = (f, .error .nonFinite)) ∧
    ((∃ i, Fns.isFinite (r i) = false) → f.updateOther other r R = (f, .error .nonFinite)) := by
  refine ⟨fun h => ?_, fun h => ⟨?_, ?_⟩, fun h => ?_⟩
  · unfold predict
    rw [if_pos]
    rcases h with h | h | h
    · simp [not_vIsFinite h]
    · simp [not_vIsFinite h]
    · simp [h]
  · unfold update
    rw [if_pos (by rw [not_vIsFinite h]; rfl)]
  · unfold updateWithResidual foldIn
    rw [if_pos (by rw [not_vIsFinite h]; rfl)]
  · unfold updateOther foldIn
    rw [if_pos (by rw [not_vIsFinite h]; rfl)]

example : ∃ i, Fns.isFinite ((![XR.fin 0, XR.nan, XR.fin 1] : Fin 3 → XR) i) = false := ⟨1, rfl⟩

/-- C102, C59. For every scalar type: a correction or conditioning that fails, for whatever reason, leaves the whole filter
as it was, the stored innovation included.  A prediction that fails leaves it as it was too, or has already moved the state
and replaced the covariance by one that is not finite.  A prediction that succeeds leaves a finite state and covariance. -/
theorem eskf_failure_keeps {w : ℕ} (f : ErrorStateKalmanFilter m T) (gy ac : Fin 3 → T) (dt : T)
    (model : NominalStateFn m T) (z : Fin m → T) (other : NominalStateFn w T) (r : Fin w → T)
    (R : Matrix (Fin w) (Fin w) T) (least : T) :
    (∀ e, (f.update model z).2 = .error e → (f.update model z).1 = f) ∧
    (∀ e, (f.updateWithResidual model z).2 = .error e → (f.updateWithResidual model z).1 = f) ∧
    (∀ e, (f.updateOther other r R).2 = .error e → (f.updateOther other r R).1 = f) ∧
    (∀ e, (f.conditionCovariance least).2 = .error e → (f.conditionCovariance least).1 = f) ∧
    (∀ e, (f.predict gy ac dt).2 = .error e → (f.predict gy ac dt).1 = f ∨
      ∃ P, mIsFinite P = false ∧ (f.predict gy ac dt).1 =
        { f with nominalState := f.nominalState.propagated gy ac dt f.gravity, covariance := P }) ∧
    ((f.predict gy ac dt).2 = .ok () → (f.predict gy ac dt).1.nominalState.isFinite = true ∧
      mIsFinite (f.predict gy ac dt).1.covariance = true) := by
  have hfold : ∀ {w : ℕ} (model : NominalStateFn w T) r R e, (f.foldIn model r R).2 = .error e →
      (f.foldIn model r R).1 = f := by
    intro w model r R e he
    unfold foldIn at he ⊢
    dsimp only at he ⊢
    split_ifs at he ⊢
    · rfl
    · rfl
    · rfl
    · split at he <;> rename_i hc
      · rfl
      · cases he
  have hres : ∀ y e, (f.updateWithResidual model y).2 = .error e → (f.updateWithResidual model y).1 = f := by
    intro y e he
    have := hfold model y f.measurementNoise
    unfold updateWithResidual at he ⊢
    rcases hx : f.foldIn model y f.measurementNoise with ⟨g, _ | S⟩
    · rw [hx] at this; exact this _ rfl
    · rw [hx] at he; cases he
  refine ⟨fun e he => ?_, hres z, fun e he => ?_, fun e he => ?_, fun e he => ?_, fun h => ?_⟩
  · unfold update at he ⊢
    split_ifs at he ⊢
    · rfl
    · exact hres _ _ he
  · have := hfold other r R
    unfold updateOther at he ⊢
    rcases hx : f.foldIn other r R with ⟨g, _ | S⟩
    · rw [hx] at this; exact this _ rfl
    · rw [hx] at he; cases he
  · unfold conditionCovariance at he ⊢
    split at he <;> rename_i hc
    · rfl
    · cases he
  · unfold predict at he ⊢
    dsimp only at he ⊢
    split_ifs at he ⊢ with h1 h2 h3
    · exact Or.inl rfl
    · exact Or.inl rfl
    · exact Or.inr ⟨_, by simpa using h3, rfl⟩
  · unfold predict at h ⊢
    dsimp only at h ⊢
    split_ifs at h ⊢ with h1 h2 h3
    simp only [Bool.or_eq_true, not_or] at h2
    exact ⟨by simpa using h2.1, by simpa using h3⟩

end refusal

/-- A number, neither infinite nor not-a-number. -/
def IsNumber (x : XR) : Prop := ∃ r, x = XR.fin r

theorem IsNumber.isFinite {x : XR} (h : IsNumber x) : Fns.isFinite x = true := by
  obtain ⟨r, rfl⟩ := h; rfl

theorem isNumber_fin (r : ℝ) : IsNumber (XR.fin r) := ⟨r, rfl⟩
theorem isNumber_zero : IsNumber 0 := ⟨0, rfl⟩
theorem isNumber_one : IsNumber 1 := ⟨1, rfl⟩

theorem IsNumber.add {x y : XR} (hx : IsNumber x) (hy : IsNumber y) : IsNumber (x + y) := by
  obtain ⟨a, rfl⟩ := hx; obtain ⟨b, rfl⟩ := hy; exact ⟨_, XR.fin_add a b⟩

theorem IsNumber.sub {x y : XR} (hx : IsNumber x) (hy : IsNumber y) : IsNumber (x - y) := by
  obtain ⟨a, rfl⟩ := hx; obtain ⟨b, rfl⟩ := hy; exact ⟨_, XR.fin_sub a b⟩

theorem IsNumber.mul {x y : XR} (hx : IsNumber x) (hy : IsNumber y) : IsNumber (x * y) := by
  obtain ⟨a, rfl⟩ := hx; obtain ⟨b, rfl⟩ := hy; exact ⟨_, XR.fin_mul a b⟩

theorem IsNumber.neg {x : XR} (hx : IsNumber x) : IsNumber (-x) := by
  obtain ⟨a, rfl⟩ := hx; exact ⟨_, XR.fin_neg a⟩

theorem IsNumber.sumLoop {n : ℕ} {g : Fin n → XR} (h : ∀ i, IsNumber (g i)) : IsNumber (sumLoop n g) := by
  unfold Multicalc.sumLoop
  generalize List.finRange n = l
  suffices key : ∀ acc, IsNumber acc → IsNumber (l.foldl (fun acc i => acc + g i) acc) from key 0 isNumber_zero
  induction l with
  | nil => exact fun _ h => h
  | cons i l ih => exact fun acc ha => ih _ (ha.add (h i))

theorem isNumber_writeBlock {M : Matrix (Fin 15) (Fin 15) XR} {B : Matrix (Fin 3) (Fin 3) XR} (a b : ℕ)
    (hM : ∀ i j, IsNumber (M i j)) (hB : ∀ i j, IsNumber (B i j)) (i j : Fin 15) : IsNumber (writeBlock M a b B i j) := by
  unfold writeBlock
  split_ifs
  · exact hB _ _
  · exact hM _ _

theorem isNumber_identity (n : ℕ) (i j : Fin n) : IsNumber ((midentity n : Matrix (Fin n) (Fin n) XR) i j) := by
  unfold midentity mdiagonal
  dsimp only
  split_ifs
  · exact isNumber_one
  · exact isNumber_zero

theorem isNumber_half : IsNumber (half : XR) := by
  refine ⟨1 / 2, ?_⟩
  show (1 : XR) / ((2 : ℕ) : XR) = _
  rw [XR.one_def, XR.natCast_def, XR.fin_div _ _ (by norm_num)]
  norm_num

/-- A quaternion of numbers. -/
def NumberQuat (q : Quat XR) : Prop := IsNumber q.w ∧ IsNumber q.x ∧ IsNumber q.y ∧ IsNumber q.z

theorem NumberQuat.matrix {q : Quat XR} (h : NumberQuat q) (i j : Fin 3) : IsNumber (q.toRotationMatrix i j) := by
  obtain ⟨⟨w, h1⟩, ⟨x, h2⟩, ⟨y, h3⟩, ⟨z, h4⟩⟩ := h
  fin_cases i <;> fin_cases j <;> simp [Quat.toRotationMatrix, h1, h2, h3, h4] <;> exact isNumber_fin _

theorem NumberQuat.mul {p q : Quat XR} (h : NumberQuat p) (h' : NumberQuat q) : NumberQuat (p.mul q) := by
  obtain ⟨⟨w, h1⟩, ⟨x, h2⟩, ⟨y, h3⟩, ⟨z, h4⟩⟩ := h
  obtain ⟨⟨a, ha⟩, ⟨b, hb⟩, ⟨c, hc⟩, ⟨d, hd⟩⟩ := h'
  refine ⟨?_, ?_, ?_, ?_⟩ <;> simp [Quat.mul, h1, h2, h3, h4, ha, hb, hc, hd] <;> exact isNumber_fin _

theorem numberQuat_exp_zero : NumberQuat (SO3.exp (fun _ => XR.fin 0)).quaternion := by
  have hdot : vdot (fun _ : Fin 3 => XR.fin 0) (fun _ => XR.fin 0) = XR.fin 0 := by
    show XR.fin 0 + XR.fin 0 * XR.fin 0 + XR.fin 0 * XR.fin 0 + XR.fin 0 * XR.fin 0 = _
    simp
  have hsm : XR.fin 0 < (smallAngleSq : XR) := by
    show XR.fin 0 < (XR.fin (1 / 2 ^ 52) * ((30 : ℕ) : XR)) * (XR.fin (1 / 2 ^ 52) * ((30 : ℕ) : XR))
    simp only [XR.natCast_def, XR.fin_mul, XR.fin_lt]
    positivity
  have hd : ∀ q : ℚ, q ≠ 0 → XR.fin 0 / (Fns.lit q : XR) = XR.fin 0 := by
    intro q hq
    show XR.fin 0 / XR.fin q = _
    rw [XR.fin_div _ _ (by exact_mod_cast hq), zero_div]
  simp only [SO3.exp, Quat.fromScaledAxis, hdot, if_pos hsm, hd 8 (by norm_num), hd 48 (by norm_num)]
  exact ⟨isNumber_one.sub (isNumber_fin 0), (isNumber_fin 0).mul (isNumber_half.sub (isNumber_fin 0)),
    (isNumber_fin 0).mul (isNumber_half.sub (isNumber_fin 0)), (isNumber_fin 0).mul (isNumber_half.sub (isNumber_fin 0))⟩

/-- A body moving at one metre a second, whose filter holds covariance entries that are not numbers. -/
noncomputable def spoiledFilter : ErrorStateKalmanFilter 1 XR where
  nominalState := ⟨fun _ => XR.fin 0, fun _ => XR.fin 1, ⟨⟨XR.fin 1, XR.fin 0, XR.fin 0, XR.fin 0⟩⟩, fun _ => XR.fin 0,
    fun _ => XR.fin 0⟩
  covariance := fun _ _ => XR.nan
  imuNoise := ⟨XR.fin 0, XR.fin 0, XR.fin 0, XR.fin 0⟩
  measurementNoise := fun _ _ => XR.fin 1
  gravity := fun _ => XR.fin 0
  innovation := fun _ => XR.fin 0
  innovationCovariance := fun _ _ => XR.fin 0
  covarianceUpdate := .joseph

theorem sumLoop_nan {n : ℕ} {g : Fin (n + 1) → XR} (h : ∀ i, g i = XR.nan) : sumLoop (n + 1) g = XR.nan := by
  unfold sumLoop
  have : ∀ l : List (Fin (n + 1)), ∀ acc, acc = XR.nan → l.foldl (fun acc i => acc + g i) acc = XR.nan := by
    intro l
    induction l with
    | nil => exact fun _ h => h
    | cons i l ih => intro acc ha; exact ih _ (by rw [ha]; exact XR.nan_add _)
  rw [List.finRange_succ, List.foldl_cons]
  exact this _ _ (by rw [h, XR.add_nan])

/-- C102, C59 (finding). A prediction can report that it failed and yet have moved the estimate: the covariance is only
inspected after it and the state have been replaced.  Here a body moves on by a metre although the call returns
`NonFinite`. -/
theorem failed_prediction_moves :
    ∃ (f : ErrorStateKalmanFilter 1 XR) (gy ac : Fin 3 → XR) (dt : XR),
      (f.predict gy ac dt).2 = .error .nonFinite ∧ f.nominalState.position 0 = XR.fin 0 ∧
      (f.predict gy ac dt).1.nominalState.position 0 = XR.fin 1 := by
  let z : Fin 3 → XR := fun _ => XR.fin 0
  refine ⟨spoiledFilter, z, z, XR.fin 1, ?_⟩
  set f := spoiledFilter with hf
  have hz : ∀ i, IsNumber (z i) := fun i => isNumber_fin 0
  have hid : NumberQuat f.nominalState.orientation.quaternion :=
    ⟨isNumber_fin 1, isNumber_fin 0, isNumber_fin 0, isNumber_fin 0⟩
  have e0 : vsub z z = z := by funext i; simp [vsub, z]
  have e1 : vscale z (XR.fin 1) = z := by funext i; simp [vscale, z]
  have e2 : vneg z = z := by funext i; simp [vneg, z]
  have hpush : f.nominalState.orientation.act z = z := by
    funext i
    fin_cases i <;> simp [SO3.act, Quat.transformPoint, Quat.mul, Quat.conjugate, z, hf, spoiledFilter]
  have hprop : f.nominalState.propagated z z (XR.fin 1) f.gravity =
      ⟨fun _ => XR.fin 1, fun _ => XR.fin 1, f.nominalState.orientation.compose (SO3.exp z), z, z⟩ := by
    have hb1 : f.nominalState.gyroscopeBias = z := rfl
    have hb2 : f.nominalState.accelerometerBias = z := rfl
    have hg : f.gravity = z := rfl
    have e3 : vadd z z = z := by funext i; simp [vadd, z]
    obtain ⟨h, hh⟩ := isNumber_half
    unfold NominalState.propagated
    simp only [hb1, hb2, hg, e0, e1, hpush, e3]
    apply NominalState.ext
    · funext i
      show XR.fin 0 + XR.fin 1 * XR.fin 1 + XR.fin 0 * (XR.fin 1 * XR.fin 1 * half) = XR.fin 1
      rw [hh]; simp
    · funext i
      show XR.fin 1 + XR.fin 0 = XR.fin 1
      simp
    · rfl
    · rfl
    · rfl
  have hq' : NumberQuat (f.nominalState.orientation.compose (SO3.exp z)).quaternion := hid.mul numberQuat_exp_zero
  have hsf : (f.nominalState.propagated z z (XR.fin 1) f.gravity).isFinite = true := by
    rw [hprop]
    unfold NominalState.isFinite
    simp only [hq'.1.isFinite, hq'.2.1.isFinite, hq'.2.2.1.isFinite, hq'.2.2.2.isFinite]
    rfl
  have htf : mIsFinite (f.errorStateTransition z z (XR.fin 1)) = true := by
    unfold mIsFinite
    rw [List.all_eq_true]
    intro i _
    rw [List.all_eq_true]
    intro j _
    apply IsNumber.isFinite
    have hsk : ∀ a b, IsNumber (skew3 z a b) := by
      intro a b
      fin_cases a <;> fin_cases b <;> simp [skew3, z] <;> exact isNumber_fin _
    have hm : ∀ a b, IsNumber (f.nominalState.orientation.toMatrix a b) := hid.matrix
    refine isNumber_writeBlock _ _ (isNumber_writeBlock _ _ (isNumber_writeBlock _ _ (isNumber_writeBlock _ _
      (isNumber_writeBlock _ _ (isNumber_identity 15) ?_) ?_) ?_) ?_) ?_ i j
    · exact fun a b => (isNumber_identity 3 a b).mul (isNumber_fin 1)
    · intro a b
      show IsNumber (-(mmul f.nominalState.orientation.toMatrix (skew3 (vsub z z)) a b * XR.fin 1))
      rw [e0]
      exact ((IsNumber.sumLoop fun l => (hm _ _).mul (hsk _ _)).mul (isNumber_fin 1)).neg
    · exact fun a b => ((hm a b).mul (isNumber_fin 1)).neg
    · intro a b
      show IsNumber ((SO3.exp (vscale (vneg (vsub z z)) (XR.fin 1))).toMatrix a b)
      rw [e0, e2, e1]
      exact numberQuat_exp_zero.matrix a b
    · exact fun a b => (isNumber_identity 3 a b).mul (isNumber_fin 1).neg
  have hcov : mIsFinite (f.propagateCovariance (f.errorStateTransition z z (XR.fin 1)) (XR.fin 1)) = false := by
    rw [← Bool.not_eq_true, mIsFinite, List.all_eq_true]
    intro hc
    have h1 := hc 0 (List.mem_finRange 0)
    rw [List.all_eq_true] at h1
    have h2 := h1 0 (List.mem_finRange 0)
    have h3 : f.propagateCovariance (f.errorStateTransition z z (XR.fin 1)) (XR.fin 1) 0 0 = XR.nan := by
      unfold propagateCovariance symmetrized
      simp only [lt_irrefl, if_false, addDiagonal]
      simp only [Fin.val_zero, mmul]
      norm_num
      refine sumLoop_nan fun l => ?_
      rw [sumLoop_nan fun l' => ?_, XR.nan_mul]
      show _ * XR.nan = _
      rw [XR.mul_nan]
    rw [h3] at h2
    cases h2
  have hvf : vIsFinite z = true := by
    rw [vIsFinite, List.all_eq_true]; intro i _; rfl
  have hrun : f.predict z z (XR.fin 1) = ({ f with
      nominalState := f.nominalState.propagated z z (XR.fin 1) f.gravity
      covariance := f.propagateCovariance (f.errorStateTransition z z (XR.fin 1)) (XR.fin 1) }, .error .nonFinite) := by
    unfold predict
    rw [if_neg (by rw [hvf]; simp [Fns.isFinite])]
    dsimp only
    rw [if_neg (by rw [hsf, htf]; simp), if_pos (by rw [hcov]; rfl)]
  rw [hrun]
  refine ⟨rfl, rfl, ?_⟩
  show (f.nominalState.propagated z z (XR.fin 1) f.gravity).position 0 = _
  rw [hprop]

end ErrorStateKalmanFilter

end Multicalc
