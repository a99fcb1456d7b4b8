import Verif.Model.Kalman
import Verif.Props.Lqr

/-!
# The Kalman filter (C58) and refusal of bad measurements (C59)
-/

namespace Multicalc

open Matrix

variable {n m k : ℕ}

/-- Expands products of matrices of any shapes and compares the terms. -/
macro "mat_ring" : tactic => `(tactic| (
  simp only [Matrix.mul_sub, Matrix.sub_mul, Matrix.mul_add, Matrix.add_mul, Matrix.mul_one, Matrix.one_mul,
    Matrix.mul_assoc]
  try abel))

/-- Symmetric with a non-negative quadratic form. -/
def Psd (A : Matrix (Fin n) (Fin n) ℝ) : Prop := Aᵀ = A ∧ ∀ x : Fin n → ℝ, 0 ≤ x ⬝ᵥ A *ᵥ x

/-- Symmetric with a positive quadratic form. -/
def Pd (A : Matrix (Fin n) (Fin n) ℝ) : Prop := Aᵀ = A ∧ ∀ x : Fin n → ℝ, x ≠ 0 → 0 < x ⬝ᵥ A *ᵥ x

theorem Pd.psd {A : Matrix (Fin n) (Fin n) ℝ} (h : Pd A) : Psd A := by
  refine ⟨h.1, fun x => ?_⟩
  by_cases hx : x = 0
  · subst hx; simp
  · exact (h.2 x hx).le

theorem Psd.add {A B : Matrix (Fin n) (Fin n) ℝ} (ha : Psd A) (hb : Psd B) : Psd (A + B) := by
  refine ⟨by rw [transpose_add, ha.1, hb.1], fun x => ?_⟩
  rw [add_mulVec, dotProduct_add]
  exact add_nonneg (ha.2 x) (hb.2 x)

theorem Psd.add_pd {A B : Matrix (Fin n) (Fin n) ℝ} (ha : Psd A) (hb : Pd B) : Pd (A + B) := by
  refine ⟨by rw [transpose_add, ha.1, hb.1], fun x hx => ?_⟩
  rw [add_mulVec, dotProduct_add]
  exact add_pos_of_nonneg_of_pos (ha.2 x) (hb.2 x hx)

theorem Psd.sandwich {A : Matrix (Fin n) (Fin n) ℝ} (ha : Psd A) (F : Matrix (Fin m) (Fin n) ℝ) :
    Psd (F * A * Fᵀ) := by
  refine ⟨by rw [transpose_mul, transpose_mul, transpose_transpose, ha.1, Matrix.mul_assoc], fun x => ?_⟩
  have e : x ⬝ᵥ (F * A * Fᵀ) *ᵥ x = (Fᵀ *ᵥ x) ⬝ᵥ A *ᵥ (Fᵀ *ᵥ x) := by
    rw [← mulVec_mulVec, ← mulVec_mulVec, dotProduct_mulVec, ← mulVec_transpose]
  rw [e]
  exact ha.2 _

theorem Pd.det {A : Matrix (Fin n) (Fin n) ℝ} (h : Pd A) : IsUnit A.det := by
  obtain ⟨L, hL⟩ := cholesky_ok_of_pd A h.1 h.2
  exact isUnit_iff_ne_zero.2 (cholesky_factors (k := 0) A L h.1 hL).2.2.2.2.2.2.1.ne'

theorem Pd.inv {A : Matrix (Fin n) (Fin n) ℝ} (h : Pd A) : Pd A⁻¹ := by
  have hd := h.det
  have ht : (A⁻¹)ᵀ = A⁻¹ := by rw [transpose_nonsing_inv, h.1]
  refine ⟨ht, fun x hx => ?_⟩
  have hne : A⁻¹ *ᵥ x ≠ 0 := by
    intro h0
    apply hx
    have := congrArg (A *ᵥ ·) h0
    simpa [mulVec_mulVec, mul_nonsing_inv _ hd] using this
  have := h.2 _ hne
  rw [mulVec_mulVec, mul_nonsing_inv _ hd, one_mulVec, dotProduct_comm] at this
  exact this

theorem mtranspose_eq {T : Type} (A : Matrix (Fin n) (Fin m) T) : mtranspose A = Aᵀ := rfl
theorem madd_eq (A B : Matrix (Fin n) (Fin m) ℝ) : madd A B = A + B := rfl
theorem msub_eq (A B : Matrix (Fin n) (Fin m) ℝ) : msub A B = A - B := rfl

theorem real_vIsFinite (v : Fin n → ℝ) : vIsFinite v = true := by
  simp [vIsFinite, Fns.isFinite]

/-! ### The algebra of one update -/

section algebra
variable {H : Matrix (Fin m) (Fin n) ℝ} {P : Matrix (Fin n) (Fin n) ℝ} {R : Matrix (Fin m) (Fin m) ℝ}
  {K : Matrix (Fin n) (Fin m) ℝ}

theorem innovationCov_eq : innovationCov H P R = H * P * Hᵀ + R := by
  simp only [innovationCov, mmul_eq, madd_eq, mtranspose_eq]

theorem innovationCov_pd (hP : Psd P) (hR : Pd R) : Pd (H * P * Hᵀ + R) := (hP.sandwich H).add_pd hR

/-- The gain solves `K·S = P·Hᵀ`. -/
theorem gain_spec (hP : Psd P) (hS : Pd (H * P * Hᵀ + R)) : ∃ L, cholesky (innovationCov H P R) = .ok L ∧
    kalmanGain H P L * (H * P * Hᵀ + R) = P * Hᵀ := by
  obtain ⟨L, hL⟩ := cholesky_ok_of_pd (H * P * Hᵀ + R) hS.1 hS.2
  refine ⟨L, by rw [innovationCov_eq]; exact hL, ?_⟩
  have h := (cholesky_factors (k := n) _ L hS.1 hL).2.2.2.2.1 (H * Pᵀ)
  rw [mmul_eq] at h
  have h' := congrArg Matrix.transpose h
  rw [transpose_mul, hS.1, transpose_mul, transpose_transpose] at h'
  unfold kalmanGain
  rw [mtranspose_eq, mmul_eq, mtranspose_eq]
  exact h'

theorem joseph_expand (hP : Pᵀ = P) (hS : (H * P * Hᵀ + R)ᵀ = H * P * Hᵀ + R)
    (hK : K * (H * P * Hᵀ + R) = P * Hᵀ) (L : Matrix (Fin n) (Fin m) ℝ) :
    (1 - L * H) * P * (1 - L * H)ᵀ + L * R * Lᵀ
      = (1 - K * H) * P + (L - K) * (H * P * Hᵀ + R) * (L - K)ᵀ := by
  have hK' : (H * P * Hᵀ + R) * Kᵀ = H * P := by
    have := congrArg Matrix.transpose hK
    rwa [transpose_mul, hS, transpose_mul, transpose_transpose, hP] at this
  have e1 : (1 - L * H) * P * (1 - L * H)ᵀ + L * R * Lᵀ
      = P - L * (H * P) - P * Hᵀ * Lᵀ + L * (H * P * Hᵀ + R) * Lᵀ := by
    rw [transpose_sub, transpose_one, transpose_mul]
    mat_ring
  have e2 : (L - K) * (H * P * Hᵀ + R) * (L - K)ᵀ
      = L * (H * P * Hᵀ + R) * Lᵀ - L * ((H * P * Hᵀ + R) * Kᵀ) - K * (H * P * Hᵀ + R) * Lᵀ
        + K * ((H * P * Hᵀ + R) * Kᵀ) := by
    rw [transpose_sub]
    generalize H * P * Hᵀ + R = S
    mat_ring
  rw [e1, e2, hK', hK]
  generalize H * P * Hᵀ + R = S
  mat_ring

theorem joseph_eq_naive (hP : Pᵀ = P) (hS : (H * P * Hᵀ + R)ᵀ = H * P * Hᵀ + R)
    (hK : K * (H * P * Hᵀ + R) = P * Hᵀ) (form : CovarianceUpdate) :
    updatedCovariance form H P R K = (1 - K * H) * P := by
  cases form
  · simp only [updatedCovariance, mmul_eq, madd_eq, msub_eq, mtranspose_eq, midentity_eq]
    rw [joseph_expand hP hS hK K, sub_self, Matrix.zero_mul, Matrix.zero_mul, add_zero]
  · simp only [updatedCovariance, mmul_eq, msub_eq, midentity_eq]

theorem naive_drop (hP : Pᵀ = P) (hS : (H * P * Hᵀ + R)ᵀ = H * P * Hᵀ + R)
    (hK : K * (H * P * Hᵀ + R) = P * Hᵀ) : P - (1 - K * H) * P = K * (H * P * Hᵀ + R) * Kᵀ := by
  have hK' : (H * P * Hᵀ + R) * Kᵀ = H * P := by
    have := congrArg Matrix.transpose hK
    rwa [transpose_mul, hS, transpose_mul, transpose_transpose, hP] at this
  rw [Matrix.mul_assoc K, hK']
  mat_ring

theorem naive_psd (hP : Psd P) (hR : Psd R) (hS : (H * P * Hᵀ + R)ᵀ = H * P * Hᵀ + R)
    (hK : K * (H * P * Hᵀ + R) = P * Hᵀ) : Psd ((1 - K * H) * P) := by
  have := joseph_expand hP.1 hS hK K
  rw [sub_self, Matrix.zero_mul, Matrix.zero_mul, add_zero] at this
  rw [← this]
  exact (hP.sandwich _).add (hR.sandwich _)

theorem gain_noise (hK : K * (H * P * Hᵀ + R) = P * Hᵀ) : (1 - K * H) * P * Hᵀ = K * R := by
  have : (1 - K * H) * P * Hᵀ = P * Hᵀ - K * (H * P * Hᵀ) := by mat_ring
  rw [this, ← hK]
  mat_ring

theorem information_inverse (hP : Pd P) (hR : Pd R) (hK : K * (H * P * Hᵀ + R) = P * Hᵀ) :
    (1 - K * H) * P * (P⁻¹ + Hᵀ * R⁻¹ * H) = 1 := by
  have h1 := gain_noise hK
  rw [Matrix.mul_add, Matrix.mul_assoc _ P, mul_nonsing_inv _ hP.det, Matrix.mul_one, ← Matrix.mul_assoc,
    ← Matrix.mul_assoc, h1, Matrix.mul_assoc K, mul_nonsing_inv _ hR.det, Matrix.mul_one]
  abel

theorem information_form (hP : Pd P) (hR : Pd R) (hK : K * (H * P * Hᵀ + R) = P * Hᵀ) :
    (1 - K * H) * P = (P⁻¹ + Hᵀ * R⁻¹ * H)⁻¹ ∧ ((1 - K * H) * P)⁻¹ = P⁻¹ + Hᵀ * R⁻¹ * H
      ∧ Pd ((1 - K * H) * P) ∧ (P⁻¹ + Hᵀ * R⁻¹ * H) * K = Hᵀ * R⁻¹ := by
  have h := information_inverse hP hR hK
  have h' : (P⁻¹ + Hᵀ * R⁻¹ * H) * ((1 - K * H) * P) = 1 := mul_eq_one_comm.1 h
  have e1 : (1 - K * H) * P = (P⁻¹ + Hᵀ * R⁻¹ * H)⁻¹ := (inv_eq_left_inv h).symm
  have hpd : Pd (P⁻¹ + Hᵀ * R⁻¹ * H) := by
    have := (hR.inv.psd.sandwich Hᵀ)
    rw [transpose_transpose] at this
    rw [add_comm]
    exact this.add_pd hP.inv
  refine ⟨e1, inv_eq_left_inv h', by rw [e1]; exact hpd.inv, ?_⟩
  have hk : K = (1 - K * H) * P * Hᵀ * R⁻¹ := by
    rw [gain_noise hK, Matrix.mul_assoc, mul_nonsing_inv _ hR.det, Matrix.mul_one]
  have : (P⁻¹ + Hᵀ * R⁻¹ * H) * ((1 - K * H) * P * Hᵀ * R⁻¹) = Hᵀ * R⁻¹ := by
    rw [← Matrix.mul_assoc, ← Matrix.mul_assoc, h', Matrix.one_mul]
  rwa [← hk] at this

end algebra

namespace KalmanFilter

/-- What an update leaves behind when the innovation covariance is positive definite. -/
theorem update_spec (f : KalmanFilter n m ℝ) (z : Fin m → ℝ) (hP : Psd f.covariance)
    (hS : Pd (f.measurementModel * f.covariance * f.measurementModelᵀ + f.measurementNoise)) :
    ∃ K, K * (f.measurementModel * f.covariance * f.measurementModelᵀ + f.measurementNoise)
        = f.covariance * f.measurementModelᵀ
      ∧ f.update z = ({ f with
          state := f.state + K *ᵥ (z - f.measurementModel *ᵥ f.state)
          covariance := (1 - K * f.measurementModel) * f.covariance
          innovation := z - f.measurementModel *ᵥ f.state
          innovationCovariance := f.measurementModel * f.covariance * f.measurementModelᵀ + f.measurementNoise },
        .ok ()) := by
  obtain ⟨L, hL, hK⟩ := gain_spec hP hS
  refine ⟨_, hK, ?_⟩
  unfold update
  rw [if_neg (by rw [real_vIsFinite]; simp)]
  dsimp only
  rw [if_neg (by rw [real_mIsFinite]; simp), hL]
  dsimp only
  rw [joseph_eq_naive hP.1 hS.1 hK, mmulVec_eq, innovationCov_eq, mmulVec_eq]
  rfl

/-- C58. From a symmetric positive semidefinite covariance, with positive definite measurement noise, every update
succeeds, whichever covariance form is chosen.  The new covariance is symmetric positive semidefinite and not larger
than the old one; both forms give the same matrix; and no other gain would have left a smaller covariance.  The
innovation and its covariance are the documented ones and the state moves by the gain times the innovation. -/
theorem kalman_update (f : KalmanFilter n m ℝ) (z : Fin m → ℝ) (hP : Psd f.covariance)
    (hR : Pd f.measurementNoise) :
    let H := f.measurementModel
    let P := f.covariance
    let R := f.measurementNoise
    let after (L : Matrix (Fin n) (Fin m) ℝ) := (1 - L * H) * P * (1 - L * H)ᵀ + L * R * Lᵀ
    ∃ g K, f.update z = (g, .ok ()) ∧ Psd g.covariance ∧ Psd (P - g.covariance)
      ∧ g.covariance = after K ∧ g.covariance = (1 - K * H) * P
      ∧ (∀ L, Psd (after L - after K))
      ∧ g.innovation = z - H *ᵥ f.state ∧ g.innovationCovariance = H * P * Hᵀ + R
      ∧ g.state = f.state + K *ᵥ g.innovation
      ∧ g.stateTransition = f.stateTransition ∧ g.measurementModel = H ∧ g.processNoise = f.processNoise
      ∧ g.measurementNoise = R ∧ g.covarianceUpdate = f.covarianceUpdate := by
  intro H P R after
  have hS : Pd (H * P * Hᵀ + R) := innovationCov_pd hP hR
  obtain ⟨K, hK, hu⟩ := f.update_spec z hP hS
  have hex := joseph_expand hP.1 hS.1 hK
  have hJ : after K = (1 - K * H) * P := by
    have := hex K
    rwa [sub_self, Matrix.zero_mul, Matrix.zero_mul, add_zero] at this
  refine ⟨_, K, hu, naive_psd hP hR.psd hS.1 hK, ?_, hJ.symm, rfl, fun L => ?_, rfl, rfl, rfl, rfl, rfl, rfl, rfl,
    rfl⟩
  · show Psd (P - (1 - K * H) * P)
    rw [naive_drop hP.1 hS.1 hK]
    exact hS.psd.sandwich K
  · rw [hJ]
    have : after L - (1 - K * H) * P = (L - K) * (H * P * Hᵀ + R) * (L - K)ᵀ := by
      show (1 - L * H) * P * (1 - L * H)ᵀ + L * R * Lᵀ - _ = _
      rw [hex L]
      abel
    rw [this]
    exact hS.psd.sandwich _

/-- C58. When the prior covariance is positive definite the posterior is the inverse of the summed information, it
is positive definite, and the new state is the information-weighted combination of prior and measurement. -/
theorem kalman_information (f : KalmanFilter n m ℝ) (z : Fin m → ℝ) (hP : Pd f.covariance)
    (hR : Pd f.measurementNoise) :
    let H := f.measurementModel
    ∃ g, f.update z = (g, .ok ()) ∧ Pd g.covariance
      ∧ g.covariance⁻¹ = f.covariance⁻¹ + Hᵀ * f.measurementNoise⁻¹ * H
      ∧ g.covariance⁻¹ *ᵥ g.state = f.covariance⁻¹ *ᵥ f.state + Hᵀ *ᵥ (f.measurementNoise⁻¹ *ᵥ z) := by
  intro H
  have hS : Pd (H * f.covariance * Hᵀ + f.measurementNoise) := innovationCov_pd hP.psd hR
  obtain ⟨K, hK, hu⟩ := f.update_spec z hP.psd hS
  obtain ⟨-, h2, h3, h4⟩ := information_form hP hR hK
  refine ⟨_, hu, h3, h2, ?_⟩
  show ((1 - K * H) * f.covariance)⁻¹ *ᵥ (f.state + K *ᵥ (z - H *ᵥ f.state)) = _
  rw [show ((1 - K * H) * f.covariance)⁻¹ = _ from h2, mulVec_add, mulVec_mulVec]
  rw [show (f.covariance⁻¹ + Hᵀ * f.measurementNoise⁻¹ * H) * K = _ from h4, mulVec_sub, add_mulVec]
  simp only [mulVec_mulVec]
  abel

/-- C58. Prediction carries mean and covariance through the transition and adds the process noise, keeping the
covariance symmetric positive semidefinite; a control input moves only the state. -/
theorem kalman_predict (f : KalmanFilter n m ℝ) (hP : Psd f.covariance) (hQ : Psd f.processNoise) :
    Psd f.predict.covariance ∧ Psd (f.predict.covariance - f.processNoise)
    ∧ f.predict.covariance = f.stateTransition * f.covariance * f.stateTransitionᵀ + f.processNoise
    ∧ f.predict.state = f.stateTransition *ᵥ f.state
    ∧ ∀ (c : ℕ) (B : Matrix (Fin n) (Fin c) ℝ) (u : Fin c → ℝ),
      f.predictWithControl B u = { f.predict with state := f.stateTransition *ᵥ f.state + B *ᵥ u } := by
  have e : f.predict.covariance = f.stateTransition * f.covariance * f.stateTransitionᵀ + f.processNoise := by
    simp only [predict, predictedCovariance, mmul_eq, madd_eq, mtranspose_eq]
  refine ⟨?_, ?_, e, by simp only [predict, mmulVec_eq], fun c B u => ?_⟩
  · rw [e]; exact (hP.sandwich _).add hQ
  · rw [e, add_sub_cancel_right]; exact hP.sandwich _
  · simp only [predictWithControl, predict, mmulVec_eq]
    rfl

/-- The calls that change a filter. -/
inductive Call (n m : ℕ) where
  | predict
  | predictWithControl (c : ℕ) (B : Matrix (Fin n) (Fin c) ℝ) (u : Fin c → ℝ)
  | update (z : Fin m → ℝ)
  | setState (x : Fin n → ℝ)
  | setStateTransition (F : Matrix (Fin n) (Fin n) ℝ)
  | setProcessNoise (Q : Matrix (Fin n) (Fin n) ℝ)
  | setMeasurementModel (H : Matrix (Fin m) (Fin n) ℝ)
  | setMeasurementNoise (R : Matrix (Fin m) (Fin m) ℝ)

/-- One call and its verdict. -/
noncomputable def call (f : KalmanFilter n m ℝ) : Call n m → KalmanFilter n m ℝ × Except EstimationError Unit
  | .predict => (f.predict, .ok ())
  | .predictWithControl _ B u => (f.predictWithControl B u, .ok ())
  | .update z => f.update z
  | .setState x => ({ f with state := x }, .ok ())
  | .setStateTransition F => ({ f with stateTransition := F }, .ok ())
  | .setProcessNoise Q => ({ f with processNoise := Q }, .ok ())
  | .setMeasurementModel H => ({ f with measurementModel := H }, .ok ())
  | .setMeasurementNoise R => ({ f with measurementNoise := R }, .ok ())

/-- Any history of calls, with the verdicts in order. -/
noncomputable def calls (f : KalmanFilter n m ℝ) :
    List (Call n m) → KalmanFilter n m ℝ × List (Except EstimationError Unit)
  | [] => (f, [])
  | c :: cs => (((f.call c).1.calls cs).1, (f.call c).2 :: ((f.call c).1.calls cs).2)

/-- Noise matrices handed over are proper ones. -/
def Call.Proper : Call n m → Prop
  | .setProcessNoise Q => Psd Q
  | .setMeasurementNoise R => Pd R
  | _ => True

/-- Covariances are symmetric positive semidefinite and the measurement noise positive definite. -/
structure Proper (f : KalmanFilter n m ℝ) : Prop where
  covariance : Psd f.covariance
  process : Psd f.processNoise
  noise : Pd f.measurementNoise

theorem call_proper (f : KalmanFilter n m ℝ) (hf : f.Proper) (c : Call n m) (hc : c.Proper) :
    (f.call c).1.Proper ∧ (f.call c).2 = .ok () := by
  cases c with
  | predict => exact ⟨⟨(f.kalman_predict hf.1 hf.2).1, hf.2, hf.3⟩, rfl⟩
  | predictWithControl k B u =>
    refine ⟨⟨?_, hf.2, hf.3⟩, rfl⟩
    exact (f.kalman_predict hf.1 hf.2).1
  | update z =>
    obtain ⟨g, K, h1, h2, -, -, -, -, -, -, -, -, -, h3, h4, -⟩ := f.kalman_update z hf.1 hf.3
    show (f.update z).1.Proper ∧ (f.update z).2 = _
    rw [h1]
    exact ⟨⟨h2, h3 ▸ hf.2, h4 ▸ hf.3⟩, rfl⟩
  | setState x => exact ⟨⟨hf.1, hf.2, hf.3⟩, rfl⟩
  | setStateTransition F => exact ⟨⟨hf.1, hf.2, hf.3⟩, rfl⟩
  | setProcessNoise Q => exact ⟨⟨hf.1, hc, hf.3⟩, rfl⟩
  | setMeasurementModel H => exact ⟨⟨hf.1, hf.2, hf.3⟩, rfl⟩
  | setMeasurementNoise R => exact ⟨⟨hf.1, hf.2, hc⟩, rfl⟩

/-- C58. Along every history of calls, whatever the measurements, inputs, transitions and models, the covariance
stays symmetric positive semidefinite and no update ever fails. -/
theorem kalman_history (f : KalmanFilter n m ℝ) (hf : f.Proper) (cs : List (Call n m)) (hc : ∀ c ∈ cs, c.Proper) :
    Psd (f.calls cs).1.covariance ∧ ∀ v ∈ (f.calls cs).2, v = .ok () := by
  suffices (f.calls cs).1.Proper ∧ ∀ v ∈ (f.calls cs).2, v = .ok () from ⟨this.1.covariance, this.2⟩
  induction cs generalizing f with
  | nil => exact ⟨hf, fun v hv => by simp [calls] at hv⟩
  | cons c cs ih =>
    obtain ⟨h1, h2⟩ := f.call_proper hf c (hc c (by simp))
    obtain ⟨h3, h4⟩ := ih _ h1 fun c' hc' => hc c' (by simp [hc'])
    refine ⟨h3, fun v hv => ?_⟩
    simp only [calls, List.mem_cons] at hv
    rcases hv with rfl | hv
    · exact h2
    · exact h4 v hv

/-- The same call up to the numbers that depend on the run: measurements, inputs and states. -/
inductive Call.Alike : Call n m → Call n m → Prop
  | predict : Alike .predict .predict
  | control (c c' B B' u u') : Alike (.predictWithControl c B u) (.predictWithControl c' B' u')
  | steer (c B u) : Alike .predict (.predictWithControl c B u)
  | update (z z') : Alike (.update z) (.update z')
  | state (x x') : Alike (.setState x) (.setState x')
  | same (c) : Alike c c

/-- The parts of a filter that do not depend on the run. -/
def SameSpread (f g : KalmanFilter n m ℝ) : Prop :=
  f.covariance = g.covariance ∧ f.stateTransition = g.stateTransition ∧ f.measurementModel = g.measurementModel
  ∧ f.processNoise = g.processNoise ∧ f.measurementNoise = g.measurementNoise
  ∧ f.covarianceUpdate = g.covarianceUpdate

theorem call_spread (f g : KalmanFilter n m ℝ) (h : f.SameSpread g) (c d : Call n m) (hcd : c.Alike d) :
    (f.call c).1.SameSpread (g.call d).1 ∧ (f.call c).2 = (g.call d).2 := by
  obtain ⟨h1, h2, h3, h4, h5, h6⟩ := h
  have hu : ∀ z z', (f.update z).1.SameSpread (g.update z').1 ∧ (f.update z).2 = (g.update z').2 := by
    intro z z'
    unfold update
    simp only [real_vIsFinite, real_mIsFinite, Bool.not_true, Bool.false_eq_true, if_false, h1, h3, h5, h6]
    cases cholesky (innovationCov g.measurementModel g.covariance g.measurementNoise) with
    | error e => exact ⟨⟨rfl, h2, rfl, h4, rfl, rfl⟩, rfl⟩
    | ok L => exact ⟨⟨rfl, h2, rfl, h4, rfl, rfl⟩, rfl⟩
  have hp : f.predict.SameSpread g.predict := by
    refine ⟨?_, h2, h3, h4, h5, h6⟩
    simp only [predict, h1, h2, h4]
  cases hcd with
  | predict => exact ⟨hp, rfl⟩
  | control => exact ⟨⟨hp.1, h2, h3, h4, h5, h6⟩, rfl⟩
  | steer => exact ⟨⟨hp.1, h2, h3, h4, h5, h6⟩, rfl⟩
  | update z z' => exact hu z z'
  | state x x' => exact ⟨⟨h1, h2, h3, h4, h5, h6⟩, rfl⟩
  | same c =>
    cases c with
    | predict => exact ⟨hp, rfl⟩
    | predictWithControl => exact ⟨⟨hp.1, h2, h3, h4, h5, h6⟩, rfl⟩
    | update z => exact hu z z
    | setState x => exact ⟨⟨h1, h2, h3, h4, h5, h6⟩, rfl⟩
    | setStateTransition F => exact ⟨⟨h1, rfl, h3, h4, h5, h6⟩, rfl⟩
    | setProcessNoise Q => exact ⟨⟨h1, h2, h3, rfl, h5, h6⟩, rfl⟩
    | setMeasurementModel H => exact ⟨⟨h1, h2, rfl, h4, h5, h6⟩, rfl⟩
    | setMeasurementNoise R => exact ⟨⟨h1, h2, h3, h4, rfl, h6⟩, rfl⟩

/-- C58. The covariance and the verdicts do not depend on the measurements, inputs or states fed in. -/
theorem kalman_data_free (f g : KalmanFilter n m ℝ) (h : f.SameSpread g) (cs ds : List (Call n m))
    (hcd : List.Forall₂ Call.Alike cs ds) :
    (f.calls cs).1.covariance = (g.calls ds).1.covariance ∧ (f.calls cs).2 = (g.calls ds).2 := by
  suffices (f.calls cs).1.SameSpread (g.calls ds).1 ∧ (f.calls cs).2 = (g.calls ds).2 from ⟨this.1.1, this.2⟩
  induction hcd generalizing f g with
  | nil => exact ⟨h, rfl⟩
  | cons h1 _ ih =>
    obtain ⟨h2, h3⟩ := call_spread f g h _ _ h1
    obtain ⟨h4, h5⟩ := ih _ _ h2
    exact ⟨h4, by simp only [calls, h3, h5]⟩

/-- How far `x` is from a guess, weighed by the inverse of a covariance. -/
noncomputable def misfit (C : Matrix (Fin k) (Fin k) ℝ) (e : Fin k → ℝ) : ℝ := e ⬝ᵥ C⁻¹ *ᵥ e

/-- Completing the square in one update. -/
theorem misfit_update (f : KalmanFilter n m ℝ) (z : Fin m → ℝ) (hP : Pd f.covariance)
    (hR : Pd f.measurementNoise) :
    ∃ g ν, f.update z = (g, .ok ()) ∧ Pd g.covariance ∧ g.processNoise = f.processNoise
      ∧ g.normalizedInnovationSquared = .ok ν ∧ 0 ≤ ν ∧ ∀ x,
      misfit f.covariance (x - f.state) + misfit f.measurementNoise (z - f.measurementModel *ᵥ x)
        = misfit g.covariance (x - g.state) + ν := by
  set H := f.measurementModel
  set P := f.covariance
  set R := f.measurementNoise
  set S := H * P * Hᵀ + R with hSdef
  have hS : Pd S := innovationCov_pd hP.psd hR
  obtain ⟨K, hK, hu⟩ := f.update_spec z hP.psd hS
  obtain ⟨-, h2, h3, h4⟩ := information_form hP hR hK
  obtain ⟨L, hL⟩ := cholesky_ok_of_pd S hS.1 hS.2
  set v := z - H *ᵥ f.state with hv
  have hsol : choleskySolve L v = S⁻¹ *ᵥ v := by
    have := ((cholesky_factors (k := 0) S L hS.1 hL).2.2.2.1 v (S⁻¹ *ᵥ v)).1
      (by rw [mmulVec_eq, mulVec_mulVec, mul_nonsing_inv _ hS.det, one_mulVec])
    exact this.symm
  refine ⟨_, v ⬝ᵥ S⁻¹ *ᵥ v, hu, h3, rfl, ?_, hS.inv.psd.2 v, fun x => ?_⟩
  · unfold normalizedInnovationSquared
    dsimp only
    rw [show cholesky (f.measurementModel * f.covariance * f.measurementModelᵀ + f.measurementNoise) = .ok L from hL]
    dsimp only
    rw [hsol, vdot_eq]
  · show misfit P (x - f.state) + misfit R (z - H *ᵥ x)
      = misfit ((1 - K * H) * P) (x - (f.state + K *ᵥ v)) + v ⬝ᵥ S⁻¹ *ᵥ v
    set e := x - f.state with he
    have ez : z - H *ᵥ x = v - H *ᵥ e := by rw [hv, he, mulVec_sub]; abel
    have ex : x - (f.state + K *ᵥ v) = e - K *ᵥ v := by rw [he]; abel
    rw [ez, ex]
    clear_value e v
    unfold misfit
    rw [show ((1 - K * H) * P)⁻¹ = _ from h2]
    have hRi : (R⁻¹)ᵀ = R⁻¹ := hR.inv.1
    have hKt : Kᵀ * (P⁻¹ + Hᵀ * R⁻¹ * H) = R⁻¹ * H := by
      have := congrArg Matrix.transpose (show (P⁻¹ + Hᵀ * R⁻¹ * H) * K = _ from h4)
      rw [transpose_mul, transpose_mul, transpose_transpose, hRi] at this
      rw [← this]
      congr 1
      rw [transpose_add, hP.inv.1, transpose_mul, transpose_mul, transpose_transpose, hRi, Matrix.mul_assoc]
    have hSi : R⁻¹ - R⁻¹ * H * K = S⁻¹ := by
      refine (inv_eq_left_inv ?_).symm
      rw [Matrix.sub_mul, Matrix.mul_assoc (R⁻¹ * H), hK, hSdef, Matrix.mul_add, nonsing_inv_mul _ hR.det]
      mat_ring
    -- expand both sides into the same terms
    have d : ∀ (a b : Fin n → ℝ) (M : Matrix (Fin n) (Fin n) ℝ), Mᵀ = M → a ⬝ᵥ M *ᵥ b = b ⬝ᵥ M *ᵥ a := by
      intro a b M hM
      rw [dotProduct_mulVec, ← mulVec_transpose, hM, dotProduct_comm]
    have d' : ∀ (a b : Fin m → ℝ) (M : Matrix (Fin m) (Fin m) ℝ), Mᵀ = M → a ⬝ᵥ M *ᵥ b = b ⬝ᵥ M *ᵥ a := by
      intro a b M hM
      rw [dotProduct_mulVec, ← mulVec_transpose, hM, dotProduct_comm]
    have t1 : (v - H *ᵥ e) ⬝ᵥ R⁻¹ *ᵥ (v - H *ᵥ e)
        = v ⬝ᵥ R⁻¹ *ᵥ v - 2 * (v ⬝ᵥ (R⁻¹ * H) *ᵥ e) + e ⬝ᵥ (Hᵀ * R⁻¹ * H) *ᵥ e := by
      have u1 : (H *ᵥ e) ⬝ᵥ R⁻¹ *ᵥ v = v ⬝ᵥ (R⁻¹ * H) *ᵥ e := by rw [d' _ _ _ hRi, mulVec_mulVec]
      have u2 : (H *ᵥ e) ⬝ᵥ R⁻¹ *ᵥ (H *ᵥ e) = e ⬝ᵥ (Hᵀ * R⁻¹ * H) *ᵥ e := by
        rw [← mulVec_mulVec, ← mulVec_mulVec, dotProduct_mulVec e, ← mulVec_transpose, transpose_transpose]
      have u3 : v ⬝ᵥ R⁻¹ *ᵥ (H *ᵥ e) = v ⬝ᵥ (R⁻¹ * H) *ᵥ e := by rw [mulVec_mulVec]
      rw [mulVec_sub, dotProduct_sub, sub_dotProduct, sub_dotProduct, u1, u2, u3]
      ring
    set Λ := P⁻¹ + Hᵀ * R⁻¹ * H with hΛ
    have hΛs : Λᵀ = Λ := by
      rw [hΛ, transpose_add, hP.inv.1, transpose_mul, transpose_mul, transpose_transpose, hRi, Matrix.mul_assoc]
    have t2 : (e - K *ᵥ v) ⬝ᵥ Λ *ᵥ (e - K *ᵥ v)
        = e ⬝ᵥ Λ *ᵥ e - 2 * (v ⬝ᵥ (R⁻¹ * H) *ᵥ e) + v ⬝ᵥ (R⁻¹ * H * K) *ᵥ v := by
      have u1 : (K *ᵥ v) ⬝ᵥ Λ *ᵥ e = v ⬝ᵥ (R⁻¹ * H) *ᵥ e := by
        rw [← hKt, ← mulVec_mulVec, dotProduct_mulVec v, ← mulVec_transpose, transpose_transpose]
      have u2 : (K *ᵥ v) ⬝ᵥ Λ *ᵥ (K *ᵥ v) = v ⬝ᵥ (R⁻¹ * H * K) *ᵥ v := by
        rw [← hKt, ← mulVec_mulVec, ← mulVec_mulVec, dotProduct_mulVec v, ← mulVec_transpose, transpose_transpose]
      rw [mulVec_sub, dotProduct_sub, sub_dotProduct, sub_dotProduct, u1, u2, d e (K *ᵥ v) Λ hΛs, u1]
      ring
    rw [t1, t2, hΛ, add_mulVec, dotProduct_add, ← hSi, sub_mulVec, dotProduct_sub]
    ring

/-- Feeds a list of measurements, each with its own model and noise. -/
noncomputable def absorb (f : KalmanFilter n m ℝ) :
    List (Matrix (Fin m) (Fin n) ℝ × Matrix (Fin m) (Fin m) ℝ × (Fin m → ℝ)) → KalmanFilter n m ℝ
  | [] => f
  | (H, R, z) :: rest => ({ f with measurementModel := H, measurementNoise := R }.update z).1.absorb rest

/-- The weighted squared misfit of `x` to a list of measurements. -/
noncomputable def totalMisfit (x : Fin n → ℝ) :
    List (Matrix (Fin m) (Fin n) ℝ × Matrix (Fin m) (Fin m) ℝ × (Fin m → ℝ)) → ℝ
  | [] => 0
  | (H, R, z) :: rest => misfit R (z - H *ᵥ x) + totalMisfit x rest

/-- C58. Feeding measurements one at a time, in any number and with any models, ends at the weighted least-squares
solution of all of them together with the prior: the total misfit of every `x` exceeds that of the filter's state
by the squared distance between them in the filter's own covariance, and so the state is the unique minimiser. -/
theorem kalman_least_squares (f : KalmanFilter n m ℝ) (hP : Pd f.covariance)
    (zs : List (Matrix (Fin m) (Fin n) ℝ × Matrix (Fin m) (Fin m) ℝ × (Fin m → ℝ))) (hR : ∀ z ∈ zs, Pd z.2.1) :
    let g := f.absorb zs
    let J (x : Fin n → ℝ) := misfit f.covariance (x - f.state) + totalMisfit x zs
    Pd g.covariance ∧ (∀ x, J x = J g.state + misfit g.covariance (x - g.state))
      ∧ ∀ x, x ≠ g.state → J g.state < J x := by
  intro g J
  suffices h : Pd g.covariance ∧ ∃ c, ∀ x, J x = c + misfit g.covariance (x - g.state) by
    obtain ⟨h1, c, h2⟩ := h
    have h0 : J g.state = c := by rw [h2, sub_self]; simp [misfit]
    have h3 : ∀ x, J x = J g.state + misfit g.covariance (x - g.state) := fun x => by rw [h0]; exact h2 x
    refine ⟨h1, h3, fun x hx => ?_⟩
    rw [h3 x]
    have := h1.inv.2 (x - g.state) (sub_ne_zero.2 hx)
    unfold misfit
    linarith
  have key : ∀ (zs : List (Matrix (Fin m) (Fin n) ℝ × Matrix (Fin m) (Fin m) ℝ × (Fin m → ℝ)))
      (f : KalmanFilter n m ℝ), Pd f.covariance → (∀ z ∈ zs, Pd z.2.1) → Pd (f.absorb zs).covariance ∧
      ∃ c, ∀ x, misfit f.covariance (x - f.state) + totalMisfit x zs
        = c + misfit (f.absorb zs).covariance (x - (f.absorb zs).state) := by
    intro zs
    induction zs with
    | nil => exact fun f hP _ => ⟨hP, 0, fun x => by simp [absorb, totalMisfit]⟩
    | cons p zs ih =>
      intro f hP hR
      obtain ⟨H, R, z⟩ := p
      obtain ⟨g, ν, h1, h2, -, -, -, h3⟩ := misfit_update { f with measurementModel := H, measurementNoise := R } z hP
        (hR (H, R, z) (by simp))
      obtain ⟨h4, c, h5⟩ := ih g h2 fun q hq => hR q (by simp [hq])
      have e : f.absorb ((H, R, z) :: zs) = g.absorb zs := by
        show ({ f with measurementModel := H, measurementNoise := R }.update z).1.absorb zs = _
        rw [h1]
      rw [e]
      refine ⟨h4, c + ν, fun x => ?_⟩
      have := h3 x
      have := h5 x
      simp only [totalMisfit]
      dsimp only at *
      linarith
  exact key zs f hP hR

/-- C58. After a successful update the normalised innovation is the innovation weighed by its own covariance and is
never negative; before any update it is refused. -/
theorem kalman_normalized_innovation (f : KalmanFilter n m ℝ) (hS : Pd f.innovationCovariance)
    (x : Fin n → ℝ) (P F Q : Matrix (Fin n) (Fin n) ℝ) (H : Matrix (Fin (m + 1)) (Fin n) ℝ)
    (R : Matrix (Fin (m + 1)) (Fin (m + 1)) ℝ) :
    (∃ ν, f.normalizedInnovationSquared = .ok ν ∧ 0 ≤ ν ∧ ν = f.innovation ⬝ᵥ f.innovationCovariance⁻¹ *ᵥ f.innovation)
    ∧ (KalmanFilter.new x P F H Q R).normalizedInnovationSquared = .error .notPositiveDefinite := by
  constructor
  · obtain ⟨L, hL⟩ := cholesky_ok_of_pd _ hS.1 hS.2
    have hsol := ((cholesky_factors (k := 0) _ L hS.1 hL).2.2.2.1 f.innovation
      (f.innovationCovariance⁻¹ *ᵥ f.innovation)).1
      (by rw [mmulVec_eq, mulVec_mulVec, mul_nonsing_inv _ hS.det, one_mulVec])
    refine ⟨_, ?_, hS.inv.psd.2 f.innovation, rfl⟩
    unfold normalizedInnovationSquared
    rw [hL]
    dsimp only
    rw [← hsol, vdot_eq]
  · have hz : (KalmanFilter.new x P F H Q R).innovationCovariance = (0 : Matrix _ _ ℝ) := rfl
    unfold normalizedInnovationSquared
    rw [hz]
    obtain ⟨h1, h2⟩ := cholesky_iff_positive_definite (0 : Matrix (Fin (m + 1)) (Fin (m + 1)) ℝ) (by simp [Matrix.IsSymm])
    cases hc : cholesky (0 : Matrix (Fin (m + 1)) (Fin (m + 1)) ℝ) with
    | error e => rfl
    | ok L =>
      have := h1.1 ⟨L, hc⟩ (fun _ => 1) (fun h => by have := congrFun h 0; simp at this)
      rw [vdot_eq, mmulVec_eq] at this
      simp at this

end KalmanFilter

/-! ### The extended filter -/

namespace ExtendedKalmanFilter

/-- The extended filter's numbers held by a plain one with the given matrices. -/
def linear (f : ExtendedKalmanFilter n m ℝ) (F : Matrix (Fin n) (Fin n) ℝ) (H : Matrix (Fin m) (Fin n) ℝ) :
    KalmanFilter n m ℝ :=
  ⟨f.state, f.covariance, F, H, f.processNoise, f.measurementNoise, f.innovation, f.innovationCovariance,
    f.covarianceUpdate⟩

/-- C58. On a linear process and a linear measurement, with a differentiator that returns their matrices, the
extended filter does exactly what the Kalman filter does. -/
theorem ekf_linear (f : ExtendedKalmanFilter n m ℝ) (F : Matrix (Fin n) (Fin n) ℝ) (H : Matrix (Fin m) (Fin n) ℝ)
    (z : Fin m → ℝ) :
    (let r := f.predict (fun x => mmulVec F x) fun _ => .ok F
     r.1.linear F H = (f.linear F H).predict ∧ r.2 = .ok ())
    ∧ (let r := f.update (fun x => mmulVec H x) (fun _ => .ok H) z
       r.1.linear F H = ((f.linear F H).update z).1 ∧ r.2 = ((f.linear F H).update z).2) := by
  constructor
  · unfold predict
    dsimp only
    rw [if_neg (by rw [real_vIsFinite, real_mIsFinite]; simp)]
    exact ⟨rfl, rfl⟩
  · unfold update updateWithResidual KalmanFilter.update
    simp only [real_vIsFinite, real_mIsFinite, Bool.not_true, Bool.false_eq_true, if_false, linear]
    cases cholesky (innovationCov H f.covariance f.measurementNoise) <;> exact ⟨rfl, rfl⟩

/-- C58. For any process and measurement functions and any differentiator, each successful call of the extended
filter keeps the covariance symmetric positive semidefinite; an update does not enlarge it, and fails only if the
differentiator does. -/
theorem ekf_covariance (f : ExtendedKalmanFilter n m ℝ) (hP : Psd f.covariance) (hQ : Psd f.processNoise)
    (hR : Pd f.measurementNoise) :
    (∀ p J g, f.predict p J = (g, .ok ()) → Psd g.covariance ∧ g.state = p f.state)
    ∧ (∀ h J z g, f.update h J z = (g, .ok ()) → Psd g.covariance ∧ Psd (f.covariance - g.covariance))
    ∧ (∀ h J z, (∃ H, J f.state = .ok H) → (f.update h J z).2 = .ok ()) := by
  refine ⟨fun p J g hg => ?_, fun h J z g hg => ?_, fun h J z hJ => ?_⟩
  · unfold predict at hg
    cases hJ : J f.state with
    | error e => rw [hJ] at hg; simp at hg
    | ok F =>
      rw [hJ] at hg
      dsimp only at hg
      rw [if_neg (by rw [real_vIsFinite, real_mIsFinite]; simp)] at hg
      have := congrArg Prod.fst hg
      dsimp only at this
      subst this
      refine ⟨?_, rfl⟩
      exact ((⟨f.state, f.covariance, F, fun _ _ => 0, f.processNoise, f.measurementNoise, f.innovation,
        f.innovationCovariance, .joseph⟩ : KalmanFilter n m ℝ).kalman_predict hP hQ).1
  · unfold update updateWithResidual at hg
    rw [if_neg (by rw [real_vIsFinite]; simp), if_neg (by rw [real_vIsFinite]; simp)] at hg
    cases hJ : J f.state with
    | error e => rw [hJ] at hg; simp at hg
    | ok H =>
      rw [hJ] at hg
      dsimp only at hg
      rw [if_neg (by rw [real_mIsFinite]; simp)] at hg
      have hS : Pd (H * f.covariance * Hᵀ + f.measurementNoise) := innovationCov_pd hP hR
      obtain ⟨L, hL, hK⟩ := gain_spec hP hS
      rw [hL] at hg
      have := congrArg Prod.fst hg
      dsimp only at this
      subst this
      dsimp only
      rw [joseph_eq_naive hP.1 hS.1 hK]
      refine ⟨naive_psd hP hR.psd hS.1 hK, ?_⟩
      rw [naive_drop hP.1 hS.1 hK]
      exact hS.psd.sandwich _
  · obtain ⟨H, hJ⟩ := hJ
    unfold update updateWithResidual
    rw [if_neg (by rw [real_vIsFinite]; simp), if_neg (by rw [real_vIsFinite]; simp), hJ]
    dsimp only
    rw [if_neg (by rw [real_mIsFinite]; simp)]
    obtain ⟨L, hL, -⟩ := gain_spec hP (innovationCov_pd (H := H) hP hR)
    rw [hL]

end ExtendedKalmanFilter

/-! ### Bad input, for every scalar type -/

section refusal
variable {T : Type} [Zero T] [One T] [Add T] [Sub T] [Mul T] [Div T] [LE T] [DecidableLE T] [Fns T]

/-- C59. A measurement with an entry that is not finite, in any position, is refused as such and changes nothing
at all, for every scalar type. -/
theorem kalman_refuses (f : KalmanFilter n m T) (g : ExtendedKalmanFilter n m T) (z : Fin m → T)
    (h : ∃ i, Fns.isFinite (z i) = false) (model : (Fin n → T) → Fin m → T)
    (J : (Fin n → T) → Except DiffError (Matrix (Fin m) (Fin n) T)) :
    f.update z = (f, .error .nonFinite) ∧ g.update model J z = (g, .error .nonFinite)
    ∧ g.updateWithResidual J z = (g, .error .nonFinite) := by
  have hz : vIsFinite z = false := by
    obtain ⟨i, hi⟩ := h
    rw [← Bool.not_eq_true, vIsFinite, List.all_eq_true]
    intro hc
    rw [hc i (List.mem_finRange i)] at hi
    cases hi
  refine ⟨?_, ?_, ?_⟩
  · unfold KalmanFilter.update; rw [if_pos (by rw [hz]; rfl)]
  · unfold ExtendedKalmanFilter.update; rw [if_pos (by rw [hz]; rfl)]
  · unfold ExtendedKalmanFilter.updateWithResidual; rw [if_pos (by rw [hz]; rfl)]

/-- C59. Whatever the reason a call fails for, the state, the covariance and the settings are those before the
call; a call that succeeds has met only finite measurements, innovation covariances and propagated states. -/
theorem kalman_failure_keeps (f : KalmanFilter n m T) (g : ExtendedKalmanFilter n m T) (z : Fin m → T)
    (model : (Fin n → T) → Fin m → T) (process : (Fin n → T) → Fin n → T)
    (J : (Fin n → T) → Except DiffError (Matrix (Fin m) (Fin n) T))
    (J' : (Fin n → T) → Except DiffError (Matrix (Fin n) (Fin n) T)) :
    (∀ e, (f.update z).2 = .error e → ∃ y S, (f.update z).1 = { f with innovation := y, innovationCovariance := S })
    ∧ (∀ e, (g.update model J z).2 = .error e →
      ∃ y S, (g.update model J z).1 = { g with innovation := y, innovationCovariance := S })
    ∧ (∀ e, (g.predict process J').2 = .error e → (g.predict process J').1 = g)
    ∧ ((f.update z).2 = .ok () → vIsFinite z = true ∧ mIsFinite (f.update z).1.innovationCovariance = true)
    ∧ ((g.predict process J').2 = .ok () → vIsFinite (g.predict process J').1.state = true) := by
  refine ⟨fun e he => ?_, fun e he => ?_, fun e he => ?_, fun h => ?_, fun h => ?_⟩
  · unfold KalmanFilter.update at he ⊢
    dsimp only at he ⊢
    split_ifs at he ⊢
    · exact ⟨_, _, rfl⟩
    · exact ⟨_, _, rfl⟩
    · split at he <;> rename_i hc
      · exact ⟨_, _, rfl⟩
      · cases he
  · unfold ExtendedKalmanFilter.update ExtendedKalmanFilter.updateWithResidual at he ⊢
    split_ifs at he ⊢
    · exact ⟨_, _, rfl⟩
    · exact ⟨_, _, rfl⟩
    · cases hJ : J g.state with
      | error e' => exact ⟨_, _, rfl⟩
      | ok H =>
        rw [hJ] at he
        dsimp only at he ⊢
        split_ifs at he ⊢
        · exact ⟨_, _, rfl⟩
        · split at he <;> rename_i hc
          · exact ⟨_, _, rfl⟩
          · cases he
  · unfold ExtendedKalmanFilter.predict at he ⊢
    cases hJ : J' g.state with
    | error e' => rfl
    | ok F =>
      rw [hJ] at he
      dsimp only at he ⊢
      split_ifs at he ⊢
      rfl
  · unfold KalmanFilter.update at h ⊢
    dsimp only at h ⊢
    split_ifs at h ⊢ with h1 h2
    · split at h
      · cases h
      · rename_i hc
        simp only [Bool.not_eq_true, Bool.not_eq_eq_eq_not, Bool.not_true, Bool.not_false] at h1 h2
        exact ⟨by simpa using h1, by simpa using h2⟩
  · unfold ExtendedKalmanFilter.predict at h ⊢
    cases hJ : J' g.state with
    | error e' => rw [hJ] at h; cases h
    | ok F =>
      rw [hJ] at h
      dsimp only at h ⊢
      split_ifs at h ⊢ with h1
      simp only [Bool.or_eq_true, not_or] at h1
      simpa using h1.1

end refusal

/-- A position and speed filter that measures position. -/
noncomputable def demoKalman : KalmanFilter 2 1 ℝ :=
  KalmanFilter.new (fun _ => 0) 1 !![1, 1; 0, 1] !![1, 0] 0 1

theorem pd_one : Pd (1 : Matrix (Fin n) (Fin n) ℝ) := by
  refine ⟨transpose_one, fun x hx => ?_⟩
  rw [one_mulVec]
  have h0 : 0 ≤ x ⬝ᵥ x := Finset.sum_nonneg fun i _ => mul_self_nonneg _
  refine lt_of_le_of_ne h0 fun h => hx ?_
  funext i
  exact mul_self_eq_zero.1 ((Finset.sum_eq_zero_iff_of_nonneg fun i _ => mul_self_nonneg _).1 h.symm i
    (Finset.mem_univ i))

theorem psd_zero : Psd (0 : Matrix (Fin n) (Fin n) ℝ) := ⟨transpose_zero, fun x => by simp⟩

example : demoKalman.Proper ∧ Psd ((demoKalman.calls [.predict, .update ![1], .setMeasurementNoise 1, .predict]).1.covariance)
    ∧ ∃ (g : KalmanFilter 2 1 ℝ) (K : Matrix (Fin 2) (Fin 1) ℝ), demoKalman.update ![3] = (g, .ok ())
      ∧ g.covariance = (1 - K * demoKalman.measurementModel) * demoKalman.covariance := by
  have h : demoKalman.Proper := ⟨pd_one.psd, psd_zero, pd_one⟩
  refine ⟨h, (demoKalman.kalman_history h _ ?_).1, ?_⟩
  · intro c hc
    simp only [List.mem_cons, List.mem_nil_iff, or_false] at hc
    rcases hc with rfl | rfl | rfl | rfl
    · trivial
    · trivial
    · exact pd_one
    · trivial
  · obtain ⟨g, K, h1, -, -, -, h2, -⟩ := demoKalman.kalman_update ![3] h.1 h.3
    exact ⟨g, K, h1, h2⟩

end Multicalc
