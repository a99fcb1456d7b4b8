import Verif.Model.GeometricAttitude
import Verif.Props.Kalman
import Verif.Props.Rigid
import Verif.Props.RotationMaps
import Verif.Props.Directions
import Verif.Props.LeastSquares
import Verif.Props.Attitude
import Verif.Props.Lqr
import Mathlib.Analysis.ODE.ExistUnique

/-!
# Attitude control on rotations (C103) and thrust commands (C104)
-/

namespace Multicalc

open Matrix

namespace GeometricAttitude

/-! ### The pointing error -/

/-- The turn from the body's facing to the wanted one, as a quaternion. -/
noncomputable def relative (R D : SO3 ℝ) : Quat ℝ := (R.inverse.compose D).quaternion

theorem relative_unit {R D : SO3 ℝ} (hR : R.quaternion.IsUnit) (hD : D.quaternion.IsUnit) : (relative R D).IsUnit := by
  rw [Quat.IsUnit] at hR hD ⊢
  simp only [relative, SO3.compose, SO3.inverse, Quat.mul, Quat.conjugate]
  grind

theorem relative_matrix {R D : SO3 ℝ} (hR : R.quaternion.IsUnit) (hD : D.quaternion.IsUnit) :
    R.toMatrixᵀ * D.toMatrix = (relative R D).toRotationMatrix := by
  have hc : R.quaternion.conjugate.IsUnit := by
    rw [Quat.IsUnit] at hR ⊢; simp only [Quat.conjugate]; linarith
  have h1 := (toRotationMatrix_spec R.quaternion.conjugate D.quaternion hc hD 0).2.2.2.1
  have h2 := (toRotationMatrix_spec R.quaternion R.quaternion hR hR 0).2.2.2.2
  have h3 : relative R D = R.quaternion.conjugate.mul D.quaternion := rfl
  rw [h3, h1, h2, mmul_eq, mtranspose_eq]
  rfl

/-- How far the body is from the wanted facing: one minus the cosine of the angle between the two. -/
noncomputable def misalignment (R D : SO3 ℝ) : ℝ := (3 - (R.toMatrixᵀ * D.toMatrix).trace) / 2

theorem error_quat {R D : SO3 ℝ} (hR : R.quaternion.IsUnit) (hD : D.quaternion.IsUnit) :
    attitudeError R D = ![-2 * (relative R D).w * (relative R D).x, -2 * (relative R D).w * (relative R D).y,
      -2 * (relative R D).w * (relative R D).z] := by
  unfold attitudeError
  simp only [mmul_eq, mtranspose_eq, relative_matrix hR hD]
  funext i
  fin_cases i <;> simp [vscale, SO3.vee, msub, Quat.toRotationMatrix, half_real] <;> ring

theorem misalignment_quat {R D : SO3 ℝ} (hR : R.quaternion.IsUnit) (hD : D.quaternion.IsUnit) :
    misalignment R D = 2 * ((relative R D).x ^ 2 + (relative R D).y ^ 2 + (relative R D).z ^ 2) := by
  unfold misalignment
  rw [relative_matrix hR hD, Matrix.trace_fin_three]
  simp [Quat.toRotationMatrix]
  ring

theorem dot3 (a b : Fin 3 → ℝ) : a ⬝ᵥ b = a 0 * b 0 + a 1 * b 1 + a 2 * b 2 := by
  simp [dotProduct, Fin.sum_univ_three]

/-- C103. The misalignment is between none (0) and a half turn (2), zero exactly when the two facings turn every vector the
same way; and the squared length of the pointing error is its product with what is left to a half turn, so the error
vanishes exactly when aligned and exactly a half turn off. -/
theorem attitude_error_length {R D : SO3 ℝ} (hR : R.quaternion.IsUnit) (hD : D.quaternion.IsUnit) :
    0 ≤ misalignment R D ∧ misalignment R D ≤ 2 ∧
    (misalignment R D = 0 ↔ ∀ v, R.act v = D.act v) ∧
    attitudeError R D ⬝ᵥ attitudeError R D = misalignment R D * (2 - misalignment R D) ∧
    (attitudeError R D = 0 ↔ misalignment R D = 0 ∨ misalignment R D = 2) := by
  have hu := relative_unit hR hD
  have hq := misalignment_quat hR hD
  have he := error_quat hR hD
  set q := relative R D with hqd
  have hlen : attitudeError R D ⬝ᵥ attitudeError R D = misalignment R D * (2 - misalignment R D) := by
    rw [hq, he, dot3]
    rw [Quat.IsUnit] at hu
    simp only [Matrix.cons_val]
    grind
  have h0 : 0 ≤ misalignment R D := by rw [hq]; positivity
  have h2 : misalignment R D ≤ 2 := by
    rw [hq]; rw [Quat.IsUnit] at hu; nlinarith [sq_nonneg q.w]
  have hv : ∀ v, R.toMatrix *ᵥ v = R.act v := fun v => by
    rw [← mmulVec_eq]; exact (so3_group R R R hR hR v v).2.2.2.2.2.2.2.2.2.2.2.2.2.2.1
  have hv' : ∀ v, D.toMatrix *ᵥ v = D.act v := fun v => by
    rw [← mmulVec_eq]; exact (so3_group D D D hD hD v v).2.2.2.2.2.2.2.2.2.2.2.2.2.2.1
  have hor : R.toMatrixᵀ * R.toMatrix = 1 := by
    have := (toRotationMatrix_spec R.quaternion R.quaternion hR hR 0).1
    rwa [mmul_eq, mtranspose_eq, midentity_eq] at this
  refine ⟨h0, h2, ⟨fun h v => ?_, fun h => ?_⟩, hlen, fun h => ?_, fun h => ?_⟩
  · rw [hq] at h
    have hx : q.x = 0 := by nlinarith [sq_nonneg q.x, sq_nonneg q.y, sq_nonneg q.z]
    have hy : q.y = 0 := by nlinarith [sq_nonneg q.x, sq_nonneg q.y, sq_nonneg q.z]
    have hz : q.z = 0 := by nlinarith [sq_nonneg q.x, sq_nonneg q.y, sq_nonneg q.z]
    have h1 : R.toMatrixᵀ * D.toMatrix = 1 := by
      rw [relative_matrix hR hD]
      ext i j
      fin_cases i <;> fin_cases j <;> simp [Quat.toRotationMatrix, ← hqd, hx, hy, hz]
    have h3 : D.toMatrix = R.toMatrix := by
      have : R.toMatrix * (R.toMatrixᵀ * D.toMatrix) = R.toMatrix := by rw [h1, Matrix.mul_one]
      rwa [← Matrix.mul_assoc, mul_eq_one_comm.1 hor, Matrix.one_mul] at this
    rw [← hv, ← hv', h3]
  · have h3 : D.toMatrix = R.toMatrix := by
      apply Matrix.ext_of_mulVec_single
      intro i
      rw [hv, hv', h]
    unfold misalignment
    rw [h3, hor]
    simp
  · rw [h] at hlen
    have : misalignment R D * (2 - misalignment R D) = 0 := by rw [← hlen]; simp
    rcases mul_eq_zero.1 this with h | h
    · exact Or.inl h
    · exact Or.inr (by linarith)
  · have : attitudeError R D ⬝ᵥ attitudeError R D = 0 := by
      rw [hlen]; rcases h with h | h <;> rw [h] <;> norm_num
    exact dotProduct_self_zero this.le

example : (⟨⟨3 / 5, 0, 0, 4 / 5⟩⟩ : SO3 ℝ).quaternion.IsUnit ∧
    misalignment ⟨⟨3 / 5, 0, 0, 4 / 5⟩⟩ SO3.identity = 32 / 25 := by
  have h1 : (⟨⟨3 / 5, 0, 0, 4 / 5⟩⟩ : SO3 ℝ).quaternion.IsUnit := by norm_num [Quat.IsUnit]
  have h2 : (SO3.identity : SO3 ℝ).quaternion.IsUnit := by norm_num [Quat.IsUnit, SO3.identity, Quat.identity]
  refine ⟨h1, ?_⟩
  rw [misalignment_quat h1 h2]
  norm_num [relative, SO3.compose, SO3.inverse, Quat.conjugate, Quat.mul, SO3.identity, Quat.identity]

/-- C103. A body turned from the wanted facing by the rotation vector `φ` has the pointing error `sin|φ| / |φ| · φ` and the
misalignment `1 - cos|φ|`. -/
theorem attitude_error_axis (D : SO3 ℝ) (hD : D.quaternion.IsUnit) (φ : Fin 3 → ℝ) (hφ : 30 / 2 ^ 52 ≤ vnorm φ) :
    attitudeError (D.compose (SO3.exp φ)) D = (fun i => Real.sin (vnorm φ) / vnorm φ * φ i) ∧
    misalignment (D.compose (SO3.exp φ)) D = 1 - Real.cos (vnorm φ) := by
  have hpos : 0 < vnorm φ := lt_of_lt_of_le (by norm_num) hφ
  have hu : (SO3.exp φ).quaternion.IsUnit := ((exp_spec φ).1 hφ).1
  have hC : (D.compose (SO3.exp φ)).quaternion.IsUnit := (so3_group D (SO3.exp φ) D hD hu 0 0).1
  have hrel : relative (D.compose (SO3.exp φ)) D = (SO3.exp φ).quaternion.conjugate := by
    rw [Quat.IsUnit] at hD
    simp only [relative, SO3.compose, SO3.inverse, Quat.mul, Quat.conjugate]
    ext <;> simp only [] <;> grind
  have hq : (SO3.exp φ).quaternion = _ := fromScaledAxis_main hφ
  have hn : φ 0 ^ 2 + φ 1 ^ 2 + φ 2 ^ 2 = vnorm φ ^ 2 := by
    rw [pow_two (vnorm φ), vnorm_sq, vdot3]; ring
  have hs : Real.sin (vnorm φ) = 2 * Real.sin (vnorm φ / 2) * Real.cos (vnorm φ / 2) := by
    rw [← Real.sin_two_mul]; congr 1; ring
  constructor
  · rw [error_quat hC hD, hrel, hq, hs]
    funext i
    fin_cases i <;> simp [Quat.conjugate] <;> ring
  · rw [misalignment_quat hC hD, hrel, hq]
    have hc : Real.cos (vnorm φ) = 1 - 2 * Real.sin (vnorm φ / 2) ^ 2 := by
      have := Real.cos_two_mul (vnorm φ / 2)
      rw [Real.cos_sq'] at this
      rw [show vnorm φ = 2 * (vnorm φ / 2) by ring, this]; ring_nf
    rw [hc]
    simp only [Quat.conjugate]
    have : 2 * ((-(φ 0 * (Real.sin (vnorm φ / 2) / vnorm φ))) ^ 2 + (-(φ 1 * (Real.sin (vnorm φ / 2) / vnorm φ))) ^ 2 +
        (-(φ 2 * (Real.sin (vnorm φ / 2) / vnorm φ))) ^ 2) =
        2 * (φ 0 ^ 2 + φ 1 ^ 2 + φ 2 ^ 2) * (Real.sin (vnorm φ / 2) / vnorm φ) ^ 2 := by ring
    rw [this, hn]
    field_simp
    ring

example : (30 : ℝ) / 2 ^ 52 ≤ vnorm (![1, 0, 0] : Fin 3 → ℝ) := by
  have : vnorm (![1, 0, 0] : Fin 3 → ℝ) = 1 := by simp [vnorm, vnormSquared, vdot3, real_sqrt]
  rw [this]; norm_num

/-- C103. At rest with the target at rest the torque is minus the attitude gain times the pointing error, so the body is in
balance exactly when aligned or exactly a half turn off. -/
theorem balance (c : GeometricAttitude ℝ) (hk : 0 < c.attitudeGain) {R D : SO3 ℝ} (hR : R.quaternion.IsUnit)
    (hD : D.quaternion.IsUnit) :
    c.torque R 0 D 0 0 = -c.attitudeGain • attitudeError R D ∧
    (c.torque R 0 D 0 0 = 0 ↔ misalignment R D = 0 ∨ misalignment R D = 2) := by
  have h1 : c.torque R 0 D 0 0 = -c.attitudeGain • attitudeError R D := by
    unfold torque attitudeError
    simp only [mmul_eq, mtranspose_eq, mmulVec_eq, mulVec_zero]
    have hc : ∀ a b : Fin 3 → ℝ, a = 0 → cross a b = 0 := by
      rintro a b rfl; funext i; fin_cases i <;> simp [cross]
    have hz : vsub (cross (0 : Fin 3 → ℝ) 0) 0 = 0 := by rw [hc 0 0 rfl]; funext i; simp [vsub]
    rw [hz, hc 0 _ rfl, mulVec_zero]
    funext i
    simp [vsub, vadd, vscale]
    ring
  refine ⟨h1, ?_⟩
  rw [h1, smul_eq_zero, ← (attitude_error_length hR hD).2.2.2.2]
  constructor
  · rintro (h | h)
    · linarith
    · exact h
  · exact Or.inr

example : misalignment ⟨⟨0, 1, 0, 0⟩⟩ SO3.identity = 2 := by
  have h1 : (⟨⟨0, 1, 0, 0⟩⟩ : SO3 ℝ).quaternion.IsUnit := by norm_num [Quat.IsUnit]
  have h2 : (SO3.identity : SO3 ℝ).quaternion.IsUnit := by norm_num [Quat.IsUnit, SO3.identity, Quat.identity]
  rw [misalignment_quat h1 h2]
  norm_num [relative, SO3.compose, SO3.inverse, Quat.conjugate, Quat.mul, SO3.identity, Quat.identity]

/-- C103. The torque does not depend on how the world's axes are chosen: turning both facings by the same rotation changes
nothing. -/
theorem torque_frame_free (c : GeometricAttitude ℝ) {S R D : SO3 ℝ} (hS : S.quaternion.IsUnit) (hR : R.quaternion.IsUnit)
    (hD : D.quaternion.IsUnit) (ω δ δ' : Fin 3 → ℝ) :
    c.torque (S.compose R) ω (S.compose D) δ δ' = c.torque R ω D δ δ' ∧
    attitudeError (S.compose R) (S.compose D) = attitudeError R D := by
  have h1 := (so3_group S R S hS hR 0 0).2.2.2.2.2.2.2.2.2.2.2.2.2.1
  have h2 := (so3_group S D S hS hD 0 0).2.2.2.2.2.2.2.2.2.2.2.2.2.1
  have hor : S.toMatrixᵀ * S.toMatrix = 1 := by
    have := (toRotationMatrix_spec S.quaternion S.quaternion hS hS 0).1
    rwa [mmul_eq, mtranspose_eq, midentity_eq] at this
  have h3 : mmul (mtranspose (S.compose R).toMatrix) (S.compose D).toMatrix = mmul (mtranspose R.toMatrix) D.toMatrix := by
    rw [h1, h2]
    simp only [mmul_eq, mtranspose_eq, Matrix.transpose_mul]
    rw [Matrix.mul_assoc, ← Matrix.mul_assoc S.toMatrixᵀ, hor, Matrix.one_mul]
  unfold torque attitudeError
  simp only [h3, and_self]

example : (⟨⟨3 / 5, 4 / 5, 0, 0⟩⟩ : SO3 ℝ).quaternion.IsUnit ∧ (⟨⟨0, 0, 1, 0⟩⟩ : SO3 ℝ).quaternion.IsUnit := by
  norm_num [Quat.IsUnit]

/-- C103. The constructor accepts a symmetric inertia exactly when both gains are positive and the inertia is positive
definite, keeps what it is given, and otherwise says which of the two was wrong; an inertia off symmetry by more than its
tolerance is refused as such. -/
theorem attitude_new (k r : ℝ) (J : Matrix (Fin 3) (Fin 3) ℝ) :
    (Jᵀ = J → (∀ c, GeometricAttitude.new k r J = .ok c ↔ 0 < k ∧ 0 < r ∧ Pd J ∧ c = ⟨k, r, J⟩)) ∧
    (k ≤ 0 ∨ r ≤ 0 → GeometricAttitude.new k r J = .error .nonPositiveGain) ∧
    (0 < k → 0 < r → isSymmetric J = false → GeometricAttitude.new k r J = .error .notSymmetricInertia) ∧
    (0 < k → 0 < r → Jᵀ = J → ¬ Pd J → GeometricAttitude.new k r J = .error .nonPositiveInertia) := by
  have hfin : ¬ ((!Fns.isFinite k || !Fns.isFinite r || !mIsFinite J) = true) := by
    rw [real_isFinite, real_isFinite, real_mIsFinite]; simp
  have hsym : Jᵀ = J → isSymmetric J = true := by
    intro h
    unfold isSymmetric
    rw [List.all_eq_true]
    intro i _
    rw [List.all_eq_true]
    intro j _
    have e : J j i = J i j := congrFun (congrFun h i) j
    by_cases hij : i < j
    · rw [if_pos hij]
      simp only [e, sub_self, max_self, real_abs, abs_zero, Bool.not_eq_true', decide_eq_false_iff_not, not_lt]
      have : (0 : ℝ) ≤ epsilonX30 := by simp [epsilonX30, Fns.epsilon]
      positivity
    · rw [if_neg hij]
  have hch : Jᵀ = J → ((∃ L, cholesky J = .ok L) ↔ Pd J) := fun h =>
    ⟨fun hL => ⟨h, by simpa only [vdot_eq, mmulVec_eq] using (cholesky_iff_positive_definite J h).1.1 hL⟩,
      fun hp => cholesky_ok_of_pd J hp.1 hp.2⟩
  refine ⟨fun hJ c => ?_, fun h => ?_, fun h1 h2 h3 => ?_, fun h1 h2 h3 h4 => ?_⟩
  · unfold GeometricAttitude.new
    rw [if_neg hfin]
    by_cases hg : k ≤ 0 ∨ r ≤ 0
    · rw [if_pos hg]
      refine ⟨fun h => (by cases h), fun ⟨h1, h2, _⟩ => ?_⟩
      rcases hg with h | h <;> linarith
    · rw [if_neg hg, if_neg (by rw [hsym hJ]; simp)]
      push Not at hg
      cases hc : cholesky J with
      | error e =>
        refine ⟨fun h => (by cases h), fun ⟨_, _, h3, _⟩ => ?_⟩
        obtain ⟨L, hL⟩ := (hch hJ).2 h3
        rw [hc] at hL; cases hL
      | ok L =>
        simp only [Except.ok.injEq]
        exact ⟨fun h => ⟨hg.1, hg.2, (hch hJ).1 ⟨L, hc⟩, h.symm⟩, fun h => h.2.2.2.symm⟩
  · unfold GeometricAttitude.new
    rw [if_neg hfin, if_pos h]
  · unfold GeometricAttitude.new
    rw [if_neg hfin, if_neg (by push Not; exact ⟨h1, h2⟩), if_pos (by rw [h3]; rfl)]
  · unfold GeometricAttitude.new
    rw [if_neg hfin, if_neg (by push Not; exact ⟨h1, h2⟩), if_neg (by rw [hsym h3]; simp)]
    cases hc : cholesky J with
    | error e => rfl
    | ok L => exact absurd ((hch h3).1 ⟨L, hc⟩) h4

example : Pd (1 : Matrix (Fin 3) (Fin 3) ℝ) ∧ ¬ Pd (0 : Matrix (Fin 3) (Fin 3) ℝ) := by
  refine ⟨pd_one, fun h => ?_⟩
  have := h.2 ![1, 0, 0] (fun h => by simpa using congrFun h 0)
  simp at this

/-! ### The closed loop -/

/-- A body with the controller's inertia, turning under the controller's torque, from time `0` to `τ`: its facing `R`
moves with its rate `ω`, its rate obeys Euler's equation, and the target `D` moves with its own rate `δ`. -/
structure Tracking (c : GeometricAttitude ℝ) (τ : ℝ) (R D : ℝ → SO3 ℝ) (ω ω' δ δ' : ℝ → Fin 3 → ℝ) : Prop where
  unit : ∀ t ∈ Set.Icc 0 τ, (R t).quaternion.IsUnit ∧ (D t).quaternion.IsUnit
  turns : ∀ t ∈ Set.Icc 0 τ, ∀ i j, HasDerivAt (fun s => (R s).toMatrix i j) (((R t).toMatrix * skew3 (ω t)) i j) t
  target : ∀ t ∈ Set.Icc 0 τ, ∀ i j, HasDerivAt (fun s => (D s).toMatrix i j) (((D t).toMatrix * skew3 (δ t)) i j) t
  rate : ∀ t ∈ Set.Icc 0 τ, ∀ i, HasDerivAt (fun s => ω s i) (ω' t i) t
  targetRate : ∀ t ∈ Set.Icc 0 τ, ∀ i, HasDerivAt (fun s => δ s i) (δ' t i) t
  euler : ∀ t ∈ Set.Icc 0 τ, c.inertia *ᵥ ω' t + cross (ω t) (c.inertia *ᵥ ω t) =
    c.torque (R t) (ω t) (D t) (δ t) (δ' t)

/-- The body's turn rate less the target's, both seen from the body. -/
noncomputable def rateError (R D : SO3 ℝ) (ω δ : Fin 3 → ℝ) : Fin 3 → ℝ := ω - (R.toMatrixᵀ * D.toMatrix) *ᵥ δ

theorem skew_carry (q : Quat ℝ) (hq : q.IsUnit) (v : Fin 3 → ℝ) :
    q.toRotationMatrix * skew3 v = skew3 (q.toRotationMatrix *ᵥ v) * q.toRotationMatrix := by
  rw [Quat.IsUnit] at hq
  ext i j
  rw [Matrix.mul_apply, Matrix.mul_apply]
  fin_cases i <;> fin_cases j <;>
    simp [Fin.sum_univ_three, skew3, Quat.toRotationMatrix, mulVec, dotProduct] <;> grind

section
variable {c : GeometricAttitude ℝ} {τ : ℝ} {R D : ℝ → SO3 ℝ} {ω ω' δ δ' : ℝ → Fin 3 → ℝ}

theorem Tracking.relative_deriv (h : Tracking c τ R D ω ω' δ δ') {t : ℝ} (ht : t ∈ Set.Icc 0 τ) (i j : Fin 3) :
    HasDerivAt (fun s => ((R s).toMatrixᵀ * (D s).toMatrix) i j)
      (-(skew3 (rateError (R t) (D t) (ω t) (δ t)) * ((R t).toMatrixᵀ * (D t).toMatrix)) i j) t := by
  have h1 : HasDerivAt (fun s => ∑ k, (R s).toMatrix k i * (D s).toMatrix k j)
      (∑ k, (((R t).toMatrix * skew3 (ω t)) k i * (D t).toMatrix k j +
        (R t).toMatrix k i * ((D t).toMatrix * skew3 (δ t)) k j)) t :=
    HasDerivAt.fun_sum fun k _ => (h.turns t ht k i).mul (h.target t ht k j)
  refine h1.congr_deriv ?_
  have e1 : (∑ k, (((R t).toMatrix * skew3 (ω t)) k i * (D t).toMatrix k j +
        (R t).toMatrix k i * ((D t).toMatrix * skew3 (δ t)) k j)) =
      (((R t).toMatrix * skew3 (ω t))ᵀ * (D t).toMatrix + (R t).toMatrixᵀ * ((D t).toMatrix * skew3 (δ t))) i j := by
    rw [Matrix.add_apply, Matrix.mul_apply, Matrix.mul_apply, ← Finset.sum_add_distrib]
    rfl
  rw [e1, Matrix.transpose_mul, Matrix.mul_assoc, ← Matrix.mul_assoc (R t).toMatrixᵀ]
  have hu := relative_unit (h.unit t ht).1 (h.unit t ht).2
  unfold rateError
  rw [relative_matrix (h.unit t ht).1 (h.unit t ht).2, skew_carry _ hu]
  have e2 : (skew3 (ω t))ᵀ = -skew3 (ω t) := by
    ext a b; fin_cases a <;> fin_cases b <;> simp [skew3]
  have e3 : ∀ a b : Fin 3 → ℝ, skew3 (a - b) = skew3 a - skew3 b := by
    intro a b; ext i j; fin_cases i <;> fin_cases j <;> simp [skew3] <;> ring
  rw [e2, e3]
  simp only [Matrix.neg_mul, Matrix.sub_mul, Matrix.add_apply, Matrix.neg_apply, Matrix.sub_apply]
  ring

theorem error_entries (R D : SO3 ℝ) : attitudeError R D =
    let Q := R.toMatrixᵀ * D.toMatrix
    ![(Q 1 2 - Q 2 1) / 2, (Q 2 0 - Q 0 2) / 2, (Q 0 1 - Q 1 0) / 2] := by
  unfold attitudeError
  simp only [mmul_eq, mtranspose_eq]
  funext i
  fin_cases i <;> simp [vscale, SO3.vee, msub, half_real] <;> ring

/-- C103. The misalignment changes at the rate the pointing error and the rate error overlap. -/
theorem Tracking.misalignment_deriv (h : Tracking c τ R D ω ω' δ δ') {t : ℝ} (ht : t ∈ Set.Icc 0 τ) :
    HasDerivAt (fun s => misalignment (R s) (D s))
      (attitudeError (R t) (D t) ⬝ᵥ rateError (R t) (D t) (ω t) (δ t)) t := by
  have h0 := h.relative_deriv ht 0 0
  have h1 := h.relative_deriv ht 1 1
  have h2 := h.relative_deriv ht 2 2
  have h3 := (((h0.fun_add h1).fun_add h2).const_sub 3).div_const 2
  have e0 : (fun s => misalignment (R s) (D s)) = fun s => (3 - (((R s).toMatrixᵀ * (D s).toMatrix) 0 0 +
      ((R s).toMatrixᵀ * (D s).toMatrix) 1 1 + ((R s).toMatrixᵀ * (D s).toMatrix) 2 2)) / 2 := by
    funext s; unfold misalignment; rw [Matrix.trace_fin_three]
  rw [e0]
  refine h3.congr_deriv ?_
  rw [error_entries, dot3]
  generalize (R t).toMatrixᵀ * (D t).toMatrix = Q
  simp [Matrix.mul_apply, Fin.sum_univ_three, skew3]
  ring

theorem mulVec_cross (e : Fin 3 → ℝ) (Q : Matrix (Fin 3) (Fin 3) ℝ) (v : Fin 3 → ℝ) :
    (skew3 e * Q) *ᵥ v = cross e (Q *ᵥ v) := by
  rw [← mulVec_mulVec]
  funext i
  fin_cases i <;> simp [skew3, cross, mulVec, dotProduct, Fin.sum_univ_three] <;> ring

/-- C103. Whatever the target does and however the body turns, the torque makes the error between the two obey
`J ė = -k_R e_R - k_ω e`: the gyroscopic torque and the target's own motion are cancelled exactly. -/
theorem Tracking.rate_error_dynamics (h : Tracking c τ R D ω ω' δ δ') {t : ℝ} (ht : t ∈ Set.Icc 0 τ) :
    ∃ e' : Fin 3 → ℝ, (∀ i, HasDerivAt (fun s => rateError (R s) (D s) (ω s) (δ s) i) (e' i) t) ∧
      c.inertia *ᵥ e' = -c.attitudeGain • attitudeError (R t) (D t) -
        c.rateGain • rateError (R t) (D t) (ω t) (δ t) := by
  set Q := (R t).toMatrixᵀ * (D t).toMatrix with hQ
  set e := rateError (R t) (D t) (ω t) (δ t) with he
  refine ⟨fun i => ω' t i + cross (ω t) (Q *ᵥ δ t) i - (Q *ᵥ δ' t) i, fun i => ?_, ?_⟩
  · have h1 : HasDerivAt (fun s => ∑ k, ((R s).toMatrixᵀ * (D s).toMatrix) i k * δ s k)
        (∑ k, (-(skew3 e * Q) i k * δ t k + Q i k * δ' t k)) t :=
      HasDerivAt.fun_sum fun k _ => (h.relative_deriv ht i k).mul (h.targetRate t ht k)
    refine ((h.rate t ht i).sub h1).congr_deriv ?_
    have e1 : (∑ k, (-(skew3 e * Q) i k * δ t k + Q i k * δ' t k)) =
        -((skew3 e * Q) *ᵥ δ t) i + (Q *ᵥ δ' t) i := by
      simp only [mulVec, dotProduct, Finset.sum_add_distrib, neg_mul, Finset.sum_neg_distrib]
    rw [e1, mulVec_cross]
    have e2 : cross e (Q *ᵥ δ t) = cross (ω t) (Q *ᵥ δ t) := by
      have : e = ω t - Q *ᵥ δ t := rfl
      rw [this]
      funext k
      fin_cases k <;> simp [cross] <;> ring
    rw [e2]
    ring
  · have h1 := h.euler t ht
    have e1 : (fun i => ω' t i + cross (ω t) (Q *ᵥ δ t) i - (Q *ᵥ δ' t) i) =
        ω' t + (cross (ω t) (Q *ᵥ δ t) - Q *ᵥ δ' t) := by
      funext i; simp only [Pi.add_apply, Pi.sub_apply]; ring
    rw [e1, mulVec_add]
    have e2 : c.torque (R t) (ω t) (D t) (δ t) (δ' t) =
        -c.attitudeGain • attitudeError (R t) (D t) - c.rateGain • e + cross (ω t) (c.inertia *ᵥ ω t) -
        c.inertia *ᵥ (cross (ω t) (Q *ᵥ δ t) - Q *ᵥ δ' t) := by
      have a1 : e = ω t - Q *ᵥ δ t := rfl
      rw [a1]
      unfold torque attitudeError
      simp only [mmul_eq, mtranspose_eq, mmulVec_eq, ← hQ]
      funext i
      simp only [vsub, vadd, vscale, Pi.add_apply, Pi.sub_apply, Pi.smul_apply, smul_eq_mul]
      have a2 : vsub (cross (ω t) (Q *ᵥ δ t)) (Q *ᵥ δ' t) = cross (ω t) (Q *ᵥ δ t) - Q *ᵥ δ' t := rfl
      rw [a2]
      ring
    rw [e2] at h1
    have h3 : c.inertia *ᵥ ω' t = -c.attitudeGain • attitudeError (R t) (D t) - c.rateGain • e -
        c.inertia *ᵥ (cross (ω t) (Q *ᵥ δ t) - Q *ᵥ δ' t) := by
      have := eq_sub_of_add_eq h1
      rw [this]; abel
    rw [h3]; abel

/-! ### Energy -/

theorem dot_young {n : ℕ} (a b : Fin n → ℝ) {k : ℝ} (hk : 0 < k) : a ⬝ᵥ b ≤ (k * (a ⬝ᵥ a) + (b ⬝ᵥ b) / k) / 2 ∧
    -(a ⬝ᵥ b) ≤ (k * (a ⬝ᵥ a) + (b ⬝ᵥ b) / k) / 2 := by
  have h : ∀ σ : ℝ, σ ^ 2 = 1 → σ * (a ⬝ᵥ b) ≤ (k * (a ⬝ᵥ a) + (b ⬝ᵥ b) / k) / 2 := by
    intro σ hσ
    simp only [dotProduct]
    rw [Finset.mul_sum, Finset.mul_sum, Finset.sum_div, ← Finset.sum_add_distrib, Finset.sum_div]
    refine Finset.sum_le_sum fun i _ => ?_
    have h1 : 0 ≤ (k * a i - σ * b i) ^ 2 / k := by positivity
    have h2 : (k * a i - σ * b i) ^ 2 / k = k * (a i * a i) - 2 * (σ * (a i * b i)) + σ ^ 2 * (b i * b i) / k := by
      field_simp; ring
    rw [h2, hσ, one_mul] at h1
    linarith
  exact ⟨by simpa using h 1 (by norm_num), by simpa using h (-1) (by norm_num)⟩

theorem mulVec_bound {n : ℕ} (M : Matrix (Fin n) (Fin n) ℝ) :
    ∃ L : ℝ, 0 < L ∧ (∀ x, (M *ᵥ x) ⬝ᵥ (M *ᵥ x) ≤ L ^ 2 * (x ⬝ᵥ x)) ∧ ∀ x, x ⬝ᵥ M *ᵥ x ≤ L * (x ⬝ᵥ x) := by
  have hS : 0 ≤ ∑ i, ∑ j, M i j ^ 2 := by positivity
  have h1 : ∀ x, (M *ᵥ x) ⬝ᵥ (M *ᵥ x) ≤ (1 + ∑ i, ∑ j, M i j ^ 2) ^ 2 * (x ⬝ᵥ x) := by
    intro x
    have hx : x ⬝ᵥ x = ∑ j, x j ^ 2 := by simp only [dotProduct, sq]
    have hx0 : 0 ≤ x ⬝ᵥ x := by rw [hx]; positivity
    have h2 : (M *ᵥ x) ⬝ᵥ (M *ᵥ x) ≤ (∑ i, ∑ j, M i j ^ 2) * (x ⬝ᵥ x) := by
      rw [Finset.sum_mul]
      show ∑ i, (M *ᵥ x) i * (M *ᵥ x) i ≤ _
      refine Finset.sum_le_sum fun i _ => ?_
      rw [← sq, hx]
      exact Finset.sum_mul_sq_le_sq_mul_sq Finset.univ (fun j => M i j) x
    nlinarith [mul_nonneg hS hx0, mul_nonneg (mul_nonneg hS hS) hx0]
  refine ⟨1 + ∑ i, ∑ j, M i j ^ 2, by linarith, h1, fun x => ?_⟩
  have hL : 0 < 1 + ∑ i, ∑ j, M i j ^ 2 := by linarith
  have h3 := (dot_young x (M *ᵥ x) hL).1
  have h4 : (M *ᵥ x) ⬝ᵥ (M *ᵥ x) / (1 + ∑ i, ∑ j, M i j ^ 2) ≤ (1 + ∑ i, ∑ j, M i j ^ 2) * (x ⬝ᵥ x) := by
    rw [div_le_iff₀ hL]; nlinarith [h1 x]
  linarith

theorem pd_lower {n : ℕ} {J : Matrix (Fin n) (Fin n) ℝ} (hJ : Pd J) : ∃ μ : ℝ, 0 < μ ∧ ∀ x, μ * (x ⬝ᵥ x) ≤ x ⬝ᵥ J *ᵥ x := by
  obtain ⟨L, hL, -, h1⟩ := mulVec_bound J⁻¹
  refine ⟨1 / L, by positivity, fun x => ?_⟩
  have hsq := hJ.psd.2 (x - (1 / L) • J⁻¹ *ᵥ x)
  have hJJ : J *ᵥ (J⁻¹ *ᵥ x) = x := by rw [mulVec_mulVec, mul_nonsing_inv _ hJ.det, one_mulVec]
  have hsym : ∀ a b, a ⬝ᵥ J *ᵥ b = b ⬝ᵥ J *ᵥ a := by
    intro a b
    rw [dotProduct_mulVec, ← mulVec_transpose, hJ.1, dotProduct_comm]
  rw [mulVec_sub, mulVec_smul, hJJ, sub_dotProduct, dotProduct_sub, dotProduct_sub, smul_dotProduct, smul_dotProduct,
    hsym (J⁻¹ *ᵥ x) x, hJJ, dotProduct_smul, dotProduct_smul, dotProduct_comm (J⁻¹ *ᵥ x) x] at hsq
  simp only [smul_eq_mul] at hsq
  have h2 := h1 x
  have h3 : 1 / L * (1 / L * (x ⬝ᵥ J⁻¹ *ᵥ x)) ≤ 1 / L * (x ⬝ᵥ x) := by
    apply mul_le_mul_of_nonneg_left _ (by positivity)
    rw [one_div, inv_mul_le_iff₀ hL]
    exact h2
  linarith

theorem bilinear_deriv {n : ℕ} {a b : ℝ → Fin n → ℝ} {a' b' : Fin n → ℝ} {t : ℝ} (J : Matrix (Fin n) (Fin n) ℝ)
    (ha : ∀ i, HasDerivAt (fun s => a s i) (a' i) t) (hb : ∀ i, HasDerivAt (fun s => b s i) (b' i) t) :
    HasDerivAt (fun s => a s ⬝ᵥ J *ᵥ b s) (a' ⬝ᵥ J *ᵥ b t + a t ⬝ᵥ J *ᵥ b') t := by
  have h1 : ∀ i, HasDerivAt (fun s => (J *ᵥ b s) i) ((J *ᵥ b') i) t := fun i => by
    have h : HasDerivAt (fun s => ∑ j, J i j * b s j) (∑ j, J i j * b' j) t :=
      HasDerivAt.fun_sum fun j _ => (hb j).const_mul (J i j)
    exact h
  have h2 : HasDerivAt (fun s => ∑ i, a s i * (J *ᵥ b s) i) (∑ i, (a' i * (J *ᵥ b t) i + a t i * (J *ᵥ b') i)) t :=
    HasDerivAt.fun_sum fun i _ => (ha i).mul (h1 i)
  refine h2.congr_deriv ?_
  simp only [dotProduct, Finset.sum_add_distrib]

/-- The energy of the error: what the rate error would hold as kinetic energy, and the attitude gain times the
misalignment. -/
noncomputable def energy (c : GeometricAttitude ℝ) (R D : SO3 ℝ) (ω δ : Fin 3 → ℝ) : ℝ :=
  rateError R D ω δ ⬝ᵥ c.inertia *ᵥ rateError R D ω δ / 2 + c.attitudeGain * misalignment R D

/-- C103. The energy of the error falls at exactly the rate gain times the squared rate error. -/
theorem Tracking.energy_deriv (h : Tracking c τ R D ω ω' δ δ') (hJ : c.inertiaᵀ = c.inertia) {t : ℝ}
    (ht : t ∈ Set.Icc 0 τ) : HasDerivAt (fun s => c.energy (R s) (D s) (ω s) (δ s))
      (-c.rateGain * (rateError (R t) (D t) (ω t) (δ t) ⬝ᵥ rateError (R t) (D t) (ω t) (δ t))) t := by
  obtain ⟨e', he', hd⟩ := h.rate_error_dynamics ht
  have h1 := (((bilinear_deriv c.inertia he' he').div_const 2).add ((h.misalignment_deriv ht).const_mul c.attitudeGain))
  refine h1.congr_deriv ?_
  have hsym : e' ⬝ᵥ c.inertia *ᵥ rateError (R t) (D t) (ω t) (δ t) =
      rateError (R t) (D t) (ω t) (δ t) ⬝ᵥ c.inertia *ᵥ e' := by
    rw [dotProduct_mulVec, ← mulVec_transpose, hJ, dotProduct_comm]
  rw [hsym, hd, dotProduct_sub, dotProduct_smul, dotProduct_smul, dotProduct_comm (rateError _ _ _ _) (attitudeError _ _)]
  simp only [smul_eq_mul]
  ring

/-- C103. The energy of the error never rises; so a body whose error starts with less energy than a half turn holds never
gets as far as a half turn, and never further than its starting energy allows. -/
theorem Tracking.energy_falls (h : Tracking c τ R D ω ω' δ δ') (hJ : Psd c.inertia) (hk : 0 < c.attitudeGain)
    (hr : 0 ≤ c.rateGain) {s t : ℝ} (hs : 0 ≤ s) (hst : s ≤ t) (ht : t ≤ τ) :
    c.energy (R t) (D t) (ω t) (δ t) ≤ c.energy (R s) (D s) (ω s) (δ s) ∧
    misalignment (R t) (D t) ≤ c.energy (R s) (D s) (ω s) (δ s) / c.attitudeGain ∧
    (c.energy (R s) (D s) (ω s) (δ s) < 2 * c.attitudeGain → misalignment (R t) (D t) < 2) := by
  have hanti : AntitoneOn (fun s => c.energy (R s) (D s) (ω s) (δ s)) (Set.Icc 0 τ) := by
    apply antitoneOn_of_deriv_nonpos (convex_Icc 0 τ)
    · exact fun x hx => (h.energy_deriv hJ.1 hx).continuousAt.continuousWithinAt
    · exact fun x hx => (h.energy_deriv hJ.1 (interior_subset hx)).differentiableAt.differentiableWithinAt
    · intro x hx
      rw [(h.energy_deriv hJ.1 (interior_subset hx)).deriv]
      have : 0 ≤ rateError (R x) (D x) (ω x) (δ x) ⬝ᵥ rateError (R x) (D x) (ω x) (δ x) :=
        Finset.sum_nonneg fun i _ => mul_self_nonneg _
      nlinarith
  have h1 := hanti ⟨hs, hst.trans ht⟩ ⟨hs.trans hst, ht⟩ hst
  have h2 : c.attitudeGain * misalignment (R t) (D t) ≤ c.energy (R t) (D t) (ω t) (δ t) := by
    have := hJ.2 (rateError (R t) (D t) (ω t) (δ t))
    unfold energy; linarith
  have h3 : misalignment (R t) (D t) ≤ c.energy (R s) (D s) (ω s) (δ s) / c.attitudeGain := by
    rw [le_div_iff₀ hk]; dsimp only at h1; nlinarith
  refine ⟨h1, h3, fun h4 => h3.trans_lt ?_⟩
  rw [div_lt_iff₀ hk]; exact h4

theorem Tracking.error_deriv (h : Tracking c τ R D ω ω' δ δ') {t : ℝ} (ht : t ∈ Set.Icc 0 τ) :
    ∃ r' : Fin 3 → ℝ, (∀ i, HasDerivAt (fun s => attitudeError (R s) (D s) i) (r' i) t) ∧
      r' ⬝ᵥ r' ≤ rateError (R t) (D t) (ω t) (δ t) ⬝ᵥ rateError (R t) (D t) (ω t) (δ t) := by
  have hu := relative_unit (h.unit t ht).1 (h.unit t ht).2
  have hQ := relative_matrix (h.unit t ht).1 (h.unit t ht).2
  have hd := fun i j => h.relative_deriv ht i j
  set e := rateError (R t) (D t) (ω t) (δ t) with he
  rw [hQ] at hd
  refine ⟨fun i => ![(-(skew3 e * (relative (R t) (D t)).toRotationMatrix) 1 2 -
      -(skew3 e * (relative (R t) (D t)).toRotationMatrix) 2 1) / 2,
    (-(skew3 e * (relative (R t) (D t)).toRotationMatrix) 2 0 -
      -(skew3 e * (relative (R t) (D t)).toRotationMatrix) 0 2) / 2,
    (-(skew3 e * (relative (R t) (D t)).toRotationMatrix) 0 1 -
      -(skew3 e * (relative (R t) (D t)).toRotationMatrix) 1 0) / 2] i, fun i => ?_, ?_⟩
  · simp only [error_entries]
    fin_cases i
    · exact ((hd 1 2).sub (hd 2 1)).div_const 2
    · exact ((hd 2 0).sub (hd 0 2)).div_const 2
    · exact ((hd 0 1).sub (hd 1 0)).div_const 2
  · rw [dot3, dot3]
    generalize relative (R t) (D t) = q at hu
    obtain ⟨w, x, y, z⟩ := q
    rw [Quat.IsUnit] at hu
    simp only at hu
    have key : e 0 * e 0 + e 1 * e 1 + e 2 * e 2 -
        ((((-(skew3 e * (⟨w, x, y, z⟩ : Quat ℝ).toRotationMatrix) 1 2 -
          -(skew3 e * (⟨w, x, y, z⟩ : Quat ℝ).toRotationMatrix) 2 1) / 2) ^ 2 +
        ((-(skew3 e * (⟨w, x, y, z⟩ : Quat ℝ).toRotationMatrix) 2 0 -
          -(skew3 e * (⟨w, x, y, z⟩ : Quat ℝ).toRotationMatrix) 0 2) / 2) ^ 2 +
        ((-(skew3 e * (⟨w, x, y, z⟩ : Quat ℝ).toRotationMatrix) 0 1 -
          -(skew3 e * (⟨w, x, y, z⟩ : Quat ℝ).toRotationMatrix) 1 0) / 2) ^ 2)) =
        (y * e 2 - z * e 1) ^ 2 + (z * e 0 - x * e 2) ^ 2 + (x * e 1 - y * e 0) ^ 2 +
        4 * w ^ 2 * (x * e 0 + y * e 1 + z * e 2) ^ 2 := by
      simp only [Matrix.mul_apply, Fin.sum_univ_three, skew3, Quat.toRotationMatrix, Matrix.of_apply, Matrix.cons_val]
      have hw : w ^ 2 = 1 - x ^ 2 - y ^ 2 - z ^ 2 := by linarith
      generalize e 0 = a, e 1 = b, e 2 = d
      push_cast
      grind
    simp only [Matrix.cons_val]
    nlinarith [sq_nonneg (y * e 2 - z * e 1), sq_nonneg (z * e 0 - x * e 2), sq_nonneg (x * e 1 - y * e 0),
      mul_nonneg (sq_nonneg w) (sq_nonneg (x * e 0 + y * e 1 + z * e 2))]

end

/-- C103. The error dies out exponentially: for each controller with a positive definite inertia and each margin `ε`, there
are a constant and a rate such that, whatever the target does, a body whose error starts with energy at most `2 - ε` times
the attitude gain (any misalignment short of a half turn, with correspondingly little rate error) has misalignment and
squared rate error below the constant times `exp(-β t)` times their starting value, for as long as it flies. -/
theorem attitude_converges (c : GeometricAttitude ℝ) (hJ : Pd c.inertia) (hk : 0 < c.attitudeGain) (hr : 0 < c.rateGain)
    (ε : ℝ) (hε : 0 < ε) :
    ∃ C β : ℝ, 0 < β ∧ ∀ (τ : ℝ) (R D : ℝ → SO3 ℝ) (ω ω' δ δ' : ℝ → Fin 3 → ℝ), Tracking c τ R D ω ω' δ δ' →
      c.energy (R 0) (D 0) (ω 0) (δ 0) ≤ (2 - ε) * c.attitudeGain → ∀ t ∈ Set.Icc 0 τ,
      misalignment (R t) (D t) + rateError (R t) (D t) (ω t) (δ t) ⬝ᵥ rateError (R t) (D t) (ω t) (δ t) ≤
        C * Real.exp (-β * t) * (misalignment (R 0) (D 0) +
          rateError (R 0) (D 0) (ω 0) (δ 0) ⬝ᵥ rateError (R 0) (D 0) (ω 0) (δ 0)) := by
  obtain ⟨μ, hμ, hlow⟩ := pd_lower hJ
  obtain ⟨L, hL, hup2, hup⟩ := mulVec_bound c.inertia
  set k := c.attitudeGain with hkd
  set r := c.rateGain with hrd
  obtain ⟨g, hg, g1, g2, g3, g4⟩ : ∃ g : ℝ, 0 < g ∧ g * L ≤ k / 2 ∧ g * L ≤ μ / 2 ∧ g * L ≤ r / 4 ∧ g * r ≤ k / 2 := by
    refine ⟨min (min (k / 2 / L) (μ / 2 / L)) (min (r / 4 / L) (k / 2 / r)), by positivity, ?_, ?_, ?_, ?_⟩
    · rw [← le_div_iff₀ hL]; exact (min_le_left _ _).trans (min_le_left _ _)
    · rw [← le_div_iff₀ hL]; exact (min_le_left _ _).trans (min_le_right _ _)
    · rw [← le_div_iff₀ hL]; exact (min_le_right _ _).trans (min_le_left _ _)
    · rw [← le_div_iff₀ hr]; exact (min_le_right _ _).trans (min_le_right _ _)
  set M := L / 2 + μ / 4 + 3 / 2 * k with hM
  have hMpos : 0 < M := by positivity
  set m := min (r / 2) (g * k * ε / 2) with hm
  have hmpos : 0 < m := by positivity
  set m2 := min (μ / 4) (k / 2) with hm2
  have hm2pos : 0 < m2 := by positivity
  refine ⟨M / m2, m / M, by positivity, fun τ R D ω ω' δ δ' h h0 => ?_⟩
  set e := fun s => rateError (R s) (D s) (ω s) (δ s) with he
  set a := fun s => attitudeError (R s) (D s) with ha
  set Ψ := fun s => misalignment (R s) (D s) with hΨ
  set V := fun s => (e s ⬝ᵥ c.inertia *ᵥ e s / 2 + k * Ψ s) + g * (a s ⬝ᵥ c.inertia *ᵥ e s) with hV
  have hn : ∀ s, 0 ≤ e s ⬝ᵥ e s := fun s => Finset.sum_nonneg fun i _ => mul_self_nonneg _
  have hp : ∀ s, 0 ≤ a s ⬝ᵥ a s := fun s => Finset.sum_nonneg fun i _ => mul_self_nonneg _
  -- facts along the motion
  have facts : ∀ s ∈ Set.Icc 0 τ, 0 ≤ Ψ s ∧ a s ⬝ᵥ a s ≤ 2 * Ψ s ∧ ε * Ψ s ≤ a s ⬝ᵥ a s := by
    intro s hs
    obtain ⟨f1, f2, -, f4, -⟩ := attitude_error_length (h.unit s hs).1 (h.unit s hs).2
    have f5 := (h.energy_falls hJ.psd hk hr.le le_rfl hs.1 hs.2).2.1
    have f6 : Ψ s ≤ 2 - ε := f5.trans (by rw [div_le_iff₀ hk]; exact h0)
    refine ⟨f1, ?_, ?_⟩
    · show attitudeError (R s) (D s) ⬝ᵥ attitudeError (R s) (D s) ≤ 2 * misalignment (R s) (D s)
      rw [f4]; nlinarith
    · show ε * misalignment (R s) (D s) ≤ attitudeError (R s) (D s) ⬝ᵥ attitudeError (R s) (D s)
      have f6' : misalignment (R s) (D s) ≤ 2 - ε := f6
      rw [f4]; nlinarith
  have hcross : ∀ s ∈ Set.Icc 0 τ, |g * (a s ⬝ᵥ c.inertia *ᵥ e s)| ≤ g * L * (Ψ s + e s ⬝ᵥ e s / 2) := by
    intro s hs
    obtain ⟨y1, y2⟩ := dot_young (a s) (c.inertia *ᵥ e s) hL
    have y3 : (c.inertia *ᵥ e s) ⬝ᵥ (c.inertia *ᵥ e s) / L ≤ L * (e s ⬝ᵥ e s) := by
      rw [div_le_iff₀ hL]; nlinarith [hup2 (e s)]
    have y4 := (facts s hs).2.1
    have y5 : (L * (a s ⬝ᵥ a s) + (c.inertia *ᵥ e s) ⬝ᵥ (c.inertia *ᵥ e s) / L) / 2 ≤ L * (Ψ s + e s ⬝ᵥ e s / 2) := by
      nlinarith
    rw [abs_mul, abs_of_pos hg, mul_assoc]
    exact mul_le_mul_of_nonneg_left (abs_le'.2 ⟨y1.trans y5, y2.trans y5⟩) hg.le
  have hVlow : ∀ s ∈ Set.Icc 0 τ, m2 * (Ψ s + e s ⬝ᵥ e s) ≤ V s := by
    intro s hs
    have c1 := (abs_le.1 (hcross s hs)).1
    have c2 := hlow (e s)
    have c3 := (facts s hs).1
    have c4 : m2 * Ψ s ≤ k / 2 * Ψ s := mul_le_mul_of_nonneg_right (min_le_right _ _) c3
    have c5 : m2 * (e s ⬝ᵥ e s) ≤ μ / 4 * (e s ⬝ᵥ e s) := mul_le_mul_of_nonneg_right (min_le_left _ _) (hn s)
    have c6 : g * L * Ψ s ≤ k / 2 * Ψ s := mul_le_mul_of_nonneg_right g1 c3
    have c7 : g * L * (e s ⬝ᵥ e s) ≤ μ / 2 * (e s ⬝ᵥ e s) := mul_le_mul_of_nonneg_right g2 (hn s)
    show _ ≤ (e s ⬝ᵥ c.inertia *ᵥ e s / 2 + k * Ψ s) + g * (a s ⬝ᵥ c.inertia *ᵥ e s)
    linarith
  have hVup : ∀ s ∈ Set.Icc 0 τ, V s ≤ M * (Ψ s + e s ⬝ᵥ e s) := by
    intro s hs
    have c1 := (abs_le.1 (hcross s hs)).2
    have c2 := hup (e s)
    have c3 := (facts s hs).1
    have c6 : g * L * Ψ s ≤ k / 2 * Ψ s := mul_le_mul_of_nonneg_right g1 c3
    have c7 : g * L * (e s ⬝ᵥ e s) ≤ μ / 2 * (e s ⬝ᵥ e s) := mul_le_mul_of_nonneg_right g2 (hn s)
    show (e s ⬝ᵥ c.inertia *ᵥ e s / 2 + k * Ψ s) + g * (a s ⬝ᵥ c.inertia *ᵥ e s) ≤ _
    have c8 := hn s
    have c9 : 0 ≤ L * Ψ s := by positivity
    have c10 : 0 ≤ μ * Ψ s := by positivity
    have c11 : 0 ≤ k * (e s ⬝ᵥ e s) := by positivity
    have c12 : M * (Ψ s + e s ⬝ᵥ e s) = L / 2 * Ψ s + μ / 4 * Ψ s + 3 / 2 * k * Ψ s + L / 2 * (e s ⬝ᵥ e s) +
      μ / 4 * (e s ⬝ᵥ e s) + 3 / 2 * k * (e s ⬝ᵥ e s) := by rw [hM]; ring
    rw [c12]
    linarith
  have hVd : ∀ s ∈ Set.Icc 0 τ, ∃ v', HasDerivAt V v' s ∧ v' ≤ -(m / M) * V s := by
    intro s hs
    obtain ⟨e', he', hd⟩ := h.rate_error_dynamics hs
    obtain ⟨a', ha', hle⟩ := h.error_deriv hs
    refine ⟨_, (h.energy_deriv hJ.1 hs).add ((bilinear_deriv c.inertia ha' he').const_mul g), ?_⟩
    have d1 : a' ⬝ᵥ c.inertia *ᵥ e s ≤ L * (e s ⬝ᵥ e s) := by
      have y1 := (dot_young a' (c.inertia *ᵥ e s) hL).1
      have y3 : (c.inertia *ᵥ e s) ⬝ᵥ (c.inertia *ᵥ e s) / L ≤ L * (e s ⬝ᵥ e s) := by
        rw [div_le_iff₀ hL]; nlinarith [hup2 (e s)]
      have y4 : L * (a' ⬝ᵥ a') ≤ L * (e s ⬝ᵥ e s) := mul_le_mul_of_nonneg_left hle hL.le
      linarith
    have d2 : a s ⬝ᵥ c.inertia *ᵥ e' = -k * (a s ⬝ᵥ a s) - r * (a s ⬝ᵥ e s) := by
      rw [hd, dotProduct_sub, dotProduct_smul, dotProduct_smul]; rfl
    have d3 : -(r * (a s ⬝ᵥ e s)) ≤ (k * (a s ⬝ᵥ a s) + r ^ 2 * (e s ⬝ᵥ e s) / k) / 2 := by
      have y := (dot_young (a s) (e s) (k := k / r) (by positivity)).2
      have y' := mul_le_mul_of_nonneg_left y hr.le
      have e1 : r * ((k / r * (a s ⬝ᵥ a s) + (e s ⬝ᵥ e s) / (k / r)) / 2) =
          (k * (a s ⬝ᵥ a s) + r ^ 2 * (e s ⬝ᵥ e s) / k) / 2 := by field_simp
      rw [e1] at y'
      linarith
    have d4 : g * (r ^ 2 * (e s ⬝ᵥ e s) / k) ≤ r / 2 * (e s ⬝ᵥ e s) := by
      have : g * (r ^ 2 * (e s ⬝ᵥ e s) / k) = (g * r) / k * (r * (e s ⬝ᵥ e s)) := by ring
      rw [this]
      have z1 : (g * r) / k ≤ 1 / 2 := by rw [div_le_iff₀ hk]; linarith
      have z2 := mul_le_mul_of_nonneg_right z1 (mul_nonneg hr.le (hn s))
      linarith
    have d5 : g * (a' ⬝ᵥ c.inertia *ᵥ e s) ≤ r / 4 * (e s ⬝ᵥ e s) := by
      have z1 := mul_le_mul_of_nonneg_left d1 hg.le
      have z2 := mul_le_mul_of_nonneg_right g3 (hn s)
      nlinarith
    have d6 : g * (-(r * (a s ⬝ᵥ e s))) ≤ g * ((k * (a s ⬝ᵥ a s) + r ^ 2 * (e s ⬝ᵥ e s) / k) / 2) :=
      mul_le_mul_of_nonneg_left d3 hg.le
    have d7 : g * k * ε / 2 * Ψ s ≤ g * k / 2 * (a s ⬝ᵥ a s) := by
      have := mul_le_mul_of_nonneg_left (facts s hs).2.2 (by positivity : 0 ≤ g * k / 2)
      linarith
    have d8 : m * (Ψ s + e s ⬝ᵥ e s) ≤ g * k * ε / 2 * Ψ s + r / 2 * (e s ⬝ᵥ e s) := by
      have z1 := mul_le_mul_of_nonneg_right (min_le_right (r / 2) (g * k * ε / 2)) (facts s hs).1
      have z2 := mul_le_mul_of_nonneg_right (min_le_left (r / 2) (g * k * ε / 2)) (hn s)
      rw [mul_add]; exact add_le_add z1 z2
    have d9 : m / M * V s ≤ m * (Ψ s + e s ⬝ᵥ e s) := by
      have := mul_le_mul_of_nonneg_left (hVup s hs) (by positivity : 0 ≤ m / M)
      have e1 : m / M * (M * (Ψ s + e s ⬝ᵥ e s)) = m * (Ψ s + e s ⬝ᵥ e s) := by field_simp
      rwa [e1] at this
    show -r * (e s ⬝ᵥ e s) + g * (a' ⬝ᵥ c.inertia *ᵥ e s + a s ⬝ᵥ c.inertia *ᵥ e') ≤ -(m / M) * V s
    rw [d2]
    linarith
  have hanti : AntitoneOn (fun s => V s * Real.exp (m / M * s)) (Set.Icc 0 τ) := by
    have hder : ∀ s ∈ Set.Icc 0 τ, ∃ v', HasDerivAt (fun s => V s * Real.exp (m / M * s)) v' s ∧ v' ≤ 0 := by
      intro s hs
      obtain ⟨v', hv', hle⟩ := hVd s hs
      have hexp : HasDerivAt (fun s => Real.exp (m / M * s)) (Real.exp (m / M * s) * (m / M)) s := by
        have := ((hasDerivAt_id s).const_mul (m / M)).exp
        simpa using this
      refine ⟨_, hv'.mul hexp, ?_⟩
      have := Real.exp_pos (m / M * s)
      nlinarith
    apply antitoneOn_of_deriv_nonpos (convex_Icc 0 τ)
    · intro x hx
      obtain ⟨v', hv', -⟩ := hder x hx
      exact hv'.continuousAt.continuousWithinAt
    · intro x hx
      obtain ⟨v', hv', -⟩ := hder x (interior_subset hx)
      exact hv'.differentiableAt.differentiableWithinAt
    · intro x hx
      obtain ⟨v', hv', hle⟩ := hder x (interior_subset hx)
      rw [hv'.deriv]; exact hle
  intro t ht
  have h1 := hanti ⟨le_rfl, ht.1.trans ht.2⟩ ht ht.1
  simp only [mul_zero, Real.exp_zero, mul_one] at h1
  have hx := Real.exp_pos (m / M * t)
  have h2 : V t ≤ V 0 * Real.exp (-(m / M) * t) := by
    rw [neg_mul, Real.exp_neg, ← div_eq_mul_inv, le_div_iff₀ hx]; exact h1
  have h3 := hVlow t ht
  have h4 := hVup 0 ⟨le_rfl, ht.1.trans ht.2⟩
  have h5 : Ψ t + e t ⬝ᵥ e t ≤ V t / m2 := by rw [le_div_iff₀ hm2pos]; linarith
  have hx2 := Real.exp_pos (-(m / M) * t)
  calc Ψ t + e t ⬝ᵥ e t ≤ V t / m2 := h5
    _ ≤ (M * (Ψ 0 + e 0 ⬝ᵥ e 0) * Real.exp (-(m / M) * t)) / m2 := by
        apply div_le_div_of_nonneg_right _ hm2pos.le
        exact h2.trans (mul_le_mul_of_nonneg_right h4 hx2.le)
    _ = _ := by ring

/-- A body with unit inertia let go at rest one radian away from a target that stands still, its facing and rate following
the controller: such motions exist. -/
example : ∃ (τ : ℝ) (R : ℝ → SO3 ℝ) (ω ω' : ℝ → Fin 3 → ℝ), 0 < τ ∧
    Tracking ⟨3, 2, 1⟩ τ R (fun _ => SO3.identity) ω ω' (fun _ => 0) (fun _ => 0) ∧
    (R 0).quaternion = ⟨Real.cos (1 / 2), Real.sin (1 / 2), 0, 0⟩ ∧ ω 0 = 0 ∧ ω' 0 0 = -3 * Real.sin 1 := by
  let f : ℝ × ℝ → ℝ × ℝ := fun x => (x.2, -3 * Real.sin x.1 - 2 * x.2)
  have hf : ContDiffAt ℝ 1 f (1, 0) := by fun_prop
  obtain ⟨α, h0, ε, hε, hα⟩ := hf.exists_forall_mem_closedBall_exists_eq_forall_mem_Ioo_hasDerivAt₀ 0
  have hm : ∀ t ∈ Set.Icc 0 (ε / 2), t ∈ Set.Ioo (0 - ε) (0 + ε) := fun t ht => ⟨by linarith [ht.1], by linarith [ht.2]⟩
  have h1 : ∀ t ∈ Set.Icc 0 (ε / 2), HasDerivAt (fun s => (α s).1) (α t).2 t := fun t ht => (hα t (hm t ht)).fst
  have h2 : ∀ t ∈ Set.Icc 0 (ε / 2), HasDerivAt (fun s => (α s).2) (-3 * Real.sin (α t).1 - 2 * (α t).2) t :=
    fun t ht => (hα t (hm t ht)).snd
  refine ⟨ε / 2, fun t => ⟨⟨Real.cos ((α t).1 / 2), Real.sin ((α t).1 / 2), 0, 0⟩⟩, fun t => ![(α t).2, 0, 0],
    fun t => ![-3 * Real.sin (α t).1 - 2 * (α t).2, 0, 0], by positivity, ?_, ?_, ?_, ?_⟩
  · refine ⟨fun t ht => ?_, fun t ht i j => ?_, fun t ht i j => ?_, fun t ht i => ?_, fun t ht i => ?_, fun t ht => ?_⟩
    · constructor
      · simp only [Quat.IsUnit]
        have := Real.cos_sq_add_sin_sq ((α t).1 / 2)
        linarith
      · norm_num [Quat.IsUnit, SO3.identity, Quat.identity]
    · have hs : HasDerivAt (fun s => Real.sin ((α s).1 / 2)) (Real.cos ((α t).1 / 2) * ((α t).2 / 2)) t :=
        ((h1 t ht).div_const 2).sin
      have hc : HasDerivAt (fun s => Real.cos ((α s).1 / 2)) (-Real.sin ((α t).1 / 2) * ((α t).2 / 2)) t :=
        ((h1 t ht).div_const 2).cos
      have hp := Real.cos_sq_add_sin_sq ((α t).1 / 2)
      have d1 := ((hs.mul hs).const_mul 2).const_sub 1
      have d2 := (hc.mul hs).const_mul 2
      rw [Matrix.mul_apply, Fin.sum_univ_three]
      fin_cases i <;> fin_cases j <;>
        simp [SO3.toMatrix, Quat.toRotationMatrix, skew3, hasDerivAt_const]
      · exact d1.congr_deriv (by ring)
      · refine d2.neg.congr_deriv ?_
        linear_combination (-(α t).2) * hp
      · refine d2.congr_deriv ?_
        linear_combination (α t).2 * hp
      · exact d1.congr_deriv (by ring)
    · have : (fun _ : Fin 3 → ℝ => skew3 (0 : Fin 3 → ℝ)) 0 = 0 := by
        ext a b; fin_cases a <;> fin_cases b <;> simp [skew3]
      simp only at this
      rw [this, Matrix.mul_zero]
      exact hasDerivAt_const _ _
    · fin_cases i
      · exact h2 t ht
      · exact hasDerivAt_const _ _
      · exact hasDerivAt_const _ _
    · exact hasDerivAt_const _ _
    · have hd := Real.sin_two_mul ((α t).1 / 2)
      rw [show 2 * ((α t).1 / 2) = (α t).1 by ring] at hd
      unfold torque
      simp only [mmul_eq, mtranspose_eq, mmulVec_eq, mulVec_zero, Matrix.one_mulVec]
      funext i
      fin_cases i <;>
        simp [cross, vsub, vadd, vscale, SO3.vee, msub, half_real, SO3.toMatrix, Quat.toRotationMatrix, SO3.identity,
          Quat.identity, Matrix.mul_apply, Fin.sum_univ_three]
      rw [hd]; ring
  · simp [h0]
  · simp [h0]
  · simp [h0]

end GeometricAttitude

/-! ### Thrust commands -/

theorem lean_axes {up h : Fin 3 → ℝ} (hu : vdot up up = 1) (hw : cross up h ≠ 0) :
    let side := vnormalized (cross up h)
    let forward := cross side up
    vdot forward forward = 1 ∧ vdot forward up = 0 ∧ cross up forward = side ∧ vdot side h = 0 ∧
    0 < vdot forward h ∧ ∀ u, vdot u u = 1 → vdot u up = 0 → vdot u h ≤ vdot forward h := by
  intro side forward
  have hp := vnorm_pos hw
  have hs := vnorm_sq (cross up h)
  have hside : ∀ i, side i = cross up h i / vnorm (cross up h) := fun i => rfl
  have hss : vdot side side = 1 := vnormalized_unit hw
  have hsu : vdot side up = 0 := by
    rw [vdot3, hside, hside, hside]; simp [cross]; field_simp; ring
  have hsh : vdot side h = 0 := by
    rw [vdot3, hside, hside, hside]; simp [cross]; field_simp; ring
  have hfh : vdot forward h = vnorm (cross up h) := by
    have : vdot forward h = vdot side (cross up h) := by
      simp only [vdot3, forward, cross]; simp; ring
    rw [this, vdot3, hside, hside, hside]
    rw [vdot3] at hs
    field_simp
    linarith
  refine ⟨?_, ?_, ?_, hsh, hfh ▸ hp, fun u huu hup => ?_⟩
  · rw [vdot3] at hss hu hsu ⊢
    simp only [forward, cross, Matrix.cons_val]
    grind
  · simp only [vdot3, forward, cross, Matrix.cons_val]; ring
  · rw [vdot3] at hss hu hsu
    funext i
    fin_cases i <;> simp [forward, cross] <;> grind
  · rw [hfh]
    have h1 : vdot u h = vdot (cross up u) (cross up h) := by
      rw [vdot3] at hu hup
      simp only [vdot3, cross, Matrix.cons_val]
      grind
    have h2 : vdot (cross up u) (cross up u) = 1 := by
      rw [vdot3] at hu hup huu
      simp only [vdot3, cross, Matrix.cons_val]
      grind
    generalize cross up u = v at h1 h2
    generalize cross up h = w at *
    rw [h1]
    refine abs_le_of_sq_le_sq' ?_ hp.le |>.2
    rw [pow_two (vnorm w), hs]
    rw [vdot3] at h2
    simp only [vdot3]
    nlinarith [sq_nonneg (v 0 * w 1 - v 1 * w 0), sq_nonneg (v 0 * w 2 - v 2 * w 0), sq_nonneg (v 1 * w 2 - v 2 * w 1)]

/-- C104. What a thrust command means. With the push `a + (0, 0, g)` that the rotors must supply and the wanted heading
`h = (cos ψ, sin ψ, 0)`: the call fails when there is no push, or when the push lies along the heading; otherwise the body's
up axis times the thrust, less gravity, is exactly the commanded acceleration, the body's side axis is square to the heading,
and its forward axis is, among all directions square to the push, the one closest to the heading. -/
theorem thrust_command (a : Fin 3 → ℝ) (ψ g : ℝ) :
    let push : Fin 3 → ℝ := ![a 0, a 1, a 2 + g]
    let h : Fin 3 → ℝ := ![Real.cos ψ, Real.sin ψ, 0]
    (push = 0 → thrustCommandFromAcceleration a ψ g = .error .undefinedThrustDirection) ∧
    (push ≠ 0 → cross push h = 0 → thrustCommandFromAcceleration a ψ g = .error .undefinedHeadingDirection) ∧
    (cross push h ≠ 0 → ∃ c, thrustCommandFromAcceleration a ψ g = .ok c ∧ c.attitude.quaternion.IsUnit ∧
      0 < c.thrustAcceleration ∧ (∀ i, c.thrustAcceleration * c.attitude.toMatrix i 2 = push i) ∧
      vdot (fun i => c.attitude.toMatrix i 1) h = 0 ∧ 0 < vdot (fun i => c.attitude.toMatrix i 0) h ∧
      ∀ u, vdot u u = 1 → vdot u push = 0 → vdot u h ≤ vdot (fun i => c.attitude.toMatrix i 0) h) := by
  intro push h
  have hpush : vadd a ![0, 0, g] = push := by
    funext i; fin_cases i <;> simp [vadd, push]
  have hh : (![Fns.cos ψ, Fns.sin ψ, 0] : Fin 3 → ℝ) = h := rfl
  have hfin : ¬ ((!vecIsFinite a || !Fns.isFinite ψ || !Fns.isFinite g) = true) := by
    rw [real_vecIsFinite, real_isFinite, real_isFinite]; simp
  unfold thrustCommandFromAcceleration
  rw [if_neg hfin]
  dsimp only
  rw [hpush, hh]
  refine ⟨fun h0 => ?_, fun h0 hc => ?_, fun hc => ?_⟩
  · rw [h0, vtryNormalized_none]
  · rw [vtryNormalized_some h0]
    have : cross (vnormalized push) h = 0 := by
      have e : cross (vnormalized push) h = fun i => cross push h i / vnorm push := by
        funext i; fin_cases i <;> simp [cross, vnormalized, vdivBy] <;> ring
      rw [e, hc]; funext i; simp
    simp only [this, vtryNormalized_none]
  · have h0 : push ≠ 0 := by
      intro e; apply hc; rw [e]; funext i; fin_cases i <;> simp [cross]
    have hn := vnorm_pos h0
    have e : cross (vnormalized push) h = fun i => cross push h i / vnorm push := by
      funext i; fin_cases i <;> simp [cross, vnormalized, vdivBy] <;> ring
    have hw : cross (vnormalized push) h ≠ 0 := by
      intro e2; apply hc; rw [e] at e2
      funext i
      have := congrFun e2 i
      simpa [hn.ne'] using this
    obtain ⟨l1, l2, l3, l4, l5, l6⟩ := lean_axes (vnormalized_unit h0) hw
    rw [vtryNormalized_some h0]
    dsimp only
    rw [vtryNormalized_some hw]
    dsimp only
    generalize hs : vnormalized (cross (vnormalized push) h) = side at *
    generalize hup : vnormalized push = up at *
    generalize hf : cross side up = fwd at *
    have hM : (!![fwd 0, side 0, up 0; fwd 1, side 1, up 1; fwd 2, side 2, up 2] : Matrix (Fin 3) (Fin 3) ℝ) =
        axesAsColumns fwd side up := by
      ext i j; fin_cases i <;> fin_cases j <;> simp [axesAsColumns]
    have hr := axes_rotation l1 (hup ▸ vnormalized_unit h0) l2
    rw [l3] at hr
    obtain ⟨r, hr1, hr2, hr3⟩ := so3_tryFromMatrix_rotation (axesAsColumns fwd side up)
      (by rw [mmul_eq, mtranspose_eq, midentity_eq]; exact hr.1)
      (by rw [← hr.2]; simp [determinant3, Matrix.det_fin_three]; ring)
    rw [hM, hr1]
    refine ⟨⟨r, vnorm push⟩, rfl, hr2, hn, fun i => ?_, ?_, ?_, fun u h1 h2 => ?_⟩
    · simp only [hr3, axesAsColumns, ← hup, vnormalized, vdivBy]
      simp
      field_simp
    · simpa [hr3, axesAsColumns] using l4
    · simpa [hr3, axesAsColumns] using l5
    · have h3 : vdot u up = 0 := by
        have : vdot u up = vdot u push / vnorm push := by
          simp only [vdot3, ← hup, vnormalized, vdivBy]; ring
        rw [this, h2, zero_div]
      simpa [hr3, axesAsColumns] using l6 u h1 h3

example : cross (![1, 0, 1 + 9] : Fin 3 → ℝ) ![Real.cos 0, Real.sin 0, 0] ≠ 0 := by
  intro h
  have := congrFun h 1
  norm_num [cross, Matrix.cons_val] at this
  simp at this

/-- C104. Held level, the body faces exactly the wanted heading, and the force for a body of mass `m` is its weight plus what
climbs. -/
theorem thrust_level (climb ψ g m : ℝ) (hg : 0 < climb + g) :
    ∃ c, thrustCommandFromAcceleration ![0, 0, climb] ψ g = .ok c ∧ c.attitude.quaternion.IsUnit ∧
      c.attitude.toMatrix = !![Real.cos ψ, -Real.sin ψ, 0; Real.sin ψ, Real.cos ψ, 0; 0, 0, 1] ∧
      c.thrustForce m = m * g + m * climb := by
  have hcs := Real.cos_sq_add_sin_sq ψ
  obtain ⟨c, h1, h2, h3, h4, h5, h6, h7⟩ := (thrust_command ![0, 0, climb] ψ g).2.2 (by
    intro e
    have e0 := congrFun e 0
    have e1 := congrFun e 1
    simp [cross, hg.ne'] at e0 e1
    rw [e0, e1] at hcs
    norm_num at hcs)
  have g0 := h4 0
  have g1 := h4 1
  have g2 := h4 2
  have hm := h7 ![Real.cos ψ, Real.sin ψ, 0] (by simp [vdot3]; linarith) (by simp [vdot3])
  obtain ⟨⟨⟨w, x, y, z⟩⟩, T⟩ := c
  simp only [SO3.toMatrix, Quat.toRotationMatrix, Quat.IsUnit] at *
  simp [vdot3] at h2 h3 h4 g0 g1 g2 hm
  have k0 : x * z + w * y = 0 := g0.resolve_left h3.ne'
  have k1 : y * z - w * x = 0 := g1.resolve_left h3.ne'
  have hpos : 0 < 1 - 2 * (x * x + y * y) := by
    by_contra hc
    push Not at hc
    nlinarith
  have k2 : (1 - 2 * (x * x + y * y)) ^ 2 = 1 := by
    have : (1 - 2 * (x * x + y * y)) ^ 2 + 4 * (x * z + w * y) ^ 2 + 4 * (y * z - w * x) ^ 2 = 1 := by grind
    rw [k0, k1] at this
    linarith
  have k3 : 1 - 2 * (x * x + y * y) = 1 := by
    nlinarith
  have hx : x = 0 := by nlinarith [sq_nonneg x, sq_nonneg y]
  have hy : y = 0 := by nlinarith [sq_nonneg x, sq_nonneg y]
  subst hx hy
  simp at h2 g2 hm
  have kA : (1 - 2 * (z * z) - Real.cos ψ) ^ 2 + (2 * (w * z) - Real.sin ψ) ^ 2 = 0 := by
    apply le_antisymm _ (by positivity)
    have : (1 - 2 * (z * z)) ^ 2 + (2 * (w * z)) ^ 2 = 1 := by grind
    nlinarith
  have kc : Real.cos ψ = 1 - 2 * (z * z) := by nlinarith [sq_nonneg (1 - 2 * (z * z) - Real.cos ψ), sq_nonneg (2 * (w * z) - Real.sin ψ)]
  have ks : Real.sin ψ = 2 * (w * z) := by nlinarith [sq_nonneg (1 - 2 * (z * z) - Real.cos ψ), sq_nonneg (2 * (w * z) - Real.sin ψ)]
  refine ⟨_, h1, by simpa using h2, ?_, ?_⟩
  · rw [kc, ks]; ext i j; fin_cases i <;> fin_cases j <;> simp
  · simp only [ThrustCommand.thrustForce, g2]; ring

example : (0 : ℝ) < 1 + 10 := by norm_num

/-- C104. Whatever the number type, a command, heading or gravity that is not finite is refused. -/
theorem thrust_refuses {T : Type} [Zero T] [One T] [NatCast T] [Add T] [Sub T] [Mul T] [Div T] [Neg T] [LT T]
    [DecidableLT T] [LE T] [DecidableLE T] [BEq T] [Max T] [Fns T] (a : Fin 3 → T) (ψ g : T)
    (h : (∃ i, Fns.isFinite (a i) = false) ∨ Fns.isFinite ψ = false ∨ Fns.isFinite g = false) :
    thrustCommandFromAcceleration a ψ g = .error .nonFinite := by
  unfold thrustCommandFromAcceleration
  rw [if_pos]
  rcases h with ⟨i, hi⟩ | h | h
  · have : vecIsFinite a = false := by
      by_contra hc
      rw [Bool.not_eq_false, vecIsFinite, List.all_eq_true] at hc
      rw [hc i (List.mem_finRange i)] at hi; cases hi
    simp [this]
  · simp [h]
  · simp [h]

example : Fns.isFinite (XR.nan : XR) = false ∧ Fns.isFinite (XR.pinf : XR) = false := ⟨rfl, rfl⟩

end Multicalc
