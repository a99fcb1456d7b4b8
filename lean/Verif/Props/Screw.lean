import Verif.Props.Rigid

/-!
# Exponential and logarithm of spatial motions
-/

namespace Multicalc

open Matrix

theorem cbrt_le {x y : ℝ} (hx : 0 ≤ x) (hy : 0 ≤ y) (h : x ≤ y ^ 3) : (Fns.cbrt x : ℝ) ≤ y := by
  change realCbrt x ≤ y
  rw [realCbrt, if_neg (not_lt.2 hx)]
  calc x ^ ((1 : ℝ) / 3) ≤ (y ^ 3) ^ ((1 : ℝ) / 3) := Real.rpow_le_rpow hx h (by norm_num)
    _ = y := by
      rw [← Real.rpow_natCast, ← Real.rpow_mul hy]; norm_num

theorem cbrt_ge {x y : ℝ} (hx : 0 ≤ x) (hy : 0 ≤ y) (h : y ^ 3 ≤ x) : y ≤ (Fns.cbrt x : ℝ) := by
  change y ≤ realCbrt x
  rw [realCbrt, if_neg (not_lt.2 hx)]
  calc y = (y ^ 3) ^ ((1 : ℝ) / 3) := by
        rw [← Real.rpow_natCast, ← Real.rpow_mul hy]; norm_num
    _ ≤ x ^ ((1 : ℝ) / 3) := Real.rpow_le_rpow (by positivity) h (by norm_num)

/-- Beyond the series thresholds the three coefficients are the closed forms. -/
theorem so3_coeffs_main (s : ℝ) (h : 1 / 6000 ≤ s) :
    so3Coeff1 s = (1 - Real.cos (Real.sqrt s)) / s ∧
    so3Coeff2 s = (Real.sqrt s - Real.sin (Real.sqrt s)) / (s * Real.sqrt s) ∧
    so3Coeff3 s = (1 - Real.sqrt s / 2 * (Real.cos (Real.sqrt s / 2) / Real.sin (Real.sqrt s / 2))) / s := by
  have heps : (Fns.epsilon : ℝ) = 1 / 2 ^ 52 := rfl
  have hc : ∀ c : ℚ, 0 ≤ c → c ≤ 15120 → ¬ s < Fns.cbrt ((Fns.lit c : ℝ) * Fns.epsilon) := by
    intro c h0 h1
    rw [not_lt]
    refine le_trans (cbrt_le ?_ (by norm_num) ?_) h
    · rw [real_lit, heps]; positivity
    · rw [real_lit, heps]
      have : (c : ℝ) ≤ 15120 := by exact_mod_cast h1
      nlinarith
  refine ⟨?_, ?_, ?_⟩
  · unfold so3Coeff1; rw [if_neg (hc 360 (by norm_num) (by norm_num))]; rfl
  · unfold so3Coeff2; rw [if_neg (hc 2520 (by norm_num) (by norm_num))]; rfl
  · unfold so3Coeff3
    rw [if_neg (hc 15120 (by norm_num) (by norm_num)), half_real, mul_one_div]; rfl

theorem skew_cube (φ : Fin 3 → ℝ) :
    skew3 φ * (skew3 φ * skew3 φ) = (-(vdot φ φ)) • skew3 φ := by
  ext i j
  fin_cases i <;> fin_cases j <;>
    simp [skew3, Matrix.mul_apply, Fin.sum_univ_three, vdot3] <;> ring

/-- C47. For rotation vectors between 0.013 and π the Jacobian of the exponential and the closed-form
inverse are inverse matrices, and the rotation matrix is `I + φ^ J(φ)`. -/
theorem so3_jacobian (φ : Fin 3 → ℝ) (h : 1 / 6000 ≤ vdot φ φ) (hpi : vnorm φ ≤ Real.pi) :
    mmul (leftJacobianSo3 φ) (inverseLeftJacobianSo3 φ) = midentity 3 ∧
    mmul (inverseLeftJacobianSo3 φ) (leftJacobianSo3 φ) = midentity 3 ∧
    (SO3.exp φ).toMatrix = madd (midentity 3) (mmul (skew3 φ) (leftJacobianSo3 φ)) := by
  obtain ⟨k1, k2, k3⟩ := so3_coeffs_main (vdot φ φ) h
  have hsq := vnorm_sq φ
  have hθ : Real.sqrt (vdot φ φ) = vnorm φ := rfl
  obtain ⟨θ, hθ'⟩ : ∃ θ, vnorm φ = θ := ⟨_, rfl⟩
  have hpos : 0 < θ := by
    have h0 := vnorm_nonneg φ
    rw [hθ'] at h0 hsq
    rcases h0.lt_or_eq with h1 | h1
    · exact h1
    · rw [← h1] at hsq; linarith
  have hmain : 30 / 2 ^ 52 ≤ vnorm φ := by
    rw [hθ'] at hsq ⊢
    by_contra hcon
    push Not at hcon
    nlinarith
  rw [hθ, hθ'] at k1 k2 k3
  rw [hθ'] at hsq hpi
  rw [← hsq] at k1 k2 k3
  have hs : Real.sin (θ / 2) ≠ 0 :=
    (Real.sin_pos_of_pos_of_lt_pi (by linarith) (by linarith)).ne'
  have s1 : Real.sin θ = 2 * Real.sin (θ / 2) * Real.cos (θ / 2) := by rw [← Real.sin_two_mul]; ring_nf
  have h3 := Real.sin_sq_add_cos_sq (θ / 2)
  have c1 : Real.cos θ = 1 - 2 * Real.sin (θ / 2) ^ 2 := by
    have h2 := Real.cos_two_mul (θ / 2)
    rw [show 2 * (θ / 2) = θ by ring] at h2
    linear_combination h2 + 2 * h3
  have hJ : leftJacobianSo3 φ = 1 + so3Coeff1 (θ * θ) • skew3 φ + so3Coeff2 (θ * θ) • (skew3 φ * skew3 φ) := by
    unfold leftJacobianSo3
    dsimp only
    rw [← hsq, mmul_eq, midentity_eq]
    ext i j
    simp [madd, mscale]; ring
  have hK : inverseLeftJacobianSo3 φ = 1 - (1 / 2 : ℝ) • skew3 φ + so3Coeff3 (θ * θ) • (skew3 φ * skew3 φ) := by
    unfold inverseLeftJacobianSo3
    dsimp only
    rw [← hsq, mmul_eq, midentity_eq, half_real]
    ext i j
    simp [madd, mscale, msub]; ring
  have hcube := skew_cube φ
  rw [← hsq] at hcube
  have hcube' : skew3 φ * skew3 φ * skew3 φ = -(θ * θ) • skew3 φ := by rw [Matrix.mul_assoc, hcube]
  have hquart : skew3 φ * skew3 φ * (skew3 φ * skew3 φ) = -(θ * θ) • (skew3 φ * skew3 φ) := by
    rw [Matrix.mul_assoc, hcube, Matrix.mul_smul]
  have key : leftJacobianSo3 φ * inverseLeftJacobianSo3 φ = 1 := by
    rw [hJ, hK]
    have e1 : so3Coeff1 (θ * θ) - 1 / 2 - θ * θ * (so3Coeff1 (θ * θ) * so3Coeff3 (θ * θ) - so3Coeff2 (θ * θ) / 2) = 0 := by
      rw [k1, k2, k3, s1, c1]
      field_simp
      linear_combination 0
    have e2 : so3Coeff2 (θ * θ) - so3Coeff1 (θ * θ) / 2 + so3Coeff3 (θ * θ) - θ * θ * (so3Coeff2 (θ * θ) * so3Coeff3 (θ * θ)) = 0 := by
      rw [k1, k2, k3, s1, c1]
      field_simp
      linear_combination (-2 * Real.sin (θ / 2) * θ) * h3
    generalize so3Coeff1 (θ * θ) = a at *
    generalize so3Coeff2 (θ * θ) = b at *
    generalize so3Coeff3 (θ * θ) = c at *
    have : (1 + a • skew3 φ + b • (skew3 φ * skew3 φ)) * (1 - (1 / 2 : ℝ) • skew3 φ + c • (skew3 φ * skew3 φ)) =
        1 + (a - 1 / 2 - θ * θ * (a * c - b / 2)) • skew3 φ + (b - a / 2 + c - θ * θ * (b * c)) • (skew3 φ * skew3 φ) := by
      simp only [Matrix.add_mul, Matrix.mul_add, Matrix.mul_sub, Matrix.one_mul, Matrix.mul_one, Matrix.smul_mul,
        Matrix.mul_smul, hcube, hcube', hquart]
      generalize skew3 φ * skew3 φ = S2
      module
    rw [this, e1, e2, zero_smul, zero_smul, add_zero, add_zero]
  refine ⟨by rw [mmul_eq, midentity_eq]; exact key, by
    rw [mmul_eq, midentity_eq]; exact mul_eq_one_comm.1 key, ?_⟩
  have hrod : (SO3.exp φ).toMatrix = 1 + (Real.sin θ / θ) • skew3 φ + ((1 - Real.cos θ) / (θ * θ)) • (skew3 φ * skew3 φ) := by
    unfold SO3.exp SO3.toMatrix
    rw [fromScaledAxis_main hmain, hθ', s1, c1]
    rw [vdot3] at hsq
    ext i j
    fin_cases i <;> fin_cases j <;>
      simp [Quat.toRotationMatrix, skew3, Matrix.mul_apply, Fin.sum_univ_three] <;> field_simp <;> ring
  rw [hrod, mmul_eq, midentity_eq, hJ]
  have : madd (1 : Matrix (Fin 3) (Fin 3) ℝ) (skew3 φ * (1 + so3Coeff1 (θ * θ) • skew3 φ + so3Coeff2 (θ * θ) • (skew3 φ * skew3 φ))) =
      1 + (skew3 φ * (1 + so3Coeff1 (θ * θ) • skew3 φ + so3Coeff2 (θ * θ) • (skew3 φ * skew3 φ))) := rfl
  rw [this]
  simp only [Matrix.mul_add, Matrix.mul_one, Matrix.mul_smul, hcube]
  rw [k1, k2]
  have e : Real.sin θ / θ = 1 - (θ - Real.sin θ) / (θ * θ * θ) * (θ * θ) := by field_simp; ring
  rw [e]
  generalize skew3 φ * skew3 φ = S2
  module

/-- C47. Spatial motions: `log(exp(ξ)) = ξ` for every twist whose rotation part is between 0.013 and
π long, and `exp(log(T))` is `T` (its quaternion with nonnegative scalar part) when the angle of `T`
is at least 0.013. -/
theorem se3_exp_log (ξ : Fin 6 → ℝ) (p : SE3 ℝ) :
    (1 / 6000 ≤ vdot (tail3 ξ) (tail3 ξ) → vnorm (tail3 ξ) ≤ Real.pi → (SE3.exp ξ).log = ξ) ∧
    (p.rotation.quaternion.IsUnit → 1 / 6000 ≤ vdot p.rotation.log p.rotation.log →
      SE3.exp p.log = ⟨⟨p.rotation.quaternion.shortest⟩, p.translation⟩) := by
  have mm : ∀ (a b : Matrix (Fin 3) (Fin 3) ℝ) (x : Fin 3 → ℝ), mmulVec a (mmulVec b x) = mmulVec (mmul a b) x := by
    intro a b x; simp only [mmulVec_eq, mmul_eq, Matrix.mulVec_mulVec]
  have mid : ∀ x : Fin 3 → ℝ, mmulVec (midentity 3) x = x := by
    intro x; rw [mmulVec_eq, midentity_eq, Matrix.one_mulVec]
  constructor
  · intro h hpi
    obtain ⟨j1, j2, -⟩ := so3_jacobian _ h hpi
    have h96 : 96 / 2 ^ 52 ≤ vnorm (tail3 ξ) := by
      have hsq := vnorm_sq (tail3 ξ)
      have h0 := vnorm_nonneg (tail3 ξ)
      by_contra hcon
      push Not at hcon
      nlinarith
    obtain ⟨k, -, -, -, hlog⟩ := so3_log_exp (tail3 ξ) hpi
    have hl := hlog h96
    unfold SE3.log SE3.exp
    dsimp only
    rw [hl, mm, j2, mid]
    funext i; fin_cases i <;> rfl
  · intro hu h
    obtain ⟨hle, hex, hsm⟩ := so3_exp_log p.rotation hu
    obtain ⟨j1, j2, -⟩ := so3_jacobian _ h hle
    have hbig : 30 / 2 ^ 52 ≤ vnorm p.rotation.quaternion.shortest.vec := by
      by_contra hcon
      push Not at hcon
      have hv := vnorm_vec p.rotation.quaternion.shortest
      have hls : p.rotation.log = fun i => p.rotation.quaternion.shortest.vec i * 2 := by
        have := toScaledAxis_eq p.rotation.quaternion
        rw [← hv, if_pos (by rw [smallAngle_real]; exact hcon)] at this
        exact this
      have hn : vnorm p.rotation.log = vnorm p.rotation.quaternion.shortest.vec * 2 := by
        rw [hls, vnorm_scaled _ (by norm_num)]
      have hsq := vnorm_sq p.rotation.log
      rw [hn] at hsq
      have h0 := vnorm_nonneg p.rotation.quaternion.shortest.vec
      nlinarith
    have hE := hex hbig
    have ht : tail3 p.log = p.rotation.log := by
      funext i; fin_cases i <;> rfl
    have hh : head3 p.log = mmulVec (inverseLeftJacobianSo3 p.rotation.log) p.translation := by
      funext i; fin_cases i <;> rfl
    unfold SE3.exp
    rw [ht, hh, mm, j1, mid, hE]

/-- A screw with a rotation of one radian meets the hypotheses. -/
example : 1 / 6000 ≤ vdot (tail3 (![1, 2, 3, 0, 0, 1] : Fin 6 → ℝ)) (tail3 (![1, 2, 3, 0, 0, 1] : Fin 6 → ℝ)) ∧
    vnorm (tail3 (![1, 2, 3, 0, 0, 1] : Fin 6 → ℝ)) ≤ Real.pi := by
  have h : tail3 (![1, 2, 3, 0, 0, 1] : Fin 6 → ℝ) = ![0, 0, 1] := by
    funext i; fin_cases i <;> rfl
  rw [h, vnorm, vnormSquared, vdot3, real_sqrt]
  simp only [Matrix.cons_val_zero, Matrix.cons_val_one, Matrix.cons_val]
  have := Real.two_le_pi
  refine ⟨by norm_num, ?_⟩
  rw [show (0 * 0 + 0 * 0 + 1 * 1 : ℝ) = 1 by norm_num, Real.sqrt_one]
  linarith

end Multicalc
