import Verif.Props.Quaternion
import Mathlib.LinearAlgebra.Matrix.Adjugate
import Mathlib.Tactic

/-!
# Rotation matrices, axis and angle, and rotations from directions
-/

namespace Multicalc

open Matrix

theorem mmul_matrix {a b c : ℕ} (m : Matrix (Fin a) (Fin b) ℝ) (w : Matrix (Fin b) (Fin c) ℝ) :
    mmul m w = m * w := mmul_eq m w

/-- C45. The matrix of a unit quaternion is orthogonal with determinant one, acts on points exactly
as the quaternion does, and turns products into products. -/
theorem toRotationMatrix_spec (p q : Quat ℝ) (hp : p.IsUnit) (hq : q.IsUnit) (v : Fin 3 → ℝ) :
    mmul (mtranspose q.toRotationMatrix) q.toRotationMatrix = midentity 3 ∧
    determinant3 q.toRotationMatrix = 1 ∧
    mmulVec q.toRotationMatrix v = q.transformPoint v ∧
    (p.mul q).toRotationMatrix = mmul p.toRotationMatrix q.toRotationMatrix ∧
    q.conjugate.toRotationMatrix = mtranspose q.toRotationMatrix := by
  rw [Quat.IsUnit] at hp hq
  have hw : q.w ^ 2 = 1 - q.x ^ 2 - q.y ^ 2 - q.z ^ 2 := by linarith
  have hpw : p.w ^ 2 = 1 - p.x ^ 2 - p.y ^ 2 - p.z ^ 2 := by linarith
  refine ⟨?_, ?_, ?_, ?_, ?_⟩
  · rw [mmul_eq, midentity_eq]
    ext i j
    rw [Matrix.mul_apply, Fin.sum_univ_three]
    fin_cases i <;> fin_cases j <;> simp [mtranspose, Quat.toRotationMatrix] <;> grind
  · simp [determinant3, Quat.toRotationMatrix]
    grind
  · rw [mmulVec_eq, transformPoint_explicit]
    funext i
    simp only [Matrix.mulVec, dotProduct, Fin.sum_univ_three]
    fin_cases i <;> simp [Quat.toRotationMatrix] <;> grind
  · rw [mmul_eq]
    ext i j
    rw [Matrix.mul_apply, Fin.sum_univ_three]
    fin_cases i <;> fin_cases j <;> simp [Quat.mul, Quat.toRotationMatrix] <;> grind
  · ext i j
    fin_cases i <;> fin_cases j <;> simp [mtranspose, Quat.conjugate, Quat.toRotationMatrix] <;> ring

/-- The entries of a rotation matrix equal their cofactors. -/
theorem rotation_cofactors (R : Matrix (Fin 3) (Fin 3) ℝ) (h1 : Rᵀ * R = 1) (hd : R.det = 1) :
    R 0 0 = R 1 1 * R 2 2 - R 1 2 * R 2 1 ∧ R 0 1 = R 1 2 * R 2 0 - R 1 0 * R 2 2 ∧
    R 0 2 = R 1 0 * R 2 1 - R 1 1 * R 2 0 ∧ R 1 0 = R 0 2 * R 2 1 - R 0 1 * R 2 2 ∧
    R 1 1 = R 0 0 * R 2 2 - R 0 2 * R 2 0 ∧ R 1 2 = R 0 1 * R 2 0 - R 0 0 * R 2 1 ∧
    R 2 0 = R 0 1 * R 1 2 - R 0 2 * R 1 1 ∧ R 2 1 = R 0 2 * R 1 0 - R 0 0 * R 1 2 ∧
    R 2 2 = R 0 0 * R 1 1 - R 0 1 * R 1 0 := by
  have h2 : R * Rᵀ = 1 := mul_eq_one_comm.1 h1
  have hadj : R.adjugate = Rᵀ := by
    calc R.adjugate = R.adjugate * (R * Rᵀ) := by rw [h2, Matrix.mul_one]
      _ = Rᵀ := by rw [← Matrix.mul_assoc, Matrix.adjugate_mul, hd, one_smul, Matrix.one_mul]
  have he := Matrix.adjugate_fin_three R
  rw [hadj] at he
  have e := fun i j => congrFun (congrFun he i) j
  have e00 := e 0 0; have e01 := e 0 1; have e02 := e 0 2
  have e10 := e 1 0; have e11 := e 1 1; have e12 := e 1 2
  have e20 := e 2 0; have e21 := e 2 1; have e22 := e 2 2
  simp at e00 e01 e02 e10 e11 e12 e20 e21 e22
  refine ⟨?_, ?_, ?_, ?_, ?_, ?_, ?_, ?_, ?_⟩ <;> linarith

/-- The quaternion with four times its products given by the table. -/
theorem quat_of_table (R : Matrix (Fin 3) (Fin 3) ℝ) (q : Quat ℝ)
    (ww : 4 * (q.w * q.w) = 1 + R 0 0 + R 1 1 + R 2 2)
    (xx : 4 * (q.x * q.x) = 1 + R 0 0 - R 1 1 - R 2 2)
    (yy : 4 * (q.y * q.y) = 1 - R 0 0 + R 1 1 - R 2 2)
    (zz : 4 * (q.z * q.z) = 1 - R 0 0 - R 1 1 + R 2 2)
    (wx : 4 * (q.w * q.x) = R 2 1 - R 1 2) (wy : 4 * (q.w * q.y) = R 0 2 - R 2 0)
    (wz : 4 * (q.w * q.z) = R 1 0 - R 0 1) (xy : 4 * (q.x * q.y) = R 0 1 + R 1 0)
    (xz : 4 * (q.x * q.z) = R 0 2 + R 2 0) (yz : 4 * (q.y * q.z) = R 1 2 + R 2 1) :
    q.IsUnit ∧ q.toRotationMatrix = R := by
  constructor
  · rw [Quat.IsUnit]; linarith
  · ext i j
    fin_cases i <;> fin_cases j <;> simp [Quat.toRotationMatrix] <;> linarith

theorem pivot_square {K : ℝ} (h : 0 < K) :
    4 * (Real.sqrt K * 2 / 4 * (Real.sqrt K * 2 / 4)) = K := by
  have := Real.mul_self_sqrt h.le
  linear_combination this

theorem pivot_edge {K u : ℝ} (h : 0 < K) :
    4 * (Real.sqrt K * 2 / 4 * (u / (Real.sqrt K * 2))) = u := by
  have := Real.sqrt_pos.2 h
  field_simp
  try ring

theorem pivot_edge' {K u : ℝ} (h : 0 < K) :
    4 * (u / (Real.sqrt K * 2) * (Real.sqrt K * 2 / 4)) = u := by
  rw [mul_comm (u / _)]; exact pivot_edge h

theorem pivot_products {K u v t : ℝ} (h : 0 < K) :
    (4 * (u / (Real.sqrt K * 2) * (v / (Real.sqrt K * 2))) = t) = (u * v = K * t) := by
  have hs := Real.sqrt_pos.2 h
  have h2 := Real.mul_self_sqrt h.le
  rw [div_mul_div_comm, show Real.sqrt K * 2 * (Real.sqrt K * 2) = 4 * K by linear_combination 4 * h2,
    eq_iff_iff, ← mul_div_assoc, mul_div_mul_left _ _ (by norm_num : (4 : ℝ) ≠ 0), div_eq_iff h.ne',
    mul_comm t]

theorem tryNormalized_unit (q : Quat ℝ) (h : q.IsUnit) : q.tryNormalized = some q := by
  have hn := (Quat.isUnit_iff q).1 h
  unfold Quat.tryNormalized
  rw [hn]
  simp [Fns.isFinite, Fns.epsilon, Quat.scale]
  norm_num

/-- C45. `try_from_rotation_matrix` succeeds on every rotation matrix, whichever diagonal entry is
largest, and the quaternion it returns is a unit quaternion with exactly that matrix. -/
theorem tryFromRotationMatrix_spec (R : Matrix (Fin 3) (Fin 3) ℝ)
    (h1 : mmul (mtranspose R) R = midentity 3) (hd : determinant3 R = 1) :
    ∃ q, Quat.tryFromRotationMatrix R = some q ∧ q.IsUnit ∧ q.toRotationMatrix = R := by
  rw [mmul_eq, midentity_eq] at h1
  change Rᵀ * R = 1 at h1
  have hdet : R.det = 1 := by
    rw [← hd, Matrix.det_fin_three]; unfold determinant3; ring
  obtain ⟨k00, k01, k02, k10, k11, k12, k20, k21, k22⟩ := rotation_cofactors R h1 hdet
  have h2 : R * Rᵀ = 1 := mul_eq_one_comm.1 h1
  have ge := fun i j => congrFun (congrFun h1 i) j
  have he := fun i j => congrFun (congrFun h2 i) j
  simp only [Matrix.mul_apply, Fin.sum_univ_three, Matrix.transpose_apply] at ge he
  have c1 := ge 0 0; have c2 := ge 1 1; have c3 := ge 2 2
  have t1 := ge 0 1; have t2 := ge 0 2; have t3 := ge 1 2
  have r1 := he 0 0; have r2 := he 1 1; have r3 := he 2 2
  have s1 := he 0 1; have s2 := he 0 2; have s3 := he 1 2
  simp at c1 c2 c3 t1 t2 t3 r1 r2 r3 s1 s2 s3
  have hw : ∀ u : ℝ, Fns.lit (1 / 4) * u = u / 4 := fun u => by rw [real_lit]; push_cast; ring
  have finish : ∀ q : Quat ℝ, q.IsUnit ∧ q.toRotationMatrix = R →
      ∃ q', q.tryNormalized = some q' ∧ q'.IsUnit ∧ q'.toRotationMatrix = R :=
    fun q hq => ⟨q, tryNormalized_unit q hq.1, hq⟩
  clear ge he h1 h2 hd hdet
  unfold Quat.tryFromRotationMatrix
  dsimp only
  simp only [hw, real_sqrt, Nat.cast_ofNat]
  by_cases b1 : 0 < R 0 0 + R 1 1 + R 2 2
  · rw [if_pos b1]
    have hK : 0 < R 0 0 + R 1 1 + R 2 2 + 1 := by linarith
    apply finish
    apply quat_of_table <;> dsimp only
    · rw [pivot_square hK]; ring
    · rw [pivot_products hK]; grind
    · rw [pivot_products hK]; grind
    · rw [pivot_products hK]; grind
    · rw [pivot_edge hK]
    · rw [pivot_edge hK]
    · rw [pivot_edge hK]
    · rw [pivot_products hK]; grind
    · rw [pivot_products hK]; grind
    · rw [pivot_products hK]; grind
  rw [if_neg b1]
  by_cases b2 : R 1 1 < R 0 0 ∧ R 2 2 < R 0 0
  · rw [if_pos b2]
    obtain ⟨b2, b3⟩ := b2
    have hK : 0 < 1 + R 0 0 - R 1 1 - R 2 2 := by linarith
    apply finish
    apply quat_of_table <;> dsimp only
    · rw [pivot_products hK]; grind
    · rw [pivot_square hK]
    · rw [pivot_products hK]; grind
    · rw [pivot_products hK]; grind
    · rw [pivot_edge' hK]
    · rw [pivot_products hK]; grind
    · rw [pivot_products hK]; grind
    · rw [pivot_edge hK]
    · rw [pivot_edge hK]
    · rw [pivot_products hK]; grind
  rw [if_neg b2]
  by_cases b3 : R 2 2 < R 1 1
  · rw [if_pos b3]
    have hK : 0 < 1 + R 1 1 - R 0 0 - R 2 2 := by
      by_cases ha : R 1 1 < R 0 0
      · exact absurd ⟨ha, lt_trans b3 ha⟩ b2
      · linarith
    apply finish
    apply quat_of_table <;> dsimp only
    · rw [pivot_products hK]; grind
    · rw [pivot_products hK]; grind
    · rw [pivot_square hK]; ring
    · rw [pivot_products hK]; grind
    · rw [pivot_products hK]; grind
    · rw [pivot_edge' hK]
    · rw [pivot_products hK]; grind
    · rw [pivot_edge' hK]
    · rw [pivot_products hK]; grind
    · rw [pivot_edge hK]
  rw [if_neg b3]
  have hK : 0 < 1 + R 2 2 - R 0 0 - R 1 1 := by
    by_cases ha : R 2 2 < R 0 0
    · exact absurd ⟨lt_of_le_of_lt (not_lt.1 b3) ha, ha⟩ b2
    · linarith
  apply finish
  apply quat_of_table <;> dsimp only
  · rw [pivot_products hK]; grind
  · rw [pivot_products hK]; grind
  · rw [pivot_products hK]; grind
  · rw [pivot_square hK]; ring
  · rw [pivot_products hK]; grind
  · rw [pivot_products hK]; grind
  · rw [pivot_edge' hK]
  · rw [pivot_products hK]; grind
  · rw [pivot_edge' hK]
  · rw [pivot_edge' hK]

/-- The quarter turn about the vertical meets the hypotheses. -/
example : mmul (mtranspose !![0, -1, 0; 1, 0, 0; 0, 0, (1 : ℝ)]) !![0, -1, 0; 1, 0, 0; 0, 0, 1] =
    midentity 3 ∧ determinant3 !![0, -1, 0; 1, 0, 0; 0, 0, (1 : ℝ)] = 1 := by
  constructor
  · rw [mmul_eq, midentity_eq]
    ext i j
    rw [Matrix.mul_apply, Fin.sum_univ_three]
    fin_cases i <;> fin_cases j <;> simp [mtranspose]
  · simp [determinant3]

theorem four_sq_zero {a b c d : ℝ} (h : a ^ 2 + b ^ 2 + c ^ 2 + d ^ 2 = 0) :
    a = 0 ∧ b = 0 ∧ c = 0 ∧ d = 0 := by
  have ha := sq_nonneg a
  have hb := sq_nonneg b
  have hc := sq_nonneg c
  have hd := sq_nonneg d
  refine ⟨?_, ?_, ?_, ?_⟩ <;> apply pow_eq_zero_iff (two_ne_zero) |>.1 <;> linarith

theorem sq_eq_one_iff_cases {x : ℝ} (h : x ^ 2 = 1) : x = 1 ∨ x = -1 := by
  have : (x - 1) * (x + 1) = 0 := by linear_combination h
  rcases mul_eq_zero.1 this with h | h
  · left; linarith
  · right; linarith

/-- C45. Reading the matrix of a unit quaternion back gives that quaternion up to sign. -/
theorem tryFromRotationMatrix_toRotationMatrix (q : Quat ℝ) (hq : q.IsUnit) :
    Quat.tryFromRotationMatrix q.toRotationMatrix = some q ∨
    Quat.tryFromRotationMatrix q.toRotationMatrix = some q.neg := by
  obtain ⟨h1, h2, -, -, -⟩ := toRotationMatrix_spec q q hq hq 0
  obtain ⟨r, hr, hu, hm⟩ := tryFromRotationMatrix_spec _ h1 h2
  rw [hr]
  rw [Quat.IsUnit] at hq hu
  have e := fun i j => congrFun (congrFun hm i) j
  have e00 := e 0 0; have e01 := e 0 1; have e02 := e 0 2
  have e10 := e 1 0; have e11 := e 1 1; have e12 := e 1 2
  have e20 := e 2 0; have e21 := e 2 1; have e22 := e 2 2
  simp [Quat.toRotationMatrix] at e00 e01 e02 e10 e11 e12 e20 e21 e22
  have hprod : (r.w * q.w + r.x * q.x + r.y * q.y + r.z * q.z) ^ 2 = 1 := by
    have ww : r.w ^ 2 = q.w ^ 2 := by linarith
    have xx : r.x ^ 2 = q.x ^ 2 := by linarith
    have yy : r.y ^ 2 = q.y ^ 2 := by linarith
    have zz : r.z ^ 2 = q.z ^ 2 := by linarith
    have wx : r.w * r.x = q.w * q.x := by linarith
    have wy : r.w * r.y = q.w * q.y := by linarith
    have wz : r.w * r.z = q.w * q.z := by linarith
    have xy : r.x * r.y = q.x * q.y := by linarith
    have xz : r.x * r.z = q.x * q.z := by linarith
    have yz : r.y * r.z = q.y * q.z := by linarith
    have : (r.w * q.w + r.x * q.x + r.y * q.y + r.z * q.z) ^ 2 =
        (q.w ^ 2 + q.x ^ 2 + q.y ^ 2 + q.z ^ 2) ^ 2 := by
      linear_combination q.w ^ 2 * ww + q.x ^ 2 * xx + q.y ^ 2 * yy + q.z ^ 2 * zz +
        2 * q.w * q.x * wx + 2 * q.w * q.y * wy + 2 * q.w * q.z * wz + 2 * q.x * q.y * xy +
        2 * q.x * q.z * xz + 2 * q.y * q.z * yz
    rw [this, hq, one_pow]
  rcases sq_eq_one_iff_cases hprod with h | h
  · left
    have hz : (r.w - q.w) ^ 2 + (r.x - q.x) ^ 2 + (r.y - q.y) ^ 2 + (r.z - q.z) ^ 2 = 0 := by
      linear_combination hu + hq - 2 * h
    obtain ⟨a1, a2, a3, a4⟩ := four_sq_zero hz
    congr 1
    ext <;> linarith
  · right
    have hz : (r.w + q.w) ^ 2 + (r.x + q.x) ^ 2 + (r.y + q.y) ^ 2 + (r.z + q.z) ^ 2 = 0 := by
      linear_combination hu + hq + 2 * h
    obtain ⟨a1, a2, a3, a4⟩ := four_sq_zero hz
    congr 1
    ext <;> simp only [Quat.neg] <;> linarith

/-! ### Axis and angle -/

theorem vnorm_sq {n : ℕ} (a : Fin n → ℝ) : vnorm a * vnorm a = vdot a a := by
  rw [vnorm, real_sqrt, vnormSquared]
  apply Real.mul_self_sqrt
  rw [vdot_eq]
  exact Finset.sum_nonneg fun i _ => mul_self_nonneg _

/-- C45. With an axis longer than the rounding unit, `from_axis_angle` is a unit quaternion and
rotates every point by Rodrigues' formula about the normalised axis; in particular it fixes the
axis. -/
theorem fromAxisAngle_rodrigues (axis : Fin 3 → ℝ) (angle : ℝ) (h : 1 / 2 ^ 52 < vnorm axis)
    (v : Fin 3 → ℝ) :
    (Quat.fromAxisAngle axis angle).IsUnit ∧
    (Quat.fromAxisAngle axis angle).transformPoint v =
      vadd (vadd (vscaleBy v (Real.cos angle)) (vscaleBy (cross (vnormalized axis) v) (Real.sin angle)))
        (vscaleBy (vnormalized axis) ((1 - Real.cos angle) * vdot (vnormalized axis) v)) ∧
    (Quat.fromAxisAngle axis angle).transformPoint axis = axis := by
  have hn : vnorm axis ≠ 0 := by
    intro h0; rw [h0] at h; norm_num at h
  have hsq := vnorm_sq axis
  have hq : Quat.fromAxisAngle axis angle = ⟨Real.cos (angle / 2),
      axis 0 / vnorm axis * Real.sin (angle / 2), axis 1 / vnorm axis * Real.sin (angle / 2),
      axis 2 / vnorm axis * Real.sin (angle / 2)⟩ := by
    unfold Quat.fromAxisAngle
    have e : (Fns.sqrt (vdot axis axis) : ℝ) = vnorm axis := rfl
    rw [e]
    dsimp only
    rw [if_neg (show ¬ vnorm axis ≤ Fns.epsilon from not_le.2 h), half_real, mul_one_div]
    ext <;> simp only [Fns.cos, Fns.sin] <;> ring
  have hk : ∀ i, vnormalized axis i = axis i / vnorm axis := fun i => rfl
  have hunit : (axis 0 / vnorm axis) ^ 2 + (axis 1 / vnorm axis) ^ 2 + (axis 2 / vnorm axis) ^ 2 = 1 := by
    rw [vdot3] at hsq
    field_simp
    linarith
  have haxis : ∀ i, axis i = vnorm axis * (axis i / vnorm axis) := fun i => by field_simp
  have hcs : Real.sin (angle / 2) ^ 2 + Real.cos (angle / 2) ^ 2 = 1 := Real.sin_sq_add_cos_sq _
  have hc : Real.cos angle = 2 * Real.cos (angle / 2) ^ 2 - 1 := by
    rw [← Real.cos_two_mul]; congr 1; ring
  have hs : Real.sin angle = 2 * Real.sin (angle / 2) * Real.cos (angle / 2) := by
    rw [← Real.sin_two_mul]; congr 1; ring
  rw [hq]
  generalize hk0 : axis 0 / vnorm axis = k0 at *
  generalize hk1 : axis 1 / vnorm axis = k1 at *
  generalize hk2 : axis 2 / vnorm axis = k2 at *
  generalize Real.sin (angle / 2) = s at *
  generalize Real.cos (angle / 2) = c at *
  have h0 := hk 0; have h1 := hk 1; have h2 := hk 2
  rw [hk0] at h0; rw [hk1] at h1; rw [hk2] at h2
  refine ⟨?_, ?_, ?_⟩
  · rw [Quat.IsUnit]; dsimp only; linear_combination s ^ 2 * hunit + hcs
  · rw [transformPoint_explicit]
    funext i
    fin_cases i
    · simp [vadd, vscaleBy, cross, vdot3, h0, h1, h2, hc, hs]
      grind
    · simp [vadd, vscaleBy, cross, vdot3, h0, h1, h2, hc, hs]
      grind
    · simp [vadd, vscaleBy, cross, vdot3, h0, h1, h2, hc, hs]
      grind
  · rw [transformPoint_explicit]
    have a0 := haxis 0; have a1 := haxis 1; have a2 := haxis 2
    rw [hk0] at a0; rw [hk1] at a1; rw [hk2] at a2
    funext i
    fin_cases i
    · simp [a0, a1, a2]; grind
    · simp [a0, a1, a2]; grind
    · simp [a0, a1, a2]; grind

example : 1 / 2 ^ 52 < vnorm ![0, 0, (3 : ℝ)] := by
  rw [vnorm, real_sqrt, vnormSquared, vdot3]
  simp
  norm_num

/-- C45 (finding). An axis that is not zero but not longer than the rounding unit is treated as the
zero axis: the half turn about `(2⁻⁶⁰, 0, 0)` comes back as the identity and moves nothing. -/
theorem fromAxisAngle_tiny_axis :
    Quat.fromAxisAngle ![1 / 2 ^ 60, 0, 0] Real.pi = (Quat.identity : Quat ℝ) := by
  unfold Quat.fromAxisAngle
  rw [vdot3, real_sqrt]
  dsimp only
  rw [if_pos]
  simp only [Matrix.cons_val_zero, Matrix.cons_val_one, Matrix.cons_val, mul_zero, add_zero]
  rw [Real.sqrt_mul_self (by positivity)]
  norm_num [Fns.epsilon]

end Multicalc
