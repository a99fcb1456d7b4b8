import Verif.Props.Rotation

/-!
# Rotations from pairs of directions
-/

namespace Multicalc

open Matrix

theorem vdot_self_pos {v : Fin 3 → ℝ} (h : v ≠ 0) : 0 < vdot v v := by
  rw [vdot3]
  have h0 := mul_self_nonneg (v 0)
  have h1 := mul_self_nonneg (v 1)
  have h2 := mul_self_nonneg (v 2)
  rcases lt_or_eq_of_le (add_nonneg (add_nonneg h0 h1) h2) with hp | he
  · exact hp
  · exfalso
    apply h
    funext i
    fin_cases i
    · exact mul_self_eq_zero.1 (by simp; nlinarith)
    · exact mul_self_eq_zero.1 (by simp; nlinarith)
    · exact mul_self_eq_zero.1 (by simp; nlinarith)

theorem vnorm_pos {v : Fin 3 → ℝ} (h : v ≠ 0) : 0 < vnorm v := by
  rw [vnorm, real_sqrt]; exact Real.sqrt_pos.2 (vdot_self_pos h)

theorem vnormalized_unit {v : Fin 3 → ℝ} (h : v ≠ 0) :
    vdot (vnormalized v) (vnormalized v) = 1 := by
  have hp := vnorm_pos h
  have hs := vnorm_sq v
  rw [vdot3] at hs ⊢
  simp only [vnormalized, vdivBy]
  field_simp
  linarith

theorem vtryNormalized_some {v : Fin 3 → ℝ} (h : v ≠ 0) :
    vtryNormalized v = some (vnormalized v) := by
  unfold vtryNormalized vnormalized
  rw [if_neg]
  simp [Fns.isNan, (vnorm_pos h).ne']

theorem vtryNormalized_none : vtryNormalized (0 : Fin 3 → ℝ) = none := by
  have : vnorm (0 : Fin 3 → ℝ) = 0 := by
    rw [vnorm, real_sqrt, vnormSquared, vdot3]; simp
  unfold vtryNormalized
  rw [this]
  simp

theorem vnormalized_scaled {v : Fin 3 → ℝ} (h : v ≠ 0) {s : ℝ} (hs : 0 < s) :
    vnormalized (vdivBy v s) = vnormalized v := by
  have hp := vnorm_pos h
  have hn : vnorm (vdivBy v s) = vnorm v / s := by
    have e : vdot (vdivBy v s) (vdivBy v s) = vdot v v / (s * s) := by
      rw [vdot3, vdot3]; simp only [vdivBy]; field_simp
    simp only [vnorm, vnormSquared, real_sqrt]
    rw [e, Real.sqrt_div' _ (mul_self_nonneg s), Real.sqrt_mul_self hs.le]
  funext i
  simp only [vnormalized, hn, vdivBy]
  field_simp

theorem unitDirection_some {v : Fin 3 → ℝ} (h : v ≠ 0) : unitDirection v = some (vnormalized v) := by
  have hs : 0 < max (max |v 0| |v 1|) |v 2| := by
    by_contra hcon
    push Not at hcon
    apply h
    funext i
    have h0 := le_trans (le_trans (le_max_left _ _) (le_max_left _ _)) hcon
    have h1 := le_trans (le_trans (le_max_right |v 0| |v 1|) (le_max_left _ _)) hcon
    have h2 := le_trans (le_max_right (max |v 0| |v 1|) |v 2|) hcon
    fin_cases i
    · exact abs_nonpos_iff.1 h0
    · exact abs_nonpos_iff.1 h1
    · exact abs_nonpos_iff.1 h2
  unfold unitDirection
  have hf : vecIsFinite v = true := by simp [vecIsFinite, Fns.isFinite]
  rw [hf]
  simp only [real_abs]
  rw [if_neg (by simp), if_neg (by simpa using hs.ne'), vtryNormalized_some, vnormalized_scaled h hs]
  intro h0
  apply h
  funext i
  have := congrFun h0 i
  simp only [vdivBy, Pi.zero_apply, div_eq_zero_iff] at this
  exact this.resolve_right hs.ne'

theorem unitDirection_zero : unitDirection (0 : Fin 3 → ℝ) = none := by
  unfold unitDirection
  simp [vecIsFinite, Fns.isFinite, real_abs]

theorem principalAxis_cross {a : Fin 3 → ℝ} (h : a ≠ 0) : cross a (principalAxis a) ≠ 0 := by
  intro hc
  apply h
  unfold principalAxis at hc
  simp only [real_abs] at hc
  split_ifs at hc with h1 h2
  · have c1 := congrFun hc 1; have c2 := congrFun hc 2
    simp [cross] at c1 c2
    have c0 : a 0 = 0 := abs_nonpos_iff.1 (by simpa [c2] using h1.1)
    funext i; fin_cases i <;> simp [c0, c1, c2]
  · have c0 := congrFun hc 0; have c2 := congrFun hc 2
    simp [cross] at c0 c2
    have c1 : a 1 = 0 := abs_nonpos_iff.1 (by simpa [c0] using h2)
    funext i; fin_cases i <;> simp [c0, c1, c2]
  · have c0 := congrFun hc 0; have c1 := congrFun hc 1
    simp [cross] at c0 c1
    exfalso
    push Not at h2
    rw [c0, abs_zero] at h2
    exact absurd h2 (not_lt.2 (abs_nonneg _))

/-- C87. `from_two_vectors` returns, for any two directions that are not zero, a unit quaternion
that carries the first direction exactly onto the second, also when they are opposite; and it is the
shortest such rotation: the cosine of its angle is the dot product of the two directions. -/
theorem fromTwoVectors_spec (v w : Fin 3 → ℝ) (hv : v ≠ 0) (hw : w ≠ 0) :
    (Quat.fromTwoVectors v w).IsUnit ∧
    (Quat.fromTwoVectors v w).transformPoint (vnormalized v) = vnormalized w ∧
    2 * (Quat.fromTwoVectors v w).w ^ 2 - 1 = vdot (vnormalized v) (vnormalized w) ∧
    0 ≤ (Quat.fromTwoVectors v w).w := by
  unfold Quat.fromTwoVectors
  rw [unitDirection_some hv, unitDirection_some hw]
  dsimp only
  have ha := vnormalized_unit hv
  have hb := vnormalized_unit hw
  have hane : vnormalized v ≠ 0 := by
    intro h0; rw [h0, vdot3] at ha; simp at ha
  generalize vnormalized v = a at *
  generalize vnormalized w = b at *
  have hsq : vnormSquared (vadd a b) = (a 0 + b 0) ^ 2 + (a 1 + b 1) ^ 2 + (a 2 + b 2) ^ 2 := by
    rw [vnormSquared, vdot3]; simp only [vadd]; ring
  rw [vdot3] at ha hb
  by_cases h0 : vnormSquared (vadd a b) = 0
  · rw [if_pos (by simpa using h0)]
    rw [hsq] at h0
    have b0 : b 0 = -a 0 := by nlinarith [sq_nonneg (a 0 + b 0), sq_nonneg (a 1 + b 1), sq_nonneg (a 2 + b 2)]
    have b1 : b 1 = -a 1 := by nlinarith [sq_nonneg (a 0 + b 0), sq_nonneg (a 1 + b 1), sq_nonneg (a 2 + b 2)]
    have b2 : b 2 = -a 2 := by nlinarith [sq_nonneg (a 0 + b 0), sq_nonneg (a 1 + b 1), sq_nonneg (a 2 + b 2)]
    have hc := principalAxis_cross hane
    have hu := vnormalized_unit hc
    have hperp : vdot a (vnormalized (cross a (principalAxis a))) = 0 := by
      rw [vdot3]
      simp only [vnormalized, vdivBy, cross, Matrix.cons_val_zero, Matrix.cons_val_one, Matrix.cons_val]
      ring
    generalize vnormalized (cross a (principalAxis a)) = u at *
    rw [vdot3] at hu hperp
    refine ⟨?_, ?_, ?_, ?_⟩
    · simp only [Quat.IsUnit, Quat.fromScalarVector]; linarith
    · rw [transformPoint_explicit]
      funext i
      fin_cases i
      · simp [Quat.fromScalarVector, b0]
        linear_combination 2 * u 0 * hperp - a 0 * hu
      · simp [Quat.fromScalarVector, b1]
        linear_combination 2 * u 1 * hperp - a 1 * hu
      · simp [Quat.fromScalarVector, b2]
        linear_combination 2 * u 2 * hperp - a 2 * hu
    · rw [vdot3, b0, b1, b2]; simp only [Quat.fromScalarVector]; linarith
    · simp [Quat.fromScalarVector]
  · rw [if_neg (by simpa using h0)]
    have hpos : 0 < vnormSquared (vadd a b) := by
      rcases lt_or_eq_of_le (show 0 ≤ vnormSquared (vadd a b) by rw [hsq]; positivity) with h | h
      · exact h
      · exact absurd h.symm h0
    have hd : vnormSquared (vadd a b) = 2 * (1 + vdot a b) := by
      rw [hsq, vdot3]; linear_combination ha + hb
    have hN : (Quat.fromScalarVector (vnormSquared (vadd a b) * half) (cross a (vadd a b))).norm =
        Real.sqrt (vnormSquared (vadd a b)) := by
      rw [Quat.norm, real_sqrt]
      congr 1
      simp only [Quat.normSquared, Quat.fromScalarVector, half_real, hd]
      simp only [vdot3, cross, vadd, Matrix.cons_val_zero, Matrix.cons_val_one, Matrix.cons_val]
      grind
    have hr := Real.mul_self_sqrt hpos.le
    have hrp := Real.sqrt_pos.2 hpos
    rw [Quat.normalized, hN]
    generalize hS : Real.sqrt (vnormSquared (vadd a b)) = S at *
    have hdd : vdot a b = a 0 * b 0 + a 1 * b 1 + a 2 * b 2 := vdot3 a b
    have hinv : 1 / S * (1 / S) * (2 * (1 + vdot a b)) = 1 := by
      rw [← hd, ← hr]; field_simp
    have hi0 : 0 < 1 / S := by positivity
    generalize 1 / S = I at *
    have hw0 : vnormSquared (vadd a b) * half = 1 + vdot a b := by rw [hd, half_real]; ring
    rw [hw0]
    rw [hdd] at hinv
    refine ⟨?_, ?_, ?_, ?_⟩
    · simp only [Quat.IsUnit, Quat.scale, Quat.fromScalarVector, hdd, cross, vadd,
        Matrix.cons_val_zero, Matrix.cons_val_one, Matrix.cons_val]
      grind
    · rw [transformPoint_explicit]
      funext i
      fin_cases i
      · simp [Quat.scale, Quat.fromScalarVector, hdd, cross, vadd]
        grind
      · simp [Quat.scale, Quat.fromScalarVector, hdd, cross, vadd]
        grind
      · simp [Quat.scale, Quat.fromScalarVector, hdd, cross, vadd]
        grind
    · simp only [Quat.scale, Quat.fromScalarVector, hdd]
      grind
    · simp only [Quat.scale, Quat.fromScalarVector]
      have : 0 < 1 + vdot a b := by linarith
      positivity

/-- Opposite directions are covered. -/
example : (![1, 0, 0] : Fin 3 → ℝ) ≠ 0 ∧ (![-2, 0, 0] : Fin 3 → ℝ) ≠ 0 :=
  ⟨fun h => by have := congrFun h 0; simp at this, fun h => by have := congrFun h 0; simp at this⟩

/-- C87. A zero vector names no direction: `from_two_vectors` returns the identity. -/
theorem fromTwoVectors_zero (v : Fin 3 → ℝ) :
    Quat.fromTwoVectors 0 v = Quat.identity ∧ Quat.fromTwoVectors v 0 = Quat.identity := by
  constructor <;> unfold Quat.fromTwoVectors <;> rw [unitDirection_zero]
  cases unitDirection v <;> rfl

/-! ### Two pairs of directions -/

theorem axes_rotation {f t : Fin 3 → ℝ} (hf : vdot f f = 1) (ht : vdot t t = 1) (hft : vdot f t = 0) :
    (axesAsColumns f (cross t f) t)ᵀ * axesAsColumns f (cross t f) t = 1 ∧
    (axesAsColumns f (cross t f) t).det = 1 := by
  rw [vdot3] at hf ht hft
  constructor
  · ext i j
    rw [Matrix.mul_apply, Fin.sum_univ_three]
    fin_cases i <;> fin_cases j <;> simp [axesAsColumns, cross] <;> grind
  · rw [Matrix.det_fin_three]
    simp [axesAsColumns, cross]
    grind

/-- C46. `SO3::try_from_matrix` accepts every rotation matrix and returns the rotation with exactly
that matrix. -/
theorem so3_tryFromMatrix_rotation (R : Matrix (Fin 3) (Fin 3) ℝ)
    (h1 : mmul (mtranspose R) R = midentity 3) (hd : determinant3 R = 1) :
    ∃ r, SO3.tryFromMatrix R = some r ∧ r.quaternion.IsUnit ∧ r.toMatrix = R := by
  obtain ⟨q, hq, hu, hm⟩ := tryFromRotationMatrix_spec R h1 hd
  refine ⟨⟨q⟩, ?_, hu, hm⟩
  unfold SO3.tryFromMatrix
  rw [h1, hd, hq, midentity_eq]
  dsimp only
  rw [if_neg, if_neg]
  · rfl
  · simp [Fns.isFinite]
  · simp only [Bool.not_eq_true', Bool.not_eq_false, List.all_eq_true]
    intro i _ j _
    have : (1 : Matrix (Fin 3) (Fin 3) ℝ) i j - (if i = j then 1 else 0) = 0 := by
      rw [Matrix.one_apply]; simp
    rw [this]
    simp [Fns.isFinite, Fns.abs, epsilonX30, Fns.epsilon]

/-- C46. `SO3::try_from_matrix` accepts only matrices of positive determinant whose columns are
orthonormal to thirty rounding units: reflections, scalings and shears are refused. -/
theorem so3_tryFromMatrix_only (m : Matrix (Fin 3) (Fin 3) ℝ) (r : SO3 ℝ)
    (h : SO3.tryFromMatrix m = some r) :
    0 < m.det ∧ ∀ i j, |(mᵀ * m) i j - (1 : Matrix (Fin 3) (Fin 3) ℝ) i j| ≤ 30 / 2 ^ 52 := by
  have he : (epsilonX30 : ℝ) = 30 / 2 ^ 52 := by
    simp only [epsilonX30, Fns.epsilon]; push_cast; ring
  unfold SO3.tryFromMatrix at h
  dsimp only at h
  split at h
  · cases h
  next hc =>
    split at h
    · cases h
    next hd =>
      simp only [Bool.or_eq_true, not_or, decide_eq_true_eq, not_le] at hd
      refine ⟨?_, fun i j => ?_⟩
      · have := hd.2
        rw [Matrix.det_fin_three]
        simp only [determinant3] at this
        linarith
      · simp only [Bool.not_eq_true', Bool.not_eq_false, List.all_eq_true, Bool.and_eq_true,
          decide_eq_false_iff_not, not_lt, he, real_abs] at hc
        have := (hc i (List.mem_finRange i) j (List.mem_finRange j)).2
        rw [mmul_eq] at this
        rw [Matrix.one_apply]
        exact this

/-- C88. `SO3::from_two_direction_pairs`: whenever the primary directions are not zero and neither
pair is parallel, an orientation comes back that carries the primary observed direction exactly onto
the primary reference direction, and the plane's normal onto the plane's normal. -/
theorem fromTwoDirectionPairs_spec (po so pr sr : Fin 3 → ℝ) (h1 : cross po so ≠ 0)
    (h2 : cross pr sr ≠ 0) :
    ∃ r, SO3.fromTwoDirectionPairs po so pr sr = some r ∧ r.quaternion.IsUnit ∧
      r.act (vnormalized po) = vnormalized pr ∧
      r.act (vnormalized (cross po so)) = vnormalized (cross pr sr) := by
  have aux : ∀ p s : Fin 3 → ℝ, cross p s ≠ 0 → p ≠ 0 ∧ cross (vnormalized p) s ≠ 0 ∧
      vnormalized (cross (vnormalized p) s) = vnormalized (cross p s) ∧
      vdot (vnormalized p) (vnormalized (cross p s)) = 0 := by
    intro p s h
    have hp : p ≠ 0 := by
      rintro rfl
      apply h
      funext i; fin_cases i <;> simp [cross]
    have hn := vnorm_pos hp
    have e : cross (vnormalized p) s = vdivBy (cross p s) (vnorm p) := by
      funext i
      fin_cases i <;> simp [cross, vnormalized, vdivBy] <;> ring
    refine ⟨hp, ?_, ?_, ?_⟩
    · rw [e]
      intro h0
      apply h
      funext i
      have := congrFun h0 i
      simp only [vdivBy, Pi.zero_apply, div_eq_zero_iff] at this
      exact this.resolve_right hn.ne'
    · rw [e, vnormalized_scaled h hn]
    · rw [vdot3]
      simp only [vnormalized, vdivBy, cross, Matrix.cons_val_zero, Matrix.cons_val_one, Matrix.cons_val]
      ring
  obtain ⟨a1, a2, a3, a4⟩ := aux po so h1
  obtain ⟨b1, b2, b3, b4⟩ := aux pr sr h2
  have hO := axes_rotation (vnormalized_unit a1) (vnormalized_unit h1) a4
  have hR := axes_rotation (vnormalized_unit b1) (vnormalized_unit h2) b4
  set O := axesAsColumns (vnormalized po) (cross (vnormalized (cross po so)) (vnormalized po))
    (vnormalized (cross po so)) with hOdef
  set R := axesAsColumns (vnormalized pr) (cross (vnormalized (cross pr sr)) (vnormalized pr))
    (vnormalized (cross pr sr)) with hRdef
  have hrun : SO3.fromTwoDirectionPairs po so pr sr = SO3.tryFromMatrix (R * Oᵀ) := by
    unfold SO3.fromTwoDirectionPairs
    rw [if_neg (by simp [vecIsFinite, Fns.isFinite])]
    simp only [Option.bind_eq_bind, vtryNormalized_some a1, vtryNormalized_some b1, Option.bind_some,
      vtryNormalized_some a2, vtryNormalized_some b2, a3, b3, mmul_eq]
    rfl
  have hOO : O * Oᵀ = 1 := mul_eq_one_comm.1 hO.1
  have hortho : (R * Oᵀ)ᵀ * (R * Oᵀ) = 1 := by
    rw [Matrix.transpose_mul, Matrix.transpose_transpose, Matrix.mul_assoc, ← Matrix.mul_assoc Rᵀ,
      hR.1, Matrix.one_mul, hOO]
  have hdet : (R * Oᵀ).det = 1 := by
    rw [Matrix.det_mul, Matrix.det_transpose, hR.2, hO.2, one_mul]
  obtain ⟨r, hr, hu, hm⟩ := so3_tryFromMatrix_rotation (R * Oᵀ)
    (by rw [mmul_eq, midentity_eq]; exact hortho)
    (by rw [← hdet, Matrix.det_fin_three]; unfold determinant3; ring)
  refine ⟨r, by rw [hrun, hr], hu, ?_, ?_⟩
  all_goals
    have hact : ∀ v, r.act v = (R * Oᵀ) *ᵥ v := by
      intro v
      have := (toRotationMatrix_spec r.quaternion r.quaternion hu hu v).2.2.1
      rw [mmulVec_eq] at this
      rw [SO3.act, ← this]
      exact congrArg (· *ᵥ v) hm
    rw [hact, ← Matrix.mulVec_mulVec]
  · have : Oᵀ *ᵥ vnormalized po = Pi.single 0 1 := by
      have hcol : vnormalized po = O *ᵥ Pi.single 0 1 := by
        rw [Matrix.mulVec_single_one]; rfl
      rw [hcol, Matrix.mulVec_mulVec, hO.1, Matrix.one_mulVec]
    rw [this, Matrix.mulVec_single_one]
    rfl
  · have : Oᵀ *ᵥ vnormalized (cross po so) = Pi.single 2 1 := by
      have hcol : vnormalized (cross po so) = O *ᵥ Pi.single 2 1 := by
        rw [Matrix.mulVec_single_one]; rfl
      rw [hcol, Matrix.mulVec_mulVec, hO.1, Matrix.one_mulVec]
    rw [this, Matrix.mulVec_single_one]
    rfl

/-- Down and north read in the body and in the world meet the hypotheses. -/
example : cross ![0, 0, -1] ![0, (-1 : ℝ), 0] ≠ 0 ∧ cross ![0, 0, -1] ![(1 : ℝ), 0, 0] ≠ 0 :=
  ⟨fun h => by have := congrFun h 0; simp [cross] at this,
   fun h => by have := congrFun h 1; simp [cross] at this⟩

/-- C88. Parallel directions (a zero one included) leave the spin unsettled: nothing is returned. -/
theorem fromTwoDirectionPairs_parallel (po so pr sr : Fin 3 → ℝ)
    (h : cross po so = 0 ∨ cross pr sr = 0) : SO3.fromTwoDirectionPairs po so pr sr = none := by
  have aux : ∀ p s : Fin 3 → ℝ, cross p s = 0 → vtryNormalized p = none ∨
      ∃ f, vtryNormalized p = some f ∧ vtryNormalized (cross f s) = none := by
    intro p s h0
    by_cases hp : p = 0
    · left; rw [hp, vtryNormalized_none]
    · right
      refine ⟨_, vtryNormalized_some hp, ?_⟩
      have e : cross (vnormalized p) s = 0 := by
        have : cross (vnormalized p) s = vdivBy (cross p s) (vnorm p) := by
          funext i
          fin_cases i <;> simp [cross, vnormalized, vdivBy] <;> ring
        rw [this, h0]
        funext i; simp [vdivBy]
      rw [e, vtryNormalized_none]
  unfold SO3.fromTwoDirectionPairs
  rw [if_neg (by simp [vecIsFinite, Fns.isFinite])]
  simp only [Option.bind_eq_bind]
  rcases h with h | h
  · rcases aux po so h with h | ⟨f, h, h'⟩
    · rw [h]; rfl
    · rw [h, Option.bind_some, h']; rfl
  · rcases aux pr sr h with h | ⟨f, h, h'⟩
    · rw [h]; simp
    · rw [h]; simp [h']

example : cross ![1, 2, 3] ![2, 4, (6 : ℝ)] = 0 := by
  funext i; fin_cases i <;> simp [cross] <;> norm_num

end Multicalc
