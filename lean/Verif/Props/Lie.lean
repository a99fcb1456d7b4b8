import Verif.Props.Slerp
import Verif.Props.Scalar

/-!
# The planar groups SO(2) and SE(2)
-/

namespace Multicalc

open Matrix

/-- The pair is a point of the unit circle. -/
def SO2.IsUnit (p : SO2 ℝ) : Prop := p.cos ^ 2 + p.sin ^ 2 = 1

/-- C46, C47. Planar rotations form a group acting on the plane: composition is associative with
identity and inverse, `act` is an action preserving lengths and signed areas, the matrix is
multiplicative, `exp` turns sums of angles into composition, and `log`, always in (-π, π], inverts
`exp` on that range and is inverted by `exp` on every rotation. -/
theorem so2_group (p q r : SO2 ℝ) (hp : p.IsUnit) (hq : q.IsUnit) (v w : Fin 2 → ℝ) (a b : ℝ) :
    (p.compose q).IsUnit ∧ p.inverse.IsUnit ∧ (SO2.exp a).IsUnit ∧
    (p.compose q).compose r = p.compose (q.compose r) ∧
    SO2.identity.compose p = p ∧ p.compose SO2.identity = p ∧
    p.compose p.inverse = SO2.identity ∧ p.inverse.compose p = SO2.identity ∧
    p.compose q = q.compose p ∧
    (p.compose q).act v = p.act (q.act v) ∧ p.inverse.act (p.act v) = v ∧
    vdot (p.act v) (p.act w) = vdot v w ∧ cross2 (p.act v) (p.act w) = cross2 v w ∧
    mmulVec p.toMatrix v = p.act v ∧ (p.compose q).toMatrix = mmul p.toMatrix q.toMatrix ∧
    SO2.exp (a + b) = (SO2.exp a).compose (SO2.exp b) ∧
    -Real.pi < p.log ∧ p.log ≤ Real.pi ∧ SO2.exp p.log = p ∧
    (-Real.pi < a → a ≤ Real.pi → (SO2.exp a).log = a) := by
  rw [SO2.IsUnit] at hp hq
  refine ⟨?_, ?_, ?_, ?_, ?_, ?_, ?_, ?_, ?_, ?_, ?_, ?_, ?_, ?_, ?_, ?_, (atan2_mem _ _).1,
    (atan2_mem _ _).2, ?_, ?_⟩
  · rw [SO2.IsUnit]; simp only [SO2.compose]; linear_combination (q.cos ^ 2 + q.sin ^ 2) * hp + hq
  · rw [SO2.IsUnit]; simp only [SO2.inverse]; linear_combination hp
  · rw [SO2.IsUnit]; simp only [SO2.exp, Fns.cos, Fns.sin]; exact Real.cos_sq_add_sin_sq a
  · ext <;> simp only [SO2.compose] <;> ring
  · ext <;> simp [SO2.compose, SO2.identity]
  · ext <;> simp [SO2.compose, SO2.identity]
  · ext <;> simp only [SO2.compose, SO2.identity, SO2.inverse]
    · linear_combination hp
    · ring
  · ext <;> simp only [SO2.compose, SO2.identity, SO2.inverse]
    · linear_combination hp
    · ring
  · ext <;> simp only [SO2.compose] <;> ring
  · funext i; fin_cases i <;> simp [SO2.act, SO2.compose] <;> ring
  · funext i
    fin_cases i <;> simp [SO2.act, SO2.inverse]
    · linear_combination v 0 * hp
    · linear_combination v 1 * hp
  · rw [vdot2, vdot2]
    simp only [SO2.act, Matrix.cons_val_zero, Matrix.cons_val_one]
    linear_combination (v 0 * w 0 + v 1 * w 1) * hp
  · simp only [cross2, SO2.act, Matrix.cons_val_zero, Matrix.cons_val_one]
    linear_combination (v 0 * w 1 - v 1 * w 0) * hp
  · rw [mmulVec_eq]
    funext i
    fin_cases i <;> simp [SO2.toMatrix, SO2.act, Matrix.mulVec, dotProduct, Fin.sum_univ_two]
    ring
  · rw [mmul_eq]
    ext i j
    fin_cases i <;> fin_cases j <;>
      simp [SO2.toMatrix, SO2.compose, Matrix.mul_apply, Fin.sum_univ_two] <;> ring
  · ext <;> simp only [SO2.exp, SO2.compose, Fns.cos, Fns.sin]
    · exact Real.cos_add a b
    · rw [Real.sin_add]; ring
  · obtain ⟨h1, h2⟩ := atan2_cos (x := p.cos) (y := p.sin) (by rw [hp]; norm_num)
    rw [hp, Real.sqrt_one, one_mul] at h1 h2
    exact SO2.ext h1 h2
  · intro h1 h2
    have := atan2_polar (r := 1) one_pos h1 h2
    rw [one_mul, one_mul] at this
    exact this

example : (SO2.mk (3 / 5) (4 / 5) : SO2 ℝ).IsUnit ∧ (SO2.mk 0 (-1) : SO2 ℝ).IsUnit := by
  constructor <;> rw [SO2.IsUnit] <;> norm_num

/-- C46. Reading a planar rotation matrix back returns the rotation; whatever it accepts is a
rotation; interpolation starts at the first and ends at the second rotation, at constant rate. -/
theorem so2_matrix_interpolate (p q : SO2 ℝ) (hp : p.IsUnit) (hq : q.IsUnit)
    (m : Matrix (Fin 2) (Fin 2) ℝ) (t : ℝ) (h0 : 0 ≤ t) (h1 : t ≤ 1) :
    SO2.tryFromMatrix p.toMatrix = some p ∧
    (∀ r, SO2.tryFromMatrix m = some r → r.IsUnit) ∧
    p.interpolate q 0 = p ∧ p.interpolate q 1 = q ∧ (p.interpolate q t).IsUnit ∧
    (p.inverse.compose (p.interpolate q t)).log = t * (p.inverse.compose q).log := by
  have hrel : (p.inverse.compose q).IsUnit := by
    rw [SO2.IsUnit] at hp hq ⊢
    simp only [SO2.compose, SO2.inverse]; linear_combination (q.cos ^ 2 + q.sin ^ 2) * hp + hq
  obtain ⟨d, hd⟩ : ∃ d, p.inverse.compose q = d := ⟨_, rfl⟩
  rw [hd] at hrel
  have hG := so2_group d d d hrel hrel 0 0 0 0
  have hlog := hG.2.2.2.2.2.2.2.2.2.2.2.2.2.2.2.2
  have hcancel : ∀ u : SO2 ℝ, p.compose (p.inverse.compose u) = u ∧ p.inverse.compose (p.compose u) = u := by
    rw [SO2.IsUnit] at hp
    intro u
    constructor <;> ext <;> simp only [SO2.compose, SO2.inverse]
    · linear_combination u.cos * hp
    · linear_combination u.sin * hp
    · linear_combination u.cos * hp
    · linear_combination u.sin * hp
  have hexp0 : SO2.exp (0 : ℝ) = SO2.identity := by
    ext <;> simp [SO2.exp, SO2.identity, Fns.cos, Fns.sin]
  have hpid : p.compose SO2.identity = p := by ext <;> simp [SO2.compose, SO2.identity]
  refine ⟨?_, ?_, ?_, ?_, ?_, ?_⟩
  · have hn : hypot (p.toMatrix 0 0) (p.toMatrix 1 0) = 1 := by
      rw [hypot_eq]
      rw [SO2.IsUnit] at hp
      change Real.sqrt (p.cos ^ 2 + p.sin ^ 2) = 1
      rw [hp, Real.sqrt_one]
    have hz : hypot (p.toMatrix 0 1 + p.toMatrix 1 0) (p.toMatrix 1 1 - p.toMatrix 0 0) = 0 := by
      rw [hypot_eq]
      change Real.sqrt ((-p.sin + p.sin) ^ 2 + (p.cos - p.cos) ^ 2) = 0
      simp
    unfold SO2.tryFromMatrix
    have he : (epsilonX30 : ℝ) = 30 / 2 ^ 52 := smallAngle_real
    simp only [hn, div_one, hz, Fns.isFinite, he, real_abs]
    norm_num [Fns.epsilon]
    rfl
  · intro r hr
    unfold SO2.tryFromMatrix at hr
    dsimp only at hr
    split at hr
    · cases hr
    next hc =>
      split at hr
      · cases hr
      · have hpos : 0 < hypot (m 0 0) (m 1 0) := by
          simp only [Bool.or_eq_true, not_or, decide_eq_true_eq, not_le] at hc
          exact lt_trans (by norm_num [Fns.epsilon]) hc.1.2
        have hr' := Option.some.inj hr
        rw [← hr', SO2.IsUnit]
        dsimp only
        rw [hypot_eq] at hpos ⊢
        have hs := Real.mul_self_sqrt (Real.sqrt_pos.1 hpos).le
        field_simp
        rw [sq (Real.sqrt _), hs]
  · unfold SO2.interpolate; rw [mul_zero, hexp0, hpid]
  · unfold SO2.interpolate; rw [mul_one, hd, hlog.2.2.1, ← hd]; exact (hcancel q).1
  · unfold SO2.interpolate
    exact (so2_group p _ p hp (so2_group p p p hp hp 0 0 _ 0).2.2.1 0 0 0 0).1
  · unfold SO2.interpolate
    rw [hd, (hcancel _).2, mul_comm t]
    have hb1 := hlog.1
    have hb2 := hlog.2.1
    exact (so2_group d d d hrel hrel 0 0 (d.log * t) 0).2.2.2.2.2.2.2.2.2.2.2.2.2.2.2.2.2.2.2
      (by nlinarith [Real.pi_pos]) (by nlinarith [Real.pi_pos])

/-! ### Rigid motions of the plane -/

/-- C46. `SO2::try_from_matrix` accepts only matrices that agree with the returned rotation's matrix
to thirty rounding units in every entry; so scalings, shears and reflections are refused. -/
theorem so2_tryFromMatrix_near (m : Matrix (Fin 2) (Fin 2) ℝ) (r : SO2 ℝ)
    (h : SO2.tryFromMatrix m = some r) (i j : Fin 2) : |r.toMatrix i j - m i j| ≤ 30 / 2 ^ 52 := by
  have hu := (so2_matrix_interpolate SO2.identity SO2.identity (by simp [SO2.IsUnit, SO2.identity])
    (by simp [SO2.IsUnit, SO2.identity]) m 0 le_rfl zero_le_one).2.1 r h
  have he : (epsilonX30 : ℝ) = 30 / 2 ^ 52 := smallAngle_real
  unfold SO2.tryFromMatrix at h
  dsimp only at h
  split at h
  · cases h
  next hc =>
    split at h
    · cases h
    next hd =>
      simp only [Bool.or_eq_true, not_or, decide_eq_true_eq, not_le, not_lt, he] at hc hd
      rw [real_abs] at hc
      obtain ⟨n, hn⟩ : ∃ n, hypot (m 0 0) (m 1 0) = n := ⟨_, rfl⟩
      rw [hn] at hc hd h
      have hn0 : 0 < n := lt_trans (by norm_num [Fns.epsilon]) hc.1.2
      have hr := Option.some.inj h
      have hcos : m 0 0 = r.cos * n := by rw [← hr]; field_simp
      have hsin : m 1 0 = r.sin * n := by rw [← hr]; field_simp
      have hd2 := hd.2
      rw [show m 0 0 / n = r.cos by rw [← hr], show m 1 0 / n = r.sin by rw [← hr], hypot_eq] at hd2
      rw [SO2.IsUnit] at hu
      have c1 : |r.cos| ≤ 1 := abs_le.2 ⟨by nlinarith [sq_nonneg r.sin], by nlinarith [sq_nonneg r.sin]⟩
      have s1 : |r.sin| ≤ 1 := abs_le.2 ⟨by nlinarith [sq_nonneg r.cos], by nlinarith [sq_nonneg r.cos]⟩
      have hn1 : |1 - n| ≤ 30 / 2 ^ 52 := by rw [abs_sub_comm]; exact hc.2
      have p1 : |m 0 1 + r.sin| ≤ 30 / 2 ^ 52 :=
        (Real.abs_le_sqrt (by nlinarith [sq_nonneg (m 1 1 - r.cos)])).trans hd2
      have p2 : |m 1 1 - r.cos| ≤ 30 / 2 ^ 52 :=
        (Real.abs_le_sqrt (by nlinarith [sq_nonneg (m 0 1 + r.sin)])).trans hd2
      fin_cases i <;> fin_cases j
      · change |r.cos - m 0 0| ≤ _
        rw [hcos, show r.cos - r.cos * n = r.cos * (1 - n) by ring, abs_mul]
        calc _ ≤ 1 * |1 - n| := by gcongr
          _ ≤ _ := by linarith
      · change |-r.sin - m 0 1| ≤ _
        rw [← abs_neg]; convert p1 using 2; ring
      · change |r.sin - m 1 0| ≤ _
        rw [hsin, show r.sin - r.sin * n = r.sin * (1 - n) by ring, abs_mul]
        calc _ ≤ 1 * |1 - n| := by gcongr
          _ ≤ _ := by linarith
      · change |r.cos - m 1 1| ≤ _
        rw [abs_sub_comm]; exact p2

theorem so2_act_linear (p : SO2 ℝ) (v w : Fin 2 → ℝ) :
    p.act (vadd v w) = vadd (p.act v) (p.act w) ∧ p.act (vneg v) = vneg (p.act v) ∧
    p.act (vsub v w) = vsub (p.act v) (p.act w) := by
  refine ⟨?_, ?_, ?_⟩ <;> funext i <;> fin_cases i <;> simp [SO2.act, vadd, vneg, vsub] <;> ring

/-- C46. Planar rigid motions form a group acting on the plane by isometries, and the 3×3 matrix is
multiplicative and carries homogeneous points. -/
theorem se2_group (p q r : SE2 ℝ) (hp : p.rotation.IsUnit) (hq : q.rotation.IsUnit) (v w : Fin 2 → ℝ) :
    (p.compose q).rotation.IsUnit ∧ p.inverse.rotation.IsUnit ∧
    (p.compose q).compose r = p.compose (q.compose r) ∧
    SE2.identity.compose p = p ∧ p.compose SE2.identity = p ∧
    p.compose p.inverse = SE2.identity ∧ p.inverse.compose p = SE2.identity ∧
    (p.compose q).act v = p.act (q.act v) ∧ SE2.identity.act v = v ∧
    p.inverse.act (p.act v) = v ∧ p.act (p.inverse.act v) = v ∧
    vnormSquared (vsub (p.act v) (p.act w)) = vnormSquared (vsub v w) ∧
    (p.compose q).toMatrix = mmul p.toMatrix q.toMatrix ∧
    mmulVec p.toMatrix ![v 0, v 1, 1] = ![p.act v 0, p.act v 1, 1] := by
  have G := so2_group p.rotation q.rotation r.rotation hp hq v w 0 0
  rw [SO2.IsUnit] at hp hq
  refine ⟨G.1, G.2.1, ?_, ?_, ?_, ?_, ?_, ?_, ?_, ?_, ?_, ?_, ?_, ?_⟩
  · apply SE2.ext
    · exact G.2.2.2.1
    · funext i; fin_cases i <;> simp [SE2.compose, SO2.act, SO2.compose, vadd] <;> ring
  · apply SE2.ext
    · exact G.2.2.2.2.1
    · funext i; fin_cases i <;> simp [SE2.compose, SO2.act, SE2.identity, SO2.identity, vadd]
  · apply SE2.ext
    · exact G.2.2.2.2.2.1
    · funext i; fin_cases i <;> simp [SE2.compose, SO2.act, SE2.identity, vadd]
  · apply SE2.ext
    · exact G.2.2.2.2.2.2.1
    · funext i
      fin_cases i <;> simp [SE2.compose, SO2.act, SE2.identity, SE2.inverse, SO2.inverse, vadd, vneg]
      · linear_combination (-p.translation 0) * hp
      · linear_combination (-p.translation 1) * hp
  · apply SE2.ext
    · exact G.2.2.2.2.2.2.2.1
    · funext i
      fin_cases i <;> simp [SE2.compose, SO2.act, SE2.identity, SE2.inverse, SO2.inverse, vadd, vneg]
  · funext i; fin_cases i <;> simp [SE2.compose, SE2.act, SO2.act, SO2.compose, vadd] <;> ring
  · funext i; fin_cases i <;> simp [SE2.act, SO2.act, SE2.identity, SO2.identity, vadd]
  · funext i
    fin_cases i <;> simp [SE2.act, SO2.act, SE2.inverse, SO2.inverse, vadd, vneg]
    · linear_combination v 0 * hp
    · linear_combination v 1 * hp
  · funext i
    fin_cases i <;> simp [SE2.act, SO2.act, SE2.inverse, SO2.inverse, vadd, vneg]
    · linear_combination (v 0 - p.translation 0) * hp
    · linear_combination (v 1 - p.translation 1) * hp
  · simp only [vnormSquared, vdot2, SE2.act, SO2.act, vadd, vsub, Matrix.cons_val_zero, Matrix.cons_val_one]
    linear_combination ((v 0 - w 0) ^ 2 + (v 1 - w 1) ^ 2) * hp
  · rw [mmul_eq]
    ext i j
    fin_cases i <;> fin_cases j <;>
      simp [SE2.toMatrix, SE2.compose, SO2.compose, SO2.act, vadd, Matrix.mul_apply, Fin.sum_univ_three] <;> ring
  · rw [mmulVec_eq]
    funext i
    fin_cases i <;> simp [SE2.toMatrix, SE2.act, SO2.act, vadd, Matrix.mulVec, dotProduct, Fin.sum_univ_three]
    ring

theorem lt_smallAngleSq_scalar (ω : ℝ) : ω * ω < smallAngleSq ↔ |ω| < 30 / 2 ^ 52 := by
  rw [smallAngleSq_real, ← abs_mul_abs_self, ← sq]
  constructor
  · intro h1; exact lt_of_pow_lt_pow_left₀ 2 (by norm_num) h1
  · intro h1; gcongr

/-- The two coefficient pairs are inverse to each other beyond the threshold. -/
theorem se2_coeffs (ω : ℝ) (h : 30 / 2 ^ 52 ≤ |ω|) (h1 : |ω| ≤ Real.pi) :
    let ab := SE2.vCoeffs ω
    let cd := SE2.vInvCoeffs ω
    cd.1 * ab.1 + cd.2 * ab.2 = 1 ∧ cd.1 * ab.2 - cd.2 * ab.1 = 0 := by
  have hpi := Real.pi_pos
  have h0 : ω ≠ 0 := by
    intro h0; rw [h0, abs_zero] at h; norm_num at h
  have hns : ¬ ω * ω < smallAngleSq := by rw [lt_smallAngleSq_scalar]; exact not_lt.2 h
  have hs : Real.sin (ω / 2) ≠ 0 := by
    have hb := abs_le.1 h1
    intro hs
    rcases lt_or_gt_of_ne h0 with hneg | hpos
    · have := Real.sin_neg_of_neg_of_neg_pi_lt (x := ω / 2) (by linarith) (by linarith); linarith
    · have := Real.sin_pos_of_pos_of_lt_pi (x := ω / 2) (by linarith) (by linarith); linarith
  unfold SE2.vCoeffs SE2.vInvCoeffs
  dsimp only
  rw [if_neg hns, if_neg hns, half_real, mul_one_div]
  dsimp only
  simp only [Fns.sin, Fns.cos]
  have s1 : Real.sin ω = 2 * Real.sin (ω / 2) * Real.cos (ω / 2) := by rw [← Real.sin_two_mul]; ring_nf
  have c1 : Real.cos ω = 1 - 2 * Real.sin (ω / 2) ^ 2 := by
    have h2 := Real.cos_two_mul (ω / 2)
    have h3 := Real.sin_sq_add_cos_sq (ω / 2)
    rw [show 2 * (ω / 2) = ω by ring] at h2
    linear_combination h2 + 2 * h3
  have h3 := Real.sin_sq_add_cos_sq (ω / 2)
  rw [s1, c1]
  constructor
  · field_simp
    linear_combination 2 * h3
  · field_simp
    ring

/-- C47. Planar motions: beyond the small-angle threshold `log(exp(ξ)) = ξ` for turns in (-π, π],
and `exp(log(T)) = T` for every rigid motion, exactly. -/
theorem se2_exp_log (ξ : Fin 3 → ℝ) (p : SE2 ℝ) :
    (30 / 2 ^ 52 ≤ |ξ 2| → -Real.pi < ξ 2 → ξ 2 ≤ Real.pi → (SE2.exp ξ).log = ξ) ∧
    (p.rotation.IsUnit → 30 / 2 ^ 52 ≤ |p.rotation.log| → SE2.exp p.log = p) := by
  constructor
  · intro h h1 h2
    have G := so2_group SO2.identity SO2.identity SO2.identity (by rw [SO2.IsUnit]; simp [SO2.identity])
      (by rw [SO2.IsUnit]; simp [SO2.identity]) 0 0 (ξ 2) 0
    have hlog := G.2.2.2.2.2.2.2.2.2.2.2.2.2.2.2.2.2.2.2 h1 h2
    obtain ⟨e1, e2⟩ := se2_coeffs (ξ 2) h (abs_le.2 ⟨h1.le, h2⟩)
    unfold SE2.log SE2.exp
    dsimp only
    rw [hlog]
    funext i
    fin_cases i <;> simp
    · linear_combination ξ 0 * e1 - ξ 1 * e2
    · linear_combination ξ 1 * e1 + ξ 0 * e2
  · intro hp h
    have G := so2_group p.rotation p.rotation p.rotation hp hp 0 0 0 0
    have hl := G.2.2.2.2.2.2.2.2.2.2.2.2.2.2.2.2
    obtain ⟨e1, e2⟩ := se2_coeffs p.rotation.log h (abs_le.2 ⟨hl.1.le, hl.2.1⟩)
    unfold SE2.exp
    apply SE2.ext
    · exact hl.2.2.1
    · simp only [SE2.log]
      funext i
      fin_cases i <;> simp
      · linear_combination p.translation 0 * e1 - p.translation 1 * e2
      · linear_combination p.translation 1 * e1 + p.translation 0 * e2

/-- C47. Below the threshold the planar round trip keeps the turn and moves the translation part by
a factor within the squared angle of one plus a coupling below its cube. -/
theorem se2_log_exp_small (ξ : Fin 3 → ℝ) (h : |ξ 2| < 30 / 2 ^ 52) :
    ∃ k c : ℝ, |k - 1| ≤ ξ 2 ^ 2 ∧ |c| ≤ |ξ 2| ^ 3 ∧
      (SE2.exp ξ).log = ![k * ξ 0 - c * ξ 1, k * ξ 1 + c * ξ 0, ξ 2] := by
  have hpi := Real.two_le_pi
  have hb := abs_lt.1 h
  have hsmall : (30 : ℝ) / 2 ^ 52 ≤ 1 / 2 := by norm_num
  have G := so2_group SO2.identity SO2.identity SO2.identity (by rw [SO2.IsUnit]; simp [SO2.identity])
      (by rw [SO2.IsUnit]; simp [SO2.identity]) 0 0 (ξ 2) 0
  have hlog := G.2.2.2.2.2.2.2.2.2.2.2.2.2.2.2.2.2.2.2 (by linarith) (by linarith)
  have hs : ξ 2 * ξ 2 < smallAngleSq := by rw [lt_smallAngleSq_scalar]; exact h
  obtain ⟨ω, hω⟩ : ∃ ω, ξ 2 = ω := ⟨_, rfl⟩
  refine ⟨(1 - ω * ω / 12) * (1 - ω * ω / 6) + ω / 2 * (ω * (1 / 2 - ω * ω / 24)),
    (1 - ω * ω / 12) * (ω * (1 / 2 - ω * ω / 24)) - ω / 2 * (1 - ω * ω / 6), ?_, ?_, ?_⟩
  · rw [hω] at hb ⊢
    have h2 : ω ^ 2 ≤ 1 := by nlinarith
    have e : (1 - ω * ω / 12) * (1 - ω * ω / 6) + ω / 2 * (ω * (1 / 2 - ω * ω / 24)) - 1 =
        ω ^ 2 * (-ω ^ 2 / 144) := by ring
    rw [e, abs_mul, abs_of_nonneg (sq_nonneg ω)]
    have : |(-ω ^ 2 / 144)| ≤ 1 := by rw [abs_le]; constructor <;> nlinarith [sq_nonneg ω]
    nlinarith [sq_nonneg ω]
  · rw [hω] at hb ⊢
    have h2 : ω ^ 2 ≤ 1 := by nlinarith
    have e : (1 - ω * ω / 12) * (ω * (1 / 2 - ω * ω / 24)) - ω / 2 * (1 - ω * ω / 6) =
        ω ^ 3 * (ω ^ 2 / 288) := by ring
    rw [e, abs_mul, ← abs_pow]
    have : |(ω ^ 2 / 288)| ≤ 1 := by rw [abs_le]; constructor <;> nlinarith [sq_nonneg ω]
    nlinarith [abs_nonneg (ω ^ 3)]
  · unfold SE2.log SE2.exp SE2.vCoeffs SE2.vInvCoeffs
    dsimp only
    rw [hlog, if_pos hs, if_pos hs, half_real, real_lit, real_lit, real_lit, hω]
    push_cast
    funext i
    fin_cases i <;> simp
    · ring
    · ring

example : (30 : ℝ) / 2 ^ 52 ≤ |(![3, 4, 1] : Fin 3 → ℝ) 2| ∧ (![3, 4, 1] : Fin 3 → ℝ) 2 ≤ Real.pi := by
  have h := Real.two_le_pi
  simp only [Matrix.cons_val]
  exact ⟨by norm_num, by linarith⟩

/-- C46, C48. The planar adjoint carries a twist as conjugation carries its matrix, and is
multiplicative; `vee` inverts `hat`. -/
theorem se2_adjoint (p q : SE2 ℝ) (hp : p.rotation.IsUnit) (ξ : Fin 3 → ℝ) :
    mmul (mmul p.toMatrix (SE2.hat ξ)) p.inverse.toMatrix = SE2.hat (mmulVec p.adjoint ξ) ∧
    (p.compose q).adjoint = mmul p.adjoint q.adjoint ∧ SE2.vee (SE2.hat ξ) = ξ := by
  rw [SO2.IsUnit] at hp
  refine ⟨?_, ?_, ?_⟩
  · rw [mmul_eq, mmul_eq, mmulVec_eq]
    ext i j
    fin_cases i <;> fin_cases j <;>
      simp [SE2.toMatrix, SE2.hat, SE2.adjoint, SE2.inverse, SO2.inverse, SO2.act, vneg, Matrix.mul_apply,
        Matrix.mulVec, dotProduct, Fin.sum_univ_three] <;> grind
  · rw [mmul_eq]
    ext i j
    fin_cases i <;> fin_cases j <;>
      simp [SE2.compose, SE2.adjoint, SO2.compose, SO2.act, vadd, Matrix.mul_apply, Fin.sum_univ_three] <;> ring
  · funext i; fin_cases i <;> simp [SE2.vee, SE2.hat]

/-- C47. Beyond the threshold the planar Jacobian and its closed-form inverse are inverse matrices. -/
theorem se2_jacobian_inverse (ξ : Fin 3 → ℝ) (h : 30 / 2 ^ 52 ≤ |ξ 2|) (h1 : |ξ 2| ≤ Real.pi) :
    mmul (SE2.leftJacobian ξ) (SE2.leftJacobianInverse ξ) = midentity 3 ∧
    mmul (SE2.leftJacobianInverse ξ) (SE2.leftJacobian ξ) = midentity 3 := by
  obtain ⟨e1, e2⟩ := se2_coeffs (ξ 2) h h1
  have key : mmul (SE2.leftJacobian ξ) (SE2.leftJacobianInverse ξ) = midentity 3 := by
    rw [mmul_eq, midentity_eq]
    unfold SE2.leftJacobian SE2.leftJacobianInverse
    dsimp only at e1 e2 ⊢
    generalize SE2.vCoeffs (ξ 2) = ab at *
    generalize SE2.vInvCoeffs (ξ 2) = cd at *
    generalize SE2.couplingCoeffs (ξ 2) = pr at *
    ext i j
    fin_cases i <;> fin_cases j <;> simp [Matrix.mul_apply, Fin.sum_univ_three] <;> grind
  refine ⟨key, ?_⟩
  rw [mmul_eq, midentity_eq] at key ⊢
  exact mul_eq_one_comm.1 key

/-- C47. The planar left Jacobian satisfies `Ad(exp ξ) = 1 + ad(ξ) J(ξ)`, the identity that defines it
from the bracket: exactly from the threshold on, and within the fourth power of the angle below it. -/
theorem se2_jacobian_adjoint (ξ : Fin 3 → ℝ) :
    let E := (SE2.exp ξ).adjoint -
      (1 + !![0, -ξ 2, ξ 1; ξ 2, 0, -ξ 0; 0, 0, 0] * SE2.leftJacobian ξ)
    (30 / 2 ^ 52 ≤ |ξ 2| → E = 0) ∧
      (|ξ 2| < 30 / 2 ^ 52 → ∀ i j, |E i j| ≤ ξ 2 ^ 4 * (1 + |ξ 0| + |ξ 1|)) := by
  intro E
  constructor
  · intro h
    have hw : ξ 2 ≠ 0 := by
      intro h0; rw [h0, abs_zero] at h; norm_num at h
    have hn : ¬ ξ 2 * ξ 2 < smallAngleSq := by rw [lt_smallAngleSq_scalar]; exact not_lt.2 h
    ext i j
    simp only [E]
    fin_cases i <;> fin_cases j <;>
      simp [SE2.exp, SE2.adjoint, SE2.leftJacobian, SE2.vCoeffs, SE2.couplingCoeffs, if_neg hn, SO2.exp,
        Matrix.mul_apply, Fin.sum_univ_three, Fns.sin, Fns.cos] <;> field_simp <;> ring
  · intro h
    have hp : ξ 2 * ξ 2 < smallAngleSq := by rw [lt_smallAngleSq_scalar]; exact h
    have h1 : |ξ 2| ≤ 1 := h.le.trans (by norm_num)
    have hc := Real.cos_bound h1
    have hs := Real.sin_bound h1
    have h4 : |ξ 2| ^ 4 = ξ 2 ^ 4 := by rw [← abs_pow, abs_of_nonneg (by positivity)]
    have h5 : |ξ 2| ^ 5 ≤ ξ 2 ^ 4 := by
      rw [← h4, pow_succ]; exact mul_le_of_le_one_right (by positivity) h1
    rw [h4] at hc
    have hw4 : 0 ≤ ξ 2 ^ 4 := by positivity
    have hb : ξ 2 ^ 4 ≤ ξ 2 ^ 4 * (1 + |ξ 0| + |ξ 1|) :=
      le_mul_of_one_le_right hw4 (by linarith [abs_nonneg (ξ 0), abs_nonneg (ξ 1)])
    have hb1 : ∀ y : ℝ, |y| ≤ |ξ 0| + |ξ 1| → |ξ 2 ^ 4 / 120 * y| ≤ ξ 2 ^ 4 * (1 + |ξ 0| + |ξ 1|) := by
      intro y hy
      rw [abs_mul, abs_of_nonneg (by positivity)]
      calc ξ 2 ^ 4 / 120 * |y| ≤ ξ 2 ^ 4 * |y| := by gcongr; linarith
        _ ≤ _ := by gcongr; linarith
    rw [abs_le] at hc hs
    intro i j
    simp only [E]
    fin_cases i <;> fin_cases j <;>
      simp [SE2.exp, SE2.adjoint, SE2.leftJacobian, SE2.vCoeffs, SE2.couplingCoeffs, if_pos hp, SO2.exp,
        Matrix.mul_apply, Fin.sum_univ_three, Fns.sin, Fns.cos, real_lit, half_real]
    · rw [abs_le]; constructor <;> nlinarith
    · rw [abs_le]; constructor <;> nlinarith
    · refine le_trans (le_of_eq ?_) (hb1 (-ξ 1) (by rw [abs_neg]; linarith [abs_nonneg (ξ 0)]))
      congr 1; ring
    · rw [abs_le]; constructor <;> nlinarith
    · rw [abs_le]; constructor <;> nlinarith
    · refine le_trans (le_of_eq ?_) (hb1 (ξ 0) (by linarith [abs_nonneg (ξ 1)]))
      congr 1; ring
    all_goals positivity

example : (30 : ℝ) / 2 ^ 52 ≤ |(![1, 2, 3] : Fin 3 → ℝ) 2| := by
  have : (![1, 2, 3] : Fin 3 → ℝ) 2 = 3 := rfl
  rw [this]; norm_num

end Multicalc
