import Verif.Model.Attitude
import Verif.Model.XR
import Verif.Props.Rigid
import Verif.Props.Directions
import Verif.Props.RotationMaps
import Verif.Props.Kalman
import Mathlib.Analysis.SpecialFunctions.Integrals.Basic

/-!
# Attitude integration and complementary attitude filters
-/

namespace Multicalc

open Matrix

/-! ### Bad readings -/

section LawFree

variable {T : Type} [Zero T] [One T] [NatCast T] [Add T] [Sub T] [Neg T] [Mul T] [Div T] [LT T] [LE T] [BEq T]
  [DecidableLT T] [DecidableLE T] [Max T] [Min T] [Fns T]

theorem vecIsFinite_iff {n : ℕ} (v : Fin n → T) : vecIsFinite v = true ↔ ∀ i, Fns.isFinite (v i) = true := by
  simp [vecIsFinite]

/-- The readings hold an entry that is not finite. -/
def BadReading (gyroscope accelerometer : Fin 3 → T) (magnetometer : Option (Fin 3 → T)) (timestep : T) : Prop :=
  (∃ i, Fns.isFinite (gyroscope i) = false) ∨ (∃ i, Fns.isFinite (accelerometer i) = false) ∨
    Fns.isFinite timestep = false ∨ ∃ m, magnetometer = some m ∧ ∃ i, Fns.isFinite (m i) = false

theorem readings_bad {gyroscope accelerometer : Fin 3 → T} {magnetometer : Option (Fin 3 → T)} {timestep : T}
    (h : BadReading gyroscope accelerometer magnetometer timestep) :
    readingsAreFinite gyroscope accelerometer magnetometer timestep = false := by
  have hv : ∀ v : Fin 3 → T, (∃ i, Fns.isFinite (v i) = false) → vecIsFinite v = false := by
    rintro v ⟨i, hi⟩
    rw [← Bool.not_eq_true, vecIsFinite_iff]
    intro h
    rw [h i] at hi
    cases hi
  unfold readingsAreFinite
  rcases h with h | h | h | ⟨m, rfl, h⟩
  · rw [hv _ h]; rfl
  · rw [hv _ h]; cases vecIsFinite gyroscope <;> rfl
  · rw [h]; cases vecIsFinite gyroscope <;> cases vecIsFinite accelerometer <;> rfl
  · simp only [hv _ h, Bool.and_false]

/-- C59. A turn rate, push, magnetometer or timestep entry that is not finite, in any position, is refused by both
attitude filters, which stay as they were. -/
theorem attitude_refuses (f : MahonyFilter T) (g : MadgwickFilter T) (gyroscope accelerometer : Fin 3 → T)
    (magnetometer : Option (Fin 3 → T)) (timestep : T)
    (h : BadReading gyroscope accelerometer magnetometer timestep) :
    f.step gyroscope accelerometer magnetometer timestep = (f, .error .nonFinite) ∧
    g.step gyroscope accelerometer magnetometer timestep = (g, .error .nonFinite) := by
  constructor
  · unfold MahonyFilter.step; rw [readings_bad h]; rfl
  · unfold MadgwickFilter.step; rw [readings_bad h]; rfl

/-- C59. Whatever the readings, an attitude filter either accepts them, and its facing and offset are then finite
and its gains and references untouched, or answers that something was not finite and stays exactly as it was. -/
theorem attitude_failure_keeps (f : MahonyFilter T) (g : MadgwickFilter T) (gyroscope accelerometer : Fin 3 → T)
    (magnetometer : Option (Fin 3 → T)) (timestep : T) :
    (f.step gyroscope accelerometer magnetometer timestep = (f, .error .nonFinite) ∨
      ∃ f', f.step gyroscope accelerometer magnetometer timestep = (f', .ok ()) ∧
        (∀ i, Fns.isFinite (f'.gyroscopeBias i) = true) ∧
        Fns.isFinite f'.orientation.quaternion.w = true ∧ Fns.isFinite f'.orientation.quaternion.x = true ∧
        Fns.isFinite f'.orientation.quaternion.y = true ∧ Fns.isFinite f'.orientation.quaternion.z = true ∧
        f' = { f with orientation := f'.orientation, gyroscopeBias := f'.gyroscopeBias }) ∧
    (g.step gyroscope accelerometer magnetometer timestep = (g, .error .nonFinite) ∨
      ∃ g', g.step gyroscope accelerometer magnetometer timestep = (g', .ok ()) ∧
        (∀ i, Fns.isFinite (g'.gyroscopeBias i) = true) ∧
        Fns.isFinite g'.orientation.quaternion.w = true ∧ Fns.isFinite g'.orientation.quaternion.x = true ∧
        Fns.isFinite g'.orientation.quaternion.y = true ∧ Fns.isFinite g'.orientation.quaternion.z = true ∧
        g' = { g with orientation := g'.orientation, gyroscopeBias := g'.gyroscopeBias }) := by
  constructor
  · unfold MahonyFilter.step
    dsimp only
    split_ifs with h1 h2
    · exact Or.inl rfl
    · exact Or.inl rfl
    · refine Or.inr ⟨_, rfl, ?_⟩
      simp only [Bool.or_eq_true, Bool.not_eq_true', not_or, Bool.not_eq_false, orientationIsFinite,
        Bool.and_eq_true] at h2
      exact ⟨(vecIsFinite_iff _).1 h2.1, h2.2.1.1.1, h2.2.1.1.2, h2.2.1.2, h2.2.2, rfl⟩
  · unfold MadgwickFilter.step
    dsimp only
    split_ifs with h1 h2
    · exact Or.inl rfl
    · exact Or.inl rfl
    · refine Or.inr ⟨_, rfl, ?_⟩
      simp only [Bool.or_eq_true, Bool.not_eq_true', not_or, Bool.not_eq_false, orientationIsFinite,
        Bool.and_eq_true] at h2
      exact ⟨(vecIsFinite_iff _).1 h2.1, h2.2.1.1.1, h2.2.1.1.2, h2.2.1.2, h2.2.2, rfl⟩

end LawFree

/-! ### Exact arithmetic -/

theorem real_vecIsFinite {n : ℕ} (v : Fin n → ℝ) : vecIsFinite v = true :=
  (vecIsFinite_iff v).2 fun _ => rfl

theorem real_orientationIsFinite (o : SO3 ℝ) : orientationIsFinite o = true := rfl

theorem real_readings (g a : Fin 3 → ℝ) (m : Option (Fin 3 → ℝ)) (t : ℝ) : readingsAreFinite g a m t = true := by
  unfold readingsAreFinite
  cases m <;> simp [real_vecIsFinite] <;> rfl

theorem MahonyFilter.step_real (f : MahonyFilter ℝ) (gy a : Fin 3 → ℝ) (m : Option (Fin 3 → ℝ)) (t : ℝ) :
    f.step gy a m t =
      ({ f with
          gyroscopeBias := vsub f.gyroscopeBias (vscaleBy (vscaleBy (attitudeCorrection f.orientation a m
            f.upwardReference f.northReference) f.integralGain) t)
          orientation := steppedOrientation f.orientation (vadd (vsub gy (vsub f.gyroscopeBias (vscaleBy (vscaleBy
            (attitudeCorrection f.orientation a m f.upwardReference f.northReference) f.integralGain) t)))
            (vscaleBy (attitudeCorrection f.orientation a m f.upwardReference f.northReference)
              f.proportionalGain)) t }, .ok ()) := by
  unfold MahonyFilter.step
  simp only [real_readings, real_vecIsFinite, real_orientationIsFinite, Bool.not_true, Bool.false_eq_true, if_false,
    Bool.or_self]

theorem MadgwickFilter.step_real (f : MadgwickFilter ℝ) (gy a : Fin 3 → ℝ) (m : Option (Fin 3 → ℝ)) (t : ℝ) :
    f.step gy a m t =
      (let d := (vtryNormalized (attitudeCorrection f.orientation a m f.upwardReference f.northReference)).getD
          fun _ => 0
       let b := vsub f.gyroscopeBias (vscaleBy (vscaleBy d f.biasGain) t)
       ({ f with
          gyroscopeBias := b
          orientation := steppedOrientation f.orientation (vadd (vsub gy b) (vscaleBy d f.correctionGain)) t },
        .ok ())) := by
  unfold MadgwickFilter.step
  simp only [real_readings, real_vecIsFinite, real_orientationIsFinite, Bool.not_true, Bool.false_eq_true, if_false,
    Bool.or_self]

theorem quat_normSquared_pos_of_norm {q : Quat ℝ} (h : q.normSquared ≠ 0) : q.norm ≠ 0 := by
  rw [Quat.norm, real_sqrt]
  intro h0
  have : 0 ≤ q.normSquared := by
    simp only [Quat.normSquared]
    nlinarith [mul_self_nonneg q.w, mul_self_nonneg q.x, mul_self_nonneg q.y, mul_self_nonneg q.z]
  exact h ((Real.sqrt_eq_zero this).1 h0)

theorem isUnit_normSquared (q : Quat ℝ) : q.IsUnit ↔ q.normSquared = 1 := by
  rw [Quat.IsUnit, Quat.normSquared]
  constructor <;> intro h <;> linarith

theorem normSquared_mul (p q : Quat ℝ) : (p.mul q).normSquared = p.normSquared * q.normSquared := by
  simp only [Quat.normSquared, Quat.mul]; ring

theorem quat_normalized_unit (q : Quat ℝ) (h : q.IsUnit) : q.normalized = q := by
  rw [Quat.isUnit_iff] at h
  rw [Quat.normalized, h]
  apply Quat.ext <;> simp [Quat.scale]

/-- The exponential of any rotation vector is not the zero quaternion. -/
theorem exp_normSquared (φ : Fin 3 → ℝ) :
    |(Quat.fromScaledAxis φ).normSquared - 1| ≤ (30 / 2 ^ 52) ^ 4 := by
  by_cases h : 30 / 2 ^ 52 ≤ vnorm φ
  · rw [(isUnit_normSquared _).1 ((exp_spec φ).1 h).1]
    norm_num
  · refine ((exp_spec φ).2 (not_le.1 h)).trans ?_
    exact pow_le_pow_left₀ (vnorm_nonneg φ) (not_le.1 h).le 4

theorem exp_normSquared_pos (φ : Fin 3 → ℝ) : 0 < (Quat.fromScaledAxis φ).normSquared := by
  have h := abs_le.1 (exp_normSquared φ)
  have : ((30 : ℝ) / 2 ^ 52) ^ 4 ≤ 1 / 2 := by norm_num
  linarith [h.1]

theorem steppedOrientation_unit (o : SO3 ℝ) (h : o.quaternion.IsUnit) (r : Fin 3 → ℝ) (t : ℝ) :
    (steppedOrientation o r t).quaternion.IsUnit := by
  have hne : (attitudeStep o r t).quaternion.norm ≠ 0 := by
    apply quat_normSquared_pos_of_norm
    rw [attitudeStep, SO3.compose, normSquared_mul, (isUnit_normSquared _).1 h, one_mul]
    exact (exp_normSquared_pos _).ne'
  exact (so3_fromQuaternion _ hne).1

theorem attitude_exp_zero : SO3.exp (0 : Fin 3 → ℝ) = SO3.identity := by
  have h0 : vnorm (0 : Fin 3 → ℝ) = 0 := by rw [vnorm, real_sqrt, vnormSquared, vdot3]; simp
  rw [SO3.exp, fromScaledAxis_small (by rw [h0]; norm_num), h0]
  simp [SO3.identity, Quat.identity]

theorem steppedOrientation_still (o : SO3 ℝ) (h : o.quaternion.IsUnit) (t : ℝ) :
    steppedOrientation o 0 t = o := by
  have e : vscaleBy (0 : Fin 3 → ℝ) t = 0 := by funext i; simp [vscaleBy]
  rw [steppedOrientation, attitudeStep, e, attitude_exp_zero, (so3_group o o o h h 0 0).2.2.2.2.1, SO3.normalized,
    quat_normalized_unit _ h]

/-- A call of the Mahony filter. -/
abbrev AttitudeReading := (Fin 3 → ℝ) × (Fin 3 → ℝ) × Option (Fin 3 → ℝ) × ℝ

/-- The filter after a list of readings. -/
noncomputable def MahonyFilter.after (f : MahonyFilter ℝ) (l : List AttitudeReading) : MahonyFilter ℝ :=
  l.foldl (fun f x => (f.step x.1 x.2.1 x.2.2.1 x.2.2.2).1) f

/-- The filter after a list of readings. -/
noncomputable def MadgwickFilter.after (f : MadgwickFilter ℝ) (l : List AttitudeReading) : MadgwickFilter ℝ :=
  l.foldl (fun f x => (f.step x.1 x.2.1 x.2.2.1 x.2.2.2).1) f

/-- C93. Whatever readings arrive, in whatever order, the facing of both filters stays a unit quaternion. -/
theorem attitude_stays_rotation (f : MahonyFilter ℝ) (g : MadgwickFilter ℝ) (hf : f.orientation.quaternion.IsUnit)
    (hg : g.orientation.quaternion.IsUnit) (l : List AttitudeReading) :
    (f.after l).orientation.quaternion.IsUnit ∧ (g.after l).orientation.quaternion.IsUnit := by
  induction l generalizing f g with
  | nil => exact ⟨hf, hg⟩
  | cons x l ih =>
    refine ih (f.step x.1 x.2.1 x.2.2.1 x.2.2.2).1 (g.step x.1 x.2.1 x.2.2.1 x.2.2.2).1 ?_ ?_
    · rw [MahonyFilter.step_real]; exact steppedOrientation_unit _ hf _ _
    · rw [MadgwickFilter.step_real]; exact steppedOrientation_unit _ hg _ _

/-! ### Agreeing readings -/

theorem cross_self_zero (v : Fin 3 → ℝ) : cross v v = 0 := by
  apply vec3_ext <;> simp [cross] <;> ring

theorem vnormalized_of_scaled {v : Fin 3 → ℝ} (hv : vdot v v = 1) {s : ℝ} (hs : 0 < s) :
    vtryNormalized (vscaleBy v s) = some v := by
  have hn : vnorm (vscaleBy v s) = s := by
    rw [vnorm, real_sqrt, vnormSquared]
    have : vdot (vscaleBy v s) (vscaleBy v s) = s * s := by
      rw [vdot3] at hv ⊢; simp only [vscaleBy]; linear_combination (s * s) * hv
    rw [this, Real.sqrt_mul_self hs.le]
  unfold vtryNormalized
  rw [hn]
  simp only [Fns.isNan, Bool.false_or, beq_iff_eq]
  rw [if_neg hs.ne']
  congr 1
  funext i
  simp only [vdivBy, vscaleBy]
  field_simp

theorem vtryNormalized_zero' : vtryNormalized (fun _ => 0 : Fin 3 → ℝ) = none := vtryNormalized_none

/-- The references are unit vectors at right angles. -/
def Orthonormal2 (u n : Fin 3 → ℝ) : Prop := vdot u u = 1 ∧ vdot n n = 1 ∧ vdot u n = 0

theorem correction_agree (o : SO3 ℝ) (ho : o.quaternion.IsUnit) (u n : Fin 3 → ℝ) (hun : Orthonormal2 u n)
    (s : ℝ) (hs : 0 < s) (m : Option (Fin 3 → ℝ))
    (hm : ∀ v, m = some v → ∃ a b : ℝ, 0 ≤ a ∧ v = o.inverse.act (vadd (vscaleBy n a) (vscaleBy u b))) :
    attitudeCorrection o (vscaleBy (o.inverse.act u) s) m u n = 0 := by
  obtain ⟨hu, hn, hun⟩ := hun
  have G := fun v w : Fin 3 → ℝ => so3_group o o.inverse o ho ((so3_group o o o ho ho 0 0).2.1) v w
  have I := fun v w : Fin 3 → ℝ => so3_group o.inverse o o ((so3_group o o o ho ho 0 0).2.1) ho v w
  have h1 : gravityCorrection o (vscaleBy (o.inverse.act u) s) u = 0 := by
    unfold gravityCorrection
    rw [vnormalized_of_scaled (by rw [(I u u).2.2.2.2.2.2.2.2.2.2.2.1, hu]) hs]
    simp only [cross_self_zero]
    funext i; simp [vadd]
  unfold attitudeCorrection
  rw [h1]
  dsimp only
  cases hmm : m with
  | none => rfl
  | some v =>
    obtain ⟨a, b, ha, hv⟩ := hm v hmm
    simp only [Option.bind_some]
    by_cases hz : v = 0
    · rw [hz, vtryNormalized_none]
    · rw [vtryNormalized_some hz]
      dsimp only
      have hp := vnorm_pos hz
      have hvv : vnorm v * vnorm v = a * a + b * b := by
        rw [vnorm_sq, hv, (I _ _).2.2.2.2.2.2.2.2.2.2.2.1]
        rw [vdot3] at hu hn hun ⊢
        simp only [vadd, vscaleBy]
        linear_combination (a * a) * hn + (b * b) * hu + (2 * a * b) * hun
      have hnv : vnormalized v = o.inverse.act (vadd (vscaleBy n (a / vnorm v)) (vscaleBy u (b / vnorm v))) := by
        funext i
        have : vnormalized v i = v i / vnorm v := rfl
        rw [this]
        generalize vnorm v = N
        rw [hv, (so3_act_linear _ _ _).1, (so3_act_linear _ _ _).1]
        have e : ∀ w : Fin 3 → ℝ, ∀ c : ℝ, o.inverse.act (vscaleBy w c) = vscaleBy (o.inverse.act w) c := fun w c =>
          (rotation_laws o.quaternion o.inverse.quaternion w w c ((so3_group o o o ho ho 0 0).2.1)).2.2.1
        rw [e, e, e, e]
        simp only [vadd, vscaleBy]
        ring
      have hw : o.act (vnormalized v) = vadd (vscaleBy n (a / vnorm v)) (vscaleBy u (b / vnorm v)) := by
        rw [hnv, (G _ 0).2.2.2.2.2.2.2.2.2.2.1]
      rw [hw]
      have hvert : vdot (vadd (vscaleBy n (a / vnorm v)) (vscaleBy u (b / vnorm v))) u = b / vnorm v := by
        rw [vdot3] at hu hun ⊢
        simp only [vadd, vscaleBy]
        linear_combination (a / vnorm v) * hun + (b / vnorm v) * hu
      rw [hvert]
      have hac : 1 - b / vnorm v * (b / vnorm v) = a / vnorm v * (a / vnorm v) := by
        field_simp; nlinarith
      rw [hac]
      have hh : (if 0 < a / vnorm v * (a / vnorm v) then Fns.sqrt (a / vnorm v * (a / vnorm v)) else 0) =
          a / vnorm v := by
        have h0 : 0 ≤ a / vnorm v := div_nonneg ha hp.le
        split_ifs with hlt
        · rw [real_sqrt, Real.sqrt_mul_self h0]
        · have : a / vnorm v * (a / vnorm v) = 0 := le_antisymm (not_lt.1 hlt) (mul_self_nonneg _)
          exact (mul_self_eq_zero.1 this).symm
      rw [hh, ← hnv, cross_self_zero]
      funext i; simp [vadd]

/-- C93. When the push points up and the magnetometer, if given, has no part across north that the facing does not
explain, neither filter nudges: the offset is kept and the facing is carried by the turn rate less that offset
alone. A still body that faces as estimated stays put. -/
theorem attitude_agree (f : MahonyFilter ℝ) (g : MadgwickFilter ℝ) (hf : f.orientation.quaternion.IsUnit)
    (hg : g.orientation.quaternion.IsUnit) (hfr : Orthonormal2 f.upwardReference f.northReference)
    (hgr : Orthonormal2 g.upwardReference g.northReference) (gyroscope : Fin 3 → ℝ) (s t : ℝ) (hs : 0 < s)
    (field : Option (ℝ × ℝ)) (hfield : ∀ c, field = some c → 0 ≤ c.1) :
    ((f.step gyroscope (vscaleBy (f.orientation.inverse.act f.upwardReference) s) (field.map fun c =>
        f.orientation.inverse.act (vadd (vscaleBy f.northReference c.1) (vscaleBy f.upwardReference c.2))) t).1 =
      { f with orientation := steppedOrientation f.orientation (vsub gyroscope f.gyroscopeBias) t }) ∧
    ((g.step gyroscope (vscaleBy (g.orientation.inverse.act g.upwardReference) s) (field.map fun c =>
        g.orientation.inverse.act (vadd (vscaleBy g.northReference c.1) (vscaleBy g.upwardReference c.2))) t).1 =
      { g with orientation := steppedOrientation g.orientation (vsub gyroscope g.gyroscopeBias) t }) ∧
    (gyroscope = f.gyroscopeBias →
      (f.step gyroscope (vscaleBy (f.orientation.inverse.act f.upwardReference) s) (field.map fun c =>
        f.orientation.inverse.act (vadd (vscaleBy f.northReference c.1) (vscaleBy f.upwardReference c.2))) t).1 = f) ∧
    (gyroscope = g.gyroscopeBias →
      (g.step gyroscope (vscaleBy (g.orientation.inverse.act g.upwardReference) s) (field.map fun c =>
        g.orientation.inverse.act (vadd (vscaleBy g.northReference c.1) (vscaleBy g.upwardReference c.2))) t).1 = g) := by
  have key : ∀ (o : SO3 ℝ) (ho : o.quaternion.IsUnit) (u n : Fin 3 → ℝ) (hun : Orthonormal2 u n),
      attitudeCorrection o (vscaleBy (o.inverse.act u) s) (field.map fun c =>
        o.inverse.act (vadd (vscaleBy n c.1) (vscaleBy u c.2))) u n = 0 := by
    intro o ho u n hun
    refine correction_agree o ho u n hun s hs _ fun v hv => ?_
    cases hc : field with
    | none => rw [hc] at hv; cases hv
    | some c =>
      rw [hc] at hv
      exact ⟨c.1, c.2, hfield c hc, (Option.some.inj hv).symm⟩
  have z1 : ∀ b : Fin 3 → ℝ, ∀ k c : ℝ, vsub b (vscaleBy (vscaleBy 0 k) c) = b := by
    intro b k c; funext i; simp [vsub, vscaleBy]
  have z2 : ∀ b : Fin 3 → ℝ, ∀ k : ℝ, vadd b (vscaleBy 0 k) = b := by
    intro b k; funext i; simp [vadd, vscaleBy]
  have A : (f.step gyroscope (vscaleBy (f.orientation.inverse.act f.upwardReference) s) (field.map fun c =>
        f.orientation.inverse.act (vadd (vscaleBy f.northReference c.1) (vscaleBy f.upwardReference c.2))) t).1 =
      { f with orientation := steppedOrientation f.orientation (vsub gyroscope f.gyroscopeBias) t } := by
    rw [MahonyFilter.step_real, key _ hf _ _ hfr, z1, z2]
  have B : (g.step gyroscope (vscaleBy (g.orientation.inverse.act g.upwardReference) s) (field.map fun c =>
        g.orientation.inverse.act (vadd (vscaleBy g.northReference c.1) (vscaleBy g.upwardReference c.2))) t).1 =
      { g with orientation := steppedOrientation g.orientation (vsub gyroscope g.gyroscopeBias) t } := by
    rw [MadgwickFilter.step_real, key _ hg _ _ hgr, vtryNormalized_none]
    have e : ((none : Option (Fin 3 → ℝ)).getD fun _ => 0) = 0 := rfl
    simp only [e, z1, z2]
  have z3 : ∀ b : Fin 3 → ℝ, vsub b b = 0 := by intro b; funext i; simp [vsub]
  refine ⟨A, B, fun h => ?_, fun h => ?_⟩
  · rw [A, h, z3, steppedOrientation_still _ hf]
  · rw [B, h, z3, steppedOrientation_still _ hg]

/-! ### Finding level -/

/-- How far the measured push is from the estimated upward direction, as an angle. -/
noncomputable def tilt (o : SO3 ℝ) (accelerometer upward : Fin 3 → ℝ) : ℝ :=
  Real.arccos (vdot (vnormalized accelerometer) (o.inverse.act upward))

theorem vdot_unit_bounds {a b : Fin 3 → ℝ} (ha : vdot a a = 1) (hb : vdot b b = 1) :
    -1 ≤ vdot a b ∧ vdot a b ≤ 1 := by
  rw [vdot3] at ha hb ⊢
  constructor
  · nlinarith [sq_nonneg (a 0 + b 0), sq_nonneg (a 1 + b 1), sq_nonneg (a 2 + b 2)]
  · nlinarith [sq_nonneg (a 0 - b 0), sq_nonneg (a 1 - b 1), sq_nonneg (a 2 - b 2)]

theorem vnorm_cross {a b : Fin 3 → ℝ} (ha : vdot a a = 1) (hb : vdot b b = 1) :
    vnorm (cross a b) = Real.sin (Real.arccos (vdot a b)) := by
  rw [Real.sin_arccos, vnorm, real_sqrt, vnormSquared]
  congr 1
  rw [vdot3] at ha hb ⊢
  rw [vdot3]
  simp [cross]
  linear_combination (b 0 * b 0 + b 1 * b 1 + b 2 * b 2) * ha + hb

theorem vnorm_vscaleBy (v : Fin 3 → ℝ) (k : ℝ) : vnorm (vscaleBy v k) = |k| * vnorm v := by
  rw [vnorm, vnorm, real_sqrt, real_sqrt, vnormSquared, vnormSquared]
  have : vdot (vscaleBy v k) (vscaleBy v k) = k * k * vdot v v := by
    rw [vdot3, vdot3]; simp only [vscaleBy]; ring
  rw [this, Real.sqrt_mul (mul_self_nonneg k), Real.sqrt_mul_self_eq_abs]

/-- Turning by a positive multiple of the correction takes the measured push toward the estimate along the great
circle. -/
theorem align_step (o : SO3 ℝ) (ho : o.quaternion.IsUnit) (m u : Fin 3 → ℝ) (hm : vdot m m = 1) (hu : vdot u u = 1)
    (k : ℝ) (hk : 0 ≤ k) (hbig : 30 / 2 ^ 52 ≤ k * vnorm (cross m (o.inverse.act u))) :
    vdot m (((o.compose (SO3.exp (vscaleBy (cross m (o.inverse.act u)) k))).normalized).inverse.act u) =
      Real.cos (Real.arccos (vdot m (o.inverse.act u)) - k * vnorm (cross m (o.inverse.act u))) ∧
    (o.compose (SO3.exp (vscaleBy (cross m (o.inverse.act u)) k))).normalized.quaternion.IsUnit := by
  have hoi := (so3_group o o o ho ho 0 0).2.1
  have he : vdot (o.inverse.act u) (o.inverse.act u) = 1 := by
    rw [(so3_group o.inverse o o hoi ho u u).2.2.2.2.2.2.2.2.2.2.2.1, hu]
  have hs := vnorm_cross hm he
  have hb := vdot_unit_bounds hm he
  set e := o.inverse.act u with hedef
  set φ := vscaleBy (cross m e) k with hφ
  have hn : vnorm φ = k * vnorm (cross m e) := by rw [hφ, vnorm_vscaleBy, abs_of_nonneg hk]
  have hbig' : 30 / 2 ^ 52 ≤ vnorm φ := by rw [hn]; exact hbig
  obtain ⟨hunit, hax⟩ := (exp_spec φ).1 hbig'
  have hcomp : (o.compose (SO3.exp φ)).quaternion.IsUnit := (so3_group o (SO3.exp φ) o ho hunit 0 0).1
  have hnorm : (o.compose (SO3.exp φ)).normalized = o.compose (SO3.exp φ) := by
    rw [SO3.normalized, quat_normalized_unit _ hcomp]
  rw [hnorm]
  refine ⟨?_, hcomp⟩
  have hcpos : 0 < vnorm (cross m e) := by
    by_contra h
    have : vnorm (cross m e) = 0 := le_antisymm (not_lt.1 h) (vnorm_nonneg _)
    rw [this, mul_zero] at hbig
    norm_num at hbig
  have hkpos : 0 < k := by
    rcases hk.lt_or_eq with h | h
    · exact h
    · rw [← h, zero_mul] at hbig; norm_num at hbig
  have hact : vdot m ((o.compose (SO3.exp φ)).inverse.act u) = vdot ((SO3.exp φ).act m) e := by
    rw [← (so3_group (SO3.exp φ) o o hunit ho m ((o.compose (SO3.exp φ)).inverse.act u)).2.2.2.2.2.2.2.2.2.2.2.1]
    congr 1
    rw [hedef]
    have h1 := (so3_group o (SO3.exp φ) o ho hunit ((o.compose (SO3.exp φ)).inverse.act u) 0).2.2.2.2.2.2.2.1
    rw [(so3_group (o.compose (SO3.exp φ)) o o hcomp ho u 0).2.2.2.2.2.2.2.2.2.2.1] at h1
    conv_rhs => rw [h1]
    rw [(so3_group o o o ho ho _ 0).2.2.2.2.2.2.2.2.2.1]
  rw [hact]
  have hrod := (fromAxisAngle_rodrigues φ (vnorm φ) (lt_of_lt_of_le (by norm_num) hbig') m).2.1
  have : (SO3.exp φ).act m = (Quat.fromAxisAngle φ (vnorm φ)).transformPoint m := by rw [← hax]; rfl
  rw [this, hrod]
  have hnφ : vnormalized φ = vdivBy (cross m e) (vnorm (cross m e)) := by
    funext i
    show φ i / vnorm φ = cross m e i / vnorm (cross m e)
    rw [hn, hφ]
    simp only [vscaleBy]
    field_simp
  rw [hnφ, ← hn, Real.cos_sub, Real.cos_arccos hb.1 hb.2, ← hs]
  set s := vnorm (cross m e) with hsdef
  have hss : s * s = 1 - vdot m e * vdot m e := by
    rw [hsdef, vnorm_sq]
    rw [vdot3] at hm he ⊢
    rw [vdot3]
    simp [cross]
    linear_combination (e 0 * e 0 + e 1 * e 1 + e 2 * e 2) * hm + he
  generalize Real.cos (vnorm φ) = c
  generalize Real.sin (vnorm φ) = σ
  clear_value s e
  have h0 : vdot (vdivBy (cross m e) s) m = 0 := by
    rw [vdot3]; simp [vdivBy, cross]; field_simp; ring
  rw [h0, mul_zero]
  have h2 : vdot (cross (vdivBy (cross m e) s) m) e = s := by
    have : vdot (cross (vdivBy (cross m e) s) m) e = (1 - vdot m e * vdot m e) / s := by
      rw [vdot3] at hm he ⊢
      rw [vdot3]
      simp [vdivBy, cross]
      field_simp
      linear_combination (e 0 * e 0 + e 1 * e 1 + e 2 * e 2) * hm + he
    rw [this, ← hss]; field_simp
  have h3 : vdot (vadd (vadd (vscaleBy m c) (vscaleBy (cross (vdivBy (cross m e) s) m) σ))
      (vscaleBy (vdivBy (cross m e) s) 0)) e = c * vdot m e + σ * vdot (cross (vdivBy (cross m e) s) m) e := by
    rw [vdot3, vdot3, vdot3]; simp only [vadd, vscaleBy]; ring
  rw [h3, h2]
  ring

theorem correction_none (o : SO3 ℝ) (a u n : Fin 3 → ℝ) (ha : a ≠ 0) :
    attitudeCorrection o a none u n = cross (vnormalized a) (o.inverse.act u) := by
  unfold attitudeCorrection gravityCorrection
  rw [vtryNormalized_some ha]
  funext i
  simp [vadd]

theorem tilt_bounds (o : SO3 ℝ) (a u : Fin 3 → ℝ) : 0 ≤ tilt o a u ∧ tilt o a u ≤ Real.pi :=
  ⟨Real.arccos_nonneg _, Real.arccos_le_pi _⟩

theorem arccos_cos_abs {x : ℝ} (h : |x| ≤ Real.pi) : Real.arccos (Real.cos x) = |x| := by
  rw [← Real.cos_abs, Real.arccos_cos (abs_nonneg _) h]

theorem inverse_act_unit (o : SO3 ℝ) (ho : o.quaternion.IsUnit) (u : Fin 3 → ℝ) (hu : vdot u u = 1) :
    vdot (o.inverse.act u) (o.inverse.act u) = 1 := by
  rw [(so3_group o.inverse o o ((so3_group o o o ho ho 0 0).2.1) ho u u).2.2.2.2.2.2.2.2.2.2.2.1, hu]

theorem sin_tilt (o : SO3 ℝ) (ho : o.quaternion.IsUnit) (a u : Fin 3 → ℝ) (ha : a ≠ 0) (hu : vdot u u = 1) :
    vnorm (cross (vnormalized a) (o.inverse.act u)) = Real.sin (tilt o a u) :=
  vnorm_cross (vnormalized_unit ha) (inverse_act_unit o ho u hu)

theorem tilt_step (o : SO3 ℝ) (ho : o.quaternion.IsUnit) (a u : Fin 3 → ℝ) (ha : a ≠ 0) (hu : vdot u u = 1)
    (k : ℝ) (hk : 0 ≤ k) (hbig : 30 / 2 ^ 52 ≤ k * Real.sin (tilt o a u)) (hpi : k * Real.sin (tilt o a u) ≤ Real.pi)
    (r : Fin 3 → ℝ) (t : ℝ)
    (hr : vscaleBy r t = vscaleBy (cross (vnormalized a) (o.inverse.act u)) k) :
    tilt (steppedOrientation o r t) a u = |tilt o a u - k * Real.sin (tilt o a u)| := by
  have hs := sin_tilt o ho a u ha hu
  have h := (align_step o ho (vnormalized a) u (vnormalized_unit ha) hu k hk (by rw [hs]; exact hbig)).1
  rw [← hr, hs] at h
  have hb := tilt_bounds o a u
  have hb1 : 0 ≤ k * Real.sin (tilt o a u) := le_trans (by norm_num) hbig
  rw [show tilt (steppedOrientation o r t) a u = Real.arccos (vdot (vnormalized a)
    ((attitudeStep o r t).normalized.inverse.act u)) from rfl, attitudeStep, h]
  refine arccos_cos_abs ?_
  rw [show Real.arccos (vdot (vnormalized a) (o.inverse.act u)) = tilt o a u from rfl, abs_le]
  constructor <;> linarith

/-- C93. A still body, push sensor alone: with `k` the proportional gain plus the integral gain's share of the step,
times the timestep, one Mahony step takes the lean from `θ` to exactly `θ - k sin θ`, which is smaller and not
negative. Beyond steps that turn by less than `30 / 2^52`. -/
theorem mahony_finds_level (f : MahonyFilter ℝ) (hf : f.orientation.quaternion.IsUnit)
    (hu : vdot f.upwardReference f.upwardReference = 1) (a : Fin 3 → ℝ) (ha : a ≠ 0) (t : ℝ)
    (hk : 0 ≤ (f.proportionalGain + f.integralGain * t) * t) (hk1 : (f.proportionalGain + f.integralGain * t) * t ≤ 1)
    (hbig : 30 / 2 ^ 52 ≤ (f.proportionalGain + f.integralGain * t) * t *
      Real.sin (tilt f.orientation a f.upwardReference)) :
    let θ := tilt f.orientation a f.upwardReference
    let θ' := tilt (f.step f.gyroscopeBias a none t).1.orientation a f.upwardReference
    θ' = θ - (f.proportionalGain + f.integralGain * t) * t * Real.sin θ ∧ 0 ≤ θ' ∧ θ' < θ := by
  intro θ θ'
  have hθ := tilt_bounds f.orientation a f.upwardReference
  have hs0 : 0 ≤ Real.sin θ := Real.sin_nonneg_of_nonneg_of_le_pi hθ.1 hθ.2
  have hsle : Real.sin θ ≤ θ := Real.sin_le hθ.1
  have hpos : 0 < (f.proportionalGain + f.integralGain * t) * t * Real.sin θ := lt_of_lt_of_le (by norm_num) hbig
  have hle : (f.proportionalGain + f.integralGain * t) * t * Real.sin θ ≤ θ :=
    (mul_le_of_le_one_left hs0 hk1).trans hsle
  have h := tilt_step f.orientation hf a f.upwardReference ha hu _ hk hbig (hle.trans hθ.2)
    (vadd (vsub f.gyroscopeBias (vsub f.gyroscopeBias (vscaleBy (vscaleBy
            (attitudeCorrection f.orientation a none f.upwardReference f.northReference) f.integralGain) t)))
            (vscaleBy (attitudeCorrection f.orientation a none f.upwardReference f.northReference)
              f.proportionalGain)) t (by
      rw [correction_none _ _ _ _ ha]
      funext i
      simp only [vscaleBy, vadd, vsub]
      ring)
  have he : θ' = θ - (f.proportionalGain + f.integralGain * t) * t * Real.sin θ := by
    show tilt (f.step f.gyroscopeBias a none t).1.orientation a f.upwardReference = _
    rw [MahonyFilter.step_real]
    refine h.trans (abs_of_nonneg (by linarith))
  exact ⟨he, by rw [he]; linarith, by rw [he]; linarith⟩

/-- C93. With no offset learned, `n` readings of a still body that leans by at most a quarter turn shrink the lean
geometrically, until a step would turn by less than `30 / 2^52`. -/
theorem mahony_settles (f : MahonyFilter ℝ) (hf : f.orientation.quaternion.IsUnit)
    (hu : vdot f.upwardReference f.upwardReference = 1) (hi : f.integralGain = 0) (a : Fin 3 → ℝ) (ha : a ≠ 0) (t : ℝ)
    (hk : 0 ≤ f.proportionalGain * t) (hk1 : f.proportionalGain * t ≤ 1)
    (hθ : tilt f.orientation a f.upwardReference ≤ Real.pi / 2) (n : ℕ)
    (hbig : ∀ j < n, 30 / 2 ^ 52 ≤ f.proportionalGain * t *
      Real.sin (tilt (f.after (List.replicate j (f.gyroscopeBias, a, none, t))).orientation a f.upwardReference)) :
    tilt (f.after (List.replicate n (f.gyroscopeBias, a, none, t))).orientation a f.upwardReference ≤
      (1 - 2 / Real.pi * (f.proportionalGain * t)) ^ n * tilt f.orientation a f.upwardReference := by
  induction n generalizing f with
  | zero => simp [MahonyFilter.after]
  | succ n ih =>
    have h0 := hbig 0 (Nat.succ_pos _)
    have hstep := mahony_finds_level f hf hu a ha t (by simpa [hi] using hk) (by simpa [hi] using hk1)
      (by simpa [hi, MahonyFilter.after] using h0)
    dsimp only at hstep
    obtain ⟨e, p, l⟩ := hstep
    have hb := tilt_bounds f.orientation a f.upwardReference
    have hjordan : 2 / Real.pi * tilt f.orientation a f.upwardReference ≤
        Real.sin (tilt f.orientation a f.upwardReference) := Real.mul_le_sin hb.1 hθ
    have hne : (f.step f.gyroscopeBias a none t).1.gyroscopeBias = f.gyroscopeBias := by
      rw [MahonyFilter.step_real]; funext i; simp [vsub, vscaleBy, hi]
    have hup : (f.step f.gyroscopeBias a none t).1.upwardReference = f.upwardReference := by
      rw [MahonyFilter.step_real]
    have hpg : (f.step f.gyroscopeBias a none t).1.proportionalGain = f.proportionalGain := by
      rw [MahonyFilter.step_real]
    have hig : (f.step f.gyroscopeBias a none t).1.integralGain = f.integralGain := by
      rw [MahonyFilter.step_real]
    have hfu : (f.step f.gyroscopeBias a none t).1.orientation.quaternion.IsUnit := by
      rw [MahonyFilter.step_real]; exact steppedOrientation_unit _ hf _ _
    have hcons : ∀ j, f.after (List.replicate (j + 1) (f.gyroscopeBias, a, none, t)) =
        (f.step f.gyroscopeBias a none t).1.after (List.replicate j (f.gyroscopeBias, a, none, t)) := fun j => rfl
    have hI := ih (f.step f.gyroscopeBias a none t).1 hfu (by rw [hup]; exact hu) (by rw [hig]; exact hi)
      (by rw [hpg]; exact hk) (by rw [hpg]; exact hk1) (by rw [hup]; linarith) (by
        intro j hj
        rw [hpg, hup, hne, ← hcons]
        exact hbig (j + 1) (by omega))
    rw [hup, hne, hpg] at hI
    rw [hcons]
    have hq : 0 ≤ 1 - 2 / Real.pi * (f.proportionalGain * t) := by
      have : 2 / Real.pi ≤ 1 := by rw [div_le_one Real.pi_pos]; exact Real.two_le_pi
      have := mul_le_one₀ this hk hk1
      linarith
    refine hI.trans ?_
    rw [pow_succ, mul_assoc]
    refine mul_le_mul_of_nonneg_left ?_ (pow_nonneg hq n)
    rw [e, hi]
    have := mul_le_mul_of_nonneg_left hjordan hk
    simp only [zero_mul, add_zero]
    linarith

theorem cross_zero_of_sin {o : SO3 ℝ} (ho : o.quaternion.IsUnit) {a u : Fin 3 → ℝ} (ha : a ≠ 0) (hu : vdot u u = 1)
    (h : Real.sin (tilt o a u) = 0) : cross (vnormalized a) (o.inverse.act u) = 0 := by
  by_contra hc
  have := vnorm_pos hc
  rw [sin_tilt o ho a u ha hu, h] at this
  exact lt_irrefl _ this

/-- C93. A still body, push sensor alone: one Madgwick step takes the lean from `θ` strictly between level and upside
down to exactly `|θ - w|`, with `w` the correction gain plus the offset gain's share of the step, times the timestep;
level and upside down are left alone. -/
theorem madgwick_finds_level (f : MadgwickFilter ℝ) (hf : f.orientation.quaternion.IsUnit)
    (hu : vdot f.upwardReference f.upwardReference = 1) (a : Fin 3 → ℝ) (ha : a ≠ 0) (t : ℝ)
    (hbig : 30 / 2 ^ 52 ≤ (f.correctionGain + f.biasGain * t) * t)
    (hpi : (f.correctionGain + f.biasGain * t) * t ≤ Real.pi) :
    let θ := tilt f.orientation a f.upwardReference
    let f' := (f.step f.gyroscopeBias a none t).1
    (0 < θ → θ < Real.pi → tilt f'.orientation a f.upwardReference = |θ - (f.correctionGain + f.biasGain * t) * t|) ∧
    (θ = 0 ∨ θ = Real.pi → f' = f) := by
  intro θ f'
  have hθ := tilt_bounds f.orientation a f.upwardReference
  constructor
  · intro h0 h1
    have hsin : 0 < Real.sin θ := Real.sin_pos_of_pos_of_lt_pi h0 h1
    have hs := sin_tilt f.orientation hf a f.upwardReference ha hu
    have hc : cross (vnormalized a) (f.orientation.inverse.act f.upwardReference) ≠ 0 := by
      intro hc
      rw [hc] at hs
      have : vnorm (0 : Fin 3 → ℝ) = 0 := by rw [vnorm, real_sqrt, vnormSquared, vdot3]; simp
      rw [this] at hs
      exact hsin.ne' hs.symm
    have hkk : (f.correctionGain + f.biasGain * t) * t / Real.sin θ * Real.sin θ =
        (f.correctionGain + f.biasGain * t) * t := by field_simp
    show tilt (f.step f.gyroscopeBias a none t).1.orientation a f.upwardReference = _
    rw [MadgwickFilter.step_real, correction_none _ _ _ _ ha, vtryNormalized_some hc]
    refine (tilt_step f.orientation hf a f.upwardReference ha hu
      ((f.correctionGain + f.biasGain * t) * t / Real.sin θ)
      (div_nonneg (le_trans (by norm_num) hbig) hsin.le) (by rw [hkk]; exact hbig) (by rw [hkk]; exact hpi) _ _ ?_).trans
      (by rw [hkk])
    funext i
    have hv : vnormalized (cross (vnormalized a) (f.orientation.inverse.act f.upwardReference)) i =
      cross (vnormalized a) (f.orientation.inverse.act f.upwardReference) i / Real.sin θ := by
      rw [← hs]; rfl
    simp only [Option.getD_some, vscaleBy, vadd, vsub, hv]
    ring
  · intro h
    have hsin : Real.sin θ = 0 := by rcases h with h | h <;> rw [h] <;> simp
    show (f.step f.gyroscopeBias a none t).1 = f
    rw [MadgwickFilter.step_real, correction_none _ _ _ _ ha, cross_zero_of_sin hf ha hu hsin, vtryNormalized_none]
    have e : ((none : Option (Fin 3 → ℝ)).getD fun _ => 0) = 0 := rfl
    simp only [e]
    have z1 : ∀ k c : ℝ, vsub f.gyroscopeBias (vscaleBy (vscaleBy 0 k) c) = f.gyroscopeBias := by
      intro k c; funext i; simp [vsub, vscaleBy]
    have z2 : ∀ k : ℝ, vadd (vsub f.gyroscopeBias f.gyroscopeBias) (vscaleBy 0 k) = 0 := by
      intro k; funext i; simp [vadd, vsub, vscaleBy]
    rw [z1, z2, steppedOrientation_still _ hf]

/-- C93. Recovery takes a predictable time: learning no offset, from any lean short of upside down, `n` readings of a
still body leave a lean of at most what `n` steps of size `w` leave of it, or one step. -/
theorem madgwick_settles (f : MadgwickFilter ℝ) (hf : f.orientation.quaternion.IsUnit)
    (hu : vdot f.upwardReference f.upwardReference = 1) (hb : f.biasGain = 0) (a : Fin 3 → ℝ) (ha : a ≠ 0) (t : ℝ)
    (hbig : 30 / 2 ^ 52 ≤ f.correctionGain * t) (hpi : f.correctionGain * t < Real.pi)
    (hθ : tilt f.orientation a f.upwardReference < Real.pi) (n : ℕ) :
    tilt (f.after (List.replicate n (f.gyroscopeBias, a, none, t))).orientation a f.upwardReference ≤
      max (tilt f.orientation a f.upwardReference - n * (f.correctionGain * t)) (f.correctionGain * t) := by
  induction n generalizing f with
  | zero => simp [MadgwickFilter.after]
  | succ n ih =>
    obtain ⟨h1, h2⟩ := madgwick_finds_level f hf hu a ha t (by simpa [hb] using hbig) (by simpa [hb] using hpi.le)
    have hbd := tilt_bounds f.orientation a f.upwardReference
    have hw : 0 < f.correctionGain * t := lt_of_lt_of_le (by norm_num) hbig
    have hcons : f.after (List.replicate (n + 1) (f.gyroscopeBias, a, none, t)) =
        (f.step f.gyroscopeBias a none t).1.after (List.replicate n (f.gyroscopeBias, a, none, t)) := rfl
    have hne : (f.step f.gyroscopeBias a none t).1.gyroscopeBias = f.gyroscopeBias := by
      rw [MadgwickFilter.step_real]; funext i; simp [vsub, vscaleBy, hb]
    have hup : (f.step f.gyroscopeBias a none t).1.upwardReference = f.upwardReference := by
      rw [MadgwickFilter.step_real]
    have hcg : (f.step f.gyroscopeBias a none t).1.correctionGain = f.correctionGain := by
      rw [MadgwickFilter.step_real]
    have hbg : (f.step f.gyroscopeBias a none t).1.biasGain = f.biasGain := by
      rw [MadgwickFilter.step_real]
    have hfu : (f.step f.gyroscopeBias a none t).1.orientation.quaternion.IsUnit := by
      rw [MadgwickFilter.step_real]; exact steppedOrientation_unit _ hf _ _
    have hnew : tilt (f.step f.gyroscopeBias a none t).1.orientation a f.upwardReference ≤
        max (tilt f.orientation a f.upwardReference - f.correctionGain * t) (f.correctionGain * t) ∧
        tilt (f.step f.gyroscopeBias a none t).1.orientation a f.upwardReference < Real.pi := by
      rcases hbd.1.lt_or_eq with hp | hz
      · rw [h1 hp hθ, hb, zero_mul, add_zero]
        constructor
        · rw [abs_le']
          exact ⟨le_max_left _ _, le_trans (by linarith) (le_max_right _ _)⟩
        · rw [abs_lt]; constructor <;> linarith
      · rw [h2 (Or.inl hz.symm), ← hz]
        exact ⟨le_trans hw.le (le_max_right _ _), Real.pi_pos⟩
    have hI := ih (f.step f.gyroscopeBias a none t).1 hfu (by rw [hup]; exact hu) (by rw [hbg]; exact hb)
      (by rw [hcg]; exact hbig) (by rw [hcg]; exact hpi) (by rw [hup]; exact hnew.2)
    rw [hup, hne, hcg] at hI
    rw [hcons]
    refine hI.trans (max_le ?_ (le_max_right _ _))
    have hn0 : (0 : ℝ) ≤ n * (f.correctionGain * t) := mul_nonneg (Nat.cast_nonneg n) hw.le
    rcases le_max_iff.1 hnew.1 with h | h
    · refine le_trans ?_ (le_max_left _ _)
      push_cast
      linarith
    · refine le_trans ?_ (le_max_right _ _)
      linarith

/-- C93. Whatever the push sensor and magnetometer say, the rate the Madgwick filter turns the facing by differs from
the turn rate less the offset by at most the correction gain, and the offset moves by at most the offset gain times
the timestep. -/
theorem madgwick_bounded_nudge (f : MadgwickFilter ℝ) (gyroscope a : Fin 3 → ℝ) (m : Option (Fin 3 → ℝ)) (t : ℝ) :
    ∃ rate : Fin 3 → ℝ, (f.step gyroscope a m t).1.orientation = steppedOrientation f.orientation rate t ∧
      vnorm (vsub rate (vsub gyroscope (f.step gyroscope a m t).1.gyroscopeBias)) ≤ |f.correctionGain| ∧
      vnorm (vsub (f.step gyroscope a m t).1.gyroscopeBias f.gyroscopeBias) ≤ |f.biasGain * t| := by
  rw [MadgwickFilter.step_real]
  dsimp only
  have hd : vnorm ((vtryNormalized (attitudeCorrection f.orientation a m f.upwardReference f.northReference)).getD
      fun _ => 0) ≤ 1 := by
    by_cases hc : attitudeCorrection f.orientation a m f.upwardReference f.northReference = 0
    · rw [hc, vtryNormalized_none]
      show vnorm (0 : Fin 3 → ℝ) ≤ 1
      have : vnorm (0 : Fin 3 → ℝ) = 0 := by rw [vnorm, real_sqrt, vnormSquared, vdot3]; simp
      rw [this]; norm_num
    · rw [vtryNormalized_some hc]
      show vnorm (vnormalized _) ≤ 1
      rw [vnorm, real_sqrt, vnormSquared, vnormalized_unit hc, Real.sqrt_one]
  set d := (vtryNormalized (attitudeCorrection f.orientation a m f.upwardReference f.northReference)).getD
      fun _ => 0
  refine ⟨_, rfl, ?_, ?_⟩
  · have e : vsub (vadd (vsub gyroscope (vsub f.gyroscopeBias (vscaleBy (vscaleBy d f.biasGain) t)))
        (vscaleBy d f.correctionGain)) (vsub gyroscope (vsub f.gyroscopeBias (vscaleBy (vscaleBy d f.biasGain) t))) =
        vscaleBy d f.correctionGain := by
      funext i; simp only [vsub, vadd, vscaleBy]; ring
    rw [e, vnorm_vscaleBy]
    exact mul_le_of_le_one_right (abs_nonneg _) hd
  · have e : vsub (vsub f.gyroscopeBias (vscaleBy (vscaleBy d f.biasGain) t)) f.gyroscopeBias =
        vscaleBy d (-(f.biasGain * t)) := by
      funext i; simp only [vsub, vscaleBy]; ring
    rw [e, vnorm_vscaleBy, abs_neg]
    exact mul_le_of_le_one_right (abs_nonneg _) hd

/-- C93. New references are taken only when they name two directions, and are then made unit vectors at right angles
with the given upward direction kept and north turned within the plane of both; otherwise the old ones stay. -/
theorem reference_directions (u0 n0 up north : Fin 3 → ℝ) :
    (cross up north ≠ 0 → ∃ u n, referenceDirections u0 n0 up north = (u, n) ∧ Orthonormal2 u n ∧
      u = vnormalized up ∧ 0 < vdot n north ∧ ∃ p q : ℝ, north = vadd (vscaleBy u p) (vscaleBy n q)) ∧
    (cross up north = 0 → referenceDirections u0 n0 up north = (u0, n0)) := by
  have hcz : ∀ (w : Fin 3 → ℝ), cross 0 w = 0 := fun w => by apply vec3_ext <;> simp [cross]
  constructor
  · intro hc
    have hu : up ≠ 0 := fun h => hc (by rw [h, hcz])
    have hU := vnormalized_unit hu
    have hp := vnorm_pos hu
    have hupi : ∀ i, up i = vnorm up * vnormalized up i := fun i => by
      show up i = vnorm up * (up i / vnorm up); field_simp
    set u := vnormalized up
    set r := vsub north (vscaleBy u (vdot north u)) with hr
    have hri : ∀ i, north i = r i + u i * vdot north u := fun i => by rw [hr]; simp only [vsub, vscaleBy]; ring
    have hrne : r ≠ 0 := by
      intro h0
      apply hc
      have h1 := hri 0; have h2 := hri 1; have h3 := hri 2
      rw [h0] at h1 h2 h3
      simp only [Pi.zero_apply, zero_add] at h1 h2 h3
      apply vec3_ext <;> simp only [cross, hupi, h1, h2, h3] <;> simp <;> ring
    have hur : vdot u r = 0 := by
      rw [hr, vdot3]
      have := vdot3 north u
      rw [vdot3] at hU
      simp only [vsub, vscaleBy]
      rw [this]
      linear_combination (-(north 0 * u 0 + north 1 * u 1 + north 2 * u 2)) * hU
    have hnr : ∀ i, vnormalized r i = r i / vnorm r := fun i => rfl
    have hrp := vnorm_pos hrne
    have hrr := vnorm_sq r
    refine ⟨u, vnormalized r, ?_, ⟨hU, vnormalized_unit hrne, ?_⟩, rfl, ?_, vdot north u, vnorm r, ?_⟩
    · unfold referenceDirections
      rw [vtryNormalized_some hu]
      dsimp only
      rw [show vtryNormalized (vsub north (vscaleBy (vnormalized up) (vdot north (vnormalized up)))) = _ from
        vtryNormalized_some hrne]
    · rw [vdot3] at hur ⊢
      rw [hnr, hnr, hnr]
      field_simp
      linarith
    · have e : vdot (vnormalized r) north = vnorm r := by
        have : vdot r north = vnorm r * vnorm r := by
          rw [hrr]
          have h1 := hri 0; have h2 := hri 1; have h3 := hri 2
          rw [vdot3] at hur ⊢
          rw [vdot3 r r]
          generalize vdot north u = c at *
          rw [h1, h2, h3]
          linear_combination c * hur
        rw [vdot3] at this ⊢
        rw [hnr, hnr, hnr]
        field_simp
        linarith
      rw [e]; exact hrp
    · funext i
      simp only [vadd, vscaleBy, hnr, hri i]
      field_simp
      ring
  · intro hc
    unfold referenceDirections
    by_cases hu : up = 0
    · rw [hu, vtryNormalized_none]
    · rw [vtryNormalized_some hu]
      dsimp only
      have hU := vnormalized_unit hu
      have hp := vnorm_pos hu
      have hupi : ∀ i, up i = vnorm up * vnormalized up i := fun i => by
        show up i = vnorm up * (up i / vnorm up); field_simp
      set u := vnormalized up
      have hz : vsub north (vscaleBy u (vdot north u)) = 0 := by
        have c0 := congrFun hc 0; have c1 := congrFun hc 1; have c2 := congrFun hc 2
        simp only [cross, hupi] at c0 c1 c2
        simp at c0 c1 c2
        have d0 : u 1 * north 2 - u 2 * north 1 = 0 := by
          have : vnorm up * (u 1 * north 2 - u 2 * north 1) = 0 := by linarith
          exact (mul_eq_zero.1 this).resolve_left hp.ne'
        have d1 : u 2 * north 0 - u 0 * north 2 = 0 := by
          have : vnorm up * (u 2 * north 0 - u 0 * north 2) = 0 := by linarith
          exact (mul_eq_zero.1 this).resolve_left hp.ne'
        have d2 : u 0 * north 1 - u 1 * north 0 = 0 := by
          have : vnorm up * (u 0 * north 1 - u 1 * north 0) = 0 := by linarith
          exact (mul_eq_zero.1 this).resolve_left hp.ne'
        rw [vdot3] at hU
        have e := vdot3 north u
        apply vec3_ext <;> simp only [vsub, vscaleBy, e, Pi.zero_apply]
        · linear_combination (-north 0) * hU - u 1 * d2 + u 2 * d1
        · linear_combination (-north 1) * hU + u 0 * d2 - u 2 * d0
        · linear_combination (-north 2) * hU - u 0 * d1 + u 1 * d0
      rw [hz, vtryNormalized_none]

/-! ### Integrating a turn rate -/

theorem rotation_laws_compose (p q : SO3 ℝ) (v : Fin 3 → ℝ) : (p.compose q).act v = p.act (q.act v) := by
  apply vec3_ext <;> simp [SO3.act, SO3.compose, transformPoint_explicit, Quat.mul] <;> ring

theorem so3_act_vscaleBy (p : SO3 ℝ) (v : Fin 3 → ℝ) (k : ℝ) : p.act (vscaleBy v k) = vscaleBy (p.act v) k := by
  apply vec3_ext <;> simp [SO3.act, transformPoint_explicit, vscaleBy] <;> ring

section Shape

variable {T : Type} [Zero T] [One T] [NatCast T] [Add T] [Sub T] [Neg T] [Mul T] [Div T] [LT T] [LE T] [BEq T]
  [DecidableLT T] [DecidableLE T] [Max T] [Min T] [Fns T]

theorem integrateAttitudeLoop_shape (rateAt : T → SO3 T → Fin 3 → T) (h : T) (n : ℕ) (t : T) (o : SO3 T) :
    (∀ r, (integrateAttitudeLoop rateAt h n t o).2 = .ok r →
      (integrateAttitudeLoop rateAt h n t o).1.length = n ∧
      ((integrateAttitudeLoop rateAt h n t o).1.getLastD (t, o)).2 = r) ∧
    (∀ e, (integrateAttitudeLoop rateAt h n t o).2 = .error e → e = .nonFinite ∧
      (integrateAttitudeLoop rateAt h n t o).1.length < n ∧
      ∃ i, Fns.isFinite (rateAt
          ((integrateAttitudeLoop rateAt h n t o).1.getLastD (t, o)).1
          ((integrateAttitudeLoop rateAt h n t o).1.getLastD (t, o)).2 i) = false ∨
        ∃ o', Fns.isFinite (rateAt
          (((integrateAttitudeLoop rateAt h n t o).1.getLastD (t, o)).1 + h * half) o' i) =
          false) := by
  have bad : ∀ v : Fin 3 → T, vecIsFinite v = false → ∃ i, Fns.isFinite (v i) = false := by
    intro v hv
    by_contra hc
    rw [(vecIsFinite_iff v).2 fun i => by
      by_contra h; exact hc ⟨i, Bool.not_eq_true _ ▸ h⟩] at hv
    cases hv
  induction n generalizing t o with
  | zero => exact ⟨fun r hr => ⟨rfl, by cases hr; rfl⟩, fun e he => by cases he⟩
  | succ n ih =>
    unfold integrateAttitudeLoop
    cases hs : integrateAttitudeStep rateAt h t o with
    | error e =>
      dsimp only
      refine ⟨fun r hr => by (cases hr), fun e' he => ?_⟩
      cases he
      unfold integrateAttitudeStep at hs
      dsimp only at hs
      split_ifs at hs with h1 h2
      · cases hs
        obtain ⟨i, hi⟩ := bad _ (by simpa using h1)
        exact ⟨rfl, by simp, i, Or.inl hi⟩
      · cases hs
        obtain ⟨i, hi⟩ := bad _ (by simpa using h2)
        exact ⟨rfl, by simp, i, Or.inr ⟨_, hi⟩⟩
    | ok next =>
      obtain ⟨i1, i2⟩ := ih next.1 next.2
      dsimp only
      refine ⟨fun r hr => ?_, fun e he => ?_⟩
      · obtain ⟨a, b⟩ := i1 r hr
        exact ⟨by simp [a], by rw [List.getLastD_cons]; exact b⟩
      · obtain ⟨a, b, i, c⟩ := i2 e he
        refine ⟨a, by simpa using b, i, ?_⟩
        rw [List.getLastD_cons]
        exact c

/-- C92. A timestep that is not finite or not positive is refused before anything is observed. Otherwise a success
shows exactly the start and one node per step, the last of which is what is returned; a failure is a rate that is not
finite at the last node shown, or half a step after it. -/
theorem integrate_attitude_shape (rateAt : T → SO3 T → Fin 3 → T) (t0 : T) (o : SO3 T) (h : T) (n : ℕ) :
    (Fns.isFinite h = false → integrateAttitude rateAt t0 o h n = ([], .error .nonFinite)) ∧
    (Fns.isFinite h = true → h ≤ 0 → integrateAttitude rateAt t0 o h n = ([], .error .nonPositiveTimestep)) ∧
    (Fns.isFinite h = true → ¬ h ≤ 0 → ∃ nodes, (integrateAttitude rateAt t0 o h n).1 = (t0, o) :: nodes ∧
      (∀ r, (integrateAttitude rateAt t0 o h n).2 = .ok r → nodes.length = n ∧
        (nodes.getLastD (t0, o)).2 = r) ∧
      (∀ e, (integrateAttitude rateAt t0 o h n).2 = .error e → e = .nonFinite ∧ nodes.length < n ∧
        ∃ i, Fns.isFinite (rateAt (nodes.getLastD (t0, o)).1
            (nodes.getLastD (t0, o)).2 i) = false ∨
          ∃ o', Fns.isFinite (rateAt ((nodes.getLastD (t0, o)).1 + h * half) o' i) =
            false)) := by
  refine ⟨fun h1 => ?_, fun h1 h2 => ?_, fun h1 h2 => ?_⟩
  · unfold integrateAttitude; rw [h1]; rfl
  · unfold integrateAttitude; rw [h1, if_neg (by simp), if_pos h2]
  · have e : integrateAttitude rateAt t0 o h n = ((t0, o) :: (integrateAttitudeLoop rateAt h n t0 o).1,
        (integrateAttitudeLoop rateAt h n t0 o).2) := by
      unfold integrateAttitude; rw [h1, if_neg (by simp), if_neg h2]
    rw [e]
    exact ⟨_, rfl, integrateAttitudeLoop_shape rateAt h n t0 o⟩

end Shape

theorem integrateAttitudeStep_real (rateAt : ℝ → SO3 ℝ → Fin 3 → ℝ) (h t : ℝ) (o : SO3 ℝ) :
    integrateAttitudeStep rateAt h t o = .ok (t + h, attitudeStep o
      (rateAt (t + h * half) (attitudeStep o (rateAt t o) (h * half))) h) := by
  unfold integrateAttitudeStep
  simp only [real_vecIsFinite, Bool.not_true, Bool.false_eq_true, if_false]

/-- The exponential along a fixed axis is the quaternion of half the angle. -/
theorem fromScaledAxis_along (ω : Fin 3 → ℝ) (a : ℝ) (h : 30 / 2 ^ 52 ≤ |a| * vnorm ω) :
    Quat.fromScaledAxis (vscaleBy ω a) = ⟨Real.cos (a * vnorm ω / 2), ω 0 * (Real.sin (a * vnorm ω / 2) / vnorm ω),
      ω 1 * (Real.sin (a * vnorm ω / 2) / vnorm ω), ω 2 * (Real.sin (a * vnorm ω / 2) / vnorm ω)⟩ := by
  have hn : vnorm (vscaleBy ω a) = |a| * vnorm ω := vnorm_vscaleBy ω a
  have hpos : 0 < |a| * vnorm ω := lt_of_lt_of_le (by norm_num) h
  have hw : 0 < vnorm ω := by
    rcases (vnorm_nonneg ω).lt_or_eq with h1 | h1
    · exact h1
    · rw [← h1, mul_zero] at hpos; exact absurd hpos (lt_irrefl _)
  have ha : a ≠ 0 := by rintro rfl; simp at hpos
  rw [fromScaledAxis_main (by rw [hn]; exact h), hn]
  rcases lt_or_gt_of_ne ha with h1 | h1
  · rw [abs_of_neg h1]
    have e : -a * vnorm ω / 2 = -(a * vnorm ω / 2) := by ring
    rw [e, Real.cos_neg, Real.sin_neg]
    apply Quat.ext <;> simp only [vscaleBy] <;> field_simp
  · rw [abs_of_pos h1]
    apply Quat.ext <;> simp only [vscaleBy] <;> field_simp

theorem along_mul (ω : Fin 3 → ℝ) (hw : 0 < vnorm ω) (x y : ℝ) :
    (Quat.mk (Real.cos x) (ω 0 * (Real.sin x / vnorm ω)) (ω 1 * (Real.sin x / vnorm ω))
      (ω 2 * (Real.sin x / vnorm ω))).mul (Quat.mk (Real.cos y) (ω 0 * (Real.sin y / vnorm ω))
      (ω 1 * (Real.sin y / vnorm ω)) (ω 2 * (Real.sin y / vnorm ω))) =
    Quat.mk (Real.cos (x + y)) (ω 0 * (Real.sin (x + y) / vnorm ω)) (ω 1 * (Real.sin (x + y) / vnorm ω))
      (ω 2 * (Real.sin (x + y) / vnorm ω)) := by
  have hs := vnorm_sq ω
  rw [vdot3] at hs
  rw [Real.cos_add, Real.sin_add]
  generalize Real.cos x = cx
  generalize Real.sin x = sx
  generalize Real.cos y = cy
  generalize Real.sin y = sy
  apply Quat.ext <;> simp only [Quat.mul] <;> field_simp
  · linear_combination (sx * sy) * hs
  all_goals ring

/-- C92. Turning along one axis adds up: two exponentials about the same axis compose to the exponential of the sum,
and turning back undoes the turn exactly, for turns beyond `30 / 2^52`. -/
theorem attitude_steps_add (o : SO3 ℝ) (ω : Fin 3 → ℝ) (a b : ℝ) (ha : 30 / 2 ^ 52 ≤ |a| * vnorm ω)
    (hb : 30 / 2 ^ 52 ≤ |b| * vnorm ω) :
    (30 / 2 ^ 52 ≤ |a + b| * vnorm ω → attitudeStep (attitudeStep o ω a) ω b = attitudeStep o ω (a + b)) ∧
    attitudeStep (attitudeStep o ω a) ω (-a) = o := by
  have hw : 0 < vnorm ω := by
    rcases (vnorm_nonneg ω).lt_or_eq with h1 | h1
    · exact h1
    · rw [← h1, mul_zero] at ha; norm_num at ha
  have A := fun p q r : Quat ℝ => (quaternion_algebra p q r).1
  constructor
  · intro hab
    simp only [attitudeStep, SO3.compose, SO3.exp]
    congr 1
    rw [A, fromScaledAxis_along ω a ha, fromScaledAxis_along ω b hb, fromScaledAxis_along ω _ hab, along_mul ω hw]
    congr 2 <;> ring_nf
  · simp only [attitudeStep, SO3.compose, SO3.exp]
    apply SO3.ext
    dsimp only
    rw [A, fromScaledAxis_along ω a ha, fromScaledAxis_along ω (-a) (by rw [abs_neg]; exact ha), along_mul ω hw]
    have e : a * vnorm ω / 2 + -a * vnorm ω / 2 = 0 := by ring
    rw [e]
    have := (quaternion_algebra o.quaternion o.quaternion o.quaternion).2.2.2.2.1
    simpa [Quat.identity] using this

theorem vscaleBy_vscaleBy (v : Fin 3 → ℝ) (a b : ℝ) : vscaleBy (vscaleBy v a) b = vscaleBy v (a * b) := by
  funext i; simp only [vscaleBy]; ring

/-- C92. For a turn rate along one axis that changes linearly with time, `p + q t` along `ω`, every node shown is at
the exact facing: the start turned by the integral of the rate, however many steps are taken. Each step must turn
forward by at least `30 / 2^52`. -/
theorem integrate_attitude_exact (ω : Fin 3 → ℝ) (p q t0 h : ℝ) (hh : 0 < h) (o : SO3 ℝ) (n : ℕ)
    (hbig : ∀ k < n, 30 / 2 ^ 52 ≤ (p + q * (t0 + (k + 1 / 2) * h)) * h * vnorm ω) :
    ∃ nodes r, integrateAttitude (fun t _ => vscaleBy ω (p + q * t)) t0 o h n = ((t0, o) :: nodes, .ok r) ∧
      nodes.length = n ∧ ∀ k (hk : k < nodes.length), (nodes[k]).1 = t0 + (k + 1) * h ∧
        (nodes[k]).2 = attitudeStep o ω (∫ t in t0..(t0 + (k + 1) * h), (p + q * t)) := by
  have hint : ∀ a b : ℝ, (∫ t in a..b, (p + q * t)) = p * (b - a) + q * (b ^ 2 - a ^ 2) / 2 := by
    intro a b
    rw [intervalIntegral.integral_add (by simp) (by apply Continuous.intervalIntegrable; fun_prop),
      intervalIntegral.integral_const_mul, integral_id, intervalIntegral.integral_const]
    simp; ring
  suffices H : ∀ n t0 o, (∀ k < n, 30 / 2 ^ 52 ≤ (p + q * (t0 + ((k : ℕ) + 1 / 2) * h)) * h * vnorm ω) →
      ∃ nodes r, integrateAttitudeLoop (fun t _ => vscaleBy ω (p + q * t)) h n t0 o = (nodes, .ok r) ∧
      nodes.length = n ∧ ∀ k (hk : k < nodes.length), (nodes[k]).1 = t0 + (k + 1) * h ∧
        30 / 2 ^ 52 ≤ (p * ((k + 1) * h) + q * ((t0 + (k + 1) * h) ^ 2 - t0 ^ 2) / 2) * vnorm ω ∧
        (nodes[k]).2 = attitudeStep o ω (p * ((k + 1) * h) + q * ((t0 + (k + 1) * h) ^ 2 - t0 ^ 2) / 2) by
    obtain ⟨nodes, r, e, hl, hk⟩ := H n t0 o hbig
    refine ⟨nodes, r, ?_, hl, fun k hkl => ⟨(hk k hkl).1, ?_⟩⟩
    · unfold integrateAttitude
      rw [e, if_neg (by simp [Fns.isFinite]), if_neg (not_le.2 hh)]
    · rw [(hk k hkl).2.2, hint]; congr 1; ring
  intro n
  induction n with
  | zero => exact fun t0 o _ => ⟨[], o, rfl, rfl, fun k hk => absurd hk (by simp)⟩
  | succ n ih =>
    intro t0 o hb
    unfold integrateAttitudeLoop
    rw [integrateAttitudeStep_real]
    dsimp only
    have h0 := hb 0 (Nat.succ_pos _)
    have e0 : attitudeStep o (vscaleBy ω (p + q * (t0 + h * half))) h =
        attitudeStep o ω (p * h + q * ((t0 + h) ^ 2 - t0 ^ 2) / 2) := by
      simp only [attitudeStep, vscaleBy_vscaleBy, half_real]
      congr 3; ring
    rw [e0]
    obtain ⟨nodes, r, e, hl, hk⟩ := ih (t0 + h) (attitudeStep o ω (p * h + q * ((t0 + h) ^ 2 - t0 ^ 2) / 2)) (by
      intro k hkn
      have := hb (k + 1) (by omega)
      push_cast at this
      convert this using 4
      ring)
    rw [e]
    have h1 : 30 / 2 ^ 52 ≤ (p * h + q * ((t0 + h) ^ 2 - t0 ^ 2) / 2) * vnorm ω := by
      convert h0 using 2
      push_cast; ring
    refine ⟨_, r, rfl, by simp [hl], fun k hkl => ?_⟩
    cases k with
    | zero =>
      simp only [List.getElem_cons_zero, Nat.cast_zero, zero_add, one_mul]
      exact ⟨trivial, h1, trivial⟩
    | succ k =>
      obtain ⟨a, b, c⟩ := hk k (by simpa using hkl)
      simp only [List.getElem_cons_succ]
      push_cast
      have es : p * ((k + 1 + 1) * h) + q * ((t0 + (k + 1 + 1) * h) ^ 2 - t0 ^ 2) / 2 =
          (p * h + q * ((t0 + h) ^ 2 - t0 ^ 2) / 2) +
            (p * ((k + 1) * h) + q * ((t0 + h + (k + 1) * h) ^ 2 - (t0 + h) ^ 2) / 2) := by ring
      have abspos : ∀ x : ℝ, 30 / 2 ^ 52 ≤ x * vnorm ω → 30 / 2 ^ 52 ≤ |x| * vnorm ω := fun x hx =>
        hx.trans (mul_le_mul_of_nonneg_right (le_abs_self x) (vnorm_nonneg ω))
      have hsum : 30 / 2 ^ 52 ≤ (p * ((k + 1 + 1) * h) + q * ((t0 + (k + 1 + 1) * h) ^ 2 - t0 ^ 2) / 2) * vnorm ω := by
        rw [es, add_mul]
        have : (0 : ℝ) ≤ 30 / 2 ^ 52 := by norm_num
        linarith
      refine ⟨by rw [a]; ring, hsum, ?_⟩
      rw [c, (attitude_steps_add o ω _ _ (abspos _ h1) (abspos _ b)).1 (by rw [← es]; exact abspos _ hsum), es]

/-- C92. The facing moves as the turn rate says: along a step, a point fixed in the body moves in the world by the
facing applied to the rate crossed with the point. -/
theorem attitude_step_derivative (o : SO3 ℝ) (ω v : Fin 3 → ℝ) (t : ℝ) (ht : 30 / 2 ^ 52 < t * vnorm ω) (i : Fin 3) :
    HasDerivAt (fun t => (attitudeStep o ω t).act v i) ((attitudeStep o ω t).act (cross ω v) i) t := by
  have hw : 0 < vnorm ω := by
    rcases (vnorm_nonneg ω).lt_or_eq with h1 | h1
    · exact h1
    · rw [← h1, mul_zero] at ht; norm_num at ht
  have hs := vnorm_sq ω
  rw [vdot3] at hs
  have key : ∀ t, 30 / 2 ^ 52 < t * vnorm ω → ∀ v, (attitudeStep o ω t).act v =
      o.act (vadd (vadd v (vscaleBy (cross ω v) (Real.sin (t * vnorm ω) / vnorm ω)))
        (vscaleBy (cross ω (cross ω v)) ((1 - Real.cos (t * vnorm ω)) / (vnorm ω * vnorm ω)))) := by
    intro t ht v
    have htp : 0 < t := by
      by_contra h
      have := mul_nonpos_of_nonpos_of_nonneg (not_lt.1 h) hw.le
      have : (0 : ℝ) < 30 / 2 ^ 52 := by norm_num
      linarith
    rw [attitudeStep, show (o.compose (SO3.exp (vscaleBy ω t))).act v = o.act ((SO3.exp (vscaleBy ω t)).act v) from
      (rotation_laws_compose o (SO3.exp (vscaleBy ω t)) v)]
    congr 1
    show (Quat.fromScaledAxis (vscaleBy ω t)).transformPoint v = _
    rw [fromScaledAxis_along ω t (by rw [abs_of_pos htp]; exact ht.le), transformPoint_explicit]
    have hcs : Real.sin (t * vnorm ω / 2) ^ 2 + Real.cos (t * vnorm ω / 2) ^ 2 = 1 := Real.sin_sq_add_cos_sq _
    have hc : Real.cos (t * vnorm ω) = 2 * Real.cos (t * vnorm ω / 2) ^ 2 - 1 := by
      rw [← Real.cos_two_mul]; congr 1; ring
    have hsn : Real.sin (t * vnorm ω) = 2 * Real.sin (t * vnorm ω / 2) * Real.cos (t * vnorm ω / 2) := by
      rw [← Real.sin_two_mul]; congr 1; ring
    rw [hc, hsn]
    generalize Real.sin (t * vnorm ω / 2) = s at *
    generalize Real.cos (t * vnorm ω / 2) = c at *
    generalize vnorm ω = N at *
    apply vec3_ext <;> simp [vadd, vscaleBy, cross] <;> field_simp <;> grind
  have hev : (fun t => (attitudeStep o ω t).act v i) =ᶠ[nhds t] fun t =>
      o.act (vadd (vadd v (vscaleBy (cross ω v) (Real.sin (t * vnorm ω) / vnorm ω)))
        (vscaleBy (cross ω (cross ω v)) ((1 - Real.cos (t * vnorm ω)) / (vnorm ω * vnorm ω)))) i := by
    have hopen : IsOpen {t : ℝ | 30 / 2 ^ 52 < t * vnorm ω} := isOpen_lt continuous_const (by fun_prop)
    filter_upwards [hopen.mem_nhds ht] with τ hτ
    rw [key τ hτ v]
  refine HasDerivAt.congr_of_eventuallyEq ?_ hev
  have elin : ∀ x y : ℝ, o.act (vadd (vadd v (vscaleBy (cross ω v) x)) (vscaleBy (cross ω (cross ω v)) y)) i =
      o.act v i + o.act (cross ω v) i * x + o.act (cross ω (cross ω v)) i * y := by
    intro x y
    rw [(so3_act_linear _ _ _).1, (so3_act_linear _ _ _).1, so3_act_vscaleBy, so3_act_vscaleBy]
    rfl
  simp only [elin]
  rw [key t ht (cross ω v), (so3_act_linear _ _ _).1, (so3_act_linear _ _ _).1, so3_act_vscaleBy, so3_act_vscaleBy]
  have h3 : cross ω (cross ω (cross ω v)) = vscaleBy (cross ω v) (-(vnorm ω * vnorm ω)) := by
    rw [hs]
    apply vec3_ext <;> simp [cross, vscaleBy] <;> ring
  rw [h3, so3_act_vscaleBy]
  have hsd : HasDerivAt (fun t : ℝ => Real.sin (t * vnorm ω) / vnorm ω) (Real.cos (t * vnorm ω)) t := by
    have := ((Real.hasDerivAt_sin (t * vnorm ω)).comp t (hasDerivAt_mul_const (vnorm ω))).div_const (vnorm ω)
    refine HasDerivAt.congr_deriv this ?_
    field_simp
  have hcd : HasDerivAt (fun t : ℝ => (1 - Real.cos (t * vnorm ω)) / (vnorm ω * vnorm ω))
      (Real.sin (t * vnorm ω) / vnorm ω) t := by
    have := (((Real.hasDerivAt_cos (t * vnorm ω)).comp t (hasDerivAt_mul_const (vnorm ω))).const_sub 1).div_const
      (vnorm ω * vnorm ω)
    refine HasDerivAt.congr_deriv this ?_
    field_simp
  have := ((hsd.const_mul (o.act (cross ω v) i)).const_add (o.act v i)).add
    (hcd.const_mul (o.act (cross ω (cross ω v)) i))
  refine HasDerivAt.congr_deriv this ?_
  simp only [vadd, vscaleBy]
  field_simp
  ring

/-- C92. Over any number of steps, with any rates, the facing's squared length stays within one part in `10^56` per
step of one. -/
theorem integrate_attitude_norm (rateAt : ℝ → SO3 ℝ → Fin 3 → ℝ) (t0 h : ℝ) (o : SO3 ℝ)
    (ho : o.quaternion.IsUnit) (n : ℕ) :
    ∃ r, (integrateAttitudeLoop rateAt h n t0 o).2 = .ok r ∧
      (1 - 1 / 10 ^ 56) ^ n ≤ r.quaternion.normSquared ∧ r.quaternion.normSquared ≤ (1 + 1 / 10 ^ 56) ^ n := by
  suffices H : ∀ n t0 o, ∃ r, (integrateAttitudeLoop rateAt h n t0 o).2 = .ok r ∧
      (1 - 1 / 10 ^ 56) ^ n * o.quaternion.normSquared ≤ r.quaternion.normSquared ∧
      r.quaternion.normSquared ≤ (1 + 1 / 10 ^ 56) ^ n * o.quaternion.normSquared by
    have := H n t0 o
    rwa [(isUnit_normSquared _).1 ho, mul_one, mul_one] at this
  intro n
  induction n with
  | zero => exact fun t0 o => ⟨o, rfl, by simp, by simp⟩
  | succ n ih =>
    intro t0 o
    unfold integrateAttitudeLoop
    rw [integrateAttitudeStep_real]
    dsimp only
    obtain ⟨r, e, h1, h2⟩ := ih (t0 + h) (attitudeStep o
      (rateAt (t0 + h * half) (attitudeStep o (rateAt t0 o) (h * half))) h)
    refine ⟨r, e, ?_, ?_⟩
    all_goals
      have hm : (attitudeStep o (rateAt (t0 + h * half) (attitudeStep o (rateAt t0 o) (h * half))) h).quaternion.normSquared
        = o.quaternion.normSquared * (Quat.fromScaledAxis
          (vscaleBy (rateAt (t0 + h * half) (attitudeStep o (rateAt t0 o) (h * half))) h)).normSquared :=
        normSquared_mul _ _
      have hb := abs_le.1 ((exp_normSquared (vscaleBy (rateAt (t0 + h * half)
        (attitudeStep o (rateAt t0 o) (h * half))) h)).trans (show ((30 : ℝ) / 2 ^ 52) ^ 4 ≤ 1 / 10 ^ 56 by norm_num))
      have hnn : 0 ≤ o.quaternion.normSquared := by
        simp only [Quat.normSquared]
        nlinarith [mul_self_nonneg o.quaternion.w, mul_self_nonneg o.quaternion.x, mul_self_nonneg o.quaternion.y,
          mul_self_nonneg o.quaternion.z]
      rw [hm] at h1 h2
    · refine le_trans ?_ h1
      rw [pow_succ (1 - 1 / 10 ^ 56 : ℝ) n, mul_assoc]
      refine mul_le_mul_of_nonneg_left ?_ (pow_nonneg (by norm_num) n)
      rw [mul_comm]
      exact mul_le_mul_of_nonneg_left (by linarith [hb.1]) hnn
    · refine le_trans h2 ?_
      rw [pow_succ (1 + 1 / 10 ^ 56 : ℝ) n, mul_assoc]
      refine mul_le_mul_of_nonneg_left ?_ (pow_nonneg (by norm_num) n)
      rw [mul_comm _ o.quaternion.normSquared]
      exact mul_le_mul_of_nonneg_left (by linarith [hb.2]) hnn

/-! ### The hypotheses are met -/

example : BadReading ![(0 : XR), XR.nan, 0] ![0, 0, 1] none 1 := Or.inl ⟨1, rfl⟩

example : BadReading ![(0 : XR), 0, 0] ![0, 0, 1] (some ![1, 0, XR.pinf]) 1 :=
  Or.inr (Or.inr (Or.inr ⟨_, rfl, 2, rfl⟩))

theorem demo_tilt : tilt (SO3.identity : SO3 ℝ) ![2, 0, 0] ![0, 0, 1] = Real.pi / 2 := by
  rw [tilt, ← Real.arccos_zero]
  congr 1
  rw [vdot3]
  simp [SO3.inverse, SO3.identity, SO3.act, transformPoint_explicit, Quat.conjugate, Quat.identity, vnormalized,
    vdivBy]

/-- A level facing lying on its side, with the default gains. -/
example : (MahonyFilter.new (SO3.identity : SO3 ℝ)).orientation.quaternion.IsUnit ∧
    Orthonormal2 (MahonyFilter.new (SO3.identity : SO3 ℝ)).upwardReference
      (MahonyFilter.new (SO3.identity : SO3 ℝ)).northReference ∧ (![2, 0, 0] : Fin 3 → ℝ) ≠ 0 ∧
    0 ≤ ((1 : ℝ) + 1 / 10 * (1 / 100)) * (1 / 100) ∧ ((1 : ℝ) + 1 / 10 * (1 / 100)) * (1 / 100) ≤ 1 ∧
    30 / 2 ^ 52 ≤ ((1 : ℝ) + 1 / 10 * (1 / 100)) * (1 / 100) *
      Real.sin (tilt (MahonyFilter.new (SO3.identity : SO3 ℝ)).orientation ![2, 0, 0] ![0, 0, 1]) := by
  refine ⟨by simp [MahonyFilter.new, SO3.identity, Quat.identity, Quat.IsUnit], ?_, ?_, by norm_num, by norm_num, ?_⟩
  · refine ⟨?_, ?_, ?_⟩ <;> rw [vdot3] <;> simp [MahonyFilter.new]
  · intro h; have := congrFun h 0; simp at this
  · rw [show (MahonyFilter.new (SO3.identity : SO3 ℝ)).orientation = SO3.identity from rfl, demo_tilt,
      Real.sin_pi_div_two]
    norm_num

/-- One step of the settling claims: the lean is a quarter turn, short of upside down. -/
example : tilt (SO3.identity : SO3 ℝ) ![2, 0, 0] ![0, 0, 1] ≤ Real.pi / 2 ∧
    tilt (SO3.identity : SO3 ℝ) ![2, 0, 0] ![0, 0, 1] < Real.pi ∧
    (30 : ℝ) / 2 ^ 52 ≤ 1 / 10 * (1 / 100) ∧ (1 : ℝ) / 10 * (1 / 100) < Real.pi ∧
    ∀ j < 1, 30 / 2 ^ 52 ≤ (1 : ℝ) * (1 / 100) * Real.sin (tilt
      ((MahonyFilter.mk (SO3.identity : SO3 ℝ) (fun _ => 0) 1 0 ![0, 0, 1] ![1, 0, 0]).after
        (List.replicate j ((fun _ => 0), ![2, 0, 0], none, 1 / 100))).orientation ![2, 0, 0] ![0, 0, 1]) := by
  refine ⟨demo_tilt.le, by rw [demo_tilt]; linarith [Real.pi_pos], by norm_num, by linarith [Real.two_le_pi], ?_⟩
  intro j hj
  obtain rfl : j = 0 := by omega
  show _ ≤ (1 : ℝ) * (1 / 100) * Real.sin (tilt SO3.identity ![2, 0, 0] ![0, 0, 1])
  rw [demo_tilt, Real.sin_pi_div_two]
  norm_num

example : cross ![0, 0, 2] ![1, 0, (5 : ℝ)] ≠ 0 ∧ cross ![0, 0, 2] ![0, 0, (5 : ℝ)] = 0 := by
  constructor
  · intro h; have := congrFun h 1; simp [cross] at this
  · apply vec3_ext <;> simp [cross]

/-- A hundred steps about a slanted axis at a growing rate. -/
example : ∀ k < 100, (30 : ℝ) / 2 ^ 52 ≤ (1 + 2 * (0 + ((k : ℕ) + 1 / 2) * (1 / 100))) * (1 / 100) *
    vnorm ![0, 3, (4 : ℝ)] := by
  intro k _
  have hv : vnorm ![0, 3, (4 : ℝ)] = 5 := by
    rw [vnorm, real_sqrt, vnormSquared, vdot3]
    simp
    rw [show (3 : ℝ) * 3 + 4 * 4 = 5 ^ 2 by norm_num, Real.sqrt_sq (by norm_num)]
  rw [hv]
  have : (0 : ℝ) ≤ k := Nat.cast_nonneg k
  norm_num
  linarith

example : (30 : ℝ) / 2 ^ 52 ≤ |1| * vnorm ![0, 0, (3 : ℝ)] ∧ (30 : ℝ) / 2 ^ 52 < 1 * vnorm ![0, 0, (3 : ℝ)] := by
  have hv : vnorm ![0, 0, (3 : ℝ)] = 3 := by
    rw [vnorm, real_sqrt, vnormSquared, vdot3]
    simp
  rw [hv]
  norm_num

theorem vtryNormalized_zero_vec : vtryNormalized (0 : Fin 3 → ℝ) = none := by
  have h : vnorm (0 : Fin 3 → ℝ) = 0 := by
    rw [vnorm, real_sqrt, vnormSquared, vdot3]
    simp
  unfold vtryNormalized
  rw [h, if_pos]
  simp

/-- C93. Readings that name no direction say nothing: with a zero accelerometer (free fall) and no magnetometer, or a
zero one, both filters accept the readings, keep the offset and carry the facing by the turn rate less that offset,
whatever the gains. -/
theorem attitude_free_fall (f : MahonyFilter ℝ) (g : MadgwickFilter ℝ) (gyroscope : Fin 3 → ℝ) (t : ℝ) (m : Option (Fin 3 → ℝ))
    (hm : ∀ v, m = some v → v = 0) :
    f.step gyroscope 0 m t = ({ f with orientation := (f.orientation.compose
      (SO3.exp fun i => (gyroscope i - f.gyroscopeBias i) * t)).normalized }, .ok ()) ∧
    g.step gyroscope 0 m t = ({ g with orientation := (g.orientation.compose
      (SO3.exp fun i => (gyroscope i - g.gyroscopeBias i) * t)).normalized }, .ok ()) := by
  have key : ∀ (o : SO3 ℝ) (u n : Fin 3 → ℝ), attitudeCorrection o 0 m u n = 0 := by
    intro o u n
    have hb : m.bind vtryNormalized = none := by
      cases hc : m with
      | none => rfl
      | some v => rw [hm v hc]; exact vtryNormalized_zero_vec
    unfold attitudeCorrection gravityCorrection
    rw [hb, vtryNormalized_zero_vec]
    rfl
  have z1 : ∀ b : Fin 3 → ℝ, ∀ k c : ℝ, vsub b (vscaleBy (vscaleBy 0 k) c) = b := by
    intro b k c; funext i; simp [vsub, vscaleBy]
  have z2 : ∀ b : Fin 3 → ℝ, ∀ k : ℝ, vadd b (vscaleBy 0 k) = b := by
    intro b k; funext i; simp [vadd, vscaleBy]
  refine ⟨?_, ?_⟩
  · rw [MahonyFilter.step_real, key, z1, z2]
    rfl
  · rw [MadgwickFilter.step_real, key]
    simp only [vtryNormalized_zero_vec, Option.getD_none]
    rw [show (fun _ : Fin 3 => (0 : ℝ)) = 0 from rfl, z1, z2]
    rfl

example : ∀ v, (some 0 : Option (Fin 3 → ℝ)) = some v → v = 0 := fun v h => (Option.some.inj h).symm

end Multicalc
