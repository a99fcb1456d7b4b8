import Verif.Model.Drive
import Verif.Model.XR
import Verif.Lemmas.TrigBounds
import Verif.Props.Lie

/-!
# Differential drive and odometry (C55)
-/

namespace Multicalc

/-- C55. The geometry is accepted exactly when both lengths are positive; an infinite or NaN length is
refused before its sign is looked at. -/
theorem drive_new (r b : ℝ) (x y : XR) :
    (DifferentialDrive.new r b = if 0 < r ∧ 0 < b then .ok ⟨r, b⟩ else .error .nonPositiveParameter) ∧
    ((∀ d, DifferentialDrive.new x y = .ok d → ∃ r b : ℝ, x = .fin r ∧ y = .fin b ∧ 0 < r ∧ 0 < b) ∧
      ((Fns.isFinite x = false ∨ Fns.isFinite y = false) → DifferentialDrive.new x y = .error .nonFinite)) := by
  refine ⟨?_, ?_, ?_⟩
  · unfold DifferentialDrive.new
    simp only [Fns.isFinite, Bool.not_true, Bool.or_self, Bool.false_eq_true, if_false]
    by_cases h1 : 0 < r <;> by_cases h2 : 0 < b <;> simp [h1, h2, not_le.2, not_lt.1]
  · intro d h
    unfold DifferentialDrive.new at h
    split at h
    · cases h
    next h1 =>
      split at h
      · cases h
      next h2 =>
        cases x <;> cases y <;> simp_all [Fns.isFinite]
  · intro h
    unfold DifferentialDrive.new
    rw [if_pos]
    rcases h with h | h <;> simp [h]

/-- C55. Wheel motion and body motion determine each other: for every accepted geometry `inverse` undoes
`forward` and conversely, for velocities and for arcs; travelled distance and rotation determine each
other; and holding wheel speeds for a time gives the arc of the accumulated rotations. -/
theorem drive_inverse (r b : ℝ) (hr : 0 < r) (hb : 0 < b) (w : Wheels ℝ) (t : BodyTwist ℝ) (a : BodyArc ℝ)
    (l m dt : ℝ) :
    let d : DifferentialDrive ℝ := ⟨r, b⟩
    d.inverse (d.forward w) = w ∧ d.forward (d.inverse t) = t ∧
    d.inverseArc (d.forwardArc w) = w ∧ d.forwardArc (d.inverseArc a) = a ∧
    d.wheelTravel (d.wheelRotationsFromTravel l m) = (l, m) ∧
    d.wheelRotationsFromTravel (d.wheelTravel w).1 (d.wheelTravel w).2 = w ∧
    (d.forward w).integrateOver dt = d.forwardArc ⟨w.left * dt, w.right * dt⟩ := by
  have hr' := hr.ne'; have hb' := hb.ne'
  refine ⟨?_, ?_, ?_, ?_, ?_, ?_, ?_⟩
  · ext <;> simp only [DifferentialDrive.inverse, DifferentialDrive.forward, toBody, toWheels, half_real] <;>
      field_simp <;> ring
  · ext <;> simp only [DifferentialDrive.inverse, DifferentialDrive.forward, toBody, toWheels, half_real] <;>
      field_simp <;> ring
  · ext <;> simp only [DifferentialDrive.inverseArc, DifferentialDrive.forwardArc, toBody, toWheels, half_real] <;>
      field_simp <;> ring
  · ext <;> simp only [DifferentialDrive.inverseArc, DifferentialDrive.forwardArc, toBody, toWheels, half_real] <;>
      field_simp <;> ring
  · simp only [DifferentialDrive.wheelTravel, DifferentialDrive.wheelRotationsFromTravel]
    rw [div_mul_cancel₀ _ hr', div_mul_cancel₀ _ hr']
  · ext <;> simp only [DifferentialDrive.wheelTravel, DifferentialDrive.wheelRotationsFromTravel] <;>
      field_simp
  · ext <;> simp only [DifferentialDrive.forwardArc, DifferentialDrive.forward, BodyTwist.integrateOver,
      toBody] <;> ring

/-- C55. The physics of the map: a point of the body at lateral offset `±wheelbase/2` moves forward at
exactly the rim speed of the wheel there (rolling without slipping), so equal wheel speeds drive straight
and opposite ones turn on the spot; the tangent has no sideways part and survives projection. -/
theorem drive_rolling (r b : ℝ) (hb : 0 < b) (w : Wheels ℝ) (v : Fin 3 → ℝ) (u : BodyTwist ℝ) :
    let d : DifferentialDrive ℝ := ⟨r, b⟩
    let t := d.forward w
    t.linear - t.angular * (b / 2) = r * w.left ∧ t.linear + t.angular * (b / 2) = r * w.right ∧
    (w.left = w.right → t.angular = 0 ∧ t.linear = r * w.left) ∧ (w.left = -w.right → t.linear = 0) ∧
    BodyTwist.projectTangent u.toTangent = u ∧ BodyTwist.tangentSlip u.toTangent = 0 ∧
    ((BodyTwist.projectTangent v).toTangent = v ↔ BodyTwist.tangentSlip v = 0) := by
  have hb' := hb.ne'
  refine ⟨?_, ?_, ?_, ?_, rfl, rfl, ?_⟩
  · simp only [DifferentialDrive.forward, toBody, half_real]; field_simp; ring
  · simp only [DifferentialDrive.forward, toBody, half_real]; field_simp; ring
  · intro h; simp only [DifferentialDrive.forward, toBody, half_real, h]
    constructor
    · simp
    · ring
  · intro h; simp only [DifferentialDrive.forward, toBody, half_real, h]; ring
  · constructor
    · intro h; exact (congrFun h 1).symm
    · intro h; funext i
      fin_cases i
      · rfl
      · exact h.symm
      · rfl

example : (0 : ℝ) < 0.036 ∧ (0 : ℝ) < 0.235 := by norm_num

/-- The pose a body at `(x, y)` with heading `θ` reaches by driving the arc `s` while turning by `ω`. -/
noncomputable def arcPose (x y θ s ω : ℝ) : SE2 ℝ :=
  ⟨⟨Real.cos (θ + ω), Real.sin (θ + ω)⟩,
    if ω = 0 then ![x + s * Real.cos θ, y + s * Real.sin θ]
    else ![x + s / ω * (Real.sin (θ + ω) - Real.sin θ), y - s / ω * (Real.cos (θ + ω) - Real.cos θ)]⟩

theorem exp_translation_exact {s ω : ℝ} (h : 30 / 2 ^ 52 ≤ |ω|) :
    (SE2.exp ![s, 0, ω]).translation = ![Real.sin ω / ω * s, (1 - Real.cos ω) / ω * s] := by
  have hn : ¬ ω * ω < smallAngleSq := by rw [lt_smallAngleSq_scalar]; exact not_lt.2 h
  have hv : SE2.vCoeffs ω = (Real.sin ω / ω, (1 - Real.cos ω) / ω) := by
    unfold SE2.vCoeffs; dsimp only; rw [if_neg hn]; rfl
  simp [SE2.exp, hv]

theorem exp_translation_zero {s : ℝ} : (SE2.exp ![s, 0, 0]).translation = ![s, 0] := by
  have hn : (0 : ℝ) * 0 < smallAngleSq := by rw [lt_smallAngleSq_scalar]; norm_num
  have hv : SE2.vCoeffs (0 : ℝ) = (1, 0) := by
    unfold SE2.vCoeffs; dsimp only; rw [if_pos hn]; simp
  simp [SE2.exp, hv]

/-- C55. One odometry step is the exact circular arc: the heading turns by the arc's angle and the
position moves along the circle of radius `s/ω` (along the straight line when the wheels turn equally). -/
theorem odometry_exact (x y θ s ω : ℝ) (h : ω = 0 ∨ 30 / 2 ^ 52 ≤ |ω|) :
    odometryIntegrate ⟨SO2.exp θ, ![x, y]⟩ ⟨s, ω⟩ = arcPose x y θ s ω := by
  have hrot : (odometryIntegrate ⟨SO2.exp θ, ![x, y]⟩ ⟨s, ω⟩).rotation =
      ⟨Real.cos (θ + ω), Real.sin (θ + ω)⟩ := by
    ext <;> simp only [odometryIntegrate, SE2.compose, SE2.exp, SO2.exp, SO2.compose, Fns.sin, Fns.cos,
      Matrix.cons_val, Real.cos_add, Real.sin_add] <;> ring
  have htr : (odometryIntegrate ⟨SO2.exp θ, ![x, y]⟩ ⟨s, ω⟩).translation =
      vadd ((SO2.exp θ).act (SE2.exp ![s, 0, ω]).translation) ![x, y] := rfl
  rcases h with h | h
  · subst h
    refine SE2.ext (by rw [hrot]; rfl) ?_
    rw [htr, exp_translation_zero, arcPose, if_pos rfl]
    funext i; fin_cases i <;> simp [SO2.act, vadd, SO2.exp, Fns.cos, Fns.sin] <;> ring
  · have hw : ω ≠ 0 := by
      intro h0; rw [h0, abs_zero] at h; norm_num at h
    refine SE2.ext (by rw [hrot]; rfl) ?_
    rw [htr, exp_translation_exact h, arcPose, if_neg hw]
    funext i
    fin_cases i <;> simp [SO2.act, vadd, SO2.exp, Fns.cos, Fns.sin, Real.cos_add, Real.sin_add] <;>
      field_simp <;> ring

example : (1 / 10 : ℝ) = 0 ∨ 30 / 2 ^ 52 ≤ |(1 / 10 : ℝ)| := by right; rw [abs_of_pos] <;> norm_num

/-- C55. Below the small-angle threshold, where the step uses its series, the position is within
`|s| ω⁴/50` of the exact arc and the heading is exact. -/
theorem odometry_small (x y θ s ω : ℝ) (h0 : ω ≠ 0) (h : |ω| < 30 / 2 ^ 52) :
    let p := odometryIntegrate ⟨SO2.exp θ, ![x, y]⟩ ⟨s, ω⟩
    p.rotation = (arcPose x y θ s ω).rotation ∧
    ∀ i, |p.translation i - (arcPose x y θ s ω).translation i| ≤ |s| * ω ^ 4 / 50 := by
  intro p
  have hn : ω * ω < smallAngleSq := by rw [lt_smallAngleSq_scalar]; exact h
  constructor
  · ext <;> simp only [p, arcPose, odometryIntegrate, SE2.compose, SE2.exp, SO2.exp, SO2.compose, Fns.sin, Fns.cos,
      Matrix.cons_val, Real.cos_add, Real.sin_add] <;> ring
  have hw1 : |ω| ≤ 1 := h.le.trans (by norm_num)
  set A := 1 - ω * ω / 6 with hA
  set B := ω * (1 / 2 - ω * ω / 24) with hB
  have htr : p.translation = ![Real.cos θ * (A * s) - Real.sin θ * (B * s) + x,
      Real.sin θ * (A * s) + Real.cos θ * (B * s) + y] := by
    have : (SE2.exp ![s, 0, ω]).translation = ![A * s, B * s] := by
      have hv : SE2.vCoeffs ω = (A, B) := by
        unfold SE2.vCoeffs; dsimp only; rw [if_pos hn, half_real, real_lit, real_lit, hA, hB]; norm_num
      simp [SE2.exp, hv]
    change vadd ((SO2.exp θ).act (SE2.exp ![s, 0, ω]).translation) ![x, y] = _
    rw [this]
    funext i; fin_cases i <;> simp [SO2.act, vadd, SO2.exp, Fns.cos, Fns.sin]
  have e1 : |A - Real.sin ω / ω| ≤ ω ^ 4 / 120 := by
    have hs := sin_taylor3 ω
    have : A - Real.sin ω / ω = -(Real.sin ω - (ω - ω ^ 3 / 6)) / ω := by rw [hA]; field_simp; ring
    rw [this, abs_div, abs_neg, div_le_iff₀ (abs_pos.2 h0)]
    refine hs.trans (le_of_eq ?_)
    rw [← (show |ω| ^ 4 = ω ^ 4 from by rw [← abs_pow, abs_of_nonneg (by positivity)])]; ring
  have e2 : |B - (1 - Real.cos ω) / ω| ≤ ω ^ 4 / 720 := by
    have hc := cos_taylor4 ω
    have : B - (1 - Real.cos ω) / ω = (Real.cos ω - (1 - ω ^ 2 / 2 + ω ^ 4 / 24)) / ω := by
      rw [hB]; field_simp; ring
    rw [this, abs_div, div_le_iff₀ (abs_pos.2 h0)]
    refine hc.trans ?_
    have e6 : ω ^ 6 = |ω| ^ 5 * |ω| := by rw [← pow_succ, ← abs_pow, abs_of_nonneg (Even.pow_nonneg (by decide) _)]
    have e4 : ω ^ 4 = |ω| ^ 4 := by rw [← abs_pow, abs_of_nonneg (by positivity)]
    rw [e6, e4]
    have : |ω| ^ 5 ≤ |ω| ^ 4 := pow_le_pow_of_le_one (abs_nonneg _) hw1 (by norm_num)
    nlinarith [abs_nonneg ω]
  have key : ∀ c d : ℝ, |c| ≤ 1 → |d| ≤ 1 →
      |(c * ((A - Real.sin ω / ω) * s) + d * ((B - (1 - Real.cos ω) / ω) * s))| ≤ |s| * ω ^ 4 / 50 := by
    intro c d hc hd
    have h4 : 0 ≤ ω ^ 4 := by positivity
    calc _ ≤ |c| * (|A - Real.sin ω / ω| * |s|) + |d| * (|B - (1 - Real.cos ω) / ω| * |s|) := by
            rw [← abs_mul, ← abs_mul, ← abs_mul, ← abs_mul]; exact abs_add_le _ _
      _ ≤ 1 * (ω ^ 4 / 120 * |s|) + 1 * (ω ^ 4 / 720 * |s|) := by gcongr
      _ ≤ _ := by nlinarith [mul_nonneg h4 (abs_nonneg s)]
  have hc1 := Real.abs_cos_le_one θ
  have hs1 := Real.abs_sin_le_one θ
  intro i
  fin_cases i
  · have := key (Real.cos θ) (-Real.sin θ) hc1 (by rwa [abs_neg])
    refine le_trans (le_of_eq (congrArg _ ?_)) this
    rw [htr, arcPose, if_neg h0]
    simp only [Matrix.cons_val, Fin.zero_eta, Real.sin_add]
    field_simp; ring
  · have := key (Real.sin θ) (Real.cos θ) hs1 hc1
    refine le_trans (le_of_eq (congrArg _ ?_)) this
    rw [htr, arcPose, if_neg h0]
    simp only [Matrix.cons_val, Fin.mk_one, Real.cos_add]
    field_simp; ring

example : (1 / 2 ^ 60 : ℝ) ≠ 0 ∧ |(1 / 2 ^ 60 : ℝ)| < 30 / 2 ^ 52 := by
  rw [abs_of_pos] <;> norm_num

/-- C55. Splitting an arc does not matter: driving any number of pieces, each a fraction of the same arc,
ends exactly where driving their total does, provided no piece is below the small-angle threshold
(straight motion has no such proviso). -/
theorem odometry_split (x y θ s ω : ℝ) (ks : List ℝ)
    (h : ω = 0 ∨ (ω ≠ 0 ∧ ∀ k ∈ ks, 30 / 2 ^ 52 ≤ |k * ω|)) :
    ks.foldl (fun p k => odometryIntegrate p ⟨k * s, k * ω⟩) ⟨SO2.exp θ, ![x, y]⟩ =
      if ω = 0 then ⟨SO2.exp θ, ![x + ks.sum * s * Real.cos θ, y + ks.sum * s * Real.sin θ]⟩
      else ⟨SO2.exp (θ + ks.sum * ω),
        ![x + s / ω * (Real.sin (θ + ks.sum * ω) - Real.sin θ),
          y - s / ω * (Real.cos (θ + ks.sum * ω) - Real.cos θ)]⟩ := by
  induction ks generalizing x y θ with
  | nil => simp
  | cons k ks ih =>
    rw [List.foldl_cons]
    rcases h with h | ⟨hw, h⟩
    · rw [odometry_exact _ _ _ _ _ (Or.inl (by rw [h, mul_zero])), arcPose, if_pos (by rw [h, mul_zero])]
      simp only [h, mul_zero, add_zero, if_true]
      have := ih (x + k * s * Real.cos θ) (y + k * s * Real.sin θ) θ (Or.inl h)
      simp only [h, mul_zero, if_true] at this
      refine Eq.trans this ?_
      ext i <;> try rfl
      fin_cases i <;> simp <;> ring
    · have hk := h k (by simp)
      have hk0 : k ≠ 0 := by
        intro h0; rw [h0, zero_mul, abs_zero] at hk; norm_num at hk
      rw [odometry_exact _ _ _ _ _ (Or.inr hk), arcPose, if_neg (mul_ne_zero hk0 hw)]
      have := ih (x + k * s / (k * ω) * (Real.sin (θ + k * ω) - Real.sin θ))
        (y - k * s / (k * ω) * (Real.cos (θ + k * ω) - Real.cos θ)) (θ + k * ω)
        (Or.inr ⟨hw, fun j hj => h j (by simp [hj])⟩)
      refine Eq.trans this ?_
      rw [if_neg hw, if_neg hw, mul_div_mul_left _ _ hk0, List.sum_cons,
        show θ + k * ω + ks.sum * ω = θ + (k + ks.sum) * ω by ring]
      ext i <;> try rfl
      fin_cases i <;> simp <;> ring

/-- C55. In particular the step over a whole arc is the steps over its pieces, when the whole is not below
the threshold either. -/
theorem odometry_split_whole (x y θ s ω : ℝ) (ks : List ℝ) (hsum : ks.sum = 1)
    (h : ω = 0 ∨ (30 / 2 ^ 52 ≤ |ω| ∧ ∀ k ∈ ks, 30 / 2 ^ 52 ≤ |k * ω|)) :
    ks.foldl (fun p k => odometryIntegrate p ⟨k * s, k * ω⟩) ⟨SO2.exp θ, ![x, y]⟩ =
      odometryIntegrate ⟨SO2.exp θ, ![x, y]⟩ ⟨s, ω⟩ := by
  have hw : ω = 0 ∨ (ω ≠ 0 ∧ ∀ k ∈ ks, 30 / 2 ^ 52 ≤ |k * ω|) := by
    rcases h with h | ⟨h1, h2⟩
    · exact Or.inl h
    · refine Or.inr ⟨?_, h2⟩
      intro h0; rw [h0, abs_zero] at h1; norm_num at h1
  rw [odometry_split x y θ s ω ks hw, odometry_exact x y θ s ω (h.imp id And.left), arcPose, hsum]
  split
  next h0 => subst h0; simp [SO2.exp, Fns.cos, Fns.sin]
  · simp [SO2.exp, Fns.cos, Fns.sin]

example : ((1 / 4 : ℝ) + (3 / 4 : ℝ)) = 1 ∧
    ∀ k ∈ [(1 / 4 : ℝ), 3 / 4], 30 / 2 ^ 52 ≤ |k * (1 : ℝ)| := by
  refine ⟨by norm_num, ?_⟩
  intro k hk
  fin_cases hk <;> (rw [abs_of_pos] <;> norm_num)

/-- C55. Odometry follows the unicycle: holding a twist, the pose after time `t` moves with exactly the
velocity the unicycle model gives at that pose. -/
theorem odometry_unicycle (x y θ v w t : ℝ) :
    let state : ℝ → Fin 3 → ℝ := fun t =>
      let p := arcPose x y θ (v * t) (w * t)
      ![p.translation 0, p.translation 1, θ + w * t]
    (w * t = 0 ∨ 30 / 2 ^ 52 ≤ |w * t| →
      odometryIntegrate ⟨SO2.exp θ, ![x, y]⟩ ((BodyTwist.mk v w).integrateOver t) =
        ⟨SO2.exp (state t 2), ![state t 0, state t 1]⟩) ∧
    ∀ i, HasDerivAt (fun t => state t i) (unicycleDerivative ⟨v, w⟩ (state t) i) t := by
  intro state
  have hst : ∀ t, state t = if w = 0 then ![x + v * t * Real.cos θ, y + v * t * Real.sin θ, θ + w * t] else
      ![x + v / w * (Real.sin (θ + w * t) - Real.sin θ), y - v / w * (Real.cos (θ + w * t) - Real.cos θ),
        θ + w * t] := by
    intro t
    by_cases hw : w = 0
    · simp only [state, arcPose, hw, zero_mul, if_true]
      funext i; fin_cases i <;> simp
    · rw [if_neg hw]
      by_cases ht : t = 0
      · simp only [state, arcPose, ht, mul_zero, if_true]
        funext i; fin_cases i <;> simp
      · simp only [state, arcPose, if_neg (mul_ne_zero hw ht), mul_div_mul_right _ _ ht]
        funext i; fin_cases i <;> simp
  constructor
  · intro h
    have := odometry_exact x y θ (v * t) (w * t) h
    refine Eq.trans this ?_
    refine SE2.ext rfl ?_
    funext i; fin_cases i <;> rfl
  · have hlin : HasDerivAt (fun t => θ + w * t) w t := by
      simpa using ((hasDerivAt_id t).const_mul w).const_add θ
    intro i
    by_cases hw : w = 0
    · have e : state = fun t => ![x + v * t * Real.cos θ, y + v * t * Real.sin θ, θ] := by
        funext t; rw [hst t, if_pos hw, hw, zero_mul, add_zero]
      rw [e]
      fin_cases i
      · have := (((hasDerivAt_id t).const_mul v).mul_const (Real.cos θ)).const_add x
        simpa [unicycleDerivative, Fns.cos] using this
      · have := (((hasDerivAt_id t).const_mul v).mul_const (Real.sin θ)).const_add y
        simpa [unicycleDerivative, Fns.sin] using this
      · simpa [unicycleDerivative, hw] using hasDerivAt_const t θ
    · have e : state = fun t => ![x + v / w * (Real.sin (θ + w * t) - Real.sin θ),
          y - v / w * (Real.cos (θ + w * t) - Real.cos θ), θ + w * t] := by
        funext t; rw [hst t, if_neg hw]
      rw [e]
      fin_cases i
      · have := (((hlin.sin).sub_const (Real.sin θ)).const_mul (v / w)).const_add x
        simp only [unicycleDerivative, Fns.cos, Matrix.cons_val, Fin.zero_eta]
        refine this.congr_deriv ?_
        field_simp
      · have := (((hlin.cos).sub_const (Real.cos θ)).const_mul (v / w)).const_sub y
        simp only [unicycleDerivative, Fns.sin, Matrix.cons_val, Fin.mk_one]
        refine this.congr_deriv ?_
        field_simp
      · simpa [unicycleDerivative] using hlin

/-- C55. The straight-line distance covered by a step (the chord) is at most the arc length: `2|sin(ω/2)|/|ω|`
of it on a curve. -/
theorem odometry_chord (x y θ s ω : ℝ) (h : 30 / 2 ^ 52 ≤ |ω|) :
    let p := odometryIntegrate ⟨SO2.exp θ, ![x, y]⟩ ⟨s, ω⟩
    (p.translation 0 - x) ^ 2 + (p.translation 1 - y) ^ 2 = (2 * s * Real.sin (ω / 2) / ω) ^ 2 ∧
    (p.translation 0 - x) ^ 2 + (p.translation 1 - y) ^ 2 ≤ s ^ 2 := by
  intro p
  have hw : ω ≠ 0 := by
    intro h0; rw [h0, abs_zero] at h; norm_num at h
  have hp : p = arcPose x y θ s ω := odometry_exact x y θ s ω (Or.inr h)
  have e1 : (p.translation 0 - x) ^ 2 + (p.translation 1 - y) ^ 2 = (2 * s * Real.sin (ω / 2) / ω) ^ 2 := by
    rw [hp, arcPose, if_neg hw]
    simp only [Matrix.cons_val]
    have h1 := Real.sin_sq_add_cos_sq θ
    have h2 := Real.sin_sq_add_cos_sq (θ + ω)
    have h3 : Real.cos ω = Real.cos (θ + ω) * Real.cos θ + Real.sin (θ + ω) * Real.sin θ := by
      rw [← Real.cos_sub]; congr 1; ring
    have h4 : Real.cos ω = 1 - 2 * Real.sin (ω / 2) ^ 2 := by
      have := Real.cos_sq' (ω / 2)
      have h5 := Real.cos_two_mul (ω / 2)
      rw [show 2 * (ω / 2) = ω by ring] at h5
      rw [h5, this]; ring
    have : (Real.sin (θ + ω) - Real.sin θ) ^ 2 + (Real.cos (θ + ω) - Real.cos θ) ^ 2 =
        4 * Real.sin (ω / 2) ^ 2 := by nlinarith
    calc _ = (s / ω) ^ 2 * ((Real.sin (θ + ω) - Real.sin θ) ^ 2 + (Real.cos (θ + ω) - Real.cos θ) ^ 2) := by ring
      _ = _ := by rw [this]; ring
  refine ⟨e1, ?_⟩
  rw [e1]
  have hs : |Real.sin (ω / 2)| ≤ |ω / 2| := Real.abs_sin_le_abs
  have hs2 : Real.sin (ω / 2) ^ 2 ≤ (ω / 2) ^ 2 := sq_le_sq.2 hs
  have : (2 * s * Real.sin (ω / 2) / ω) ^ 2 = s ^ 2 * (Real.sin (ω / 2) ^ 2 / (ω / 2) ^ 2) := by field_simp
  rw [this]
  have : Real.sin (ω / 2) ^ 2 / (ω / 2) ^ 2 ≤ 1 := div_le_one_of_le₀ hs2 (sq_nonneg _)
  nlinarith [sq_nonneg s]

/-- C55. The differentiable step used by the estimators is the same step: the position of `integrate` and
its heading folded into (-π, π]. -/
theorem odometry_eval (st : Fin 5 → ℝ) :
    let p := odometryIntegrate ⟨SO2.exp (st 2), ![st 0, st 1]⟩ ⟨st 3, st 4⟩
    let o := odometryEval st
    o 0 = p.translation 0 ∧ o 1 = p.translation 1 ∧ SO2.exp (o 2) = SO2.exp (st 2 + st 4) ∧
      -Real.pi < o 2 ∧ o 2 ≤ Real.pi := by
  intro p o
  have hrot : p.rotation = SO2.exp (st 2 + st 4) := by
    ext <;> simp only [p, odometryIntegrate, SE2.compose, SE2.exp, SO2.exp, SO2.compose, Fns.sin, Fns.cos,
      Matrix.cons_val, Real.cos_add, Real.sin_add] <;> ring
  have ho : o 2 = p.rotation.log := rfl
  have hu : (SO2.exp (st 2 + st 4)).IsUnit := by
    rw [SO2.IsUnit]; simp only [SO2.exp, Fns.cos, Fns.sin]; exact Real.cos_sq_add_sin_sq _
  have G := so2_group _ _ SO2.identity hu hu 0 0 0 0
  have G' := G.2.2.2.2.2.2.2.2.2.2.2.2.2.2.2.2
  refine ⟨rfl, rfl, ?_, ?_, ?_⟩
  · rw [ho, hrot]; exact G'.2.2.1
  · rw [ho, hrot]; exact G'.1
  · rw [ho, hrot]; exact G'.2.1

end Multicalc
