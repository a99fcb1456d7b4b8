import Verif.Props.FiniteDifference
import Verif.Props.Approximation
import Verif.Props.Attitude
import Verif.Props.Drive
import Verif.Props.Rigid
import Verif.Props.Localizer
import Verif.Props.Pid
import Verif.Props.Multivariate
import Verif.Props.ConfigurationDistance
import Verif.Model.InverseKinematics
import Mathlib.Data.Sym.Card

/-!
# Functions built on others

Constructors, conversions and summaries that the other files leave out.
-/

namespace Multicalc

/-! ### Scalars -/

/-- C08. The default sign is `1`, `-1` or `0`, multiplies the magnitude back to the number, and is odd. -/
theorem signum_spec {K : Type} [Field K] [LinearOrder K] [IsStrictOrderedRing K] (x : K) :
    signum x * |x| = x ∧ signum (-x) = -signum x ∧ (signum x = 0 ↔ x = 0) := by
  unfold signum
  rcases lt_trichotomy x 0 with h | h | h
  · have h2 : ¬ -x < 0 := by linarith [neg_pos.2 h]
    have h3 : 0 < -x := neg_pos.2 h
    rw [if_pos h, if_neg h2, if_pos h3, abs_of_neg h]
    exact ⟨by ring, by ring, by simp [h.ne]⟩
  · subst h; simp
  · have h1 : ¬ x < 0 := not_lt.2 h.le
    have h2 : -x < 0 := neg_neg_iff_pos.2 h
    rw [if_neg h1, if_pos h, if_pos h2, abs_of_pos h]
    exact ⟨by ring, rfl, by simp [h.ne']⟩

/-- C08. `safe_div` is the division of the floating-point standard on every pair of values, infinities and
NaN included (a zero counting as positive). -/
theorem safeDiv_ieee (x y : XR) : safeDiv x y = x / y := by
  unfold safeDiv
  by_cases hy : (y == 0) = true
  · rw [if_pos hy]
    have hy0 : y = .fin 0 := by
      cases y <;> simp [BEq.beq, XR.beq, show (0 : XR) = .fin 0 from rfl] at hy ⊢
      exact hy
    subst hy0
    have lt_iff : ∀ a b : XR, a < b ↔ XR.lt a b := fun _ _ => Iff.rfl
    have hz : (0 : XR) = .fin 0 := rfl
    have hd : ∀ a b : XR, a / b = XR.div a b := fun _ _ => rfl
    cases x with
    | nan => simp [Fns.isNan, Fns.nan, hd, XR.div]
    | pinf => simp [Fns.isNan, Fns.infinity, hd, XR.div, lt_iff, hz, XR.lt]
    | ninf => simp [Fns.isNan, Fns.negInfinity, hd, XR.div, lt_iff, hz, XR.lt]
    | fin a =>
      simp only [Fns.isNan, hd, XR.div, lt_iff, hz, XR.lt, XR.infTimes, if_true, Bool.false_eq_true, if_false]
      rcases lt_trichotomy a 0 with h | h | h
      · rw [if_pos h, if_neg h.ne, if_neg (not_lt.2 h.le)]; rfl
      · rw [if_neg (by simp [h]), if_neg (by simp [h]), if_pos h]; rfl
      · rw [if_neg (not_lt.2 h.le), if_pos h, if_neg h.ne', if_pos h]; rfl
  · rw [if_neg hy]

/-! ### Finite differences -/

section
variable {T : Type} [Zero T] [One T] [NatCast T] [Add T] [Sub T] [Mul T] [Div T] [Neg T] [LT T]
  [DecidableLT T] [BEq T] [Fns T]

/-- C13. A column of a finite-difference Jacobian holds, for every scalar type, exactly the partial derivatives of the
separate outputs, and is refused exactly when they are. -/
theorem fd_column {n m : ℕ} (c : FdConfig T) (f : (Fin n → T) → Fin m → T) (col : ℕ) (X : Fin n → T) (row : Fin m) :
    (fdColumn c f col X).map (fun g => g row) = fdMulti c (fun y => f y row) [col] X := by
  unfold fdColumn fdMulti
  rw [if_neg (by simp)]
  cases c.check with
  | error e => rfl
  | ok u =>
    by_cases h : col < n
    · simp only [bind, Except.bind, dif_pos h]
      rw [if_neg (by simpa using h)]
      simp [h, fdDiffMulti, pure, Except.pure, Except.map]
    · simp only [bind, Except.bind, dif_neg h]
      rw [if_pos (by simpa using h)]
      rfl

end

/-! ### Goodness of an approximation -/

/-- C78. The adjusted R² charges a linear approximation for one coefficient per variable and a quadratic one for one
per variable and one per unordered pair of variables; with no points to spare beyond those it is NaN. -/
theorem adjusted_counts {n : ℕ} (a : LinearApprox n ℝ) (b : QuadraticApprox n ℝ) (points : List (Fin n → ℝ))
    (f : (Fin n → ℝ) → ℝ) :
    (n + 1 < points.length → (1 - (a.metrics points f).adjustedRSquared) * (points.length - n - 1) =
      (1 - (a.metrics points f).rSquared) * (points.length - 1)) ∧
    (points.length ≤ n + 1 → (a.metrics points f).adjustedRSquared = Fns.nan) ∧
    (n + Fintype.card (Sym2 (Fin n)) + 1 < points.length → (1 - (b.metrics points f).adjustedRSquared) *
      (points.length - (n + Fintype.card (Sym2 (Fin n))) - 1) = (1 - (b.metrics points f).rSquared) * (points.length - 1)) ∧
    (points.length ≤ n + Fintype.card (Sym2 (Fin n)) + 1 → (b.metrics points f).adjustedRSquared = Fns.nan) := by
  have key : ∀ (predict : (Fin n → ℝ) → ℝ) (p : ℕ) (m : SummationMethod),
      (p + 1 < points.length → (1 - (computeMetrics predict f points p m).adjustedRSquared) * (points.length - p - 1) =
        (1 - (computeMetrics predict f points p m).rSquared) * (points.length - 1)) ∧
      (points.length ≤ p + 1 → (computeMetrics predict f points p m).adjustedRSquared = Fns.nan) := by
    intro predict p m
    constructor
    · intro h
      have h' : (p : ℝ) + 1 < points.length := by exact_mod_cast h
      simp only [computeMetrics]
      rw [if_neg (by push Not; linarith)]
      have : (points.length : ℝ) - p - 1 ≠ 0 := by linarith
      field_simp
      ring
    · intro h
      have h' : (points.length : ℝ) ≤ p + 1 := by exact_mod_cast h
      exact (metrics_nan predict f points p m).2 (by linarith)
  have hc : Fintype.card (Sym2 (Fin n)) = n * (n + 1) / 2 := by
    rw [Sym2.card, Fintype.card_fin, Nat.choose_two_right, Nat.add_sub_cancel, mul_comm]
  have h1 := key a.predict n a.summation
  have h2 := key b.predict (n + n * (n + 1) / 2) b.summation
  rw [hc]
  refine ⟨h1.1, h1.2, fun h => ?_, h2.2⟩
  have := h2.1 h
  push_cast at this ⊢
  exact this

/-! ### Attitude -/

/-- C92. With a steady angular acceleration along the turn axis the step is exact: any two steps, the second starting
with the rate the first ends with, turn the body as one step over the whole time does; without acceleration it is
the plain step. -/
theorem accelerated_steps_add (o : SO3 ℝ) (ω : Fin 3 → ℝ) (p q s t : ℝ)
    (h1 : 30 / 2 ^ 52 ≤ |p * s + q * s ^ 2 / 2| * vnorm ω)
    (h2 : 30 / 2 ^ 52 ≤ |(p + q * s) * t + q * t ^ 2 / 2| * vnorm ω)
    (h3 : 30 / 2 ^ 52 ≤ |p * (s + t) + q * (s + t) ^ 2 / 2| * vnorm ω) :
    attitudeStepWithAngularAcceleration
        (attitudeStepWithAngularAcceleration o (vscaleBy ω p) (vscaleBy ω q) s) (vscaleBy ω (p + q * s)) (vscaleBy ω q) t =
      attitudeStepWithAngularAcceleration o (vscaleBy ω p) (vscaleBy ω q) (s + t) ∧
    ∀ r, attitudeStepWithAngularAcceleration o r (fun _ => 0) t = attitudeStep o r t := by
  have e : ∀ (o : SO3 ℝ) (p q t : ℝ), attitudeStepWithAngularAcceleration o (vscaleBy ω p) (vscaleBy ω q) t =
      attitudeStep o ω (p * t + q * t ^ 2 / 2) := by
    intro o p q t
    simp only [attitudeStepWithAngularAcceleration, attitudeStep]
    congr 2
    funext i
    simp only [vscaleBy, vadd, half_real]
    ring
  constructor
  · rw [e, e, e, (attitude_steps_add o ω _ _ h1 h2).1 (by
      rw [show p * s + q * s ^ 2 / 2 + ((p + q * s) * t + q * t ^ 2 / 2) = p * (s + t) + q * (s + t) ^ 2 / 2 by ring]
      exact h3)]
    congr 1
    ring
  · intro r
    simp only [attitudeStepWithAngularAcceleration, attitudeStep]
    congr 2
    funext i
    simp [vscaleBy, vadd]

example : 30 / 2 ^ 52 ≤ |(1 : ℝ) * 1 + 1 * 1 ^ 2 / 2| * vnorm (![0, 0, 1] : Fin 3 → ℝ) := by
  rw [vnorm, vnormSquared, vdot3, real_sqrt]
  simp only [Matrix.cons_val]
  norm_num

/-- C93. References given to either filter are taken up as `reference_directions` says and nothing else about the
filter changes; references that name only one direction leave it as it was. -/
theorem with_reference_directions (f : MahonyFilter ℝ) (g : MadgwickFilter ℝ) (up north : Fin 3 → ℝ) :
    (cross up north ≠ 0 → ∃ n, Orthonormal2 (vnormalized up) n ∧ 0 < vdot n north ∧
      f.withReferenceDirections up north = { f with upwardReference := vnormalized up, northReference := n } ∧
      g.withReferenceDirections up north = { g with upwardReference := vnormalized up, northReference := n }) ∧
    (cross up north = 0 → f.withReferenceDirections up north = f ∧ g.withReferenceDirections up north = g) := by
  have hf := reference_directions f.upwardReference f.northReference up north
  have hg := reference_directions g.upwardReference g.northReference up north
  constructor
  · intro hc
    obtain ⟨u, n, e, ho, hu, hn, p, q, hpq⟩ := hf.1 hc
    obtain ⟨u', n', e', ho', hu', hn', p', q', hpq'⟩ := hg.1 hc
    subst hu hu'
    have hnn : n' = n := by
      have hd : ∀ {n : Fin 3 → ℝ} {p q : ℝ}, Orthonormal2 (vnormalized up) n → 0 < vdot n north →
          north = vadd (vscaleBy (vnormalized up) p) (vscaleBy n q) →
          p = vdot (vnormalized up) north ∧ 0 < q ∧ q ^ 2 = vdot north north - p ^ 2 := by
        intro n p q ho hn h
        obtain ⟨o1, o2, o3⟩ := ho
        have n0 := congrFun h 0
        have n1 := congrFun h 1
        have n2 := congrFun h 2
        simp only [vadd, vscaleBy, vdot3] at *
        generalize vnormalized up = w at *
        have hq : n 0 * north 0 + n 1 * north 1 + n 2 * north 2 = q := by
          rw [n0, n1, n2]; linear_combination p * o3 + q * o2
        refine ⟨?_, by linarith, ?_⟩
        · rw [n0, n1, n2]; linear_combination -p * o1 - q * o3
        · rw [n0, n1, n2]; linear_combination -p ^ 2 * o1 - 2 * p * q * o3 - q ^ 2 * o2
      obtain ⟨a1, a2, a3⟩ := hd ho hn hpq
      obtain ⟨b1, b2, b3⟩ := hd ho' hn' hpq'
      have hp : p' = p := b1.trans a1.symm
      have hq : q' = q := by
        have : q' ^ 2 = q ^ 2 := by rw [a3, b3, hp]
        nlinarith
      funext i
      have t1 := congrFun hpq i
      have t2 := congrFun hpq' i
      simp only [vadd, vscaleBy, hp, hq] at t1 t2
      have : n' i * q = n i * q := by linarith
      exact mul_right_cancel₀ a2.ne' this
    subst hnn
    refine ⟨n', ho, hn, ?_, ?_⟩
    · simp only [MahonyFilter.withReferenceDirections, e]
    · simp only [MadgwickFilter.withReferenceDirections, e']
  · intro hc
    constructor
    · simp only [MahonyFilter.withReferenceDirections, hf.2 hc]
    · simp only [MadgwickFilter.withReferenceDirections, hg.2 hc]

example : cross (![0, 0, 2] : Fin 3 → ℝ) ![1, 0, 1] ≠ 0 := by
  intro h
  have := congrFun h 1
  simp [cross] at this

/-! ### Driving -/

/-- C55. The odometry of a drive undoes its commands: turning the wheels by what an arc asks for moves the pose along
that arc, and constant wheel rates held for a time move it as the body twist they produce does. -/
theorem drive_odometry {r b : ℝ} (hr : 0 < r) (hb : 0 < b) (pose : SE2 ℝ) (a : BodyArc ℝ) (w : Wheels ℝ) (dt : ℝ) :
    let d : DifferentialDrive ℝ := ⟨r, b⟩
    d.odometryStep pose (d.inverseArc a) = odometryIntegrate pose a ∧
    d.odometryStep pose ⟨w.left * dt, w.right * dt⟩ = odometryIntegrate pose ((d.forward w).integrateOver dt) := by
  intro d
  obtain ⟨-, -, -, h4, -, -, h7⟩ := drive_inverse r b hr hb w ⟨0, 0⟩ a 0 0 dt
  constructor
  · rw [DifferentialDrive.odometryStep, h4]
  · rw [DifferentialDrive.odometryStep, h7]

/-- C36. Steering by the curvature reaches the point: when the lookahead distance is the distance of the point and the
point is not straight ahead or behind, holding the twist of any forward speed brings the robot onto the point
after some time, within one turn of the circle. -/
theorem pursuit_reaches (x y θ L v : ℝ) (target : Fin 2 → ℝ) (hL : 0 < L)
    (hd : L ^ 2 = (target 0 - x) ^ 2 + (target 1 - y) ^ 2) (hv : 0 < v) :
    ∃ κ, purePursuitCurvature ⟨SO2.exp θ, ![x, y]⟩ target L = .ok κ ∧
      (κ ≠ 0 → ∃ t, 0 < t ∧ |(curvatureTwist κ v).2 * t| ≤ 2 * Real.pi ∧
        (arcPose x y θ ((curvatureTwist κ v).1 * t) ((curvatureTwist κ v).2 * t)).translation = target ∧
        (30 / 2 ^ 52 ≤ |(curvatureTwist κ v).2 * t| →
          (odometryIntegrate ⟨SO2.exp θ, ![x, y]⟩
            ((BodyTwist.mk (curvatureTwist κ v).1 (curvatureTwist κ v).2).integrateOver t)).translation = target)) := by
  have hu : (SO2.exp θ : SO2 ℝ).IsUnit := by
    have := Real.sin_sq_add_cos_sq θ
    simp only [SO2.IsUnit, SO2.exp, Fns.cos, Fns.sin]
    linarith
  obtain ⟨κ, hκ, -, hpos, hneg, hc⟩ := pursuit_curvature ⟨SO2.exp θ, ![x, y]⟩ target L hL hu
  refine ⟨κ, hκ, fun hk => ?_⟩
  simp only [SO2.exp, Fns.cos, Fns.sin, Matrix.cons_val_zero, Matrix.cons_val_one] at hpos hneg hc
  have hk2 := ((hc hd).1 κ).2 rfl
  set dx := target 0 - x with hdx
  set dy := target 1 - y with hdy
  set Y := -Real.sin θ * dx + Real.cos θ * dy with hY
  set X := Real.cos θ * dx + Real.sin θ * dy with hX
  have hcs := Real.sin_sq_add_cos_sq θ
  have hXY : X ^ 2 + Y ^ 2 = dx ^ 2 + dy ^ 2 := by rw [hX, hY]; linear_combination (dx ^ 2 + dy ^ 2) * hcs
  have hD : 0 < X ^ 2 + Y ^ 2 := by rw [hXY, ← hd]; positivity
  rw [← hXY] at hk2
  obtain ⟨c1, c2⟩ := atan2_cos hD
  obtain ⟨m1, m2⟩ := atan2_mem Y X
  set a : ℝ := Fns.atan2 Y X with ha
  set ρ := Real.sqrt (X ^ 2 + Y ^ 2) with hρ
  have hρ0 : 0 < ρ := Real.sqrt_pos.2 hD
  have hρ2 : ρ ^ 2 = X ^ 2 + Y ^ 2 := Real.sq_sqrt hD.le
  have hY0 : Y ≠ 0 := by
    intro h
    rw [h, mul_zero] at hk2
    rcases mul_eq_zero.1 hk2 with h' | h'
    · exact hk h'
    · rw [h] at hD; exact hD.ne' h'
  have hκa : 0 < a / κ := by
    rcases lt_or_gt_of_ne hY0 with h | h
    · have hs : Real.sin a < 0 := by by_contra hh; push Not at hh; nlinarith
      have : a < 0 := by
        by_contra hh
        push Not at hh
        exact absurd (Real.sin_nonneg_of_nonneg_of_le_pi hh m2) (not_le.2 hs)
      exact div_pos_of_neg_of_neg this (hneg.2 h)
    · have hs : 0 < Real.sin a := by by_contra hh; push Not at hh; nlinarith
      have : 0 < a := by
        by_contra hh
        push Not at hh
        exact absurd (Real.sin_nonpos_of_nonpos_of_neg_pi_le hh m1.le) (not_le.2 hs)
      exact div_pos this (hpos.2 h)
  have ha0 : a ≠ 0 := fun h => by rw [h, zero_div] at hκa; exact lt_irrefl _ hκa
  have hsin : Real.sin (2 * a) = κ * X := by
    have : ρ ^ 2 * Real.sin (2 * a) = ρ ^ 2 * (κ * X) := by
      rw [Real.sin_two_mul]
      calc _ = 2 * (ρ * Real.sin a) * (ρ * Real.cos a) := by ring
        _ = (2 * Y) * X := by rw [c1, c2]
        _ = _ := by rw [← hk2, hρ2]; ring
    exact mul_left_cancel₀ (by positivity) this
  have hcos : Real.cos (2 * a) = 1 - κ * Y := by
    have : ρ ^ 2 * Real.cos (2 * a) = ρ ^ 2 * (1 - κ * Y) := by
      rw [Real.cos_two_mul, show ρ ^ 2 * (2 * Real.cos a ^ 2 - 1) = 2 * (ρ * Real.cos a) ^ 2 - ρ ^ 2 by ring, c1, hρ2]
      linear_combination Y * hk2
    exact mul_left_cancel₀ (by positivity) this
  have hω : (curvatureTwist κ v).2 * (2 * a / κ / v) = 2 * a := by
    simp only [curvatureTwist]; field_simp
  have hs : (curvatureTwist κ v).1 * (2 * a / κ / v) = 2 * a / κ := by
    simp only [curvatureTwist]; field_simp
  have harc : (arcPose x y θ ((curvatureTwist κ v).1 * (2 * a / κ / v)) ((curvatureTwist κ v).2 * (2 * a / κ / v))).translation
      = target := by
    rw [hω, hs, arcPose, if_neg (by simpa using ha0)]
    have e : 2 * a / κ / (2 * a) = 1 / κ := by field_simp
    funext i
    fin_cases i
    · show x + 2 * a / κ / (2 * a) * (Real.sin (θ + 2 * a) - Real.sin θ) = target 0
      rw [e, Real.sin_add, hsin, hcos]
      have : Real.cos θ * X - Real.sin θ * Y = dx := by rw [hX, hY]; linear_combination dx * hcs
      field_simp
      rw [show target 0 = x + dx by rw [hdx]; ring, ← this]
      ring
    · show y - 2 * a / κ / (2 * a) * (Real.cos (θ + 2 * a) - Real.cos θ) = target 1
      rw [e, Real.cos_add, hsin, hcos]
      have : Real.sin θ * X + Real.cos θ * Y = dy := by rw [hX, hY]; linear_combination dy * hcs
      field_simp
      rw [show target 1 = y + dy by rw [hdy]; ring, ← this]
      ring
  refine ⟨2 * a / κ / v, div_pos (by rw [mul_div_assoc]; linarith) hv, ?_, harc, fun h => ?_⟩
  · rw [hω, abs_le]; constructor <;> linarith
  · exact (congrArg SE2.translation (odometry_exact x y θ _ _ (Or.inr h))).trans harc

example : ((3 : ℝ) * Real.sqrt 2) ^ 2 = ((![3, 3] : Fin 2 → ℝ) 0 - 0) ^ 2 + ((![3, 3] : Fin 2 → ℝ) 1 - 0) ^ 2 := by
  rw [mul_pow, Real.sq_sqrt (by norm_num)]
  simp
  norm_num

/-! ### Localisation -/

/-- C94. What being converged means: by Chebyshev's inequality the guesses farther than `r` from the estimate carry less
weight than the limit divided by `r²`, and the mean cosine of the guesses' headings to the estimate exceeds
one less half the heading limit. -/
theorem converged_means (ps : List (Fin 3 → ℝ)) (ws : List ℝ) (hl : ps.length = ws.length) (hN : Normalized ws)
    (positionLimit headingLimit : ℝ) :
    let e := localizerEstimate ps ws
    localizerConverged e.2 positionLimit headingLimit = true →
    (∀ r, 0 < r → weighted (ps.zip ws) (fun g => if r ^ 2 ≤ (g 0 - e.1 0) ^ 2 + (g 1 - e.1 1) ^ 2 then 1 else 0) <
      positionLimit / r ^ 2) ∧
    1 - headingLimit / 2 < weighted (ps.zip ws) fun g => Real.cos (g 2 - e.1 2) := by
  intro e h
  simp only [localizerConverged, Bool.and_eq_true, decide_eq_true_eq] at h
  obtain ⟨-, -, hxx, hyy, -⟩ := estimate_position ps ws
  obtain ⟨-, h22, -⟩ := estimate_spread ps ws hl hN
  have hw : ∀ gw ∈ ps.zip ws, 0 ≤ gw.2 := fun gw hgw => hN.1 _ (List.of_mem_zip hgw).2
  constructor
  · intro r hr
    rw [lt_div_iff₀ (by positivity)]
    refine lt_of_le_of_lt ?_ h.1
    rw [hxx, hyy, ← weighted_add, mul_comm, ← weighted_smul]
    have := weighted_nonneg (ps.zip ws) (fun g => ((g 0 - e.1 0) ^ 2 + (g 1 - e.1 1) ^ 2) +
      (-1) * (r ^ 2 * if r ^ 2 ≤ (g 0 - e.1 0) ^ 2 + (g 1 - e.1 1) ^ 2 then 1 else 0)) hw (fun g => by
        split
        · linarith
        · nlinarith [sq_nonneg (g 0 - e.1 0), sq_nonneg (g 1 - e.1 1)])
    rw [weighted_add (ps.zip ws) (fun g => (g 0 - e.1 0) ^ 2 + (g 1 - e.1 1) ^ 2), weighted_smul] at this
    linarith
  · have h2 := h.2
    rw [h22] at h2
    have := lt_of_le_of_lt (le_max_left _ _) h2
    linarith

/-- C94. Exactly when the localiser reports it has converged: the mean squared distance of the guesses from the estimate
is below the position limit, and twice the shortfall of their mean cosine below one is below the heading limit.  A
heading limit of a millionth or less is never met, however close together the guesses are, since the reported spread
never falls below a millionth. -/
theorem converged_iff (ps : List (Fin 3 → ℝ)) (ws : List ℝ) (hl : ps.length = ws.length) (hN : Normalized ws)
    (positionLimit headingLimit : ℝ) :
    let e := localizerEstimate ps ws
    (localizerConverged e.2 positionLimit headingLimit = true ↔
      weighted (ps.zip ws) (fun g => (g 0 - e.1 0) ^ 2 + (g 1 - e.1 1) ^ 2) < positionLimit ∧
      2 * (1 - weighted (ps.zip ws) fun g => Real.cos (g 2 - e.1 2)) < headingLimit ∧ 1 / 1000000 < headingLimit) := by
  intro e
  obtain ⟨-, -, hxx, hyy, -⟩ := estimate_position ps ws
  obtain ⟨-, h22, -⟩ := estimate_spread ps ws hl hN
  simp only [localizerConverged, Bool.and_eq_true, decide_eq_true_eq]
  rw [h22, max_lt_iff, weighted_add, ← hxx, ← hyy]

example : Normalized [(1 : ℝ) / 4, 3 / 4] := by
  constructor
  · intro w hw; simp at hw; rcases hw with h | h <;> rw [h] <;> norm_num
  · norm_num

/-! ### Orientation, inertia, polynomials -/

/-- C46. A quaternion becomes a rotation exactly when its length exceeds machine epsilon; the rotation is then a unit
quaternion along it, and the unchecked constructor gives the same. -/
theorem try_from_quaternion (q : Quat ℝ) :
    (SO3.tryFromQuaternion q = none ↔ q.norm ≤ 1 / 2 ^ 52) ∧
    ∀ o, SO3.tryFromQuaternion q = some o → o.quaternion.IsUnit ∧ o.quaternion.scale q.norm = q ∧
      o = SO3.fromQuaternion q := by
  have hc : (!Fns.isFinite q.norm || decide (q.norm ≤ Fns.epsilon)) = true ↔ q.norm ≤ 1 / 2 ^ 52 := by
    simp [Fns.isFinite, Fns.epsilon]
  constructor
  · unfold SO3.tryFromQuaternion Quat.tryNormalized
    by_cases h : q.norm ≤ 1 / 2 ^ 52
    · rw [if_pos (hc.2 h)]; exact ⟨fun _ => h, fun _ => rfl⟩
    · rw [if_neg (fun h' => h (hc.1 h'))]; exact ⟨fun h' => (by cases h'), fun h' => absurd h' h⟩
  · intro o ho
    cases hq : q.tryNormalized with
    | none => rw [SO3.tryFromQuaternion, hq] at ho; cases ho
    | some p =>
      rw [SO3.tryFromQuaternion, hq] at ho
      cases ho
      refine ⟨KinematicTree.tryNormalized_isUnit hq, ?_⟩
      unfold Quat.tryNormalized at hq
      split at hq
      · cases hq
      · rename_i hn
        cases hq
        have hn0 : q.norm ≠ 0 := by
          intro h0
          exact hn (hc.2 (by rw [h0]; positivity))
        refine ⟨?_, rfl⟩
        cases q
        simp only [Quat.scale] at hn0 ⊢
        congr 1 <;> field_simp

example : SO3.tryFromQuaternion (⟨2, 0, 0, 0⟩ : Quat ℝ) ≠ none := by
  have h : (⟨2, 0, 0, 0⟩ : Quat ℝ).norm = 2 := by
    simp only [Quat.norm, Quat.normSquared, real_sqrt]
    rw [show (2 * 2 + 0 * 0 + 0 * 0 + 0 * 0 : ℝ) = 2 * 2 by ring, Real.sqrt_mul_self (by norm_num)]
  rw [Ne, (try_from_quaternion _).1, h]
  norm_num

/-- C49. A diagonal inertia is accepted exactly when the mass and the three moments are positive, and the body spins
about each axis through its centre of mass with that moment. -/
theorem from_diagonal_inertia (m : ℝ) (c d : Fin 3 → ℝ) :
    ((∃ b, SpatialInertia.fromDiagonalInertia m c d = .ok b) ↔ 0 < m ∧ ∀ i, 0 < d i) ∧
    ∀ b, SpatialInertia.fromDiagonalInertia m c d = .ok b → b.mass = m ∧ b.centerOfMass = c ∧
      ∀ ω, vdot ω (mmulVec b.rotationalInertia ω) = ∑ i, d i * ω i ^ 2 := by
  have hd : ∀ i j, (mdiagonal d : Matrix (Fin 3) (Fin 3) ℝ) i j = if j = i then d i else 0 := by
    intro i j; rfl
  have hsym : isSymmetric (mdiagonal d : Matrix (Fin 3) (Fin 3) ℝ) = true := by
    unfold isSymmetric
    simp only [List.all_eq_true, List.mem_finRange, forall_true_left]
    intro i j
    split
    · rename_i hij
      rw [hd, hd, if_neg hij.ne', if_neg hij.ne]
      simp [Fns.abs, epsilonX30, Fns.epsilon]
    · rfl
  constructor
  · constructor
    · rintro ⟨b, hb⟩
      obtain ⟨-, h1, -, h2⟩ := (inertia_new _ _ _ _).1 hb
      exact ⟨h1, fun i => by have := h2 i; rwa [hd, if_pos rfl] at this⟩
    · rintro ⟨h1, h2⟩
      exact ⟨_, (inertia_new _ _ _ _).2 ⟨rfl, h1, hsym, fun i => by rw [hd, if_pos rfl]; exact h2 i⟩⟩
  · intro b hb
    obtain ⟨rfl, -⟩ := (inertia_new _ _ _ _).1 hb
    refine ⟨rfl, rfl, fun ω => ?_⟩
    rw [vdot_eq, show mmulVec (mdiagonal d) ω = _ from mmulVec_eq _ _]
    simp only [dotProduct, Matrix.mulVec, hd, ite_mul, zero_mul, Finset.sum_ite_eq', Finset.mem_univ, if_true]
    exact Finset.sum_congr rfl fun i _ => by ring

/-- C73. A polynomial built from a list of terms over the reals is accepted exactly when they fit, and holds exactly
those terms in their order. -/
theorem try_from_terms {n : ℕ} (maxTerms : ℕ) (terms : List (Poly.Term n ℝ)) :
    (terms.length ≤ maxTerms → Poly.tryFromTerms maxTerms terms = .ok terms) ∧
    ∀ out, Poly.tryFromTerms maxTerms terms = .ok out → out = terms ∧ terms.length ≤ maxTerms := by
  constructor
  · intro h
    exact Poly.pushAll_real (l := []) (by simpa using h)
  · intro out h
    obtain ⟨h1, h2⟩ := Poly.pushAll_ok h (Nat.zero_le _)
    rw [List.nil_append] at h1
    exact ⟨h1, h1 ▸ h2⟩

/-! ### Derivative filtering in the PID controller -/

/-- C34. A derivative filter is accepted exactly for smoothing between zero and one, and then, from a fresh controller,
for every history of measurements whose rate of change stays within a bound, the filtered derivative stays within
that bound too. -/
theorem derivative_filter (p : Pid ℝ) (smoothing : ℝ) :
    ((∃ q, p.withDerivativeFilter smoothing = .ok q) ↔ 0 ≤ smoothing ∧ smoothing ≤ 1) ∧
    ∀ q, p.withDerivativeFilter smoothing = .ok q → ∀ (B : ℝ), 0 ≤ B → ∀ (xs : List (ℝ × ℝ)),
      (p.hasPreviousMeasurement = false) →
      (xs.map Prod.snd).IsChain (fun a b => |(a - b) / p.timestep| ≤ B) →
      |(q.run xs).2.derivativeFilter.state| ≤ B := by
  have hnew : p.withDerivativeFilter smoothing = if smoothing < 0 ∨ 1 < smoothing then
      .error (.signal .coefficientOutOfRange) else .ok { p with derivativeFilter := ⟨smoothing, 0, false⟩ } := by
    unfold Pid.withDerivativeFilter OnePole.new
    simp only [Fns.isFinite, Bool.not_true, Bool.false_eq_true, if_false]
    split_ifs <;> rfl
  rw [hnew]
  by_cases hs : smoothing < 0 ∨ 1 < smoothing
  · rw [if_pos hs]
    refine ⟨⟨fun ⟨q, hq⟩ => (by cases hq), fun h => ?_⟩, fun q hq => (by cases hq)⟩
    rcases hs with h' | h' <;> linarith [h.1, h.2]
  · rw [if_neg hs]
    push Not at hs
    refine ⟨⟨fun _ => hs, fun _ => ⟨_, rfl⟩⟩, ?_⟩
    intro q hq B hB xs hp hxs
    have key : ∀ (xs : List (ℝ × ℝ)) (q : Pid ℝ), q.derivativeFilter.smoothing = smoothing → q.timestep = p.timestep →
        |q.derivativeFilter.state| ≤ B →
        (if q.hasPreviousMeasurement then q.previousMeasurement :: xs.map Prod.snd else xs.map Prod.snd).IsChain
          (fun a b => |(a - b) / p.timestep| ≤ B) →
        |(q.run xs).2.derivativeFilter.state| ≤ B := by
      intro xs
      induction xs with
      | nil => intro q _ _ h _; exact h
      | cons x xs ih =>
        intro q h1 h2 h3 h4
        have hraw : |(if q.hasPreviousMeasurement then (q.previousMeasurement - x.2) / q.timestep else 0 : ℝ)| ≤ B := by
          split
          · rename_i hh
            rw [if_pos hh, List.map_cons, List.isChain_cons_cons] at h4
            rw [h2]; exact h4.1
          · simpa using hB
        refine ih (q.update x.1 x.2).2 ?_ h2 ?_ ?_
        · show (q.derivativeFilter.filter _).2.smoothing = smoothing
          unfold OnePole.filter
          dsimp only
          split <;> exact h1
        · show |(q.derivativeFilter.filter _).2.state| ≤ B
          unfold OnePole.filter
          dsimp only
          split
          · dsimp only
            rw [h1]
            rw [abs_le] at hraw h3 ⊢
            constructor <;> nlinarith [hs.1, hs.2]
          · exact hraw
        · show (if true = true then x.2 :: xs.map Prod.snd else xs.map Prod.snd).IsChain _
          rw [if_pos rfl]
          by_cases hh : q.hasPreviousMeasurement = true
          · rw [if_pos hh, List.map_cons, List.isChain_cons_cons] at h4
            exact h4.2
          · rw [if_neg hh, List.map_cons] at h4
            exact h4
    cases hq
    refine key xs _ rfl rfl (by simpa using hB) ?_
    simp only [hp, Bool.false_eq_true, if_false]
    exact hxs

example : (([(0, 1), (0, 2), (0, 1)] : List (ℝ × ℝ)).map Prod.snd).IsChain (fun a b => |(a - b) / (1 : ℝ)| ≤ 1) := by
  simp
  norm_num [abs_le]

/-! ### Inverse kinematics -/

section
variable {maxConfig : ℕ}

/-- C57. What the secondary objectives ask of a joint. Towards a preferred posture: a share of the way there, so that a
gain of one would land on it (up to whole turns for a continuous joint, by the shorter way round) and a smaller one
shrinks the distance by that share. Away from the limits: towards the middle of the range, in proportion to
the distance from it. -/
theorem secondary_wanted (reference : Fin maxConfig → ℝ) (j : Joint ℝ) (offset : ℕ) (h : offset < maxConfig)
    (value gain : ℝ) :
    (j.kind ≠ .continuous → ∃ w, secondaryWanted (.preferredPosture reference) j offset value gain = some w ∧
      value + w - reference ⟨offset, h⟩ = (1 - gain) * (value - reference ⟨offset, h⟩)) ∧
    (j.kind = .continuous → ∃ w, secondaryWanted (.preferredPosture reference) j offset value gain = some w ∧
      |w| ≤ |gain| * Real.pi ∧
      ∃ k : ℤ, value + w - (reference ⟨offset, h⟩ + k * (2 * Real.pi)) =
        (1 - gain) * (value - (reference ⟨offset, h⟩ + k * (2 * Real.pi)))) ∧
    (∀ lower upper, j.limits = some (lower, upper) → lower < upper →
      ∃ w, secondaryWanted (.jointLimitMargin : SecondaryObjective maxConfig ℝ) j offset value gain = some w ∧
        w * (upper - lower) = gain * ((lower + upper) / 2 - value)) ∧
    (j.limits = none → secondaryWanted (.jointLimitMargin : SecondaryObjective maxConfig ℝ) j offset value gain = none) := by
  have hr : KinematicTree.reading reference offset = some (reference ⟨offset, h⟩) := by
    rw [KinematicTree.reading, dif_pos h]
  refine ⟨fun hk => ?_, fun hk => ?_, fun lower upper hl hlu => ?_, fun hl => ?_⟩
  · refine ⟨gain * (reference ⟨offset, h⟩ - value), ?_, by ring⟩
    simp only [secondaryWanted, hr, if_neg hk]
  · refine ⟨gain * wrapToPi (reference ⟨offset, h⟩ - value), ?_, ?_, ?_⟩
    · simp only [secondaryWanted, hr, if_pos hk]
    · rw [abs_mul]
      refine mul_le_mul_of_nonneg_left ?_ (abs_nonneg _)
      exact abs_le.2 ⟨(wrapToPi_spec _).1, (wrapToPi_spec _).2.1⟩
    · obtain ⟨k, hk⟩ := (wrapToPi_spec (reference ⟨offset, h⟩ - value)).2.2.1
      refine ⟨-k, ?_⟩
      push_cast
      linear_combination -gain * hk
  · refine ⟨gain * ((lower + upper) * half - value) / (upper - lower), ?_, ?_⟩
    · simp only [secondaryWanted, hl, if_pos hlu]
    · rw [div_mul_cancel₀ _ (by linarith), half_real]
      ring
  · simp only [secondaryWanted, hl]

/-- C57. A step moves a floating base by what the step says: its position by the linear part, its orientation by the turn
of the angular part applied in the body; every other slot of the configuration is left alone. -/
theorem float_step (configuration step next : Fin maxConfig → ℝ) (c v : ℕ) (hc : c + 7 ≤ maxConfig) (hv : v + 6 ≤ maxConfig)
    (q : Quat ℝ) (hq : (Quat.mk (configuration ⟨c + 3, by omega⟩) (configuration ⟨c + 4, by omega⟩)
      (configuration ⟨c + 5, by omega⟩) (configuration ⟨c + 6, by omega⟩)).tryNormalized = some q) :
    let out := floatStep configuration step next c v
    let turned := q.mul (Quat.fromScaledAxis ![step ⟨v + 3, by omega⟩, step ⟨v + 4, by omega⟩, step ⟨v + 5, by omega⟩])
    (∀ i : Fin 3, out ⟨c + i.val, by omega⟩ = configuration ⟨c + i.val, by omega⟩ + step ⟨v + i.val, by omega⟩) ∧
    out ⟨c + 3, by omega⟩ = turned.w ∧ out ⟨c + 4, by omega⟩ = turned.x ∧ out ⟨c + 5, by omega⟩ = turned.y ∧
    out ⟨c + 6, by omega⟩ = turned.z ∧
    ∀ k : Fin maxConfig, (k.val < c ∨ c + 7 ≤ k.val) → out k = next k := by
  intro out turned
  have hwrite : ∀ (place : Fin 7 → ℝ) (k : Fin maxConfig),
      (List.finRange 7).foldl (fun next slot => writeAt next (c + slot.val) (place slot)) next k =
        if h : c ≤ k.val ∧ k.val < c + 7 then place ⟨k.val - c, by omega⟩ else next k := by
    intro place k
    have e7 : List.finRange 7 = [0, 1, 2, 3, 4, 5, 6] := by decide
    rw [e7]
    simp only [List.foldl_cons, List.foldl_nil, writeAt]
    by_cases h : c ≤ k.val ∧ k.val < c + 7
    · rw [dif_pos h]
      obtain ⟨j, hj⟩ : ∃ j, k.val = c + j := ⟨k.val - c, by omega⟩
      have hj7 : j < 7 := by omega
      have hp : place ⟨k.val - c, by omega⟩ = place ⟨j, hj7⟩ := by congr 2; omega
      rw [hp, hj]
      clear hp
      interval_cases j <;> simp <;> rfl
    · rw [dif_neg h]
      have hne : ∀ a : Fin 7, k.val ≠ c + a.val := fun a => by omega
      simp only [if_neg (hne _)]
  have hread : ∀ (f : Fin maxConfig → ℝ) (k : ℕ) (h : k < maxConfig), (KinematicTree.reading f k).getD 0 = f ⟨k, h⟩ := by
    intro f k h
    rw [KinematicTree.reading, dif_pos h]; rfl
  have hcfg : ∀ i : Fin 7, (KinematicTree.reading configuration (c + i.val)).getD 0 = configuration ⟨c + i.val, by omega⟩ :=
    fun i => hread _ _ _
  have hu := KinematicTree.tryNormalized_isUnit hq
  have hfree : FreeJointState.fromGeneralizedVectors (fun slot : Fin 7 => (KinematicTree.reading configuration (c + slot)).getD 0)
      (fun _ => 0) = some ⟨⟨⟨q⟩, ![configuration ⟨c + 0, by omega⟩, configuration ⟨c + 1, by omega⟩,
        configuration ⟨c + 2, by omega⟩]⟩, ⟨![0, 0, 0], ![0, 0, 0]⟩⟩ := by
    unfold FreeJointState.fromGeneralizedVectors
    simp only [hcfg]
    have e : (Quat.mk (configuration ⟨c + (3 : Fin 7).val, by omega⟩) (configuration ⟨c + (4 : Fin 7).val, by omega⟩)
      (configuration ⟨c + (5 : Fin 7).val, by omega⟩) (configuration ⟨c + (6 : Fin 7).val, by omega⟩)).tryNormalized = some q := hq
    rw [e]
    simp only [SO3.fromQuaternion, quat_normalized_unit q hu]
    rfl
  have hlin : (fun row : Fin 3 => (KinematicTree.reading step (v + row)).getD 0) =
      fun row : Fin 3 => step ⟨v + row.val, by omega⟩ := funext fun i => hread _ _ _
  have hang : vscaleBy (fun row : Fin 3 => (KinematicTree.reading step (v + 3 + row)).getD 0) 1 =
      ![step ⟨v + 3, by omega⟩, step ⟨v + 4, by omega⟩, step ⟨v + 5, by omega⟩] := by
    funext i
    simp only [vscaleBy, mul_one]
    rw [hread _ _ (by omega)]
    fin_cases i <;> rfl
  have hout : ∀ k : Fin maxConfig, out k = if h : c ≤ k.val ∧ k.val < c + 7 then
      (![configuration ⟨c + 0, by omega⟩ + step ⟨v + 0, by omega⟩, configuration ⟨c + 1, by omega⟩ + step ⟨v + 1, by omega⟩,
        configuration ⟨c + 2, by omega⟩ + step ⟨v + 2, by omega⟩, turned.w, turned.x, turned.y, turned.z] : Fin 7 → ℝ)
        ⟨k.val - c, by omega⟩ else next k := by
    intro k
    simp only [out, floatStep, hfree, hwrite]
    congr 1
    funext h
    simp only [FreeJointState.generalizedPosition, attitudeStep, SO3.compose, SO3.exp, hang, hlin]
    rfl
  have at' : ∀ (i : ℕ) (h : c + i < maxConfig) (hi : i < 7), out ⟨c + i, h⟩ =
      (![configuration ⟨c + 0, by omega⟩ + step ⟨v + 0, by omega⟩, configuration ⟨c + 1, by omega⟩ + step ⟨v + 1, by omega⟩,
        configuration ⟨c + 2, by omega⟩ + step ⟨v + 2, by omega⟩, turned.w, turned.x, turned.y, turned.z] : Fin 7 → ℝ)
        ⟨i, hi⟩ := by
    intro i h hi
    rw [hout, dif_pos ⟨by simp, by simpa using hi⟩]
    congr 2
    simp
  refine ⟨fun i => ?_, ?_, ?_, ?_, ?_, fun k hk => ?_⟩
  · rw [at' i.val _ (by omega)]
    fin_cases i <;> rfl
  · rw [at' 3 _ (by omega)]; rfl
  · rw [at' 4 _ (by omega)]; rfl
  · rw [at' 5 _ (by omega)]; rfl
  · rw [at' 6 _ (by omega)]; rfl
  · rw [hout, dif_neg (by omega)]

example : (Quat.mk 1 0 0 0 : Quat ℝ).tryNormalized = some ⟨1, 0, 0, 0⟩ :=
  tryNormalized_unit _ (by rw [isUnit_normSquared]; simp [Quat.normSquared])

end

end Multicalc
