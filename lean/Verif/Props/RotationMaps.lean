import Verif.Props.Directions
import Mathlib.Analysis.Real.Pi.Bounds

/-!
# Exponential and logarithm of rotations, interpolation, Euler angles
-/

namespace Multicalc

open Matrix

theorem smallAngle_real : (smallAngle : ℝ) = 30 / 2 ^ 52 := by
  simp only [smallAngle, epsilonX30, Fns.epsilon]; push_cast; ring

theorem smallAngleSq_real : (smallAngleSq : ℝ) = (30 / 2 ^ 52) ^ 2 := by
  rw [smallAngleSq, smallAngle_real]; ring

theorem lt_smallAngleSq (φ : Fin 3 → ℝ) : vdot φ φ < smallAngleSq ↔ vnorm φ < 30 / 2 ^ 52 := by
  rw [smallAngleSq_real, ← vnorm_sq, ← sq]
  have h : 0 ≤ vnorm φ := Real.sqrt_nonneg _
  constructor
  · intro h1; exact lt_of_pow_lt_pow_left₀ 2 (by norm_num) h1
  · intro h1; gcongr

theorem vnorm_nonneg {n : ℕ} (φ : Fin n → ℝ) : 0 ≤ vnorm φ := Real.sqrt_nonneg _

/-- The exponential away from zero. -/
theorem fromScaledAxis_main {φ : Fin 3 → ℝ} (h : 30 / 2 ^ 52 ≤ vnorm φ) :
    Quat.fromScaledAxis φ = ⟨Real.cos (vnorm φ / 2), φ 0 * (Real.sin (vnorm φ / 2) / vnorm φ),
      φ 1 * (Real.sin (vnorm φ / 2) / vnorm φ), φ 2 * (Real.sin (vnorm φ / 2) / vnorm φ)⟩ := by
  unfold Quat.fromScaledAxis
  dsimp only
  rw [if_neg (show ¬ vdot φ φ < smallAngleSq by rw [lt_smallAngleSq]; exact not_lt.2 h)]
  have e : (Fns.sqrt (vdot φ φ) : ℝ) = vnorm φ := rfl
  rw [e, half_real, mul_one_div]
  rfl

/-- The exponential near zero. -/
theorem fromScaledAxis_small {φ : Fin 3 → ℝ} (h : vnorm φ < 30 / 2 ^ 52) :
    Quat.fromScaledAxis φ = ⟨1 - vnorm φ ^ 2 / 8, φ 0 * (1 / 2 - vnorm φ ^ 2 / 48),
      φ 1 * (1 / 2 - vnorm φ ^ 2 / 48), φ 2 * (1 / 2 - vnorm φ ^ 2 / 48)⟩ := by
  unfold Quat.fromScaledAxis
  dsimp only
  rw [if_pos (show vdot φ φ < smallAngleSq by rw [lt_smallAngleSq]; exact h), half_real, real_lit,
    real_lit, ← vnorm_sq, ← sq]
  push_cast
  rfl

theorem vec_norm_scaled (φ : Fin 3 → ℝ) {s : ℝ} (hs : 0 ≤ s) :
    Real.sqrt (φ 0 * s * (φ 0 * s) + φ 1 * s * (φ 1 * s) + φ 2 * s * (φ 2 * s)) = vnorm φ * s := by
  have e : φ 0 * s * (φ 0 * s) + φ 1 * s * (φ 1 * s) + φ 2 * s * (φ 2 * s) = (vnorm φ * s) * (vnorm φ * s) := by
    have := vnorm_sq φ
    rw [vdot3] at this
    linear_combination (-s ^ 2) * this
  rw [e, Real.sqrt_mul_self (mul_nonneg (vnorm_nonneg φ) hs)]

/-- C47. The exponential of a rotation vector is a unit quaternion and rotates by the vector's length
about its direction: exactly when the length reaches the small-angle threshold, and within the fourth
power of the length below it. -/
theorem exp_spec (φ : Fin 3 → ℝ) :
    (30 / 2 ^ 52 ≤ vnorm φ → (Quat.fromScaledAxis φ).IsUnit ∧
      Quat.fromScaledAxis φ = Quat.fromAxisAngle φ (vnorm φ)) ∧
    (vnorm φ < 30 / 2 ^ 52 → |(Quat.fromScaledAxis φ).normSquared - 1| ≤ vnorm φ ^ 4) := by
  constructor
  · intro h
    have h1 : 1 / 2 ^ 52 < vnorm φ := lt_of_lt_of_le (by norm_num) h
    have heq : Quat.fromScaledAxis φ = Quat.fromAxisAngle φ (vnorm φ) := by
      rw [fromScaledAxis_main h]
      unfold Quat.fromAxisAngle
      have e : (Fns.sqrt (vdot φ φ) : ℝ) = vnorm φ := rfl
      rw [e]
      dsimp only
      rw [if_neg (show ¬ vnorm φ ≤ Fns.epsilon from not_le.2 h1), half_real, mul_one_div]
      rfl
    exact ⟨by rw [heq]; exact (fromAxisAngle_rodrigues φ _ h1 0).1, heq⟩
  · intro h
    rw [fromScaledAxis_small h]
    have hsq := vnorm_sq φ
    rw [vdot3] at hsq
    have h0 := vnorm_nonneg φ
    simp only [Quat.normSquared]
    have e : (1 - vnorm φ ^ 2 / 8) * (1 - vnorm φ ^ 2 / 8) +
        φ 0 * (1 / 2 - vnorm φ ^ 2 / 48) * (φ 0 * (1 / 2 - vnorm φ ^ 2 / 48)) +
        φ 1 * (1 / 2 - vnorm φ ^ 2 / 48) * (φ 1 * (1 / 2 - vnorm φ ^ 2 / 48)) +
        φ 2 * (1 / 2 - vnorm φ ^ 2 / 48) * (φ 2 * (1 / 2 - vnorm φ ^ 2 / 48)) - 1 =
        vnorm φ ^ 4 * (-1 / 192 + vnorm φ ^ 2 / 2304) := by
      linear_combination (-(1 / 2 - vnorm φ ^ 2 / 48) ^ 2) * hsq
    rw [e, abs_mul, abs_of_nonneg (by positivity)]
    have h2 : vnorm φ ^ 2 ≤ 1 := by nlinarith
    have : |(-1 / 192 + vnorm φ ^ 2 / 2304)| ≤ 1 := by
      rw [abs_le]; constructor <;> nlinarith [sq_nonneg (vnorm φ)]
    calc vnorm φ ^ 4 * |(-1 / 192 + vnorm φ ^ 2 / 2304)| ≤ vnorm φ ^ 4 * 1 := by gcongr
      _ = _ := mul_one _

/-- C47. The quaternion exponential of `w + v`: it is `e^w (cos |v| + sin |v| / |v| v)`,
exactly from the small-angle threshold on, and below it each part is within the next term's power of `|v|`
times `e^w` (the vector part after multiplication by `|v|`, so that zero is included). -/
theorem quat_exp_spec (q : Quat ℝ) (s : ℝ)
    (hs : s = Real.sqrt (q.x * q.x + q.y * q.y + q.z * q.z)) :
    (30 / 2 ^ 52 ≤ s → q.exp = ⟨Real.exp q.w * Real.cos s, q.x * (Real.exp q.w * (Real.sin s / s)),
      q.y * (Real.exp q.w * (Real.sin s / s)), q.z * (Real.exp q.w * (Real.sin s / s))⟩) ∧
    (s < 30 / 2 ^ 52 → |q.exp.w - Real.exp q.w * Real.cos s| ≤ Real.exp q.w * s ^ 4 ∧
      |s * q.exp.x - q.x * (Real.exp q.w * Real.sin s)| ≤ |q.x| * (Real.exp q.w * s ^ 5) ∧
      |s * q.exp.y - q.y * (Real.exp q.w * Real.sin s)| ≤ |q.y| * (Real.exp q.w * s ^ 5) ∧
      |s * q.exp.z - q.z * (Real.exp q.w * Real.sin s)| ≤ |q.z| * (Real.exp q.w * s ^ 5)) := by
  have hs0 : 0 ≤ s := hs ▸ Real.sqrt_nonneg _
  have hsq : q.x * q.x + q.y * q.y + q.z * q.z = s ^ 2 := by
    rw [hs, Real.sq_sqrt (by nlinarith [mul_self_nonneg q.x, mul_self_nonneg q.y, mul_self_nonneg q.z])]
  have hlt : q.x * q.x + q.y * q.y + q.z * q.z < smallAngleSq ↔ s < 30 / 2 ^ 52 := by
    rw [hsq, smallAngleSq_real]
    constructor
    · intro h1; exact lt_of_pow_lt_pow_left₀ 2 (by norm_num) h1
    · intro h1; gcongr
  constructor
  · intro h
    unfold Quat.exp
    dsimp only
    rw [if_neg (by rw [hlt]; exact not_lt.2 h), real_sqrt, ← hs]
    rfl
  · intro h
    unfold Quat.exp
    dsimp only
    rw [if_pos (hlt.2 h), hsq, real_lit]
    have h1 : |s| ≤ 1 := by rw [abs_of_nonneg hs0]; exact h.le.trans (by norm_num)
    have hc := Real.cos_bound h1
    have hn := Real.sin_bound h1
    rw [abs_of_nonneg hs0] at hc hn
    have he := Real.exp_pos q.w
    have hs4 : 0 ≤ s ^ 4 := by positivity
    have hs5 : 0 ≤ s ^ 5 := by positivity
    change |Real.exp q.w * (1 - s ^ 2 / ((2 : ℕ) : ℝ)) - _| ≤ _ ∧ _
    have aux : ∀ c : ℝ, |s * (c * (Real.exp q.w * (1 - s ^ 2 / ((6 : ℚ) : ℝ)))) -
        c * (Real.exp q.w * Real.sin s)| ≤ |c| * (Real.exp q.w * s ^ 5) := by
      intro c
      have e : s * (c * (Real.exp q.w * (1 - s ^ 2 / ((6 : ℚ) : ℝ)))) -
          c * (Real.exp q.w * Real.sin s) = -(c * (Real.exp q.w * (Real.sin s - (s - s ^ 3 / 6)))) := by
        push_cast; ring
      rw [e, abs_neg, abs_mul, abs_mul, abs_of_pos he]
      gcongr
      linarith
    refine ⟨?_, aux q.x, aux q.y, aux q.z⟩
    have e : Real.exp q.w * (1 - s ^ 2 / ((2 : ℕ) : ℝ)) - Real.exp q.w * Real.cos s =
        -(Real.exp q.w * (Real.cos s - (1 - s ^ 2 / 2))) := by push_cast; ring
    rw [e, abs_neg, abs_mul, abs_of_pos he]
    gcongr
    linarith

example : (0 : ℝ) = Real.sqrt ((⟨1, 0, 0, 0⟩ : Quat ℝ).x * 0 + 0 * 0 + 0 * 0) := by simp

/-- C47. The quaternion logarithm undoes the exponential: for every `w + v` with `|v| < π` whose
exponential is outside the small-angle case, `log (exp (w + v)) = w + v`. -/
theorem quat_log_exp (q : Quat ℝ) (s : ℝ)
    (hs : s = Real.sqrt (q.x * q.x + q.y * q.y + q.z * q.z)) (h : 30 / 2 ^ 52 ≤ s)
    (hpi : s < Real.pi) (hbig : smallAngle ≤ Real.exp q.w * Real.sin s ∨ Real.cos s ≤ 0) :
    q.exp.log = q := by
  have hs0 : 0 < s := lt_of_lt_of_le (by norm_num) h
  have hsq : q.x * q.x + q.y * q.y + q.z * q.z = s ^ 2 := by
    rw [hs, Real.sq_sqrt (by nlinarith [mul_self_nonneg q.x, mul_self_nonneg q.y, mul_self_nonneg q.z])]
  have he := Real.exp_pos q.w
  have hsin : 0 < Real.sin s := Real.sin_pos_of_pos_of_lt_pi hs0 hpi
  rw [(quat_exp_spec q s hs).1 h]
  have hvn : Real.sqrt (q.x * (Real.exp q.w * (Real.sin s / s)) * (q.x * (Real.exp q.w * (Real.sin s / s)))
      + q.y * (Real.exp q.w * (Real.sin s / s)) * (q.y * (Real.exp q.w * (Real.sin s / s)))
      + q.z * (Real.exp q.w * (Real.sin s / s)) * (q.z * (Real.exp q.w * (Real.sin s / s))))
      = Real.exp q.w * Real.sin s := by
    rw [show q.x * (Real.exp q.w * (Real.sin s / s)) * (q.x * (Real.exp q.w * (Real.sin s / s)))
      + q.y * (Real.exp q.w * (Real.sin s / s)) * (q.y * (Real.exp q.w * (Real.sin s / s)))
      + q.z * (Real.exp q.w * (Real.sin s / s)) * (q.z * (Real.exp q.w * (Real.sin s / s)))
      = (q.x * q.x + q.y * q.y + q.z * q.z) * (Real.exp q.w * (Real.sin s / s)) ^ 2 by ring, hsq,
      show s ^ 2 * (Real.exp q.w * (Real.sin s / s)) ^ 2 = (Real.exp q.w * Real.sin s) ^ 2 by
        field_simp]
    exact Real.sqrt_sq (by positivity)
  have hnorm : (⟨Real.exp q.w * Real.cos s, q.x * (Real.exp q.w * (Real.sin s / s)),
      q.y * (Real.exp q.w * (Real.sin s / s)), q.z * (Real.exp q.w * (Real.sin s / s))⟩ : Quat ℝ).norm
      = Real.exp q.w := by
    unfold Quat.norm Quat.normSquared
    rw [real_sqrt]
    dsimp only
    rw [show Real.exp q.w * Real.cos s * (Real.exp q.w * Real.cos s) +
      q.x * (Real.exp q.w * (Real.sin s / s)) * (q.x * (Real.exp q.w * (Real.sin s / s)))
      + q.y * (Real.exp q.w * (Real.sin s / s)) * (q.y * (Real.exp q.w * (Real.sin s / s)))
      + q.z * (Real.exp q.w * (Real.sin s / s)) * (q.z * (Real.exp q.w * (Real.sin s / s)))
      = Real.exp q.w ^ 2 * (Real.cos s ^ 2 + (q.x * q.x + q.y * q.y + q.z * q.z) * (Real.sin s / s) ^ 2)
      by ring, hsq, show s ^ 2 * (Real.sin s / s) ^ 2 = Real.sin s ^ 2 by field_simp,
      Real.cos_sq_add_sin_sq, mul_one]
    exact Real.sqrt_sq he.le
  have hatan : (Fns.atan2 (Real.exp q.w * Real.sin s) (Real.exp q.w * Real.cos s) : ℝ) = s := by
    exact atan2_polar he (by linarith) hpi.le
  unfold Quat.log
  dsimp only
  rw [hnorm, real_sqrt, hvn, if_neg, hatan]
  · have e : ∀ c : ℝ, c * (Real.exp q.w * (Real.sin s / s)) * (s / (Real.exp q.w * Real.sin s)) = c := by
      intro c
      have := hsin.ne'
      field_simp
    ext
    · exact Real.log_exp q.w
    · exact e q.x
    · exact e q.y
    · exact e q.z
  · rintro ⟨h1, h2⟩
    rcases hbig with h3 | h3
    · linarith
    · nlinarith

example : (1 : ℝ) = Real.sqrt ((⟨0, 1, 0, 0⟩ : Quat ℝ).x * 1 + 0 * 0 + 0 * 0) ∧ (1 : ℝ) < Real.pi := by
  constructor
  · simp
  · linarith [Real.pi_gt_three]

/-- C47. `log(exp(φ))` for every rotation vector no longer than π: it is `φ` itself as soon as `φ` is
longer than 96 rounding units, and otherwise `φ` shortened by at most the sixteenth of its squared
length. -/
theorem so3_log_exp (φ : Fin 3 → ℝ) (h : vnorm φ ≤ Real.pi) :
    ∃ k : ℝ, (SO3.exp φ).log = (fun i => φ i * k) ∧ 1 - vnorm φ ^ 2 / 16 ≤ k ∧ k ≤ 1 ∧
      (96 / 2 ^ 52 ≤ vnorm φ → (SO3.exp φ).log = φ) := by
  have h0 := vnorm_nonneg φ
  have hpi := Real.pi_pos
  have hpi4 := Real.pi_le_four
  -- the sine of half the length stays above the switch for lengths above 96 units
  have hsin : 96 / 2 ^ 52 ≤ vnorm φ → 30 / 2 ^ 52 ≤ Real.sin (vnorm φ / 2) := by
    intro h1
    have := Real.mul_le_sin (x := vnorm φ / 2) (by linarith) (by linarith)
    refine le_trans ?_ this
    rw [div_mul_eq_mul_div, le_div_iff₀ hpi]
    have hpi3 : Real.pi < 3.2 := by
      have := Real.pi_lt_d2; linarith
    nlinarith
  unfold SO3.log SO3.exp
  dsimp only
  by_cases hs : vnorm φ < 30 / 2 ^ 52
  · have hn2 : vnorm φ ^ 2 ≤ 1 := by nlinarith
    have hscale : 0 ≤ (1 / 2 - vnorm φ ^ 2 / 48 : ℝ) := by linarith
    have hvn := vec_norm_scaled φ hscale
    refine ⟨1 - vnorm φ ^ 2 / 24, ?_, by nlinarith [sq_nonneg (vnorm φ)], by nlinarith [sq_nonneg (vnorm φ)], fun h1 => ?_⟩
    · rw [fromScaledAxis_small hs]
      unfold Quat.toScaledAxis Quat.shortest
      dsimp only
      rw [if_neg (show ¬ (1 - vnorm φ ^ 2 / 8 < 0) by linarith)]
      dsimp only
      rw [real_sqrt, hvn, if_pos (show vnorm φ * (1 / 2 - vnorm φ ^ 2 / 48) < smallAngle by
        rw [smallAngle_real]; nlinarith [sq_nonneg (vnorm φ)])]
      funext i
      fin_cases i <;> simp <;> ring
    · exfalso; linarith
  · push Not at hs
    have hpos : 0 < vnorm φ := lt_of_lt_of_le (by norm_num) hs
    have hcos : 0 ≤ Real.cos (vnorm φ / 2) :=
      Real.cos_nonneg_of_mem_Icc ⟨by linarith, by linarith⟩
    have hsn : 0 < Real.sin (vnorm φ / 2) := Real.sin_pos_of_pos_of_lt_pi (by linarith) (by linarith)
    have hvn := vec_norm_scaled φ (s := Real.sin (vnorm φ / 2) / vnorm φ) (by positivity)
    rw [mul_div_cancel₀ _ hpos.ne'] at hvn
    have hlog : ∀ c : ℝ, (if Real.sin (vnorm φ / 2) < smallAngle then ((2 : ℕ) : ℝ)
        else (((2 : ℕ) : ℝ) * Fns.atan2 (Real.sin (vnorm φ / 2)) (Real.cos (vnorm φ / 2))) /
          Real.sin (vnorm φ / 2)) = c →
        (Quat.fromScaledAxis φ).toScaledAxis = fun i => φ i * (Real.sin (vnorm φ / 2) / vnorm φ * c) := by
      intro c hc
      rw [fromScaledAxis_main hs]
      unfold Quat.toScaledAxis Quat.shortest
      dsimp only
      rw [if_neg (not_lt.2 hcos)]
      dsimp only
      rw [real_sqrt, hvn, hc]
      funext i
      fin_cases i <;> simp <;> ring
    by_cases hb : Real.sin (vnorm φ / 2) < 30 / 2 ^ 52
    · rw [hlog 2 (by rw [if_pos (by rw [smallAngle_real]; exact hb)]; norm_num)]
      refine ⟨_, rfl, ?_, ?_, fun h1 => absurd (hsin h1) (not_le.2 hb)⟩
      · have hx : vnorm φ / 2 ≤ 1 := by
          by_contra hcon
          push Not at hcon
          have := hsin (by linarith [show (96 : ℝ) / 2 ^ 52 ≤ 2 by norm_num])
          linarith
        have := Real.sin_gt_sub_cube (x := vnorm φ / 2) (by linarith)
        rw [div_mul_eq_mul_div, le_div_iff₀ hpos]
        nlinarith
      · have := Real.sin_lt (x := vnorm φ / 2) (by linarith)
        rw [div_mul_eq_mul_div, div_le_one hpos]
        linarith
    · have hat : Fns.atan2 (Real.sin (vnorm φ / 2)) (Real.cos (vnorm φ / 2)) = vnorm φ / 2 := by
        have := atan2_polar (r := 1) (θ := vnorm φ / 2) one_pos (by linarith) (by linarith)
        rwa [one_mul, one_mul] at this
      rw [hlog (vnorm φ / Real.sin (vnorm φ / 2)) (by
        rw [if_neg (by rw [smallAngle_real]; exact hb), hat]; push_cast; congr 1; ring)]
      have e : Real.sin (vnorm φ / 2) / vnorm φ * (vnorm φ / Real.sin (vnorm φ / 2)) = 1 := by
        field_simp
      rw [e]
      exact ⟨1, rfl, by nlinarith [sq_nonneg (vnorm φ)], le_rfl, fun _ => by simp⟩

/-- A half turn meets the hypotheses. -/
example : vnorm ![Real.pi, 0, 0] ≤ Real.pi ∧ 96 / 2 ^ 52 ≤ vnorm ![Real.pi, 0, 0] := by
  have : vnorm ![Real.pi, 0, 0] = Real.pi := by
    rw [vnorm, real_sqrt, vnormSquared, vdot3]
    simp [Real.pi_pos.le]
  rw [this]
  exact ⟨le_rfl, le_trans (by norm_num) Real.two_le_pi⟩

end Multicalc
