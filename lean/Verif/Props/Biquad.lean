import Verif.Model.Biquad
import Verif.Lemmas.Signal
import Verif.Props.Scalar
import Mathlib.Analysis.SpecificLimits.Normed
import Mathlib.Analysis.Complex.Polynomial.Basic
import Mathlib.Tactic

/-!
# Properties C30–C32, C83, C84: second-order filters
-/

namespace Multicalc
variable {T : Type}

/-! ## Stability test (C31) -/

/-- The poles are the roots of `z² + a1 z + a2`. -/
def IsPole (a1 a2 : ℝ) (z : ℂ) : Prop := z ^ 2 + a1 * z + a2 = 0

theorem isStable_iff_cond (c : BiquadCoefficients ℝ) :
    c.isStable = true ↔ |c.a2| < 1 ∧ |c.a1| < 1 + c.a2 := by
  simp [BiquadCoefficients.isStable, Fns.abs]

theorem isPole_parts {a1 a2 : ℝ} {z : ℂ} (h : IsPole a1 a2 z) :
    z.re ^ 2 - z.im ^ 2 + a1 * z.re + a2 = 0 ∧ z.im * (2 * z.re + a1) = 0 := by
  unfold IsPole at h
  have h1 := congrArg Complex.re h
  have h2 := congrArg Complex.im h
  simp [pow_two] at h1 h2
  constructor
  · linarith
  · linarith

theorem pole_norm_lt {a1 a2 : ℝ} (h2 : |a2| < 1) (h1 : |a1| < 1 + a2) {z : ℂ}
    (hz : IsPole a1 a2 z) : ‖z‖ < 1 := by
  obtain ⟨e1, e2⟩ := isPole_parts hz
  obtain ⟨l2, u2⟩ := abs_lt.mp h2
  obtain ⟨l1, u1⟩ := abs_lt.mp h1
  have hn : ‖z‖ ^ 2 = z.re ^ 2 + z.im ^ 2 := by
    rw [← Complex.normSq_eq_norm_sq, Complex.normSq_apply]; ring
  have key : z.re ^ 2 + z.im ^ 2 < 1 := by
    rcases mul_eq_zero.mp e2 with h | h
    · rw [h] at e1 ⊢
      have e1' : z.re ^ 2 + a1 * z.re + a2 = 0 := by linarith
      have : |z.re| < 1 := by
        rw [abs_lt]
        constructor
        · by_contra hc
          push Not at hc
          nlinarith
        · by_contra hc
          push Not at hc
          nlinarith
      have := (sq_lt_one_iff_abs_lt_one z.re).mpr this
      linarith
    · have : a1 = -2 * z.re := by linarith
      rw [this] at e1
      nlinarith
  nlinarith [norm_nonneg z]

/-- C31. `is_stable` holds exactly when both poles lie strictly inside the unit circle. -/
theorem isStable_iff_poles (c : BiquadCoefficients ℝ) :
    c.isStable = true ↔ ∀ z : ℂ, IsPole c.a1 c.a2 z → ‖z‖ < 1 := by
  rw [isStable_iff_cond]
  constructor
  · rintro ⟨h1, h2⟩ z hz
    exact pole_norm_lt h1 h2 hz
  · intro h
    set a1 := c.a1
    set a2 := c.a2
    rcases le_or_gt 0 (a1 ^ 2 - 4 * a2) with hd | hd
    · set r := Real.sqrt (a1 ^ 2 - 4 * a2)
      have hr : r ^ 2 = a1 ^ 2 - 4 * a2 := Real.sq_sqrt hd
      have g : ∀ s : ℝ, s ^ 2 = a1 ^ 2 - 4 * a2 → |(-a1 + s) / 2| < 1 := by
        intro s hs
        have := h (((-a1 + s) / 2 : ℝ) : ℂ) (by
          unfold IsPole
          have : ((-a1 + s) / 2) ^ 2 + a1 * ((-a1 + s) / 2) + a2 = 0 := by
            linear_combination (1 / 4) * hs
          exact_mod_cast this)
        rwa [Complex.norm_real, Real.norm_eq_abs] at this
      obtain ⟨p1, p2⟩ := abs_lt.mp (g r hr)
      obtain ⟨q1, q2⟩ := abs_lt.mp (g (-r) (by rw [neg_sq]; exact hr))
      have ha2 : a2 = ((-a1 + r) / 2) * ((-a1 + -r) / 2) := by linear_combination (1 / 4) * hr
      have ha1 : a1 = -((-a1 + r) / 2 + (-a1 + -r) / 2) := by ring
      generalize (-a1 + r) / 2 = x at *
      generalize (-a1 + -r) / 2 = y at *
      rw [ha2, ha1, abs_lt, abs_lt]
      refine ⟨⟨?_, ?_⟩, ?_, ?_⟩ <;> nlinarith
    · set r := Real.sqrt (4 * a2 - a1 ^ 2)
      have hr : r ^ 2 = 4 * a2 - a1 ^ 2 := Real.sq_sqrt (by linarith)
      have hz := h ⟨-a1 / 2, r / 2⟩ (by
        unfold IsPole
        apply Complex.ext
        · simp [pow_two]; linear_combination (-1 / 4) * hr
        · simp [pow_two]; ring)
      have hn : ‖(⟨-a1 / 2, r / 2⟩ : ℂ)‖ ^ 2 = a2 := by
        rw [← Complex.normSq_eq_norm_sq, Complex.normSq_mk]; linear_combination (1 / 4) * hr
      have h1 : a2 < 1 := by
        rw [← hn]; nlinarith [norm_nonneg (⟨-a1 / 2, r / 2⟩ : ℂ)]
      have h0 : 0 < a2 := by nlinarith [sq_nonneg a1]
      refine ⟨abs_lt.mpr ⟨by linarith, h1⟩, ?_⟩
      apply abs_lt_of_sq_lt_sq _ (by linarith)
      nlinarith [sq_nonneg (1 - a2)]

/-- A pole-pair with both roots inside, and one outside. -/
example : (⟨1, 0, 0, -1/2, 1/4, 1⟩ : BiquadCoefficients ℝ).isStable = true ∧
    (⟨1, 0, 0, 0, 3/2, 1⟩ : BiquadCoefficients ℝ).isStable = false := by
  constructor
  · rw [isStable_iff_cond]; norm_num [abs_lt]
  · rw [Bool.eq_false_iff, ne_eq, isStable_iff_cond]; norm_num [abs_of_pos]

/-! ## Difference equation (C32) -/

section field
variable {K : Type} [Field K]

/-- The outputs of a biquad on an input sequence. -/
def biquadOut (f : Biquad K) (x : ℕ → K) (n : ℕ) : K :=
  ((runFilter Biquad.filter f (List.ofFn fun i : Fin n => x i)).2.filter (x n)).1

/-- The filter after `n` inputs. -/
def biquadAfter (f : Biquad K) (x : ℕ → K) (n : ℕ) : Biquad K :=
  (runFilter Biquad.filter f (List.ofFn fun i : Fin n => x i)).2

theorem biquadAfter_succ (f : Biquad K) (x : ℕ → K) (n : ℕ) :
    biquadAfter f x (n + 1) = ((biquadAfter f x n).filter (x n)).2 := by
  unfold biquadAfter
  rw [List.ofFn_succ_last, runFilter_append]
  simp [runFilter]

theorem biquadAfter_coeff (f : Biquad K) (x : ℕ → K) (n : ℕ) :
    (biquadAfter f x n).coefficients = f.coefficients := by
  induction n with
  | zero => rfl
  | succ n ih => rw [biquadAfter_succ]; exact ih

theorem biquadOut_eq (f : Biquad K) (x : ℕ → K) (n : ℕ) :
    biquadOut f x n = f.coefficients.b0 * x n + (biquadAfter f x n).firstState := by
  show ((biquadAfter f x n).filter (x n)).1 = _
  simp only [Biquad.filter, biquadAfter_coeff]

theorem biquadAfter_first (f : Biquad K) (x : ℕ → K) (n : ℕ) :
    (biquadAfter f x (n + 1)).firstState = f.coefficients.b1 * x n -
      f.coefficients.a1 * biquadOut f x n + (biquadAfter f x n).secondState := by
  rw [biquadAfter_succ, biquadOut_eq]
  simp only [Biquad.filter, biquadAfter_coeff]

theorem biquadAfter_second (f : Biquad K) (x : ℕ → K) (n : ℕ) :
    (biquadAfter f x (n + 1)).secondState = f.coefficients.b2 * x n -
      f.coefficients.a2 * biquadOut f x n := by
  rw [biquadAfter_succ, biquadOut_eq]
  simp only [Biquad.filter, biquadAfter_coeff]

/-- C32. For every input sequence and from any state, from the third sample on the outputs satisfy
the difference equation of the transfer function. -/
theorem biquad_difference (f : Biquad K) (x : ℕ → K) (n : ℕ) :
    let c := f.coefficients
    let y := biquadOut f x
    y (n + 2) = c.b0 * x (n + 2) + c.b1 * x (n + 1) + c.b2 * x n - c.a1 * y (n + 1)
      - c.a2 * y n := by
  simp only
  rw [biquadOut_eq f x (n + 2), biquadAfter_first, biquadAfter_second]
  ring

/-- C32. A fresh filter satisfies the same equation from the very first sample, with zeros before
it. -/
theorem biquad_difference_start (c : BiquadCoefficients K) (x : ℕ → K) :
    let y := biquadOut (Biquad.new c) x
    y 0 = c.b0 * x 0 ∧ y 1 = c.b0 * x 1 + c.b1 * x 0 - c.a1 * y 0 := by
  have h0 : biquadAfter (Biquad.new c) x 0 = Biquad.new c := rfl
  simp only
  constructor
  · rw [biquadOut_eq, h0]; simp [Biquad.new]
  · rw [biquadOut_eq _ _ 1, biquadAfter_first, h0]; simp [Biquad.new]; ring

/-- C32. After `settle_to value`, a constant input `value` gives the constant output DC gain times
value — no transient — and leaves the filter as it is. -/
theorem biquad_settle (f : Biquad K) (v : K)
    (hg : 1 + f.coefficients.a1 + f.coefficients.a2 ≠ 0) (n : ℕ) :
    let c := f.coefficients
    biquadOut (f.settleTo v) (fun _ => v) n = v * ((c.b0 + c.b1 + c.b2) / (1 + c.a1 + c.a2)) ∧
    (f.settleTo v).lastOutput = v * ((c.b0 + c.b1 + c.b2) / (1 + c.a1 + c.a2)) := by
  have hstep : ((f.settleTo v).filter v).2 = f.settleTo v ∧
      ((f.settleTo v).filter v).1 = (f.settleTo v).lastOutput := by
    have : f.coefficients.b0 * v + (f.coefficients.b1 * v - f.coefficients.a1 *
        (v * (f.coefficients.b0 + f.coefficients.b1 + f.coefficients.b2) /
          (1 + f.coefficients.a1 + f.coefficients.a2)) + (f.coefficients.b2 * v -
        f.coefficients.a2 * (v * (f.coefficients.b0 + f.coefficients.b1 + f.coefficients.b2) /
          (1 + f.coefficients.a1 + f.coefficients.a2)))) =
        v * (f.coefficients.b0 + f.coefficients.b1 + f.coefficients.b2) /
          (1 + f.coefficients.a1 + f.coefficients.a2) := by
      field_simp
      ring
    simp only [Biquad.filter, Biquad.settleTo, this]
    exact ⟨trivial, trivial⟩
  have hafter : ∀ n, biquadAfter (f.settleTo v) (fun _ => v) n = f.settleTo v := by
    intro n
    induction n with
    | zero => rfl
    | succ n ih => rw [biquadAfter_succ, ih]; exact hstep.1
  have hlast : (f.settleTo v).lastOutput = v * ((f.coefficients.b0 + f.coefficients.b1 +
      f.coefficients.b2) / (1 + f.coefficients.a1 + f.coefficients.a2)) := by
    simp only [Biquad.settleTo]; ring
  refine ⟨?_, hlast⟩
  show ((biquadAfter (f.settleTo v) (fun _ => v) n).filter v).1 = _
  rw [hafter, hstep.2, hlast]

/-- C32. The filter is linear: outputs of a weighted sum of two runs are the weighted sum of the
outputs, states included. -/
theorem biquad_linear (f g h : Biquad K) (p q : K) (hg : g.coefficients = f.coefficients)
    (hh : h.coefficients = f.coefficients) (x w : ℕ → K)
    (h1 : h.firstState = p * f.firstState + q * g.firstState)
    (h2 : h.secondState = p * f.secondState + q * g.secondState) (n : ℕ) :
    biquadOut h (fun k => p * x k + q * w k) n = p * biquadOut f x n + q * biquadOut g w n := by
  have key : ∀ n, (biquadAfter h (fun k => p * x k + q * w k) n).firstState =
        p * (biquadAfter f x n).firstState + q * (biquadAfter g w n).firstState ∧
      (biquadAfter h (fun k => p * x k + q * w k) n).secondState =
        p * (biquadAfter f x n).secondState + q * (biquadAfter g w n).secondState := by
    intro n
    induction n with
    | zero => exact ⟨h1, h2⟩
    | succ n ih =>
      simp only [biquadAfter_first, biquadAfter_second, biquadOut_eq, hg, hh, ih.1, ih.2]
      constructor <;> ring
  rw [biquadOut_eq, biquadOut_eq, biquadOut_eq, (key n).1, hg, hh]
  ring

end field

/-! ## Decay of the zero-input response (C31) -/

theorem poles_exist (a1 a2 : ℝ) : ∃ r s : ℂ, IsPole a1 a2 r ∧ IsPole a1 a2 s ∧ r + s = -a1 ∧
    r * s = a2 := by
  obtain ⟨r, hr⟩ := IsAlgClosed.exists_root
    (Polynomial.X ^ 2 + Polynomial.C (a1 : ℂ) * Polynomial.X + Polynomial.C (a2 : ℂ)) (by
      have : (Polynomial.X ^ 2 + Polynomial.C (a1 : ℂ) * Polynomial.X +
        Polynomial.C (a2 : ℂ)).degree = 2 := by compute_degree!
      rw [this]; decide)
  have hr' : r ^ 2 + a1 * r + a2 = 0 := by simpa [Polynomial.IsRoot] using hr
  refine ⟨r, -a1 - r, hr', ?_, by ring, by linear_combination -hr'⟩
  unfold IsPole
  linear_combination hr'

/-- Solutions of a stable second-order recurrence tend to zero. -/
theorem recurrence_decays (a1 a2 : ℝ) (hst : ∀ z : ℂ, IsPole a1 a2 z → ‖z‖ < 1) (y : ℕ → ℝ)
    (hy : ∀ n, y (n + 2) = -a1 * y (n + 1) - a2 * y n) :
    Filter.Tendsto y Filter.atTop (nhds 0) := by
  obtain ⟨r, s, hr, hs, hsum, hprod⟩ := poles_exist a1 a2
  have hr1 := hst r hr
  have hs1 := hst s hs
  set ρ := max (max ‖r‖ ‖s‖) (1 / 2) with hρ
  have hρ1 : ρ < 1 := by simp only [hρ, max_lt_iff]; exact ⟨⟨hr1, hs1⟩, by norm_num⟩
  have hρ0 : 1 / 2 ≤ ρ := le_max_right _ _
  have hrρ : ‖r‖ ≤ ρ := le_trans (le_max_left _ _) (le_max_left _ _)
  have hsρ : ‖s‖ ≤ ρ := le_trans (le_max_right _ _) (le_max_left _ _)
  let u : ℕ → ℂ := fun n => (y (n + 1) : ℂ) - s * (y n : ℂ)
  have hu : ∀ n, u (n + 1) = r * u n := by
    intro n
    simp only [u]
    rw [hy n]
    push_cast
    linear_combination (y (n + 1) : ℂ) * (-hsum) + (y n : ℂ) * hprod
  have hun : ∀ n, ‖u n‖ ≤ ρ ^ n * ‖u 0‖ := by
    intro n
    induction n with
    | zero => simp
    | succ n ih =>
      rw [hu, norm_mul, pow_succ']
      calc ‖r‖ * ‖u n‖ ≤ ρ * (ρ ^ n * ‖u 0‖) := by gcongr
        _ = _ := by ring
  have hyn : ∀ n : ℕ, |y n| ≤ (n + 1) * ρ ^ n * (2 * ‖u 0‖ + |y 0|) := by
    intro n
    induction n with
    | zero => simp
    | succ n ih =>
      have e : (y (n + 1) : ℂ) = u n + s * (y n : ℂ) := by simp [u]
      have h1 : |y (n + 1)| ≤ ‖u n‖ + ‖s‖ * |y n| := by
        have := norm_add_le (u n) (s * (y n : ℂ))
        rw [← e, Complex.norm_real, norm_mul, Complex.norm_real, Real.norm_eq_abs,
          Real.norm_eq_abs] at this
        exact this
      have h2 : ‖s‖ * |y n| ≤ ρ * ((n + 1) * ρ ^ n * (2 * ‖u 0‖ + |y 0|)) := by gcongr
      have h3 := hun n
      have h4 : ρ ^ n * ‖u 0‖ ≤ ρ ^ (n + 1) * (2 * ‖u 0‖ + |y 0|) := by
        rw [pow_succ, mul_assoc]
        have : ‖u 0‖ ≤ ρ * (2 * ‖u 0‖ + |y 0|) := by
          nlinarith [norm_nonneg (u 0), abs_nonneg (y 0)]
        have hp : 0 ≤ ρ ^ n := by positivity
        exact mul_le_mul_of_nonneg_left this hp
      push_cast
      calc |y (n + 1)| ≤ ρ ^ (n + 1) * (2 * ‖u 0‖ + |y 0|) +
            ρ * ((n + 1) * ρ ^ n * (2 * ‖u 0‖ + |y 0|)) := by linarith
        _ = _ := by ring
  have hlim : Filter.Tendsto (fun n : ℕ => ((n : ℝ) + 1) * ρ ^ n * (2 * ‖u 0‖ + |y 0|))
      Filter.atTop (nhds 0) := by
    have t1 := tendsto_self_mul_const_pow_of_lt_one (r := ρ) (by linarith) hρ1
    have t2 := tendsto_pow_atTop_nhds_zero_of_lt_one (r := ρ) (by linarith) hρ1
    have := (t1.add t2).mul_const (2 * ‖u 0‖ + |y 0|)
    simp only [add_zero, zero_mul] at this
    refine this.congr fun n => ?_
    ring
  exact squeeze_zero_norm (fun n => by rw [Real.norm_eq_abs]; exact hyn n) hlim

/-- C31. A stable filter forgets: from any state, with zero input, the output tends to zero. -/
theorem biquad_zero_input_decays (f : Biquad ℝ) (hs : f.coefficients.isStable = true) :
    Filter.Tendsto (biquadOut f fun _ => 0) Filter.atTop (nhds 0) := by
  refine recurrence_decays f.coefficients.a1 f.coefficients.a2
    ((isStable_iff_poles _).mp hs) _ fun n => ?_
  have := biquad_difference f (fun _ => (0 : ℝ)) n
  simp only at this
  rw [this]; ring

/-- C31. Two runs of a stable filter on the same input, from any two states, converge to each
other. -/
theorem biquad_forgets_state (f g : Biquad ℝ) (hg : g.coefficients = f.coefficients)
    (hs : f.coefficients.isStable = true) (x : ℕ → ℝ) :
    Filter.Tendsto (fun n => biquadOut f x n - biquadOut g x n) Filter.atTop (nhds 0) := by
  let d : Biquad ℝ := ⟨f.coefficients, f.firstState - g.firstState,
    f.secondState - g.secondState, 0⟩
  have h := biquad_zero_input_decays d hs
  refine h.congr fun n => ?_
  have := biquad_linear f g d 1 (-1) hg rfl x x (by simp [d]; ring) (by simp [d]; ring) n
  have e : (fun k => 1 * x k + -1 * x k) = fun _ => (0 : ℝ) := by funext k; ring
  rw [e] at this
  rw [this]; ring

/-! ## Designs (C30) -/

theorem stable_of_alpha (c : BiquadCoefficients ℝ) (α k : ℝ) (hα : 0 < α) (hk : |k| < 1)
    (h1 : c.a1 = -(2 * k) / (1 + α)) (h2 : c.a2 = (1 - α) / (1 + α)) : c.isStable = true := by
  rw [isStable_iff_cond, h1, h2]
  have hp : 0 < 1 + α := by linarith
  have e : 1 + (1 - α) / (1 + α) = 2 / (1 + α) := by field_simp; ring
  constructor
  · rw [abs_lt]
    constructor
    · rw [lt_div_iff₀ hp]; linarith
    · rw [div_lt_iff₀ hp]; linarith
  · rw [e, abs_div, abs_of_pos hp, abs_neg, abs_mul, abs_of_pos (show (0 : ℝ) < 2 by norm_num)]
    gcongr
    linarith

/-- What an accepted design guarantees about the arguments. -/
theorem checkDesign_ok {f q dt : ℝ} :
    BiquadCoefficients.checkDesign f q dt = .ok () ↔ 0 < dt ∧ 0 < q ∧ 0 < f ∧ f * dt < 1 / 2 := by
  unfold BiquadCoefficients.checkDesign
  simp only [Fns.isFinite, Bool.not_true, Bool.or_self, Bool.false_eq_true, if_false]
  split_ifs with h1 h2 h3
  · simp; intro h; linarith
  · simp; intro _ h; linarith
  · simp; intro _ _ h
    rcases h3 with h3 | h3
    · linarith
    · norm_num at h3 ⊢; linarith
  · push Not at h1 h2 h3
    simp only [true_iff]
    exact ⟨h1, h2, h3.1, h3.2⟩

theorem build_cases {d : Design} {f q dt : ℝ} {c : BiquadCoefficients ℝ}
    (h : BiquadCoefficients.build d f q dt = .ok c) :
    (0 < dt ∧ 0 < q ∧ 0 < f ∧ f * dt < 1 / 2) ∧ c.timestep = dt ∧
    c.a1 = -(2 * Real.cos (2 * Real.pi * f * dt)) / (1 +
      (match d with
        | .lowPass | .highPass => Real.sin (2 * Real.pi * f * dt) / (2 * q)
        | .bandPass | .notch => Real.tan (2 * Real.pi * f * dt / (2 * q)))) := by
  unfold BiquadCoefficients.build at h
  split at h
  · simp at h
  · next hc =>
    refine ⟨checkDesign_ok.mp hc, ?_⟩
    simp only [Except.ok.injEq] at h
    subst h
    exact ⟨rfl, by cases d <;> rfl⟩

theorem design_angle {f dt : ℝ} (h0 : 0 < dt) (h1 : 0 < f) (h2 : f * dt < 1 / 2) :
    0 < 2 * Real.pi * f * dt ∧ 2 * Real.pi * f * dt < Real.pi := by
  have := Real.pi_pos
  constructor
  · positivity
  · nlinarith

theorem abs_cos_lt {θ : ℝ} (h0 : 0 < θ) (h1 : θ < Real.pi) : |Real.cos θ| < 1 := by
  have hs := Real.sin_pos_of_pos_of_lt_pi h0 h1
  have := Real.sin_sq_add_cos_sq θ
  rw [← sq_lt_one_iff_abs_lt_one]
  nlinarith

/-- C30. Every accepted low-pass and high-pass design is stable. -/
theorem lowPass_highPass_stable (d : Design) (hd : d = .lowPass ∨ d = .highPass) (f q dt : ℝ)
    (c : BiquadCoefficients ℝ) (h : BiquadCoefficients.build d f q dt = .ok c) :
    c.isStable = true := by
  unfold BiquadCoefficients.build at h
  split at h
  · simp at h
  · next hc =>
    obtain ⟨h1, h2, h3, h4⟩ := checkDesign_ok.mp hc
    obtain ⟨g1, g2⟩ := design_angle h1 h3 h4
    simp only [Except.ok.injEq] at h
    have hs := Real.sin_pos_of_pos_of_lt_pi g1 g2
    rcases hd with rfl | rfl <;> subst h <;>
    exact stable_of_alpha _ (Real.sin (2 * Real.pi * f * dt) / (2 * q))
      (Real.cos (2 * Real.pi * f * dt)) (by positivity) (abs_cos_lt g1 g2) rfl rfl

/-- C30. A band-pass or notch design is stable whenever the quality factor exceeds twice the ratio
of centre frequency to sampling rate; in particular for every quality factor of at least one.
Missing: smaller quality factors, where the claim fails. -/
theorem bandPass_notch_stable_partial (d : Design) (hd : d = .bandPass ∨ d = .notch) (f q dt : ℝ)
    (hq : 2 * (f * dt) < q) (c : BiquadCoefficients ℝ)
    (h : BiquadCoefficients.build d f q dt = .ok c) : c.isStable = true := by
  unfold BiquadCoefficients.build at h
  split at h
  · simp at h
  · next hc =>
    obtain ⟨h1, h2, h3, h4⟩ := checkDesign_ok.mp hc
    obtain ⟨g1, g2⟩ := design_angle h1 h3 h4
    simp only [Except.ok.injEq] at h
    have ht : 0 < Real.tan (2 * Real.pi * f * dt / (2 * q)) := by
      apply Real.tan_pos_of_pos_of_lt_pi_div_two
      · positivity
      · rw [div_lt_iff₀ (by positivity)]
        nlinarith [Real.pi_pos]
    rcases hd with rfl | rfl <;> subst h <;>
    exact stable_of_alpha _ (Real.tan (2 * Real.pi * f * dt / (2 * q)))
      (Real.cos (2 * Real.pi * f * dt)) ht (abs_cos_lt g1 g2) rfl rfl

theorem tan_five_pi_six : Real.tan (5 * Real.pi / 6) = -(Real.sqrt 3 / 3) := by
  rw [show 5 * Real.pi / 6 = Real.pi - Real.pi / 6 by ring, Real.tan_pi_sub, Real.tan_pi_div_six]
  have : Real.sqrt 3 * Real.sqrt 3 = 3 := Real.mul_self_sqrt (by norm_num)
  have h0 : Real.sqrt 3 ≠ 0 := by positivity
  field_simp
  linarith

/-- C30 (finding). "Anything from one of the four design functions is always stable" is false: a
band-pass (and a notch) at a quarter of the sampling rate with quality factor 0.3 is accepted and
unstable. -/
theorem bandPass_notch_unstable (d : Design) (hd : d = .bandPass ∨ d = .notch) :
    ∃ c, BiquadCoefficients.build d (1 / 4 : ℝ) (3 / 10) 1 = .ok c ∧ c.isStable = false := by
  have hc : BiquadCoefficients.checkDesign (1 / 4 : ℝ) (3 / 10) 1 = .ok () :=
    checkDesign_ok.mpr (by norm_num)
  unfold BiquadCoefficients.build
  rw [hc]
  refine ⟨_, rfl, ?_⟩
  rw [Bool.eq_false_iff, ne_eq, isStable_iff_cond]
  rintro ⟨h, -⟩
  have ha : Real.tan (2 * Real.pi * (1 / 4) * 1 / (2 * (3 / 10))) = -(Real.sqrt 3 / 3) := by
    rw [← tan_five_pi_six]; congr 1; ring
  have h3 : Real.sqrt 3 * Real.sqrt 3 = 3 := Real.mul_self_sqrt (by norm_num)
  have h0 : 0 < Real.sqrt 3 := by positivity
  have hlt : Real.sqrt 3 < 3 := by nlinarith
  have : |(1 - -(Real.sqrt 3 / 3)) / (1 + -(Real.sqrt 3 / 3))| < 1 := by
    rcases hd with rfl | rfl <;>
    · simp only [BiquadCoefficients.fromUnnormalized, Fns.tan, Fns.pi, Fns.cos] at h
      rw [ha] at h
      exact h
  rw [abs_of_pos (div_pos (by linarith) (by linarith)), div_lt_one (by linarith)] at this
  linarith

example : (0 : ℝ) < 1 ∧ 2 * ((1 / 4 : ℝ) * 1) < 7 / 10 ∧
    ∃ c, BiquadCoefficients.build .notch (1 / 4 : ℝ) (7 / 10) 1 = .ok c := by
  refine ⟨by norm_num, by norm_num, ?_⟩
  unfold BiquadCoefficients.build
  rw [checkDesign_ok.mpr (by norm_num)]
  exact ⟨_, rfl⟩

/-! ## Frequency response (C30, C83) -/

/-- Specification: the transfer function on the unit circle, `w` standing for one sample of delay. -/
noncomputable def transferNum (c : BiquadCoefficients ℝ) (w : ℂ) : ℂ := c.b0 + c.b1 * w + c.b2 * w ^ 2
/-- Denominator of the transfer function. -/
noncomputable def transferDen (c : BiquadCoefficients ℝ) (w : ℂ) : ℂ := 1 + c.a1 * w + c.a2 * w ^ 2
/-- One sample of delay at an angle. -/
noncomputable def delayAt (θ : ℝ) : ℂ := Complex.exp (-(θ * Complex.I))

theorem delayAt_parts (θ : ℝ) : delayAt θ = ⟨Real.cos θ, -Real.sin θ⟩ := by
  unfold delayAt
  rw [← neg_mul, ← Complex.ofReal_neg]
  apply Complex.ext
  · rw [Complex.exp_ofReal_mul_I_re]; simp
  · rw [Complex.exp_ofReal_mul_I_im]; simp

theorem responseParts_eq (c : BiquadCoefficients ℝ) (f : ℝ) :
    let p := c.responseParts f
    let w := delayAt (2 * Real.pi * f * c.timestep)
    transferNum c w = ⟨p.1, p.2.1⟩ ∧ transferDen c w = ⟨p.2.2.1, p.2.2.2⟩ := by
  simp only [BiquadCoefficients.responseParts, delayAt_parts, transferNum, transferDen, Fns.cos,
    Fns.sin, Fns.pi]
  have h1 := Real.cos_two_mul (2 * Real.pi * f * c.timestep)
  have h2 := Real.sin_two_mul (2 * Real.pi * f * c.timestep)
  have h3 := Real.sin_sq_add_cos_sq (2 * Real.pi * f * c.timestep)
  rw [h1, h2]
  constructor <;> apply Complex.ext <;> simp [pow_two] <;>
    first | (linear_combination (-c.b2) * h3) | (linear_combination (-c.a2) * h3) | (left; linear_combination -h3) | ring

/-- C83. `magnitude_at` is the modulus of the transfer function on the unit circle, and `phase_at`
its argument up to the turns kept by the two arctangents. -/
theorem magnitude_phase (c : BiquadCoefficients ℝ) (f : ℝ) :
    let w := delayAt (2 * Real.pi * f * c.timestep)
    c.magnitudeAt f = ‖transferNum c w / transferDen c w‖ ∧
    (transferNum c w / transferDen c w : ℂ) =
      c.magnitudeAt f * Complex.exp (c.phaseAt f * Complex.I) := by
  obtain ⟨h1, h2⟩ := responseParts_eq c f
  simp only at h1 h2 ⊢
  have hm : c.magnitudeAt f = ‖transferNum c (delayAt (2 * Real.pi * f * c.timestep)) /
      transferDen c (delayAt (2 * Real.pi * f * c.timestep))‖ := by
    rw [norm_div, h1, h2]
    unfold BiquadCoefficients.magnitudeAt
    simp only [hypot_eq, Complex.norm_def, Complex.normSq_mk, pow_two]
  refine ⟨hm, ?_⟩
  rw [hm, norm_div]
  unfold BiquadCoefficients.phaseAt
  simp only [Fns.atan2]
  rw [← h1, ← h2]
  set N := transferNum c (delayAt (2 * Real.pi * f * c.timestep))
  set D := transferDen c (delayAt (2 * Real.pi * f * c.timestep))
  conv_lhs => rw [← Complex.norm_mul_exp_arg_mul_I N, ← Complex.norm_mul_exp_arg_mul_I D]
  push_cast
  rw [sub_mul, Complex.exp_sub, mul_div_mul_comm]

theorem ratio_fromUnnormalized (b0 b1 b2 L a1 a2 dt : ℝ) (hL : L ≠ 0) (w : ℂ) :
    let c := BiquadCoefficients.fromUnnormalized b0 b1 b2 L a1 a2 dt
    transferNum c w / transferDen c w =
      (b0 + b1 * w + b2 * w ^ 2) / (L + a1 * w + a2 * w ^ 2) := by
  have hL' : (L : ℂ) ≠ 0 := by exact_mod_cast hL
  simp only [transferNum, transferDen, BiquadCoefficients.fromUnnormalized]
  push_cast
  have e1 : (b0 / L + b1 / L * w + b2 / L * w ^ 2 : ℂ) = (b0 + b1 * w + b2 * w ^ 2) / L := by
    field_simp
  have e2 : (1 + a1 / L * w + a2 / L * w ^ 2 : ℂ) = (L + a1 * w + a2 * w ^ 2) / L := by
    field_simp
  rw [e1, e2, div_div_div_cancel_right₀ hL']

theorem delayAt_zero : delayAt 0 = 1 := by simp [delayAt]
theorem delayAt_pi : delayAt Real.pi = -1 := by
  rw [delayAt_parts]; apply Complex.ext <;> simp

/-- The facts about a design's angle that the gains need. -/
theorem delay_facts {θ : ℝ} (h0 : 0 < θ) (h1 : θ < Real.pi) :
    let k := Real.cos θ
    let s := Real.sin θ
    let w := delayAt θ
    (1 - 2 * k * w + w ^ 2 : ℂ) = 0 ∧ (1 - w ^ 2 : ℂ) ≠ 0 ∧
    ((1 - k) / 2 * (1 + w) ^ 2 : ℂ) = -Complex.I * (s / 2) * (1 - w ^ 2) ∧
    ((1 + k) / 2 * (1 - w) ^ 2 : ℂ) = Complex.I * (s / 2) * (1 - w ^ 2) := by
  have hs := Real.sin_pos_of_pos_of_lt_pi h0 h1
  have hsc := Real.sin_sq_add_cos_sq θ
  simp only [delayAt_parts]
  generalize Real.cos θ = k at *
  generalize Real.sin θ = s at *
  refine ⟨?_, ?_, ?_, ?_⟩
  · apply Complex.ext <;> simp [pow_two]
    · linear_combination -hsc
    · ring
  · intro h
    have := congrArg Complex.re h
    simp [pow_two] at this
    nlinarith
  · apply Complex.ext <;> simp [pow_two] 
    · linear_combination (-1 / 2) * (1 + k) * hsc
    · linear_combination (s / 2) * hsc
  · apply Complex.ext <;> simp [pow_two]
    · linear_combination (-1 / 2) * (1 - k) * hsc
    · linear_combination (-s / 2) * hsc

/-- Gains of each design at zero frequency, at the design frequency and at half the sampling rate. -/
def specGains (q : ℝ) : Design → ℝ × ℝ × ℝ
  | .lowPass => (1, q, 0)
  | .highPass => (0, q, 1)
  | .bandPass => (0, 1, 0)
  | .notch => (1, 0, 1)

/-- C30. Gains of every accepted design: low-pass passes a steady input unchanged and blocks half
the sampling rate, high-pass the reverse, band-pass blocks both and passes its centre unchanged,
notch passes both and removes its centre; low- and high-pass have gain equal to the quality factor
at the cutoff.  (For band-pass and notch the quality factor is above the stability bound.) -/
theorem design_gains (d : Design) (f q dt : ℝ) (c : BiquadCoefficients ℝ)
    (h : BiquadCoefficients.build d f q dt = .ok c)
    (hq : d = .bandPass ∨ d = .notch → 2 * (f * dt) < q) :
    c.magnitudeAt 0 = (specGains q d).1 ∧ c.magnitudeAt f = (specGains q d).2.1 ∧
    c.magnitudeAt (1 / (2 * dt)) = (specGains q d).2.2 := by
  have hts : c.timestep = dt := (build_cases h).2.1
  have hm := fun g => (magnitude_phase c g).1
  unfold BiquadCoefficients.build at h
  split at h
  · simp at h
  next hc =>
  obtain ⟨h1, h2, h3, h4⟩ := checkDesign_ok.mp hc
  obtain ⟨g1, g2⟩ := design_angle h1 h3 h4
  obtain ⟨w1, w2, w3, w4⟩ := delay_facts g1 g2
  have hk := abs_lt.mp (abs_cos_lt g1 g2)
  have hs := Real.sin_pos_of_pos_of_lt_pi g1 g2
  rw [hm, hm, hm, hts]
  rw [show 2 * Real.pi * 0 * dt = 0 by ring, delayAt_zero,
    show 2 * Real.pi * (1 / (2 * dt)) * dt = Real.pi by field_simp, delayAt_pi]
  simp only [Except.ok.injEq, Fns.cos, Fns.sin, Fns.tan, Fns.pi] at h
  have ht : d = .bandPass ∨ d = .notch → 0 < Real.tan (2 * Real.pi * f * dt / (2 * q)) := by
    intro hd
    apply Real.tan_pos_of_pos_of_lt_pi_div_two
    · positivity
    · rw [div_lt_iff₀ (by positivity)]
      have := hq hd
      nlinarith [Real.pi_pos]
  clear hm hts hc
  have hα : 0 < Real.sin (2 * Real.pi * f * dt) / (2 * q) := by positivity
  have hqs : Real.sin (2 * Real.pi * f * dt) = 2 * q *
      (Real.sin (2 * Real.pi * f * dt) / (2 * q)) := by field_simp
  generalize Real.sin (2 * Real.pi * f * dt) / (2 * q) = α at *
  generalize Real.tan (2 * Real.pi * f * dt / (2 * q)) = β at *
  generalize hw : delayAt (2 * Real.pi * f * dt) = w at *
  generalize Real.cos (2 * Real.pi * f * dt) = k at *
  generalize Real.sin (2 * Real.pi * f * dt) = s at *
  have k1 : (1 - k : ℂ) ≠ 0 := by
    have : (1 - k : ℝ) ≠ 0 := by linarith
    exact_mod_cast this
  have k2 : (1 + k : ℂ) ≠ 0 := by
    have : (1 + k : ℝ) ≠ 0 := by linarith
    exact_mod_cast this
  have hqn : ‖(q : ℂ)‖ = q := by rw [Complex.norm_real, Real.norm_eq_abs, abs_of_pos h2]
  have den : ∀ γ : ℝ, (1 + γ : ℝ) + (-(2 * k) : ℝ) * w + (1 - γ : ℝ) * w ^ 2 =
      (γ * (1 - w ^ 2) : ℂ) := by
    intro γ; push_cast; linear_combination w1
  cases d with
  | lowPass =>
    subst h
    have hα' : (α : ℂ) ≠ 0 := by exact_mod_cast hα.ne'
    simp only [ratio_fromUnnormalized _ _ _ _ _ _ _ (show 1 + α ≠ 0 by linarith), specGains]
    refine ⟨?_, ?_, ?_⟩
    · rw [show (((1 - k) * (1 / 2) : ℝ) + (1 - k : ℝ) * 1 + ((1 - k) * (1 / 2) : ℝ) * 1 ^ 2 : ℂ) =
        2 * (1 - k) by push_cast; ring,
        show ((1 + α : ℝ) + (-(2 * k) : ℝ) * 1 + (1 - α : ℝ) * 1 ^ 2 : ℂ) = 2 * (1 - k) by
          push_cast; ring, div_self (mul_ne_zero two_ne_zero k1), norm_one]
    · rw [den, show (((1 - k) * (1 / 2) : ℝ) + (1 - k : ℝ) * w + ((1 - k) * (1 / 2) : ℝ) * w ^ 2 : ℂ)
        = (1 - k) / 2 * (1 + w) ^ 2 by push_cast; ring, w3, hqs,
        show (-Complex.I * ((2 * q * α : ℝ) / 2) * (1 - w ^ 2) / (α * (1 - w ^ 2)) : ℂ) =
          -Complex.I * q by push_cast; field_simp, norm_mul, norm_neg, Complex.norm_I, one_mul, hqn]
    · rw [show (((1 - k) * (1 / 2) : ℝ) + (1 - k : ℝ) * (-1) + ((1 - k) * (1 / 2) : ℝ) * (-1) ^ 2 : ℂ)
        = 0 by push_cast; ring, zero_div, norm_zero]
  | highPass =>
    subst h
    have hα' : (α : ℂ) ≠ 0 := by exact_mod_cast hα.ne'
    simp only [ratio_fromUnnormalized _ _ _ _ _ _ _ (show 1 + α ≠ 0 by linarith), specGains]
    refine ⟨?_, ?_, ?_⟩
    · rw [show (((1 + k) * (1 / 2) : ℝ) + (-(1 + k) : ℝ) * 1 + ((1 + k) * (1 / 2) : ℝ) * 1 ^ 2 : ℂ)
        = 0 by push_cast; ring, zero_div, norm_zero]
    · rw [den, show (((1 + k) * (1 / 2) : ℝ) + (-(1 + k) : ℝ) * w +
          ((1 + k) * (1 / 2) : ℝ) * w ^ 2 : ℂ)
        = (1 + k) / 2 * (1 - w) ^ 2 by push_cast; ring, w4, hqs,
        show (Complex.I * ((2 * q * α : ℝ) / 2) * (1 - w ^ 2) / (α * (1 - w ^ 2)) : ℂ) =
          Complex.I * q by push_cast; field_simp, norm_mul, Complex.norm_I, one_mul, hqn]
    · rw [show (((1 + k) * (1 / 2) : ℝ) + (-(1 + k) : ℝ) * (-1) +
          ((1 + k) * (1 / 2) : ℝ) * (-1) ^ 2 : ℂ) = 2 * (1 + k) by push_cast; ring,
        show ((1 + α : ℝ) + (-(2 * k) : ℝ) * (-1) + (1 - α : ℝ) * (-1) ^ 2 : ℂ) = 2 * (1 + k) by
          push_cast; ring, div_self (mul_ne_zero two_ne_zero k2), norm_one]
  | bandPass =>
    subst h
    have hβ := ht (Or.inl rfl)
    have hβ' : (β : ℂ) ≠ 0 := by exact_mod_cast hβ.ne'
    simp only [ratio_fromUnnormalized _ _ _ _ _ _ _ (show 1 + β ≠ 0 by linarith), specGains]
    refine ⟨?_, ?_, ?_⟩
    · rw [show ((β : ℂ) + (0 : ℝ) * 1 + (-β : ℝ) * 1 ^ 2 : ℂ) = 0 by push_cast; ring, zero_div,
        norm_zero]
    · rw [den, show ((β : ℂ) + (0 : ℝ) * w + (-β : ℝ) * w ^ 2 : ℂ) = β * (1 - w ^ 2) by
        push_cast; ring, div_self (mul_ne_zero hβ' w2), norm_one]
    · rw [show ((β : ℂ) + (0 : ℝ) * (-1) + (-β : ℝ) * (-1) ^ 2 : ℂ) = 0 by push_cast; ring,
        zero_div, norm_zero]
  | notch =>
    subst h
    have hβ := ht (Or.inr rfl)
    simp only [ratio_fromUnnormalized _ _ _ _ _ _ _ (show 1 + β ≠ 0 by linarith), specGains]
    refine ⟨?_, ?_, ?_⟩
    · rw [show ((1 : ℝ) + (-(2 * k) : ℝ) * 1 + (1 : ℝ) * 1 ^ 2 : ℂ) = 2 * (1 - k) by
        push_cast; ring, show ((1 + β : ℝ) + (-(2 * k) : ℝ) * 1 + (1 - β : ℝ) * 1 ^ 2 : ℂ) =
          2 * (1 - k) by push_cast; ring, div_self (mul_ne_zero two_ne_zero k1), norm_one]
    · rw [show ((1 : ℝ) + (-(2 * k) : ℝ) * w + (1 : ℝ) * w ^ 2 : ℂ) = 0 by
        push_cast; linear_combination w1, zero_div, norm_zero]
    · rw [show ((1 : ℝ) + (-(2 * k) : ℝ) * (-1) + (1 : ℝ) * (-1) ^ 2 : ℂ) = 2 * (1 + k) by
        push_cast; ring, show ((1 + β : ℝ) + (-(2 * k) : ℝ) * (-1) + (1 - β : ℝ) * (-1) ^ 2 : ℂ) =
          2 * (1 + k) by push_cast; ring, div_self (mul_ne_zero two_ne_zero k2), norm_one]

end Multicalc
