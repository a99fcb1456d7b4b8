import Verif.Props.BiquadResponse
import Verif.Lemmas.Spatial
import Verif.Model.XR
import Mathlib.Analysis.Complex.ExponentialBounds
import Mathlib.Analysis.SpecialFunctions.Log.Base

/-!
# Property C118: delay and decibels of a filter and of a cascade
-/

namespace Multicalc
open Filter Topology

/-- The denominator's share of the phase, for a filter whose last weight is below one: it is an angle strictly inside
half a turn, acute exactly when `u` is positive, less the angle of one sample. -/
theorem den_phase (a1 a2 θ : ℝ) (h2 : a2 < 1) (h0 : 0 < θ) (h1 : θ < Real.pi) :
    ∃ φ, 0 < φ ∧ φ < Real.pi ∧
      Fns.atan2 (-(a1 * Real.sin θ + a2 * Real.sin (2 * θ))) (1 + a1 * Real.cos θ + a2 * Real.cos (2 * θ)) = φ - θ ∧
      (0 < (1 + a2) * Real.cos θ + a1 → φ < Real.pi / 2) ∧
      ((1 + a2) * Real.cos θ + a1 = 0 → φ = Real.pi / 2) ∧
      ((1 + a2) * Real.cos θ + a1 < 0 → Real.pi / 2 < φ) := by
  set u := (1 + a2) * Real.cos θ + a1 with hu
  set v := (1 - a2) * Real.sin θ with hv
  have hs := Real.sin_pos_of_pos_of_lt_pi h0 h1
  have hvp : 0 < v := mul_pos (by linarith) hs
  have hn : 0 < u ^ 2 + v ^ 2 := by positivity
  set r := Real.sqrt (u ^ 2 + v ^ 2) with hr
  have hrp : 0 < r := Real.sqrt_pos.2 hn
  set φ := Complex.arg ⟨u, v⟩ with hφ
  have hcs : r * Real.cos φ = u ∧ r * Real.sin φ = v := atan2_cos hn
  have hsφ : 0 < Real.sin φ := by
    by_contra h
    have := mul_nonpos_of_nonneg_of_nonpos hrp.le (not_lt.1 h)
    linarith [hcs.2]
  have hlo : 0 < φ := by
    by_contra h
    have := Real.sin_nonpos_of_nonpos_of_neg_pi_le (not_lt.1 h) (Complex.neg_pi_lt_arg _).le
    linarith
  have hhi : φ < Real.pi := by
    refine lt_of_le_of_ne (Complex.arg_le_pi _) fun h => ?_
    rw [h, Real.sin_pi] at hsφ
    exact lt_irrefl _ hsφ
  refine ⟨φ, hlo, hhi, ?_, fun h => ?_, fun h => ?_, fun h => ?_⟩
  · have hsc := Real.sin_sq_add_cos_sq θ
    have e1 : -(a1 * Real.sin θ + a2 * Real.sin (2 * θ)) = r * Real.sin (φ - θ) := by
      rw [Real.sin_sub, mul_sub, ← mul_assoc, ← mul_assoc, hcs.1, hcs.2, hu, hv, Real.sin_two_mul]
      ring
    have e2 : 1 + a1 * Real.cos θ + a2 * Real.cos (2 * θ) = r * Real.cos (φ - θ) := by
      rw [Real.cos_sub, mul_add, ← mul_assoc, ← mul_assoc, hcs.1, hcs.2, hu, hv, Real.cos_two_mul]
      linear_combination (a2 - 1) * hsc
    rw [e1, e2]
    exact atan2_polar hrp (by linarith) (by linarith)
  · by_contra h'
    have := Real.cos_nonpos_of_pi_div_two_le_of_le (not_lt.1 h') (by linarith)
    have := mul_nonpos_of_nonneg_of_nonpos hrp.le this
    linarith [hcs.1]
  · have hc0 : Real.cos φ = 0 := by
      have := hcs.1
      rw [h] at this
      exact (mul_eq_zero.1 this).resolve_left hrp.ne'
    have hpi : Real.pi / 2 ∈ Set.Icc 0 Real.pi := ⟨by linarith [Real.pi_pos], by linarith [Real.pi_pos]⟩
    exact Real.injOn_cos ⟨hlo.le, hhi.le⟩ hpi (by rw [hc0, Real.cos_pi_div_two])
  · by_contra h'
    have := Real.cos_nonneg_of_neg_pi_div_two_le_of_le (by linarith [Real.pi_pos]) (not_lt.1 h')
    have := mul_nonneg hrp.le this
    linarith [hcs.1]

/-- A design's weights. -/
theorem build_weights {d : Design} {f q dt : ℝ} {c : BiquadCoefficients ℝ}
    (h : BiquadCoefficients.build d f q dt = .ok c) (hq : d = .lowPass ∨ d = .highPass ∨ 2 * (f * dt) < q) :
    ∃ α : ℝ, 0 < α ∧ c.timestep = dt ∧ c.a1 = -(2 * Real.cos (2 * Real.pi * f * dt)) / (1 + α) ∧
      c.a2 = (1 - α) / (1 + α) ∧
      (d = .lowPass → c.b0 = (1 - Real.cos (2 * Real.pi * f * dt)) * (1 / 2) / (1 + α) ∧ c.b1 = 2 * c.b0 ∧ c.b2 = c.b0) ∧
      (d = .highPass → c.b0 = (1 + Real.cos (2 * Real.pi * f * dt)) * (1 / 2) / (1 + α) ∧ c.b1 = -(2 * c.b0) ∧
        c.b2 = c.b0) ∧
      (d = .bandPass → c.b0 = α / (1 + α) ∧ c.b1 = 0 ∧ c.b2 = -c.b0) ∧
      (d = .notch → c.b0 = 1 / (1 + α) ∧ c.b1 = -(2 * Real.cos (2 * Real.pi * f * dt)) / (1 + α) ∧ c.b2 = c.b0) := by
  obtain ⟨⟨h1, h2, h3, h4⟩, -⟩ := build_cases h
  obtain ⟨g1, g2⟩ := design_angle h1 h3 h4
  have hs : 0 < Real.sin (2 * Real.pi * f * dt) / (2 * q) :=
    div_pos (Real.sin_pos_of_pos_of_lt_pi g1 g2) (by positivity)
  have ht : 2 * (f * dt) < q → 0 < Real.tan (2 * Real.pi * f * dt / (2 * q)) := by
    intro hq
    apply Real.tan_pos_of_pos_of_lt_pi_div_two
    · positivity
    · rw [div_lt_iff₀ (by positivity)]
      nlinarith [Real.pi_pos]
  unfold BiquadCoefficients.build at h
  split at h
  · simp at h
  simp only [Except.ok.injEq] at h
  cases d
  · refine ⟨_, hs, ?_⟩
    subst h
    refine ⟨rfl, rfl, rfl, fun _ => ⟨rfl, ?_, rfl⟩, by simp, by simp, by simp⟩
    simp only [BiquadCoefficients.fromUnnormalized]
    ring
  · refine ⟨_, hs, ?_⟩
    subst h
    refine ⟨rfl, rfl, rfl, by simp, fun _ => ⟨rfl, ?_, rfl⟩, by simp, by simp⟩
    simp only [BiquadCoefficients.fromUnnormalized]
    ring
  · refine ⟨_, ht (by simpa using hq), ?_⟩
    subst h
    refine ⟨rfl, rfl, rfl, by simp, by simp, fun _ => ⟨rfl, ?_, ?_⟩, by simp⟩
    · simp [BiquadCoefficients.fromUnnormalized]
    · simp only [BiquadCoefficients.fromUnnormalized]
      ring
  · refine ⟨_, ht (by simpa using hq), ?_⟩
    subst h
    exact ⟨rfl, rfl, rfl, by simp, by simp, by simp, fun _ => ⟨rfl, rfl, rfl⟩⟩

/-- The two arctangents of a design, one from its denominator and one from its numerator. -/
theorem design_phases {d : Design} {f q dt g : ℝ} {c : BiquadCoefficients ℝ}
    (h : BiquadCoefficients.build d f q dt = .ok c) (hq : d = .lowPass ∨ d = .highPass ∨ 2 * (f * dt) < q)
    (hg : 0 < g) (hg' : g * dt < 1 / 2) :
    ∃ φ, 0 < φ ∧ φ < Real.pi ∧ (g < f → φ < Real.pi / 2) ∧ (g = f → φ = Real.pi / 2) ∧ (f < g → Real.pi / 2 < φ) ∧
      (d = .lowPass → c.phaseAt g = -φ) ∧ (d = .highPass → c.phaseAt g = Real.pi - φ) ∧
      (d = .bandPass → c.phaseAt g = Real.pi / 2 - φ) ∧
      (d = .notch → g < f → c.phaseAt g = -φ) ∧ (d = .notch → f < g → c.phaseAt g = Real.pi - φ) := by
  obtain ⟨⟨h1, h2, h3, h4⟩, -⟩ := build_cases h
  obtain ⟨k1, k2⟩ := design_angle h1 h3 h4
  obtain ⟨g1, g2⟩ := design_angle h1 hg hg'
  obtain ⟨α, hα, hdt, ha1, ha2, hL, hH, hB, hN⟩ := build_weights h hq
  set θ₀ := 2 * Real.pi * f * dt with hθ₀
  set θ := 2 * Real.pi * g * dt with hθ
  have hαp : 0 < 1 + α := by linarith
  have hlt : c.a2 < 1 := by rw [ha2, div_lt_one hαp]; linarith
  obtain ⟨φ, p0, p1, p2, p3, p4, p5⟩ := den_phase c.a1 c.a2 θ hlt g1 g2
  have hu : (1 + c.a2) * Real.cos θ + c.a1 = 2 / (1 + α) * (Real.cos θ - Real.cos θ₀) := by
    rw [ha1, ha2]; field_simp; ring
  rw [hu] at p3 p4 p5
  have h2α : 0 < 2 / (1 + α) := by positivity
  have hless : g < f → Real.cos θ₀ < Real.cos θ := by
    intro hgf
    refine Real.cos_lt_cos_of_nonneg_of_le_pi g1.le k2.le ?_
    rw [hθ, hθ₀]
    have : 0 < 2 * Real.pi * dt := by positivity
    nlinarith
  have hmore : f < g → Real.cos θ < Real.cos θ₀ := by
    intro hgf
    refine Real.cos_lt_cos_of_nonneg_of_le_pi k1.le g2.le ?_
    rw [hθ, hθ₀]
    have : 0 < 2 * Real.pi * dt := by positivity
    nlinarith
  have hs := Real.sin_pos_of_pos_of_lt_pi g1 g2
  have hc1 := (abs_lt.1 (abs_cos_lt g1 g2))
  have hc0 := (abs_lt.1 (abs_cos_lt k1 k2))
  have hph : ∀ r x, 0 < r → x ∈ Set.Ioc (-Real.pi) Real.pi →
      c.b0 + c.b1 * Real.cos θ + c.b2 * Real.cos (2 * θ) = r * Real.cos x →
      -(c.b1 * Real.sin θ + c.b2 * Real.sin (2 * θ)) = r * Real.sin x → c.phaseAt g = x - (φ - θ) := by
    intro r x hr hx e1 e2
    rw [← p2, ← atan2_polar hr hx.1 hx.2, ← e1, ← e2, hθ, ← hdt]
    rfl
  refine ⟨φ, p0, p1, fun hgf => p3 (mul_pos h2α (by linarith [hless hgf])),
    fun hgf => p4 (by rw [hθ, hgf, ← hθ₀, sub_self, mul_zero]),
    fun hgf => p5 (mul_neg_of_pos_of_neg h2α (by linarith [hmore hgf])), fun hd => ?_, fun hd => ?_, fun hd => ?_,
    fun hd hgf => ?_, fun hd hgf => ?_⟩
  · obtain ⟨b0, b1, b2⟩ := hL hd
    have hb : 0 < c.b0 := by rw [b0]; exact div_pos (by linarith) hαp
    rw [hph (c.b0 * (2 + 2 * Real.cos θ)) (-θ) (mul_pos hb (by linarith)) ⟨by linarith, by linarith⟩
      (by rw [b1, b2, Real.cos_neg, Real.cos_two_mul]; ring)
      (by rw [b1, b2, Real.sin_neg, Real.sin_two_mul]; ring)]
    ring
  · obtain ⟨b0, b1, b2⟩ := hH hd
    have hb : 0 < c.b0 := by rw [b0]; exact div_pos (by linarith) hαp
    rw [hph (c.b0 * (2 - 2 * Real.cos θ)) (Real.pi - θ) (mul_pos hb (by linarith)) ⟨by linarith, by linarith⟩
      (by rw [b1, b2, Real.cos_pi_sub, Real.cos_two_mul]; ring)
      (by rw [b1, b2, Real.sin_pi_sub, Real.sin_two_mul]; ring)]
    ring
  · obtain ⟨b0, b1, b2⟩ := hB hd
    have hb : 0 < c.b0 := by rw [b0]; exact div_pos hα hαp
    have hsc := Real.sin_sq_add_cos_sq θ
    rw [hph (c.b0 * (2 * Real.sin θ)) (Real.pi / 2 - θ) (mul_pos hb (by linarith)) ⟨by linarith, by linarith⟩
      (by rw [b1, b2, Real.cos_pi_div_two_sub, Real.cos_two_mul]; linear_combination (-2 * c.b0) * hsc)
      (by rw [b1, b2, Real.sin_pi_div_two_sub, Real.sin_two_mul]; ring)]
    ring
  · obtain ⟨b0, b1, b2⟩ := hN hd
    have hb : 0 < c.b0 := by rw [b0]; positivity
    have b1' : c.b1 = c.b0 * (-(2 * Real.cos θ₀)) := by rw [b1, b0]; ring
    rw [hph (c.b0 * (2 * Real.cos θ - 2 * Real.cos θ₀)) (-θ) (mul_pos hb (by linarith [hless hgf]))
      ⟨by linarith, by linarith⟩
      (by rw [b1', b2, Real.cos_neg, Real.cos_two_mul]; ring)
      (by rw [b1', b2, Real.sin_neg, Real.sin_two_mul]; ring)]
    ring
  · obtain ⟨b0, b1, b2⟩ := hN hd
    have hb : 0 < c.b0 := by rw [b0]; positivity
    have b1' : c.b1 = c.b0 * (-(2 * Real.cos θ₀)) := by rw [b1, b0]; ring
    rw [hph (c.b0 * (2 * Real.cos θ₀ - 2 * Real.cos θ)) (Real.pi - θ) (mul_pos hb (by linarith [hmore hgf]))
      ⟨by linarith, by linarith⟩
      (by rw [b1', b2, Real.cos_pi_sub, Real.cos_two_mul]; ring)
      (by rw [b1', b2, Real.sin_pi_sub, Real.sin_two_mul]; ring)]
    ring

theorem delayAt_of_ne (c : BiquadCoefficients ℝ) {g : ℝ} (h : g ≠ 0) :
    c.delayAt g = -c.phaseAt g / (2 * Real.pi * g) := by
  unfold BiquadCoefficients.delayAt
  rw [if_neg (by simpa using h)]
  rfl

/-- C118. A low-pass comes out late at every frequency below half the sampling rate, by less than half a period. -/
theorem low_pass_delay (f q dt g : ℝ) (c : BiquadCoefficients ℝ)
    (h : BiquadCoefficients.build .lowPass f q dt = .ok c) (hg : 0 < g) (hg' : g * dt < 1 / 2) :
    0 < c.delayAt g ∧ c.delayAt g < 1 / (2 * g) := by
  obtain ⟨φ, h0, h1, -, -, -, hL, -⟩ := design_phases h (.inl rfl) hg hg'
  have hp := Real.pi_pos
  rw [delayAt_of_ne c hg.ne', hL rfl, neg_neg]
  refine ⟨by positivity, ?_⟩
  rw [div_lt_div_iff₀ (by positivity) (by positivity)]
  nlinarith

/-- C118. A high-pass comes out early at every frequency below half the sampling rate, by less than half a period. -/
theorem high_pass_delay (f q dt g : ℝ) (c : BiquadCoefficients ℝ)
    (h : BiquadCoefficients.build .highPass f q dt = .ok c) (hg : 0 < g) (hg' : g * dt < 1 / 2) :
    -(1 / (2 * g)) < c.delayAt g ∧ c.delayAt g < 0 := by
  obtain ⟨φ, h0, h1, -, -, -, -, hH, -⟩ := design_phases h (.inr (.inl rfl)) hg hg'
  have hp := Real.pi_pos
  rw [delayAt_of_ne c hg.ne', hH rfl]
  refine ⟨?_, div_neg_of_neg_of_pos (by linarith) (by positivity)⟩
  rw [neg_div', div_lt_div_iff₀ (by positivity) (by positivity)]
  nlinarith

/-- C118. A band-pass passes its centre with no delay, what is below early and what is above late, always by less
than a quarter of a period. -/
theorem band_pass_delay (f q dt g : ℝ) (c : BiquadCoefficients ℝ)
    (h : BiquadCoefficients.build .bandPass f q dt = .ok c) (hq : 2 * (f * dt) < q) (hg : 0 < g)
    (hg' : g * dt < 1 / 2) :
    |c.delayAt g| < 1 / (4 * g) ∧ (g < f → c.delayAt g < 0) ∧ (g = f → c.delayAt g = 0) ∧
      (f < g → 0 < c.delayAt g) := by
  obtain ⟨φ, h0, h1, l, e, m, -, -, hB, -⟩ := design_phases h (.inr (.inr hq)) hg hg'
  have hp := Real.pi_pos
  have hgp : 0 < 2 * Real.pi * g := by positivity
  rw [delayAt_of_ne c hg.ne', hB rfl]
  refine ⟨?_, fun hl => div_neg_of_neg_of_pos (by linarith [l hl]) hgp, fun he => by rw [e he]; simp,
    fun hm => div_pos (by linarith [m hm]) hgp⟩
  rw [abs_lt]
  constructor
  · rw [neg_div', div_lt_div_iff₀ (by positivity) hgp]
    nlinarith
  · rw [div_lt_div_iff₀ hgp (by positivity)]
    nlinarith

/-- C118. A notch passes what is below its centre late and what is above early, by less than a quarter of a period. -/
theorem notch_delay (f q dt g : ℝ) (c : BiquadCoefficients ℝ)
    (h : BiquadCoefficients.build .notch f q dt = .ok c) (hq : 2 * (f * dt) < q) (hg : 0 < g)
    (hg' : g * dt < 1 / 2) :
    (g < f → 0 < c.delayAt g ∧ c.delayAt g < 1 / (4 * g)) ∧
      (f < g → -(1 / (4 * g)) < c.delayAt g ∧ c.delayAt g < 0) := by
  obtain ⟨φ, h0, h1, l, -, m, -, -, -, hN, hN'⟩ := design_phases h (.inr (.inr hq)) hg hg'
  have hp := Real.pi_pos
  have hgp : 0 < 2 * Real.pi * g := by positivity
  rw [delayAt_of_ne c hg.ne']
  refine ⟨fun hl => ?_, fun hm => ?_⟩
  · rw [hN rfl hl, neg_neg]
    refine ⟨div_pos h0 hgp, ?_⟩
    rw [div_lt_div_iff₀ hgp (by positivity)]
    nlinarith [l hl]
  · rw [hN' rfl hm]
    refine ⟨?_, div_neg_of_neg_of_pos (by linarith) hgp⟩
    rw [neg_div', div_lt_div_iff₀ (by positivity) hgp]
    nlinarith [m hm]

/-- C118. What the delay means: fed a sinusoid (plus anything that dies out), a stable filter settles, from any state,
to the sinusoid scaled by `magnitude_at` and set back in time by `delay_at`. -/
theorem delay_means (f : Biquad ℝ) (hs : f.coefficients.isStable = true) (freq A ψ : ℝ) (hf : freq ≠ 0) (x : ℕ → ℝ)
    (hx : Tendsto (fun n : ℕ => x n - A * Real.cos (2 * Real.pi * freq * (f.coefficients.timestep * n) + ψ)) atTop
      (𝓝 0)) :
    Tendsto (fun n : ℕ => biquadOut f x n - f.coefficients.magnitudeAt freq * A *
      Real.cos (2 * Real.pi * freq * (f.coefficients.timestep * n - f.coefficients.delayAt freq) + ψ)) atTop (𝓝 0) := by
  have := biquad_steady_state f hs freq A ψ x (hx.congr fun n => by ring_nf)
  refine this.congr fun n => ?_
  have hp := Real.pi_ne_zero
  rw [delayAt_of_ne _ hf]
  congr 3
  field_simp
  ring

theorem cascadeDelayAt_of_ne (fs : List (Biquad ℝ)) {g : ℝ} (h : g ≠ 0) :
    cascadeDelayAt fs g = -cascadePhaseAt fs g / (2 * Real.pi * g) := by
  unfold cascadeDelayAt
  rw [if_neg (by simpa using h)]
  rfl

/-- C118. The same for a cascade of stable sections. -/
theorem cascade_delay_means (fs : List (Biquad ℝ)) (hs : cascadeIsStable fs = true) (dt : ℝ)
    (hdt : ∀ f ∈ fs, f.coefficients.timestep = dt) (freq A ψ : ℝ) (hf : freq ≠ 0) (x : ℕ → ℝ)
    (hx : Tendsto (fun n : ℕ => x n - A * Real.cos (2 * Real.pi * freq * (dt * n) + ψ)) atTop (𝓝 0)) :
    Tendsto (fun n : ℕ => cascadeOut fs x n - cascadeMagnitudeAt fs freq * A *
      Real.cos (2 * Real.pi * freq * (dt * n - cascadeDelayAt fs freq) + ψ)) atTop (𝓝 0) := by
  have := cascade_steady_state fs hs dt hdt freq A ψ x (hx.congr fun n => by ring_nf)
  refine this.congr fun n => ?_
  have hp := Real.pi_ne_zero
  rw [cascadeDelayAt_of_ne _ hf]
  congr 3
  field_simp
  ring

/-- C118. A cascade's delay is the sum of its sections' delays, zero frequency included. -/
theorem cascade_delay_sum (fs : List (Biquad ℝ)) (freq : ℝ) :
    cascadeDelayAt fs freq = (fs.map fun f => f.coefficients.delayAt freq).sum := by
  by_cases hf : freq = 0
  · subst hf
    unfold cascadeDelayAt
    rw [if_pos (by simp)]
    symm
    apply List.sum_eq_zero
    intro y hy
    obtain ⟨f, -, rfl⟩ := List.mem_map.1 hy
    unfold BiquadCoefficients.delayAt
    rw [if_pos (by simp)]
  · rw [cascadeDelayAt_of_ne _ hf]
    have : ∀ (l : List (Biquad ℝ)) (a : ℝ), -l.foldl (fun carried f => carried + f.coefficients.phaseAt freq) a /
        (2 * Real.pi * freq) = -a / (2 * Real.pi * freq) + (l.map fun f => f.coefficients.delayAt freq).sum := by
      intro l
      induction l with
      | nil => intro a; simp
      | cons f l ih =>
        intro a
        rw [List.foldl_cons, ih, List.map_cons, List.sum_cons, delayAt_of_ne _ hf]
        ring
    rw [cascadePhaseAt, this]
    simp

theorem decibels_constant : |(BiquadCoefficients.decibelsPerNeper : ℝ) * Real.log 10 / 20 - 1| ≤ 1 / 10 ^ 9 := by
  have e : (BiquadCoefficients.decibelsPerNeper : ℝ) = 611215145896421 / 70368744177664 := by
    change ((611215145896421 / 70368744177664 : ℚ) : ℝ) = _
    norm_num
  rw [e, Real.log_ten_eq, abs_le]
  have h1 := Real.log_two_gt_d9
  have h2 := Real.log_two_lt_d9
  have h3 := Real.log_five_gt_d9
  have h4 := Real.log_five_lt_d9
  constructor <;> linarith

/-- C118. Decibels are twenty times the decimal logarithm of the magnitude, to a part in a billion; a positive
magnitude is below one, one or above exactly when its decibels are negative, zero or positive; the decibels of a
cascade add up over sections that pass something. -/
theorem decibels_spec (c : BiquadCoefficients ℝ) (fs : List (Biquad ℝ)) (freq : ℝ)
    (hc : 0 < c.magnitudeAt freq) (hfs : ∀ f ∈ fs, 0 < f.coefficients.magnitudeAt freq) :
    |c.magnitudeInDecibelsAt freq - 20 * Real.logb 10 (c.magnitudeAt freq)| ≤
      |20 * Real.logb 10 (c.magnitudeAt freq)| / 10 ^ 9 ∧
    (c.magnitudeInDecibelsAt freq < 0 ↔ c.magnitudeAt freq < 1) ∧
    (c.magnitudeInDecibelsAt freq = 0 ↔ c.magnitudeAt freq = 1) ∧
    cascadeMagnitudeInDecibelsAt fs freq = (fs.map fun f => f.coefficients.magnitudeInDecibelsAt freq).sum := by
  set K : ℝ := BiquadCoefficients.decibelsPerNeper with hK
  have hKp : 0 < K := by
    change (0 : ℝ) < ((611215145896421 / 70368744177664 : ℚ) : ℝ)
    norm_num
  have hl : 0 < Real.log 10 := Real.log_pos (by norm_num)
  have e : c.magnitudeInDecibelsAt freq = K * Real.log (c.magnitudeAt freq) := rfl
  refine ⟨?_, ?_, ?_, ?_⟩
  · rw [e, Real.logb, show K * Real.log (c.magnitudeAt freq) - 20 * (Real.log (c.magnitudeAt freq) / Real.log 10) =
      20 * (Real.log (c.magnitudeAt freq) / Real.log 10) * (K * Real.log 10 / 20 - 1) by field_simp, abs_mul]
    have := mul_le_mul_of_nonneg_left decibels_constant (abs_nonneg
      (20 * (Real.log (c.magnitudeAt freq) / Real.log 10)))
    rwa [mul_one_div] at this
  · rw [e, ← Real.log_neg_iff hc]
    constructor
    · intro h; by_contra h'; exact absurd h (not_lt.2 (mul_nonneg hKp.le (not_lt.1 h')))
    · exact fun h => mul_neg_of_pos_of_neg hKp h
  · rw [e, mul_eq_zero, or_iff_right hKp.ne']
    constructor
    · intro h
      rcases Real.log_eq_zero.1 h with h | h | h
      · linarith
      · exact h
      · linarith
    · intro h; rw [h, Real.log_one]
  · have : ∀ (l : List (Biquad ℝ)) (a : ℝ), 0 < a → (∀ f ∈ l, 0 < f.coefficients.magnitudeAt freq) →
        K * Real.log (l.foldl (fun carried f => carried * f.coefficients.magnitudeAt freq) a) =
        K * Real.log a + (l.map fun f => f.coefficients.magnitudeInDecibelsAt freq).sum := by
      intro l
      induction l with
      | nil => intro a _ _; simp
      | cons f l ih =>
        intro a ha hl
        have hf := hl f (by simp)
        rw [List.foldl_cons, ih _ (mul_pos ha hf) (fun g hg => hl g (by simp [hg])), List.map_cons, List.sum_cons,
          Real.log_mul ha.ne' hf.ne', BiquadCoefficients.magnitudeInDecibelsAt, ← hK]
        change _ = K * Real.log a + (K * Real.log _ + _)
        ring
    have h1 := this fs 1 one_pos hfs
    rw [Real.log_one, mul_zero, zero_add] at h1
    exact h1

theorem xr_hypot (x y : ℝ) : hypot (XR.fin x) (XR.fin y) = XR.fin (hypot x y) := by
  have lt_iff : ∀ a b : ℝ, (XR.fin a < XR.fin b) ↔ a < b := fun a b => Iff.rfl
  have beq : ∀ a : ℝ, ((XR.fin a) == (0 : XR)) = (a == (0 : ℝ)) := by
    intro a
    change decide (a = 0) = _
    by_cases h : a = 0 <;> simp [h]
  have core : ∀ a b : ℝ, 0 ≤ a → (if (XR.fin a) == (0 : XR) then (0 : XR) else
      XR.fin a * Fns.sqrt (1 + XR.fin b / XR.fin a * (XR.fin b / XR.fin a))) =
      XR.fin (if a == (0 : ℝ) then 0 else a * Fns.sqrt (1 + b / a * (b / a))) := by
    intro a b ha
    rw [beq]
    by_cases h : a = 0
    · simp only [h, BEq.rfl, if_true]; rfl
    · have hb : (a == (0 : ℝ)) = false := by simpa using h
      rw [hb]
      simp only [Bool.false_eq_true, if_false]
      have hd : XR.fin b / XR.fin a = XR.fin (b / a) := by
        change (if a = 0 then _ else XR.fin (b / a)) = _
        rw [if_neg h]
      rw [hd]
      change XR.fin a * (if 1 + b / a * (b / a) < 0 then XR.nan else XR.fin (Real.sqrt (1 + b / a * (b / a)))) = _
      rw [if_neg (by nlinarith [mul_self_nonneg (b / a)])]
      rfl
  unfold hypot
  have habs : ∀ a : ℝ, (Fns.abs (XR.fin a)) = XR.fin |a| := fun _ => rfl
  by_cases h : |y| < |x|
  · have h' : XR.fin |y| < XR.fin |x| := h
    simp only [habs, if_pos h', real_abs, if_pos h]
    exact core _ _ (abs_nonneg _)
  · have h' : ¬ XR.fin |y| < XR.fin |x| := h
    simp only [habs, if_neg h', real_abs, if_neg h]
    exact core _ _ (abs_nonneg _)

/-- C118. With infinities, a frequency the filter removes completely reports negative infinity, and any other the
decibels computed from its magnitude. -/
theorem decibels_removed (c : BiquadCoefficients ℝ) (freq : ℝ)
    (hd : transferDen c (delayAt (2 * Real.pi * freq * c.timestep)) ≠ 0) :
    (⟨.fin c.b0, .fin c.b1, .fin c.b2, .fin c.a1, .fin c.a2, .fin c.timestep⟩ : BiquadCoefficients
      XR).magnitudeInDecibelsAt (.fin freq) =
    if c.magnitudeAt freq = 0 then XR.ninf else .fin (c.magnitudeInDecibelsAt freq) := by
  have hm : (⟨.fin c.b0, .fin c.b1, .fin c.b2, .fin c.a1, .fin c.a2, .fin c.timestep⟩ : BiquadCoefficients
      XR).magnitudeAt (.fin freq) = .fin (c.magnitudeAt freq) := by
    obtain ⟨-, h2⟩ := responseParts_eq c freq
    unfold BiquadCoefficients.magnitudeAt
    have hp : (⟨.fin c.b0, .fin c.b1, .fin c.b2, .fin c.a1, .fin c.a2, .fin c.timestep⟩ : BiquadCoefficients
        XR).responseParts (.fin freq) = (.fin (c.responseParts freq).1, .fin (c.responseParts freq).2.1,
          .fin (c.responseParts freq).2.2.1, .fin (c.responseParts freq).2.2.2) := rfl
    rw [hp]
    simp only [xr_hypot]
    have h0 : hypot (c.responseParts freq).2.2.1 (c.responseParts freq).2.2.2 ≠ 0 := by
      intro h
      apply hd
      rw [h2, ← norm_eq_zero, Complex.norm_def, Complex.normSq_mk, ← pow_two, ← pow_two, ← hypot_eq, h]
    change (if _ = _ then _ else XR.fin _) = _
    rw [if_neg h0]
  have hnn : 0 ≤ c.magnitudeAt freq := by rw [(magnitude_phase c freq).1]; exact norm_nonneg _
  have hK : (0 : ℝ) < ((611215145896421 / 70368744177664 : ℚ) : ℝ) := by norm_num
  unfold BiquadCoefficients.magnitudeInDecibelsAt
  rw [hm]
  change XR.mul (XR.fin ((611215145896421 / 70368744177664 : ℚ) : ℝ)) (if c.magnitudeAt freq < 0 then XR.nan else
    if c.magnitudeAt freq = 0 then XR.ninf else XR.fin (Real.log (c.magnitudeAt freq))) = _
  rw [if_neg (not_lt.2 hnn)]
  by_cases h : c.magnitudeAt freq = 0
  · rw [if_pos h, if_pos h]
    simp only [XR.mul, XR.infTimes]
    rw [if_neg (by linarith), if_neg (by linarith)]
  · rw [if_neg h, if_neg h]
    rfl

example : transferDen (⟨1, 0, 1, 0, 0, 1⟩ : BiquadCoefficients ℝ) (delayAt (2 * Real.pi * (1 / 4) * 1)) ≠ 0 ∧
    (⟨1, 0, 1, 0, 0, 1⟩ : BiquadCoefficients ℝ).magnitudeAt (1 / 4) = 0 := by
  refine ⟨by simp [transferDen], ?_⟩
  rw [(magnitude_phase _ _).1]
  have e : delayAt (2 * Real.pi * (1 / 4) * 1) = ⟨0, -1⟩ := by
    rw [delayAt_parts, show 2 * Real.pi * (1 / 4) * 1 = Real.pi / 2 by ring]
    simp
  simp only [e, transferNum, norm_div, div_eq_zero_iff, norm_eq_zero]
  left
  apply Complex.ext <;> simp [pow_two]

/-- C118 (finding). "The difference stays right even when it runs past half a turn" is false: the filter that puts out
its input two samples late reports, at three tenths of the sampling rate, that it comes out early, and a cascade of two
single-sample delays, which does the same, reports the two samples. -/
theorem pure_delay_reported_early :
    let late : BiquadCoefficients ℝ := ⟨0, 0, 1, 0, 0, 1⟩
    let one : BiquadCoefficients ℝ := ⟨0, 1, 0, 0, 0, 1⟩
    (∀ x : ℕ → ℝ, ∀ n, biquadOut (Biquad.new late) x (n + 2) = x n) ∧
    (∀ x : ℕ → ℝ, ∀ n, cascadeOut [Biquad.new one, Biquad.new one] x (n + 2) = x n) ∧
    late.delayAt (3 / 10) = -(4 / 3) ∧ cascadeDelayAt [Biquad.new one, Biquad.new one] (3 / 10 : ℝ) = 2 := by
  intro late one
  have hp := Real.pi_pos
  have h1 : ∀ (x : ℕ → ℝ) n, biquadOut (Biquad.new one) x (n + 1) = x n := by
    intro x n
    rw [biquadOut_eq, biquadAfter_first]
    have : (biquadAfter (Biquad.new one) x n).secondState = 0 := by
      cases n with
      | zero => rfl
      | succ n => rw [biquadAfter_second]; simp [Biquad.new, one]
    rw [this]
    simp [Biquad.new, one]
  refine ⟨fun x n => ?_, fun x n => ?_, ?_, ?_⟩
  · have := biquad_difference (Biquad.new late) x n
    simpa [Biquad.new, late] using this
  · rw [(cascade_series _ _ _ _).1, (cascade_series _ _ _ _).1, cascadeOut_nil, h1, h1]
  · rw [delayAt_of_ne _ (by norm_num)]
    have e : late.phaseAt (3 / 10) = 4 * Real.pi / 5 := by
      have a1 := atan2_polar (r := 1) (θ := 4 * Real.pi / 5) one_pos (by linarith) (by linarith)
      have a2 := atan2_polar (r := 1) (θ := 0) one_pos (by linarith) (by linarith)
      have t : (2 : ℝ) * (2 * Real.pi * (3 / 10) * 1) = 2 * Real.pi - 4 * Real.pi / 5 := by ring
      simp only [BiquadCoefficients.phaseAt, BiquadCoefficients.responseParts, late]
      change Fns.atan2 (-(0 * Real.sin _ + 1 * Real.sin (2 * (2 * Real.pi * (3 / 10) * 1))))
        (0 + 0 * Real.cos _ + 1 * Real.cos (2 * (2 * Real.pi * (3 / 10) * 1))) - Fns.atan2
        (-(0 * Real.sin _ + 0 * Real.sin _)) (1 + 0 * Real.cos _ + 0 * Real.cos _) = _
      rw [t, Real.sin_two_pi_sub, Real.cos_two_pi_sub]
      simp only [Real.sin_zero, Real.cos_zero, mul_one, one_mul, zero_mul, add_zero, zero_add, neg_neg, neg_zero]
        at a1 a2 ⊢
      rw [a1, a2, sub_zero]
    rw [e]
    field_simp
    norm_num
  · rw [cascade_delay_sum]
    have e : one.phaseAt (3 / 10) = -(3 * Real.pi / 5) := by
      have a1 := atan2_polar (r := 1) (θ := -(3 * Real.pi / 5)) one_pos (by linarith) (by linarith)
      have a2 := atan2_polar (r := 1) (θ := 0) one_pos (by linarith) (by linarith)
      have t : (2 : ℝ) * Real.pi * (3 / 10) * 1 = 3 * Real.pi / 5 := by ring
      simp only [BiquadCoefficients.phaseAt, BiquadCoefficients.responseParts, one]
      change Fns.atan2 (-(1 * Real.sin (2 * Real.pi * (3 / 10) * 1) + 0 * Real.sin _))
        (0 + 1 * Real.cos (2 * Real.pi * (3 / 10) * 1) + 0 * Real.cos _) - Fns.atan2
        (-(0 * Real.sin _ + 0 * Real.sin _)) (1 + 0 * Real.cos _ + 0 * Real.cos _) = _
      rw [t]
      simp only [Real.sin_zero, Real.cos_zero, Real.sin_neg, Real.cos_neg, mul_one, one_mul, zero_mul, add_zero,
        zero_add, neg_zero] at a1 a2 ⊢
      rw [a1, a2, sub_zero]
    have d : one.delayAt (3 / 10) = 1 := by
      rw [delayAt_of_ne _ (by norm_num), e]
      field_simp
      norm_num
    simp only [List.map_cons, List.map_nil, List.sum_cons, List.sum_nil, Biquad.new, d]
    norm_num

/-- The hypotheses of the four designs can be met, away from the centre. -/
example (d : Design) : ∃ c, BiquadCoefficients.build d (1 / 4 : ℝ) (7 / 10) 1 = .ok c ∧
    2 * ((1 / 4 : ℝ) * 1) < 7 / 10 ∧ (0 : ℝ) < 1 / 3 ∧ (1 / 3 : ℝ) * 1 < 1 / 2 := by
  have hc : BiquadCoefficients.checkDesign (1 / 4 : ℝ) (7 / 10) 1 = .ok () := checkDesign_ok.mpr (by norm_num)
  unfold BiquadCoefficients.build
  rw [hc]
  exact ⟨_, rfl, by norm_num, by norm_num, by norm_num⟩

/-- A stable filter and a cascade of it, for the steady state. -/
example : (⟨0, 1, 0, 0, 0, 1⟩ : BiquadCoefficients ℝ).isStable = true ∧
    cascadeIsStable [Biquad.new (⟨0, 1, 0, 0, 0, 1⟩ : BiquadCoefficients ℝ)] = true := by
  simp [cascadeIsStable, Biquad.new, BiquadCoefficients.isStable, Fns.abs]

/-- A filter that halves every frequency. -/
example (freq : ℝ) : 0 < (⟨1 / 2, 0, 0, 0, 0, 1⟩ : BiquadCoefficients ℝ).magnitudeAt freq := by
  rw [(magnitude_phase _ freq).1]
  simp [transferNum, transferDen]

end Multicalc
