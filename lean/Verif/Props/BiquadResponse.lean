import Verif.Props.Biquad

/-!
# Properties C83, C84: steady-state response of a filter and of a cascade
-/

namespace Multicalc
open Filter Topology

/-- A first-order recurrence with a vanishing input and a factor inside the unit circle vanishes. -/
theorem first_order_vanishes (r : ℂ) (hr : ‖r‖ < 1) (z w : ℕ → ℂ)
    (hz : ∀ n, z (n + 1) = r * z n + w n) (hw : Tendsto w atTop (𝓝 0)) :
    Tendsto z atTop (𝓝 0) := by
  rw [Metric.tendsto_atTop] at hw ⊢
  intro ε hε
  obtain ⟨N, hN⟩ := hw (ε / 2 * (1 - ‖r‖)) (by have : 0 < 1 - ‖r‖ := by linarith
                                               positivity)
  have hk : ∀ k, ‖z (N + k)‖ ≤ ‖r‖ ^ k * ‖z N‖ + ε / 2 := by
    intro k
    induction k with
    | zero => simp; linarith
    | succ k ih =>
      rw [← add_assoc, hz]
      have h1 := norm_add_le (r * z (N + k)) (w (N + k))
      have h2 : ‖w (N + k)‖ < ε / 2 * (1 - ‖r‖) := by
        have := hN (N + k) (by omega)
        rwa [dist_zero_right] at this
      rw [norm_mul] at h1
      have h3 := mul_le_mul_of_nonneg_left ih (norm_nonneg r)
      rw [pow_succ]
      nlinarith
  have hp : Tendsto (fun k => ‖r‖ ^ k * ‖z N‖) atTop (𝓝 0) := by
    have := (tendsto_pow_atTop_nhds_zero_of_lt_one (norm_nonneg r) hr).mul_const ‖z N‖
    simpa using this
  obtain ⟨M, hM⟩ := (Metric.tendsto_atTop.mp hp) (ε / 2) (by positivity)
  refine ⟨N + M, fun n hn => ?_⟩
  obtain ⟨k, rfl⟩ := Nat.exists_eq_add_of_le hn
  rw [dist_zero_right]
  have h1 := hk (M + k)
  have h2 := hM (M + k) (by omega)
  rw [dist_zero_right, Real.norm_eq_abs] at h2
  have := (abs_lt.mp h2).2
  rw [← add_assoc] at h1
  linarith

/-- A stable second-order recurrence driven by a vanishing input vanishes. -/
theorem second_order_vanishes (a1 a2 : ℝ) (hst : ∀ z : ℂ, IsPole a1 a2 z → ‖z‖ < 1) (y w : ℕ → ℝ)
    (hy : ∀ n, y (n + 2) = -a1 * y (n + 1) - a2 * y n + w n) (hw : Tendsto w atTop (𝓝 0)) :
    Tendsto y atTop (𝓝 0) := by
  obtain ⟨r, s, hr, hs, hsum, hprod⟩ := poles_exist a1 a2
  let u : ℕ → ℂ := fun n => (y (n + 1) : ℂ) - s * (y n : ℂ)
  have hwc : Tendsto (fun n => (w n : ℂ)) atTop (𝓝 0) := by
    have := (Complex.continuous_ofReal.tendsto 0).comp hw
    rw [Complex.ofReal_zero] at this
    exact this
  have hu : Tendsto u atTop (𝓝 0) := by
    refine first_order_vanishes r (hst r hr) u (fun n => (w n : ℂ)) (fun n => ?_) hwc
    simp only [u]
    rw [hy n]
    push_cast
    linear_combination (y (n + 1) : ℂ) * (-hsum) + (y n : ℂ) * hprod
  have hyc : Tendsto (fun n => (y n : ℂ)) atTop (𝓝 0) := by
    refine first_order_vanishes s (hst s hs) _ u (fun n => ?_) hu
    simp [u]
  have := (Complex.continuous_re.tendsto 0).comp hyc
  rw [Complex.zero_re] at this
  refine this.congr fun n => ?_
  simp

/-- C31. A stable filter fed an input that dies out gives an output that dies out, from any state. -/
theorem biquad_input_vanishes (f : Biquad ℝ) (hs : f.coefficients.isStable = true) (x : ℕ → ℝ)
    (hx : Tendsto x atTop (𝓝 0)) : Tendsto (biquadOut f x) atTop (𝓝 0) := by
  refine second_order_vanishes f.coefficients.a1 f.coefficients.a2 ((isStable_iff_poles _).mp hs) _
    (fun n => f.coefficients.b0 * x (n + 2) + f.coefficients.b1 * x (n + 1) +
      f.coefficients.b2 * x n) (fun n => ?_) ?_
  · have := biquad_difference f x n
    simp only at this
    rw [this]; ring
  · have h0 : Tendsto (fun n => x (n + 2)) atTop (𝓝 0) := (tendsto_add_atTop_iff_nat 2).mpr hx
    have h1 : Tendsto (fun n => x (n + 1)) atTop (𝓝 0) := (tendsto_add_atTop_iff_nat 1).mpr hx
    have := ((h0.const_mul f.coefficients.b0).add (h1.const_mul f.coefficients.b1)).add
      (hx.const_mul f.coefficients.b2)
    simpa using this

theorem transferDen_ne_zero (c : BiquadCoefficients ℝ) (hs : c.isStable = true) (θ : ℝ) :
    transferDen c (delayAt θ) ≠ 0 := by
  intro h
  have h0 : delayAt θ ≠ 0 := Complex.exp_ne_zero _
  have hn : ‖(delayAt θ)⁻¹‖ = 1 := by
    rw [norm_inv, delayAt, ← neg_mul, ← Complex.ofReal_neg, Complex.norm_exp_ofReal_mul_I, inv_one]
  have := (isStable_iff_poles c).mp hs (delayAt θ)⁻¹ (by
    unfold IsPole
    unfold transferDen at h
    field_simp
    linear_combination h)
  linarith

/-- C83. Steady state: fed a sinusoid (plus anything that dies out), a stable filter settles, from
any state, to the sinusoid scaled by `magnitude_at` and shifted by `phase_at`. -/
theorem biquad_steady_state (f : Biquad ℝ) (hs : f.coefficients.isStable = true)
    (freq A ψ : ℝ) (x : ℕ → ℝ)
    (hx : Tendsto (fun n : ℕ => x n - A * Real.cos (2 * Real.pi * freq * f.coefficients.timestep * n
      + ψ)) atTop (𝓝 0)) :
    Tendsto (fun n : ℕ => biquadOut f x n - f.coefficients.magnitudeAt freq * A *
      Real.cos (2 * Real.pi * freq * f.coefficients.timestep * n + (ψ + f.coefficients.phaseAt freq)))
      atTop (𝓝 0) := by
  set c := f.coefficients with hc
  set θ := 2 * Real.pi * freq * c.timestep with hθ
  obtain ⟨-, hH⟩ := magnitude_phase c freq
  rw [← hθ] at hH
  have hD := transferDen_ne_zero c hs θ
  -- the wanted output, as the real part of a complex exponential
  let X : ℕ → ℂ := fun n => A * Complex.exp ((θ * n + ψ : ℝ) * Complex.I)
  let Y : ℕ → ℂ := fun n => transferNum c (delayAt θ) / transferDen c (delayAt θ) * X n
  have hshift : ∀ n, delayAt θ * X (n + 1) = X n := by
    intro n
    simp only [X, delayAt]
    rw [mul_left_comm, ← Complex.exp_add]
    congr 2
    push_cast; ring
  have hYeq : ∀ n, Y (n + 2) = c.b0 * X (n + 2) + c.b1 * X (n + 1) + c.b2 * X n
      - c.a1 * Y (n + 1) - c.a2 * Y n := by
    intro n
    have e1 := hshift (n + 1)
    have e0 := hshift n
    simp only [Y]
    rw [← e0, ← e1]
    have : transferNum c (delayAt θ) / transferDen c (delayAt θ) * transferDen c (delayAt θ) =
        transferNum c (delayAt θ) := div_mul_cancel₀ _ hD
    generalize transferNum c (delayAt θ) / transferDen c (delayAt θ) = H at this ⊢
    unfold transferNum transferDen at this
    linear_combination X (n + 1 + 1) * this
  have hXre : ∀ n, (X n).re = A * Real.cos (θ * n + ψ) := by
    intro n
    simp only [X]
    rw [Complex.re_ofReal_mul, Complex.exp_ofReal_mul_I_re]
  have hYre : ∀ n, (Y n).re = c.magnitudeAt freq * A * Real.cos (θ * n + (ψ + c.phaseAt freq)) := by
    intro n
    simp only [Y, X]
    rw [hH]
    rw [show ((c.magnitudeAt freq : ℂ) * Complex.exp (c.phaseAt freq * Complex.I) *
      (A * Complex.exp ((θ * n + ψ : ℝ) * Complex.I))) = ((c.magnitudeAt freq * A : ℝ) : ℂ) *
      Complex.exp (((θ * n + (ψ + c.phaseAt freq) : ℝ) : ℂ) * Complex.I) by
        rw [mul_mul_mul_comm, ← Complex.exp_add]; push_cast; ring_nf]
    rw [Complex.re_ofReal_mul, Complex.exp_ofReal_mul_I_re]
  refine second_order_vanishes c.a1 c.a2 ((isStable_iff_poles _).mp hs) _
    (fun n => c.b0 * (x (n + 2) - (X (n + 2)).re) + c.b1 * (x (n + 1) - (X (n + 1)).re) +
      c.b2 * (x n - (X n).re)) (fun n => ?_) ?_
  · have h1 := biquad_difference f x n
    simp only at h1
    have h2 := congrArg Complex.re (hYeq n)
    simp only [Complex.add_re, Complex.sub_re, Complex.re_ofReal_mul] at h2
    have h3 := hYre n
    have h4 := hYre (n + 1)
    have h5 := hYre (n + 2)
    rw [← h3, ← h4, ← h5, h1, h2, hc]
    ring
  · have hx' : Tendsto (fun n => x n - (X n).re) atTop (𝓝 0) := by
      refine hx.congr fun n => ?_
      rw [hXre]
    have h0 := (tendsto_add_atTop_iff_nat 2).mpr hx'
    have h1 := (tendsto_add_atTop_iff_nat 1).mpr hx'
    have := ((h0.const_mul c.b0).add (h1.const_mul c.b1)).add (hx'.const_mul c.b2)
    simpa using this

/-- C83. The same for a plain cosine. -/
theorem biquad_steady_state_cos (f : Biquad ℝ) (hs : f.coefficients.isStable = true) (freq : ℝ) :
    Tendsto (fun n : ℕ => biquadOut f
        (fun n => Real.cos (2 * Real.pi * freq * f.coefficients.timestep * n)) n -
      f.coefficients.magnitudeAt freq * Real.cos (2 * Real.pi * freq * f.coefficients.timestep * n +
        f.coefficients.phaseAt freq)) atTop (𝓝 0) := by
  have := biquad_steady_state f hs freq 1 0
    (fun n => Real.cos (2 * Real.pi * freq * f.coefficients.timestep * n)) (by simp)
  simpa using this

/-! ## Cascade (C84) -/

/-- The outputs of a cascade on an input sequence. -/
def cascadeOut (fs : List (Biquad ℝ)) (x : ℕ → ℝ) (n : ℕ) : ℝ :=
  (cascadeFilter (runFilter cascadeFilter fs (List.ofFn fun i : Fin n => x i)).2 (x n)).1

theorem cascade_state (f : Biquad ℝ) (fs : List (Biquad ℝ)) (x : ℕ → ℝ) (n : ℕ) :
    (runFilter cascadeFilter (f :: fs) (List.ofFn fun i : Fin n => x i)).2 =
      biquadAfter f x n ::
        (runFilter cascadeFilter fs (List.ofFn fun i : Fin n => biquadOut f x i)).2 := by
  induction n with
  | zero => rfl
  | succ n ih =>
    rw [List.ofFn_succ_last, runFilter_append, biquadAfter_succ]
    simp only [Fin.val_last, Fin.val_castSucc, ih, runFilter, cascadeFilter]
    rw [List.ofFn_succ_last, runFilter_append]
    simp only [Fin.val_last, Fin.val_castSucc, runFilter]
    rfl

theorem cascadeOut_nil (x : ℕ → ℝ) (n : ℕ) : cascadeOut [] x n = x n := by
  have : ∀ l : List ℝ, (runFilter cascadeFilter ([] : List (Biquad ℝ)) l).2 = [] := by
    intro l
    induction l with
    | nil => rfl
    | cons a l ih => simpa [runFilter, cascadeFilter] using ih
  unfold cascadeOut
  rw [this]; rfl

/-- C84. A cascade is its sections one after the other: its output on any input is the output of
the remaining sections on the output of the first. -/
theorem cascade_series (f : Biquad ℝ) (fs : List (Biquad ℝ)) (x : ℕ → ℝ) (n : ℕ) :
    cascadeOut (f :: fs) x n = cascadeOut fs (biquadOut f x) n ∧ cascadeOut [] x n = x n := by
  constructor
  · unfold cascadeOut
    rw [cascade_state]
    rfl
  · exact cascadeOut_nil x n

/-- C84. Steady state of a cascade of stable sections: scaled by the cascade's `magnitude_at` and
shifted by its `phase_at`, from any state. -/
theorem cascade_steady_state (fs : List (Biquad ℝ)) (hs : cascadeIsStable fs = true) (dt : ℝ)
    (hdt : ∀ f ∈ fs, f.coefficients.timestep = dt) (freq A ψ : ℝ) (x : ℕ → ℝ)
    (hx : Tendsto (fun n : ℕ => x n - A * Real.cos (2 * Real.pi * freq * dt * n + ψ)) atTop (𝓝 0)) :
    Tendsto (fun n : ℕ => cascadeOut fs x n - cascadeMagnitudeAt fs freq * A *
      Real.cos (2 * Real.pi * freq * dt * n + (ψ + cascadePhaseAt fs freq))) atTop (𝓝 0) := by
  have fm : ∀ (l : List (Biquad ℝ)) (a : ℝ), l.foldl
      (fun carried f => carried * f.coefficients.magnitudeAt freq) a =
      a * cascadeMagnitudeAt l freq := by
    intro l
    induction l with
    | nil => intro a; simp [cascadeMagnitudeAt]
    | cons g l ih => intro a; simp only [List.foldl_cons, cascadeMagnitudeAt]; rw [ih, ih]; ring
  have fp : ∀ (l : List (Biquad ℝ)) (a : ℝ), l.foldl
      (fun carried f => carried + f.coefficients.phaseAt freq) a = a + cascadePhaseAt l freq := by
    intro l
    induction l with
    | nil => intro a; simp [cascadePhaseAt]
    | cons g l ih => intro a; simp only [List.foldl_cons, cascadePhaseAt]; rw [ih, ih]; ring
  induction fs generalizing A ψ x with
  | nil =>
    simp only [cascadeMagnitudeAt, cascadePhaseAt, List.foldl_nil, one_mul, add_zero,
      cascadeOut_nil]
    exact hx
  | cons f fs ih =>
    simp only [cascadeIsStable, List.all_cons, Bool.and_eq_true] at hs
    have hf : f.coefficients.timestep = dt := hdt f (by simp)
    have h1 := biquad_steady_state f hs.1 freq A ψ x (by rw [hf]; exact hx)
    rw [hf] at h1
    have h2 := ih hs.2 (fun g hg => hdt g (by simp [hg])) _ _ _ h1
    refine h2.congr fun n => ?_
    rw [(cascade_series f fs x n).1]
    congr 1
    simp only [cascadeMagnitudeAt, cascadePhaseAt, List.foldl_cons]
    rw [fm fs (1 * _), fp fs (0 + _)]
    simp only [cascadeMagnitudeAt, cascadePhaseAt]
    ring_nf

/-- C84. After `settle_to`, a constant input gives the constant `value()` of the cascade from the
first sample on. -/
theorem cascade_settle (fs : List (Biquad ℝ)) (v : ℝ)
    (hg : ∀ f ∈ fs, 1 + f.coefficients.a1 + f.coefficients.a2 ≠ 0) (hne : fs ≠ []) (n : ℕ) :
    cascadeOut (cascadeSettleTo fs v) (fun _ => v) n = cascadeValue (cascadeSettleTo fs v) := by
  induction fs generalizing v with
  | nil => exact absurd rfl hne
  | cons f fs ih =>
    have h1 := biquad_settle f v (hg f (by simp))
    simp only at h1
    have e : biquadOut (f.settleTo v) (fun _ => v) = fun _ => (f.settleTo v).lastOutput := by
      funext n; rw [(h1 n).1, (h1 n).2]
    simp only [cascadeSettleTo]
    rw [(cascade_series _ _ _ n).1, e]
    rcases fs with _ | ⟨g, fs⟩
    · simp [cascadeSettleTo, cascadeOut_nil, cascadeValue]
    · rw [ih _ (fun h hh => hg h (by simp [hh])) (by simp)]
      simp only [cascadeSettleTo, cascadeValue, List.getLast?_cons_cons]

theorem cascadeMagnitude_zero (l : List (Biquad ℝ)) (freq a : ℝ)
    (h : ∃ f ∈ l, f.coefficients.magnitudeAt freq = 0) :
    l.foldl (fun carried f => carried * f.coefficients.magnitudeAt freq) a = 0 := by
  have fz : ∀ l : List (Biquad ℝ), l.foldl
      (fun carried f => carried * f.coefficients.magnitudeAt freq) 0 = 0 := by
    intro l
    induction l with
    | nil => rfl
    | cons g l ih => simpa using ih
  induction l generalizing a with
  | nil => obtain ⟨f, hf, -⟩ := h; simp at hf
  | cons g l ih =>
    obtain ⟨f, hf, h0⟩ := h
    rw [List.foldl_cons]
    rcases List.mem_cons.mp hf with rfl | hf
    · rw [h0, mul_zero]; exact fz l
    · exact ih _ ⟨f, hf, h0⟩

theorem mapM_ok {α β ε : Type} (g : α → Except ε β) (l : List α) (r : List β)
    (h : l.mapM g = .ok r) : r.length = l.length ∧ ∀ (i : ℕ) (hi : i < l.length) (hr : i < r.length),
      g l[i] = .ok r[i] := by
  induction l generalizing r with
  | nil =>
    simp only [List.mapM_nil] at h
    obtain rfl : [] = r := by injection h
    simp
  | cons a l ih =>
    rw [List.mapM_cons] at h
    cases ha : g a with
    | error e => rw [ha] at h; exact absurd h (by intro h; cases h)
    | ok b =>
      rw [ha] at h
      cases hl : l.mapM g with
      | error e => rw [hl] at h; exact absurd h (by intro h; cases h)
      | ok bs =>
        rw [hl] at h
        obtain rfl : b :: bs = r := by injection h
        obtain ⟨h1, h2⟩ := ih bs hl
        refine ⟨by simp [h1], ?_⟩
        intro i hi hr
        cases i with
        | zero => exact ha
        | succ i => exact h2 i (by simpa using hi) (by simpa using hr)

/-- C84. The harmonic notches: one section per harmonic, and the cascade built from them removes
every harmonic up to the number of sections exactly, for quality factors of at least one. -/
theorem harmonicNotch_removes (sections : ℕ) (f q dt : ℝ) (hq : 1 ≤ q)
    (cs : List (BiquadCoefficients ℝ)) (h : harmonicNotch sections f q dt = .ok cs) :
    cs.length = sections ∧ cascadeIsStable (cs.map Biquad.new) = true ∧
    ∀ k, 1 ≤ k → k ≤ sections → cascadeMagnitudeAt (cs.map Biquad.new) (f * k) = 0 := by
  unfold harmonicNotch at h
  split at h
  · simp at h
  next hsec =>
  split at h
  · simp at h
  next c0 hc0 =>
  split at h
  · simp at h
  next hlim =>
  split at h
  · simp at h
  next rest hrest =>
  simp only [Except.ok.injEq] at h
  obtain ⟨hlen, hget⟩ := mapM_ok _ _ _ hrest
  simp only [List.length_map, List.length_range] at hlen
  have hbuild : ∀ (k : ℕ) (hk : k < cs.length),
      BiquadCoefficients.build .notch (f * ((k + 1 : ℕ) : ℝ)) q dt = .ok cs[k] := by
    subst h
    intro k hk
    cases k with
    | zero => simpa using hc0
    | succ k =>
      have hk' : k < rest.length := by simpa using hk
      have := hget k (by simp; omega) hk'
      simpa using this
  have hcl : cs.length = sections := by subst h; simp [hlen]; omega
  have hbound : ∀ c ∈ cs, ∃ g, BiquadCoefficients.build .notch g q dt = .ok c ∧
      2 * (g * dt) < q := by
    intro c hc
    obtain ⟨k, hk, rfl⟩ := List.mem_iff_getElem.mp hc
    refine ⟨_, hbuild k hk, ?_⟩
    have := (build_cases (hbuild k hk)).1
    linarith
  refine ⟨hcl, ?_, ?_⟩
  · simp only [cascadeIsStable, List.all_map, List.all_eq_true, Function.comp]
    intro c hc
    obtain ⟨g, hg, hb⟩ := hbound c hc
    exact bandPass_notch_stable_partial .notch (Or.inr rfl) g q dt hb c hg
  · intro k hk1 hk2
    apply cascadeMagnitude_zero
    obtain ⟨j, rfl⟩ : ∃ j, k = j + 1 := ⟨k - 1, by omega⟩
    have hj : j < cs.length := by omega
    refine ⟨Biquad.new cs[j], List.mem_map.mpr ⟨_, List.getElem_mem hj, rfl⟩, ?_⟩
    have hb := hbuild j hj
    have := (build_cases hb).1
    exact (design_gains .notch _ q dt _ hb (fun _ => by linarith)).2.1

/-- Three harmonics of a tenth of the sampling rate. -/
example : ∃ cs, harmonicNotch 3 (1 / 10 : ℝ) 2 1 = .ok cs := by
  have hb : ∀ g : ℝ, 0 < g → g < 1 / 2 → ∃ c, BiquadCoefficients.build .notch g 2 1 = .ok c := by
    intro g h1 h2
    unfold BiquadCoefficients.build
    rw [checkDesign_ok.mpr (by refine ⟨by norm_num, by norm_num, h1, by linarith⟩)]
    exact ⟨_, rfl⟩
  obtain ⟨c1, h1⟩ := hb (1 / 10) (by norm_num) (by norm_num)
  obtain ⟨c2, h2⟩ := hb (1 / 10 * ((1 + 1 : ℕ) : ℝ)) (by norm_num) (by norm_num)
  obtain ⟨c3, h3⟩ := hb (1 / 10 * ((2 + 1 : ℕ) : ℝ)) (by norm_num) (by norm_num)
  refine ⟨[c1, c2, c3], ?_⟩
  unfold harmonicNotch
  rw [if_neg (by norm_num), h1]
  simp only
  rw [if_neg (by norm_num)]
  simp only [Nat.add_one_sub_one, List.range_succ, List.range_zero, List.nil_append,
    List.cons_append, List.map_cons, List.map_nil, List.mapM_cons, List.mapM_nil, zero_add]
  rw [h2, h3]
  rfl

end Multicalc
