import Verif.Props.ParticleFilter
import Verif.Lemmas.Spatial
import Verif.Lemmas.TrigBounds
import Mathlib.Analysis.SpecialFunctions.Trigonometric.Deriv

/-!
# Monte Carlo localisation and the ready-made estimation models
-/

namespace Multicalc

/-! ### The score of a guess -/

theorem beamScore_real (range : Option ℝ) (z : ℝ) (believed : Bool) (model : BeamModel ℝ) :
    beamScore range z believed model = match range, believed with
      | some r, true => -(1 / 2) * ((r - z) / model.rangeDeviation) ^ 2
      | none, false => model.agreementReward
      | _, _ => model.mismatchPenalty := by
  cases range <;> cases believed <;> simp only [beamScore]
  simp only [Fns.lit]
  push_cast
  ring

/-- The score one beam would get at best. -/
noncomputable def bestBeam (model : BeamModel ℝ) (believed : Bool) : ℝ := if believed then 0 else model.agreementReward

theorem localizerScore_eq {beams : ℕ} (castRay : ℝ → ℝ → ℝ → ℝ → Option ℝ) (geometry : ScanGeometry beams ℝ)
    (model : BeamModel ℝ) (scan : Fin beams → ℝ) (guess : Fin 3 → ℝ) :
    localizerScore castRay geometry model scan guess = ∑ k : Fin beams,
      beamScore (castRay (guess 0) (guess 1) (guess 2 + beamAngleAcross geometry.fieldOfView beams k)
        geometry.maximumRange) (scan k) (geometry.rangeIsValid (scan k)) model := by
  unfold localizerScore
  simp only [ScanGeometry.beamAngle, Fin.is_lt, if_true]
  rw [foldl_add_sum, zero_add, ← List.ofFn_eq_map, List.sum_ofFn]

/-- What a guess would see along beam `k`. -/
noncomputable def seenFrom {beams : ℕ} (castRay : ℝ → ℝ → ℝ → ℝ → Option ℝ) (geometry : ScanGeometry beams ℝ)
    (guess : Fin 3 → ℝ) (k : Fin beams) : Option ℝ :=
  castRay (guess 0) (guess 1) (guess 2 + beamAngleAcross geometry.fieldOfView beams k) geometry.maximumRange

/-- C94. A guess from which the map looks exactly as the scan says, wall for wall and gap for gap, scores at least as
high as any other guess, provided only that a mismatch costs and agreement is worth no less than a mismatch (as in the
default model); and another guess scores as high only if every believed reading agrees with the map there too. -/
theorem truth_scores_best {beams : ℕ} (castRay : ℝ → ℝ → ℝ → ℝ → Option ℝ) (geometry : ScanGeometry beams ℝ)
    (model : BeamModel ℝ) (hd : 0 < model.rangeDeviation) (hp : model.mismatchPenalty < 0)
    (hr : model.mismatchPenalty ≤ model.agreementReward) (scan : Fin beams → ℝ) (truth guess : Fin 3 → ℝ)
    (ht : ∀ k, (geometry.rangeIsValid (scan k) = true → seenFrom castRay geometry truth k = some (scan k)) ∧
      (geometry.rangeIsValid (scan k) = false → seenFrom castRay geometry truth k = none)) :
    localizerScore castRay geometry model scan guess ≤ localizerScore castRay geometry model scan truth ∧
    (localizerScore castRay geometry model scan guess = localizerScore castRay geometry model scan truth →
      ∀ k, geometry.rangeIsValid (scan k) = true → seenFrom castRay geometry guess k = some (scan k)) := by
  have hbest : ∀ k, beamScore (seenFrom castRay geometry truth k) (scan k) (geometry.rangeIsValid (scan k)) model =
      bestBeam model (geometry.rangeIsValid (scan k)) := by
    intro k
    rw [beamScore_real]
    cases hv : geometry.rangeIsValid (scan k) with
    | true => rw [(ht k).1 hv]; simp [bestBeam]
    | false => rw [(ht k).2 hv]; simp [bestBeam]
  have hle : ∀ k, beamScore (seenFrom castRay geometry guess k) (scan k) (geometry.rangeIsValid (scan k)) model ≤
      bestBeam model (geometry.rangeIsValid (scan k)) := by
    intro k
    rw [beamScore_real]
    cases hv : geometry.rangeIsValid (scan k) <;> cases hs : seenFrom castRay geometry guess k <;>
      simp only [bestBeam, if_true, Bool.false_eq_true, if_false]
    · exact le_refl _
    · exact hr
    · exact hp.le
    · nlinarith [sq_nonneg ((‹ℝ› - scan k) / model.rangeDeviation)]
  have et : localizerScore castRay geometry model scan truth = ∑ k, bestBeam model (geometry.rangeIsValid (scan k)) := by
    rw [localizerScore_eq]; exact Finset.sum_congr rfl fun k _ => hbest k
  have eg : localizerScore castRay geometry model scan guess =
      ∑ k, beamScore (seenFrom castRay geometry guess k) (scan k) (geometry.rangeIsValid (scan k)) model :=
    localizerScore_eq _ _ _ _ _
  rw [et, eg]
  refine ⟨Finset.sum_le_sum fun k _ => hle k, fun h k hv => ?_⟩
  have := (Finset.sum_eq_sum_iff_of_le fun k _ => hle k).1 h k (Finset.mem_univ k)
  rw [beamScore_real, hv] at this
  cases hs : seenFrom castRay geometry guess k with
  | none => rw [hs] at this; simp only [bestBeam, if_true] at this; linarith
  | some r =>
    rw [hs] at this
    simp only [bestBeam, if_true] at this
    have h0 : ((r - scan k) / model.rangeDeviation) ^ 2 = 0 := by linarith
    have h1 := pow_eq_zero_iff (two_ne_zero) |>.1 h0
    rw [div_eq_zero_iff] at h1
    rcases h1 with h1 | h1
    · rw [show r = scan k by linarith]
    · exact absurd h1 hd.ne'

/-! ### Motion -/

/-- C94. One step of travel moves a guess by the arc length along its heading, and turns its heading by the turn, the
heading coming back within half a turn either way. -/
theorem localization_motion (s dθ : ℝ) (g : Fin 3 → ℝ) :
    localizationMotion s dθ g 0 = g 0 + s * Real.cos (g 2) ∧ localizationMotion s dθ g 1 = g 1 + s * Real.sin (g 2) ∧
    (localizationMotion s dθ g 0 - g 0) ^ 2 + (localizationMotion s dθ g 1 - g 1) ^ 2 = s ^ 2 ∧
    |localizationMotion s dθ g 2| ≤ Real.pi ∧
    ∃ k : ℤ, localizationMotion s dθ g 2 = g 2 + dθ - k * (2 * Real.pi) := by
  obtain ⟨a, b, ⟨k, hk⟩, _, _⟩ := wrapToPi_spec (g 2 + dθ)
  have h0 : localizationMotion s dθ g 0 = g 0 + s * Real.cos (g 2) := rfl
  have h1 : localizationMotion s dθ g 1 = g 1 + s * Real.sin (g 2) := rfl
  have h2 : localizationMotion s dθ g 2 = wrapToPi (g 2 + dθ) := rfl
  refine ⟨h0, h1, ?_, by rw [h2, abs_le]; exact ⟨a, b⟩, k, by rw [h2]; linarith⟩
  rw [h0, h1]
  have := Real.sin_sq_add_cos_sq (g 2)
  linear_combination s ^ 2 * this

/-! ### The estimate -/

section Estimate

variable (cloud : List ((Fin 3 → ℝ) × ℝ))

/-- A weighted sum over the cloud. -/
def weighted (cloud : List ((Fin 3 → ℝ) × ℝ)) (f : (Fin 3 → ℝ) → ℝ) : ℝ := (cloud.map fun gw => gw.2 * f gw.1).sum

theorem localizerSums_eq : localizerSums cloud = (weighted cloud (fun g => g 0), weighted cloud (fun g => g 1),
    weighted cloud (fun g => Real.sin (g 2)), weighted cloud fun g => Real.cos (g 2)) := by
  have : ∀ (l : List ((Fin 3 → ℝ) × ℝ)) (z : ℝ × ℝ × ℝ × ℝ),
      l.foldl (fun s gw => (s.1 + gw.2 * gw.1 0, s.2.1 + gw.2 * gw.1 1, s.2.2.1 + gw.2 * Fns.sin (gw.1 2),
        s.2.2.2 + gw.2 * Fns.cos (gw.1 2))) z =
      (z.1 + weighted l (fun g => g 0), z.2.1 + weighted l (fun g => g 1),
        z.2.2.1 + weighted l (fun g => Real.sin (g 2)), z.2.2.2 + weighted l fun g => Real.cos (g 2)) := by
    intro l
    induction l with
    | nil => intro z; simp [weighted]
    | cons a l ih =>
      intro z
      rw [List.foldl_cons, ih]
      simp only [weighted, List.map_cons, List.sum_cons, Fns.sin, Fns.cos]
      refine Prod.ext ?_ (Prod.ext ?_ (Prod.ext ?_ ?_)) <;> ring
  unfold localizerSums
  rw [this]; simp

theorem weighted_add (f g : (Fin 3 → ℝ) → ℝ) : weighted cloud (fun x => f x + g x) = weighted cloud f + weighted cloud g := by
  induction cloud with
  | nil => simp [weighted]
  | cons a l ih => simp only [weighted, List.map_cons, List.sum_cons] at ih ⊢; rw [ih]; ring

theorem weighted_smul (c : ℝ) (f : (Fin 3 → ℝ) → ℝ) : weighted cloud (fun x => c * f x) = c * weighted cloud f := by
  induction cloud with
  | nil => simp [weighted]
  | cons a l ih => simp only [weighted, List.map_cons, List.sum_cons] at ih ⊢; rw [ih]; ring

theorem weighted_nonneg (f : (Fin 3 → ℝ) → ℝ) (hw : ∀ gw ∈ cloud, 0 ≤ gw.2) (hf : ∀ x, 0 ≤ f x) : 0 ≤ weighted cloud f := by
  unfold weighted
  apply List.sum_nonneg
  intro x hx
  simp only [List.mem_map] at hx
  obtain ⟨gw, hgw, rfl⟩ := hx
  exact mul_nonneg (hw gw hgw) (hf _)

theorem weighted_one (ps : List (Fin 3 → ℝ)) (ws : List ℝ) (hl : ps.length = ws.length) :
    weighted (ps.zip ws) (fun _ => 1) = ws.sum := by
  unfold weighted
  simp only [mul_one]
  induction ps generalizing ws with
  | nil => cases ws with
    | nil => simp
    | cons => simp at hl
  | cons p ps ih =>
    cases ws with
    | nil => simp at hl
    | cons w ws => simp [ih ws (by simpa using hl)]

theorem spread_fold (mx my : ℝ) : cloud.foldl (fun s gw =>
    (s.1 + gw.2 * (gw.1 0 - mx) * (gw.1 0 - mx), s.2.1 + gw.2 * (gw.1 1 - my) * (gw.1 1 - my),
      s.2.2 + gw.2 * (gw.1 0 - mx) * (gw.1 1 - my))) (0, 0, 0) =
    (weighted cloud (fun g => (g 0 - mx) ^ 2), weighted cloud (fun g => (g 1 - my) ^ 2),
      weighted cloud fun g => (g 0 - mx) * (g 1 - my)) := by
  have : ∀ (l : List ((Fin 3 → ℝ) × ℝ)) (z : ℝ × ℝ × ℝ), l.foldl (fun s gw =>
      (s.1 + gw.2 * (gw.1 0 - mx) * (gw.1 0 - mx), s.2.1 + gw.2 * (gw.1 1 - my) * (gw.1 1 - my),
        s.2.2 + gw.2 * (gw.1 0 - mx) * (gw.1 1 - my))) z =
      (z.1 + weighted l (fun g => (g 0 - mx) ^ 2), z.2.1 + weighted l (fun g => (g 1 - my) ^ 2),
        z.2.2 + weighted l fun g => (g 0 - mx) * (g 1 - my)) := by
    intro l
    induction l with
    | nil => intro z; simp [weighted]
    | cons a l ih =>
      intro z
      rw [List.foldl_cons, ih]
      simp only [weighted, List.map_cons, List.sum_cons]
      refine Prod.ext ?_ (Prod.ext ?_ ?_) <;> ring
  rw [this]; simp

end Estimate

/-- C94. The position of the estimate is the weighted mean of the guesses' positions and the position part of the spread
is their weighted covariance about it. -/
theorem estimate_position (ps : List (Fin 3 → ℝ)) (ws : List ℝ) :
    let e := localizerEstimate ps ws
    e.1 0 = weighted (ps.zip ws) (fun g => g 0) ∧ e.1 1 = weighted (ps.zip ws) (fun g => g 1) ∧
    e.2 0 0 = weighted (ps.zip ws) (fun g => (g 0 - e.1 0) ^ 2) ∧
    e.2 1 1 = weighted (ps.zip ws) (fun g => (g 1 - e.1 1) ^ 2) ∧
    e.2 0 1 = weighted (ps.zip ws) (fun g => (g 0 - e.1 0) * (g 1 - e.1 1)) ∧ e.2 1 0 = e.2 0 1 ∧
    e.2 0 2 = 0 ∧ e.2 1 2 = 0 ∧ e.2 2 0 = 0 ∧ e.2 2 1 = 0 := by
  simp only [localizerEstimate, localizerSums_eq, spread_fold]
  refine ⟨rfl, rfl, rfl, rfl, rfl, rfl, rfl, rfl, rfl, rfl⟩

theorem weighted_cos_sub (cloud : List ((Fin 3 → ℝ) × ℝ)) (h : ℝ) : weighted cloud (fun g => Real.cos (g 2 - h)) =
    weighted cloud (fun g => Real.cos (g 2)) * Real.cos h + weighted cloud (fun g => Real.sin (g 2)) * Real.sin h := by
  have : (fun g : Fin 3 → ℝ => Real.cos (g 2 - h)) = fun g => Real.cos h * Real.cos (g 2) + Real.sin h * Real.sin (g 2) := by
    funext g; rw [Real.cos_sub]; ring
  rw [this, weighted_add, weighted_smul, weighted_smul]; ring

/-- C94. The heading of the estimate is the direction that agrees best with the cloud: no other angle has a larger
weighted mean cosine to the guesses' headings, however they lie around the half turn. -/
theorem estimate_heading (ps : List (Fin 3 → ℝ)) (ws : List ℝ) (other : ℝ) :
    -Real.pi < (localizerEstimate ps ws).1 2 ∧ (localizerEstimate ps ws).1 2 ≤ Real.pi ∧
    weighted (ps.zip ws) (fun g => Real.cos (g 2 - other)) ≤
      weighted (ps.zip ws) (fun g => Real.cos (g 2 - (localizerEstimate ps ws).1 2)) := by
  have e : (localizerEstimate ps ws).1 2 = Fns.atan2 (weighted (ps.zip ws) fun g => Real.sin (g 2))
      (weighted (ps.zip ws) fun g => Real.cos (g 2)) := by
    simp only [localizerEstimate, localizerSums_eq]; rfl
  rw [e]
  refine ⟨(atan2_mem _ _).1, (atan2_mem _ _).2, ?_⟩
  rw [weighted_cos_sub, weighted_cos_sub]
  set S := weighted (ps.zip ws) fun g => Real.sin (g 2)
  set C := weighted (ps.zip ws) fun g => Real.cos (g 2)
  by_cases hz : 0 < C ^ 2 + S ^ 2
  · obtain ⟨h1, h2⟩ := atan2_cos hz
    set r := Real.sqrt (C ^ 2 + S ^ 2) with hr
    have hrp : 0 < r := Real.sqrt_pos.2 hz
    have hr2 : r ^ 2 = C ^ 2 + S ^ 2 := Real.sq_sqrt hz.le
    have hcs := Real.sin_sq_add_cos_sq (Fns.atan2 S C : ℝ)
    have hrhs : C * Real.cos (Fns.atan2 S C) + S * Real.sin (Fns.atan2 S C) = r := by
      have : r * (C * Real.cos (Fns.atan2 S C) + S * Real.sin (Fns.atan2 S C)) = r * r := by
        calc _ = C * (r * Real.cos (Fns.atan2 S C)) + S * (r * Real.sin (Fns.atan2 S C)) := by ring
          _ = r * r := by rw [h1, h2]; nlinarith
      exact mul_left_cancel₀ hrp.ne' this
    rw [hrhs]
    have := Real.sin_sq_add_cos_sq other
    apply abs_le_of_sq_le_sq' _ hrp.le |>.2
    rw [hr2]
    nlinarith [sq_nonneg (C * Real.sin other - S * Real.cos other)]
  · have hC : C = 0 := by nlinarith [sq_nonneg C, sq_nonneg S]
    have hS : S = 0 := by nlinarith [sq_nonneg C, sq_nonneg S]
    rw [hC, hS]; simp

/-- C94. With weights that are not negative and sum to one the spread is a covariance: symmetric and positive
semidefinite. Its heading part is twice what the mean cosine to the estimated heading falls short of one, but never less
than a millionth, so it lies between a millionth and two. -/
theorem estimate_spread (ps : List (Fin 3 → ℝ)) (ws : List ℝ) (hl : ps.length = ws.length) (hN : Normalized ws) :
    let e := localizerEstimate ps ws
    Psd e.2 ∧ e.2 2 2 = max (2 * (1 - weighted (ps.zip ws) fun g => Real.cos (g 2 - e.1 2))) (1 / 1000000) ∧
    1 / 1000000 ≤ e.2 2 2 ∧ e.2 2 2 ≤ 2 := by
  have hw : ∀ gw ∈ ps.zip ws, 0 ≤ gw.2 := fun gw hgw => hN.1 _ (List.of_mem_zip hgw).2
  obtain ⟨_, _, hxx, hyy, hxy, hyx, h02, h12, h20, h21⟩ := estimate_position ps ws
  set e := localizerEstimate ps ws with he
  have h1 := weighted_one ps ws hl
  rw [hN.2] at h1
  have hcos : ∀ h, weighted (ps.zip ws) (fun g => Real.cos (g 2 - h)) ≤ 1 := by
    intro h
    rw [← h1]
    have := weighted_nonneg (ps.zip ws) (fun g => 1 + (-1) * Real.cos (g 2 - h)) hw (fun g => by
      linarith [Real.cos_le_one (g 2 - h)])
    rw [weighted_add, weighted_smul] at this
    linarith
  have h22 : e.2 2 2 = max (2 * (1 - weighted (ps.zip ws) fun g => Real.cos (g 2 - e.1 2))) (1 / 1000000) := by
    have e12 : e.1 2 = Fns.atan2 (weighted (ps.zip ws) fun g => Real.sin (g 2))
        (weighted (ps.zip ws) fun g => Real.cos (g 2)) := by
      simp only [he, localizerEstimate, localizerSums_eq]; rfl
    have e22 : e.2 2 2 = max ((1 - min (hypot (weighted (ps.zip ws) fun g => Real.sin (g 2))
        (weighted (ps.zip ws) fun g => Real.cos (g 2))) 1) * ((2 : ℕ) : ℝ)) (Fns.lit (1 / 1000000)) := by
      simp only [he, localizerEstimate, localizerSums_eq]; rfl
    have hc := hcos (e.1 2)
    rw [e22, e12, hypot_eq]
    rw [e12] at hc
    rw [weighted_cos_sub] at hc ⊢
    set S := weighted (ps.zip ws) fun g => Real.sin (g 2)
    set C := weighted (ps.zip ws) fun g => Real.cos (g 2)
    have hres : C * Real.cos (Fns.atan2 S C) + S * Real.sin (Fns.atan2 S C) = Real.sqrt (S ^ 2 + C ^ 2) := by
      by_cases hz : 0 < C ^ 2 + S ^ 2
      · obtain ⟨a1, a2⟩ := atan2_cos hz
        rw [add_comm (S ^ 2)]
        set r := Real.sqrt (C ^ 2 + S ^ 2) with hr
        have hrp : 0 < r := Real.sqrt_pos.2 hz
        have hr2 : r ^ 2 = C ^ 2 + S ^ 2 := Real.sq_sqrt hz.le
        have : r * (C * Real.cos (Fns.atan2 S C) + S * Real.sin (Fns.atan2 S C)) = r * r := by
          calc _ = C * (r * Real.cos (Fns.atan2 S C)) + S * (r * Real.sin (Fns.atan2 S C)) := by ring
            _ = r * r := by rw [a1, a2]; nlinarith
        exact mul_left_cancel₀ hrp.ne' this
      · have hC : C = 0 := by nlinarith [sq_nonneg C, sq_nonneg S]
        have hS : S = 0 := by nlinarith [sq_nonneg C, sq_nonneg S]
        rw [hC, hS]; simp
    rw [hres] at hc ⊢
    rw [min_eq_left hc]
    simp only [Fns.lit]
    push_cast
    rw [mul_comm]
  have hlow : 1 / 1000000 ≤ e.2 2 2 := by rw [h22]; exact le_max_right _ _
  refine ⟨⟨?_, ?_⟩, h22, hlow, ?_⟩
  · ext i j
    fin_cases i <;> fin_cases j <;> simp [Matrix.transpose_apply, h02, h12, h20, h21, hyx]
  · intro x
    have key : x ⬝ᵥ Matrix.mulVec e.2 x = weighted (ps.zip ws) (fun g => (x 0 * (g 0 - e.1 0) + x 1 * (g 1 - e.1 1)) ^ 2) +
        e.2 2 2 * x 2 ^ 2 := by
      have : (fun g : Fin 3 → ℝ => (x 0 * (g 0 - e.1 0) + x 1 * (g 1 - e.1 1)) ^ 2) = fun g =>
          x 0 ^ 2 * (g 0 - e.1 0) ^ 2 + (x 1 ^ 2 * (g 1 - e.1 1) ^ 2 +
            (2 * x 0 * x 1) * ((g 0 - e.1 0) * (g 1 - e.1 1))) := by funext g; ring
      rw [this, weighted_add, weighted_add, weighted_smul, weighted_smul, weighted_smul, ← hxx, ← hyy, ← hxy]
      simp only [dotProduct, Matrix.mulVec, Fin.sum_univ_three, h02, h12, h20, h21, hyx]
      ring
    rw [key]
    have a := weighted_nonneg (ps.zip ws) (fun g => (x 0 * (g 0 - e.1 0) + x 1 * (g 1 - e.1 1)) ^ 2) hw
      (fun g => sq_nonneg _)
    have b : 0 ≤ e.2 2 2 * x 2 ^ 2 := mul_nonneg (by linarith) (sq_nonneg _)
    linarith
  · rw [h22]
    have hmax := (estimate_heading ps ws (e.1 2 + Real.pi)).2.2
    rw [← he] at hmax
    have hneg : (fun g : Fin 3 → ℝ => Real.cos (g 2 - (e.1 2 + Real.pi))) = fun g => (-1) * Real.cos (g 2 - e.1 2) := by
      funext g
      rw [← sub_sub, Real.cos_sub_pi]; ring
    rw [hneg, weighted_smul] at hmax
    refine max_le (by linarith) (by norm_num)

/-! ### Constant turn and speed -/

/-- C95. Above the tiny-turn threshold the constant-turn model is the exact motion: as a function of the timestep the
position starts where it was and its velocity is the speed along the heading turned so far; speed and turn rate hold, and
the heading is the one turned so far up to whole turns. -/
theorem constant_turn_exact (s : Fin 5 → ℝ) (hω : 1 / 1000000 < |s 4|) (t : ℝ) :
    HasDerivAt (fun τ => constantTurnAndSpeed τ s 0) (s 3 * Real.cos (s 2 + s 4 * t)) t ∧
    HasDerivAt (fun τ => constantTurnAndSpeed τ s 1) (s 3 * Real.sin (s 2 + s 4 * t)) t ∧
    constantTurnAndSpeed 0 s 0 = s 0 ∧ constantTurnAndSpeed 0 s 1 = s 1 ∧
    (∃ k : ℤ, constantTurnAndSpeed t s 2 = s 2 + s 4 * t - k * (2 * Real.pi)) ∧ |constantTurnAndSpeed t s 2| ≤ Real.pi ∧
    constantTurnAndSpeed t s 3 = s 3 ∧ constantTurnAndSpeed t s 4 = s 4 := by
  have hω' : s 4 ≠ 0 := by intro h; rw [h] at hω; norm_num at hω
  have hc : (Fns.lit (1 / 1000000) : ℝ) < Fns.abs (s 4) := by
    simp only [Fns.lit, Fns.abs]; push_cast; exact hω
  have e0 : ∀ τ, constantTurnAndSpeed τ s 0 = s 0 + s 3 / s 4 * (Real.sin (s 2 + s 4 * τ) - Real.sin (s 2)) := by
    intro τ; simp only [constantTurnAndSpeed, if_pos hc]; rfl
  have e1 : ∀ τ, constantTurnAndSpeed τ s 1 = s 1 + s 3 / s 4 * (Real.cos (s 2) - Real.cos (s 2 + s 4 * τ)) := by
    intro τ; simp only [constantTurnAndSpeed, if_pos hc]; rfl
  have hin : HasDerivAt (fun τ : ℝ => s 2 + s 4 * τ) (s 4) t := by
    simpa using ((hasDerivAt_id t).const_mul (s 4)).const_add (s 2)
  obtain ⟨a, b, ⟨k, hk⟩, _, _⟩ := wrapToPi_spec (s 2 + s 4 * t)
  have h2 : constantTurnAndSpeed t s 2 = wrapToPi (s 2 + s 4 * t) := rfl
  refine ⟨?_, ?_, by rw [e0]; simp, by rw [e1]; simp, ⟨k, by rw [h2]; linarith⟩, by rw [h2, abs_le]; exact ⟨a, b⟩, rfl, rfl⟩
  · simp only [e0]
    refine HasDerivAt.congr_deriv (((hin.sin.sub_const _).const_mul _).const_add _) ?_
    field_simp
  · simp only [e1]
    refine HasDerivAt.congr_deriv (((hin.cos.const_sub _).const_mul _).const_add _) ?_
    field_simp

theorem sin_sub_self_le (a : ℝ) : |Real.sin a - a| ≤ a ^ 2 / 2 := by
  have pos : ∀ x : ℝ, 0 ≤ x → |Real.sin x - x| ≤ x ^ 2 / 2 := by
    intro x hx
    have h1 := sin_upper1 x hx
    have h3 := sin_lower3 x hx
    rw [abs_sub_comm, abs_of_nonneg h1]
    rcases le_total x 3 with h | h
    · nlinarith [mul_nonneg (sq_nonneg x) (sub_nonneg.2 h)]
    · nlinarith [Real.neg_one_le_sin x]
  rcases le_total 0 a with h | h
  · exact pos a h
  · have := pos (-a) (by linarith)
    rw [Real.sin_neg, ← abs_neg] at this
    rw [show Real.sin a - a = -(-Real.sin a - -a) by ring]
    simpa using this

/-- C95. At or below the threshold the arc is straightened: the position is off the exact arc by at most the speed times
the turn rate times the timestep squared, on each axis. -/
theorem constant_turn_straight (s : Fin 5 → ℝ) (hω : |s 4| ≤ 1 / 1000000) (h0 : s 4 ≠ 0) (t : ℝ) :
    |constantTurnAndSpeed t s 0 - (s 0 + s 3 / s 4 * (Real.sin (s 2 + s 4 * t) - Real.sin (s 2)))| ≤
      |s 3| * |s 4| * t ^ 2 ∧
    |constantTurnAndSpeed t s 1 - (s 1 + s 3 / s 4 * (Real.cos (s 2) - Real.cos (s 2 + s 4 * t)))| ≤
      |s 3| * |s 4| * t ^ 2 := by
  have hc : ¬ (Fns.lit (1 / 1000000) : ℝ) < Fns.abs (s 4) := by
    simp only [Fns.lit, Fns.abs, not_lt]; push_cast; exact hω
  have e0 : constantTurnAndSpeed t s 0 = s 0 + s 3 * Real.cos (s 2) * t := by
    simp only [constantTurnAndSpeed, if_neg hc]; rfl
  have e1 : constantTurnAndSpeed t s 1 = s 1 + s 3 * Real.sin (s 2) * t := by
    simp only [constantTurnAndSpeed, if_neg hc]; rfl
  set a := s 4 * t with ha
  have hs1 : |Real.sin a - a| ≤ a ^ 2 / 2 := sin_sub_self_le a
  have hc1 : |1 - Real.cos a| ≤ a ^ 2 / 2 := by
    rw [abs_of_nonneg (by linarith [Real.cos_le_one a])]
    linarith [Real.one_sub_sq_div_two_le_cos (x := a)]
  have main : ∀ p q : ℝ, |p| ≤ 1 → |q| ≤ 1 → |p * (Real.sin a - a) + q * (1 - Real.cos a)| ≤ a ^ 2 := by
    intro p q hp hq
    have h1 : |p * (Real.sin a - a)| ≤ 1 * (a ^ 2 / 2) := by
      rw [abs_mul]; exact mul_le_mul hp hs1 (abs_nonneg _) (by norm_num)
    have h2 : |q * (1 - Real.cos a)| ≤ 1 * (a ^ 2 / 2) := by
      rw [abs_mul]; exact mul_le_mul hq hc1 (abs_nonneg _) (by norm_num)
    linarith [abs_add_le (p * (Real.sin a - a)) (q * (1 - Real.cos a))]
  have scale : |s 3 / s 4| * a ^ 2 = |s 3| * |s 4| * t ^ 2 := by
    rw [abs_div, ha, mul_pow, ← sq_abs (s 4)]
    have : |s 4| ≠ 0 := abs_ne_zero.2 h0
    field_simp
  constructor
  · have e : constantTurnAndSpeed t s 0 - (s 0 + s 3 / s 4 * (Real.sin (s 2 + a) - Real.sin (s 2))) =
        s 3 / s 4 * ((-Real.cos (s 2)) * (Real.sin a - a) + Real.sin (s 2) * (1 - Real.cos a)) := by
      rw [e0, Real.sin_add, ha]; field_simp; ring
    rw [e, abs_mul, ← scale]
    exact mul_le_mul_of_nonneg_left (main _ _ (by rw [abs_neg]; exact Real.abs_cos_le_one _) (Real.abs_sin_le_one _))
      (abs_nonneg _)
  · have e : constantTurnAndSpeed t s 1 - (s 1 + s 3 / s 4 * (Real.cos (s 2) - Real.cos (s 2 + a))) =
        s 3 / s 4 * ((-Real.sin (s 2)) * (Real.sin a - a) + (-Real.cos (s 2)) * (1 - Real.cos a)) := by
      rw [e1, Real.cos_add, ha]; field_simp; ring
    rw [e, abs_mul, ← scale]
    exact mul_le_mul_of_nonneg_left (main _ _ (by rw [abs_neg]; exact Real.abs_sin_le_one _)
      (by rw [abs_neg]; exact Real.abs_cos_le_one _)) (abs_nonneg _)

/-- C95. Two steps of the exact motion, one after the other, are one step as long as both together, up to whole turns of
the heading. -/
theorem constant_turn_compose (s : Fin 5 → ℝ) (t u : ℝ) (hω : 1 / 1000000 < |s 4|) :
    constantTurnAndSpeed u (constantTurnAndSpeed t s) 0 = constantTurnAndSpeed (t + u) s 0 ∧
    constantTurnAndSpeed u (constantTurnAndSpeed t s) 1 = constantTurnAndSpeed (t + u) s 1 ∧
    ∃ k : ℤ, constantTurnAndSpeed u (constantTurnAndSpeed t s) 2 =
      constantTurnAndSpeed (t + u) s 2 + k * (2 * Real.pi) := by
  have hω' : s 4 ≠ 0 := by intro h; rw [h] at hω; norm_num at hω
  have hc : (Fns.lit (1 / 1000000) : ℝ) < Fns.abs (s 4) := by
    simp only [Fns.lit, Fns.abs]; push_cast; exact hω
  have e0 : ∀ τ (r : Fin 5 → ℝ), r 4 = s 4 →
      constantTurnAndSpeed τ r 0 = r 0 + r 3 / s 4 * (Real.sin (r 2 + s 4 * τ) - Real.sin (r 2)) := by
    intro τ r hr; simp only [constantTurnAndSpeed, hr, if_pos hc]; rfl
  have e1 : ∀ τ (r : Fin 5 → ℝ), r 4 = s 4 →
      constantTurnAndSpeed τ r 1 = r 1 + r 3 / s 4 * (Real.cos (r 2) - Real.cos (r 2 + s 4 * τ)) := by
    intro τ r hr; simp only [constantTurnAndSpeed, hr, if_pos hc]; rfl
  have e2 : ∀ τ (r : Fin 5 → ℝ), constantTurnAndSpeed τ r 2 = wrapToPi (r 2 + r 4 * τ) := fun _ _ => rfl
  have e3 : constantTurnAndSpeed t s 3 = s 3 := rfl
  have e4 : constantTurnAndSpeed t s 4 = s 4 := rfl
  obtain ⟨_, _, ⟨k, hk⟩, hsin, hcos⟩ := wrapToPi_spec (s 2 + s 4 * t)
  have hw : wrapToPi (s 2 + s 4 * t) + s 4 * u = (s 2 + s 4 * (t + u)) - k * (2 * Real.pi) := by linarith
  have hsin' : Real.sin (wrapToPi (s 2 + s 4 * t) + s 4 * u) = Real.sin (s 2 + s 4 * (t + u)) := by
    rw [hw, Real.sin_sub_int_mul_two_pi]
  have hcos' : Real.cos (wrapToPi (s 2 + s 4 * t) + s 4 * u) = Real.cos (s 2 + s 4 * (t + u)) := by
    rw [hw, Real.cos_sub_int_mul_two_pi]
  refine ⟨?_, ?_, ?_⟩
  · rw [e0 u _ e4, e0 t s rfl, e0 (t + u) s rfl, e2, e3, hsin', hsin]; ring
  · rw [e1 u _ e4, e1 t s rfl, e1 (t + u) s rfl, e2, e3, hcos', hcos]; ring
  · rw [e2, e2, e2, e4]
    obtain ⟨_, _, ⟨k1, h1⟩, _, _⟩ := wrapToPi_spec (wrapToPi (s 2 + s 4 * t) + s 4 * u)
    obtain ⟨_, _, ⟨k2, h2⟩, _, _⟩ := wrapToPi_spec (s 2 + s 4 * (t + u))
    refine ⟨k2 - k1 - k, ?_⟩
    push_cast
    linarith

/-! ### Measurements -/

/-- C95. A direct measurement is accepted exactly when every index names a component of the state, and then reads those
components in the order listed. -/
theorem direct_measurement {T : Type} [Zero T] {n m : ℕ} (indices : Fin m → ℕ) (state : Fin n → T) :
    ((∃ d, directMeasurementTryNew n indices = .ok d) ↔ ∀ k, indices k < n) ∧
    (∀ e, directMeasurementTryNew n indices = .error e → e = .stateIndexOutOfRange) ∧
    ∀ d, directMeasurementTryNew n indices = .ok d → ∀ k (h : indices k < n),
      directMeasurementEval d state k = state ⟨indices k, h⟩ := by
  by_cases hb : (List.finRange m).any fun k => decide (n ≤ indices k)
  · have e : directMeasurementTryNew n indices = .error .stateIndexOutOfRange := by simp [directMeasurementTryNew, hb]
    rw [e]
    refine ⟨⟨fun ⟨d, h⟩ => by simp at h, fun h => ?_⟩, fun e h => by simpa using h.symm, fun d h => by simp at h⟩
    simp only [List.any_eq_true, decide_eq_true_eq] at hb
    obtain ⟨k, _, hk⟩ := hb
    have := h k; omega
  · have e : directMeasurementTryNew n indices = .ok indices := by simp [directMeasurementTryNew, hb]
    rw [e]
    refine ⟨⟨fun _ k => ?_, fun _ => ⟨_, rfl⟩⟩, fun e h => by simp at h, fun d h k hk => ?_⟩
    · by_contra hc
      exact hb (by simp only [List.any_eq_true, decide_eq_true_eq]; exact ⟨k, List.mem_finRange k, not_lt.1 hc⟩)
    · have : indices = d := by simpa using h
      subst this
      simp [directMeasurementEval, hk]

/-- C95. The residual with wrapped angles is the plain difference on every component that is not an angle; on an angle
it is the difference up to whole turns, and no representative of that angle is closer to zero. -/
theorem residual_wrapped {m : ℕ} (z p : Fin m → ℝ) (angular : List ℕ) (k : Fin m) :
    (k.val ∉ angular → residualWithWrappedAngles z p angular k = z k - p k) ∧
    (k.val ∈ angular → (∃ j : ℤ, residualWithWrappedAngles z p angular k = z k - p k - j * (2 * Real.pi)) ∧
      ∀ j : ℤ, |residualWithWrappedAngles z p angular k| ≤ |z k - p k - j * (2 * Real.pi)|) := by
  constructor
  · intro h
    simp [residualWithWrappedAngles, h]
  · intro h
    have e : residualWithWrappedAngles z p angular k = wrapToPi (z k - p k) := by
      simp [residualWithWrappedAngles, h]
    rw [e]
    obtain ⟨a, b, ⟨i, hi⟩, _, _⟩ := wrapToPi_spec (z k - p k)
    refine ⟨⟨i, by linarith⟩, fun j => ?_⟩
    have hw : z k - p k - j * (2 * Real.pi) = wrapToPi (z k - p k) + ((i - j : ℤ) : ℝ) * (2 * Real.pi) := by
      push_cast; linarith
    rw [hw]
    set w := wrapToPi (z k - p k)
    have hpi := Real.pi_pos
    have hwb : |w| ≤ Real.pi := abs_le.2 ⟨a, b⟩
    rcases eq_or_ne (i - j) 0 with h0 | h0
    · rw [h0]; simp
    · have h1 : (1 : ℝ) ≤ |((i - j : ℤ) : ℝ)| := by
        rw [← Int.cast_abs]; exact_mod_cast Int.one_le_abs h0
      have h2 : 2 * Real.pi ≤ |((i - j : ℤ) : ℝ) * (2 * Real.pi)| := by
        rw [abs_mul, abs_of_pos (by positivity : 0 < 2 * Real.pi)]; nlinarith
      have h3 := abs_sub_abs_le_abs_sub (((i - j : ℤ) : ℝ) * (2 * Real.pi)) (-w)
      rw [abs_neg, sub_neg_eq_add, add_comm _ w] at h3
      linarith

/-- C95 (finding). The documented range `(-π, π]` of a wrapped angle residual is not kept: a difference of exactly `π`
comes back as `-π`. -/
theorem residual_half_turn_partial : residualWithWrappedAngles (fun _ : Fin 1 => Real.pi) (fun _ => 0) [0] 0 = -Real.pi := by
  have hpi := Real.pi_pos
  have : residualWithWrappedAngles (fun _ : Fin 1 => Real.pi) (fun _ => 0) [0] 0 = wrapToPi (Real.pi - 0) := by
    simp [residualWithWrappedAngles]
  rw [this, sub_zero]
  simp only [wrapToPi, Fns.pi, Fns.round]
  have h : Real.pi / (Real.pi * 2) = 1 / 2 := by field_simp
  rw [h]
  have : roundHalfAway (1 / 2) = 1 := by
    unfold roundHalfAway
    norm_num
  rw [this]; ring

/-! ### The hypotheses are met -/

/-- The default beam model. -/
example : 0 < (BeamModel.standard : BeamModel ℝ).rangeDeviation ∧ (BeamModel.standard : BeamModel ℝ).mismatchPenalty < 0 ∧
    (BeamModel.standard : BeamModel ℝ).mismatchPenalty ≤ (BeamModel.standard : BeamModel ℝ).agreementReward := by
  simp only [BeamModel.standard, Fns.lit]; norm_num

/-- A scan of two beams, one seeing a wall at one metre and one seeing nothing. -/
example : ∃ (castRay : ℝ → ℝ → ℝ → ℝ → Option ℝ) (geometry : ScanGeometry 2 ℝ) (scan : Fin 2 → ℝ) (truth : Fin 3 → ℝ),
    (∀ k, (geometry.rangeIsValid (scan k) = true → seenFrom castRay geometry truth k = some (scan k)) ∧
      (geometry.rangeIsValid (scan k) = false → seenFrom castRay geometry truth k = none)) ∧
    geometry.rangeIsValid (scan 0) = true ∧ geometry.rangeIsValid (scan 1) = false := by
  refine ⟨fun _ _ b _ => if b < 0 then some 1 else none, ⟨2, 0, 4⟩, ![1, 9], ![0, 0, 0], ?_, ?_, ?_⟩
  · intro k
    fin_cases k <;>
      simp [ScanGeometry.rangeIsValid, seenFrom, beamAngleAcross, Fns.isFinite] <;> norm_num
  · simp [ScanGeometry.rangeIsValid, Fns.isFinite]
  · simp [ScanGeometry.rangeIsValid, Fns.isFinite]; norm_num

example : (1 / 1000000 : ℝ) < |(![0, 0, 0, 2, 1] : Fin 5 → ℝ) 4| ∧
    |(![0, 0, 0, 2, 1 / 2000000] : Fin 5 → ℝ) 4| ≤ 1 / 1000000 := by
  constructor
  · show (1 / 1000000 : ℝ) < |1|; norm_num
  · show |(1 / 2000000 : ℝ)| ≤ 1 / 1000000
    rw [abs_of_pos] <;> norm_num

end Multicalc
