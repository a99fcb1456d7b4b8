import Mathlib.Analysis.SpecialFunctions.PolarCoord
import Mathlib.Analysis.SpecialFunctions.Integrals.Basic
import Mathlib.MeasureTheory.Integral.Prod
import Mathlib.MeasureTheory.Measure.Lebesgue.Basic
import Mathlib.Tactic

/-!
# Volumes and second moments of ellipsoids, boxes, cylinders and capsules

Integrals over the solids themselves, by slices and polar coordinates.
-/

open MeasureTheory Set Real

namespace Multicalc

/-- Points of a body's own frame. -/
abbrev Pt := (ℝ × ℝ) × ℝ

/-- The points of the plane whose distance to the origin squared is at most `s`. -/
def disc (s : ℝ) : Set (ℝ × ℝ) := {p | p.1 ^ 2 + p.2 ^ 2 ≤ s}

theorem disc_measurable (s : ℝ) : MeasurableSet (disc s) :=
  measurableSet_le (by fun_prop) (by fun_prop)

/-- An integral over a disc in polar coordinates. -/
theorem disc_polar (r : ℝ) (hr : 0 ≤ r) (n : ℕ) (g : ℝ → ℝ) (f : ℝ × ℝ → ℝ)
    (hf : ∀ ρ θ, f (ρ * cos θ, ρ * sin θ) = ρ ^ n * g θ) :
    ∫ p in disc (r ^ 2), f p = r ^ (n + 2) / (n + 2) * ∫ θ in (-π)..π, g θ := by
  rw [← integral_indicator (disc_measurable _), ← integral_comp_polarCoord_symm]
  have hset : polarCoord.target = Ioi (0 : ℝ) ×ˢ Ioo (-π) π := rfl
  have : ∫ p in polarCoord.target, p.1 • (disc (r ^ 2)).indicator f (polarCoord.symm p) =
      ∫ p in Ioi (0 : ℝ) ×ˢ Ioo (-π) π, ((Iic r).indicator (fun ρ => ρ ^ (n + 1)) p.1) * g p.2 := by
    rw [hset]
    refine setIntegral_congr_fun (measurableSet_Ioi.prod measurableSet_Ioo) ?_
    rintro ⟨ρ, θ⟩ ⟨h1, -⟩
    have h0 : 0 < ρ := h1
    have e : polarCoord.symm (ρ, θ) = (ρ * cos θ, ρ * sin θ) := rfl
    have hm : (ρ * cos θ, ρ * sin θ) ∈ disc (r ^ 2) ↔ ρ ∈ Iic r := by
      simp only [disc, mem_ofPred_eq, mem_Iic]
      have : (ρ * cos θ) ^ 2 + (ρ * sin θ) ^ 2 = ρ ^ 2 := by
        have := sin_sq_add_cos_sq θ
        linear_combination ρ ^ 2 * this
      rw [this]
      exact pow_le_pow_iff_left₀ h0.le hr two_ne_zero
    simp only [e, indicator, hm, smul_eq_mul]
    split
    · rw [hf]; ring
    · simp
  rw [this, Measure.volume_eq_prod]
  rw [setIntegral_prod_mul (fun ρ => (Iic r).indicator (fun ρ => ρ ^ (n + 1)) ρ) g]
  congr 1
  · rw [setIntegral_indicator measurableSet_Iic, Ioi_inter_Iic, ← intervalIntegral.integral_of_le hr, integral_pow]
    push_cast
    simp
    ring
  · rw [intervalIntegral.integral_of_le (by linarith [pi_pos]), integral_Ioc_eq_integral_Ioo]

theorem disc_area (s : ℝ) (hs : 0 ≤ s) : ∫ _ in disc s, (1 : ℝ) = π * s := by
  have := disc_polar (√s) (sqrt_nonneg _) 0 (fun _ => 1) (fun _ => 1) (by simp)
  rw [sq_sqrt hs] at this
  rw [this, intervalIntegral.integral_const]
  simp
  ring

theorem disc_sq (s : ℝ) (hs : 0 ≤ s) :
    ∫ p in disc s, p.1 ^ 2 = π * s ^ 2 / 4 ∧ ∫ p in disc s, p.2 ^ 2 = π * s ^ 2 / 4 := by
  have e : (√s) ^ 4 = s ^ 2 := by rw [show 4 = 2 * 2 from rfl, pow_mul, sq_sqrt hs]
  have h1 := disc_polar (√s) (sqrt_nonneg _) 2 (fun θ => cos θ ^ 2) (fun p => p.1 ^ 2) (fun ρ θ => by ring)
  have h2 := disc_polar (√s) (sqrt_nonneg _) 2 (fun θ => sin θ ^ 2) (fun p => p.2 ^ 2) (fun ρ θ => by ring)
  rw [sq_sqrt hs] at h1 h2
  rw [h1, h2, integral_cos_sq, integral_sin_sq]
  have e' : (√s) ^ (2 + 2) = s ^ 2 := e
  rw [e']
  constructor <;> (simp; ring)

/-- The solid of revolution whose slice at height `z` is the disc of squared radius `g z`. -/
def revolution (g : ℝ → ℝ) (L : ℝ) : Set Pt := {p | p.1 ∈ disc (g p.2) ∧ |p.2| ≤ L}

theorem revolution_compact {g : ℝ → ℝ} (hg : Continuous g) (L : ℝ) : IsCompact (revolution g L) := by
  obtain ⟨B, hB⟩ : ∃ B, ∀ z ∈ Icc (-L) L, g z ≤ B := by
    obtain ⟨B, hB⟩ := (isCompact_Icc (a := -L) (b := L)).bddAbove_image hg.continuousOn
    exact ⟨B, fun z hz => hB ⟨z, hz, rfl⟩⟩
  have hcl : IsClosed (revolution g L) :=
    (isClosed_le (f := fun p : Pt => p.1.1 ^ 2 + p.1.2 ^ 2) (g := fun p : Pt => g p.2) (by fun_prop)
      (by fun_prop)).inter (isClosed_le (f := fun p : Pt => |p.2|) (g := fun _ => L) (by fun_prop) (by fun_prop))
  refine IsCompact.of_isClosed_subset
    (((isCompact_Icc (a := -(B + 1)) (b := B + 1)).prod (isCompact_Icc (a := -(B + 1)) (b := B + 1))).prod
      (isCompact_Icc (a := -L) (b := L))) hcl ?_
  rintro ⟨⟨x, y⟩, z⟩ ⟨h1, h2⟩
  have h3 := hB z (abs_le.1 h2)
  simp only [disc, mem_ofPred_eq] at h1
  refine ⟨⟨⟨?_, ?_⟩, ⟨?_, ?_⟩⟩, abs_le.1 h2⟩ <;> simp only <;> nlinarith

theorem revolution_integral {g : ℝ → ℝ} (hg : Continuous g) {L : ℝ} (hL : 0 ≤ L)
    (f : ℝ × ℝ → ℝ) (hf : Continuous f) (k : ℝ → ℝ) (hk : Continuous k) :
    ∫ p in revolution g L, f p.1 * k p.2 = ∫ z in -L..L, (∫ q in disc (g z), f q) * k z := by
  have hc := revolution_compact hg L
  have hm : MeasurableSet (revolution g L) := hc.measurableSet
  have hi : IntegrableOn (fun p : Pt => f p.1 * k p.2) (revolution g L) :=
    ContinuousOn.integrableOn_compact hc (by fun_prop)
  rw [← integrable_indicator_iff hm] at hi
  rw [← integral_indicator hm]
  rw [Measure.volume_eq_prod] at hi ⊢
  rw [integral_prod_symm _ hi, intervalIntegral.integral_of_le (by linarith), ← integral_Icc_eq_integral_Ioc,
    ← integral_indicator measurableSet_Icc]
  congr 1
  funext z
  by_cases hz : z ∈ Icc (-L) L
  · rw [indicator_of_mem hz, ← integral_mul_const, ← integral_indicator (disc_measurable _)]
    congr 1
    funext q
    have : ((q, z) : Pt) ∈ revolution g L ↔ q ∈ disc (g z) :=
      ⟨fun h => h.1, fun h => ⟨h, abs_le.2 hz⟩⟩
    by_cases hq : q ∈ disc (g z)
    · rw [indicator_of_mem hq, indicator_of_mem (this.2 hq)]
    · rw [indicator_of_notMem hq, indicator_of_notMem (fun h => hq (this.1 h))]
  · rw [indicator_of_notMem hz]
    have : ∀ q : ℝ × ℝ, (revolution g L).indicator (fun p : Pt => f p.1 * k p.2) (q, z) = 0 := by
      intro q
      refine indicator_of_notMem (fun h => hz (abs_le.1 h.2)) _
    simp [this]

/-- Reflecting a coordinate leaves every integral over a mirror-symmetric set as it was, so an
integrand that changes sign integrates to zero. -/
theorem odd_integral (S : Set Pt) (σ : Pt → Pt) (hσ : MeasurePreserving σ)
    (he : MeasurableEmbedding σ) (hs : ∀ p, σ p ∈ S ↔ p ∈ S) (f : Pt → ℝ) (hf : ∀ p, f (σ p) = -f p) :
    ∫ p in S, f p = 0 := by
  have h := hσ.setIntegral_preimage_emb he f S
  have e : σ ⁻¹' S = S := by ext p; exact hs p
  rw [e] at h
  simp only [hf, integral_neg] at h
  linarith

theorem neg_preserves : MeasurePreserving (fun x : ℝ => -x) :=
  ⟨measurable_neg, by
    have := Real.map_volume_mul_left (a := -1) (by norm_num)
    simpa using this⟩

theorem flip_x : MeasurePreserving (fun p : Pt => ((-p.1.1, p.1.2), p.2)) :=
  ((neg_preserves).prod (MeasurePreserving.id volume)).prod (MeasurePreserving.id volume)
theorem flip_y : MeasurePreserving (fun p : Pt => ((p.1.1, -p.1.2), p.2)) :=
  ((MeasurePreserving.id volume).prod (neg_preserves)).prod (MeasurePreserving.id volume)
theorem flip_z : MeasurePreserving (fun p : Pt => ((p.1.1, p.1.2), -p.2)) :=
  ((MeasurePreserving.id volume).prod (MeasurePreserving.id volume)).prod (neg_preserves)

/-- The coordinates of a point. -/
def coord (p : Pt) : Fin 3 → ℝ := ![p.1.1, p.1.2, p.2]

/-- A solid with volume `V`, centred at the origin, whose axes are principal and whose mean square
extents along them are `s`: all of it said with integrals over the solid. -/
structure Moments (S : Set Pt) (V : ℝ) (s : Fin 3 → ℝ) : Prop where
  compact : IsCompact S
  volume : ∫ _ in S, (1 : ℝ) = V
  first : ∀ i, ∫ p in S, coord p i = 0
  second : ∀ i j, ∫ p in S, coord p i * coord p j = if i = j then V * s i else 0

theorem flip_emb : MeasurableEmbedding (fun p : Pt => ((-p.1.1, p.1.2), p.2)) ∧
    MeasurableEmbedding (fun p : Pt => ((p.1.1, -p.1.2), p.2)) ∧
    MeasurableEmbedding (fun p : Pt => ((p.1.1, p.1.2), -p.2)) :=
  ⟨(((Homeomorph.neg ℝ).prodCongr (Homeomorph.refl ℝ)).prodCongr (Homeomorph.refl ℝ)).measurableEmbedding,
   (((Homeomorph.refl ℝ).prodCongr (Homeomorph.neg ℝ)).prodCongr (Homeomorph.refl ℝ)).measurableEmbedding,
   (((Homeomorph.refl ℝ).prodCongr (Homeomorph.refl ℝ)).prodCongr (Homeomorph.neg ℝ)).measurableEmbedding⟩

/-- A solid that is its own mirror image in the three coordinate planes. -/
theorem Moments.of_symmetric {S : Set Pt} {V : ℝ} {s : Fin 3 → ℝ} (hc : IsCompact S)
    (hx : ∀ x y z : ℝ, ((-x, y), z) ∈ S ↔ ((x, y), z) ∈ S)
    (hy : ∀ x y z : ℝ, ((x, -y), z) ∈ S ↔ ((x, y), z) ∈ S)
    (hz : ∀ x y z : ℝ, ((x, y), -z) ∈ S ↔ ((x, y), z) ∈ S)
    (h1 : ∫ _ in S, (1 : ℝ) = V) (hxx : ∫ p in S, p.1.1 ^ 2 = V * s 0)
    (hyy : ∫ p in S, p.1.2 ^ 2 = V * s 1) (hzz : ∫ p in S, p.2 ^ 2 = V * s 2) : Moments S V s := by
  have ox := fun f hf => odd_integral S _ flip_x flip_emb.1 (fun p => hx p.1.1 p.1.2 p.2) f hf
  have oy := fun f hf => odd_integral S _ flip_y flip_emb.2.1 (fun p => hy p.1.1 p.1.2 p.2) f hf
  have oz := fun f hf => odd_integral S _ flip_z flip_emb.2.2 (fun p => hz p.1.1 p.1.2 p.2) f hf
  refine ⟨hc, h1, fun i => ?_, fun i j => ?_⟩
  · fin_cases i
    · exact ox _ fun p => rfl
    · exact oy _ fun p => rfl
    · exact oz _ fun p => rfl
  · fin_cases i <;> fin_cases j <;> simp [coord]
    · simpa [sq] using hxx
    · exact ox _ fun p => by simp
    · exact ox _ fun p => by simp
    · exact ox _ fun p => by simp
    · simpa [sq] using hyy
    · exact oy _ fun p => by simp
    · exact ox _ fun p => by simp
    · exact oy _ fun p => by simp
    · simpa [sq] using hzz

/-- The points of an ellipsoid with semi-axes `a`, `b`, `c`. -/
def ellipsoidSet (a b c : ℝ) : Set Pt := {p | (p.1.1 / a) ^ 2 + (p.1.2 / b) ^ 2 + (p.2 / c) ^ 2 ≤ 1}
/-- The points of a box with half-widths `a`, `b`, `c`. -/
def boxSet (a b c : ℝ) : Set Pt := {p | |p.1.1| ≤ a ∧ |p.1.2| ≤ b ∧ |p.2| ≤ c}
/-- The points of a cylinder of radius `r` and half-length `h` about the z-axis. -/
def cylinderSet (r h : ℝ) : Set Pt := {p | p.1.1 ^ 2 + p.1.2 ^ 2 ≤ r ^ 2 ∧ |p.2| ≤ h}
/-- The points within `r` of the segment from `-h` to `h` on the z-axis. -/
def capsuleSet (r h : ℝ) : Set Pt :=
  {p | ∃ t, |t| ≤ h ∧ p.1.1 ^ 2 + p.1.2 ^ 2 + (p.2 - t) ^ 2 ≤ r ^ 2}

/-- Moments of a solid of revolution. -/
theorem revolution_moments {g : ℝ → ℝ} (hg : Continuous g) {L : ℝ} (hL : 0 ≤ L)
    (hpos : ∀ z, |z| ≤ L → 0 ≤ g z) (hev : ∀ z, g (-z) = g z) {V : ℝ} {s : Fin 3 → ℝ}
    (h1 : ∫ z in -L..L, π * g z = V) (h2 : ∫ z in -L..L, π * g z ^ 2 / 4 = V * s 0) (h3 : s 0 = s 1)
    (h4 : ∫ z in -L..L, π * g z * z ^ 2 = V * s 2) : Moments (revolution g L) V s := by
  have key : ∀ (F G : ℝ → ℝ), (∀ z, |z| ≤ L → F z = G z) → ∫ z in -L..L, F z = ∫ z in -L..L, G z := by
    intro F G h
    refine intervalIntegral.integral_congr fun z hz => h z ?_
    rw [uIcc_of_le (by linarith)] at hz
    exact abs_le.2 hz
  refine Moments.of_symmetric (revolution_compact hg L) ?_ ?_ ?_ ?_ ?_ ?_ ?_
  · intro x y z; simp [revolution, disc]
  · intro x y z; simp [revolution, disc]
  · intro x y z; simp [revolution, disc, hev]
  · have := revolution_integral hg hL (fun _ => 1) (by fun_prop) (fun _ => 1) (by fun_prop)
    simp only [mul_one] at this
    rw [this, ← h1]
    exact key _ _ fun z hz => disc_area _ (hpos z hz)
  · have := revolution_integral hg hL (fun q => q.1 ^ 2) (by fun_prop) (fun _ => 1) (by fun_prop)
    simp only [mul_one] at this
    rw [this, ← h2]
    exact key _ _ fun z hz => (disc_sq _ (hpos z hz)).1
  · have := revolution_integral hg hL (fun q => q.2 ^ 2) (by fun_prop) (fun _ => 1) (by fun_prop)
    simp only [mul_one] at this
    rw [this, ← h3, ← h2]
    exact key _ _ fun z hz => (disc_sq _ (hpos z hz)).2
  · have := revolution_integral hg hL (fun q => 1) (by fun_prop) (fun z => z ^ 2) (by fun_prop)
    simp only [one_mul] at this
    rw [this, ← h4]
    exact key _ _ fun z hz => by rw [disc_area _ (hpos z hz)]

theorem cylinder_moments (r h : ℝ) (hh : 0 ≤ h) :
    Moments (cylinderSet r h) (2 * π * r * r * h) ![r * r / 4, r * r / 4, h * h / 3] := by
  refine revolution_moments (g := fun _ => r ^ 2) (by fun_prop) hh (fun _ _ => sq_nonneg r) (fun _ => rfl) ?_ ?_ rfl ?_
  · simp; ring
  · simp; ring
  · simp [integral_pow]; ring

theorem ball_moments : Moments {p : Pt | p.1.1 ^ 2 + p.1.2 ^ 2 + p.2 ^ 2 ≤ 1} (4 / 3 * π) (fun _ => 1 / 5) := by
  have e : {p : Pt | p.1.1 ^ 2 + p.1.2 ^ 2 + p.2 ^ 2 ≤ 1} = revolution (fun z => 1 - z ^ 2) 1 := by
    ext ⟨⟨x, y⟩, z⟩
    simp only [revolution, disc, mem_ofPred_eq]
    constructor
    · intro h; exact ⟨by linarith, abs_le_of_sq_le_sq (by nlinarith [sq_nonneg x, sq_nonneg y]) zero_le_one⟩
    · rintro ⟨h, -⟩; linarith
  rw [e]
  refine revolution_moments (by fun_prop) zero_le_one (fun z hz => ?_) (fun z => by ring) ?_ ?_ rfl ?_
  · have := (sq_le_one_iff_abs_le_one z).2 hz
    linarith
  · rw [intervalIntegral.integral_const_mul, intervalIntegral.integral_sub (by simp) (by simp), integral_pow]
    simp; ring
  · have : ∀ z : ℝ, π * (1 - z ^ 2) ^ 2 / 4 = π / 4 * (1 - 2 * z ^ 2 + z ^ 4) := fun z => by ring
    simp only [this]
    rw [intervalIntegral.integral_const_mul, intervalIntegral.integral_add (by apply Continuous.intervalIntegrable; fun_prop) (by apply Continuous.intervalIntegrable; fun_prop),
      intervalIntegral.integral_sub (by simp) (by apply Continuous.intervalIntegrable; fun_prop), intervalIntegral.integral_const_mul, integral_pow, integral_pow]
    simp; ring
  · have : ∀ z : ℝ, π * (1 - z ^ 2) * z ^ 2 = π * (z ^ 2 - z ^ 4) := fun z => by ring
    simp only [this]
    rw [intervalIntegral.integral_const_mul, intervalIntegral.integral_sub (by simp) (by simp), integral_pow, integral_pow]
    simp; ring

theorem scale_integral (a b c : ℝ) (ha : 0 < a) (hb : 0 < b) (hc : 0 < c) (S : Set Pt) (f : Pt → ℝ) :
    ∫ p in S, f p = a * b * c * ∫ p in (fun p : Pt => ((a * p.1.1, b * p.1.2), c * p.2)) ⁻¹' S,
      f ((a * p.1.1, b * p.1.2), c * p.2) := by
  have hone : ∀ k : ℝ, 0 < k → MeasurePreserving (fun x : ℝ => k * x) volume (ENNReal.ofReal k⁻¹ • volume) := by
    intro k hk
    refine ⟨by fun_prop, ?_⟩
    rw [Real.map_volume_mul_left hk.ne', abs_of_pos (inv_pos.2 hk)]
  have hm := ((hone a ha).prod (hone b hb)).prod (hone c hc)
  have he : MeasurableEmbedding (Prod.map (Prod.map (fun x : ℝ => a * x) (fun x : ℝ => b * x)) (fun x : ℝ => c * x)) :=
    (((Homeomorph.mulLeft₀ a ha.ne').prodCongr (Homeomorph.mulLeft₀ b hb.ne')).prodCongr
      (Homeomorph.mulLeft₀ c hc.ne')).measurableEmbedding
  have h := hm.setIntegral_preimage_emb he f S
  rw [Measure.prod_smul_left, Measure.prod_smul_right, Measure.prod_smul_right, smul_smul, Measure.prod_smul_left, smul_smul, Measure.restrict_smul,
    integral_smul_measure] at h
  rw [ENNReal.toReal_mul, ENNReal.toReal_mul, ENNReal.toReal_ofReal (inv_pos.2 ha).le, ENNReal.toReal_ofReal (inv_pos.2 hb).le,
    ENNReal.toReal_ofReal (inv_pos.2 hc).le] at h
  have h' : ∫ p in (fun p : Pt => ((a * p.1.1, b * p.1.2), c * p.2)) ⁻¹' S,
      f ((a * p.1.1, b * p.1.2), c * p.2) = (c⁻¹ * (b⁻¹ * a⁻¹)) * ∫ p in S, f p := by
    refine h.trans ?_
    simp only [smul_eq_mul, Measure.volume_eq_prod]
    ring
  rw [h']
  field_simp

theorem ellipsoid_moments (a b c : ℝ) (ha : 0 < a) (hb : 0 < b) (hc : 0 < c) :
    Moments (ellipsoidSet a b c) (4 / 3 * π * a * b * c) ![a * a / 5, b * b / 5, c * c / 5] := by
  have hpre : (fun p : Pt => ((a * p.1.1, b * p.1.2), c * p.2)) ⁻¹' ellipsoidSet a b c =
      {p : Pt | p.1.1 ^ 2 + p.1.2 ^ 2 + p.2 ^ 2 ≤ 1} := by
    ext p
    simp only [ellipsoidSet, mem_preimage, mem_ofPred_eq]
    rw [mul_div_cancel_left₀ _ ha.ne', mul_div_cancel_left₀ _ hb.ne', mul_div_cancel_left₀ _ hc.ne']
  have hcpt : IsCompact (ellipsoidSet a b c) := by
    have hcl : IsClosed (ellipsoidSet a b c) :=
      isClosed_le (f := fun p : Pt => (p.1.1 / a) ^ 2 + (p.1.2 / b) ^ 2 + (p.2 / c) ^ 2) (g := fun _ => 1)
        (by fun_prop) (by fun_prop)
    have hle : ∀ x k : ℝ, 0 < k → (x / k) ^ 2 ≤ 1 → x ∈ Icc (-k) k := by
      intro x k hk h
      have := (sq_le_one_iff_abs_le_one _).1 h
      rw [abs_div, abs_of_pos hk, div_le_one hk] at this
      exact abs_le.1 this
    refine IsCompact.of_isClosed_subset
      (((isCompact_Icc (a := -a) (b := a)).prod (isCompact_Icc (a := -b) (b := b))).prod
        (isCompact_Icc (a := -c) (b := c))) hcl ?_
    rintro ⟨⟨x, y⟩, z⟩ h
    simp only [ellipsoidSet, mem_ofPred_eq] at h
    exact ⟨⟨hle x a ha (by nlinarith [sq_nonneg (y / b), sq_nonneg (z / c)]),
      hle y b hb (by nlinarith [sq_nonneg (x / a), sq_nonneg (z / c)])⟩,
      hle z c hc (by nlinarith [sq_nonneg (x / a), sq_nonneg (y / b)])⟩
  have h2 := ball_moments.second
  have e0 := h2 0 0
  have e1 := h2 1 1
  have e2 := h2 2 2
  simp only [coord, ↓reduceIte, Matrix.cons_val] at e0 e1 e2
  refine Moments.of_symmetric hcpt ?_ ?_ ?_ ?_ ?_ ?_ ?_
  · intro x y z; simp [ellipsoidSet, neg_div]
  · intro x y z; simp [ellipsoidSet, neg_div]
  · intro x y z; simp [ellipsoidSet, neg_div]
  · rw [scale_integral a b c ha hb hc, hpre, ball_moments.volume]; ring
  · rw [scale_integral a b c ha hb hc, hpre]
    have : ∀ p : Pt, (a * p.1.1) ^ 2 = a ^ 2 * (p.1.1 * p.1.1) := fun p => by ring
    simp only [this]
    rw [integral_const_mul, e0]; simp; ring
  · rw [scale_integral a b c ha hb hc, hpre]
    have : ∀ p : Pt, (b * p.1.2) ^ 2 = b ^ 2 * (p.1.2 * p.1.2) := fun p => by ring
    simp only [this]
    rw [integral_const_mul, e1]; simp; ring
  · rw [scale_integral a b c ha hb hc, hpre]
    have : ∀ p : Pt, (c * p.2) ^ 2 = c ^ 2 * (p.2 * p.2) := fun p => by ring
    simp only [this]
    rw [integral_const_mul, e2]; simp; ring

theorem box_moments (a b c : ℝ) (ha : 0 ≤ a) (hb : 0 ≤ b) (hc : 0 ≤ c) :
    Moments (boxSet a b c) (8 * a * b * c) ![a * a / 3, b * b / 3, c * c / 3] := by
  have e : boxSet a b c = ((Icc (-a) a) ×ˢ (Icc (-b) b)) ×ˢ (Icc (-c) c) := by
    ext ⟨⟨x, y⟩, z⟩
    simp only [boxSet, abs_le, mem_ofPred_eq, mem_prod, mem_Icc]
    tauto
  have hcpt : IsCompact (boxSet a b c) := by
    rw [e]; exact (isCompact_Icc.prod isCompact_Icc).prod isCompact_Icc
  have hint : ∀ f g k : ℝ → ℝ, ∫ p in boxSet a b c, f p.1.1 * g p.1.2 * k p.2 =
      (∫ x in -a..a, f x) * (∫ y in -b..b, g y) * (∫ z in -c..c, k z) := by
    intro f g k
    rw [e, Measure.volume_eq_prod, setIntegral_prod_mul (fun q : ℝ × ℝ => f q.1 * g q.2) k,
      Measure.volume_eq_prod, setIntegral_prod_mul f g]
    simp only [intervalIntegral.integral_of_le (by linarith : -a ≤ a), intervalIntegral.integral_of_le (by linarith : -b ≤ b),
      intervalIntegral.integral_of_le (by linarith : -c ≤ c), integral_Icc_eq_integral_Ioc]
  refine Moments.of_symmetric hcpt ?_ ?_ ?_ ?_ ?_ ?_ ?_
  · intro x y z; simp [boxSet]
  · intro x y z; simp [boxSet]
  · intro x y z; simp [boxSet]
  · have := hint (fun _ => 1) (fun _ => 1) (fun _ => 1)
    simp only [mul_one] at this
    rw [this]; simp; ring
  · have := hint (fun x => x ^ 2) (fun _ => 1) (fun _ => 1)
    simp only [mul_one] at this
    rw [this]; simp [integral_pow]; ring
  · have := hint (fun _ => 1) (fun x => x ^ 2) (fun _ => 1)
    simp only [mul_one, one_mul] at this
    rw [this]; simp [integral_pow]; ring
  · have := hint (fun _ => 1) (fun _ => 1) (fun x => x ^ 2)
    simp only [mul_one, one_mul] at this
    rw [this]; simp [integral_pow]; ring

theorem capsule_eq (r h : ℝ) (hr : 0 ≤ r) (hh : 0 ≤ h) :
    capsuleSet r h = revolution (fun z => r ^ 2 - max (|z| - h) 0 ^ 2) (h + r) := by
  ext ⟨⟨x, y⟩, z⟩
  simp only [capsuleSet, revolution, disc, mem_ofPred_eq]
  constructor
  · rintro ⟨t, ht, h1⟩
    have h2 : max (|z| - h) 0 ≤ |z - t| := by
      refine max_le ?_ (abs_nonneg _)
      have := abs_sub_abs_le_abs_sub z t
      linarith
    have h3 : max (|z| - h) 0 ^ 2 ≤ (z - t) ^ 2 := by
      rw [← sq_abs (z - t)]
      exact pow_le_pow_left₀ (le_max_right _ _) h2 2
    refine ⟨by linarith, ?_⟩
    have h4 : |z - t| ≤ r := abs_le_of_sq_le_sq (by nlinarith [sq_nonneg x, sq_nonneg y]) hr
    have := abs_sub_abs_le_abs_sub z t
    linarith
  · rintro ⟨h1, h2⟩
    by_cases hz : |z| ≤ h
    · rw [max_eq_right (by linarith)] at h1
      exact ⟨z, hz, by nlinarith⟩
    · push Not at hz
      rw [max_eq_left (by linarith)] at h1
      by_cases h0 : 0 ≤ z
      · rw [abs_of_nonneg h0] at h1
        exact ⟨h, by rw [abs_of_nonneg hh], by linarith⟩
      · push Not at h0
        rw [abs_of_neg h0] at h1
        exact ⟨-h, by rw [abs_neg, abs_of_nonneg hh], by nlinarith⟩

/-- An even integrand that is one polynomial on the barrel and another on the caps. -/
theorem capsule_integral (r h : ℝ) (hr : 0 ≤ r) (hh : 0 ≤ h) (F B C : ℝ → ℝ) (hF : Continuous F) (hev : ∀ z, F (-z) = F z)
    (hB : ∀ z, 0 ≤ z → z ≤ h → F z = B z) (hC : ∀ z, h ≤ z → F z = C (z - h)) :
    ∫ z in -(h + r)..(h + r), F z = 2 * ((∫ z in 0..h, B z) + ∫ z in 0..r, C z) := by
  have hi : ∀ a b, IntervalIntegrable F volume a b := fun a b => hF.intervalIntegrable a b
  have h1 : ∫ z in -(h + r)..0, F z = ∫ z in 0..(h + r), F z := by
    have := intervalIntegral.integral_comp_neg (f := F) (a := 0) (b := h + r)
    rw [neg_zero] at this
    rw [← this]
    simp only [hev]
  have h2 : ∫ z in 0..h, F z = ∫ z in 0..h, B z := by
    refine intervalIntegral.integral_congr fun z hz => ?_
    rw [uIcc_of_le hh] at hz
    exact hB z hz.1 hz.2
  have h3 : ∫ z in h..(h + r), F z = ∫ z in 0..r, C z := by
    have := intervalIntegral.integral_comp_sub_right (f := C) (a := h) (b := h + r) h
    rw [sub_self, add_sub_cancel_left] at this
    rw [← this]
    refine intervalIntegral.integral_congr fun z hz => ?_
    rw [uIcc_of_le (by linarith)] at hz
    exact hC z hz.1
  rw [← intervalIntegral.integral_add_adjacent_intervals (hi _ 0) (hi 0 _), h1,
    ← intervalIntegral.integral_add_adjacent_intervals (hi 0 h) (hi h _), h2, h3]
  ring

theorem capsule_moments (r h : ℝ) (hr : 0 < r) (hh : 0 ≤ h) (V sx sz : ℝ)
    (hV : V = 2 * π * r * r * h + 4 / 3 * π * r * r * r)
    (hx : V * sx = 2 * π * r * r * h * (r * r / 4) + 4 / 3 * π * r * r * r * (r * r / 5))
    (hz : V * sz = 2 * π * r * r * h * (h * h / 3) +
      4 / 3 * π * r * r * r * (h * h + 3 / 4 * r * h + r * r / 5)) :
    Moments (capsuleSet r h) V ![sx, sx, sz] := by
  rw [capsule_eq r h hr.le hh]
  have hm : ∀ z, 0 ≤ z → z ≤ h → max (|z| - h) 0 = 0 := fun z h0 h1 => by
    rw [abs_of_nonneg h0, max_eq_right (by linarith)]
  have hc : ∀ z, h ≤ z → max (|z| - h) 0 = z - h := fun z h1 => by
    rw [abs_of_nonneg (by linarith), max_eq_left (by linarith)]
  refine revolution_moments (by fun_prop) (by linarith) (fun z hz => ?_) (fun z => by rw [abs_neg]) ?_ ?_ rfl ?_
  · have : max (|z| - h) 0 ≤ r := max_le (by linarith) hr.le
    have := pow_le_pow_left₀ (le_max_right (|z| - h) 0) this 2
    linarith
  · rw [capsule_integral r h hr.le hh _ (fun _ => π * r ^ 2) (fun u => π * (r ^ 2 - u ^ 2)) (by fun_prop) (fun z => by rw [abs_neg])
      (fun z h0 h1 => by rw [hm z h0 h1]; ring) (fun z h1 => by rw [hc z h1])]
    rw [intervalIntegral.integral_const_mul π, intervalIntegral.integral_const_mul π, intervalIntegral.integral_sub (by simp) (by simp), integral_pow, hV]
    simp; ring
  · rw [capsule_integral r h hr.le hh _ (fun _ => π * r ^ 4 / 4) (fun u => π / 4 * (r ^ 4 - 2 * r ^ 2 * u ^ 2 + u ^ 4)) (by fun_prop) (fun z => by rw [abs_neg])
      (fun z h0 h1 => by rw [hm z h0 h1]; ring) (fun z h1 => by rw [hc z h1]; ring)]
    rw [intervalIntegral.integral_const_mul (π / 4), intervalIntegral.integral_add (by apply Continuous.intervalIntegrable; fun_prop) (by simp),
      intervalIntegral.integral_sub (by simp) (by apply Continuous.intervalIntegrable; fun_prop), intervalIntegral.integral_const_mul, integral_pow, integral_pow]
    simp only [Matrix.cons_val_zero]
    rw [hx]
    simp; ring
  · rw [capsule_integral r h hr.le hh _ (fun z => π * r ^ 2 * z ^ 2) (fun u => π * (r ^ 2 * h ^ 2 + 2 * h * r ^ 2 * u + (r ^ 2 - h ^ 2) * u ^ 2 - 2 * h * u ^ 3 - u ^ 4))
      (by fun_prop) (fun z => by rw [abs_neg, neg_sq])
      (fun z h0 h1 => by rw [hm z h0 h1]; ring) (fun z h1 => by rw [hc z h1]; ring)]
    have ii : ∀ f : ℝ → ℝ, Continuous f → ∀ a b, IntervalIntegrable f volume a b := fun f hf a b => hf.intervalIntegrable a b
    rw [intervalIntegral.integral_const_mul, intervalIntegral.integral_const_mul π,
      intervalIntegral.integral_sub (ii _ (by fun_prop) _ _) (ii _ (by fun_prop) _ _),
      intervalIntegral.integral_sub (ii _ (by fun_prop) _ _) (ii _ (by fun_prop) _ _),
      intervalIntegral.integral_add (ii _ (by fun_prop) _ _) (ii _ (by fun_prop) _ _),
      intervalIntegral.integral_add (ii _ (by fun_prop) _ _) (ii _ (by fun_prop) _ _),
      intervalIntegral.integral_const_mul, intervalIntegral.integral_const_mul, intervalIntegral.integral_const_mul,
      intervalIntegral.integral_const_mul, integral_pow, integral_pow, integral_pow, integral_pow, integral_id]
    simp only [Matrix.cons_val]
    rw [hz]
    simp; ring

end Multicalc
