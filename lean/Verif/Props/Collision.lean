import Verif.Model.Collision
import Verif.Model.XR
import Verif.Props.Rigid
import Mathlib.Analysis.InnerProductSpace.PiL2

/-!
# Sphere and capsule proximity (C56)
-/

namespace Multicalc

/-! ### Distances -/

/-- Euclidean distance of two points of space. -/
noncomputable def dist3 (x y : Fin 3 → ℝ) : ℝ :=
  Real.sqrt ((x 0 - y 0) ^ 2 + (x 1 - y 1) ^ 2 + (x 2 - y 2) ^ 2)

theorem vnorm_vsub (x y : Fin 3 → ℝ) : vnorm (vsub x y) = dist3 x y := by
  rw [vnorm, real_sqrt, vnormSquared, vdot3, dist3]
  simp only [vsub]; congr 1; ring

theorem dist3_eq (x y : Fin 3 → ℝ) : dist3 x y = dist (WithLp.toLp 2 x) (WithLp.toLp 2 y) := by
  rw [EuclideanSpace.dist_eq, dist3]
  simp [Fin.sum_univ_three, Real.dist_eq, sq_abs]

theorem dist3_triangle (x y z : Fin 3 → ℝ) : dist3 x z ≤ dist3 x y + dist3 y z := by
  simp only [dist3_eq]; exact dist_triangle _ _ _

theorem dist3_comm (x y : Fin 3 → ℝ) : dist3 x y = dist3 y x := by
  simp only [dist3_eq]; exact dist_comm _ _

theorem dist3_nonneg (x y : Fin 3 → ℝ) : 0 ≤ dist3 x y := Real.sqrt_nonneg _

theorem dist3_self (x : Fin 3 → ℝ) : dist3 x x = 0 := by simp [dist3]

theorem dist3_sq (x y : Fin 3 → ℝ) :
    dist3 x y ^ 2 = (x 0 - y 0) ^ 2 + (x 1 - y 1) ^ 2 + (x 2 - y 2) ^ 2 := Real.sq_sqrt (by positivity)

theorem dist3_line (x y : Fin 3 → ℝ) (s t : ℝ) :
    dist3 (fun i => x i + (y i - x i) * s) (fun i => x i + (y i - x i) * t) = |s - t| * dist3 x y := by
  rw [← abs_of_nonneg (dist3_nonneg x y), ← abs_mul, ← Real.sqrt_sq_eq_abs, mul_pow, dist3_sq, dist3]
  congr 1; ring

theorem dist3_eq_zero {x y : Fin 3 → ℝ} (h : dist3 x y = 0) : x = y := by
  have := dist3_sq x y
  rw [h] at this
  funext i
  have h0 : x 0 - y 0 = 0 := by nlinarith [sq_nonneg (x 0 - y 0), sq_nonneg (x 1 - y 1), sq_nonneg (x 2 - y 2)]
  have h1 : x 1 - y 1 = 0 := by nlinarith [sq_nonneg (x 0 - y 0), sq_nonneg (x 1 - y 1), sq_nonneg (x 2 - y 2)]
  have h2 : x 2 - y 2 = 0 := by nlinarith [sq_nonneg (x 0 - y 0), sq_nonneg (x 1 - y 1), sq_nonneg (x 2 - y 2)]
  fin_cases i
  · exact sub_eq_zero.1 h0
  · exact sub_eq_zero.1 h1
  · exact sub_eq_zero.1 h2

/-- The points of the segment from `a` to `b`. -/
def OnSegment (a b x : Fin 3 → ℝ) : Prop := ∃ t, 0 ≤ t ∧ t ≤ 1 ∧ ∀ i, x i = a i + t * (b i - a i)

theorem onSegment_left (a b : Fin 3 → ℝ) : OnSegment a b a := ⟨0, le_rfl, zero_le_one, by simp⟩

/-! ### Closest point of a segment -/

theorem clamp01 (x : ℝ) :
    0 ≤ smin (smax x 0) 1 ∧ smin (smax x 0) 1 ≤ 1 ∧
    (∀ y, 0 ≤ y → y ≤ 1 → 0 ≤ (smin (smax x 0) 1 - x) * (y - smin (smax x 0) 1)) := by
  unfold smin smax
  split_ifs with h1 h2 h2
  · exact ⟨h1.le, h2.le, fun y _ _ => by simp⟩
  · refine ⟨zero_le_one, le_rfl, fun y _ hy => ?_⟩
    have := not_lt.1 h2
    nlinarith
  · refine ⟨le_rfl, zero_le_one, fun y hy _ => ?_⟩
    have := not_lt.1 h1
    nlinarith
  · exact absurd zero_lt_one h2

theorem clamp01_div (α β y : ℝ) (hα : 0 < α) (h0 : 0 ≤ y) (h1 : y ≤ 1) :
    0 ≤ (α * smin (smax (β / α) 0) 1 - β) * (y - smin (smax (β / α) 0) 1) := by
  have h := (clamp01 (β / α)).2.2 y h0 h1
  generalize smin (smax (β / α) 0) 1 = k at *
  have : α * k - β = α * (k - β / α) := by field_simp
  rw [this, mul_assoc]
  exact mul_nonneg hα.le h

theorem epsilon_real : (Fns.epsilon : ℝ) = 1 / 2 ^ 52 := rfl

theorem vdot_vsub_self (a b : Fin 3 → ℝ) : vdot (vsub b a) (vsub b a) = dist3 a b ^ 2 := by
  rw [dist3_sq, vdot3]; simp only [vsub]; ring

/-- C56. The returned point lies on the segment, always. It is a closest point of the segment whenever the
segment is longer than √ε (2⁻²⁶) or has length zero; for shorter segments it is within 2⁻²⁶ of closest. -/
theorem closest_point_on_segment (v a b : Fin 3 → ℝ) :
    OnSegment a b (closestPointOnSegment v a b) ∧
    ((a = b ∨ 1 / 2 ^ 26 < dist3 a b) →
      ∀ x, OnSegment a b x → dist3 v (closestPointOnSegment v a b) ≤ dist3 v x) ∧
    ∀ x, OnSegment a b x → dist3 v (closestPointOnSegment v a b) ≤ dist3 v x + 1 / 2 ^ 26 := by
  have hline : ∀ s t, dist3 (fun i => a i + s * (b i - a i)) (fun i => a i + t * (b i - a i)) =
      |s - t| * dist3 a b := by
    intro s t; rw [← dist3_line]; congr 1 <;> funext i <;> ring
  unfold closestPointOnSegment
  dsimp only
  rw [vdot_vsub_self, epsilon_real]
  split
  next h =>
    have hd : dist3 a b ≤ 1 / 2 ^ 26 := by
      refine le_of_pow_le_pow_left₀ (n := 2) (by norm_num) (by norm_num) (h.trans (by norm_num))
    refine ⟨onSegment_left a b, ?_, ?_⟩
    · rintro (hab | hab) x ⟨t, _, _, hx⟩
      · have : x = a := by funext i; rw [hx i, hab]; ring
        rw [this]
      · linarith
    · rintro x ⟨t, h0, h1, hx⟩
      have hx' : x = fun i => a i + t * (b i - a i) := funext hx
      have e : dist3 x a = |t| * dist3 a b := by
        have := hline t 0
        rw [sub_zero] at this
        rw [hx', ← this]; congr 1; funext i; ring
      have : dist3 x a ≤ 1 / 2 ^ 26 := by
        rw [e, abs_of_nonneg h0]
        nlinarith [dist3_nonneg a b]
      linarith [dist3_triangle v x a]
  next h =>
    have hpos : 0 < dist3 a b ^ 2 := lt_trans (by norm_num) (not_le.1 h)
    have hc := clamp01 (vdot (vsub v a) (vsub b a) / dist3 a b ^ 2)
    have hv := fun y h0 h1 => clamp01_div (dist3 a b ^ 2) (vdot (vsub v a) (vsub b a)) y hpos h0 h1
    generalize smin (smax (vdot (vsub v a) (vsub b a) / dist3 a b ^ 2) 0) 1 = k at *
    have hbest : ∀ x, OnSegment a b x → dist3 v (vadd a (vscaleBy (vsub b a) k)) ≤ dist3 v x := by
      rintro x ⟨t, h0, h1, hx⟩
      have := hv t h0 h1
      apply Real.sqrt_le_sqrt
      rw [vdot3, dist3_sq] at this
      simp only [vadd, vscaleBy, vsub, hx] at this ⊢
      nlinarith [sq_nonneg ((t - k) * (b 0 - a 0)), sq_nonneg ((t - k) * (b 1 - a 1)),
        sq_nonneg ((t - k) * (b 2 - a 2))]
    refine ⟨⟨k, hc.1, hc.2.1, fun i => ?_⟩, fun _ => hbest, fun x hx => (hbest x hx).trans (by norm_num)⟩
    simp only [vadd, vscaleBy, vsub]; ring

example : (1 / 2 ^ 26 : ℝ) < dist3 (fun _ => 0) ![0, 0, 1] := by
  simp [dist3]; norm_num

/-! ### Closest points of two segments -/

/-- A stationary point of the convex quadratic over the box is a minimiser. -/
theorem quad_min {a e b c f s t s' t' : ℝ} (hpsd : ∀ x y, 0 ≤ a * x ^ 2 - 2 * b * x * y + e * y ^ 2)
    (h : 0 ≤ (a * s - b * t + c) * (s' - s) + (e * t - b * s - f) * (t' - t)) :
    a * s ^ 2 + e * t ^ 2 - 2 * b * s * t + 2 * c * s - 2 * f * t ≤
      a * s' ^ 2 + e * t' ^ 2 - 2 * b * s' * t' + 2 * c * s' - 2 * f * t' := by
  have := hpsd (s' - s) (t' - t)
  nlinarith

/-- The box-constrained parameters satisfy the optimality condition. -/
theorem segmentParameters_spec {a e b c f : ℝ} (ha : 0 < a) (he : 0 < e) (hD : 0 ≤ a * e - b * b) :
    let st := segmentParameters a e b c f
    (0 ≤ st.1 ∧ st.1 ≤ 1 ∧ 0 ≤ st.2 ∧ st.2 ≤ 1) ∧
    ((1 / 2 ^ 52 < a * e - b * b ∨ (a * e - b * b = 0 ∧ b * f = c * e)) →
      ∀ s' t', 0 ≤ s' → s' ≤ 1 → 0 ≤ t' → t' ≤ 1 →
      0 ≤ (a * st.1 - b * st.2 + c) * (s' - st.1) + (e * st.2 - b * st.1 - f) * (t' - st.2)) := by
  intro st
  -- the first candidate and what it satisfies
  obtain ⟨k, hk, hk0, hk1, hkv⟩ : ∃ k, k = (if (1 / 2 ^ 52 : ℝ) < a * e - b * b then
      smin (smax ((b * f - c * e) / (a * e - b * b)) 0) 1 else 0) ∧ 0 ≤ k ∧ k ≤ 1 ∧
      ((1 / 2 ^ 52 < a * e - b * b ∨ (a * e - b * b = 0 ∧ b * f = c * e)) →
      ∀ y, 0 ≤ y → y ≤ 1 → 0 ≤ ((a * e - b * b) * k - (b * f - c * e)) * (y - k)) := by
    refine ⟨_, rfl, ?_, ?_, ?_⟩
    · split
      · exact (clamp01 _).1
      · exact le_rfl
    · split
      · exact (clamp01 _).2.1
      · exact zero_le_one
    · rintro (h | ⟨h1, h2⟩) y hy0 hy1
      · rw [if_pos h]
        exact clamp01_div _ _ y (lt_trans (by norm_num) h) hy0 hy1
      · rw [if_neg (by rw [h1]; norm_num), h1, h2]; simp
  have hst : st = if (b * k + f) / e < 0 then (smin (smax (-c / a) 0) 1, 0)
      else if 1 < (b * k + f) / e then (smin (smax ((b - c) / a) 0) 1, 1)
      else (k, (b * k + f) / e) := by
    simp only [st, segmentParameters, hk, epsilon_real]
  have hneg : (b * k + f) / e < 0 ↔ b * k + f < 0 := by
    rw [div_lt_iff₀ he, zero_mul]
  have hone : 1 < (b * k + f) / e ↔ e < b * k + f := by
    rw [lt_div_iff₀ he, one_mul]
  rw [hst]
  split_ifs with h1 h2
  · rw [hneg] at h1
    obtain ⟨c0, c1, -⟩ := clamp01 (-c / a)
    have hcv := fun y h0 h1 => clamp01_div a (-c) y ha h0 h1
    generalize smin (smax (-c / a) 0) 1 = m at *
    refine ⟨⟨c0, c1, le_rfl, zero_le_one⟩, fun hg s' t' hs0 hs1 ht0 ht1 => ?_⟩
    have hv := hcv s' hs0 hs1
    -- the remaining multiplier is nonnegative
    have hm : b * m + f ≤ 0 := by
      by_contra hcon
      have hcon := not_le.1 hcon
      have A := hkv hg m c0 c1
      have B := hcv k hk0 hk1
      have hδ : b * (k - m) < 0 := by linarith
      have hu : b * (k - m) < b * k + f := by linarith
      -- e * B + A : -a e (k-m)^2 + (k-m) b (b k + f) ≥ 0
      have h3 : 0 ≤ -(a * e) * (k - m) ^ 2 + b * (k - m) * (b * k + f) := by
        have := mul_nonneg he.le B
        nlinarith
      have h4 : b * (k - m) * (b * k + f) < b * (k - m) * (b * (k - m)) :=
        mul_lt_mul_of_neg_left hu hδ
      nlinarith [mul_nonneg hD (sq_nonneg (k - m))]
    have : 0 ≤ (-(b * m) - f) * t' := mul_nonneg (by linarith) ht0
    simp only
    nlinarith
  · rw [hone] at h2
    rw [hneg] at h1
    obtain ⟨c0, c1, -⟩ := clamp01 ((b - c) / a)
    have hcv := fun y h0 h1 => clamp01_div a (b - c) y ha h0 h1
    generalize smin (smax ((b - c) / a) 0) 1 = m at *
    refine ⟨⟨c0, c1, zero_le_one, le_rfl⟩, fun hg s' t' hs0 hs1 ht0 ht1 => ?_⟩
    have hv := hcv s' hs0 hs1
    have hm : e ≤ b * m + f := by
      by_contra hcon
      have hcon := not_le.1 hcon
      have A := hkv hg m c0 c1
      have B := hcv k hk0 hk1
      have hδ : 0 < b * (k - m) := by linarith
      have hu : b * k + f - e < b * (k - m) := by linarith
      have h3 : 0 ≤ -(a * e) * (k - m) ^ 2 + b * (k - m) * (b * k + f - e) := by
        have := mul_nonneg he.le B
        nlinarith
      have h4 : b * (k - m) * (b * k + f - e) < b * (k - m) * (b * (k - m)) :=
        mul_lt_mul_of_pos_left hu hδ
      nlinarith [mul_nonneg hD (sq_nonneg (k - m))]
    have : 0 ≤ (b * m + f - e) * (1 - t') := mul_nonneg (by linarith) (by linarith)
    simp only
    nlinarith
  · rw [hneg] at h1
    rw [hone] at h2
    refine ⟨⟨hk0, hk1, div_nonneg (not_lt.1 h1) he.le, (div_le_one he).2 (not_lt.1 h2)⟩,
      fun hg s' t' hs0 hs1 ht0 ht1 => ?_⟩
    have hv := hkv hg s' hs0 hs1
    have e1 : e * ((b * k + f) / e) - b * k - f = 0 := by field_simp; ring
    have e2 : a * k - b * ((b * k + f) / e) + c = ((a * e - b * b) * k - (b * f - c * e)) / e := by
      field_simp; ring
    simp only
    rw [e1, e2, zero_mul, add_zero, div_mul_eq_mul_div]
    exact div_nonneg hv he.le

/-- Exactly parallel directions make the two offsets proportional. -/
theorem parallel_offsets {a b c d : Fin 3 → ℝ}
    (h : dist3 a b ^ 2 * dist3 c d ^ 2 - vdot (vsub b a) (vsub d c) * vdot (vsub b a) (vsub d c) = 0) :
    vdot (vsub b a) (vsub d c) * vdot (vsub d c) (vsub a c) = vdot (vsub b a) (vsub a c) * dist3 c d ^ 2 := by
  rw [vdot3 (vsub d c) (vsub a c), vdot3 (vsub b a) (vsub a c)]
  have e : ((b 0 - a 0) * dist3 c d ^ 2 - vdot (vsub b a) (vsub d c) * (d 0 - c 0)) ^ 2 +
      ((b 1 - a 1) * dist3 c d ^ 2 - vdot (vsub b a) (vsub d c) * (d 1 - c 1)) ^ 2 +
      ((b 2 - a 2) * dist3 c d ^ 2 - vdot (vsub b a) (vsub d c) * (d 2 - c 2)) ^ 2 =
      dist3 c d ^ 2 * (dist3 a b ^ 2 * dist3 c d ^ 2 -
      vdot (vsub b a) (vsub d c) * vdot (vsub b a) (vsub d c)) := by
    simp only [dist3_sq, vdot3, vsub]; ring
  rw [h, mul_zero] at e
  have z : ∀ x y z : ℝ, x ^ 2 + y ^ 2 + z ^ 2 = 0 → x = 0 ∧ y = 0 ∧ z = 0 := by
    intro x y z h
    refine ⟨?_, ?_, ?_⟩ <;> nlinarith [sq_nonneg x, sq_nonneg y, sq_nonneg z]
  obtain ⟨z0, z1, z2⟩ := z _ _ _ e
  generalize vdot (vsub b a) (vsub d c) = m at *
  generalize dist3 c d ^ 2 = n at *
  simp only [vsub]
  linear_combination -(a 0 - c 0) * z0 - (a 1 - c 1) * z1 - (a 2 - c 2) * z2

/-- Squared sine area of the two directions: `|d₁|²|d₂|² - (d₁·d₂)²`. -/
noncomputable def crossArea (a b c d : Fin 3 → ℝ) : ℝ :=
  dist3 a b ^ 2 * dist3 c d ^ 2 -
    ((b 0 - a 0) * (d 0 - c 0) + (b 1 - a 1) * (d 1 - c 1) + (b 2 - a 2) * (d 2 - c 2)) ^ 2

set_option maxHeartbeats 800000 in
/-- C56. The two returned points lie on their segments, always. They are a closest pair whenever each segment
has length zero or more than 2⁻²⁶ and the two are exactly parallel or their `crossArea` exceeds 2⁻⁵²; when a
segment is no longer than 2⁻²⁶ the pair is within 2⁻²⁵ of closest. The gap between "parallel" and "area above
2⁻⁵²" is real: see `segment_pair_wrong`. -/
theorem closest_points_between_segments_partial (a b c d : Fin 3 → ℝ) :
    let pq := closestPointsBetweenSegments a b c d
    OnSegment a b pq.1 ∧ OnSegment c d pq.2 ∧
    ((a = b ∨ 1 / 2 ^ 26 < dist3 a b) → (c = d ∨ 1 / 2 ^ 26 < dist3 c d) →
      (crossArea a b c d = 0 ∨ 1 / 2 ^ 52 < crossArea a b c d) →
      ∀ x y, OnSegment a b x → OnSegment c d y → dist3 pq.1 pq.2 ≤ dist3 x y) ∧
    ((dist3 a b ≤ 1 / 2 ^ 26 ∨ dist3 c d ≤ 1 / 2 ^ 26) →
      ∀ x y, OnSegment a b x → OnSegment c d y → dist3 pq.1 pq.2 ≤ dist3 x y + 1 / 2 ^ 25) := by
  intro pq
  have hsmall : ∀ p q : Fin 3 → ℝ, dist3 p q ^ 2 ≤ 1 / 2 ^ 52 ↔ dist3 p q ≤ 1 / 2 ^ 26 := by
    intro p q
    constructor
    · intro h
      exact le_of_pow_le_pow_left₀ (n := 2) (by norm_num) (by norm_num) (h.trans (by norm_num))
    · intro h
      calc dist3 p q ^ 2 ≤ (1 / 2 ^ 26) ^ 2 := by gcongr; exact dist3_nonneg _ _
        _ = _ := by norm_num
  have hnear : ∀ p q x : Fin 3 → ℝ, OnSegment p q x → dist3 x p ≤ dist3 p q := by
    rintro p q x ⟨t, h0, h1, hx⟩
    have hx' : x = fun i => p i + (q i - p i) * t := by funext i; rw [hx i]; ring
    have e := dist3_line p q t 0
    have : (fun i => p i + (q i - p i) * 0) = p := by funext i; ring
    rw [this, ← hx', sub_zero, abs_of_nonneg h0] at e
    rw [e]; nlinarith [dist3_nonneg p q]
  have hq : ∀ s t, dist3 (vadd a (vscaleBy (vsub b a) s)) (vadd c (vscaleBy (vsub d c) t)) ^ 2 =
      dist3 a b ^ 2 * s ^ 2 + dist3 c d ^ 2 * t ^ 2 - 2 * vdot (vsub b a) (vsub d c) * s * t +
      2 * vdot (vsub b a) (vsub a c) * s - 2 * vdot (vsub d c) (vsub a c) * t + dist3 a c ^ 2 := by
    intro s t
    simp only [dist3_sq, vdot3, vadd, vscaleBy, vsub]; ring
  have hpsd : ∀ x y, 0 ≤ dist3 a b ^ 2 * x ^ 2 - 2 * vdot (vsub b a) (vsub d c) * x * y + dist3 c d ^ 2 * y ^ 2 := by
    intro x y
    have : dist3 a b ^ 2 * x ^ 2 - 2 * vdot (vsub b a) (vsub d c) * x * y + dist3 c d ^ 2 * y ^ 2 =
      ((b 0 - a 0) * x - (d 0 - c 0) * y) ^ 2 + ((b 1 - a 1) * x - (d 1 - c 1) * y) ^ 2 +
      ((b 2 - a 2) * x - (d 2 - c 2) * y) ^ 2 := by
      simp only [dist3_sq, vdot3, vsub]; ring
    rw [this]; positivity
  have hseg : ∀ p q : Fin 3 → ℝ, ∀ t, 0 ≤ t → t ≤ 1 → OnSegment p q (vadd p (vscaleBy (vsub q p) t)) := by
    intro p q t h0 h1
    exact ⟨t, h0, h1, fun i => by simp only [vadd, vscaleBy, vsub]; ring⟩
  have hof : ∀ p q x : Fin 3 → ℝ, OnSegment p q x → ∃ t, 0 ≤ t ∧ t ≤ 1 ∧ x = vadd p (vscaleBy (vsub q p) t) := by
    rintro p q x ⟨t, h0, h1, hx⟩
    exact ⟨t, h0, h1, by funext i; rw [hx i]; simp only [vadd, vscaleBy, vsub]; ring⟩
  -- the four branches
  by_cases hA : dist3 a b ≤ 1 / 2 ^ 26
  · have hA' := (hsmall a b).2 hA
    by_cases hC : dist3 c d ≤ 1 / 2 ^ 26
    · have hC' := (hsmall c d).2 hC
      have hpq : pq = (a, c) := by
        simp only [pq, closestPointsBetweenSegments, vdot_vsub_self, epsilon_real]
        rw [if_pos ⟨hA', hC'⟩]
      rw [hpq]
      refine ⟨onSegment_left _ _, onSegment_left _ _, ?_, ?_⟩
      · rintro (h1 | h1) (h2 | h2) _ x y ⟨s, _, _, hx⟩ ⟨t, _, _, hy⟩
        · have ex : x = a := by funext i; rw [hx i, h1]; ring
          have ey : y = c := by funext i; rw [hy i, h2]; ring
          rw [ex, ey]
        all_goals linarith
      · intro _ x y hx hy
        have h1 := hnear a b x hx
        have h2 := hnear c d y hy
        have h3 := dist3_triangle a x c
        have h4 := dist3_triangle x y c
        rw [dist3_comm a x] at h3
        simp only
        norm_num at *
        linarith
    · have hC' : ¬ dist3 c d ^ 2 ≤ 1 / 2 ^ 52 := by rw [hsmall]; exact hC
      have hpos : 0 < dist3 c d ^ 2 := lt_trans (by norm_num) (not_le.1 hC')
      obtain ⟨k, hk⟩ : ∃ k, k = smin (smax (vdot (vsub d c) (vsub a c) / dist3 c d ^ 2) 0) 1 := ⟨_, rfl⟩
      have hpq : pq = (a, vadd c (vscaleBy (vsub d c) k)) := by
        simp only [pq, closestPointsBetweenSegments, vdot_vsub_self, epsilon_real]
        rw [if_neg (fun h => hC' h.2), if_pos hA', hk]
        refine Prod.ext ?_ rfl
        funext i; simp [vadd, vscaleBy]
      obtain ⟨k0, k1, -⟩ := hk ▸ clamp01 (vdot (vsub d c) (vsub a c) / dist3 c d ^ 2)
      have hbest : ∀ y, OnSegment c d y → dist3 a (vadd c (vscaleBy (vsub d c) k)) ≤ dist3 a y := by
        intro y hy
        obtain ⟨t, h0, h1, rfl⟩ := hof c d y hy
        have hv := clamp01_div _ (vdot (vsub d c) (vsub a c)) t hpos h0 h1
        rw [← hk] at hv
        have e : ∀ u, dist3 a (vadd c (vscaleBy (vsub d c) u)) ^ 2 =
            dist3 c d ^ 2 * u ^ 2 - 2 * vdot (vsub d c) (vsub a c) * u + dist3 a c ^ 2 := by
          intro u; simp only [dist3_sq, vdot3, vadd, vscaleBy, vsub]; ring
        refine le_of_pow_le_pow_left₀ (n := 2) (by norm_num) (dist3_nonneg _ _) ?_
        rw [e, e]
        nlinarith [mul_nonneg hpos.le (sq_nonneg (t - k))]
      rw [hpq]
      refine ⟨onSegment_left _ _, hseg c d k k0 k1, ?_, ?_⟩
      · rintro (h1 | h1) _ _ x y ⟨s, _, _, hx⟩ hy
        · have ex : x = a := by funext i; rw [hx i, h1]; ring
          rw [ex]; exact hbest y hy
        · linarith
      · intro _ x y hx hy
        have h1 := hnear a b x hx
        have h2 := hbest y hy
        have h3 := dist3_triangle a x y
        rw [dist3_comm a x] at h3
        simp only
        norm_num at *
        linarith
  · have hA' : ¬ dist3 a b ^ 2 ≤ 1 / 2 ^ 52 := by rw [hsmall]; exact hA
    have hposA : 0 < dist3 a b ^ 2 := lt_trans (by norm_num) (not_le.1 hA')
    by_cases hC : dist3 c d ≤ 1 / 2 ^ 26
    · have hC' := (hsmall c d).2 hC
      obtain ⟨k, hk⟩ : ∃ k, k = smin (smax (-vdot (vsub b a) (vsub a c) / dist3 a b ^ 2) 0) 1 := ⟨_, rfl⟩
      have hpq : pq = (vadd a (vscaleBy (vsub b a) k), c) := by
        simp only [pq, closestPointsBetweenSegments, vdot_vsub_self, epsilon_real]
        rw [if_neg (fun h => hA' h.1), if_neg hA', if_pos hC', hk]
        refine Prod.ext rfl ?_
        funext i; simp [vadd, vscaleBy]
      obtain ⟨k0, k1, -⟩ := hk ▸ clamp01 (-vdot (vsub b a) (vsub a c) / dist3 a b ^ 2)
      have hbest : ∀ x, OnSegment a b x → dist3 (vadd a (vscaleBy (vsub b a) k)) c ≤ dist3 x c := by
        intro x hx
        obtain ⟨t, h0, h1, rfl⟩ := hof a b x hx
        have hv := clamp01_div _ (-vdot (vsub b a) (vsub a c)) t hposA h0 h1
        rw [← hk] at hv
        have e : ∀ u, dist3 (vadd a (vscaleBy (vsub b a) u)) c ^ 2 =
            dist3 a b ^ 2 * u ^ 2 + 2 * vdot (vsub b a) (vsub a c) * u + dist3 a c ^ 2 := by
          intro u; simp only [dist3_sq, vdot3, vadd, vscaleBy, vsub]; ring
        refine le_of_pow_le_pow_left₀ (n := 2) (by norm_num) (dist3_nonneg _ _) ?_
        rw [e, e]
        nlinarith [mul_nonneg hposA.le (sq_nonneg (t - k))]
      rw [hpq]
      refine ⟨hseg a b k k0 k1, onSegment_left _ _, ?_, ?_⟩
      · rintro _ (h1 | h1) _ x y hx ⟨s, _, _, hy⟩
        · have ey : y = c := by funext i; rw [hy i, h1]; ring
          rw [ey]; exact hbest x hx
        · linarith
      · intro _ x y hx hy
        have h1 := hnear c d y hy
        have h2 := hbest x hx
        have h3 := dist3_triangle x y c
        simp only
        norm_num at *
        linarith
    · have hC' : ¬ dist3 c d ^ 2 ≤ 1 / 2 ^ 52 := by rw [hsmall]; exact hC
      have hposC : 0 < dist3 c d ^ 2 := lt_trans (by norm_num) (not_le.1 hC')
      have hD : 0 ≤ dist3 a b ^ 2 * dist3 c d ^ 2 - vdot (vsub b a) (vsub d c) * vdot (vsub b a) (vsub d c) := by
        have := hpsd (vdot (vsub b a) (vsub d c)) (dist3 a b ^ 2)
        have h2 : 0 ≤ dist3 a b ^ 2 * (dist3 a b ^ 2 * dist3 c d ^ 2 -
          vdot (vsub b a) (vsub d c) * vdot (vsub b a) (vsub d c)) := by nlinarith
        exact nonneg_of_mul_nonneg_right h2 hposA
      have hS := segmentParameters_spec (c := vdot (vsub b a) (vsub a c)) (f := vdot (vsub d c) (vsub a c))
        hposA hposC hD
      have hpq : pq = (vadd a (vscaleBy (vsub b a) (segmentParameters (dist3 a b ^ 2) (dist3 c d ^ 2)
            (vdot (vsub b a) (vsub d c)) (vdot (vsub b a) (vsub a c)) (vdot (vsub d c) (vsub a c))).1),
          vadd c (vscaleBy (vsub d c) (segmentParameters (dist3 a b ^ 2) (dist3 c d ^ 2)
            (vdot (vsub b a) (vsub d c)) (vdot (vsub b a) (vsub a c)) (vdot (vsub d c) (vsub a c))).2)) := by
        simp only [pq, closestPointsBetweenSegments, vdot_vsub_self, epsilon_real]
        rw [if_neg (fun h => hA' h.1), if_neg hA', if_neg hC']
      rw [hpq]
      generalize segmentParameters (dist3 a b ^ 2) (dist3 c d ^ 2)
            (vdot (vsub b a) (vsub d c)) (vdot (vsub b a) (vsub a c)) (vdot (vsub d c) (vsub a c)) = st at *
      obtain ⟨⟨s0, s1, t0, t1⟩, hV⟩ := hS
      refine ⟨hseg a b _ s0 s1, hseg c d _ t0 t1, ?_, fun h => absurd h (by tauto)⟩
      intro _ _ hX x y hx hy
      obtain ⟨s', hs0, hs1, rfl⟩ := hof a b x hx
      obtain ⟨t', ht0, ht1, rfl⟩ := hof c d y hy
      have hXD : crossArea a b c d = dist3 a b ^ 2 * dist3 c d ^ 2 -
          vdot (vsub b a) (vsub d c) * vdot (vsub b a) (vsub d c) := by
        rw [crossArea, vdot3]; simp only [vsub]; ring
      rw [hXD] at hX
      have hV := hV (by
        rcases hX with h | h
        · right
          refine ⟨h, ?_⟩
          exact parallel_offsets h
        · left; exact h) s' t' hs0 hs1 ht0 ht1
      refine le_of_pow_le_pow_left₀ (n := 2) (by norm_num) (dist3_nonneg _ _) ?_
      rw [hq, hq]
      have := quad_min hpsd hV
      linarith

example : (1 / 2 ^ 52 : ℝ) < crossArea 0 ![1, 0, 0] ![0, 0, 1] ![0, 1, 1] := by
  simp [crossArea, dist3_sq]; norm_num

/-- C56 (finding). Two segments that are not parallel (they meet at 53°), each above the degeneracy
threshold, for which the reported pair is at distance 1 although the segments come within 0.6: the absolute
test `denominator > EPSILON` takes them for parallel. -/
theorem segment_pair_wrong :
    ∃ a b c d x y : Fin 3 → ℝ, 1 / 2 ^ 26 < dist3 a b ∧ 1 / 2 ^ 26 < dist3 c d ∧
      crossArea a b c d = (16 / 25) * (dist3 a b ^ 2 * dist3 c d ^ 2) ∧
      OnSegment a b x ∧ OnSegment c d y ∧
      (let pq := closestPointsBetweenSegments a b c d; dist3 pq.1 pq.2 = 1) ∧ dist3 x y = 3 / 5 := by
  obtain ⟨L, hL⟩ : ∃ L : ℝ, L = 6 / 5 * (1 / 2 ^ 26) := ⟨_, rfl⟩
  refine ⟨![0, 0, 0], ![1, 0, 0], ![4 / 5, -(3 / 5), 0], ![4 / 5 + 3 / 5 * L, -(3 / 5) + 4 / 5 * L, 0],
    ![4 / 5, 0, 0], ![4 / 5, -(3 / 5), 0], ?_, ?_, ?_, ⟨4 / 5, by norm_num, by norm_num, ?_⟩,
    onSegment_left _ _, ?_, ?_⟩
  · simp [dist3]; norm_num
  · have : dist3 ![4 / 5, -(3 / 5), 0] ![4 / 5 + 3 / 5 * L, -(3 / 5) + 4 / 5 * L, 0] = L := by
      rw [dist3, Real.sqrt_eq_iff_mul_self_eq (by positivity) (by rw [hL]; norm_num)]
      simp; ring
    rw [this, hL]; norm_num
  · simp [crossArea, dist3_sq]; ring
  · intro i; fin_cases i <;> simp
  · have e1 : (vdot (vsub (![1, 0, 0] : Fin 3 → ℝ) ![0, 0, 0]) (vsub ![1, 0, 0] ![0, 0, 0])) = 1 := by
      rw [vdot3]; simp [vsub]
    have e2 : (vdot (vsub (![4 / 5 + 3 / 5 * L, -(3 / 5) + 4 / 5 * L, 0] : Fin 3 → ℝ) ![4 / 5, -(3 / 5), 0])
        (vsub ![4 / 5 + 3 / 5 * L, -(3 / 5) + 4 / 5 * L, 0] ![4 / 5, -(3 / 5), 0])) = L ^ 2 := by
      rw [vdot3]; simp [vsub]; ring
    have e3 : (vdot (vsub (![1, 0, 0] : Fin 3 → ℝ) ![0, 0, 0])
        (vsub ![4 / 5 + 3 / 5 * L, -(3 / 5) + 4 / 5 * L, 0] ![4 / 5, -(3 / 5), 0])) = 3 / 5 * L := by
      rw [vdot3]; simp [vsub]
    have e4 : (vdot (vsub (![4 / 5 + 3 / 5 * L, -(3 / 5) + 4 / 5 * L, 0] : Fin 3 → ℝ) ![4 / 5, -(3 / 5), 0])
        (vsub ![0, 0, 0] ![4 / 5, -(3 / 5), 0])) = 0 := by
      rw [vdot3]; simp [vsub]; ring
    simp only [closestPointsBetweenSegments, e1, e2, e3, e4, epsilon_real, segmentParameters]
    have hL2 : L ^ 2 = 36 / 25 * (1 / 2 ^ 52) := by rw [hL]; norm_num
    rw [if_neg (by rw [hL2]; norm_num), if_neg (by norm_num), if_neg (by rw [hL2]; norm_num),
      if_neg (show ¬ ((1 : ℝ) / 2 ^ 52 < 1 * L ^ 2 - 3 / 5 * L * (3 / 5 * L)) from by
        rw [show 1 * L ^ 2 - 3 / 5 * L * (3 / 5 * L) = 16 / 25 * L ^ 2 by ring, hL2]; norm_num)]
    norm_num [dist3, vadd, vscaleBy, vsub]
    exact sub_zero _
  · rw [dist3, Real.sqrt_eq_iff_mul_self_eq (by positivity) (by norm_num)]
    simp; norm_num

/-! ### Solids -/

/-- Radius of a shape. -/
def Primitive.radius : Primitive ℝ → ℝ
  | .sphere r => r
  | .capsule r _ => r

/-- Half the length of the central segment; a ball has a point. -/
def Primitive.halfLen : Primitive ℝ → ℝ
  | .sphere _ => 0
  | .capsule _ h => h

/-- The points of the solid: a ball about the pose's origin, or every point within the radius of some point of
the segment `[-h, h]` of the pose's own z axis. -/
def Primitive.Solid (x : Primitive ℝ) (p : SE3 ℝ) (v : Fin 3 → ℝ) : Prop :=
  match x with
  | .sphere r => dist3 v (p.act ![0, 0, 0]) ≤ r
  | .capsule r h => ∃ z, -h ≤ z ∧ z ≤ h ∧ dist3 v (p.act ![0, 0, z]) ≤ r

/-- The pairs of central segments the code resolves: no length strictly between 0 and 2⁻²⁶, and either exactly
parallel or of area above 2⁻⁵². -/
def Resolved (x : Primitive ℝ) (p : SE3 ℝ) (y : Primitive ℝ) (q : SE3 ℝ) : Prop :=
  (x.halfLen = 0 ∨ 1 / 2 ^ 27 < x.halfLen) ∧ (y.halfLen = 0 ∨ 1 / 2 ^ 27 < y.halfLen) ∧
    (let A := 16 * x.halfLen ^ 2 * y.halfLen ^ 2 *
      (1 - vdot (p.rotation.act ![0, 0, 1]) (q.rotation.act ![0, 0, 1]) ^ 2)
    A = 0 ∨ 1 / 2 ^ 52 < A)

/-- Thickening two cores: closest core points give the clearance of the solids. -/
theorem clearance_of_cores {A B : (Fin 3 → ℝ) → Prop} {P Q : Fin 3 → ℝ} (hP : A P) (hQ : B Q)
    (hmin : ∀ x y, A x → B y → dist3 P Q ≤ dist3 x y) {r s : ℝ} (hr : 0 ≤ r) (hs : 0 ≤ s) :
    let S := fun v => ∃ c, A c ∧ dist3 v c ≤ r
    let U := fun v => ∃ c, B c ∧ dist3 v c ≤ s
    let d := dist3 P Q - r - s
    (∀ u v, S u → U v → d ≤ dist3 u v) ∧ (0 ≤ d → ∃ u v, S u ∧ U v ∧ dist3 u v = d) ∧
      (d ≤ 0 ↔ ∃ w, S w ∧ U w) := by
  intro S U d
  have low : ∀ u v, S u → U v → d ≤ dist3 u v := by
    rintro u v ⟨c, hc, h1⟩ ⟨e, he, h2⟩
    have := hmin c e hc he
    have h3 := dist3_triangle c u e
    have h4 := dist3_triangle u v e
    rw [dist3_comm c u] at h3
    simp only [d]; linarith
  have hL := dist3_nonneg P Q
  refine ⟨low, ?_, ?_, ?_⟩
  · intro hd
    by_cases h0 : dist3 P Q = 0
    · have hr0 : r = 0 := by simp only [d] at hd; linarith
      have hs0 : s = 0 := by simp only [d] at hd; linarith
      refine ⟨P, Q, ⟨P, hP, by rw [dist3_self]; exact hr⟩, ⟨Q, hQ, by rw [dist3_self]; exact hs⟩, ?_⟩
      simp only [d, hr0, hs0]; ring
    · have hLp : 0 < dist3 P Q := lt_of_le_of_ne hL (Ne.symm h0)
      have e0 : (fun i => P i + (Q i - P i) * 0) = P := by funext i; ring
      have e1 : (fun i => P i + (Q i - P i) * 1) = Q := by funext i; ring
      refine ⟨fun i => P i + (Q i - P i) * (r / dist3 P Q), fun i => P i + (Q i - P i) * (1 - s / dist3 P Q),
        ⟨P, hP, ?_⟩, ⟨Q, hQ, ?_⟩, ?_⟩
      · have := dist3_line P Q (r / dist3 P Q) 0
        rw [e0] at this
        rw [this, sub_zero, abs_of_nonneg (by positivity)]
        apply le_of_eq; field_simp
      · have := dist3_line P Q (1 - s / dist3 P Q) 1
        rw [e1] at this
        rw [this, show 1 - s / dist3 P Q - 1 = -(s / dist3 P Q) by ring, abs_neg, abs_of_nonneg (by positivity)]
        apply le_of_eq; field_simp
      · rw [dist3_line, show r / dist3 P Q - (1 - s / dist3 P Q) = -(d / dist3 P Q) by
          simp only [d]; field_simp; ring, abs_neg, abs_of_nonneg (div_nonneg hd hL)]
        field_simp
  · intro hd
    by_cases h0 : dist3 P Q = 0
    · have := dist3_eq_zero h0
      subst this
      exact ⟨P, ⟨P, hP, by rw [dist3_self]; exact hr⟩, ⟨P, hQ, by rw [dist3_self]; exact hs⟩⟩
    · have hLp : 0 < dist3 P Q := lt_of_le_of_ne hL (Ne.symm h0)
      have e0 : (fun i => P i + (Q i - P i) * 0) = P := by funext i; ring
      have e1 : (fun i => P i + (Q i - P i) * 1) = Q := by funext i; ring
      have hm0 : 0 ≤ min r (dist3 P Q) := le_min hr hL
      refine ⟨fun i => P i + (Q i - P i) * (min r (dist3 P Q) / dist3 P Q), ⟨P, hP, ?_⟩, ⟨Q, hQ, ?_⟩⟩
      · have := dist3_line P Q (min r (dist3 P Q) / dist3 P Q) 0
        rw [e0] at this
        rw [this, sub_zero, abs_of_nonneg (by positivity), div_mul_cancel₀ _ h0]
        exact min_le_left _ _
      · have := dist3_line P Q (min r (dist3 P Q) / dist3 P Q) 1
        rw [e1] at this
        have hle : min r (dist3 P Q) / dist3 P Q ≤ 1 := (div_le_one hLp).2 (min_le_right _ _)
        rw [this, abs_of_nonpos (by linarith), neg_sub, sub_mul, one_mul, div_mul_cancel₀ _ h0]
        simp only [d] at hd
        rcases min_choice r (dist3 P Q) with h | h <;> rw [h] <;> linarith
  · rintro ⟨w, h1, h2⟩
    have := low w w h1 h2
    rwa [dist3_self] at this

theorem act_axis (p : SO3 ℝ) (z : ℝ) (i : Fin 3) : p.act ![0, 0, z] i = p.act ![0, 0, 1] i * z := by
  fin_cases i <;> simp [SO3.act, transformPoint_explicit]

theorem act_axis_unit (p : SO3 ℝ) (hp : p.quaternion.IsUnit) :
    vdot (p.act ![0, 0, 1]) (p.act ![0, 0, 1]) = 1 := by
  have := (so3_group p p p hp hp ![0, 0, 1] ![0, 0, 1]).2.2.2.2.2.2.2.2.2.2.2.1
  rw [this, vdot3]; simp

theorem capsule_core (p : SE3 ℝ) {h : ℝ} (hh : 0 ≤ h) (x : Fin 3 → ℝ) :
    OnSegment (capsuleSegment p h).1 (capsuleSegment p h).2 x ↔
      ∃ z, -h ≤ z ∧ z ≤ h ∧ x = p.act ![0, 0, z] := by
  have hact : ∀ z, p.act ![0, 0, z] = fun i => p.rotation.act ![0, 0, 1] i * z + p.translation i := by
    intro z; funext i; simp only [SE3.act, vadd]; rw [act_axis]
  simp only [OnSegment, capsuleSegment, capsuleAxis, vadd, vsub, vscaleBy, hact]
  constructor
  · rintro ⟨t, h0, h1, hx⟩
    refine ⟨h * (2 * t - 1), by nlinarith, by nlinarith, ?_⟩
    funext i; rw [hx i]; ring
  · rintro ⟨z, h0, h1, rfl⟩
    rcases hh.eq_or_lt with h2 | h2
    · refine ⟨0, le_rfl, zero_le_one, fun i => ?_⟩
      have : z = 0 := by linarith
      rw [this, ← h2]; ring
    · refine ⟨(z + h) / (2 * h), div_nonneg (by linarith) (by linarith),
        (div_le_one (by linarith)).2 (by linarith), fun i => ?_⟩
      field_simp; ring

theorem capsule_length (p : SE3 ℝ) (hp : p.rotation.quaternion.IsUnit) {h : ℝ} (hh : 0 ≤ h) :
    dist3 (capsuleSegment p h).1 (capsuleSegment p h).2 = 2 * h := by
  have hu := act_axis_unit _ hp
  rw [vdot3] at hu
  rw [dist3, Real.sqrt_eq_iff_mul_self_eq (by positivity) (by linarith)]
  simp only [capsuleSegment, capsuleAxis, vadd, vsub, vscaleBy]
  linear_combination (4 * h ^ 2) * hu

theorem capsule_area (p q : SE3 ℝ) (hp : p.rotation.quaternion.IsUnit) (hq : q.rotation.quaternion.IsUnit)
    {h k : ℝ} (hh : 0 ≤ h) (hk : 0 ≤ k) :
    crossArea (capsuleSegment p h).1 (capsuleSegment p h).2 (capsuleSegment q k).1 (capsuleSegment q k).2 =
      16 * h ^ 2 * k ^ 2 * (1 - vdot (p.rotation.act ![0, 0, 1]) (q.rotation.act ![0, 0, 1]) ^ 2) := by
  rw [crossArea, capsule_length p hp hh, capsule_length q hq hk, vdot3]
  simp only [capsuleSegment, capsuleAxis, vadd, vsub, vscaleBy]
  ring

/-- C56. What `distance_to` reports is the clearance of the two solids: no point of one is closer to a point of
the other, some pair is exactly that far apart when it is not negative, and it is zero or negative exactly
when the solids share a point. This covers every pair of spheres and capsules with nonnegative sizes and unit
rotations whose central segments are `Resolved`; outside that, see `capsule_distance_wrong`. -/
theorem distance_to_partial (x y : Primitive ℝ) (p q : SE3 ℝ) (hp : p.rotation.quaternion.IsUnit)
    (hq : q.rotation.quaternion.IsUnit) (hx : 0 ≤ x.radius ∧ 0 ≤ x.halfLen)
    (hy : 0 ≤ y.radius ∧ 0 ≤ y.halfLen) (hres : Resolved x p y q) :
    let d := x.distanceTo p y q
    (∀ u v, x.Solid p u → y.Solid q v → d ≤ dist3 u v) ∧
    (0 ≤ d → ∃ u v, x.Solid p u ∧ y.Solid q v ∧ dist3 u v = d) ∧
    (d ≤ 0 ↔ ∃ w, x.Solid p w ∧ y.Solid q w) := by
  have horig : ∀ p : SE3 ℝ, p.act ![0, 0, 0] = p.translation := by
    intro p; funext i
    simp only [SE3.act, vadd]
    have := act_axis p.rotation 0 i
    rw [this]; ring
  -- cores of the two shapes
  have hsolS : ∀ (r : ℝ) (p : SE3 ℝ) v, (Primitive.sphere r).Solid p v ↔ ∃ c, c = p.translation ∧ dist3 v c ≤ r := by
    intro r p v
    simp only [Primitive.Solid, horig, exists_eq_left]
  have hsolC : ∀ (r h : ℝ) (p : SE3 ℝ) v, 0 ≤ h → ((Primitive.capsule r h).Solid p v ↔
      ∃ c, OnSegment (capsuleSegment p h).1 (capsuleSegment p h).2 c ∧ dist3 v c ≤ r) := by
    intro r h p v hh
    simp only [Primitive.Solid, capsule_core p hh]
    constructor
    · rintro ⟨z, h1, h2, h3⟩; exact ⟨_, ⟨z, h1, h2, rfl⟩, h3⟩
    · rintro ⟨c, ⟨z, h1, h2, rfl⟩, h3⟩; exact ⟨z, h1, h2, h3⟩
  have hlen : ∀ (p : SE3 ℝ), p.rotation.quaternion.IsUnit → ∀ h, 0 ≤ h → (h = 0 ∨ 1 / 2 ^ 27 < h) →
      ((capsuleSegment p h).1 = (capsuleSegment p h).2 ∨
        1 / 2 ^ 26 < dist3 (capsuleSegment p h).1 (capsuleSegment p h).2) := by
    rintro p hp h hh (h0 | h0)
    · left; funext i; simp only [capsuleSegment, vadd, vsub, vscaleBy, h0]; ring
    · right; rw [capsule_length p hp hh]
      norm_num at h0 ⊢; linarith
  -- sphere against capsule, used twice
  have hSC : ∀ (r s k : ℝ) (p q : SE3 ℝ), q.rotation.quaternion.IsUnit → 0 ≤ r → 0 ≤ s → 0 ≤ k →
      (k = 0 ∨ 1 / 2 ^ 27 < k) → _ := fun r s k p q hq hr hs hk hk' =>
    clearance_of_cores (A := fun c => c = p.translation)
      (B := OnSegment (capsuleSegment q k).1 (capsuleSegment q k).2) (P := p.translation) rfl
      (closest_point_on_segment p.translation _ _).1
      (fun x y hx hy => by
        rw [hx]
        exact (closest_point_on_segment p.translation _ _).2.1 (hlen q hq k hk hk') y hy) hr hs
  obtain ⟨hr1, hr2, hr3⟩ := hres
  cases x with
  | sphere r =>
    cases y with
    | sphere s =>
      have := clearance_of_cores (A := fun c => c = p.translation) (B := fun c => c = q.translation)
        (P := p.translation) (Q := q.translation) rfl rfl (fun x y hx hy => by rw [hx, hy]) hx.1 hy.1
      simp only [Primitive.distanceTo, sphereSphereDistance, vnorm_vsub, hsolS]
      exact this
    | capsule s k =>
      have hk : 0 ≤ k := hy.2
      have := hSC r s k p q hq hx.1 hy.1 hy.2 hr2
      simp only [Primitive.distanceTo, sphereCapsuleDistance, vnorm_vsub, hsolS, hsolC _ _ _ _ hk]
      exact this
  | capsule r h =>
    have hh : 0 ≤ h := hx.2
    cases y with
    | sphere s =>
      have := hSC s r h q p hp hy.1 hx.1 hx.2 hr1
      simp only [Primitive.distanceTo, sphereCapsuleDistance, vnorm_vsub, hsolS, hsolC _ _ _ _ hh]
      obtain ⟨T1, T2, T3⟩ := this
      refine ⟨fun u v hu hv => ?_, fun hd => ?_, ?_⟩
      · rw [dist3_comm u v]; exact T1 v u hv hu
      · obtain ⟨u, v, hu, hv, e⟩ := T2 hd
        exact ⟨v, u, hv, hu, by rw [dist3_comm]; exact e⟩
      · exact T3.trans ⟨fun ⟨w, h1, h2⟩ => ⟨w, h2, h1⟩, fun ⟨w, h1, h2⟩ => ⟨w, h2, h1⟩⟩
    | capsule s k =>
      have hk : 0 ≤ k := hy.2
      have C := closest_points_between_segments_partial (capsuleSegment p h).1 (capsuleSegment p h).2
        (capsuleSegment q k).1 (capsuleSegment q k).2
      have := clearance_of_cores C.1 C.2.1 (C.2.2.1 (hlen p hp h hx.2 hr1) (hlen q hq k hy.2 hr2)
        (by rw [capsule_area p q hp hq hh hk]; exact hr3)) hx.1 hy.1
      simp only [Primitive.distanceTo, capsuleCapsuleDistance, vnorm_vsub, hsolC _ _ _ _ hh,
        hsolC _ _ _ _ hk]
      exact this

example : Resolved (.capsule 1 2) SE3.identity (.sphere 1) SE3.identity := by
  refine ⟨Or.inr (by norm_num [Primitive.halfLen]), Or.inl rfl, Or.inl ?_⟩
  simp [Primitive.halfLen]

/-- C56 (finding). Two capsules that overlap deeply (their axes come within 0.28 of each other, radii 0.3)
for which the reported clearance is +0.4. The second central segment is short (about 15 nm, just above the
degeneracy threshold); the absolute parallel test then drops the correct branch. -/
theorem capsule_distance_wrong :
    ∃ (p q : SE3 ℝ) (k : ℝ), p.rotation.quaternion.IsUnit ∧ q.rotation.quaternion.IsUnit ∧ 0 < k ∧
      (Primitive.capsule (3 / 10) (1 / 2)).distanceTo p (.capsule (3 / 10) k) q = 2 / 5 ∧
      ∃ w, (Primitive.capsule (3 / 10) (1 / 2)).Solid p w ∧ (Primitive.capsule (3 / 10) k).Solid q w := by
  obtain ⟨L, hL⟩ : ∃ L : ℝ, L = 51 / 50 * (1 / 2 ^ 26) := ⟨_, rfl⟩
  have hLp : 0 < L := by rw [hL]; norm_num
  have hL2 : L ^ 2 = 2601 / 2500 * (1 / 2 ^ 52) := by rw [hL]; norm_num
  let p : SE3 ℝ := ⟨⟨⟨1, 0, 0, 0⟩⟩, ![0, 0, 1 / 2]⟩
  let q : SE3 ℝ := ⟨⟨⟨4 / 5, 3 / 5, 0, 0⟩⟩, ![0, 7 / 25 - 24 / 25 * (L / 2), 24 / 25 + 7 / 25 * (L / 2)]⟩
  have hp1 : (capsuleSegment p (1 / 2)).1 = ![0, 0, 0] := by
    funext i; fin_cases i <;> simp [p, capsuleSegment, capsuleAxis, SO3.act, transformPoint_explicit, vsub, vscaleBy]
  have hp2 : (capsuleSegment p (1 / 2)).2 = ![0, 0, 1] := by
    funext i
    fin_cases i <;> simp [p, capsuleSegment, capsuleAxis, SO3.act, transformPoint_explicit, vadd, vscaleBy]
    norm_num
  have hq1 : (capsuleSegment q (L / 2)).1 = ![0, 7 / 25, 24 / 25] := by
    funext i
    fin_cases i <;> simp [q, capsuleSegment, capsuleAxis, SO3.act, transformPoint_explicit, vsub, vscaleBy] <;> ring
  have hq2 : (capsuleSegment q (L / 2)).2 = ![0, 7 / 25 - 24 / 25 * L, 24 / 25 + 7 / 25 * L] := by
    funext i
    fin_cases i <;> simp [q, capsuleSegment, capsuleAxis, SO3.act, transformPoint_explicit, vadd, vscaleBy] <;> ring
  refine ⟨p, q, L / 2, ?_, ?_, by linarith, ?_, ?_⟩
  · simp [p, Quat.IsUnit, Quat.normSquared]
  · simp [q, Quat.IsUnit, Quat.normSquared]; norm_num
  · have e1 : vdot (vsub (![0, 0, 1] : Fin 3 → ℝ) ![0, 0, 0]) (vsub ![0, 0, 1] ![0, 0, 0]) = 1 := by
      rw [vdot3]; simp [vsub]
    have e2 : vdot (vsub (![0, 7 / 25 - 24 / 25 * L, 24 / 25 + 7 / 25 * L] : Fin 3 → ℝ) ![0, 7 / 25, 24 / 25])
        (vsub ![0, 7 / 25 - 24 / 25 * L, 24 / 25 + 7 / 25 * L] ![0, 7 / 25, 24 / 25]) = L ^ 2 := by
      rw [vdot3]; simp [vsub]; ring
    have e3 : vdot (vsub (![0, 0, 1] : Fin 3 → ℝ) ![0, 0, 0])
        (vsub ![0, 7 / 25 - 24 / 25 * L, 24 / 25 + 7 / 25 * L] ![0, 7 / 25, 24 / 25]) = 7 / 25 * L := by
      rw [vdot3]; simp [vsub]
    have e4 : vdot (vsub (![0, 7 / 25 - 24 / 25 * L, 24 / 25 + 7 / 25 * L] : Fin 3 → ℝ) ![0, 7 / 25, 24 / 25])
        (vsub ![0, 0, 0] ![0, 7 / 25, 24 / 25]) = 0 := by
      rw [vdot3]; simp [vsub]; ring
    simp only [Primitive.distanceTo, capsuleCapsuleDistance, hp1, hp2, hq1, hq2, vnorm_vsub,
      closestPointsBetweenSegments, e1, e2, e3, e4, epsilon_real, segmentParameters]
    rw [if_neg (by rw [hL2]; norm_num), if_neg (by norm_num), if_neg (by rw [hL2]; norm_num),
      if_neg (show ¬ ((1 : ℝ) / 2 ^ 52 < 1 * L ^ 2 - 7 / 25 * L * (7 / 25 * L)) from by
        rw [show 1 * L ^ 2 - 7 / 25 * L * (7 / 25 * L) = 576 / 625 * L ^ 2 by ring, hL2]; norm_num)]
    simp only [mul_zero, add_zero, zero_div, lt_self_iff_false, if_false, not_lt.2 zero_le_one]
    have : dist3 (vadd ![0, 0, 0] (vscaleBy (vsub (![0, 0, 1] : Fin 3 → ℝ) ![0, 0, 0]) 0))
        (vadd ![0, 7 / 25, 24 / 25] (vscaleBy (vsub (![0, 7 / 25 - 24 / 25 * L, 24 / 25 + 7 / 25 * L] : Fin 3 → ℝ)
          ![0, 7 / 25, 24 / 25]) 0)) = 1 := by
      rw [dist3, Real.sqrt_eq_iff_mul_self_eq (by positivity) (by norm_num)]
      simp [vadd, vscaleBy, vsub]; norm_num
    rw [this]; norm_num
  · refine ⟨![0, 7 / 25, 24 / 25], ⟨23 / 50, by norm_num, by norm_num, ?_⟩, ⟨-(L / 2), le_rfl, by linarith, ?_⟩⟩
    · have : p.act ![0, 0, 23 / 50] = ![0, 0, 24 / 25] := by
        funext i
        fin_cases i <;> simp [p, SE3.act, SO3.act, transformPoint_explicit, vadd]
        norm_num
      rw [this, dist3]
      apply Real.sqrt_le_iff.2
      simp; norm_num
    · have : q.act ![0, 0, -(L / 2)] = ![0, 7 / 25, 24 / 25] := by
        funext i
        fin_cases i <;> simp [q, SE3.act, SO3.act, transformPoint_explicit, vadd] <;> ring
      rw [this, dist3_self]; norm_num

/-! ### The query -/

section Check

variable {T : Type}

/-- The pairs `check` promises to look at, with the clearance of each: unexcluded pairs of self-primitives
(in index order) and every self-primitive against every obstacle. -/
inductive Checked [Zero T] [One T] [NatCast T] [Add T] [Sub T] [Mul T] [Div T] [Neg T] [LT T] [DecidableLT T]
    [LE T] [DecidableLE T] [Fns T] (q : CollisionQuery T) (pose : ℕ → Option (SE3 T)) :
    T → CollisionSource × CollisionSource → Prop
  | selfPair (i j : ℕ) (x y : AttachedPrimitive T) (p r : SE3 T) :
      i < j → q.selfPrimitives[i]? = some x → q.selfPrimitives[j]? = some y →
      (i, j) ∉ q.excludedPairs → (j, i) ∉ q.excludedPairs →
      pose x.frameIndex = some p → pose y.frameIndex = some r →
      Checked q pose (x.shape.distanceTo (p.compose x.localPose) y.shape (r.compose y.localPose))
        (.selfPrimitive i, .selfPrimitive j)
  | obstacle (i k : ℕ) (x : AttachedPrimitive T) (o : WorldPrimitive T) (p : SE3 T) :
      q.selfPrimitives[i]? = some x → q.environmentPrimitives[k]? = some o → pose x.frameIndex = some p →
      Checked q pose (x.shape.distanceTo (p.compose x.localPose) o.shape o.pose)
        (.selfPrimitive i, .environment k)

/-- Looking through a list of clearances for the smallest. -/
theorem improve_fold [LinearOrder T] (l : List (T × (CollisionSource × CollisionSource)))
    (acc : T × Option (CollisionSource × CollisionSource)) :
    let r := l.foldl (fun a c => improve a c.1 c.2) acc
    (r = acc ∧ ∀ c ∈ l, acc.1 ≤ c.1) ∨
    (∃ c ∈ l, c.1 < acc.1 ∧ r = (c.1, some c.2) ∧ ∀ d ∈ l, c.1 ≤ d.1) := by
  induction l generalizing acc with
  | nil => left; simp
  | cons a l ih =>
    intro r
    have hr : r = l.foldl (fun a c => improve a c.1 c.2) (improve acc a.1 a.2) := rfl
    by_cases h : a.1 < acc.1
    · have hi : improve acc a.1 a.2 = (a.1, some a.2) := if_pos h
      rw [hi] at hr
      rcases ih (a.1, some a.2) with ⟨h1, h2⟩ | ⟨c, hc, h1, h2, h3⟩
      · right
        refine ⟨a, by simp, h, by rw [hr, h1], ?_⟩
        intro d hd
        rcases List.mem_cons.1 hd with rfl | hd
        · exact le_rfl
        · exact h2 d hd
      · right
        refine ⟨c, by simp [hc], lt_trans h1 h, by rw [hr, h2], ?_⟩
        intro d hd
        rcases List.mem_cons.1 hd with rfl | hd
        · exact h1.le
        · exact h3 d hd
    · have hi : improve acc a.1 a.2 = acc := if_neg h
      rw [hi] at hr
      rcases ih acc with ⟨h1, h2⟩ | ⟨c, hc, h1, h2, h3⟩
      · left
        refine ⟨by rw [hr, h1], ?_⟩
        intro d hd
        rcases List.mem_cons.1 hd with rfl | hd
        · exact not_lt.1 h
        · exact h2 d hd
      · right
        refine ⟨c, by simp [hc], h1, by rw [hr, h2], ?_⟩
        intro d hd
        rcases List.mem_cons.1 hd with rfl | hd
        · exact h1.le.trans (not_lt.1 h)
        · exact h3 d hd

variable [Zero T] [One T] [NatCast T] [Add T] [Sub T] [Mul T] [Div T] [Neg T] [LT T] [DecidableLT T]
    [LE T] [DecidableLE T] [Fns T]

/-- The clearances the two inner loops look at for one self-primitive. -/
def candidates (q : CollisionQuery T) (P : AttachedPrimitive T → SE3 T) (xi : AttachedPrimitive T × ℕ) :
    List (T × (CollisionSource × CollisionSource)) :=
  (((q.selfPrimitives.zipIdx.drop (xi.2 + 1)).filter fun yj => !q.isExcluded xi.2 yj.2).map fun yj =>
    (xi.1.shape.distanceTo (P xi.1) yj.1.shape (P yj.1), (.selfPrimitive xi.2, .selfPrimitive yj.2))) ++
  q.environmentPrimitives.zipIdx.map fun ok =>
    (xi.1.shape.distanceTo (P xi.1) ok.1.shape ok.1.pose, (.selfPrimitive xi.2, .environment ok.2))

theorem selfLoop_eq (q : CollisionQuery T) (pose : ℕ → Option (SE3 T)) (P : AttachedPrimitive T → SE3 T)
    (i : ℕ) (x : AttachedPrimitive T) (p : SE3 T) (later : List (AttachedPrimitive T × ℕ))
    (hP : ∀ yj ∈ later, attachedPose pose yj.1 = .ok (P yj.1))
    (acc : T × Option (CollisionSource × CollisionSource)) :
    q.selfLoop pose i x p later acc = .ok (((later.filter fun yj => !q.isExcluded i yj.2).map fun yj =>
      (x.shape.distanceTo p yj.1.shape (P yj.1),
        ((.selfPrimitive i, .selfPrimitive yj.2) : CollisionSource × CollisionSource))).foldl
        (fun a c => improve a c.1 c.2) acc) := by
  unfold CollisionQuery.selfLoop
  induction later generalizing acc with
  | nil => rfl
  | cons y l ih =>
    rw [List.foldlM_cons]
    by_cases h : q.isExcluded i y.2
    · simp only [h, if_true]
      refine Eq.trans (ih (fun z hz => hP z (by simp [hz])) acc) ?_
      simp [h]
    · simp only [h, Bool.false_eq_true, if_false, hP y (by simp)]
      refine Eq.trans (ih (fun z hz => hP z (by simp [hz])) _) ?_
      simp [h]

theorem environmentLoop_eq (q : CollisionQuery T) (i : ℕ) (x : AttachedPrimitive T) (p : SE3 T)
    (acc : T × Option (CollisionSource × CollisionSource)) :
    q.environmentLoop i x p acc = (q.environmentPrimitives.zipIdx.map fun ok =>
      (x.shape.distanceTo p ok.1.shape ok.1.pose,
        ((.selfPrimitive i, .environment ok.2) : CollisionSource × CollisionSource))).foldl
        (fun a c => improve a c.1 c.2) acc := by
  rw [CollisionQuery.environmentLoop, List.foldl_map]

theorem check_eq (big : T) (q : CollisionQuery T) (pose : ℕ → Option (SE3 T)) (P : AttachedPrimitive T → SE3 T)
    (hP : ∀ x ∈ q.selfPrimitives, attachedPose pose x = .ok (P x)) :
    q.check big pose = .ok (
      let acc := (q.selfPrimitives.zipIdx.flatMap (candidates q P)).foldl (fun a c => improve a c.1 c.2) (big, none)
      ⟨if acc.2.isSome then acc.1 else 0, acc.2⟩) := by
  have hmem : ∀ xi ∈ q.selfPrimitives.zipIdx, xi.1 ∈ q.selfPrimitives := by
    rintro ⟨x, i⟩ h
    have := List.mem_zipIdx' h
    exact this.2 ▸ List.getElem_mem _
  have hstep : ∀ xi ∈ q.selfPrimitives.zipIdx, ∀ acc : T × Option (CollisionSource × CollisionSource),
      (do
        let p ← attachedPose pose xi.1
        let acc ← q.selfLoop pose xi.2 xi.1 p (q.selfPrimitives.zipIdx.drop (xi.2 + 1)) acc
        return q.environmentLoop xi.2 xi.1 p acc : Except KinematicsError _) =
      .ok ((candidates q P xi).foldl (fun a c => improve a c.1 c.2) acc) := by
    intro xi hxi acc
    rw [hP _ (hmem xi hxi)]
    change (q.selfLoop pose xi.2 xi.1 (P xi.1) _ acc >>= _) = _
    rw [selfLoop_eq q pose P _ _ _ _ (fun yj hyj => hP _ (hmem yj (List.mem_of_mem_drop hyj)))]
    change Except.ok (q.environmentLoop _ _ _ _) = _
    rw [environmentLoop_eq, candidates, List.foldl_append]
  have hfold : ∀ l : List (AttachedPrimitive T × ℕ), (∀ xi ∈ l, xi ∈ q.selfPrimitives.zipIdx) →
      ∀ acc : T × Option (CollisionSource × CollisionSource),
      l.foldlM (fun acc xi => do
        let p ← attachedPose pose xi.1
        let acc ← q.selfLoop pose xi.2 xi.1 p (q.selfPrimitives.zipIdx.drop (xi.2 + 1)) acc
        return q.environmentLoop xi.2 xi.1 p acc) acc =
      (.ok ((l.flatMap (candidates q P)).foldl (fun a c => improve a c.1 c.2) acc) : Except KinematicsError _) := by
    intro l
    induction l with
    | nil => intro _ acc; rfl
    | cons xi l ih =>
      intro h acc
      rw [List.foldlM_cons, hstep xi (h xi (by simp)) acc, List.flatMap_cons, List.foldl_append]
      exact ih (fun y hy => h y (by simp [hy])) _
  unfold CollisionQuery.check
  rw [hfold _ (fun _ h => h)]
  rfl

theorem mem_candidates (q : CollisionQuery T) (pose : ℕ → Option (SE3 T)) (P : AttachedPrimitive T → SE3 T)
    (hP : ∀ x ∈ q.selfPrimitives, ∃ p, pose x.frameIndex = some p ∧ P x = p.compose x.localPose)
    (d : T) (pair : CollisionSource × CollisionSource) :
    (d, pair) ∈ q.selfPrimitives.zipIdx.flatMap (candidates q P) ↔ Checked q pose d pair := by
  have hex : ∀ i j, q.isExcluded i j = false ↔ (i, j) ∉ q.excludedPairs ∧ (j, i) ∉ q.excludedPairs := by
    intro i j
    simp only [CollisionQuery.isExcluded, List.any_eq_false, Bool.or_eq_true, beq_iff_eq, not_or]
    constructor
    · intro h; exact ⟨fun hm => (h _ hm).1 rfl, fun hm => (h _ hm).2 rfl⟩
    · rintro ⟨h1, h2⟩ x hx
      exact ⟨fun e => h1 (e ▸ hx), fun e => h2 (e ▸ hx)⟩
  have hdrop : ∀ (n : ℕ) (y : AttachedPrimitive T) (j : ℕ),
      (y, j) ∈ q.selfPrimitives.zipIdx.drop n ↔ n ≤ j ∧ q.selfPrimitives[j]? = some y := by
    intro n y j
    rw [List.mem_drop_iff_getElem]
    constructor
    · rintro ⟨m, hm, h⟩
      simp only [List.getElem_zipIdx, Prod.mk.injEq] at h
      obtain ⟨h1, h2⟩ := h
      have : j = n + m := by omega
      subst this
      refine ⟨by omega, ?_⟩
      rw [List.getElem?_eq_some_iff]
      exact ⟨by simpa [Nat.add_comm] using hm, h1⟩
    · rintro ⟨h1, h2⟩
      obtain ⟨h3, h4⟩ := List.getElem?_eq_some_iff.1 h2
      have e : n + (j - n) = j := by omega
      refine ⟨j - n, by simp; omega, ?_⟩
      simp [e, h4]
  simp only [List.mem_flatMap, candidates, List.mem_append, List.mem_map, List.mem_filter, Prod.exists,
    List.mem_zipIdx_iff_getElem?, hdrop, Bool.not_eq_true', hex]
  constructor
  · rintro ⟨x, i, hx, ⟨y, j, ⟨⟨hij, hy⟩, h1, h2⟩, he⟩ | ⟨o, k, ho, he⟩⟩
    · obtain ⟨p, hp, hp'⟩ := hP x (List.mem_of_getElem? hx)
      obtain ⟨r, hr, hr'⟩ := hP y (List.mem_of_getElem? hy)
      rw [Prod.mk.injEq] at he
      rw [← he.1, ← he.2, hp', hr']
      exact .selfPair i j x y p r (by omega) hx hy h1 h2 hp hr
    · obtain ⟨p, hp, hp'⟩ := hP x (List.mem_of_getElem? hx)
      rw [Prod.mk.injEq] at he
      rw [← he.1, ← he.2, hp']
      exact .obstacle i k x o p hx ho hp
  · rintro (⟨i, j, x, y, p, r, hij, hx, hy, h1, h2, hp, hr⟩ | ⟨i, k, x, o, p, hx, ho, hp⟩)
    · refine ⟨x, i, hx, Or.inl ⟨y, j, ⟨⟨by omega, hy⟩, h1, h2⟩, ?_⟩⟩
      obtain ⟨p', hp1, hp2⟩ := hP x (List.mem_of_getElem? hx)
      obtain ⟨r', hr1, hr2⟩ := hP y (List.mem_of_getElem? hy)
      rw [hp2, hr2, Option.some.inj (hp1.symm.trans hp), Option.some.inj (hr1.symm.trans hr)]
    · refine ⟨x, i, hx, Or.inr ⟨o, k, ho, ?_⟩⟩
      obtain ⟨p', hp1, hp2⟩ := hP x (List.mem_of_getElem? hx)
      rw [hp2, Option.some.inj (hp1.symm.trans hp)]

/-- C56. `check` fails exactly when some self-primitive is attached to a frame the state does not have, and then
with `ToolIndexOutOfRange`. -/
theorem check_errors (big : T) (q : CollisionQuery T) (pose : ℕ → Option (SE3 T)) :
    ((∃ x ∈ q.selfPrimitives, pose x.frameIndex = none) → q.check big pose = .error .toolIndexOutOfRange) ∧
    ((∀ x ∈ q.selfPrimitives, pose x.frameIndex ≠ none) → ∃ r, q.check big pose = .ok r) := by
  constructor
  · rintro ⟨x, hx, hn⟩
    have hA : ∀ y : AttachedPrimitive T, (∃ p, attachedPose pose y = .ok p) ∨
        attachedPose pose y = .error .toolIndexOutOfRange := by
      intro y; unfold attachedPose; split
      · exact Or.inr rfl
      · exact Or.inl ⟨_, rfl⟩
    have hself : ∀ (i : ℕ) (x : AttachedPrimitive T) (p : SE3 T) (l : List (AttachedPrimitive T × ℕ))
        (acc : T × Option (CollisionSource × CollisionSource)),
        (∃ r, q.selfLoop pose i x p l acc = .ok r) ∨
          q.selfLoop pose i x p l acc = .error .toolIndexOutOfRange := by
      intro i x p l
      induction l with
      | nil => intro acc; exact Or.inl ⟨acc, rfl⟩
      | cons y l ih =>
        intro acc
        unfold CollisionQuery.selfLoop at ih ⊢
        rw [List.foldlM_cons]
        by_cases he : q.isExcluded i y.2
        · simp only [he, if_true]; exact ih acc
        · simp only [he, Bool.false_eq_true, if_false]
          rcases hA y.1 with ⟨p', h⟩ | h
          · rw [h]; exact ih _
          · rw [h]; exact Or.inr rfl
    have hfold : ∀ (l : List (AttachedPrimitive T × ℕ)), (∃ xi ∈ l, pose xi.1.frameIndex = none) →
        ∀ acc : T × Option (CollisionSource × CollisionSource),
        l.foldlM (fun acc xi => do
          let p ← attachedPose pose xi.1
          let acc ← q.selfLoop pose xi.2 xi.1 p (q.selfPrimitives.zipIdx.drop (xi.2 + 1)) acc
          return q.environmentLoop xi.2 xi.1 p acc) acc =
        (.error .toolIndexOutOfRange : Except KinematicsError _) := by
      intro l
      induction l with
      | nil => rintro ⟨_, h, _⟩; cases h
      | cons y l ih =>
        rintro ⟨xi, hxi, hn⟩ acc
        rw [List.foldlM_cons]
        rcases hA y.1 with ⟨p', h⟩ | h
        · rw [h]
          change ((q.selfLoop pose y.2 y.1 p' _ acc >>= _) >>= _) = _
          rcases hself y.2 y.1 p' (q.selfPrimitives.zipIdx.drop (y.2 + 1)) acc with ⟨r, h2⟩ | h2
          · rw [h2]
            refine ih ⟨xi, ?_, hn⟩ _
            rcases List.mem_cons.1 hxi with rfl | h3
            · rw [attachedPose, hn] at h; cases h
            · exact h3
          · rw [h2]; rfl
        · rw [h]; rfl
    unfold CollisionQuery.check
    obtain ⟨i, hi⟩ := List.getElem?_of_mem hx
    rw [hfold _ ⟨(x, i), by rw [List.mem_zipIdx_iff_getElem?]; exact hi, hn⟩]
    rfl
  · intro h
    refine ⟨_, check_eq big q pose (fun x => match pose x.frameIndex with
      | some p => p.compose x.localPose
      | none => x.localPose) ?_⟩
    intro x hx
    unfold attachedPose
    cases hp : pose x.frameIndex with
    | none => exact absurd hp (h x hx)
    | some p => rfl

end Check

/-- C56. The report is the true minimum: with every frame present, either no checked pair has a clearance below
`T::MAX` and the report is empty, or the reported pair is a checked pair with the reported clearance, and no
checked pair has a smaller one. Consequently, when all clearances are below `T::MAX`, `is_clear` says exactly
whether every checked pair keeps the required clearance. Holds for any linearly ordered numbers, whatever
their arithmetic rounds to. -/
theorem check_spec {T : Type} [LinearOrder T] [Zero T] [One T] [NatCast T] [Add T] [Sub T] [Mul T] [Div T]
    [Neg T] [Fns T] (big : T) (q : CollisionQuery T) (pose : ℕ → Option (SE3 T))
    (hP : ∀ x ∈ q.selfPrimitives, pose x.frameIndex ≠ none) :
    ∃ r, q.check big pose = .ok r ∧
      ((r.closestPair = none ∧ r.minimumClearance = 0 ∧ ∀ d pair, Checked q pose d pair → big ≤ d) ∨
        (∃ pair, r.closestPair = some pair ∧ Checked q pose r.minimumClearance pair ∧
          r.minimumClearance < big ∧ ∀ d pair, Checked q pose d pair → r.minimumClearance ≤ d)) ∧
      ((∀ d pair, Checked q pose d pair → d < big) → ∀ req,
        (r.isClear req = true ↔ ∀ d pair, Checked q pose d pair → req ≤ d)) := by
  obtain ⟨P, hPd⟩ : ∃ P : AttachedPrimitive T → SE3 T, P = fun x => match pose x.frameIndex with
      | some p => p.compose x.localPose
      | none => x.localPose := ⟨_, rfl⟩
  have h1 : ∀ x ∈ q.selfPrimitives, attachedPose pose x = .ok (P x) := by
    intro x hx
    unfold attachedPose
    rw [hPd]
    cases hp : pose x.frameIndex with
    | none => exact absurd hp (hP x hx)
    | some p => simp [hp]
  have h2 : ∀ x ∈ q.selfPrimitives, ∃ p, pose x.frameIndex = some p ∧ P x = p.compose x.localPose := by
    intro x hx
    cases hp : pose x.frameIndex with
    | none => exact absurd hp (hP x hx)
    | some p => exact ⟨p, rfl, by rw [hPd]; simp [hp]⟩
  have hm := mem_candidates q pose P h2
  refine ⟨_, check_eq big q pose P h1, ?_⟩
  rcases improve_fold (q.selfPrimitives.zipIdx.flatMap (candidates q P)) (big, none) with
    ⟨e, h⟩ | ⟨c, hc, hlt, e, h⟩
  · rw [e]
    have hall : ∀ d pair, Checked q pose d pair → big ≤ d := fun d pair hd => h (d, pair) ((hm d pair).2 hd)
    refine ⟨Or.inl ⟨rfl, rfl, hall⟩, ?_⟩
    intro hbig req
    simp only [CollisionReport.isClear, Option.isNone_none, Bool.true_or, true_iff]
    intro d pair hd
    exact absurd (hbig d pair hd) (not_lt.2 (hall d pair hd))
  · rw [e]
    have hcc : Checked q pose c.1 c.2 := (hm _ _).1 hc
    have hall : ∀ d pair, Checked q pose d pair → c.1 ≤ d := fun d pair hd => h (d, pair) ((hm d pair).2 hd)
    refine ⟨Or.inr ⟨c.2, rfl, hcc, hlt, hall⟩, ?_⟩
    intro hbig req
    simp only [CollisionReport.isClear, Option.isNone_some, Bool.false_or, Option.isSome_some, if_true,
      decide_eq_true_eq]
    exact ⟨fun hr d pair hd => hr.trans (hall d pair hd), fun hr => hr _ _ hcc⟩

example : ∀ x ∈ [(⟨0, .sphere 1, SE3.identity⟩ : AttachedPrimitive ℝ)],
    (fun n : ℕ => if n = 0 then some (SE3.identity : SE3 ℝ) else none) x.frameIndex ≠ none := by
  intro x hx; simp at hx; subst hx; simp

/-- C56. Capacity: a push is accepted exactly while there is room, returns the index of the new primitive and
leaves the earlier ones where they were; exclusions are symmetric. -/
theorem query_push {T : Type} (m : ℕ) (q : CollisionQuery T) (f i j a b : ℕ) (s : Primitive T) (p : SE3 T) :
    (q.selfPrimitives.length < m → ∃ q', q.pushSelf m f s p = .ok (q.selfPrimitives.length, q') ∧
      q'.selfPrimitives[q.selfPrimitives.length]? = some ⟨f, s, p⟩ ∧
      (∀ k < q.selfPrimitives.length, q'.selfPrimitives[k]? = q.selfPrimitives[k]?) ∧
      q'.environmentPrimitives = q.environmentPrimitives ∧ q'.excludedPairs = q.excludedPairs) ∧
    (m ≤ q.selfPrimitives.length → q.pushSelf m f s p = .error .collisionCapacityExceeded) ∧
    (q.environmentPrimitives.length < m → ∃ q', q.pushEnvironment m s p = .ok (q.environmentPrimitives.length, q') ∧
      q'.environmentPrimitives[q.environmentPrimitives.length]? = some ⟨s, p⟩ ∧
      (∀ k < q.environmentPrimitives.length, q'.environmentPrimitives[k]? = q.environmentPrimitives[k]?) ∧
      q'.selfPrimitives = q.selfPrimitives ∧ q'.excludedPairs = q.excludedPairs) ∧
    (m ≤ q.environmentPrimitives.length → q.pushEnvironment m s p = .error .collisionCapacityExceeded) ∧
    (m ≤ q.excludedPairs.length → q.excludePair m i j = .error .collisionCapacityExceeded) ∧
    (∀ q', q.excludePair m i j = .ok q' → q'.isExcluded a b = (q.isExcluded a b ||
      ((a == i && b == j) || (a == j && b == i)))) ∧
    q.isExcluded a b = q.isExcluded b a := by
  refine ⟨?_, ?_, ?_, ?_, ?_, ?_, ?_⟩
  · intro h
    refine ⟨_, if_pos h, by simp, ?_, rfl, rfl⟩
    intro k hk; simp [List.getElem?_append_left hk]
  · intro h; exact if_neg (not_lt.2 h)
  · intro h
    refine ⟨_, if_pos h, by simp, ?_, rfl, rfl⟩
    intro k hk; simp [List.getElem?_append_left hk]
  · intro h; exact if_neg (not_lt.2 h)
  · intro h; exact if_neg (not_lt.2 h)
  · intro q' h
    unfold CollisionQuery.excludePair at h
    split at h
    · cases h
      simp only [CollisionQuery.isExcluded, List.any_append, List.any_cons, List.any_nil, Bool.or_false]
      congr 1
      rw [Bool.eq_iff_iff]
      simp only [Bool.or_eq_true, Bool.and_eq_true, beq_iff_eq, Prod.mk.injEq]
      constructor <;> rintro (⟨h1, h2⟩ | ⟨h1, h2⟩) <;> simp [h1, h2]
    · cases h
  · simp only [CollisionQuery.isExcluded]
    congr 1; funext pair; rw [Bool.or_comm]

/-- C56 (finding). An obstacle at a NaN position is passed over: its clearance compares below nothing, so the
report says no pair was checked and `is_clear` answers true for every required clearance. -/
theorem check_ignores_nan :
    ∃ (q : CollisionQuery XR) (pose : ℕ → Option (SE3 XR)) (d : XR) (pair : CollisionSource × CollisionSource),
      Checked q pose d pair ∧
      ∃ r, q.check XR.pinf pose = .ok r ∧ r.closestPair = none ∧ ∀ req, r.isClear req = true := by
  have hnan : ∀ (r s : XR), sphereSphereDistance ((SE3.identity : SE3 XR).compose SE3.identity) r
      ⟨SO3.identity, fun _ => XR.nan⟩ s = XR.nan := by
    intro r s
    have : vsub ((SE3.identity : SE3 XR).compose SE3.identity).translation (fun _ => XR.nan) = fun _ => XR.nan := by
      funext i; simp [vsub]
    rw [sphereSphereDistance]
    dsimp only
    rw [this]
    have hd : vdot (fun _ : Fin 3 => XR.nan) (fun _ => XR.nan) = XR.nan := by
      simp [vdot, sumLoop, List.finRange_succ]
    rw [vnorm, vnormSquared, hd]
    simp [Fns.sqrt]
  let x : AttachedPrimitive XR := ⟨0, .sphere (XR.fin 1), SE3.identity⟩
  let o : WorldPrimitive XR := ⟨.sphere (XR.fin 1), ⟨SO3.identity, fun _ => XR.nan⟩⟩
  refine ⟨⟨[x], [o], []⟩, fun _ => some SE3.identity, _, _,
    Checked.obstacle 0 0 x o SE3.identity rfl rfl rfl, ⟨0, none⟩, ?_, rfl, fun req => rfl⟩
  rw [check_eq XR.pinf ⟨[x], [o], []⟩ (fun _ => some SE3.identity) (fun x => SE3.identity.compose x.localPose)
    (fun y hy => rfl)]
  have hc : List.flatMap (candidates ⟨[x], [o], []⟩ (fun x => SE3.identity.compose x.localPose)) [x].zipIdx =
      [(sphereSphereDistance ((SE3.identity : SE3 XR).compose SE3.identity) (XR.fin 1)
        ⟨SO3.identity, fun _ => XR.nan⟩ (XR.fin 1), (.selfPrimitive 0, .environment 0))] := rfl
  dsimp only
  rw [hc, hnan]
  have hlt : ¬ (XR.nan < XR.pinf) := by simp
  simp [improve, hlt]

end Multicalc
