import Mathlib.Analysis.SpecialFunctions.Trigonometric.Deriv
import Mathlib.Analysis.Calculus.Deriv.MeanValue
import Mathlib.Tactic

/-!
# Taylor bounds for sine and cosine
-/

namespace Multicalc

/-- A function starting at or above zero whose derivative is nonnegative stays nonnegative. -/
theorem nonneg_of_deriv {g g' : ℝ → ℝ} (hd : ∀ x, HasDerivAt g (g' x) x) (h0 : 0 ≤ g 0)
    (hp : ∀ x, 0 ≤ x → 0 ≤ g' x) (x : ℝ) (hx : 0 ≤ x) : 0 ≤ g x := by
  have hm : MonotoneOn g (Set.Ici 0) := by
    apply monotoneOn_of_deriv_nonneg (convex_Ici 0)
    · exact fun y _ => (hd y).continuousAt.continuousWithinAt
    · exact fun y _ => (hd y).differentiableAt.differentiableWithinAt
    · intro y hy
      rw [interior_Ici] at hy
      rw [(hd y).deriv]
      exact hp y (le_of_lt hy)
  exact h0.trans (hm (Set.mem_Ici.2 le_rfl) (Set.mem_Ici.2 hx) hx)

theorem sin_upper1 (x : ℝ) (hx : 0 ≤ x) : 0 ≤ x - Real.sin x :=
  nonneg_of_deriv (g' := fun x => 1 - Real.cos x) (fun x => (hasDerivAt_id x).sub (Real.hasDerivAt_sin x))
    (by simp) (fun x _ => by linarith [Real.cos_le_one x]) x hx

theorem cos_lower2 (x : ℝ) (hx : 0 ≤ x) : 0 ≤ Real.cos x - (1 - x ^ 2 / 2) := by
  refine nonneg_of_deriv (g := fun x => Real.cos x - (1 - x ^ 2 / 2)) (g' := fun x => x - Real.sin x)
    (fun x => ?_) (by simp) sin_upper1 x hx
  have h := (Real.hasDerivAt_cos x).sub ((hasDerivAt_const x (1 : ℝ)).sub ((hasDerivAt_pow 2 x).div_const 2))
  refine HasDerivAt.congr_deriv h ?_; norm_num; try ring

theorem sin_lower3 (x : ℝ) (hx : 0 ≤ x) : 0 ≤ Real.sin x - (x - x ^ 3 / 6) := by
  refine nonneg_of_deriv (g := fun x => Real.sin x - (x - x ^ 3 / 6))
    (g' := fun x => Real.cos x - (1 - x ^ 2 / 2)) (fun x => ?_) (by simp) cos_lower2 x hx
  have h := (Real.hasDerivAt_sin x).sub ((hasDerivAt_id x).sub ((hasDerivAt_pow 3 x).div_const 6))
  refine HasDerivAt.congr_deriv h ?_; norm_num; try ring

theorem cos_upper4 (x : ℝ) (hx : 0 ≤ x) : 0 ≤ 1 - x ^ 2 / 2 + x ^ 4 / 24 - Real.cos x := by
  refine nonneg_of_deriv (g := fun x => 1 - x ^ 2 / 2 + x ^ 4 / 24 - Real.cos x)
    (g' := fun x => Real.sin x - (x - x ^ 3 / 6)) (fun x => ?_) (by simp) sin_lower3 x hx
  have h := (((hasDerivAt_const x (1 : ℝ)).sub ((hasDerivAt_pow 2 x).div_const 2)).add
    ((hasDerivAt_pow 4 x).div_const 24)).sub (Real.hasDerivAt_cos x)
  refine HasDerivAt.congr_deriv h ?_; norm_num; try ring

theorem sin_upper5 (x : ℝ) (hx : 0 ≤ x) : 0 ≤ x - x ^ 3 / 6 + x ^ 5 / 120 - Real.sin x := by
  refine nonneg_of_deriv (g := fun x => x - x ^ 3 / 6 + x ^ 5 / 120 - Real.sin x)
    (g' := fun x => 1 - x ^ 2 / 2 + x ^ 4 / 24 - Real.cos x) (fun x => ?_) (by simp) cos_upper4 x hx
  have h := (((hasDerivAt_id x).sub ((hasDerivAt_pow 3 x).div_const 6)).add
    ((hasDerivAt_pow 5 x).div_const 120)).sub (Real.hasDerivAt_sin x)
  refine HasDerivAt.congr_deriv h ?_; norm_num; try ring

theorem cos_lower6 (x : ℝ) (hx : 0 ≤ x) :
    0 ≤ Real.cos x - (1 - x ^ 2 / 2 + x ^ 4 / 24 - x ^ 6 / 720) := by
  refine nonneg_of_deriv (g := fun x => Real.cos x - (1 - x ^ 2 / 2 + x ^ 4 / 24 - x ^ 6 / 720))
    (g' := fun x => x - x ^ 3 / 6 + x ^ 5 / 120 - Real.sin x) (fun x => ?_) (by simp) sin_upper5 x hx
  have h := (Real.hasDerivAt_cos x).sub ((((hasDerivAt_const x (1 : ℝ)).sub
    ((hasDerivAt_pow 2 x).div_const 2)).add ((hasDerivAt_pow 4 x).div_const 24)).sub
    ((hasDerivAt_pow 6 x).div_const 720))
  refine HasDerivAt.congr_deriv h ?_; norm_num; try ring

theorem sin_lower7 (x : ℝ) (hx : 0 ≤ x) :
    0 ≤ Real.sin x - (x - x ^ 3 / 6 + x ^ 5 / 120 - x ^ 7 / 5040) := by
  refine nonneg_of_deriv (g := fun x => Real.sin x - (x - x ^ 3 / 6 + x ^ 5 / 120 - x ^ 7 / 5040))
    (g' := fun x => Real.cos x - (1 - x ^ 2 / 2 + x ^ 4 / 24 - x ^ 6 / 720)) (fun x => ?_) (by simp)
    cos_lower6 x hx
  have h := (Real.hasDerivAt_sin x).sub ((((hasDerivAt_id x).sub
    ((hasDerivAt_pow 3 x).div_const 6)).add ((hasDerivAt_pow 5 x).div_const 120)).sub
    ((hasDerivAt_pow 7 x).div_const 5040))
  refine HasDerivAt.congr_deriv h ?_; norm_num; try ring

theorem cos_upper8 (x : ℝ) (hx : 0 ≤ x) :
    0 ≤ 1 - x ^ 2 / 2 + x ^ 4 / 24 - x ^ 6 / 720 + x ^ 8 / 40320 - Real.cos x := by
  refine nonneg_of_deriv
    (g := fun x => 1 - x ^ 2 / 2 + x ^ 4 / 24 - x ^ 6 / 720 + x ^ 8 / 40320 - Real.cos x)
    (g' := fun x => Real.sin x - (x - x ^ 3 / 6 + x ^ 5 / 120 - x ^ 7 / 5040)) (fun x => ?_) (by simp)
    sin_lower7 x hx
  have h := (((((hasDerivAt_const x (1 : ℝ)).sub ((hasDerivAt_pow 2 x).div_const 2)).add
    ((hasDerivAt_pow 4 x).div_const 24)).sub ((hasDerivAt_pow 6 x).div_const 720)).add
    ((hasDerivAt_pow 8 x).div_const 40320)).sub (Real.hasDerivAt_cos x)
  refine HasDerivAt.congr_deriv h ?_; norm_num; try ring

/-- Third-order Taylor polynomial of the sine. -/
theorem sin_taylor3 (x : ℝ) : |Real.sin x - (x - x ^ 3 / 6)| ≤ |x| ^ 5 / 120 := by
  rcases le_total 0 x with h | h
  · rw [abs_of_nonneg h, abs_of_nonneg (sin_lower3 x h)]; linarith [sin_upper5 x h]
  · have h' : 0 ≤ -x := by linarith
    have := sin_lower3 (-x) h'; have := sin_upper5 (-x) h'
    rw [Real.sin_neg] at *
    rw [abs_of_nonpos h, abs_of_nonpos] <;> nlinarith

/-- Fourth-order Taylor polynomial of the cosine. -/
theorem cos_taylor4 (x : ℝ) : |Real.cos x - (1 - x ^ 2 / 2 + x ^ 4 / 24)| ≤ x ^ 6 / 720 := by
  wlog h : 0 ≤ x
  · have h' : 0 ≤ -x := by linarith [lt_of_not_ge h]
    have := this (-x) h'
    rwa [Real.cos_neg, show (-x) ^ 2 = x ^ 2 by ring, show (-x) ^ 4 = x ^ 4 by ring,
      show (-x) ^ 6 = x ^ 6 by ring] at this
  · have h1 := cos_upper4 x h; have h2 := cos_lower6 x h
    rw [abs_of_nonpos] <;> linarith

/-- Fifth-order Taylor polynomial of the sine. -/
theorem sin_taylor5 (x : ℝ) : |Real.sin x - (x - x ^ 3 / 6 + x ^ 5 / 120)| ≤ |x| ^ 7 / 5040 := by
  rcases le_total 0 x with h | h
  · have h1 := sin_upper5 x h; have h2 := sin_lower7 x h
    rw [abs_of_nonneg h, abs_of_nonpos] <;> linarith
  · have h' : 0 ≤ -x := by linarith
    have h1 := sin_upper5 (-x) h'; have h2 := sin_lower7 (-x) h'
    rw [Real.sin_neg] at h1 h2
    rw [abs_of_nonpos h, abs_of_nonneg] <;> nlinarith

end Multicalc
