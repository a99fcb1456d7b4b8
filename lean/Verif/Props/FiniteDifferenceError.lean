import Verif.Props.FiniteDifference
import Mathlib.Analysis.Calculus.Deriv.MeanValue
import Mathlib.Analysis.Calculus.Deriv.Comp
import Mathlib.Analysis.Calculus.Deriv.Pow
import Mathlib.Analysis.Calculus.LineDeriv.Basic
import Mathlib.Analysis.SpecialFunctions.Trigonometric.Deriv
import Mathlib.Tactic

/-!
# Finite differences away from polynomials

An order `n` difference of an arbitrary function is its `n`-th derivative at some point the
difference reaches; the distance to the `n`-th derivative at the point asked for follows.
-/

namespace Multicalc

open Set

/-- How far from the point an order `k + 1` difference with first step `s` looks: the sum of the
steps `s`, `m s`, `m² s`, …. -/
def fdReach (m : ℝ) (k : ℕ) (s : ℝ) : ℝ := s * ∑ i ∈ Finset.range (k + 1), m ^ i

theorem fdReach_zero (m s : ℝ) : fdReach m 0 s = s := by simp [fdReach]

theorem fdReach_succ (m : ℝ) (k : ℕ) (s : ℝ) : fdReach m (k + 1) s = s + fdReach m k (m * s) := by
  unfold fdReach
  rw [Finset.sum_range_succ', pow_zero, mul_add, mul_one, add_comm s, mul_comm m s, mul_assoc,
    Finset.mul_sum]
  simp only [pow_succ', Finset.mul_sum]

theorem fdReach_pos {m s : ℝ} (hm : 0 < m) (hs : 0 < s) (k : ℕ) : 0 < fdReach m k s := by
  unfold fdReach
  exact mul_pos hs (Finset.sum_pos (fun i _ => pow_pos hm i) ⟨0, by simp⟩)

/-- The points between which an order `k + 1` difference at `x` with first step `s` looks: to the
right for forward differences, to the left for backward ones, to both sides for central ones. -/
def fdWindow (mode : DiffMode) (x r : ℝ) : Set ℝ :=
  match mode with
  | .forward => Icc x (x + r)
  | .backward => Icc (x - r) x
  | .central => Icc (x - r) (x + r)

/-- Its interior. -/
def fdInner (mode : DiffMode) (x r : ℝ) : Set ℝ :=
  match mode with
  | .forward => Ioo x (x + r)
  | .backward => Ioo (x - r) x
  | .central => Ioo (x - r) (x + r)

/-- The low and the high point of one difference. -/
def fdLow (mode : DiffMode) (x s : ℝ) : ℝ := x + (fdOffsets mode : ℝ × ℝ × ℝ).1 * s
/-- See `fdLow`. -/
def fdHigh (mode : DiffMode) (x s : ℝ) : ℝ := x + (fdOffsets mode : ℝ × ℝ × ℝ).2.1 * s

theorem fdWindow_eq (mode : DiffMode) (x r : ℝ) :
    fdWindow mode x r = Icc (fdLow mode x r) (fdHigh mode x r) := by
  cases mode <;> simp [fdWindow, fdLow, fdHigh, fdOffsets, sub_eq_add_neg]

theorem fdInner_eq (mode : DiffMode) (x r : ℝ) :
    fdInner mode x r = Ioo (fdLow mode x r) (fdHigh mode x r) := by
  cases mode <;> simp [fdInner, fdLow, fdHigh, fdOffsets, sub_eq_add_neg]

theorem fdHigh_sub_fdLow (mode : DiffMode) (x s : ℝ) :
    (fdOffsets mode : ℝ × ℝ × ℝ).2.2 * s = fdHigh mode x s - fdLow mode x s := by
  cases mode <;> simp [fdLow, fdHigh, fdOffsets] <;> ring

theorem fdLow_lt_fdHigh (mode : DiffMode) (x : ℝ) {s : ℝ} (hs : 0 < s) :
    fdLow mode x s < fdHigh mode x s := by
  cases mode <;> simp [fdLow, fdHigh, fdOffsets] <;> linarith

theorem fdLow_fdLow (mode : DiffMode) (x s r : ℝ) :
    fdLow mode (fdLow mode x s) r = fdLow mode x (s + r) := by unfold fdLow; ring

theorem fdHigh_fdHigh (mode : DiffMode) (x s r : ℝ) :
    fdHigh mode (fdHigh mode x s) r = fdHigh mode x (s + r) := by unfold fdHigh; ring

theorem fdLow_mono (mode : DiffMode) {x y : ℝ} (h : x ≤ y) (s : ℝ) :
    fdLow mode x s ≤ fdLow mode y s := by unfold fdLow; linarith

theorem fdHigh_mono (mode : DiffMode) {x y : ℝ} (h : x ≤ y) (s : ℝ) :
    fdHigh mode x s ≤ fdHigh mode y s := by unfold fdHigh; linarith

theorem fdLow_mono' (mode : DiffMode) {x y : ℝ} (h : x < y) (s : ℝ) :
    fdLow mode x s < fdLow mode y s := by unfold fdLow; linarith

theorem fdHigh_mono' (mode : DiffMode) {x y : ℝ} (h : x < y) (s : ℝ) :
    fdHigh mode x s < fdHigh mode y s := by unfold fdHigh; linarith

/-- Looking a further `r` from inside the window of one step stays inside the larger window. -/
theorem fdWindow_window {mode : DiffMode} {x s r y z : ℝ} (hy : y ∈ fdWindow mode x s)
    (hz : z ∈ fdWindow mode y r) : z ∈ fdWindow mode x (s + r) := by
  rw [fdWindow_eq] at *
  rw [← fdLow_fdLow, ← fdHigh_fdHigh]
  exact ⟨(fdLow_mono mode hy.1 r).trans hz.1, hz.2.trans (fdHigh_mono mode hy.2 r)⟩

theorem fdWindow_inner {mode : DiffMode} {x s r y z : ℝ} (hy : y ∈ fdInner mode x s)
    (hz : z ∈ fdWindow mode y r) : z ∈ fdInner mode x (s + r) := by
  rw [fdInner_eq] at *
  rw [fdWindow_eq] at hz
  rw [← fdLow_fdLow, ← fdHigh_fdHigh]
  exact ⟨(fdLow_mono' mode hy.1 r).trans_le hz.1, hz.2.trans_lt (fdHigh_mono' mode hy.2 r)⟩

theorem fdLow_mem {mode : DiffMode} {x s : ℝ} (hs : 0 ≤ s) : fdLow mode x s ∈ fdWindow mode x s := by
  cases mode <;> simp only [fdWindow, fdLow, fdOffsets, mem_Icc] <;> constructor <;> linarith

theorem fdHigh_mem {mode : DiffMode} {x s : ℝ} (hs : 0 ≤ s) :
    fdHigh mode x s ∈ fdWindow mode x s := by
  cases mode <;> simp only [fdWindow, fdHigh, fdOffsets, mem_Icc] <;> constructor <;> linarith

theorem self_mem_fdWindow {mode : DiffMode} {x s : ℝ} (hs : 0 ≤ s) : x ∈ fdWindow mode x s := by
  cases mode <;> simp [fdWindow] <;> linarith

theorem fdInner_subset (mode : DiffMode) (x r : ℝ) : fdInner mode x r ⊆ fdWindow mode x r := by
  rw [fdInner_eq, fdWindow_eq]
  exact Ioo_subset_Icc_self

theorem fdWindow_dist {mode : DiffMode} {x r y : ℝ} (hr : 0 ≤ r) (hy : y ∈ fdWindow mode x r) :
    |y - x| ≤ r := by
  rw [abs_le]
  cases mode <;> simp only [fdWindow, mem_Icc] at hy <;> constructor <;> linarith [hy.1, hy.2]

theorem fdDiff_zero_eq (c : FdConfig ℝ) (f : ℝ → ℝ) (x s : ℝ) :
    fdDiff c f 0 x s = (f (fdHigh c.method x s) - f (fdLow c.method x s)) /
      (fdHigh c.method x s - fdLow c.method x s) := by
  rw [← fdHigh_sub_fdLow]; rfl

theorem fdDiff_succ_eq (c : FdConfig ℝ) (f : ℝ → ℝ) (k : ℕ) (x s : ℝ) :
    fdDiff c f (k + 1) x s = (fdDiff c f k (fdHigh c.method x s) (c.multiplier * s) -
      fdDiff c f k (fdLow c.method x s) (c.multiplier * s)) /
      (fdHigh c.method x s - fdLow c.method x s) := by
  rw [← fdHigh_sub_fdLow]; rfl

theorem hasDerivAt_fdLow (mode : DiffMode) (x s : ℝ) :
    HasDerivAt (fun y => fdLow mode y s) 1 x := by
  unfold fdLow; exact (hasDerivAt_id x).add_const _

theorem hasDerivAt_fdHigh (mode : DiffMode) (x s : ℝ) :
    HasDerivAt (fun y => fdHigh mode y s) 1 x := by
  unfold fdHigh; exact (hasDerivAt_id x).add_const _

theorem fdGap (mode : DiffMode) (x y s : ℝ) :
    fdHigh mode x s - fdLow mode x s = fdHigh mode y s - fdLow mode y s := by
  unfold fdLow fdHigh; ring

/-- The derivative of a difference is the difference of the derivative. -/
theorem fdDiff_hasDerivAt (c : FdConfig ℝ) (hm : 0 < c.multiplier) (f f' : ℝ → ℝ) (k : ℕ) :
    ∀ (x s : ℝ), 0 < s →
      (∀ y ∈ fdWindow c.method x (fdReach c.multiplier k s), HasDerivAt f (f' y) y) →
      HasDerivAt (fun y => fdDiff c f k y s) (fdDiff c f' k x s) x := by
  induction k with
  | zero =>
    intro x s hs h
    rw [fdReach_zero] at h
    have h1 := (h _ (fdHigh_mem hs.le)).comp x (hasDerivAt_fdHigh c.method x s)
    have h2 := (h _ (fdLow_mem hs.le)).comp x (hasDerivAt_fdLow c.method x s)
    have h3 := (h1.sub h2).div_const (fdHigh c.method x s - fdLow c.method x s)
    rw [mul_one, mul_one, ← fdDiff_zero_eq] at h3
    refine h3.congr_of_eventuallyEq (Filter.Eventually.of_forall fun y => ?_)
    show fdDiff c f 0 y s = _
    rw [fdDiff_zero_eq, fdGap c.method y x]
    rfl
  | succ k ih =>
    intro x s hs h
    rw [fdReach_succ] at h
    have h1 := (ih _ _ (mul_pos hm hs) fun y hy => h y (fdWindow_window (fdHigh_mem hs.le) hy)).comp x
      (hasDerivAt_fdHigh c.method x s)
    have h2 := (ih _ _ (mul_pos hm hs) fun y hy => h y (fdWindow_window (fdLow_mem hs.le) hy)).comp x
      (hasDerivAt_fdLow c.method x s)
    have h3 := (h1.sub h2).div_const (fdHigh c.method x s - fdLow c.method x s)
    rw [mul_one, mul_one, ← fdDiff_succ_eq] at h3
    refine h3.congr_of_eventuallyEq (Filter.Eventually.of_forall fun y => ?_)
    show fdDiff c f (k + 1) y s = _
    rw [fdDiff_succ_eq, fdGap c.method y x]
    rfl

theorem fdDiff_continuousOn (c : FdConfig ℝ) (hm : 0 < c.multiplier) (f : ℝ → ℝ) (k : ℕ) :
    ∀ (s : ℝ) (S W : Set ℝ), 0 < s → ContinuousOn f W →
      (∀ x ∈ S, fdWindow c.method x (fdReach c.multiplier k s) ⊆ W) →
      ContinuousOn (fun y => fdDiff c f k y s) S := by
  have hl : ∀ (s : ℝ), Continuous fun y => fdLow c.method y s := fun s => by unfold fdLow; fun_prop
  have hh : ∀ (s : ℝ), Continuous fun y => fdHigh c.method y s := fun s => by
    unfold fdHigh; fun_prop
  induction k with
  | zero =>
    intro s S W hs hf hW
    simp only [fdReach_zero] at hW
    have h1 : ContinuousOn (fun y => f (fdHigh c.method y s)) S :=
      hf.comp (hh s).continuousOn fun x hx => hW x hx (fdHigh_mem hs.le)
    have h2 : ContinuousOn (fun y => f (fdLow c.method y s)) S :=
      hf.comp (hl s).continuousOn fun x hx => hW x hx (fdLow_mem hs.le)
    refine ((h1.sub h2).div_const (fdHigh c.method 0 s - fdLow c.method 0 s)).congr fun y _ => ?_
    rw [fdDiff_zero_eq, fdGap c.method y 0]
    rfl
  | succ k ih =>
    intro s S W hs hf hW
    simp only [fdReach_succ] at hW
    have h1 : ContinuousOn (fun y => fdDiff c f k (fdHigh c.method y s) (c.multiplier * s)) S :=
      (ih (c.multiplier * s) ((fun y => fdHigh c.method y s) '' S) W (mul_pos hm hs) hf (by
        rintro _ ⟨x, hx, rfl⟩ z hz
        exact hW x hx (fdWindow_window (fdHigh_mem hs.le) hz))).comp (hh s).continuousOn
        fun x hx => ⟨x, hx, rfl⟩
    have h2 : ContinuousOn (fun y => fdDiff c f k (fdLow c.method y s) (c.multiplier * s)) S :=
      (ih (c.multiplier * s) ((fun y => fdLow c.method y s) '' S) W (mul_pos hm hs) hf (by
        rintro _ ⟨x, hx, rfl⟩ z hz
        exact hW x hx (fdWindow_window (fdLow_mem hs.le) hz))).comp (hl s).continuousOn
        fun x hx => ⟨x, hx, rfl⟩
    refine ((h1.sub h2).div_const (fdHigh c.method 0 s - fdLow c.method 0 s)).congr fun y _ => ?_
    rw [fdDiff_succ_eq, fdGap c.method y 0]
    rfl

theorem fdDiff_mean (c : FdConfig ℝ) (hm : 0 < c.multiplier) (k : ℕ) :
    ∀ (g : ℕ → ℝ → ℝ) (x s : ℝ), 0 < s →
      (∀ i ≤ k, ContinuousOn (g i) (fdWindow c.method x (fdReach c.multiplier k s))) →
      (∀ i ≤ k, ∀ y ∈ fdInner c.method x (fdReach c.multiplier k s),
        HasDerivAt (g i) (g (i + 1) y) y) →
      ∃ ξ ∈ fdInner c.method x (fdReach c.multiplier k s), fdDiff c (g 0) k x s = g (k + 1) ξ := by
  induction k with
  | zero =>
    intro g x s hs hc hd
    rw [fdReach_zero] at *
    have hlt := fdLow_lt_fdHigh c.method x hs
    obtain ⟨ξ, hξ, h⟩ := exists_hasDerivAt_eq_slope (g 0) (g 1) hlt
      (by rw [← fdWindow_eq]; exact hc 0 le_rfl)
      (by rw [← fdInner_eq]; exact hd 0 le_rfl)
    refine ⟨ξ, by rw [fdInner_eq]; exact hξ, ?_⟩
    rw [fdDiff_zero_eq, zero_add, h]
  | succ k ih =>
    intro g x s hs hc hd
    rw [fdReach_succ] at *
    have hlt := fdLow_lt_fdHigh c.method x hs
    obtain ⟨η, hη, h⟩ := exists_hasDerivAt_eq_slope
      (fun y => fdDiff c (g 0) k y (c.multiplier * s))
      (fun y => fdDiff c (g 1) k y (c.multiplier * s)) hlt
      (fdDiff_continuousOn c hm (g 0) k _ _ _ (mul_pos hm hs) (hc 0 (Nat.zero_le _)) (by
        intro y hy z hz
        rw [← fdWindow_eq] at hy
        exact fdWindow_window hy hz))
      (by
        intro y hy
        rw [← fdInner_eq] at hy
        exact fdDiff_hasDerivAt c hm (g 0) (g 1) k y _ (mul_pos hm hs) fun z hz =>
          hd 0 (Nat.zero_le _) z (fdWindow_inner hy hz))
    rw [← fdInner_eq] at hη
    have hsub : ∀ z ∈ fdWindow c.method η (fdReach c.multiplier k (c.multiplier * s)),
        z ∈ fdInner c.method x (s + fdReach c.multiplier k (c.multiplier * s)) :=
      fun z hz => fdWindow_inner hη hz
    obtain ⟨ξ, hξ, h2⟩ := ih (fun i => g (i + 1)) η (c.multiplier * s) (mul_pos hm hs)
      (fun i hi => (hc (i + 1) (by omega)).mono fun z hz => fdInner_subset _ _ _ (hsub z hz))
      (fun i hi y hy => hd (i + 1) (by omega) y (hsub y (fdInner_subset _ _ _ hy)))
    refine ⟨ξ, hsub ξ (fdInner_subset _ _ _ hξ), ?_⟩
    rw [fdDiff_succ_eq, ← h, h2]

/-- C123. A finite difference of order `n` is the `n`-th derivative at a point strictly inside what
the difference looks at: to the right of the point for forward differences, to the left for backward
ones, within the sum of the steps for all of them.  Nothing is asked of the function outside that
window, nor of its differentiability at the window's ends. -/
theorem fdSingle_mean_value (c : FdConfig ℝ) (hs : 0 < c.stepSize) (hm : 0 < c.multiplier) (n : ℕ)
    (hn : 0 < n) (g : ℕ → ℝ → ℝ) (x : ℝ)
    (hc : ∀ i < n, ContinuousOn (g i)
      (fdWindow c.method x (c.stepSize * ∑ i ∈ Finset.range n, c.multiplier ^ i)))
    (hd : ∀ i < n, ∀ y ∈ fdInner c.method x
      (c.stepSize * ∑ i ∈ Finset.range n, c.multiplier ^ i), HasDerivAt (g i) (g (i + 1) y) y) :
    ∃ ξ ∈ fdInner c.method x (c.stepSize * ∑ i ∈ Finset.range n, c.multiplier ^ i),
      fdSingle c n (g 0) x = .ok (g n ξ) := by
  obtain ⟨k, rfl⟩ : ∃ k, n = k + 1 := ⟨n - 1, by omega⟩
  obtain ⟨ξ, hξ, h⟩ := fdDiff_mean c hm k g x c.stepSize hs (fun i hi => hc i (by omega))
    (fun i hi => hd i (by omega))
  refine ⟨ξ, hξ, ?_⟩
  unfold fdSingle
  rw [if_neg (by omega), fd_check_ok hs, Nat.add_sub_cancel, h]
  rfl

/-- C123. So its error is at most the bound on the next derivative times the sum of the steps. -/
theorem fdSingle_error (c : FdConfig ℝ) (hs : 0 < c.stepSize) (hm : 0 < c.multiplier) (n : ℕ)
    (hn : 0 < n) (g : ℕ → ℝ → ℝ) (x M : ℝ)
    (hd : ∀ i ≤ n, ∀ y ∈ fdWindow c.method x
      (c.stepSize * ∑ i ∈ Finset.range n, c.multiplier ^ i), HasDerivAt (g i) (g (i + 1) y) y)
    (hM : ∀ y ∈ fdWindow c.method x (c.stepSize * ∑ i ∈ Finset.range n, c.multiplier ^ i),
      |g (n + 1) y| ≤ M) :
    ∃ v, fdSingle c n (g 0) x = .ok v ∧
      |v - g n x| ≤ M * (c.stepSize * ∑ i ∈ Finset.range n, c.multiplier ^ i) := by
  obtain ⟨ξ, hξ, h⟩ := fdSingle_mean_value c hs hm n hn g x
    (fun i hi y hy => (hd i hi.le y hy).continuousAt.continuousWithinAt)
    (fun i hi y hy => hd i hi.le y (fdInner_subset _ _ _ hy))
  refine ⟨_, h, ?_⟩
  set r := c.stepSize * ∑ i ∈ Finset.range n, c.multiplier ^ i with hr
  have hr0 : 0 ≤ r := mul_nonneg hs.le (Finset.sum_nonneg fun i _ => pow_nonneg hm.le i)
  have hconv : Convex ℝ (fdWindow c.method x r) := by rw [fdWindow_eq]; exact convex_Icc _ _
  have h1 := hconv.norm_image_sub_le_of_norm_hasDerivWithin_le
    (fun y hy => (hd n le_rfl y hy).hasDerivWithinAt) hM (self_mem_fdWindow hr0)
    (fdInner_subset _ _ _ hξ)
  rw [Real.norm_eq_abs, Real.norm_eq_abs] at h1
  have hM0 : 0 ≤ M := (abs_nonneg _).trans (hM x (self_mem_fdWindow hr0))
  exact h1.trans (mul_le_mul_of_nonneg_left
    (fdWindow_dist hr0 (fdInner_subset _ _ _ hξ)) hM0)

/-- The two-sided Taylor bound behind central differences. -/
theorem central_taylor (E E1 E2 E3 : ℝ → ℝ) (x s B : ℝ) (hs : 0 < s)
    (h0 : ∀ y ∈ Icc (x - s) (x + s), HasDerivAt E (E1 y) y)
    (h1 : ∀ y ∈ Icc (x - s) (x + s), HasDerivAt E1 (E2 y) y)
    (h2 : ∀ y ∈ Icc (x - s) (x + s), HasDerivAt E2 (E3 y) y)
    (hB : ∀ y ∈ Icc (x - s) (x + s), |E3 y| ≤ B) :
    |(E (x + s) - E (x - s)) / (2 * s) - E1 x| ≤ B / 6 * s ^ 2 := by
  have hmp : ∀ t ∈ Icc (0 : ℝ) s, x + t ∈ Icc (x - s) (x + s) := fun t ht =>
    ⟨by linarith [ht.1, ht.2], by linarith [ht.2]⟩
  have hmm : ∀ t ∈ Icc (0 : ℝ) s, x - t ∈ Icc (x - s) (x + s) := fun t ht =>
    ⟨by linarith [ht.2], by linarith [ht.1]⟩
  have dp : ∀ t : ℝ, HasDerivAt (fun t => x + t) 1 t := fun t => (hasDerivAt_id t).const_add x
  have dm : ∀ t : ℝ, HasDerivAt (fun t => x - t) (-1) t := fun t => (hasDerivAt_id t).const_sub x
  -- second difference
  have b2 : ∀ t ∈ Icc (0 : ℝ) s, |E2 (x + t) - E2 (x - t)| ≤ 2 * B * t := by
    intro t ht
    have := (convex_Icc (x - s) (x + s)).norm_image_sub_le_of_norm_hasDerivWithin_le
      (fun y hy => (h2 y hy).hasDerivWithinAt) hB (hmm t ht) (hmp t ht)
    rw [Real.norm_eq_abs, Real.norm_eq_abs, show x + t - (x - t) = 2 * t by ring,
      abs_of_nonneg (by linarith [ht.1] : (0 : ℝ) ≤ 2 * t)] at this
    linarith
  have d1 : ∀ t ∈ Icc (0 : ℝ) s,
      HasDerivAt (fun t => E1 (x + t) + E1 (x - t) - 2 * E1 x) (E2 (x + t) - E2 (x - t)) t := by
    intro t ht
    have := (((h1 _ (hmp t ht)).comp t (dp t)).add ((h1 _ (hmm t ht)).comp t (dm t))).sub_const
      (2 * E1 x)
    rw [mul_one, mul_neg_one, ← sub_eq_add_neg] at this
    exact this
  have b1 : ∀ t ∈ Icc (0 : ℝ) s, |E1 (x + t) + E1 (x - t) - 2 * E1 x| ≤ B * t ^ 2 := by
    intro t ht
    have hsub : Icc (0 : ℝ) t ⊆ Icc 0 s := Icc_subset_Icc_right ht.2
    have key := image_norm_le_of_norm_deriv_right_le_deriv_boundary
      (f := fun t => E1 (x + t) + E1 (x - t) - 2 * E1 x) (f' := fun t => E2 (x + t) - E2 (x - t))
      (a := 0) (b := t) (B := fun t => B * t ^ 2) (B' := fun t => 2 * B * t)
      (fun y hy => (d1 y (hsub hy)).continuousAt.continuousWithinAt)
      (fun y hy => (d1 y (hsub (Ico_subset_Icc_self hy))).hasDerivWithinAt)
      (by simp; ring)
      (fun y => by
        have := (hasDerivAt_pow 2 y).const_mul B
        rw [show B * ((2 : ℕ) * y ^ (2 - 1)) = 2 * B * y by push_cast; ring] at this
        exact this)
      (fun y hy => by rw [Real.norm_eq_abs]; exact b2 y (hsub (Ico_subset_Icc_self hy)))
    have := key ⟨ht.1, le_rfl⟩
    rwa [Real.norm_eq_abs] at this
  have d0 : ∀ t ∈ Icc (0 : ℝ) s,
      HasDerivAt (fun t => E (x + t) - E (x - t) - 2 * E1 x * t)
        (E1 (x + t) + E1 (x - t) - 2 * E1 x) t := by
    intro t ht
    have := (((h0 _ (hmp t ht)).comp t (dp t)).sub ((h0 _ (hmm t ht)).comp t (dm t))).sub
      ((hasDerivAt_id t).const_mul (2 * E1 x))
    rw [mul_one, mul_neg_one, sub_neg_eq_add, mul_one] at this
    exact this
  have b0 : |E (x + s) - E (x - s) - 2 * E1 x * s| ≤ B / 3 * s ^ 3 := by
    have key := image_norm_le_of_norm_deriv_right_le_deriv_boundary
      (f := fun t => E (x + t) - E (x - t) - 2 * E1 x * t)
      (f' := fun t => E1 (x + t) + E1 (x - t) - 2 * E1 x)
      (a := 0) (b := s) (B := fun t => B / 3 * t ^ 3) (B' := fun t => B * t ^ 2)
      (fun y hy => (d0 y hy).continuousAt.continuousWithinAt)
      (fun y hy => (d0 y (Ico_subset_Icc_self hy)).hasDerivWithinAt)
      (by simp)
      (fun y => by
        have := (hasDerivAt_pow 3 y).const_mul (B / 3)
        rw [show B / 3 * ((3 : ℕ) * y ^ (3 - 1)) = B * y ^ 2 by push_cast; ring] at this
        exact this)
      (fun y hy => by rw [Real.norm_eq_abs]; exact b1 y (Ico_subset_Icc_self hy))
    have := key ⟨hs.le, le_rfl⟩
    rwa [Real.norm_eq_abs] at this
  rw [show (E (x + s) - E (x - s)) / (2 * s) - E1 x =
    (E (x + s) - E (x - s) - 2 * E1 x * s) / (2 * s) by field_simp, abs_div,
    abs_of_pos (by linarith : (0 : ℝ) < 2 * s), div_le_iff₀ (by linarith)]
  refine b0.trans (le_of_eq ?_)
  ring

theorem fdDiff_central (c : FdConfig ℝ) (hc : c.method = .central) (hm : 0 < c.multiplier) (B : ℝ)
    (k : ℕ) : ∀ (g : ℕ → ℝ → ℝ) (x s : ℝ), 0 < s →
      (∀ i ≤ k + 2, ∀ y ∈ fdWindow .central x (fdReach c.multiplier k s),
        HasDerivAt (g i) (g (i + 1) y) y) →
      (∀ y ∈ fdWindow .central x (fdReach c.multiplier k s), |g (k + 3) y| ≤ B) →
      |fdDiff c (g 0) k x s - g (k + 1) x| ≤
        B / 6 * s ^ 2 * ∑ i ∈ Finset.range (k + 1), (c.multiplier ^ 2) ^ i := by
  induction k with
  | zero =>
    intro g x s hs hd hB
    rw [fdReach_zero] at *
    have := central_taylor (g 0) (g 1) (g 2) (g 3) x s B hs (hd 0 (by omega)) (hd 1 (by omega))
      (hd 2 (by omega)) hB
    have e : fdDiff c (g 0) 0 x s = (g 0 (x + s) - g 0 (x - s)) / (2 * s) := by
      simp [fdDiff, hc, fdOffsets, sub_eq_add_neg]
    rw [e]
    simpa using this
  | succ k ih =>
    intro g x s hs hd hB
    have hms := mul_pos hm hs
    rw [fdReach_succ] at *
    set r := fdReach c.multiplier k (c.multiplier * s) with hr
    have hr0 : 0 < r := fdReach_pos hm hms k
    have hW : ∀ y ∈ Icc (x - s) (x + s), ∀ z ∈ fdWindow c.method y r,
        z ∈ fdWindow .central x (s + r) := by
      intro y hy z hz
      rw [hc] at hz
      exact fdWindow_window (show y ∈ fdWindow .central x s from hy) hz
    have hder : ∀ j ≤ k + 3, ∀ y ∈ Icc (x - s) (x + s),
        HasDerivAt (fun y => fdDiff c (g j) k y (c.multiplier * s))
          (fdDiff c (g (j + 1)) k y (c.multiplier * s)) y := fun j hj y hy =>
      fdDiff_hasDerivAt c hm (g j) (g (j + 1)) k y _ hms fun z hz => hd j (by omega) z (hW y hy z hz)
    have h1 := central_taylor (fun y => fdDiff c (g 0) k y (c.multiplier * s))
      (fun y => fdDiff c (g 1) k y (c.multiplier * s))
      (fun y => fdDiff c (g 2) k y (c.multiplier * s))
      (fun y => fdDiff c (g 3) k y (c.multiplier * s)) x s B hs
      (hder 0 (by omega)) (hder 1 (by omega)) (hder 2 (by omega)) (by
        intro y hy
        obtain ⟨ξ, hξ, h⟩ := fdDiff_mean c hm k (fun i => g (i + 3)) y (c.multiplier * s) hms
          (fun i hi z hz => (hd (i + 3) (by omega) z
            (hW y hy z hz)).continuousAt.continuousWithinAt)
          (fun i hi z hz => hd (i + 3) (by omega) z (hW y hy z (fdInner_subset _ _ _ hz)))
        show |fdDiff c (g (0 + 3)) k y (c.multiplier * s)| ≤ B
        rw [h]
        exact hB ξ (hW y hy ξ (fdInner_subset _ _ _ hξ)))
    have hx : x ∈ Icc (x - s) (x + s) := ⟨by linarith, by linarith⟩
    have h2 := ih (fun i => g (i + 1)) x (c.multiplier * s) hms
      (fun i hi z hz => hd (i + 1) (by omega) z (hW x hx z (by rw [hc]; exact hz)))
      (fun z hz => hB z (hW x hx z (by rw [hc]; exact hz)))
    have e : fdDiff c (g 0) (k + 1) x s = (fdDiff c (g 0) k (x + s) (c.multiplier * s) -
        fdDiff c (g 0) k (x - s) (c.multiplier * s)) / (2 * s) := by
      simp [fdDiff, hc, fdOffsets, sub_eq_add_neg]
    rw [e]
    have h3 := abs_add_le ((fdDiff c (g 0) k (x + s) (c.multiplier * s) -
        fdDiff c (g 0) k (x - s) (c.multiplier * s)) / (2 * s) -
        fdDiff c (g 1) k x (c.multiplier * s))
      (fdDiff c (g 1) k x (c.multiplier * s) - g (k + 2) x)
    rw [sub_add_sub_cancel] at h3
    refine h3.trans ((add_le_add h1 h2).trans (le_of_eq ?_))
    rw [Finset.sum_range_succ' _ (k + 1)]
    simp only [pow_succ' (c.multiplier ^ 2), ← Finset.mul_sum]
    ring

/-- C123. Central differences are second-order accurate at every order of differentiation: the error
is at most a sixth of the bound on the derivative two orders up, times the sum of the squared
steps. -/
theorem fdSingle_central_error (c : FdConfig ℝ) (hcen : c.method = .central) (hs : 0 < c.stepSize)
    (hm : 0 < c.multiplier) (n : ℕ) (hn : 0 < n) (g : ℕ → ℝ → ℝ) (x B : ℝ)
    (hd : ∀ i ≤ n + 1, ∀ y, |y - x| ≤ c.stepSize * ∑ i ∈ Finset.range n, c.multiplier ^ i →
      HasDerivAt (g i) (g (i + 1) y) y)
    (hB : ∀ y, |y - x| ≤ c.stepSize * ∑ i ∈ Finset.range n, c.multiplier ^ i →
      |g (n + 2) y| ≤ B) :
    ∃ v, fdSingle c n (g 0) x = .ok v ∧
      |v - g n x| ≤ B / 6 * ∑ i ∈ Finset.range n, (c.multiplier ^ i * c.stepSize) ^ 2 := by
  obtain ⟨k, rfl⟩ : ∃ k, n = k + 1 := ⟨n - 1, by omega⟩
  refine ⟨fdDiff c (g 0) k x c.stepSize, ?_, ?_⟩
  · unfold fdSingle
    rw [if_neg (by omega), fd_check_ok hs, Nat.add_sub_cancel]
    rfl
  · have hr0 := (fdReach_pos hm hs k).le
    refine (fdDiff_central c hcen hm B k g x c.stepSize hs
      (fun i hi y hy => hd i (by omega) y (fdWindow_dist hr0 hy))
      (fun y hy => hB y (fdWindow_dist hr0 hy))).trans (le_of_eq ?_)
    rw [mul_assoc, Finset.mul_sum]
    congr 1
    refine Finset.sum_congr rfl fun i _ => ?_
    ring

/-- C123. Shrinking the step makes every difference converge to the derivative, with any method and
any positive step multiplier, as soon as the derivative asked for exists near the point and is
continuous at it. -/
theorem fdSingle_converges (method : DiffMode) (m : ℝ) (hm : 0 < m) (n : ℕ) (hn : 0 < n)
    (g : ℕ → ℝ → ℝ) (x : ℝ)
    (hd : ∀ i < n, ∀ᶠ y in nhds x, HasDerivAt (g i) (g (i + 1) y) y) (hcont : ContinuousAt (g n) x)
    (ε : ℝ) (hε : 0 < ε) :
    ∃ δ > 0, ∀ h, 0 < h → h < δ → ∃ v,
      fdSingle ⟨h, method, m⟩ n (g 0) x = .ok v ∧ |v - g n x| < ε := by
  have h1 : ∀ᶠ y in nhds x, (∀ i ∈ Finset.range n, HasDerivAt (g i) (g (i + 1) y) y) ∧
      |g n y - g n x| < ε := by
    refine ((Filter.eventually_all_finset _).2 fun i hi => hd i (Finset.mem_range.1 hi)).and ?_
    have := Metric.continuousAt_iff'.1 hcont ε hε
    simpa [Real.dist_eq] using this
  obtain ⟨ρ, hρ, h2⟩ := Metric.eventually_nhds_iff.1 h1
  set S := ∑ i ∈ Finset.range n, m ^ i with hS
  have hS0 : 0 < S := Finset.sum_pos (fun i _ => pow_pos hm i) ⟨0, Finset.mem_range.2 hn⟩
  refine ⟨ρ / S, div_pos hρ hS0, fun h hh hlt => ?_⟩
  have hr : h * S < ρ := by rwa [lt_div_iff₀ hS0] at hlt
  have hin : ∀ y ∈ fdWindow method x (h * S), dist y x < ρ := fun y hy =>
    lt_of_le_of_lt (by rw [Real.dist_eq]; exact fdWindow_dist (mul_pos hh hS0).le hy) hr
  obtain ⟨ξ, hξ, hv⟩ := fdSingle_mean_value ⟨h, method, m⟩ hh hm n hn g x
    (fun i hi y hy => (((h2 (hin y hy)).1 i (Finset.mem_range.2
      hi)).continuousAt).continuousWithinAt)
    (fun i hi y hy => (h2 (hin y (fdInner_subset _ _ _ hy))).1 i (Finset.mem_range.2 hi))
  exact ⟨_, hv, (h2 (hin ξ (fdInner_subset _ _ _ hξ))).2⟩

/-! ### Mixed partial differences -/

/-- What a mixed difference looks at: the differentiated coordinates move by at most `r`, each to the
side its method looks to, and the others not at all. -/
def fdBox {n : ℕ} (mode : DiffMode) (vars : List (Fin n)) (x : Fin n → ℝ) (r : ℝ) :
    Set (Fin n → ℝ) :=
  {y | ∀ j, (j ∈ vars → y j ∈ fdWindow mode (x j) r) ∧ (j ∉ vars → y j = x j)}

/-- One unit along a coordinate. -/
def axis {n : ℕ} (v : Fin n) : Fin n → ℝ := Pi.single v 1

theorem update_eq_axis {n : ℕ} (x : Fin n → ℝ) (v : Fin n) (a : ℝ) :
    Function.update x v (x v + a) = x + a • axis v := by
  funext j
  by_cases h : j = v
  · subst h; simp [axis]
  · simp [axis, Function.update_of_ne h, Pi.single_eq_of_ne h]

theorem fdDiffMulti_cons {n : ℕ} (c : FdConfig ℝ) (f : (Fin n → ℝ) → ℝ) (v : Fin n)
    (rest : List (Fin n)) (x : Fin n → ℝ) (s : ℝ) :
    fdDiffMulti c f (v :: rest) x s =
      (fdDiffMulti c f rest (x + fdHigh c.method 0 s • axis v) (c.multiplier * s) -
        fdDiffMulti c f rest (x + fdLow c.method 0 s • axis v) (c.multiplier * s)) /
      (fdHigh c.method 0 s - fdLow c.method 0 s) := by
  rw [← fdHigh_sub_fdLow, ← update_eq_axis, ← update_eq_axis]
  unfold fdHigh fdLow
  rw [zero_add, zero_add]
  cases rest with
  | nil => rfl
  | cons w rest => rfl

theorem geom_cons (m s : ℝ) (k : ℕ) : s * ∑ i ∈ Finset.range (k + 1), m ^ i =
    s + m * s * ∑ i ∈ Finset.range k, m ^ i := by
  rw [Finset.sum_range_succ', pow_zero, mul_add, mul_one, add_comm s, mul_comm m s, mul_assoc,
    Finset.mul_sum]
  simp only [pow_succ', Finset.mul_sum]

theorem fdWindow_add {mode : DiffMode} {x s t : ℝ} (ht : t ∈ fdWindow mode 0 s) :
    x + t ∈ fdWindow mode x s := by
  cases mode <;> simp only [fdWindow, mem_Icc] at * <;> constructor <;> linarith [ht.1, ht.2]

theorem fdWindow_le {mode : DiffMode} {x r r' y : ℝ} (h : r ≤ r') (hy : y ∈ fdWindow mode x r) :
    y ∈ fdWindow mode x r' := by
  cases mode <;> simp only [fdWindow, mem_Icc] at * <;> constructor <;> linarith [hy.1, hy.2]

theorem fdBox_cons {n : ℕ} {mode : DiffMode} {v : Fin n} {rest : List (Fin n)} {x z : Fin n → ℝ}
    {s r t : ℝ} (hs : 0 ≤ s) (hr : 0 ≤ r) (ht : t ∈ fdWindow mode 0 s)
    (hz : z ∈ fdBox mode rest (x + t • axis v) r) : z ∈ fdBox mode (v :: rest) x (s + r) := by
  intro j
  obtain ⟨h1, h2⟩ := hz j
  by_cases hv : j = v
  · subst hv
    refine ⟨fun _ => ?_, fun h => absurd List.mem_cons_self h⟩
    have e : (x + t • axis j) j = x j + t := by simp [axis]
    rw [e] at h1 h2
    by_cases hj : j ∈ rest
    · exact fdWindow_window (fdWindow_add ht) (h1 hj)
    · rw [h2 hj]
      exact fdWindow_le (by linarith) (fdWindow_add ht)
  · have e : (x + t • axis v) j = x j := by simp [axis, Pi.single_eq_of_ne hv]
    rw [e] at h1 h2
    refine ⟨fun h => ?_, fun h => h2 fun h' => h (List.mem_cons_of_mem _ h')⟩
    rcases List.mem_cons.1 h with h | h
    · exact absurd h hv
    · exact fdWindow_le (by linarith) (h1 h)

theorem fdDiffMulti_hasLineDerivAt {n : ℕ} (c : FdConfig ℝ) (hm : 0 < c.multiplier)
    (f f' : (Fin n → ℝ) → ℝ) (v : Fin n) (vars : List (Fin n)) : ∀ (x : Fin n → ℝ) (s : ℝ), 0 < s →
      (∀ y ∈ fdBox c.method vars x (s * ∑ i ∈ Finset.range vars.length, c.multiplier ^ i),
        HasLineDerivAt ℝ f (f' y) y (axis v)) →
      HasLineDerivAt ℝ (fun y => fdDiffMulti c f vars y s) (fdDiffMulti c f' vars x s) x
        (axis v) := by
  induction vars with
  | nil =>
    intro x s hs h
    exact h x fun j => ⟨fun h => absurd h (by simp), fun _ => rfl⟩
  | cons w rest ih =>
    intro x s hs h
    rw [List.length_cons, geom_cons] at h
    have hms := mul_pos hm hs
    have hr : 0 ≤ c.multiplier * s * ∑ i ∈ Finset.range rest.length, c.multiplier ^ i :=
      mul_nonneg hms.le (Finset.sum_nonneg fun i _ => pow_nonneg hm.le i)
    have h1 := ih (x + fdHigh c.method 0 s • axis w) (c.multiplier * s) hms fun y hy =>
      h y (fdBox_cons hs.le hr (fdHigh_mem hs.le) hy)
    have h2 := ih (x + fdLow c.method 0 s • axis w) (c.multiplier * s) hms fun y hy =>
      h y (fdBox_cons hs.le hr (fdLow_mem hs.le) hy)
    have h3 := (HasDerivAt.sub h1 h2).div_const (fdHigh c.method 0 s - fdLow c.method 0 s)
    rw [← fdDiffMulti_cons] at h3
    refine h3.congr_of_eventuallyEq (Filter.Eventually.of_forall fun t => ?_)
    show fdDiffMulti c f (w :: rest) (x + t • axis v) s = _
    rw [fdDiffMulti_cons, add_right_comm x (t • axis v) (fdHigh c.method 0 s • axis w),
      add_right_comm x (t • axis v) (fdLow c.method 0 s • axis w)]
    rfl

theorem fdDiffMulti_mean {n : ℕ} (c : FdConfig ℝ) (hm : 0 < c.multiplier) (vars : List (Fin n)) :
    ∀ (g : ℕ → (Fin n → ℝ) → ℝ) (x : Fin n → ℝ) (s : ℝ), 0 < s →
      (∀ (i : ℕ) (h : i < vars.length),
        ∀ y ∈ fdBox c.method vars x (s * ∑ i ∈ Finset.range vars.length, c.multiplier ^ i),
        HasLineDerivAt ℝ (g i) (g (i + 1) y) y (axis vars[i])) →
      ∃ ξ ∈ fdBox c.method vars x (s * ∑ i ∈ Finset.range vars.length, c.multiplier ^ i),
        fdDiffMulti c (g 0) vars x s = g vars.length ξ := by
  induction vars with
  | nil =>
    intro g x s hs _
    exact ⟨x, fun j => ⟨fun h => absurd h (by simp), fun _ => rfl⟩, rfl⟩
  | cons v rest ih =>
    intro g x s hs h
    have hlen : s * ∑ i ∈ Finset.range (v :: rest).length, c.multiplier ^ i =
        s + c.multiplier * s * ∑ i ∈ Finset.range rest.length, c.multiplier ^ i := geom_cons _ _ _
    rw [hlen]
    have hms := mul_pos hm hs
    have hr : 0 ≤ c.multiplier * s * ∑ i ∈ Finset.range rest.length, c.multiplier ^ i :=
      mul_nonneg hms.le (Finset.sum_nonneg fun i _ => pow_nonneg hm.le i)
    have hder : ∀ t ∈ fdWindow c.method 0 s, HasDerivAt
        (fun t => fdDiffMulti c (g 0) rest (x + t • axis v) (c.multiplier * s))
        (fdDiffMulti c (g 1) rest (x + t • axis v) (c.multiplier * s)) t := by
      intro t ht
      have h1 : HasDerivAt (fun u => fdDiffMulti c (g 0) rest (x + t • axis v + u • axis v)
          (c.multiplier * s)) (fdDiffMulti c (g 1) rest (x + t • axis v) (c.multiplier * s))
          (t - t) := by
        rw [sub_self]
        exact fdDiffMulti_hasLineDerivAt c hm (g 0) (g 1) v rest (x + t • axis v) _ hms fun y hy =>
          h 0 (Nat.succ_pos _) y (by rw [hlen]; exact fdBox_cons hs.le hr ht hy)
      have h2 := HasDerivAt.comp_sub_const t t h1
      refine h2.congr_of_eventuallyEq (Filter.Eventually.of_forall fun u => ?_)
      show _ = fdDiffMulti c (g 0) rest (x + t • axis v + (u - t) • axis v) (c.multiplier * s)
      rw [add_assoc, ← add_smul, add_sub_cancel]
    obtain ⟨t, ht, e⟩ := exists_hasDerivAt_eq_slope _
      (fun t => fdDiffMulti c (g 1) rest (x + t • axis v) (c.multiplier * s))
      (fdLow_lt_fdHigh c.method 0 hs)
      (fun t ht => (hder t (by rw [fdWindow_eq]; exact ht)).continuousAt.continuousWithinAt)
      (fun t ht => hder t (by rw [fdWindow_eq]; exact Ioo_subset_Icc_self ht))
    have ht' : t ∈ fdWindow c.method 0 s := by rw [fdWindow_eq]; exact Ioo_subset_Icc_self ht
    obtain ⟨ξ, hξ, e2⟩ := ih (fun i => g (i + 1)) (x + t • axis v) (c.multiplier * s) hms
      (fun i hi y hy => by
        have := h (i + 1) (by simpa using hi) y
          (by rw [hlen]; exact fdBox_cons hs.le hr ht' hy)
        simpa using this)
    exact ⟨ξ, fdBox_cons hs.le hr ht' hξ, by rw [fdDiffMulti_cons, ← e]; exact e2⟩

/-- C123. A mixed partial difference, in any number of variables and of any order, is the mixed
partial derivative — the last index differentiated first — at a point whose differentiated
coordinates moved by at most the sum of the steps, each to the side its method looks to, and whose
other coordinates did not move. -/
theorem fdMulti_mean_value {n : ℕ} (c : FdConfig ℝ) (hs : 0 < c.stepSize) (hm : 0 < c.multiplier)
    (idx : List (Fin n)) (hidx : idx ≠ []) (g : List (Fin n) → (Fin n → ℝ) → ℝ) (x : Fin n → ℝ)
    (hd : ∀ v l, (v :: l) <:+ idx → ∀ y ∈ fdBox c.method idx x
      (c.stepSize * ∑ i ∈ Finset.range idx.length, c.multiplier ^ i),
      HasLineDerivAt ℝ (g l) (g (v :: l) y) y (Pi.single v 1)) :
    ∃ ξ ∈ fdBox c.method idx x (c.stepSize * ∑ i ∈ Finset.range idx.length, c.multiplier ^ i),
      fdMulti c (g []) (idx.map Fin.val) x = .ok (g idx ξ) := by
  have hbox : ∀ r, fdBox c.method idx.reverse x r = fdBox c.method idx x r := fun r => by
    simp [fdBox]
  obtain ⟨ξ, hξ, e⟩ := fdDiffMulti_mean c hm idx.reverse
    (fun i => g (idx.drop (idx.length - i))) x c.stepSize hs (by
      intro i hi y hy
      rw [hbox, List.length_reverse] at hy
      rw [List.length_reverse] at hi
      have hj : idx.length - (i + 1) < idx.length := by omega
      have hdrop : idx.drop (idx.length - (i + 1)) =
          idx[idx.length - (i + 1)] :: idx.drop (idx.length - i) := by
        rw [List.drop_eq_getElem_cons hj]
        congr 2
        omega
      have := hd _ _ (hdrop ▸ List.drop_suffix (idx.length - (i + 1)) idx) y hy
      rw [← hdrop] at this
      have e : idx.reverse[i]'(by simpa using hi) = idx[idx.length - (i + 1)] := by
        rw [List.getElem_reverse]
        congr 1
        omega
      show HasLineDerivAt ℝ _ _ y (axis (idx.reverse[i]'(by simpa using hi)))
      rw [e]
      exact this)
  rw [hbox, List.length_reverse] at hξ
  refine ⟨ξ, hξ, ?_⟩
  unfold fdMulti
  rw [if_neg (by simpa using hidx), fd_check_ok hs]
  have h1 : ((idx.map Fin.val).any fun i => decide (n ≤ i)) = false := by
    rw [List.any_eq_false]
    intro i hi
    obtain ⟨k, _, rfl⟩ := List.mem_map.1 hi
    simp [k.2]
  have h2 : (idx.map Fin.val).filterMap (fun i => if h : i < n then some (⟨i, h⟩ : Fin n)
      else none) = idx := by
    rw [List.filterMap_map]
    convert List.filterMap_some using 1
    congr 1
    funext k
    simp [Function.comp]
  show (if _ then _ else _) = _
  rw [h1, h2]
  simp only [Nat.sub_zero, List.drop_length, List.length_reverse, Nat.sub_self, List.drop_zero] at e
  show Except.ok _ = Except.ok _
  rw [e]

/-- C123. Each entry of a Jacobian column is the partial derivative of its component at a point
inside the one step taken, possibly a different point for each row; the other coordinates do not
move. -/
theorem fdColumn_mean_value {n m : ℕ} (c : FdConfig ℝ) (hs : 0 < c.stepSize)
    (f df : (Fin n → ℝ) → Fin m → ℝ) (col : Fin n) (x : Fin n → ℝ)
    (hd : ∀ row, ∀ t ∈ fdWindow c.method (x col) c.stepSize,
      HasDerivAt (fun t => f (Function.update x col t) row) (df (Function.update x col t) row) t) :
    ∃ v : Fin m → ℝ, fdColumn c f col x = .ok v ∧
      ∀ row, ∃ t ∈ fdInner c.method (x col) c.stepSize, v row = df (Function.update x col t) row := by
  refine ⟨fun row => (f (Function.update x col (fdHigh c.method (x col) c.stepSize)) row -
    f (Function.update x col (fdLow c.method (x col) c.stepSize)) row) /
      (fdHigh c.method (x col) c.stepSize - fdLow c.method (x col) c.stepSize), ?_, fun row => ?_⟩
  · unfold fdColumn
    rw [fd_check_ok hs]
    show (if h : _ then _ else _) = _
    rw [dif_pos col.2]
    simp only [← fdHigh_sub_fdLow]
    rfl
  · obtain ⟨t, ht, e⟩ := exists_hasDerivAt_eq_slope
      (fun t => f (Function.update x col t) row) (fun t => df (Function.update x col t) row)
      (fdLow_lt_fdHigh c.method (x col) hs)
      (fun t ht => (hd row t (by rw [fdWindow_eq]; exact ht)).continuousAt.continuousWithinAt)
      (fun t ht => hd row t (by rw [fdWindow_eq]; exact Ioo_subset_Icc_self ht))
    exact ⟨t, by rw [fdInner_eq]; exact ht, e.symm⟩

/-- The derivatives of the sine. -/
noncomputable def sinDerivs (i : ℕ) (y : ℝ) : ℝ := Real.sin (y + i * (Real.pi / 2))

theorem sinDerivs_hasDerivAt (i : ℕ) (y : ℝ) :
    HasDerivAt (sinDerivs i) (sinDerivs (i + 1) y) y := by
  have := ((hasDerivAt_id y).add_const (i * (Real.pi / 2))).sin
  rw [mul_one] at this
  have e : sinDerivs (i + 1) y = Real.cos (y + i * (Real.pi / 2)) := by
    unfold sinDerivs
    rw [← Real.sin_add_pi_div_two]
    congr 1
    push_cast
    ring
  rw [e]
  exact this

/-- The third central difference of the sine, steps 1/8, 1/4 and 1/2. -/
example : ∃ v, fdSingle (⟨1 / 8, .central, 2⟩ : FdConfig ℝ) 3 (sinDerivs 0) 1 = .ok v ∧
    |v - sinDerivs 3 1| ≤ 1 / 6 * ∑ i ∈ Finset.range 3, ((2 : ℝ) ^ i * (1 / 8)) ^ 2 :=
  fdSingle_central_error ⟨1 / 8, .central, 2⟩ rfl (by norm_num) (by norm_num) 3 (by norm_num)
    sinDerivs 1 1 (fun i _ y _ => sinDerivs_hasDerivAt i y) (fun y _ => Real.abs_sin_le_one _)

/-- The second forward difference of the sine, steps 1/8 and 1/4. -/
example : ∃ v, fdSingle (⟨1 / 8, .forward, 2⟩ : FdConfig ℝ) 2 (sinDerivs 0) 1 = .ok v ∧
    |v - sinDerivs 2 1| ≤ 1 * (1 / 8 * ∑ i ∈ Finset.range 2, (2 : ℝ) ^ i) :=
  fdSingle_error ⟨1 / 8, .forward, 2⟩ (by norm_num) (by norm_num) 2 (by norm_num)
    sinDerivs 1 1 (fun i _ y _ => sinDerivs_hasDerivAt i y) (fun y _ => Real.abs_sin_le_one _)

/-- And where it is taken. -/
example : ∃ ξ ∈ fdInner .backward 1 (1 / 8 * ∑ i ∈ Finset.range 2, (2 : ℝ) ^ i),
    fdSingle (⟨1 / 8, .backward, 2⟩ : FdConfig ℝ) 2 (sinDerivs 0) 1 = .ok (sinDerivs 2 ξ) :=
  fdSingle_mean_value ⟨1 / 8, .backward, 2⟩ (by norm_num) (by norm_num) 2 (by norm_num)
    sinDerivs 1 (fun i _ y _ => (sinDerivs_hasDerivAt i y).continuousAt.continuousWithinAt)
    (fun i _ y _ => sinDerivs_hasDerivAt i y)

/-- All of them converge. -/
example : ∃ δ > 0, ∀ h, 0 < h → h < δ → ∃ v,
    fdSingle (⟨h, .backward, 10⟩ : FdConfig ℝ) 4 (sinDerivs 0) 1 = .ok v ∧
      |v - sinDerivs 4 1| < 1 / 100 :=
  fdSingle_converges .backward 10 (by norm_num) 4 (by norm_num) sinDerivs 1
    (fun i _ => Filter.Eventually.of_forall (sinDerivs_hasDerivAt i))
    (sinDerivs_hasDerivAt 4 1).continuousAt (1 / 100) (by norm_num)

/-- The derivatives of `sin a · b`: itself, by `b`, then by `a`. -/
noncomputable def sinTimes (l : List (Fin 2)) (y : Fin 2 → ℝ) : ℝ :=
  if l.length = 0 then Real.sin (y 0) * y 1 else if l.length = 1 then Real.sin (y 0)
  else Real.cos (y 0)

/-- A mixed difference of `sin a · b`. -/
example : ∃ ξ ∈ fdBox .forward [0, 1] ![1, 2] (1 / 8 * ∑ i ∈ Finset.range 2, (3 : ℝ) ^ i),
    fdMulti (⟨1 / 8, .forward, 3⟩ : FdConfig ℝ) (sinTimes []) [0, 1] ![1, 2] =
      .ok (sinTimes [0, 1] ξ) := by
  refine fdMulti_mean_value ⟨1 / 8, .forward, 3⟩ (by norm_num) (by norm_num) [0, 1] (by simp)
    sinTimes ![1, 2] fun v l hl y _ => ?_
  rw [List.suffix_cons_iff, List.suffix_cons_iff, List.suffix_nil] at hl
  rcases hl with h | h | h
  · obtain ⟨rfl, rfl⟩ := List.cons.inj h
    have h1 : HasDerivAt (fun t : ℝ => y 0 + t) 1 0 := (hasDerivAt_id (0 : ℝ)).const_add (y 0)
    have h2 := h1.sin
    rw [add_zero, mul_one] at h2
    unfold HasLineDerivAt
    simpa [sinTimes] using h2
  · obtain ⟨rfl, rfl⟩ := List.cons.inj h
    have h1 := ((hasDerivAt_id (0 : ℝ)).const_add (y 1)).const_mul (Real.sin (y 0))
    rw [mul_one] at h1
    unfold HasLineDerivAt
    simpa [sinTimes] using h1
  · exact absurd h (by simp)

/-- A Jacobian column of `(a, b) ↦ (sin a, a b)`. -/
example : ∃ v : Fin 2 → ℝ, fdColumn (⟨1 / 8, .central, 1⟩ : FdConfig ℝ)
    (fun y => ![Real.sin (y 0), y 0 * y 1]) (0 : Fin 2) ![1, 2] = .ok v ∧
    ∀ row, ∃ t ∈ fdInner .central 1 (1 / 8), v row =
      (fun y : Fin 2 → ℝ => ![Real.cos (y 0), y 1]) (Function.update ![1, 2] 0 t) row :=
  fdColumn_mean_value ⟨1 / 8, .central, 1⟩ (by norm_num) (fun y => ![Real.sin (y 0), y 0 * y 1])
    (fun y => ![Real.cos (y 0), y 1]) 0 ![1, 2] (by
      intro row t _
      fin_cases row
      · simpa using Real.hasDerivAt_sin t
      · simpa using (hasDerivAt_id t).mul_const (2 : ℝ))

end Multicalc
