import Verif.Props.MotionProfile

/-!
# Motion profiles are time-optimal
-/

namespace Multicalc

open Set Filter Topology MotionProfile

/-- Comparing two functions by their derivatives. -/
theorem mv_le {f g f' g' : ℝ → ℝ} {a b : ℝ} (hab : a ≤ b) {S : Set ℝ} (hS : Icc a b ⊆ S)
    (hf : ∀ t ∈ Icc a b, HasDerivWithinAt f (f' t) S t) (hg : ∀ t, HasDerivAt g (g' t) t)
    (h : ∀ t ∈ Icc a b, f' t ≤ g' t) : f b - f a ≤ g b - g a := by
  have hd : ∀ t ∈ Icc a b, HasDerivWithinAt (fun τ => f τ - g τ) (f' t - g' t) (Icc a b) t :=
    fun t ht => ((hf t ht).mono hS).sub (hg t).hasDerivWithinAt
  have hanti : AntitoneOn (fun τ => f τ - g τ) (Icc a b) := by
    refine antitoneOn_of_hasDerivWithinAt_nonpos (f' := fun t => f' t - g' t) (convex_Icc a b)
      (fun t ht => (hd t ht).continuousWithinAt) (fun t ht => (hd t (interior_subset ht)).mono interior_subset)
      (fun t ht => sub_nonpos.2 (h t (interior_subset ht)))
  have := hanti (left_mem_Icc.2 hab) (right_mem_Icc.2 hab) hab
  dsimp only at this
  linarith

/-- The reversed motion of a motion on `[0, T]`. -/
theorem reverse_deriv {x v : ℝ → ℝ} {T : ℝ} (hx : ∀ t ∈ Icc (0 : ℝ) T, HasDerivWithinAt x (v t) (Icc 0 T) t) :
    ∀ t ∈ Icc (0 : ℝ) T, HasDerivWithinAt (fun τ => x (T - τ)) (-v (T - t)) (Icc 0 T) t := by
  intro t ht
  have hm : MapsTo (fun τ : ℝ => T - τ) (Icc 0 T) (Icc 0 T) := fun τ hτ => ⟨by linarith [hτ.2], by linarith [hτ.1]⟩
  have h1 : HasDerivWithinAt (fun τ : ℝ => T - τ) (-1) (Icc 0 T) t := by
    simpa using (hasDerivWithinAt_id t (Icc (0 : ℝ) T)).const_sub T
  have := HasDerivWithinAt.comp t (hx (T - t) (hm ht)) h1 hm
  simpa [Function.comp_def] using this

/-- The first half of a motion at bounded speed and acceleration covers no more than a ramp and a cruise. -/
theorem half_bound {x v : ℝ → ℝ} {T V A ta m : ℝ} (hA : 0 < A) (hta : 0 ≤ ta) (hm0 : 0 ≤ m) (hm : m ≤ T)
    (hx : ∀ t ∈ Icc (0 : ℝ) T, HasDerivWithinAt x (v t) (Icc 0 T) t) (hx0 : x 0 = 0) (hv0 : v 0 = 0)
    (hV : ∀ t ∈ Icc (0 : ℝ) T, v t ≤ V)
    (hlip : ∀ s ∈ Icc (0 : ℝ) T, ∀ t ∈ Icc (0 : ℝ) T, |v s - v t| ≤ A * |s - t|) :
    (m ≤ ta → x m ≤ A * m ^ 2 / 2) ∧ (ta ≤ m → x m ≤ A * ta ^ 2 / 2 + V * (m - ta)) := by
  have hT : 0 ≤ T := hm0.trans hm
  have hvA : ∀ t ∈ Icc (0 : ℝ) T, v t ≤ A * t := by
    intro t ht
    have := hlip t ht 0 ⟨le_rfl, hT⟩
    rw [hv0, sub_zero, sub_zero, abs_of_nonneg ht.1] at this
    exact (le_abs_self _).trans this
  have hsq : ∀ t : ℝ, HasDerivAt (fun τ : ℝ => A * τ ^ 2 / 2) (A * t) t := by
    intro t
    have := (((hasDerivAt_id t).pow 2).const_mul A).div_const 2
    refine HasDerivAt.congr_deriv this ?_
    norm_num; try ring
  have hramp : ∀ b, 0 ≤ b → b ≤ T → x b ≤ A * b ^ 2 / 2 := by
    intro b hb0 hb
    have := mv_le (f := x) (f' := v) hb0 (S := Icc 0 T) (Icc_subset_Icc le_rfl hb)
      (fun t ht => hx t ⟨ht.1, ht.2.trans hb⟩) hsq (fun t ht => hvA t ⟨ht.1, ht.2.trans hb⟩)
    rw [hx0] at this
    simpa using this
  refine ⟨fun _ => hramp m hm0 hm, fun h => ?_⟩
  have h1 := hramp ta hta (h.trans hm)
  have hlin : ∀ t : ℝ, HasDerivAt (fun τ : ℝ => V * τ) V t := fun t => by
    simpa using (hasDerivAt_id t).const_mul V
  have h2 := mv_le (f := x) (f' := v) h (S := Icc 0 T) (Icc_subset_Icc hta hm)
    (fun t ht => hx t ⟨hta.trans ht.1, ht.2.trans hm⟩) hlin
    (fun t ht => hV t ⟨hta.trans ht.1, ht.2.trans hm⟩)
  try dsimp only at h2
  linarith

/-- C91. No rest-to-rest motion over the same distance that respects the speed and acceleration limits is
faster than the trapezoidal profile. The rival is any differentiable motion at all: its velocity need only be
Lipschitz with the acceleration limit as constant. -/
theorem trapezoid_time_optimal (planner : MotionProfilePlanner ℝ) (V A D : ℝ) (j : Option ℝ) (p : MotionProfile ℝ)
    (hl : ProfileLimits.tryNew V A j = .ok planner.limits) (hk : planner.strategy = .trapezoidal ∨ j = none)
    (h : planner.plan D = .ok p)
    (T : ℝ) (hT : 0 ≤ T) (x v : ℝ → ℝ)
    (hx : ∀ t ∈ Icc (0 : ℝ) T, HasDerivWithinAt x (v t) (Icc 0 T) t)
    (hx0 : x 0 = 0) (hxT : x T = D) (hv0 : v 0 = 0) (hvT : v T = 0)
    (hV : ∀ t ∈ Icc (0 : ℝ) T, |v t| ≤ V)
    (hlip : ∀ s ∈ Icc (0 : ℝ) T, ∀ t ∈ Icc (0 : ℝ) T, |v s - v t| ≤ A * |s - t|) :
    p.duration ≤ T := by
  obtain ⟨hlim, hVpos, hA, -⟩ := limits_tryNew V A j _ hl
  obtain ⟨sign, hs, hsD, J', -, hcase⟩ := plan_good planner V A D j p hl h
  have hp : p = planTrapezoidal |D| ⟨V, A, j⟩ sign := by
    rcases hcase with ⟨-, h1, -⟩ | ⟨J, h1, h2, -⟩
    · rw [h1, hlim]
    · rcases hk with h3 | h3
      · exact absurd h3 h1
      · rw [h3] at h2; cases h2
  have habs : |sign| = 1 := by
    rw [← abs_mul_abs_self] at hs
    nlinarith [abs_nonneg sign]
  have hDs : sign * D = |D| := by rw [← hsD, ← mul_assoc, hs, one_mul, abs_mul, habs, one_mul, abs_abs]
  -- the rival with the sign taken out
  set y : ℝ → ℝ := fun t => sign * x t with hy
  set w : ℝ → ℝ := fun t => sign * v t with hw
  have hyd : ∀ t ∈ Icc (0 : ℝ) T, HasDerivWithinAt y (w t) (Icc 0 T) t := fun t ht => (hx t ht).const_mul sign
  have hwV : ∀ t ∈ Icc (0 : ℝ) T, w t ≤ V := fun t ht => by
    refine (le_abs_self _).trans ?_
    rw [hw, abs_mul, habs, one_mul]; exact hV t ht
  have hwl : ∀ s ∈ Icc (0 : ℝ) T, ∀ t ∈ Icc (0 : ℝ) T, |w s - w t| ≤ A * |s - t| := fun s hs' t ht => by
    have : w s - w t = sign * (v s - v t) := by rw [hw]; ring
    rw [this, abs_mul, habs, one_mul]; exact hlip s hs' t ht
  generalize hE : |D| = E at *
  have hE0 : 0 ≤ E := by rw [← hE]; exact abs_nonneg D
  have hyT : y T = E := by rw [hy]; dsimp only; rw [hxT, hDs]
  -- the reversed rival
  have hzd : ∀ t ∈ Icc (0 : ℝ) T, HasDerivWithinAt (fun τ => E - y (T - τ)) (w (T - t)) (Icc 0 T) t := by
    intro t ht
    simpa using (reverse_deriv hyd t ht).const_sub E
  have hflip : ∀ t ∈ Icc (0 : ℝ) T, T - t ∈ Icc (0 : ℝ) T := fun t ht => ⟨by linarith [ht.2], by linarith [ht.1]⟩
  rw [hp]
  unfold planTrapezoidal
  dsimp only
  set vp := min V (Fns.sqrt (E * A) : ℝ) with hvp
  have hsq : (Fns.sqrt (E * A) : ℝ) * Fns.sqrt (E * A) = E * A := Real.mul_self_sqrt (by positivity)
  have hs0 : 0 ≤ (Fns.sqrt (E * A) : ℝ) := Real.sqrt_nonneg _
  split_ifs with hc
  · simp only [planStill, fromPhasePlan, planLoop, List.replicate]
    linarith
  · have hvp0 : 0 < vp := not_le.1 hc
    set ta := vp / A with hta
    have hta0 : 0 < ta := by positivity
    have hAt : A * ta = vp := by rw [hta]; field_simp
    have hle2 : vp * vp ≤ E * A := by
      have : vp ≤ Fns.sqrt (E * A) := min_le_right _ _
      rw [← hsq]; nlinarith
    have hvta : vp * ta ≤ E := by
      rw [hta, ← mul_div_assoc, div_le_iff₀ hA]; exact hle2
    have hmax : max ((E - vp * ta) / vp) 0 = (E - vp * ta) / vp :=
      max_eq_left (div_nonneg (by linarith) hvp0.le)
    rw [hmax]
    set tc := (E - vp * ta) / vp with htc
    have hEc : vp * tc = E - vp * ta := by rw [htc]; field_simp
    have htc0 : 0 ≤ tc := div_nonneg (by linarith) hvp0.le
    have hsat : 0 < tc → vp = V := by
      intro hpos
      by_contra hne
      have h1 : vp = Fns.sqrt (E * A) := by
        rcases min_choice V (Fns.sqrt (E * A) : ℝ) with h2 | h2
        · exact absurd (hvp.trans h2) hne
        · exact hvp.trans h2
      have h2 : vp * vp = E * A := by rw [h1]; exact hsq
      have h3 : vp * ta = E := by rw [hta]; field_simp; linarith
      nlinarith
    simp only [fromPhasePlan, planLoop]
    clear_value tc ta vp
    by_contra hcon
    rw [not_le] at hcon
    have hm0 : 0 ≤ T / 2 := by linarith
    have hmT : T / 2 ≤ T := by linarith
    have b1 := half_bound (x := y) (v := w) (V := V) hA hta0.le hm0 hmT hyd (by simp [hy, hx0]) (by simp [hw, hv0])
      hwV hwl
    have b2 := half_bound (x := fun τ => E - y (T - τ)) (v := fun t => w (T - t)) (V := V) hA hta0.le hm0 hmT hzd
      (by simp [hyT]) (by simp [hw, hvT]) (fun t ht => hwV _ (hflip t ht))
      (fun s hs' t ht => by
        have := hwl _ (hflip s hs') _ (hflip t ht)
        rwa [show T - s - (T - t) = -(s - t) by ring, abs_neg] at this)
    have hhalf : T - T / 2 = T / 2 := by ring
    try dsimp only at b2
    rw [hhalf] at b2
    rcases le_total (T / 2) ta with hcase2 | hcase2
    · have h1 := b1.1 hcase2
      have h2 := b2.1 hcase2
      have h3 : E ≤ A * (T / 2) ^ 2 := by linarith
      have h4 : A * (T / 2) ^ 2 ≤ vp * ta := by
        rw [← hAt]; nlinarith [mul_le_mul hcase2 hcase2 hm0 hta0.le]
      have h5 : vp * tc ≤ 0 := by linarith
      have h6 : tc = 0 := by
        rcases htc0.eq_or_lt with h7 | h7
        · exact h7.symm
        · have := mul_pos hvp0 h7; linarith
      have h7 : T / 2 < ta := by linarith
      have h8 : A * (T / 2) ^ 2 < vp * ta := by
        rw [← hAt]; nlinarith [mul_lt_mul'' h7 h7 hm0 hm0]
      rw [h6, mul_zero] at hEc
      linarith
    · have h1 := b1.2 hcase2
      have h2 := b2.2 hcase2
      have h3 : 0 < tc := by linarith
      have h4 := hsat h3
      rw [← h4] at h1 h2
      have h5 : E ≤ vp * ta + 2 * (vp * (T / 2 - ta)) := by
        have : A * ta ^ 2 = vp * ta := by rw [← hAt]; ring
        linarith
      have h6 : vp * (T / 2 - ta) < vp * (tc / 2) := by
        apply mul_lt_mul_of_pos_left _ hvp0; linarith
      linarith

/-! ### Bounded jerk -/

theorem ramp_cap (v A J : ℝ) (hJ : 0 < J) :
    J * (accelerationRamp v A J).1 = A ∨ (accelerationRamp v A J).2 = 0 := by
  unfold accelerationRamp
  split_ifs with h
  · left; dsimp only; field_simp
  · right; rfl

/-- At the reachable speed the two ramps take up the whole distance. -/
theorem ramp_exact (D A J : ℝ) (hD : 0 < D) (hA : 0 < A) (hJ : 0 < J) (v : ℝ) (h : v = speedReachable D A J) :
    v * ((accelerationRamp v A J).1 + (accelerationRamp v A J).1 + (accelerationRamp v A J).2) = D := by
  have hv : 0 < v := by rw [h]; exact speedReachable_pos D A J hD hA hJ
  unfold speedReachable at h
  dsimp only at h
  set st := (Fns.cbrt (D * D * J / ((4 : ℕ) : ℝ)) : ℝ) with hst
  have hst3 : st ^ 3 = D * D * J / 4 := by rw [hst, cbrt_cube]; norm_num
  clear_value st
  unfold accelerationRamp
  split_ifs at h with hb
  · subst h
    rw [if_neg (not_le.2 hb)]
    dsimp only
    have hq : (Fns.sqrt (v / J) : ℝ) * Fns.sqrt (v / J) = v / J := Real.mul_self_sqrt (by positivity)
    have h0 : 0 ≤ (Fns.sqrt (v / J) : ℝ) := Real.sqrt_nonneg _
    set s := (Fns.sqrt (v / J) : ℝ) with hsdef
    clear_value s
    have h2 : J * (s * s) = v := by rw [hq]; field_simp
    have h4 : (2 * v * s) ^ 2 = D ^ 2 := by
      have : J * (2 * v * s) ^ 2 = J * D ^ 2 := by linear_combination (4 * v ^ 2) * h2 + 4 * hst3
      exact mul_left_cancel₀ hJ.ne' this
    have h5 : 2 * v * s = D := by
      rcases sq_eq_sq_iff_eq_or_eq_neg.1 h4 with h6 | h6
      · exact h6
      · have : 0 ≤ 2 * v * s := by positivity
        linarith
    linarith
  · set r := A * A / J with hr
    have hrr : r * J = A * A := by rw [hr]; field_simp
    have hr0 : 0 < r := by positivity
    set w := (Fns.sqrt (r * r + A * D * ((4 : ℕ) : ℝ)) : ℝ) with hw
    have hw2 : w * w = r * r + A * D * 4 := by
      have : (0 : ℝ) ≤ r * r + A * D * ((4 : ℕ) : ℝ) := by positivity
      rw [hw]; exact (Real.mul_self_sqrt this).trans (by norm_num)
    have hw0 : 0 ≤ w := Real.sqrt_nonneg _
    clear_value w
    push_cast at h
    rw [not_lt] at hb
    have hrst : r ≤ st := by
      rw [hr, div_le_iff₀ hJ]; exact hb
    have h3 : r ^ 3 ≤ D * D * J / 4 := by rw [← hst3]; exact pow_le_pow_left₀ hr0.le hrst 3
    have h4 : (2 * r * r) ^ 2 ≤ (A * D) ^ 2 := by
      have e : (A * D) ^ 2 = r * (D * D * J) := by linear_combination -(D ^ 2) * hrr
      rw [e]; nlinarith
    have h5 : 2 * r * r ≤ A * D := (abs_le_of_sq_le_sq' h4 (by positivity)).2
    have h6 : 3 * r ≤ w := by
      have : (3 * r) ^ 2 ≤ w ^ 2 := by nlinarith
      exact (abs_le_of_sq_le_sq' this hw0).2
    have h7 : r ≤ v := by linarith
    have h8 : A * A ≤ v * J := by rw [← hrr]; nlinarith
    rw [if_pos h8]
    have h9 : 0 ≤ v / A - A / J := by
      rw [sub_nonneg, div_le_div_iff₀ hJ hA]; exact h8
    dsimp only
    rw [max_eq_left h9]
    have h10 : w = 2 * v + r := by linarith
    have h11 : v * v + v * r = A * D := by rw [h10] at hw2; nlinarith
    have h12 : A * (v * (A / J + A / J + (v / A - A / J))) = v * v + v * r := by
      rw [hr]; field_simp; ring
    have := h12.trans h11
    exact mul_left_cancel₀ hA.ne' this

/-- The speed of the planned ramp: jerk up, hold, jerk down, then cruise. -/
noncomputable def rampSpeed (J tj th t : ℝ) : ℝ :=
  if t ≤ tj then J * t ^ 2 / 2
  else if t ≤ tj + th then J * tj ^ 2 / 2 + J * tj * (t - tj)
  else if t ≤ tj + tj + th then J * tj * (tj + th) - J * (tj + tj + th - t) ^ 2 / 2
  else J * tj * (tj + th)

theorem deriv_quad (c0 c1 c2 t0 t : ℝ) :
    HasDerivAt (fun τ : ℝ => c0 + c1 * (τ - t0) + c2 * (τ - t0) ^ 2 / 2) (c1 + c2 * (t - t0)) t := by
  have h1 := ((hasDerivAt_id t).sub_const t0)
  have := ((h1.const_mul c1).const_add c0).add (((h1.pow 2).const_mul c2).div_const 2)
  refine HasDerivAt.congr_deriv this ?_
  norm_num; try ring

theorem deriv_cubic (c0 c1 c2 c3 t0 t : ℝ) :
    HasDerivAt (fun τ : ℝ => c0 + c1 * (τ - t0) + c2 * (τ - t0) ^ 2 / 2 + c3 * (τ - t0) ^ 3 / 6)
      (c1 + c2 * (t - t0) + c3 * (t - t0) ^ 2 / 2) t := by
  have h1 := ((hasDerivAt_id t).sub_const t0)
  have := (((h1.const_mul c1).const_add c0).add (((h1.pow 2).const_mul c2).div_const 2)).add
    (((h1.pow 3).const_mul c3).div_const 6)
  refine HasDerivAt.congr_deriv this ?_
  norm_num; try ring

/-- A velocity whose acceleration stays under the planned one stays under the planned ramp. -/
theorem ramp_speed_bound {v a : ℝ → ℝ} {T J tj th m : ℝ} (htj : 0 ≤ tj) (hth : 0 ≤ th)
    (hm0 : 0 ≤ m) (hmT : m ≤ T) (hmr : m ≤ tj + tj + th)
    (hv : ∀ t ∈ Icc (0 : ℝ) T, HasDerivWithinAt v (a t) (Icc 0 T) t) (hv0 : v 0 = 0)
    (h1 : ∀ s, 0 ≤ s → s ≤ m → a s ≤ J * s)
    (h2 : ∀ s, 0 ≤ s → s ≤ m → tj ≤ s → s ≤ tj + th → a s ≤ J * tj)
    (h3 : ∀ s, 0 ≤ s → s ≤ m → tj + th ≤ s → a s ≤ J * (tj + tj + th - s)) :
    v m ≤ rampSpeed J tj th m := by
  have r1 : ∀ b, 0 ≤ b → b ≤ m → v b ≤ J * b ^ 2 / 2 := by
    intro b hb0 hb
    have := mv_le (f := v) (f' := a) hb0 (S := Icc 0 T) (Icc_subset_Icc le_rfl (hb.trans hmT))
      (fun t ht => hv t ⟨ht.1, (ht.2.trans hb).trans hmT⟩) (deriv_quad 0 0 J 0)
      (fun t ht => by
        have := h1 t ht.1 (ht.2.trans hb)
        linarith)
    rw [hv0] at this
    simpa using this
  have r2 : ∀ b, tj ≤ b → b ≤ tj + th → b ≤ m → v b ≤ J * tj ^ 2 / 2 + J * tj * (b - tj) := by
    intro b hb0 hb1 hb
    have e := r1 tj htj (hb0.trans hb)
    have := mv_le (f := v) (f' := a) hb0 (S := Icc 0 T) (Icc_subset_Icc htj (hb.trans hmT))
      (fun t ht => hv t ⟨htj.trans ht.1, (ht.2.trans hb).trans hmT⟩) (deriv_quad 0 (J * tj) 0 tj)
      (fun t ht => by
        have := h2 t (htj.trans ht.1) (ht.2.trans hb) ht.1 (ht.2.trans hb1)
        linarith)
    try dsimp only at this
    rw [sub_self] at this
    linarith
  unfold rampSpeed
  split_ifs with c1 c2
  · exact r1 m hm0 le_rfl
  · exact r2 m (not_le.1 c1).le c2 le_rfl
  · have hb0 := (not_le.1 c2).le
    have e := r2 (tj + th) (by linarith) le_rfl hb0
    have hn : 0 ≤ tj + th := by linarith
    have := mv_le (f := v) (f' := a) hb0 (S := Icc 0 T) (Icc_subset_Icc hn hmT)
      (fun t ht => hv t ⟨hn.trans ht.1, ht.2.trans hmT⟩) (deriv_quad 0 (J * tj) (-J) (tj + th))
      (fun t ht => by
        have := h3 t (hn.trans ht.1) ht.2 ht.1
        linarith)
    try dsimp only at this
    rw [sub_self] at this
    nlinarith

/-- A motion under the planned ramp covers less than half the distance before half the planned time. -/
theorem ramp_half_bound {x v : ℝ → ℝ} {T J tj th tc m : ℝ} (hJ : 0 < J) (htj : 0 < tj) (hth : 0 ≤ th)
    (htc : 0 ≤ tc) (hm0 : 0 ≤ m) (hmT : m ≤ T) (hm : m < tj + tj + th + tc / 2)
    (hx : ∀ t ∈ Icc (0 : ℝ) T, HasDerivWithinAt x (v t) (Icc 0 T) t) (hx0 : x 0 = 0)
    (hb : ∀ t, 0 ≤ t → t ≤ m → v t ≤ rampSpeed J tj th t) :
    x m < J * tj * (tj + th) * (tj + tj + th + tc) / 2 := by
  have hJt : 0 < J * tj := by positivity
  have hJ3 : 0 < J * tj ^ 3 := by positivity
  have r1 : ∀ b, 0 ≤ b → b ≤ m → b ≤ tj → x b ≤ J * b ^ 3 / 6 := by
    intro b hb0 hbm hbt
    have := mv_le (f := x) (f' := v) hb0 (S := Icc 0 T) (Icc_subset_Icc le_rfl (hbm.trans hmT))
      (fun t ht => hx t ⟨ht.1, (ht.2.trans hbm).trans hmT⟩) (deriv_cubic 0 0 0 J 0)
      (fun t ht => by
        have := hb t ht.1 (ht.2.trans hbm)
        unfold rampSpeed at this
        rw [if_pos (ht.2.trans hbt)] at this
        rw [sub_zero]; linarith)
    rw [hx0] at this
    simpa using this
  have r2 : ∀ b, tj ≤ b → b ≤ tj + th → b ≤ m →
      x b ≤ J * tj ^ 3 / 6 + J * tj ^ 2 / 2 * (b - tj) + J * tj * (b - tj) ^ 2 / 2 := by
    intro b hb0 hb1 hbm
    have e := r1 tj htj.le (hb0.trans hbm) le_rfl
    have := mv_le (f := x) (f' := v) hb0 (S := Icc 0 T) (Icc_subset_Icc htj.le (hbm.trans hmT))
      (fun t ht => hx t ⟨htj.le.trans ht.1, (ht.2.trans hbm).trans hmT⟩)
      (deriv_cubic 0 (J * tj ^ 2 / 2) (J * tj) 0 tj)
      (fun t ht => by
        have := hb t (htj.le.trans ht.1) (ht.2.trans hbm)
        unfold rampSpeed at this
        split_ifs at this with c1 c2
        · have e : t = tj := le_antisymm c1 ht.1
          rw [e] at this ⊢
          linarith
        · linarith
        · exact absurd (ht.2.trans hb1) c2
        · exact absurd (ht.2.trans hb1) c2)
    try dsimp only at this
    rw [sub_self] at this
    linarith
  have r3 : ∀ b, tj + th ≤ b → b ≤ tj + tj + th → b ≤ m →
      x b ≤ J * tj * (tj + th) * (tj + tj + th) / 2 - J * tj * (tj + th) * (tj + tj + th - b)
        + J * (tj + tj + th - b) ^ 3 / 6 := by
    intro b hb0 hb1 hbm
    have e := r2 (tj + th) (by linarith) le_rfl (hb0.trans hbm)
    have hn : 0 ≤ tj + th := by linarith
    have := mv_le (f := x) (f' := v) hb0 (S := Icc 0 T) (Icc_subset_Icc hn (hbm.trans hmT))
      (fun t ht => hx t ⟨hn.trans ht.1, (ht.2.trans hbm).trans hmT⟩)
      (deriv_cubic 0 (J * tj * (tj + th)) 0 (-J) (tj + tj + th))
      (fun t ht => by
        have := hb t (hn.trans ht.1) (ht.2.trans hbm)
        unfold rampSpeed at this
        have hte := ht.1
        split_ifs at this with c1 c2 c3
        · have e0 : th = 0 := by linarith
          have e1 : t = tj := by linarith
          rw [e1] at this ⊢
          rw [e0]
          nlinarith
        · have e1 : t = tj + th := le_antisymm c2 ht.1
          rw [e1] at this ⊢
          nlinarith
        · nlinarith
        · exact absurd (ht.2.trans hb1) c3)
    try dsimp only at this
    nlinarith
  have r4 : ∀ b, tj + tj + th ≤ b → b ≤ m →
      x b ≤ J * tj * (tj + th) * (tj + tj + th) / 2 + J * tj * (tj + th) * (b - (tj + tj + th)) := by
    intro b hb0 hbm
    have e := r3 (tj + tj + th) (by linarith) le_rfl (hb0.trans hbm)
    have hn : 0 ≤ tj + tj + th := by linarith
    have := mv_le (f := x) (f' := v) hb0 (S := Icc 0 T) (Icc_subset_Icc hn (hbm.trans hmT))
      (fun t ht => hx t ⟨hn.trans ht.1, (ht.2.trans hbm).trans hmT⟩)
      (deriv_cubic 0 (J * tj * (tj + th)) 0 0 (tj + tj + th))
      (fun t ht => by
        have := hb t (hn.trans ht.1) (ht.2.trans hbm)
        unfold rampSpeed at this
        have hte := ht.1
        rw [if_neg (by linarith), if_neg (by linarith)] at this
        split_ifs at this with c3
        · nlinarith [sq_nonneg (tj + tj + th - t)]
        · linarith)
    try dsimp only at this
    rw [sub_self] at this e
    linarith
  have hvp : 0 < J * tj * (tj + th) := by positivity
  rcases le_total m tj with c1 | c1
  · have h1 := r1 m hm0 le_rfl c1
    have h2 : m ^ 3 ≤ tj ^ 3 := pow_le_pow_left₀ hm0 c1 3
    have h3 : J * m ^ 3 ≤ J * tj ^ 3 := mul_le_mul_of_nonneg_left h2 hJ.le
    have h4 : J * tj ^ 3 ≤ J * tj * (tj + th) * (tj + tj + th + tc) / 2 := by
      have : 0 ≤ J * tj * (3 * tj * th + tj * tc + th * th + th * tc) := by positivity
      nlinarith
    linarith
  rcases le_total m (tj + th) with c2 | c2
  · have h1 := r2 m c1 c2 le_rfl
    set u := m - tj with hu
    have hu0 : 0 ≤ u := by linarith
    have hut : u ≤ th := by linarith
    have h2 : J * tj ^ 2 / 2 * u ≤ J * tj ^ 2 / 2 * th := by gcongr
    have h3 : J * tj * u ^ 2 ≤ J * tj * th ^ 2 := by gcongr
    have h4 : 0 ≤ J * tj * (2 * tj * th + tj * tc + th * tc) := by positivity
    nlinarith
  rcases le_total m (tj + tj + th) with c3 | c3
  · have h1 := r3 m c2 c3 le_rfl
    set r := tj + tj + th - m with hr
    have hr0 : 0 ≤ r := by linarith
    have hrt : r ≤ tj := by linarith
    have h2 : J * r ^ 3 ≤ J * tj * (tj + th) * r := by
      have e1 : r * r ≤ tj * (tj + th) := by nlinarith
      have : J * r * (r * r) ≤ J * r * (tj * (tj + th)) := mul_le_mul_of_nonneg_left e1 (by positivity)
      nlinarith
    have h3 : 0 ≤ J * tj * (tj + th) * r := by positivity
    have h4 : 0 ≤ J * tj * (tj + th) * tc := by positivity
    rcases hr0.eq_or_lt with h5 | h5
    · have : 0 < tc := by linarith
      have := mul_pos hvp this
      rw [← h5] at h1
      nlinarith
    · have := mul_pos hvp h5
      nlinarith
  · have h1 := r4 m c3 le_rfl
    have := mul_lt_mul_of_pos_left (show m - (tj + tj + th) < tc / 2 by linarith) hvp
    nlinarith

/-- The heart of the matter: a rival whose acceleration vanishes half-way, finishing sooner, falls short. -/
theorem jerk_half {x v a : ℝ → ℝ} {T V A J E vp tj th tc : ℝ} (hJ : 0 < J) (htj : 0 < tj) (hth : 0 ≤ th)
    (htc : 0 ≤ tc) (hT : 0 ≤ T) (hpk : J * tj * (tj + th) = vp) (hcap : J * tj = A ∨ th = 0)
    (hE : vp * (tj + tj + th + tc) = E) (hsat : vp = V ∨ tc = 0)
    (hlt : T / 2 < tj + tj + th + tc / 2)
    (hx : ∀ t ∈ Icc (0 : ℝ) T, HasDerivWithinAt x (v t) (Icc 0 T) t) (hx0 : x 0 = 0)
    (hv : ∀ t ∈ Icc (0 : ℝ) T, HasDerivWithinAt v (a t) (Icc 0 T) t) (hv0 : v 0 = 0)
    (hV : ∀ t ∈ Icc (0 : ℝ) T, v t ≤ V) (hA : ∀ t ∈ Icc (0 : ℝ) T, a t ≤ A)
    (hlip : ∀ s ∈ Icc (0 : ℝ) T, ∀ t ∈ Icc (0 : ℝ) T, |a s - a t| ≤ J * |s - t|)
    (ha0 : a 0 = 0) (haT : a T = 0) (hah : a (T / 2) = 0) : x (T / 2) < E / 2 := by
  have hm0 : 0 ≤ T / 2 := by linarith
  have hmT : T / 2 ≤ T := by linarith
  -- the acceleration grows and falls no faster than the jerk limit allows
  have hup : ∀ s t, 0 ≤ s → s ≤ t → t ≤ T → a t ≤ a s + J * (t - s) ∧ a s ≤ a t + J * (t - s) := by
    intro s t h0 h1 h2
    have := hlip s ⟨h0, h1.trans h2⟩ t ⟨h0.trans h1, h2⟩
    rw [abs_sub_comm s t, abs_of_nonneg (sub_nonneg.2 h1)] at this
    have := abs_le.1 this
    exact ⟨by linarith [this.1], by linarith [this.2]⟩
  have ha1 : ∀ s, 0 ≤ s → s ≤ T → a s ≤ J * s := by
    intro s h0 h1
    have := (hup 0 s le_rfl h0 h1).1
    rw [ha0] at this; linarith
  -- what suffices at one instant
  have key : ∀ t, 0 ≤ t → t ≤ T → t ≤ tj + tj + th → (tj + th ≤ t → a t ≤ J * (tj + tj + th - t)) →
      v t ≤ rampSpeed J tj th t := by
    intro t h0 h1 h2 h3
    have h3' : tj + th ≤ t → ∀ s, 0 ≤ s → s ≤ t → a s ≤ J * (tj + tj + th - s) := by
      intro hge s hs0 hst
      have := (hup s t hs0 hst h1).2
      have := h3 hge
      nlinarith
    refine ramp_speed_bound htj.le hth h0 h1 h2 hv hv0 (fun s hs0 hs1 => ha1 s hs0 (hs1.trans h1)) ?_ ?_
    · intro s hs0 hs1 hs2 hs3
      rcases hcap with hc | hc
      · rw [hc]; exact hA s ⟨hs0, hs1.trans h1⟩
      · have : s = tj := le_antisymm (by linarith) hs2
        have h4 := ha1 s hs0 (hs1.trans h1)
        rwa [this] at h4 ⊢
    · intro s hs0 hs1 hs2
      exact h3' (hs2.trans hs1) s hs0 hs1
  have hspeed : ∀ t, 0 ≤ t → t ≤ T / 2 → v t ≤ rampSpeed J tj th t := by
    intro t h0 h1
    have h1T : t ≤ T := h1.trans hmT
    rcases hsat with hs | hs
    · -- the speed limit is reached
      rcases lt_or_ge (tj + tj + th) t with h2 | h2
      · unfold rampSpeed
        rw [if_neg (by linarith), if_neg (by linarith), if_neg (by linarith), hpk, hs]
        exact hV t ⟨h0, h1T⟩
      · by_cases h3 : tj + th < t
        · by_contra hcon
          rw [not_le] at hcon
          have hval : rampSpeed J tj th t = vp - J * (tj + tj + th - t) ^ 2 / 2 := by
            unfold rampSpeed
            rw [if_neg (by linarith), if_neg (by linarith), if_pos h2, hpk]
          refine absurd (key t h0 h1T h2 fun _ => ?_) (not_le.2 hcon)
          rcases le_total T (tj + tj + th) with h4 | h4
          · have := (hup t T h0 h1T le_rfl).2
            rw [haT] at this
            nlinarith
          · by_contra hbig
            rw [not_le] at hbig
            have hmv := mv_le (f := fun τ => -v τ) (f' := fun τ => -a τ) h2 (S := Icc 0 T) (Icc_subset_Icc h0 h4)
              (fun s hs' => (hv s ⟨h0.trans hs'.1, hs'.2.trans h4⟩).neg) (deriv_quad 0 (-a t) J t)
              (fun s hs' => by
                have := (hup t s h0 hs'.1 (hs'.2.trans h4)).2
                linarith)
            simp only [sub_self] at hmv
            have hVr := hV (tj + tj + th) ⟨h0.trans h2, h4⟩
            rw [hval] at hcon
            set r := tj + tj + th - t with hr
            have hr0 : 0 ≤ r := by linarith
            have : J * r * r ≤ a t * r := mul_le_mul_of_nonneg_right hbig.le hr0
            nlinarith
        · refine key t h0 h1T h2 fun hge => ?_
          have : t = tj + th := le_antisymm (not_lt.1 h3) hge
          rcases hcap with hc | hc
          · have h5 := hA t ⟨h0, h1T⟩
            rw [this] at h5 ⊢; rw [← hc] at h5
            linarith
          · have h5 := ha1 t h0 h1T
            rw [this] at h5 ⊢; rw [hc] at h5 ⊢
            linarith
    · -- no cruise: the acceleration is back to zero half-way
      rw [hs] at hlt
      refine key t h0 h1T (by linarith) fun _ => ?_
      have := (hup t (T / 2) h0 h1 hmT).2
      rw [hah] at this
      nlinarith
  have := ramp_half_bound hJ htj hth htc hm0 hmT hlt hx hx0 hspeed
  rw [hpk, hE] at this
  exact this

/-- C91. No rest-to-rest motion over the same distance that respects the speed, acceleration and jerk limits
is faster than the jerk-limited profile. The rival is any twice differentiable motion whose acceleration is
Lipschitz with the jerk limit as constant, starting and ending with zero velocity and acceleration. -/
theorem jerk_time_optimal (planner : MotionProfilePlanner ℝ) (V A J D : ℝ) (p : MotionProfile ℝ)
    (hl : ProfileLimits.tryNew V A (some J) = .ok planner.limits) (hk : planner.strategy ≠ .trapezoidal)
    (h : planner.plan D = .ok p)
    (T : ℝ) (hT : 0 ≤ T) (x v a : ℝ → ℝ)
    (hx : ∀ t ∈ Icc (0 : ℝ) T, HasDerivWithinAt x (v t) (Icc 0 T) t)
    (hv : ∀ t ∈ Icc (0 : ℝ) T, HasDerivWithinAt v (a t) (Icc 0 T) t)
    (hx0 : x 0 = 0) (hxT : x T = D) (hv0 : v 0 = 0) (hvT : v T = 0) (ha0 : a 0 = 0) (haT : a T = 0)
    (hV : ∀ t ∈ Icc (0 : ℝ) T, |v t| ≤ V) (hA : ∀ t ∈ Icc (0 : ℝ) T, |a t| ≤ A)
    (hlip : ∀ s ∈ Icc (0 : ℝ) T, ∀ t ∈ Icc (0 : ℝ) T, |a s - a t| ≤ J * |s - t|) :
    p.duration ≤ T := by
  obtain ⟨hlim, hVpos, hApos, hJpos⟩ := limits_tryNew V A _ _ hl
  have hJ := hJpos J rfl
  obtain ⟨sign, hs, hsD, J', -, hcase⟩ := plan_good planner V A D _ p hl h
  have hp : p = planJerkLimited |D| ⟨V, A, some J⟩ J sign := by
    rcases hcase with ⟨h1, -⟩ | ⟨J2, h1, h2, h3, -⟩
    · rcases h1 with h1 | h1
      · exact absurd h1 hk
      · cases h1
    · cases h2; rw [h3, hlim]
  have habs : |sign| = 1 := by
    rw [← abs_mul_abs_self] at hs
    nlinarith [abs_nonneg sign]
  have hDs : sign * D = |D| := by rw [← hsD, ← mul_assoc, hs, one_mul, abs_mul, habs, one_mul, abs_abs]
  generalize hE : |D| = E at *
  have hE0 : 0 ≤ E := by rw [← hE]; exact abs_nonneg D
  have hflip : ∀ t ∈ Icc (0 : ℝ) T, T - t ∈ Icc (0 : ℝ) T := fun t ht => ⟨by linarith [ht.2], by linarith [ht.1]⟩
  rw [hp]
  unfold planJerkLimited
  dsimp only
  set vp := min V (speedReachable E A J) with hvp
  split_ifs with hc
  · simp only [planStill, fromPhasePlan, planLoop, List.replicate]
    linarith
  · have hvp0 : 0 < vp := not_le.1 hc
    have hEpos : 0 < E := by
      have hle := ramp_fits E vp A J hE0 hvp0 hApos hJ (min_le_right _ _)
      obtain ⟨ht0, hh0, hpk, -⟩ := ramp_spec vp A J hvp0 hApos hJ
      have : 0 < (accelerationRamp vp A J).1 := by
        rcases ht0.eq_or_lt with h1 | h1
        · rw [← h1] at hpk; linarith
        · exact h1
      have : 0 < vp * ((accelerationRamp vp A J).1 + (accelerationRamp vp A J).1 + (accelerationRamp vp A J).2) := by
        positivity
      linarith
    have hexact : vp = V ∨ vp * ((accelerationRamp vp A J).1 + (accelerationRamp vp A J).1
        + (accelerationRamp vp A J).2) = E := by
      rcases min_choice V (speedReachable E A J) with h2 | h2
      · exact .inl (hvp.trans h2)
      · exact .inr (ramp_exact E A J hEpos hApos hJ vp (hvp.trans h2))
    have hfit := ramp_fits E vp A J hE0 hvp0 hApos hJ (min_le_right _ _)
    obtain ⟨ht0, hh0, hpk, -⟩ := ramp_spec vp A J hvp0 hApos hJ
    have hcap := ramp_cap vp A J hJ
    set tj := (accelerationRamp vp A J).1 with htj
    set th := (accelerationRamp vp A J).2 with hth
    have hc0 : 0 ≤ (E - vp * (tj + tj + th)) / vp := div_nonneg (by linarith) hvp0.le
    rw [max_eq_left hc0]
    set tc := (E - vp * (tj + tj + th)) / vp with htc
    have hEc : vp * tc = E - vp * (tj + tj + th) := by rw [htc]; field_simp
    simp only [fromPhasePlan, planLoop]
    clear_value tc tj th vp
    have htj0 : 0 < tj := by
      rcases ht0.eq_or_lt with h1 | h1
      · rw [← h1] at hpk; linarith
      · exact h1
    by_contra hcon
    rw [not_le] at hcon
    -- the rival averaged with its own reversal
    set y : ℝ → ℝ := fun t => (sign * x t + (E - sign * x (T - t))) / 2 with hy
    set w : ℝ → ℝ := fun t => (sign * v t + sign * v (T - t)) / 2 with hw
    set b : ℝ → ℝ := fun t => (sign * a t - sign * a (T - t)) / 2 with hb
    have hyd : ∀ t ∈ Icc (0 : ℝ) T, HasDerivWithinAt y (w t) (Icc 0 T) t := by
      intro t ht
      have := ((hx t ht).const_mul sign).add (((reverse_deriv hx t ht).const_mul sign).const_sub E) |>.div_const 2
      refine HasDerivWithinAt.congr_deriv this ?_
      rw [hw]; dsimp only; ring
    have hwd : ∀ t ∈ Icc (0 : ℝ) T, HasDerivWithinAt w (b t) (Icc 0 T) t := by
      intro t ht
      have := ((hv t ht).const_mul sign).add ((reverse_deriv hv t ht).const_mul sign) |>.div_const 2
      refine HasDerivWithinAt.congr_deriv this ?_
      rw [hb]; dsimp only; ring
    have hsle : ∀ z B : ℝ, |z| ≤ B → sign * z ≤ B ∧ -(sign * z) ≤ B := by
      intro z B hz
      have : |sign * z| ≤ B := by rw [abs_mul, habs, one_mul]; exact hz
      exact ⟨(le_abs_self _).trans this, (neg_le_abs _).trans this⟩
    have hhalf : T - T / 2 = T / 2 := by ring
    have hfinal := jerk_half (x := y) (v := w) (a := b) (T := T) (V := V) (A := A) (J := J) (E := E) (vp := vp)
      (tj := tj) (th := th) (tc := tc) hJ htj0 hh0 hc0 hT hpk hcap (by linarith)
      (by
        rcases hexact with h1 | h1
        · exact .inl h1
        · right
          rw [h1, sub_self] at hEc
          rcases mul_eq_zero.1 hEc with h2 | h2
          · linarith
          · exact h2)
      (by linarith) hyd (by rw [hy]; simp [hx0, hxT, hDs]) hwd (by rw [hw]; simp [hv0, hvT])
      (fun t ht => by
        have h1 := (hsle _ _ (hV t ht)).1
        have h2 := (hsle _ _ (hV _ (hflip t ht))).1
        rw [hw]; dsimp only; linarith)
      (fun t ht => by
        have h1 := (hsle _ _ (hA t ht)).1
        have h2 := (hsle _ _ (hA _ (hflip t ht))).2
        rw [hb]; dsimp only; linarith)
      (fun s hs' t ht => by
        have h1 := hlip s hs' t ht
        have h2 := hlip _ (hflip s hs') _ (hflip t ht)
        rw [show T - s - (T - t) = -(s - t) by ring, abs_neg] at h2
        have e : b s - b t = sign * ((a s - a t) - (a (T - s) - a (T - t))) / 2 := by rw [hb]; dsimp only; ring
        rw [e, abs_div, abs_mul, habs, one_mul, abs_two]
        have := abs_sub (a s - a t) (a (T - s) - a (T - t))
        linarith)
      (by rw [hb]; simp [ha0, haT]) (by rw [hb]; simp [ha0, haT]) (by rw [hb]; dsimp only; rw [hhalf]; ring)
    rw [hy] at hfinal
    dsimp only at hfinal
    rw [hhalf] at hfinal
    linarith

/-- A rival for each theorem: a smooth motion within limits that reaches the target in two seconds. -/
example : ∃ x v : ℝ → ℝ, (∀ t ∈ Icc (0 : ℝ) 2, HasDerivWithinAt x (v t) (Icc 0 2) t) ∧ x 0 = 0 ∧ x 2 = 4 / 3
    ∧ v 0 = 0 ∧ v 2 = 0 ∧ (∀ t ∈ Icc (0 : ℝ) 2, |v t| ≤ 1)
    ∧ (∀ s ∈ Icc (0 : ℝ) 2, ∀ t ∈ Icc (0 : ℝ) 2, |v s - v t| ≤ 2 * |s - t|) := by
  refine ⟨fun t => 0 + 0 * (t - 0) + 2 * (t - 0) ^ 2 / 2 + (-2) * (t - 0) ^ 3 / 6,
    fun t => 0 + 2 * (t - 0) + (-2) * (t - 0) ^ 2 / 2,
    fun t _ => (deriv_cubic 0 0 2 (-2) 0 t).hasDerivWithinAt, by norm_num, by norm_num, by norm_num, by norm_num,
    fun t ht => ?_, fun s hs t ht => ?_⟩
  · rw [abs_le]; constructor <;> nlinarith [ht.1, ht.2, sq_nonneg (t - 1)]
  · have e : (0 + 2 * (s - 0) + (-2) * (s - 0) ^ 2 / 2) - (0 + 2 * (t - 0) + (-2) * (t - 0) ^ 2 / 2)
        = (2 - s - t) * (s - t) := by ring
    rw [e, abs_mul]
    refine mul_le_mul_of_nonneg_right ?_ (abs_nonneg _)
    rw [abs_le]
    exact ⟨by linarith [hs.2, ht.2], by linarith [hs.1, ht.1]⟩

end Multicalc
