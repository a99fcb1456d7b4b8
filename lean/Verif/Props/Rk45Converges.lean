import Verif.Props.Rk4Converges
import Verif.Props.Rk45

/-!
# Property C121: the adaptive solver converges to the solution as its largest step shrinks
-/

namespace Multicalc
open Matrix
variable {n : ℕ}

private theorem combination_le (a : Fin 7 → ℝ) (w : ℝ) (ha : ∑ j, |a j| ≤ w) (X : Fin 7 → Fin n → ℝ) :
    ‖(fun k => ∑ j, a j * X j k : Fin n → ℝ)‖ ≤ w * ‖X‖ := by
  have hw : 0 ≤ w := (Finset.sum_nonneg fun j _ => abs_nonneg _).trans ha
  refine (pi_norm_le_iff_of_nonneg (mul_nonneg hw (norm_nonneg _))).2 fun k => ?_
  calc ‖∑ j, a j * X j k‖ ≤ ∑ j, ‖a j * X j k‖ := norm_sum_le _ _
    _ ≤ ∑ j, |a j| * ‖X‖ := by
        refine Finset.sum_le_sum fun j _ => ?_
        rw [norm_mul]
        exact mul_le_mul_of_nonneg_left ((norm_le_pi_norm (X j) k).trans (norm_le_pi_norm X j)) (abs_nonneg _)
    _ = (∑ j, |a j|) * ‖X‖ := by rw [Finset.sum_mul]
    _ ≤ w * ‖X‖ := mul_le_mul_of_nonneg_right ha (norm_nonneg _)

theorem dopri_row_sums (i : Fin 7) : ∑ j, |(dopriA i j : ℝ)| ≤ 25 := by
  have : ∑ j, |dopriA i j| ≤ 25 := by
    fin_cases i <;> simp [dopriA, Fin.sum_univ_succ, Dopri.a21, Dopri.a31,
      Dopri.a32, Dopri.a41, Dopri.a42, Dopri.a43, Dopri.a51, Dopri.a52, Dopri.a53, Dopri.a54,
      Dopri.a61, Dopri.a62, Dopri.a63, Dopri.a64, Dopri.a65, Dopri.weight1, Dopri.weight3,
      Dopri.weight4, Dopri.weight5, Dopri.weight6, abs_div, abs_neg] <;> norm_num [abs_of_pos, abs_of_neg]
  exact_mod_cast this

theorem dopri_weight_sums : ∑ j, |(dopriB j : ℝ)| ≤ 2 ∧ ∑ j, (dopriB j : ℝ) = 1 := by
  have h1 : ∑ j, |dopriB j| ≤ 2 := by
    simp [dopriB, Fin.sum_univ_succ, Dopri.weight1, Dopri.weight3, Dopri.weight4, Dopri.weight5, Dopri.weight6,
      abs_div, abs_neg]
    norm_num [abs_of_pos, abs_of_neg]
  have h2 : ∑ j, dopriB j = 1 := by
    simp [dopriB, Fin.sum_univ_succ, Dopri.weight1, Dopri.weight3, Dopri.weight4, Dopri.weight5, Dopri.weight6]
    norm_num
  exact ⟨by exact_mod_cast h1, by exact_mod_cast h2⟩

theorem dopri_nodes (i : Fin 7) : 0 ≤ (dopriC i : ℝ) ∧ (dopriC i : ℝ) ≤ 1 := by
  have : 0 ≤ dopriC i ∧ dopriC i ≤ 1 := by
    fin_cases i <;> simp [dopriC, Dopri.node2, Dopri.node3, Dopri.node4, Dopri.node5] <;> norm_num
  exact ⟨by exact_mod_cast this.1, by exact_mod_cast this.2⟩

/-- One Dormand–Prince step spreads two states apart by at most `exp (4 h L)`. -/
theorem dopriStep_lipschitz (f : ℝ → (Fin n → ℝ) → (Fin n → ℝ)) (L : ℝ) (hL : 0 ≤ L)
    (hf : ∀ t y z, ‖f t y - f t z‖ ≤ L * ‖y - z‖) (t h : ℝ) (hh : 0 ≤ h) (hs : h * L ≤ 1 / 50) (y z : Fin n → ℝ) :
    ‖(dopriStep f t y h (f t y)).1 - (dopriStep f t z h (f t z)).1‖ ≤ Real.exp (4 * (h * L)) * ‖y - z‖ := by
  obtain ⟨P, hP, eP, -⟩ := dopri_is_rungeKutta f t h y
  obtain ⟨Q, hQ, eQ, -⟩ := dopri_is_rungeKutta f t h z
  have hD := norm_nonneg (P - Q)
  have hd := norm_nonneg (y - z)
  have hstage : ‖P - Q‖ ≤ L * (‖y - z‖ + h * (25 * ‖P - Q‖)) := by
    refine (pi_norm_le_iff_of_nonneg (by positivity)).2 fun i => ?_
    rw [Pi.sub_apply, hP i, hQ i]
    refine (hf _ _ _).trans (mul_le_mul_of_nonneg_left ?_ hL)
    have e : ((fun k => y k + h * ∑ j, (dopriA i j : ℝ) * P j k) - fun k => z k + h * ∑ j, (dopriA i j : ℝ) * Q j k) =
        (y - z) + h • (fun k => ∑ j, (dopriA i j : ℝ) * (P - Q) j k) := by
      funext k
      simp only [Pi.sub_apply, Pi.add_apply, Pi.smul_apply, smul_eq_mul, mul_sub, Finset.sum_sub_distrib]
      ring
    rw [e]
    refine (norm_add_le _ _).trans (add_le_add le_rfl ?_)
    rw [norm_smul, Real.norm_of_nonneg hh]
    exact mul_le_mul_of_nonneg_left (combination_le _ 25 (dopri_row_sums i) _) hh
  have h2 : ‖P - Q‖ ≤ 2 * L * ‖y - z‖ := by
    have : h * L * ‖P - Q‖ ≤ 1 / 50 * ‖P - Q‖ := mul_le_mul_of_nonneg_right hs hD
    nlinarith
  have e : (dopriStep f t y h (f t y)).1 - (dopriStep f t z h (f t z)).1 =
      (y - z) + h • (fun k => ∑ j, (dopriB j : ℝ) * (P - Q) j k) := by
    rw [eP, eQ]
    funext k
    simp only [Pi.sub_apply, Pi.add_apply, Pi.smul_apply, smul_eq_mul, mul_sub, Finset.sum_sub_distrib]
    ring
  rw [e]
  calc _ ≤ ‖y - z‖ + h * (2 * ‖P - Q‖) := by
        refine (norm_add_le _ _).trans (add_le_add le_rfl ?_)
        rw [norm_smul, Real.norm_of_nonneg hh]
        exact mul_le_mul_of_nonneg_left (combination_le _ 2 dopri_weight_sums.1 _) hh
    _ ≤ ‖y - z‖ + h * (2 * (2 * L * ‖y - z‖)) := by gcongr
    _ = (4 * (h * L) + 1) * ‖y - z‖ := by ring
    _ ≤ _ := mul_le_mul_of_nonneg_right (Real.add_one_le_exp _) hd

/-- What one Dormand–Prince step started on the solution leaves out. -/
theorem dopri_local (f : ℝ → (Fin n → ℝ) → (Fin n → ℝ)) (L K M : ℝ) (hL : 0 ≤ L) (hK : 0 ≤ K)
    (hf : ∀ t s y z, ‖f t y - f s z‖ ≤ L * ‖y - z‖ + K * |t - s|) (y : ℝ → Fin n → ℝ) (t h : ℝ) (hh : 0 ≤ h)
    (hy : ∀ s ∈ Set.Icc t (t + h), HasDerivWithinAt y (f s (y s)) (Set.Icc t (t + h)) s)
    (hM : ∀ s ∈ Set.Icc t (t + h), ‖f s (y s)‖ ≤ M) (hs : h * L ≤ 1 / 50) :
    ‖(dopriStep f t (y t) h (f t (y t))).1 - y (t + h)‖ ≤ 5 * (K + 25 * L * M) * h ^ 2 := by
  obtain ⟨P, hP, eP, -⟩ := dopri_is_rungeKutta f t h (y t)
  have ht : t ∈ Set.Icc t (t + h) := ⟨le_rfl, by linarith⟩
  have hM0 : 0 ≤ M := (norm_nonneg _).trans (hM t ht)
  set k₁ := f t (y t) with e1
  set Q : Fin 7 → Fin n → ℝ := fun _ => k₁ with hQ
  have hQn : ‖Q‖ ≤ M := (pi_norm_le_iff_of_nonneg hM0).2 fun _ => hM t ht
  have hPn : ‖P‖ ≤ M + ‖P - Q‖ := by
    have := norm_add_le (P - Q) Q
    rw [sub_add_cancel] at this
    linarith
  have hD := norm_nonneg (P - Q)
  have hstage : ‖P - Q‖ ≤ L * (h * (25 * (M + ‖P - Q‖))) + K * h := by
    refine (pi_norm_le_iff_of_nonneg (by positivity)).2 fun i => ?_
    have hc := dopri_nodes i
    rw [Pi.sub_apply, hP i, hQ, e1]
    refine (hf _ _ _ _).trans (add_le_add (mul_le_mul_of_nonneg_left ?_ hL) ?_)
    · have e : ((fun k => y t k + h * ∑ j, (dopriA i j : ℝ) * P j k) - y t) =
          h • (fun k => ∑ j, (dopriA i j : ℝ) * P j k) := by
        funext k
        simp
      rw [e, norm_smul, Real.norm_of_nonneg hh]
      refine mul_le_mul_of_nonneg_left ((combination_le _ 25 (dopri_row_sums i) _).trans ?_) hh
      exact mul_le_mul_of_nonneg_left hPn (by norm_num)
    · rw [add_sub_cancel_left, abs_of_nonneg (mul_nonneg hc.1 hh)]
      exact mul_le_mul_of_nonneg_left (mul_le_of_le_one_left hh hc.2) hK
  have h2 : ‖P - Q‖ ≤ 2 * (K + 25 * L * M) * h := by
    have : h * L * ‖P - Q‖ ≤ 1 / 50 * ‖P - Q‖ := mul_le_mul_of_nonneg_right hs hD
    nlinarith
  -- the solution itself, by the same estimate as for RK4
  have hD0 : 0 ≤ K + L * M := by positivity
  have hmove : ∀ s ∈ Set.Icc t (t + h), ‖y s - y t‖ ≤ M * (s - t) := by
    intro s hs'
    have := (convex_Icc t (t + h)).norm_image_sub_le_of_norm_hasDerivWithin_le hy hM ht hs'
    rwa [Real.norm_of_nonneg (by linarith [hs'.1])] at this
  have hrate : ∀ s ∈ Set.Icc t (t + h), ‖f s (y s) - k₁‖ ≤ (K + L * M) * h := by
    intro s hs'
    rw [e1]
    refine (hf _ _ _ _).trans ?_
    rw [abs_of_nonneg (by linarith [hs'.1] : 0 ≤ s - t)]
    have h1 := mul_le_mul_of_nonneg_left (hmove s hs') hL
    have h2 : s - t ≤ h := by linarith [hs'.2]
    calc _ ≤ L * (M * (s - t)) + K * (s - t) := by linarith
      _ = (K + L * M) * (s - t) := by ring
      _ ≤ (K + L * M) * h := mul_le_mul_of_nonneg_left h2 hD0
  have hexact : ‖y (t + h) - y t - h • k₁‖ ≤ (K + L * M) * h * h := by
    have hg : ∀ s ∈ Set.Icc t (t + h), HasDerivWithinAt (fun s => y s - (s - t) • k₁) (f s (y s) - k₁)
        (Set.Icc t (t + h)) s := by
      intro s hs'
      have h1 : HasDerivWithinAt (fun s : ℝ => (s - t) • k₁) ((1 : ℝ) • k₁) (Set.Icc t (t + h)) s :=
        ((hasDerivWithinAt_id s _).sub_const t).smul_const k₁
      have h2 := (hy s hs').sub h1
      rw [one_smul] at h2
      exact h2
    have := (convex_Icc t (t + h)).norm_image_sub_le_of_norm_hasDerivWithin_le hg hrate ht ⟨by linarith, le_rfl⟩
    rw [Real.norm_of_nonneg (by linarith)] at this
    have e : y (t + h) - (t + h - t) • k₁ - (y t - (t - t) • k₁) = y (t + h) - y t - h • k₁ := by
      rw [sub_self, zero_smul, add_sub_cancel_left]; abel
    rw [e, add_sub_cancel_left] at this
    exact this
  have key : (dopriStep f t (y t) h k₁).1 - y (t + h) = h • (fun k => ∑ j, (dopriB j : ℝ) * (P - Q) j k) -
      (y (t + h) - y t - h • k₁) := by
    rw [eP]
    funext k
    simp only [Pi.sub_apply, Pi.smul_apply, smul_eq_mul, mul_sub, Finset.sum_sub_distrib, hQ]
    rw [← Finset.sum_mul, dopri_weight_sums.2]
    ring
  rw [key]
  have hb : ‖h • (fun k => ∑ j, (dopriB j : ℝ) * (P - Q) j k)‖ ≤ h * (2 * (2 * (K + 25 * L * M) * h)) := by
    rw [norm_smul, Real.norm_of_nonneg hh]
    refine mul_le_mul_of_nonneg_left ((combination_le _ 2 dopri_weight_sums.1 _).trans ?_) hh
    exact mul_le_mul_of_nonneg_left h2 (by norm_num)
  have hlm : 0 ≤ L * M * h ^ 2 := by positivity
  calc _ ≤ h * (2 * (2 * (K + 25 * L * M) * h)) + (K + L * M) * h * h := (norm_sub_le _ _).trans (add_le_add hb hexact)
    _ ≤ _ := by nlinarith

/-- C121. The adaptive solver converges as its largest step shrinks, on every differential equation with a
Lipschitz right-hand side: whatever the tolerances, whether or not the run succeeds, every accepted state
differs from the solution at that time by at most a constant times `max_step`, the constant depending only on
the equation and the elapsed time. On success the returned state is one of them, at a time within the end
test of the final time. -/
theorem rk45_converges (cfg : Rk45 ℝ) (f : ℝ → (Fin n → ℝ) → (Fin n → ℝ)) (L K M : ℝ) (hL : 0 ≤ L) (hK : 0 ≤ K)
    (hf : ∀ t s y z, ‖f t y - f s z‖ ≤ L * ‖y - z‖ + K * |t - s|) (y : ℝ → Fin n → ℝ) (t₀ tf : ℝ) (htf : t₀ < tf)
    (hy : ∀ s ∈ Set.Icc t₀ tf, HasDerivWithinAt y (f s (y s)) (Set.Icc t₀ tf) s)
    (hM : ∀ s ∈ Set.Icc t₀ tf, ‖f s (y s)‖ ≤ M) (hm : 0 < cfg.maxStep) (hs : cfg.maxStep * L ≤ 1 / 50) :
    (∀ st ∈ (forEachStep cfg f t₀ (y t₀) tf).1, ‖st.stateEnd - y st.timeEnd‖ ≤
      5 * (K + 25 * L * M) * (st.timeEnd - t₀) * Real.exp (4 * L * (st.timeEnd - t₀)) * cfg.maxStep) ∧
    ∀ r, rk45Solve cfg f t₀ (y t₀) tf = .ok r → ∃ t ∈ Set.Icc t₀ tf, AtEnd tf t ∧
      ‖r - y t‖ ≤ 5 * (K + 25 * L * M) * (t - t₀) * Real.exp (4 * L * (t - t₀)) * cfg.maxStep := by
  set C := 5 * (K + 25 * L * M) with hC
  set H := cfg.maxStep with hH
  have hM0 : 0 ≤ M := (norm_nonneg _).trans (hM t₀ ⟨le_rfl, htf.le⟩)
  have hC0 : 0 ≤ C := by positivity
  have hlip : ∀ t y z, ‖f t y - f t z‖ ≤ L * ‖y - z‖ := by
    intro t y z; have := hf t t y z; simpa using this
  obtain ⟨-, -, hchain, hhead, -, hok, -⟩ := rk45_steps cfg f t₀ (y t₀) tf
  have hmono := rk45_no_overshoot cfg f t₀ (y t₀) tf hm
  have hstep : ∀ st ∈ (forEachStep cfg f t₀ (y t₀) tf).1,
      ‖st.stateStart - y st.timeStart‖ ≤ C * (st.timeStart - t₀) * Real.exp (4 * L * (st.timeStart - t₀)) * H →
      ‖st.stateEnd - y st.timeEnd‖ ≤ C * (st.timeEnd - t₀) * Real.exp (4 * L * (st.timeEnd - t₀)) * H := by
    intro st hst hstart
    obtain ⟨b1, b2, b3, -, b5⟩ := hmono st hst
    rcases b2 with ⟨c1, c2, c3⟩ | ⟨c1, c2, c3⟩
    swap
    · exact absurd (c1.trans (c2.le.trans c3)) (not_le.2 htf)
    set h := st.timeEnd - st.timeStart with hh
    have hh0 : 0 ≤ h := by rw [hh]; linarith
    have hhH : h ≤ H := by rw [abs_of_nonneg hh0] at b1; exact b1
    have e : st.timeEnd = st.timeStart + h := by rw [hh]; ring
    have hhL : h * L ≤ 1 / 50 := (mul_le_mul_of_nonneg_right hhH hL).trans hs
    have hsub : Set.Icc st.timeStart (st.timeStart + h) ⊆ Set.Icc t₀ tf :=
      Set.Icc_subset_Icc c1 (by rw [← e]; exact c3)
    have hloc := dopri_local f L K M hL hK hf y st.timeStart h hh0
      (fun s hs' => (hy s (hsub hs')).mono hsub) (fun s hs' => hM s (hsub hs')) hhL
    have hl := dopriStep_lipschitz f L hL hlip st.timeStart h hh0 hhL st.stateStart (y st.timeStart)
    rw [b3] at b5
    rw [b5, e]
    have htri : (dopriStep f st.timeStart st.stateStart h (f st.timeStart st.stateStart)).1 - y (st.timeStart + h) =
        ((dopriStep f st.timeStart st.stateStart h (f st.timeStart st.stateStart)).1 -
          (dopriStep f st.timeStart (y st.timeStart) h (f st.timeStart (y st.timeStart))).1) +
        ((dopriStep f st.timeStart (y st.timeStart) h (f st.timeStart (y st.timeStart))).1 - y (st.timeStart + h)) := by
      abel
    rw [htri]
    refine (norm_add_le _ _).trans ?_
    have h1 := hl.trans (mul_le_mul_of_nonneg_left hstart (Real.exp_pos _).le)
    have hexp : Real.exp (4 * (h * L)) * Real.exp (4 * L * (st.timeStart - t₀)) =
        Real.exp (4 * L * (st.timeStart + h - t₀)) := by
      rw [← Real.exp_add]; congr 1; ring
    have hone : 1 ≤ Real.exp (4 * L * (st.timeStart + h - t₀)) := by
      refine Real.one_le_exp (mul_nonneg (by positivity) (by linarith))
    have h3 : Real.exp (4 * (h * L)) * (C * (st.timeStart - t₀) * Real.exp (4 * L * (st.timeStart - t₀)) * H) =
        C * (st.timeStart - t₀) * Real.exp (4 * L * (st.timeStart + h - t₀)) * H := by
      rw [← hexp]; ring
    rw [h3] at h1
    generalize Real.exp (4 * L * (st.timeStart + h - t₀)) = E at h1 hone ⊢
    have h4 : C * h ^ 2 ≤ C * h * H * E := by
      have a : C * h * h ≤ C * h * H := mul_le_mul_of_nonneg_left hhH (mul_nonneg hC0 hh0)
      have b : C * h * H * 1 ≤ C * h * H * E :=
        mul_le_mul_of_nonneg_left hone (mul_nonneg (mul_nonneg hC0 hh0) hm.le)
      nlinarith
    refine (add_le_add h1 (hloc.trans h4)).trans (le_of_eq ?_)
    ring
  have hall : ∀ (l : List (OdeStep n ℝ)), (∀ st ∈ l, st ∈ (forEachStep cfg f t₀ (y t₀) tf).1) → l.IsChain Follows →
      (∀ st ∈ l.head?, ‖st.stateStart - y st.timeStart‖ ≤
        C * (st.timeStart - t₀) * Real.exp (4 * L * (st.timeStart - t₀)) * H) →
      ∀ st ∈ l, ‖st.stateEnd - y st.timeEnd‖ ≤ C * (st.timeEnd - t₀) * Real.exp (4 * L * (st.timeEnd - t₀)) * H := by
    intro l
    induction l with
    | nil => simp
    | cons a l ih =>
      intro hmem hch hhd st hst
      have ha := hstep a (hmem a (by simp)) (hhd a (by simp))
      rcases List.mem_cons.1 hst with rfl | hst
      · exact ha
      · rw [List.isChain_cons] at hch
        refine ih (fun s hs => hmem s (List.mem_cons_of_mem _ hs)) hch.2 (fun s hs => ?_) st hst
        obtain ⟨e1, e2, -⟩ := hch.1 s hs
        rw [e1, e2]
        exact ha
  have hres := hall _ (fun _ h => h) hchain (fun st hst => by
    obtain ⟨e1, e2, -⟩ := hhead st hst
    rw [e1, e2]
    simp)
  refine ⟨hres, fun r hr => ?_⟩
  obtain ⟨init, last, e1, e2, e3, -⟩ := hok r hr
  have hlast : last ∈ (forEachStep cfg f t₀ (y t₀) tf).1 := by rw [e1]; simp
  obtain ⟨-, b2, -⟩ := hmono last hlast
  rcases b2 with ⟨c1, c2, c3⟩ | ⟨c1, c2, c3⟩
  · exact ⟨last.timeEnd, ⟨c1.trans c2.le, c3⟩, e3, by rw [← e2]; exact hres last hlast⟩
  · exact absurd (c1.trans (c2.le.trans c3)) (not_le.2 htf)

/-- The hypotheses hold of `y' = y` with solution `exp`, started at `1`. -/
example (cfg : Rk45 ℝ) (hm : 0 < cfg.maxStep) (hs : cfg.maxStep ≤ 1 / 50) :
    ∀ st ∈ (forEachStep cfg (fun _ y => y) 0 (fun _ : Fin 1 => Real.exp 0) 1).1,
      ‖st.stateEnd - fun _ => Real.exp st.timeEnd‖ ≤
        5 * (0 + 25 * 1 * Real.exp 1) * (st.timeEnd - 0) * Real.exp (4 * 1 * (st.timeEnd - 0)) * cfg.maxStep :=
  (rk45_converges cfg (n := 1) (fun _ y => y) 1 0 (Real.exp 1) zero_le_one le_rfl
    (fun t s y z => by simp) (fun t _ => Real.exp t) 0 1 zero_lt_one
    (fun s _ => by
      rw [hasDerivWithinAt_pi]; intro i; exact (Real.hasDerivAt_exp s).hasDerivWithinAt)
    (fun s hs => by
      refine (pi_norm_le_iff_of_nonneg (Real.exp_pos _).le).2 fun i => ?_
      rw [Real.norm_of_nonneg (Real.exp_pos _).le]
      exact Real.exp_le_exp.2 hs.2) hm (by linarith)).1

/-- C121. So do the values written by `solve_on_grid`, at every requested time and not only where the solver
stepped: each is within a constant times `max_step` of the solution there. -/
theorem rk45_grid_converges (cfg : Rk45 ℝ) (f : ℝ → (Fin n → ℝ) → (Fin n → ℝ)) (L K M : ℝ) (hL : 0 ≤ L) (hK : 0 ≤ K)
    (hf : ∀ t s y z, ‖f t y - f s z‖ ≤ L * ‖y - z‖ + K * |t - s|) (y : ℝ → Fin n → ℝ) (t₀ tf : ℝ) (htf : t₀ < tf)
    (hy : ∀ s ∈ Set.Icc t₀ tf, HasDerivWithinAt y (f s (y s)) (Set.Icc t₀ tf) s)
    (hM : ∀ s ∈ Set.Icc t₀ tf, ‖f s (y s)‖ ≤ M) (hm : 0 < cfg.maxStep) (hs : cfg.maxStep * L ≤ 1 / 50)
    (times : List ℝ) (hlast : times.getLast? = some tf) (out : List (Fin n → ℝ))
    (hout : solveOnGrid cfg f t₀ (y t₀) times = .ok out) :
    List.Forall₂ (fun t v => ‖v - y t‖ ≤
      (10 * (K + 25 * L * M) * (tf - t₀) * Real.exp (4 * L * (tf - t₀)) + 3 * M) * cfg.maxStep) times out := by
  have hM0 : 0 ≤ M := (norm_nonneg _).trans (hM t₀ ⟨le_rfl, htf.le⟩)
  have hsteps := (rk45_converges cfg f L K M hL hK hf y t₀ tf htf hy hM hm hs).1
  obtain ⟨-, -, hchain, hhead, -⟩ := rk45_steps cfg f t₀ (y t₀) tf
  have hmono := rk45_no_overshoot cfg f t₀ (y t₀) tf hm
  set H := cfg.maxStep with hH
  set E := 5 * (K + 25 * L * M) * (tf - t₀) * Real.exp (4 * L * (tf - t₀)) * H with hE
  have hE0 : 0 ≤ E := by
    have : 0 ≤ tf - t₀ := by linarith
    positivity
  have forward : ∀ st ∈ (forEachStep cfg f t₀ (y t₀) tf).1,
      t₀ ≤ st.timeStart ∧ st.timeStart < st.timeEnd ∧ st.timeEnd ≤ tf := by
    intro st hst
    obtain ⟨-, b2, -⟩ := hmono st hst
    rcases b2 with h | ⟨c1, c2, c3⟩
    · exact h
    · exact absurd (c1.trans (c2.le.trans c3)) (not_le.2 htf)
  have hend : ∀ st ∈ (forEachStep cfg f t₀ (y t₀) tf).1, ‖st.stateEnd - y st.timeEnd‖ ≤ E := by
    intro st hst
    obtain ⟨c1, c2, c3⟩ := forward st hst
    refine (hsteps st hst).trans ?_
    have h0 : 0 ≤ st.timeEnd - t₀ := by linarith
    have h1 : st.timeEnd - t₀ ≤ tf - t₀ := by linarith
    rw [hE]
    gcongr
  have hstart : ∀ (l : List (OdeStep n ℝ)), (∀ st ∈ l, st ∈ (forEachStep cfg f t₀ (y t₀) tf).1) → l.IsChain Follows →
      (∀ st ∈ l.head?, ‖st.stateStart - y st.timeStart‖ ≤ E) → ∀ st ∈ l, ‖st.stateStart - y st.timeStart‖ ≤ E := by
    intro l
    induction l with
    | nil => simp
    | cons a l ih =>
      intro hmem hch hhd st hst
      rcases List.mem_cons.1 hst with rfl | hst
      · exact hhd _ (by simp)
      · rw [List.isChain_cons] at hch
        refine ih (fun s hs => hmem s (List.mem_cons_of_mem _ hs)) hch.2 (fun s hs => ?_) st hst
        obtain ⟨e1, e2, -⟩ := hch.1 s hs
        rw [e1, e2]
        exact hend a (hmem a (by simp))
  have hbegin := hstart _ (fun _ h => h) hchain (fun st hst => by
    obtain ⟨e1, e2, -⟩ := hhead st hst
    rw [e1, e2]
    simpa using hE0)
  refine (grid_values cfg f t₀ (y t₀) times out hout).imp fun t v hv => ?_
  obtain ⟨tf', htf', s, hs', hcon, rfl⟩ := hv
  rw [hlast] at htf'
  obtain rfl := Option.some.inj htf'
  obtain ⟨c1, c2, c3⟩ := forward s hs'
  obtain ⟨b1, -, b3, b4, -⟩ := hmono s hs'
  have ht : s.timeStart ≤ t ∧ t ≤ s.timeEnd := by
    simpa [OdeStep.contains, c2.le] using hcon
  have hsub : Set.Icc s.timeStart s.timeEnd ⊆ Set.Icc t₀ tf := Set.Icc_subset_Icc c1 c3
  have hmove : ∀ u ∈ Set.Icc s.timeStart s.timeEnd, ‖y u - y t‖ ≤ M * (s.timeEnd - s.timeStart) := by
    intro u hu
    have := (convex_Icc s.timeStart s.timeEnd).norm_image_sub_le_of_norm_hasDerivWithin_le
      (fun v hv => (hy v (hsub hv)).mono hsub) (fun v hv => hM v (hsub hv)) ht hu
    refine this.trans (mul_le_mul_of_nonneg_left ?_ hM0)
    rw [Real.norm_eq_abs, abs_le]
    exact ⟨by linarith [hu.1, ht.2], by linarith [hu.2, ht.1]⟩
  set h := s.timeEnd - s.timeStart with hh
  have hh0 : 0 < h := by rw [hh]; linarith
  have hhH : h ≤ H := by rw [abs_of_pos hh0] at b1; exact b1
  have slope : ∀ (u : ℝ) (x : Fin n → ℝ), u ∈ Set.Icc s.timeStart s.timeEnd → ‖x - y u‖ ≤ E → ‖f u x‖ ≤ M + L * E := by
    intro u x hu hx
    have h1 := hf u u x (y u)
    rw [sub_self, abs_zero, mul_zero, add_zero] at h1
    have h2 := norm_add_le (f u x - f u (y u)) (f u (y u))
    rw [sub_add_cancel] at h2
    have h3 := hM u (hsub hu)
    have h4 := mul_le_mul_of_nonneg_left hx hL
    linarith
  have k0 := slope s.timeStart s.stateStart ⟨le_rfl, c2.le⟩ (hbegin s hs')
  have k1 := slope s.timeEnd s.stateEnd ⟨c2.le, le_rfl⟩ (hend s hs')
  rw [← b3] at k0
  rw [← b4] at k1
  have m0 := hmove s.timeStart ⟨le_rfl, c2.le⟩
  have m1 := hmove s.timeEnd ⟨c2.le, le_rfl⟩
  have hb := hbegin s hs'
  have he := hend s hs'
  -- the cubic weights
  set q := (t - s.timeStart) / h with hq
  have q0 : 0 ≤ q := div_nonneg (by linarith [ht.1]) hh0.le
  have q1 : q ≤ 1 := by rw [hq, div_le_one hh0]; linarith [ht.2]
  have w01 : 0 ≤ 3 * q ^ 2 - 2 * q ^ 3 := by nlinarith [mul_nonneg (sq_nonneg q) (by linarith : 0 ≤ 3 - 2 * q)]
  have w00 : 0 ≤ 1 - (3 * q ^ 2 - 2 * q ^ 3) := by
    have : 1 - (3 * q ^ 2 - 2 * q ^ 3) = (1 - q) ^ 2 * (1 + 2 * q) := by ring
    rw [this]; positivity
  have w10 : 0 ≤ q * (1 - q) ^ 2 ∧ q * (1 - q) ^ 2 + q ^ 2 * (1 - q) ≤ 1 / 4 := by
    refine ⟨by positivity, ?_⟩
    nlinarith [sq_nonneg (2 * q - 1)]
  have w11 : 0 ≤ q ^ 2 * (1 - q) := mul_nonneg (sq_nonneg q) (by linarith)
  have e : s.interpolate t - y t =
      ((1 - (3 * q ^ 2 - 2 * q ^ 3)) • ((s.stateStart - y s.timeStart) + (y s.timeStart - y t)) +
      (3 * q ^ 2 - 2 * q ^ 3) • ((s.stateEnd - y s.timeEnd) + (y s.timeEnd - y t))) +
      (((q * (1 - q) ^ 2) * h) • s.derivativeStart - ((q ^ 2 * (1 - q)) * h) • s.derivativeEnd) := by
    funext i
    simp only [OdeStep.interpolate, vscale, ← hh, ← hq, Pi.sub_apply, Pi.add_apply, Pi.smul_apply, smul_eq_mul]
    push_cast
    ring
  rw [e]
  have p0 : ‖(s.stateStart - y s.timeStart) + (y s.timeStart - y t)‖ ≤ E + M * h :=
    (norm_add_le _ _).trans (add_le_add hb m0)
  have p1 : ‖(s.stateEnd - y s.timeEnd) + (y s.timeEnd - y t)‖ ≤ E + M * h :=
    (norm_add_le _ _).trans (add_le_add he m1)
  have first : ‖(1 - (3 * q ^ 2 - 2 * q ^ 3)) • ((s.stateStart - y s.timeStart) + (y s.timeStart - y t)) +
      (3 * q ^ 2 - 2 * q ^ 3) • ((s.stateEnd - y s.timeEnd) + (y s.timeEnd - y t))‖ ≤ E + M * h := by
    refine (norm_add_le _ _).trans ?_
    rw [norm_smul, norm_smul, Real.norm_of_nonneg w00, Real.norm_of_nonneg w01]
    have a := mul_le_mul_of_nonneg_left p0 w00
    have b := mul_le_mul_of_nonneg_left p1 w01
    linarith
  have second : ‖((q * (1 - q) ^ 2) * h) • s.derivativeStart - ((q ^ 2 * (1 - q)) * h) • s.derivativeEnd‖ ≤
      1 / 4 * h * (M + L * E) := by
    refine (norm_sub_le _ _).trans ?_
    rw [norm_smul, norm_smul, Real.norm_of_nonneg (mul_nonneg w10.1 hh0.le), Real.norm_of_nonneg (mul_nonneg w11 hh0.le)]
    have a := mul_le_mul_of_nonneg_left k0 (mul_nonneg w10.1 hh0.le)
    have b := mul_le_mul_of_nonneg_left k1 (mul_nonneg w11 hh0.le)
    have c : (q * (1 - q) ^ 2 + q ^ 2 * (1 - q)) * (h * (M + L * E)) ≤ 1 / 4 * (h * (M + L * E)) :=
      mul_le_mul_of_nonneg_right w10.2 (by positivity)
    linarith
  have hhL : h * L ≤ 1 / 50 := (mul_le_mul_of_nonneg_right hhH hL).trans hs
  have hLE : h * L * E ≤ 1 / 50 * E := mul_le_mul_of_nonneg_right hhL hE0
  have hMh : M * h ≤ M * H := mul_le_mul_of_nonneg_left hhH hM0
  calc _ ≤ (E + M * h) + 1 / 4 * h * (M + L * E) := (norm_add_le _ _).trans (add_le_add first second)
    _ ≤ 2 * E + 3 * M * H := by
        have : 0 ≤ M * H := by positivity
        nlinarith
    _ = _ := by rw [hE]; ring

/-- The hypotheses hold of `y' = y` with solution `exp`, for any requested times ending at `1`. -/
example (cfg : Rk45 ℝ) (hm : 0 < cfg.maxStep) (hs : cfg.maxStep ≤ 1 / 50) (times : List ℝ) (out : List (Fin 1 → ℝ))
    (hout : solveOnGrid cfg (fun _ y => y) 0 (fun _ : Fin 1 => Real.exp 0) (times ++ [1]) = .ok out) :
    List.Forall₂ (fun t v => ‖v - fun _ => Real.exp t‖ ≤
      (10 * (0 + 25 * 1 * Real.exp 1) * (1 - 0) * Real.exp (4 * 1 * (1 - 0)) + 3 * Real.exp 1) * cfg.maxStep)
      (times ++ [1]) out :=
  rk45_grid_converges cfg (n := 1) (fun _ y => y) 1 0 (Real.exp 1) zero_le_one le_rfl
    (fun t s y z => by simp) (fun t _ => Real.exp t) 0 1 zero_lt_one
    (fun s _ => by
      rw [hasDerivWithinAt_pi]; intro i; exact (Real.hasDerivAt_exp s).hasDerivWithinAt)
    (fun s hs => by
      refine (pi_norm_le_iff_of_nonneg (Real.exp_pos _).le).2 fun i => ?_
      rw [Real.norm_of_nonneg (Real.exp_pos _).le]
      exact Real.exp_le_exp.2 hs.2) hm (by linarith) _ (by simp) out hout

end Multicalc
