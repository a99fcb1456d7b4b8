import Verif.Props.Ode

/-!
# Properties C22, C23: the adaptive loop and dense output
-/

namespace Multicalc
variable {T : Type} {n : ℕ}

/-! ## The accepted steps (C22) -/

theorem List.mem_takeWhile_imp' {α : Type} {p : α → Bool} {l : List α} {x : α}
    (h : x ∈ l.takeWhile p) : p x = true := by
  induction l with
  | nil => simp at h
  | cons a l ih =>
    rw [List.takeWhile_cons] at h
    split at h
    · next ha =>
      rcases List.mem_cons.mp h with rfl | h
      · exact ha
      · exact ih h
    · simp at h

section lawfree
variable [Zero T] [One T] [NatCast T] [Add T] [Sub T] [Mul T] [Div T] [Neg T] [LT T] [DecidableLT T]
  [LE T] [DecidableLE T] [BEq T] [Max T] [Min T] [Fns T]

/-- An accepted step really is a Dormand–Prince step whose error norm is at most one, with finite
results. -/
def GoodStep (cfg : Rk45 T) (f : T → (Fin n → T) → (Fin n → T)) (s : OdeStep n T) : Prop :=
  ∃ h e, dopriStep f s.timeStart s.stateStart h s.derivativeStart =
      (s.stateEnd, e, s.derivativeEnd) ∧
    errorNorm e s.stateStart s.stateEnd cfg.atol cfg.rtol ≤ 1 ∧
    vIsFinite s.stateEnd = true ∧ vIsFinite e = true

/-- The next step starts where the previous one ended, and reuses its last derivative. -/
def Follows (s s' : OdeStep n T) : Prop :=
  s'.timeStart = s.timeEnd ∧ s'.stateStart = s.stateEnd ∧ s'.derivativeStart = s.derivativeEnd

/-- The end test of the loop. -/
def AtEnd (timeFinal t : T) : Prop :=
  Fns.abs (timeFinal - t) ≤ Fns.epsilon * (1 + Fns.abs timeFinal)

theorem rk45Loop_spec (cfg : Rk45 T) (f : T → (Fin n → T) → (Fin n → T)) (tf : T) (fuel k : ℕ)
    (s : Rk45State n T) :
    let r := rk45Loop cfg f tf fuel k s
    r.1.length ≤ fuel ∧ (∀ st ∈ r.1, GoodStep cfg f st) ∧ r.1.IsChain Follows ∧
    (∀ st ∈ r.1.head?, st.timeStart = s.time ∧ st.stateStart = s.y ∧ st.derivativeStart = s.stage1) ∧
    (∀ m, r.2 = .error (.didNotConverge m) → m = k + fuel) ∧
    (∀ y, r.2 = .ok y → ∃ init last, r.1 = init ++ [last] ∧ last.stateEnd = y ∧
      AtEnd tf last.timeEnd ∧ ∀ st ∈ init, ¬ AtEnd tf st.timeEnd) ∧
    (∀ e, r.2 = .error e → ∀ st ∈ r.1, ¬ AtEnd tf st.timeEnd) := by
  induction fuel generalizing k s with
  | zero => simp [rk45Loop]
  | succ fuel ih =>
    rw [rk45Loop]
    simp only
    obtain ⟨r, hr⟩ : ∃ r, r = dopriStep f s.time s.y (clampStep tf s.time s.h) s.stage1 := ⟨_, rfl⟩
    rw [← hr]
    split
    · simp
    next hfin =>
    simp only [Bool.or_eq_true, Bool.not_eq_true', not_or, Bool.not_eq_false] at hfin
    split
    · next hacc =>
      have hgood : ∀ t1, GoodStep cfg f ⟨s.time, t1, s.y, r.1, s.stage1, r.2.2⟩ := fun t1 =>
        ⟨_, r.2.1, hr.symm, hacc, hfin.1, hfin.2⟩
      split
      · next hend =>
        refine ⟨by simp, by simpa using hgood _, by simp, by simp, by simp, ?_, by simp⟩
        intro y hy
        simp only [Except.ok.injEq] at hy
        exact ⟨[], _, rfl, hy, hend, by simp⟩
      · next hend =>
        split
        · refine ⟨by simp, by simpa using hgood _, by simp, by simp, by simp, by simp, ?_⟩
          simpa [AtEnd] using hend
        · obtain ⟨i1, i2, i3, i4, i5, i6, i7⟩ := ih (k + 1)
            ⟨s.time + (clampStep tf s.time s.h - s.kahanC), r.1, r.2.2,
              nextStepSize cfg (clampStep tf s.time s.h)
                (errorNorm r.2.1 s.y r.1 cfg.atol cfg.rtol) s.errPrev
                (decide (errorNorm r.2.1 s.y r.1 cfg.atol cfg.rtol ≤ 1)),
              max (errorNorm r.2.1 s.y r.1 cfg.atol cfg.rtol) (Fns.lit (1 / 10 ^ 4)),
              (s.time + (clampStep tf s.time s.h - s.kahanC) - s.time) -
                (clampStep tf s.time s.h - s.kahanC)⟩
          refine ⟨?_, ?_, ?_, ?_, ?_, ?_, ?_⟩
          · simp only [List.length_cons]; omega
          · intro st hst
            rcases List.mem_cons.mp hst with rfl | hst
            · exact hgood _
            · exact i2 st hst
          · rw [List.isChain_cons]
            refine ⟨fun st hst => ?_, i3⟩
            exact i4 st hst
          · simp
          · intro m hm
            rw [i5 m hm]; omega
          · intro y hy
            obtain ⟨init, last, e1, e2, e3, e4⟩ := i6 y hy
            refine ⟨_ :: init, last, by rw [e1]; rfl, e2, e3, ?_⟩
            intro st hst
            rcases List.mem_cons.mp hst with rfl | hst
            · exact hend
            · exact e4 st hst
          · intro e he st hst
            rcases List.mem_cons.mp hst with rfl | hst
            · exact hend
            · exact i7 e he st hst
    · split
      · simp
      · obtain ⟨i1, i2, i3, i4, i5, i6, i7⟩ := ih (k + 1) { s with
            h := nextStepSize cfg (clampStep tf s.time s.h)
                (errorNorm r.2.1 s.y r.1 cfg.atol cfg.rtol) s.errPrev
                (decide (errorNorm r.2.1 s.y r.1 cfg.atol cfg.rtol ≤ 1)) }
        exact ⟨by omega, i2, i3, i4, fun m hm => by rw [i5 m hm]; omega, i6, i7⟩

/-- C22. For every scalar, right-hand side and configuration, whether or not the solver succeeds: the
accepted steps number at most `max_steps`, each is a Dormand–Prince step with error norm at most one
and finite results, they start at the initial condition and are contiguous in time, state and
derivative; success means the last step ends within the tolerance of the final time (and no earlier
one did) with the returned state; a budget error reports the full budget. -/
theorem rk45_steps (cfg : Rk45 T) (f : T → (Fin n → T) → (Fin n → T)) (t₀ : T) (y₀ : Fin n → T)
    (tf : T) :
    let r := forEachStep cfg f t₀ y₀ tf
    r.1.length ≤ cfg.maxSteps ∧ (∀ st ∈ r.1, GoodStep cfg f st) ∧ r.1.IsChain Follows ∧
    (∀ st ∈ r.1.head?, st.timeStart = t₀ ∧ st.stateStart = y₀ ∧ st.derivativeStart = f t₀ y₀) ∧
    (∀ m, r.2 = .error (.didNotConverge m) → m = cfg.maxSteps) ∧
    (∀ y, r.2 = .ok y → ∃ init last, r.1 = init ++ [last] ∧ last.stateEnd = y ∧
      AtEnd tf last.timeEnd ∧ ∀ st ∈ init, ¬ AtEnd tf st.timeEnd) ∧
    (∀ e, r.2 = .error e → ∀ st ∈ r.1, ¬ AtEnd tf st.timeEnd) := by
  unfold forEachStep
  simp only
  split
  · simp
  · split
    · simp
    · obtain ⟨i1, i2, i3, i4, i5, i6, i7⟩ := rk45Loop_spec cfg f tf cfg.maxSteps 0
        ⟨t₀, y₀, f t₀ y₀, selectInitialStep cfg f t₀ y₀ (f t₀ y₀) (if t₀ < tf then 1 else -1)
          (Fns.abs (tf - t₀)), Fns.lit (1 / 10 ^ 4), 0⟩
      exact ⟨i1, i2, i3, i4, fun m hm => by rw [i5 m hm]; omega, i6, i7⟩

/-- C22. A NaN or zero-length span is rejected before the right-hand side is used. -/
theorem rk45_rejects_span (cfg : Rk45 T) (f : T → (Fin n → T) → (Fin n → T)) (t₀ : T)
    (y₀ : Fin n → T) (tf : T)
    (h : Fns.isFinite t₀ = false ∨ Fns.isFinite tf = false ∨ (t₀ == tf) = true) :
    forEachStep cfg f t₀ y₀ tf = ([], .error .limitsIllDefined) := by
  unfold forEachStep
  rcases h with h | h | h <;> simp [h]

/-- C85. Whatever the grid, a successful `solve_on_grid` writes one value per requested time and each
is the dense output of an accepted step containing that time. -/
theorem grid_values (cfg : Rk45 T) (f : T → (Fin n → T) → (Fin n → T)) (t₀ : T) (y₀ : Fin n → T)
    (times : List T) (out : List (Fin n → T)) (h : solveOnGrid cfg f t₀ y₀ times = .ok out) :
    List.Forall₂ (fun t v => ∃ tf, times.getLast? = some tf ∧
      ∃ s ∈ (forEachStep cfg f t₀ y₀ tf).1, s.contains t = true ∧ v = s.interpolate t)
      times out := by
  have key : ∀ (steps : List (OdeStep n T)) (ts : List T), (gridConsume steps ts).2 = [] →
      List.Forall₂ (fun t v => ∃ s ∈ steps, s.contains t = true ∧ v = s.interpolate t) ts
        (gridConsume steps ts).1 := by
    intro steps
    induction steps with
    | nil => intro ts h; simp only [gridConsume] at h ⊢; subst h; exact .nil
    | cons s steps ih =>
      intro ts h
      simp only [gridConsume] at h ⊢
      have h2 := ih _ h
      have h1 : List.Forall₂ (fun t v => ∃ s' ∈ s :: steps, s'.contains t = true ∧
          v = s'.interpolate t) (ts.takeWhile s.contains)
          ((ts.takeWhile s.contains).map s.interpolate) := by
        rw [List.forall₂_map_right_iff]
        rw [List.forall₂_same]
        intro t ht
        exact ⟨s, by simp, by simpa using List.mem_takeWhile_imp' ht, rfl⟩
      have h3 : List.Forall₂ (fun t v => ∃ s' ∈ s :: steps, s'.contains t = true ∧
          v = s'.interpolate t) (ts.dropWhile s.contains)
          (gridConsume steps (ts.dropWhile s.contains)).1 := by
        refine h2.imp ?_
        rintro t v ⟨s', m, p⟩
        exact ⟨s', List.mem_cons_of_mem _ m, p⟩
      have := List.rel_append h1 h3
      simp only [List.takeWhile_append_dropWhile] at this
      exact this
  unfold solveOnGrid at h
  cases hl : times.getLast? with
  | none =>
    rw [hl] at h
    simp only [Except.ok.injEq] at h
    rw [List.getLast?_eq_none_iff] at hl
    subst h; subst hl; exact .nil
  | some tf =>
    rw [hl] at h
    simp only at h
    split at h
    · simp at h
    · split at h
      · next he =>
        simp only [Except.ok.injEq] at h
        subst h
        refine (key _ _ (by simpa using he)).imp ?_
        rintro t v ⟨s, p⟩
        exact ⟨tf, rfl, s, p⟩
      · simp at h

end lawfree

/-! ### Over the reals: direction, no overshoot, step cap -/

theorem real_scaledNorm_nonneg (v y : Fin n → ℝ) (a r : ℝ) : 0 ≤ scaledNorm v y a r := by
  unfold scaledNorm
  split
  · exact le_refl _
  · exact Real.sqrt_nonneg _

theorem selectInitialStep_spec (cfg : Rk45 ℝ) (f : ℝ → (Fin n → ℝ) → (Fin n → ℝ)) (t₀ : ℝ)
    (y₀ k₁ : Fin n → ℝ) (dir span : ℝ) (hm : 0 < cfg.maxStep) (hs : 0 < span) :
    ∃ m, selectInitialStep cfg f t₀ y₀ k₁ dir span = dir * m ∧ 0 < m ∧ m ≤ cfg.maxStep := by
  unfold selectInitialStep
  split
  · next hf =>
    exact ⟨_, rfl, lt_min (lt_min hf hm) hs, (min_le_left _ _).trans (min_le_right _ _)⟩
  · simp only
    refine ⟨_, rfl, ?_, (min_le_right _ _).trans (min_le_right _ _)⟩
    set n0 := scaledNorm y₀ y₀ cfg.atol cfg.rtol
    set n1 := scaledNorm k₁ y₀ cfg.atol cfg.rtol
    have h0 : ∀ q : ℚ, 0 < q → (0 : ℝ) < Fns.lit q := by
      intro q hq; simp only [Fns.lit]; exact_mod_cast hq
    have hstep0 : (0 : ℝ) < if n0 < Fns.lit (1 / 10 ^ 5) ∨ n1 < Fns.lit (1 / 10 ^ 5) then
        Fns.lit (1 / 10 ^ 6) else Fns.lit (1 / 100) * n0 / n1 := by
      split
      · exact h0 _ (by norm_num)
      · next hc =>
        push Not at hc
        have a0 : 0 < n0 := lt_of_lt_of_le (h0 _ (by norm_num)) hc.1
        have a1 : 0 < n1 := lt_of_lt_of_le (h0 _ (by norm_num)) hc.2
        have := h0 (1 / 100) (by norm_num)
        positivity
    generalize (if n0 < Fns.lit (1 / 10 ^ 5) ∨ n1 < Fns.lit (1 / 10 ^ 5) then
        (Fns.lit (1 / 10 ^ 6) : ℝ) else Fns.lit (1 / 100) * n0 / n1) = st0 at hstep0 ⊢
    refine lt_min (lt_min (by positivity) ?_) (lt_min hs hm)
    split
    · exact lt_max_of_lt_right (h0 _ (by norm_num))
    · exact Real.exp_pos _

theorem clampStep_spec (tf t h dir : ℝ) (hd : dir = 1 ∨ dir = -1) (hh : 0 < dir * h)
    (hr : 0 < dir * (tf - t)) :
    0 < dir * clampStep tf t h ∧ |clampStep tf t h| ≤ |h| ∧
      0 ≤ dir * (tf - (t + clampStep tf t h)) := by
  unfold clampStep
  simp only [Fns.abs]
  rcases hd with rfl | rfl
  · split
    · next hc => exact ⟨hr, hc.le, by ring_nf; exact le_refl _⟩
    · next hc =>
      rw [abs_of_pos (by linarith), abs_of_pos (by linarith)] at hc
      exact ⟨hh, le_refl _, by linarith⟩
  · split
    · next hc => exact ⟨hr, hc.le, by ring_nf; exact le_refl _⟩
    · next hc =>
      rw [abs_of_neg (by linarith), abs_of_neg (by linarith)] at hc
      exact ⟨hh, le_refl _, by linarith⟩

theorem nextStepSize_spec (cfg : Rk45 ℝ) (h err ep : ℝ) (acc : Bool) (dir : ℝ)
    (hd : dir = 1 ∨ dir = -1) (hh : 0 < dir * h) (hm : 0 < cfg.maxStep) :
    0 < dir * nextStepSize cfg h err ep acc ∧ |nextStepSize cfg h err ep acc| ≤ cfg.maxStep := by
  unfold nextStepSize
  simp only
  generalize hq : Fns.lit (9 / 10) * powf (max err (Fns.lit (1 / 10 ^ 10))) (-Fns.lit (17 / 100)) *
    powf ep (Fns.lit (4 / 100)) = q
  have h1 : 0 < min (max q (Fns.lit (2 / 10))) ((10 : ℕ) : ℝ) := by
    refine lt_min (lt_max_of_lt_right ?_) (by norm_num)
    simp only [Fns.lit]; norm_num
  generalize min (max q (Fns.lit (2 / 10))) ((10 : ℕ) : ℝ) = g at h1
  have h2 : 0 < if acc = true then g else min g 1 := by
    split
    · exact h1
    · exact lt_min h1 one_pos
  generalize (if acc = true then g else min g 1) = g' at h2
  have h3 : 0 < dir * (h * g') := by rw [← mul_assoc]; positivity
  simp only [Fns.abs, Fns.copysign]
  split
  · rcases hd with rfl | rfl
    · rw [if_neg (by linarith), abs_of_pos hm]
      exact ⟨by linarith, by rw [abs_of_pos hm]⟩
    · rw [if_pos (by linarith), abs_of_pos hm]
      exact ⟨by linarith, by rw [abs_neg, abs_of_pos hm]⟩
  · next hc => exact ⟨h3, not_lt.mp hc⟩

theorem dopriStep_stage7 (f : ℝ → (Fin n → ℝ) → (Fin n → ℝ)) (t : ℝ) (y : Fin n → ℝ) (h : ℝ)
    (k₁ : Fin n → ℝ) :
    (dopriStep f t y h k₁).2.2 = f (t + h) (dopriStep f t y h k₁).1 := rfl

theorem rk45Loop_direction (cfg : Rk45 ℝ) (f : ℝ → (Fin n → ℝ) → (Fin n → ℝ)) (tf : ℝ)
    (hm : 0 < cfg.maxStep) (dir : ℝ) (hd : dir = 1 ∨ dir = -1) (fuel k : ℕ) (s : Rk45State n ℝ)
    (hh : 0 < dir * s.h) (hc : |s.h| ≤ cfg.maxStep) (hr : 0 < dir * (tf - s.time))
    (hk : s.kahanC = 0) (hs : s.stage1 = f s.time s.y) :
    ∀ st ∈ (rk45Loop cfg f tf fuel k s).1,
      0 < dir * (st.timeEnd - st.timeStart) ∧ |st.timeEnd - st.timeStart| ≤ cfg.maxStep ∧
      0 ≤ dir * (tf - st.timeEnd) ∧ 0 ≤ dir * (st.timeStart - s.time) ∧
      st.derivativeStart = f st.timeStart st.stateStart ∧
      st.derivativeEnd = f st.timeEnd st.stateEnd ∧
      st.stateEnd = (dopriStep f st.timeStart st.stateStart (st.timeEnd - st.timeStart)
        st.derivativeStart).1 := by
  induction fuel generalizing k s with
  | zero => simp [rk45Loop]
  | succ fuel ih =>
    obtain ⟨c1, c2, c3⟩ := clampStep_spec tf s.time s.h dir hd hh hr
    rw [rk45Loop]
    simp only
    set h := clampStep tf s.time s.h with hh'
    obtain ⟨r, hr'⟩ : ∃ r, r = dopriStep f s.time s.y h s.stage1 := ⟨_, rfl⟩
    rw [← hr']
    have e7 : r.2.2 = f (s.time + h) r.1 := by rw [hr', dopriStep_stage7]
    have hns := nextStepSize_spec cfg h (errorNorm r.2.1 s.y r.1 cfg.atol cfg.rtol) s.errPrev
      (decide (errorNorm r.2.1 s.y r.1 cfg.atol cfg.rtol ≤ 1)) dir hd c1 hm
    split
    · simp
    split
    · rw [hk]
      simp only [sub_zero]
      have hstep : 0 < dir * (s.time + h - s.time) ∧ |s.time + h - s.time| ≤ cfg.maxStep ∧
          0 ≤ dir * (tf - (s.time + h)) ∧ 0 ≤ dir * (s.time - s.time) ∧ s.stage1 = f s.time s.y ∧
          r.2.2 = f (s.time + h) r.1 ∧
          r.1 = (dopriStep f s.time s.y (s.time + h - s.time) s.stage1).1 := by
        rw [add_sub_cancel_left]
        exact ⟨c1, c2.trans hc, c3, by simp, hs, e7, by rw [hr']⟩
      split
      · simpa using hstep
      · next hend =>
        split
        · simpa using hstep
        · intro st hst
          rcases List.mem_cons.mp hst with rfl | hst
          · exact hstep
          · have hpos : 0 < dir * (tf - (s.time + h)) := by
              refine lt_of_le_of_ne c3 fun h0 => hend ?_
              have : tf - (s.time + h) = 0 := by
                rcases hd with rfl | rfl <;> linarith
              simp only [Fns.abs, Fns.epsilon, this, abs_zero]
              positivity
            obtain ⟨a1, a2, a3, a4, a5⟩ := ih _ _ hns.1 hns.2 hpos (by simp) e7 st hst
            refine ⟨a1, a2, a3, ?_, a5⟩
            simp only at a4
            have : dir * (st.timeStart - s.time) =
              dir * (st.timeStart - (s.time + h)) + dir * h := by ring
            rw [this]; linarith
    · split
      · simp
      · exact ih _ { s with h := _ } hns.1 hns.2 hr hk hs

/-- C22. In exact arithmetic, in either time direction: every accepted step moves strictly towards the
final time, never past it, by at most `max_step`, never before the start; the stored derivatives are
those of the right-hand side at both ends, and the end state is the Dormand–Prince state for exactly
that step length. -/
theorem rk45_no_overshoot (cfg : Rk45 ℝ) (f : ℝ → (Fin n → ℝ) → (Fin n → ℝ)) (t₀ : ℝ)
    (y₀ : Fin n → ℝ) (tf : ℝ) (hm : 0 < cfg.maxStep) :
    ∀ st ∈ (forEachStep cfg f t₀ y₀ tf).1,
      |st.timeEnd - st.timeStart| ≤ cfg.maxStep ∧
      ((t₀ ≤ st.timeStart ∧ st.timeStart < st.timeEnd ∧ st.timeEnd ≤ tf) ∨
       (tf ≤ st.timeEnd ∧ st.timeEnd < st.timeStart ∧ st.timeStart ≤ t₀)) ∧
      st.derivativeStart = f st.timeStart st.stateStart ∧
      st.derivativeEnd = f st.timeEnd st.stateEnd ∧
      st.stateEnd = (dopriStep f st.timeStart st.stateStart (st.timeEnd - st.timeStart)
        st.derivativeStart).1 := by
  unfold forEachStep
  simp only [Fns.isFinite, Bool.not_true, Bool.or_self, Bool.false_or]
  split
  · simp
  next hne =>
  have hne : t₀ ≠ tf := by simpa using hne
  split
  · simp
  · have hspan : 0 < Fns.abs (tf - t₀) := by
      simp only [Fns.abs]; exact abs_pos.mpr (sub_ne_zero.mpr hne.symm)
    intro st hst
    by_cases hlt : t₀ < tf
    · simp only [hlt, if_true] at hst
      obtain ⟨m, m1, m2, m3⟩ := selectInitialStep_spec cfg f t₀ y₀ (f t₀ y₀) 1 _ hm hspan
      obtain ⟨b1, b2, b3, b4, b5⟩ := rk45Loop_direction cfg f tf hm 1 (Or.inl rfl) _ _ _
        (by rw [m1]; simpa using m2) (by rw [m1, one_mul, abs_of_pos m2]; exact m3)
        (by simp only; linarith) rfl rfl st hst
      simp only at b4
      exact ⟨b2, Or.inl ⟨by linarith, by linarith, by linarith⟩, b5⟩
    · simp only [hlt, if_false] at hst
      have hgt : tf < t₀ := lt_of_le_of_ne (not_lt.mp hlt) hne.symm
      obtain ⟨m, m1, m2, m3⟩ := selectInitialStep_spec cfg f t₀ y₀ (f t₀ y₀) (-1) _ hm hspan
      obtain ⟨b1, b2, b3, b4, b5⟩ := rk45Loop_direction cfg f tf hm (-1) (Or.inr rfl) _ _ _
        (by rw [m1]; linarith) (by rw [m1, neg_one_mul, abs_neg, abs_of_pos m2]; exact m3)
        (by simp only; linarith) rfl rfl st hst
      simp only at b4
      exact ⟨b2, Or.inr ⟨by linarith, by linarith, by linarith⟩, b5⟩

/-! ## Dense output (C23) -/

/-- C23. The interpolant equals the end states at the end times and has the stored derivatives as
slopes there. -/
theorem interpolate_ends (s : OdeStep n ℝ) (h : s.timeStart ≠ s.timeEnd) :
    s.interpolate s.timeStart = s.stateStart ∧ s.interpolate s.timeEnd = s.stateEnd ∧
    (∀ i, HasDerivAt (fun t => s.interpolate t i) (s.derivativeStart i) s.timeStart) ∧
    (∀ i, HasDerivAt (fun t => s.interpolate t i) (s.derivativeEnd i) s.timeEnd) := by
  have hne : s.timeEnd - s.timeStart ≠ 0 := sub_ne_zero.mpr h.symm
  have hd : ∀ i t, HasDerivAt (fun t => s.interpolate t i)
      (s.stateStart i * ((6 * ((t - s.timeStart) / (s.timeEnd - s.timeStart)) ^ 2 -
          6 * ((t - s.timeStart) / (s.timeEnd - s.timeStart))) / (s.timeEnd - s.timeStart)) +
        s.derivativeStart i * (3 * ((t - s.timeStart) / (s.timeEnd - s.timeStart)) ^ 2 -
          4 * ((t - s.timeStart) / (s.timeEnd - s.timeStart)) + 1) +
        s.stateEnd i * ((-6 * ((t - s.timeStart) / (s.timeEnd - s.timeStart)) ^ 2 +
          6 * ((t - s.timeStart) / (s.timeEnd - s.timeStart))) / (s.timeEnd - s.timeStart)) +
        s.derivativeEnd i * (3 * ((t - s.timeStart) / (s.timeEnd - s.timeStart)) ^ 2 -
          2 * ((t - s.timeStart) / (s.timeEnd - s.timeStart)))) t := by
    intro i t
    obtain ⟨w, hw⟩ : ∃ w, w = s.timeEnd - s.timeStart := ⟨_, rfl⟩
    have hq : ∀ A B C D : ℝ, HasDerivAt (fun t => A + B * (t - s.timeStart) +
        C * (t - s.timeStart) ^ 2 + D * (t - s.timeStart) ^ 3)
        (B + 2 * C * (t - s.timeStart) + 3 * D * (t - s.timeStart) ^ 2) t := by
      intro A B C D
      have h1 : HasDerivAt (fun t => t - s.timeStart) 1 t := (hasDerivAt_id t).sub_const _
      have h2 : HasDerivAt (fun t => A + B * (t - s.timeStart)) (B * 1) t :=
        (h1.const_mul B).const_add A
      have h3 : HasDerivAt (fun t => C * (t - s.timeStart) ^ 2)
          (C * ((2 : ℕ) * (t - s.timeStart) ^ (2 - 1) * 1)) t := (h1.pow 2).const_mul C
      have h4 : HasDerivAt (fun t => D * (t - s.timeStart) ^ 3)
          (D * ((3 : ℕ) * (t - s.timeStart) ^ (3 - 1) * 1)) t := (h1.pow 3).const_mul D
      have h5 : HasDerivAt (fun t => A + B * (t - s.timeStart) +
        C * (t - s.timeStart) ^ 2 + D * (t - s.timeStart) ^ 3) _ t := (h2.add h3).add h4
      convert h5 using 1
      push_cast; ring
    have e : (fun t => s.interpolate t i) = fun t => s.stateStart i +
        s.derivativeStart i * (t - s.timeStart) +
        ((-3 * s.stateStart i + 3 * s.stateEnd i) / w ^ 2 -
          (2 * s.derivativeStart i + s.derivativeEnd i) / w) * (t - s.timeStart) ^ 2 +
        ((2 * s.stateStart i - 2 * s.stateEnd i) / w ^ 3 +
          (s.derivativeStart i + s.derivativeEnd i) / w ^ 2) * (t - s.timeStart) ^ 3 := by
      funext t
      rw [← hw] at hne
      simp only [OdeStep.interpolate, vscale, Pi.add_apply, ← hw]
      push_cast
      field_simp
      ring
    rw [e, ← hw]
    rw [← hw] at hne
    convert hq _ _ _ _ using 1
    field_simp
    ring
  refine ⟨?_, ?_, ?_, ?_⟩
  · funext i
    simp [OdeStep.interpolate, vscale]
  · funext i
    simp only [OdeStep.interpolate, vscale, Pi.add_apply, div_self hne]
    push_cast; ring
  · intro i
    convert hd i s.timeStart using 1
    simp
  · intro i
    convert hd i s.timeEnd using 1
    rw [div_self hne]
    ring

/-- C23. The interpolant reproduces every cubic exactly at every time. -/
theorem interpolate_cubic (a b c d : Fin n → ℝ) (t₀ t₁ t : ℝ) (h : t₀ ≠ t₁) :
    OdeStep.interpolate ⟨t₀, t₁,
      fun i => a i + b i * t₀ + c i * t₀ ^ 2 + d i * t₀ ^ 3,
      fun i => a i + b i * t₁ + c i * t₁ ^ 2 + d i * t₁ ^ 3,
      fun i => b i + 2 * c i * t₀ + 3 * d i * t₀ ^ 2,
      fun i => b i + 2 * c i * t₁ + 3 * d i * t₁ ^ 2⟩ t =
    fun i => a i + b i * t + c i * t ^ 2 + d i * t ^ 3 := by
  have hne : t₁ - t₀ ≠ 0 := sub_ne_zero.mpr h.symm
  funext i
  simp only [OdeStep.interpolate, vscale, Pi.add_apply]
  push_cast
  field_simp
  ring

example : (0 : ℝ) ≠ 1 := by norm_num

/-- A run with zero right-hand side from 0 to 1 whose first step is `q`, close enough to 1. -/
theorem zero_run (q : ℝ) (h0 : 0 < q) (h1 : q ≤ 1) (h2 : 1 - q ≤ 1 / 2 ^ 51) :
    forEachStep (⟨1 / 10 ^ 6, 1 / 10 ^ 9, q, 0, 2, 1⟩ : Rk45 ℝ) (fun _ (_ : Fin 1 → ℝ) _ => 0) 0
      (fun _ => 0) 1 = ([⟨0, q, fun _ => 0, fun _ => 0, fun _ => 0, fun _ => 0⟩], .ok fun _ => 0) := by
  let cfg : Rk45 ℝ := ⟨1 / 10 ^ 6, 1 / 10 ^ 9, q, 0, 2, 1⟩
  let f : ℝ → (Fin 1 → ℝ) → (Fin 1 → ℝ) := fun _ _ _ => 0
  let y₀ : Fin 1 → ℝ := fun _ => 0
  have hsel : selectInitialStep cfg f 0 y₀ (f 0 y₀) 1 (Fns.abs (1 - 0 : ℝ)) = q := by
    unfold selectInitialStep
    rw [if_pos (by simp only [cfg]; exact h0)]
    simp only [cfg, Fns.abs]
    rw [min_eq_left (show q ≤ 2 by linarith), min_eq_left (show q ≤ |1 - 0| by norm_num; exact h1)]
    ring
  have hcl : clampStep (1 : ℝ) 0 q = q := by
    unfold clampStep
    simp only [Fns.abs]
    rw [if_neg (by rw [abs_of_pos (by norm_num), abs_of_pos h0]; linarith)]
  have hd : ∀ h, dopriStep f 0 y₀ h (f 0 y₀) = (fun _ => 0, fun _ => 0, fun _ => 0) := by
    intro h
    simp only [dopriStep, f, y₀, vscale]
    refine Prod.ext ?_ (Prod.ext ?_ ?_) <;> funext i <;> simp [vscale]
  have hen : errorNorm (fun _ => 0) y₀ (fun _ => 0 : Fin 1 → ℝ) cfg.atol cfg.rtol = 0 := by
    simp [errorNorm, Fns.sqrt]
  have hv : ∀ v : Fin 1 → ℝ, vIsFinite v = true := by
    intro v; simp [vIsFinite, Fns.isFinite]
  change forEachStep cfg f 0 y₀ 1 = ([⟨0, q, y₀, fun _ => 0, f 0 y₀, fun _ => 0⟩], .ok fun _ => 0)
  unfold forEachStep
  simp only [Fns.isFinite, Bool.not_true, Bool.or_self, Bool.false_or]
  rw [if_neg (by simp), if_neg (by simp [hv]), if_pos (by norm_num), hsel]
  rw [show cfg.maxSteps = 0 + 1 from rfl, rk45Loop]
  simp only [hcl, hd, hen, hv, Bool.not_true, Bool.or_self, Bool.false_eq_true, if_false, zero_le_one,
    if_true, sub_zero, zero_add]
  rw [if_pos]
  simp only [Fns.abs, Fns.epsilon]
  rw [abs_of_nonneg (by linarith)]
  norm_num at h2 ⊢
  linarith

/-- C85 (finding). A grid that lies in the span can still be refused: when a step lands a hair short of
the final time (inside the solver's own tolerance) the solve succeeds but the grid time equal to the
final time is in no step, and `solve_on_grid` answers `LimitsIllDefined`. -/
theorem grid_refuses_valid_times :
    ∃ (cfg : Rk45 ℝ) (f : ℝ → (Fin 1 → ℝ) → (Fin 1 → ℝ)) (y₀ : Fin 1 → ℝ),
      (∃ y, rk45Solve cfg f 0 y₀ 1 = .ok y) ∧
      solveOnGrid cfg f 0 y₀ [1] = .error .limitsIllDefined := by
  have hrun := zero_run (1 - 1 / 2 ^ 52) (by norm_num) (by norm_num) (by norm_num)
  refine ⟨_, _, _, ⟨fun _ => 0, by rw [rk45Solve, hrun]⟩, ?_⟩
  unfold solveOnGrid
  simp only [List.getLast?_singleton, hrun, gridConsume]
  rw [if_neg]
  have : OdeStep.contains (⟨0, 1 - 1 / 2 ^ 52, fun _ => 0, fun _ => 0, fun _ => 0, fun _ => 0⟩ :
      OdeStep 1 ℝ) 1 = false := by
    simp only [OdeStep.contains]
    norm_num
  simp only [List.dropWhile, this]
  simp

theorem contains_iff (s : OdeStep n ℝ) (dir t : ℝ) (hd : dir = 1 ∨ dir = -1)
    (hs : 0 < dir * (s.timeEnd - s.timeStart)) :
    s.contains t = true ↔ dir * s.timeStart ≤ dir * t ∧ dir * t ≤ dir * s.timeEnd := by
  unfold OdeStep.contains
  rcases hd with rfl | rfl
  · rw [if_pos (by linarith)]; simp
  · rw [if_neg (by linarith)]
    simp only [Bool.and_eq_true, decide_eq_true_eq, neg_one_mul, neg_le_neg_iff]

theorem gridConsume_all (dir : ℝ) (hd : dir = 1 ∨ dir = -1) (steps : List (OdeStep n ℝ)) (a : ℝ)
    (ts : List ℝ) (hc : steps.IsChain Follows)
    (hp : ∀ s ∈ steps, 0 < dir * (s.timeEnd - s.timeStart))
    (hh : ∀ s ∈ steps.head?, s.timeStart = a) (hsort : ts.Pairwise (fun x y => dir * x ≤ dir * y))
    (hlo : ∀ t ∈ ts, dir * a ≤ dir * t)
    (hhi : ∀ t ∈ ts, ∃ s ∈ steps.getLast?, dir * t ≤ dir * s.timeEnd) :
    (gridConsume steps ts).2 = [] := by
  induction steps generalizing a ts with
  | nil =>
    cases ts with
    | nil => rfl
    | cons t ts => obtain ⟨s, h, -⟩ := hhi t (by simp); simp at h
  | cons s steps ih =>
    simp only [gridConsume]
    have ha : s.timeStart = a := hh s (by simp)
    have hcont := fun t => contains_iff s dir t hd (hp s (by simp))
    have hrest : ∀ t ∈ ts.dropWhile s.contains, dir * s.timeEnd < dir * t := by
      have hmem : ∀ t ∈ ts.dropWhile s.contains, t ∈ ts := fun t ht =>
        (List.dropWhile_sublist _).subset ht
      have hs' : (ts.dropWhile s.contains).Pairwise (fun x y => dir * x ≤ dir * y) :=
        hsort.sublist (List.dropWhile_sublist _)
      cases hdw : ts.dropWhile s.contains with
      | nil => simp
      | cons t0 rest =>
        have h0 : s.contains t0 = false := by
          have := List.head?_dropWhile_not s.contains ts
          rw [hdw] at this
          simpa using this
        have h1 : dir * s.timeEnd < dir * t0 := by
          by_contra hcon
          have : s.contains t0 = true := (hcont t0).mpr
            ⟨by rw [ha]; exact hlo t0 (hmem t0 (by rw [hdw]; simp)), not_lt.mp hcon⟩
          rw [this] at h0; simp at h0
        rw [hdw, List.pairwise_cons] at hs'
        intro t ht
        rcases List.mem_cons.mp ht with rfl | ht
        · exact h1
        · exact lt_of_lt_of_le h1 (hs'.1 t ht)
    cases steps with
    | nil =>
      have : ts.dropWhile s.contains = [] := by
        cases hdw : ts.dropWhile s.contains with
        | nil => rfl
        | cons t0 rest =>
          exfalso
          have hm : t0 ∈ ts.dropWhile s.contains := by rw [hdw]; simp
          have h1 := hrest t0 hm
          obtain ⟨s', h2, h3⟩ := hhi t0 ((List.dropWhile_sublist _).subset hm)
          simp only [List.getLast?_singleton, Option.mem_def, Option.some.injEq] at h2
          subst h2
          linarith
      rw [this]; rfl
    | cons s2 steps =>
      rw [List.isChain_cons_cons] at hc
      refine ih s.timeEnd _ hc.2 (fun x hx => hp x (List.mem_cons_of_mem _ hx)) ?_
        (hsort.sublist (List.dropWhile_sublist _)) (fun t ht => (hrest t ht).le) ?_
      · intro x hx
        simp only [List.head?_cons, Option.mem_def, Option.some.injEq] at hx
        subst hx
        exact hc.1.1
      · intro t ht
        obtain ⟨x, h2, h3⟩ := hhi t ((List.dropWhile_sublist _).subset ht)
        exact ⟨x, by simpa [List.getLast?_cons_cons] using h2, h3⟩

/-- C85. The remaining case of the finding: when the solve succeeds and its last step ends on the final
time (as it does whenever the last step was clamped to the remaining span), every grid sorted in the
direction of integration and not before the start is served. -/
theorem grid_served_partial (cfg : Rk45 ℝ) (f : ℝ → (Fin n → ℝ) → (Fin n → ℝ)) (t₀ : ℝ)
    (y₀ : Fin n → ℝ) (times : List ℝ) (tf : ℝ) (hm : 0 < cfg.maxStep)
    (hl : times.getLast? = some tf) (dir : ℝ) (hd : dir = 1 ∨ dir = -1)
    (hdir : 0 < dir * (tf - t₀))
    (hsort : times.Pairwise (fun x y => dir * x ≤ dir * y)) (hlo : ∀ t ∈ times, dir * t₀ ≤ dir * t)
    (y : Fin n → ℝ) (hok : rk45Solve cfg f t₀ y₀ tf = .ok y)
    (hend : ∀ s ∈ (forEachStep cfg f t₀ y₀ tf).1.getLast?, s.timeEnd = tf) :
    ∃ out, solveOnGrid cfg f t₀ y₀ times = .ok out := by
  have hst := rk45_steps cfg f t₀ y₀ tf
  have hno := rk45_no_overshoot cfg f t₀ y₀ tf hm
  simp only at hst
  obtain ⟨-, -, s3, s4, -, s6, -⟩ := hst
  obtain ⟨init, last, e1, -, -, -⟩ := s6 y hok
  have hlast : (forEachStep cfg f t₀ y₀ tf).1.getLast? = some last := by rw [e1]; simp
  have hcons := gridConsume_all dir hd (forEachStep cfg f t₀ y₀ tf).1 t₀ times s3
    (by
      intro s hs
      obtain ⟨-, h2, -⟩ := hno s hs
      rcases hd with rfl | rfl
      · rcases h2 with h2 | h2 <;> linarith [h2.1, h2.2.1, h2.2.2]
      · rcases h2 with h2 | h2 <;> linarith [h2.1, h2.2.1, h2.2.2])
    (fun s hs => (s4 s hs).1) hsort hlo
    (by
      intro t ht
      refine ⟨last, hlast, ?_⟩
      rw [hend last hlast]
      rw [List.getLast?_eq_some_iff] at hl
      obtain ⟨ys, rfl⟩ := hl
      rcases List.mem_append.mp ht with ht | ht
      · exact (List.pairwise_append.mp hsort).2.2 t ht tf (by simp)
      · simp only [List.mem_singleton] at ht; rw [ht])
  unfold solveOnGrid
  rw [hl]
  simp only
  unfold rk45Solve at hok
  rw [hok]
  simp only [hcons, List.isEmpty_nil, if_true]
  exact ⟨_, rfl⟩

/-- The hypotheses hold for a run whose single step lands on the final time, with a two-point grid. -/
example : ∃ out, solveOnGrid (⟨1 / 10 ^ 6, 1 / 10 ^ 9, 1, 0, 2, 1⟩ : Rk45 ℝ)
    (fun _ (_ : Fin 1 → ℝ) _ => 0) 0 (fun _ => 0) [1 / 2, 1] = .ok out := by
  have hrun := zero_run 1 (by norm_num) (by norm_num) (by norm_num)
  refine grid_served_partial _ _ 0 _ [1 / 2, 1] 1 (by norm_num) rfl 1 (Or.inl rfl) (by norm_num)
    (by simp; norm_num) (by simp) _ (by rw [rk45Solve, hrun]) ?_
  rw [hrun]
  simp

end Multicalc
