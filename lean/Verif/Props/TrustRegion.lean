import Verif.Props.OptimizationExact

/-!
# How Levenberg-Marquardt sizes its trust region (C129)
-/

namespace Multicalc

variable {m n : ℕ}

/-- The factor by which a poor step shrinks the region is between a tenth and a half. -/
theorem shrink_factor (actred a b : ℝ) (near : Prop) [Decidable near] :
    let dirder := -(a * a + b * b)
    let first := if 0 ≤ actred then (1 : ℝ) / 2
      else if (dirder + 1 / 2 * actred != 0) = true then 1 / 2 * dirder / (dirder + 1 / 2 * actred) else 1 / 2
    let θ := if near ∨ first < 1 / 10 then (1 : ℝ) / 10 else first
    1 / 10 ≤ θ ∧ θ ≤ 1 / 2 := by
  intro dirder first θ
  have hd : dirder ≤ 0 := by
    have := mul_self_nonneg a
    have := mul_self_nonneg b
    simp only [dirder]
    linarith
  have hf : first ≤ 1 / 2 := by
    simp only [first]
    split_ifs with h1 h2
    · exact le_refl _
    · have hneg : dirder + 1 / 2 * actred < 0 := by linarith [not_le.1 h1]
      rw [div_le_iff_of_neg hneg]
      linarith [not_le.1 h1]
    · exact le_refl _
  simp only [θ]
  split_ifs with h
  · norm_num
  · push Not at h
    exact ⟨h.2, hf⟩

/-- The reductions over the reals. -/
theorem reductions_real (before after a lam pnorm : ℝ) :
    let actual := if after < 10 * before then 1 - (after / before) ^ 2 else -1
    let predicted := (a / before) ^ 2 + 2 * (√lam * pnorm / before) ^ 2
    LevenbergMarquardt.reductions before after a lam pnorm
      = (actual, predicted, -(a / before * (a / before) + √lam * pnorm / before * (√lam * pnorm / before)),
        actual / predicted) := by
  intro actual predicted
  have hp : a / before * (a / before) + √lam * pnorm / before * (√lam * pnorm / before) / (1 / ((2 : ℕ) : ℝ)) = predicted := by
    simp only [predicted]
    push_cast
    ring
  have ha : (if (Fns.lit (1 / 10) : ℝ) * after < before then 1 - after / before * (after / before) else -1) = actual := by
    have e : (Fns.lit (1 / 10) : ℝ) = 1 / 10 := by simp [Fns.lit]
    simp only [actual, e, sq]
    by_cases hc : after < 10 * before
    · rw [if_pos hc, if_pos (by linarith)]
    · rw [if_neg hc, if_neg (by linarith)]
  unfold LevenbergMarquardt.reductions
  simp only [Fns.sqrt] at hp ⊢
  rw [ha, hp]
  by_cases hz : predicted = 0
  · simp [hz]
  · simp [hz]

theorem outcome_go {c₁ c₂ : Prop} [Decidable c₁] [Decidable c₂] {x : Fin n → ℝ} {N s' : LmState n ℝ} {a b : Bool}
    (h : (if c₁ then (x, LmOutcome.stop N .ftol) else if c₂ then (x, .stop N .xtol) else (x, .go N a)).2 = .go s' b) :
    N = s' ∧ a = b := by
  split_ifs at h
  injection h with h₁ h₂
  exact ⟨h₁, h₂⟩

/-- C129. How the trust region is resized after a step that does not end the search.  The verdict is the share of the
predicted reduction that was had.  A share of a quarter or less shrinks the region to between a tenth and a half of the
old radius, or of ten steps if that is less, and raises the damping by the same factor; three quarters or more, or an
undamped step, makes it two steps wide and halves the damping; anything between leaves both alone.  The step is taken
when the share is at least a ten-thousandth. -/
theorem trust_region_resize (minPositive largest : ℝ) (g : LevenbergMarquardt ℝ) (f : (Fin n → ℝ) → Fin m → ℝ)
    (d : DampedLeastSquares n ℝ) (s s' : LmState n ℝ) (accepted : Bool)
    (h : (LevenbergMarquardt.trial minPositive largest g f d s).2 = .go s' accepted) :
    let lam := (determineLambda minPositive largest d s.diag s.delta s.par).1
    let p := (determineLambda minPositive largest d s.diag s.delta s.par).2
    let pnorm := arrayNorm minPositive largest fun j => s.diag j * p j
    let delta := if s.first then min s.delta pnorm else s.delta
    let before := arrayNorm minPositive largest (f s.x)
    let after := arrayNorm minPositive largest (f fun j => s.x j - p j)
    let actual := if after < 10 * before then 1 - (after / before) ^ 2 else -1
    let predicted := (d.aXNorm minPositive largest p / before) ^ 2 + 2 * (√lam * pnorm / before) ^ 2
    let share := actual / predicted
    (accepted = true ↔ 1 / 10000 ≤ share)
    ∧ (s'.x = if accepted then fun j => s.x j - p j else s.x) ∧ s'.diag = s.diag ∧ s'.first = false
    ∧ (share ≤ 1 / 4 → ∃ θ, 1 / 10 ≤ θ ∧ θ ≤ 1 / 2 ∧ (10 * before ≤ after → θ = 1 / 10) ∧ (0 ≤ actual → after < 10 * before → θ = 1 / 2)
        ∧ s'.delta = θ * min delta (10 * pnorm) ∧ s'.par = lam / θ)
    ∧ (1 / 4 < share → lam = 0 ∨ 3 / 4 ≤ share → s'.delta = 2 * pnorm ∧ s'.par = lam / 2)
    ∧ (1 / 4 < share → lam ≠ 0 → share < 3 / 4 → s'.delta = delta ∧ s'.par = lam) := by
  intro lam p pnorm delta before after actual predicted share
  have hmin : ∀ a b : ℝ, qrMin a b = min a b := by
    intro a b
    unfold qrMin
    split_ifs with h
    · exact (min_eq_right h.le).symm
    · exact (min_eq_left (not_lt.1 h)).symm
  have hfin : ∀ v : Fin m → ℝ, allFinite v = true := fun v => by simp [allFinite, Fns.isFinite]
  have hr : LevenbergMarquardt.reductions before after (d.aXNorm minPositive largest p) lam pnorm
      = (actual, predicted, -(d.aXNorm minPositive largest p / before * (d.aXNorm minPositive largest p / before)
          + √lam * pnorm / before * (√lam * pnorm / before)), share) := reductions_real ..
  have hdelta : (if s.first = true then qrMin s.delta pnorm else s.delta) = delta := by simp only [hmin, delta]
  set size := LevenbergMarquardt.resize before after actual
          (-(d.aXNorm minPositive largest p / before * (d.aXNorm minPositive largest p / before)
          + √lam * pnorm / before * (√lam * pnorm / before))) share delta lam pnorm with hsize
  obtain ⟨hx, hdg, hdl, hpr, hfs, hacc⟩ : (s'.x = if decide ((Fns.lit (1 / 10000) : ℝ) ≤ share) = true then fun j => s.x j - p j else s.x)
      ∧ s'.diag = s.diag ∧ s'.delta = size.1 ∧ s'.par = size.2 ∧ s'.first = false
      ∧ decide ((Fns.lit (1 / 10000) : ℝ) ≤ share) = accepted := by
    unfold LevenbergMarquardt.trial at h
    simp only [hfin, Bool.not_true, Bool.false_eq_true, if_false] at h
    obtain ⟨hs, hacc⟩ := outcome_go h
    change decide ((Fns.lit (1 / 10000) : ℝ) ≤ (LevenbergMarquardt.reductions before after (d.aXNorm minPositive largest p) lam pnorm).2.2.2) = _ at hacc
    rw [hr] at hacc
    have hsz : ∀ δ, LevenbergMarquardt.resize before after
        (LevenbergMarquardt.reductions before after (d.aXNorm minPositive largest p) lam pnorm).1
        (LevenbergMarquardt.reductions before after (d.aXNorm minPositive largest p) lam pnorm).2.2.1
        (LevenbergMarquardt.reductions before after (d.aXNorm minPositive largest p) lam pnorm).2.2.2
        δ lam pnorm = LevenbergMarquardt.resize before after actual
        (-(d.aXNorm minPositive largest p / before * (d.aXNorm minPositive largest p / before)
        + √lam * pnorm / before * (√lam * pnorm / before))) share δ lam pnorm := by
      intro δ
      rw [hr]
    refine ⟨?_, by rw [← hs], ?_, ?_, by rw [← hs], hacc⟩
    · have e : share = (LevenbergMarquardt.reductions before after (d.aXNorm minPositive largest p) lam pnorm).2.2.2 := by rw [hr]
      rw [e, ← hs]
    · rw [hsize, ← hdelta, ← hsz, ← hs]
    · rw [hsize, ← hdelta, ← hsz, ← hs]
  have e4 : (Fns.lit (1 / 10000) : ℝ) = 1 / 10000 := by simp [Fns.lit]
  have e1 : (Fns.lit (1 / 4) : ℝ) = 1 / 4 := by simp [Fns.lit]
  have e3 : (Fns.lit (3 / 4) : ℝ) = 3 / 4 := by simp [Fns.lit]
  have e10 : (Fns.lit (1 / 10) : ℝ) = 1 / 10 := by simp [Fns.lit]
  have e2 : (1 : ℝ) / ((2 : ℕ) : ℝ) = 1 / 2 := by norm_num
  refine ⟨by rw [← hacc, decide_eq_true_iff, e4], by rw [hx, hacc], hdg, hfs, ?_, ?_, ?_⟩
  all_goals rw [hdl, hpr, hsize]
  · intro hs
    have hθ := shrink_factor actual (d.aXNorm minPositive largest p / before) (√lam * pnorm / before) (before ≤ 1 / 10 * after)
    refine ⟨_, hθ.1, hθ.2, ?_, ?_, ?_, ?_⟩
    · intro hfar
      rw [if_pos (Or.inl (by linarith))]
    · intro ha hc
      rw [if_pos ha, if_neg]
      rintro (h | h)
      · linarith
      · norm_num at h
    · simp only [LevenbergMarquardt.resize, e1, e3, e10, e2, hs, if_true, hmin]
      congr 2
      ring
    · simp only [LevenbergMarquardt.resize, e1, e3, e10, e2, hs, if_true, hmin]
  · intro hs hor
    have hb : (lam == 0 || decide (3 / 4 ≤ share)) = true := by
      simpa using hor
    simp only [LevenbergMarquardt.resize, e1, e3, e10, e2, not_le.2 hs, if_false, hb, if_true]
    constructor <;> ring
  · intro hs hl h34
    have hb : (lam == 0 || decide (3 / 4 ≤ share)) = false := by
      simpa using ⟨hl, h34⟩
    simp only [LevenbergMarquardt.resize, e1, e3, e10, e2, not_le.2 hs, if_false, hb, Bool.false_eq_true]
    exact ⟨trivial, trivial⟩

/-- C129. Every rejected step at least halves the trust region, so a pass whose trials are all rejected leaves the point
and the scales where they were and the radius divided by two to the number of trials. -/
theorem rejected_trials_shrink (minPositive largest : ℝ) (g : LevenbergMarquardt ℝ) (f : (Fin n → ℝ) → Fin m → ℝ)
    (d : DampedLeastSquares n ℝ) (left : ℕ) :
    ∀ (s s' : LmState n ℝ) (tried : List (Fin n → ℝ)), 0 ≤ s.delta →
      LevenbergMarquardt.trials minPositive largest g f d left s = (tried, .go s' false) →
      tried.length = left ∧ s'.x = s.x ∧ s'.diag = s.diag ∧ 0 ≤ s'.delta ∧ s'.delta ≤ s.delta / 2 ^ left := by
  induction left with
  | zero =>
    intro s s' tried hd h
    simp only [LevenbergMarquardt.trials, Prod.mk.injEq, LmOutcome.go.injEq] at h
    obtain ⟨ht, hs, -⟩ := h
    subst ht hs
    exact ⟨rfl, rfl, rfl, hd, by simp⟩
  | succ left ih =>
    intro s s' tried hd h
    unfold LevenbergMarquardt.trials at h
    rcases hT : LevenbergMarquardt.trial minPositive largest g f d s with ⟨xNew, out⟩
    rw [hT] at h
    cases out with
    | nonFinite => simp at h
    | stop t r => simp at h
    | go next accepted =>
      cases accepted with
      | true => simp at h
      | false =>
        simp only [Bool.false_eq_true, if_false, Prod.mk.injEq] at h
        obtain ⟨ht, hr⟩ := h
        obtain ⟨hacc, hx, hdg, -, hsmall, -, -⟩ := trust_region_resize minPositive largest g f d s next false (by rw [hT])
        have hp := LevenbergMarquardt.arrayNorm_nonneg minPositive largest fun j =>
          s.diag j * (determineLambda minPositive largest d s.diag s.delta s.par).2 j
        obtain ⟨θ, h1, h2, -, -, hδ, -⟩ := hsmall (by
          by_contra hc
          exact absurd (hacc.2 (by linarith [not_le.1 hc])) (by simp))
        simp only [Bool.false_eq_true, if_false] at hx
        have hle : ∀ q : ℝ, 0 ≤ q → 0 ≤ (if s.first = true then min s.delta q else s.delta)
            ∧ (if s.first = true then min s.delta q else s.delta) ≤ s.delta := by
          intro q hq
          split_ifs
          · exact ⟨le_min hd hq, min_le_left _ _⟩
          · exact ⟨hd, le_rfl⟩
        obtain ⟨l1, l2⟩ := hle _ hp
        have hn0 : 0 ≤ next.delta := by
          rw [hδ]
          exact mul_nonneg (by linarith) (le_min l1 (by linarith))
        have hn1 : next.delta ≤ s.delta / 2 := by
          rw [hδ]
          calc _ ≤ 1 / 2 * s.delta := mul_le_mul h2 ((min_le_left _ _).trans l2) (le_min l1 (by linarith)) (by norm_num)
            _ = s.delta / 2 := by ring
        obtain ⟨i1, i2, i3, i4, i5⟩ := ih next s' _ hn0 (Prod.ext rfl hr)
        refine ⟨by rw [← ht]; simp [i1], i2.trans hx, i3.trans hdg, i4, i5.trans ?_⟩
        rw [pow_succ, mul_comm, ← div_div]
        gcongr

theorem outcome_stop {c₁ c₂ : Prop} [Decidable c₁] [Decidable c₂] {x : Fin n → ℝ} {N s' : LmState n ℝ} {a : Bool} {r : TerminationReason}
    (h : (if c₁ then (x, LmOutcome.stop N .ftol) else if c₂ then (x, .stop N .xtol) else (x, .go N a)).2 = .stop s' r) :
    N = s' ∧ (r = .ftol ∧ c₁ ∨ r = .xtol ∧ c₂) := by
  split_ifs at h with h₁ h₂
  · injection h with e₁ e₂
    exact ⟨e₁, Or.inl ⟨e₂.symm, h₁⟩⟩
  · injection h with e₁ e₂
    exact ⟨e₁, Or.inr ⟨e₂.symm, h₂⟩⟩

/-- C129. What the two verdicts of a trial mean.  "The objective stopped changing": neither the actual nor the predicted
relative reduction exceeds the tolerance, and the step did at most twice as well as predicted.  "The region vanished": the
new radius is within the tolerance times the scaled size of the point returned, or, after a rejected step, of the size
recorded when that point was taken. -/
theorem trial_verdicts (minPositive largest : ℝ) (g : LevenbergMarquardt ℝ) (f : (Fin n → ℝ) → Fin m → ℝ)
    (d : DampedLeastSquares n ℝ) (s s' : LmState n ℝ) (reason : TerminationReason)
    (h : (LevenbergMarquardt.trial minPositive largest g f d s).2 = .stop s' reason) :
    let lam := (determineLambda minPositive largest d s.diag s.delta s.par).1
    let p := (determineLambda minPositive largest d s.diag s.delta s.par).2
    let pnorm := arrayNorm minPositive largest fun j => s.diag j * p j
    let before := arrayNorm minPositive largest (f s.x)
    let after := arrayNorm minPositive largest (f fun j => s.x j - p j)
    let actual := if after < 10 * before then 1 - (after / before) ^ 2 else -1
    let predicted := (d.aXNorm minPositive largest p / before) ^ 2 + 2 * (√lam * pnorm / before) ^ 2
    (reason = .ftol ∧ |actual| ≤ g.ftol ∧ predicted ≤ g.ftol ∧ actual / predicted ≤ 2)
    ∨ (reason = .xtol ∧ (1 / 10000 ≤ actual / predicted ∧ (s'.x = fun j => s.x j - p j)
          ∧ s'.delta ≤ g.xtol * arrayNorm minPositive largest (fun j => s.diag j * s'.x j)
        ∨ actual / predicted < 1 / 10000 ∧ s'.x = s.x ∧ s'.delta ≤ g.xtol * s.xnorm)) := by
  intro lam p pnorm before after actual predicted
  have hr : LevenbergMarquardt.reductions before after (d.aXNorm minPositive largest p) lam pnorm
      = (actual, predicted, -(d.aXNorm minPositive largest p / before * (d.aXNorm minPositive largest p / before)
          + √lam * pnorm / before * (√lam * pnorm / before)), actual / predicted) := reductions_real ..
  have hfin : ∀ v : Fin m → ℝ, allFinite v = true := fun v => by simp [allFinite, Fns.isFinite]
  have e4 : (Fns.lit (1 / 10000) : ℝ) = 1 / 10000 := by simp [Fns.lit]
  unfold LevenbergMarquardt.trial at h
  simp only [hfin, Bool.not_true, Bool.false_eq_true, if_false] at h
  obtain ⟨hs, ⟨rfl, hc⟩ | ⟨rfl, hc⟩⟩ := outcome_stop h
  · left
    change Fns.abs (LevenbergMarquardt.reductions before after (d.aXNorm minPositive largest p) lam pnorm).1 ≤ g.ftol
      ∧ (LevenbergMarquardt.reductions before after (d.aXNorm minPositive largest p) lam pnorm).2.1 ≤ g.ftol
      ∧ 1 / ((2 : ℕ) : ℝ) * (LevenbergMarquardt.reductions before after (d.aXNorm minPositive largest p) lam pnorm).2.2.2 ≤ 1 at hc
    rw [hr] at hc
    refine ⟨rfl, hc.1, hc.2.1, ?_⟩
    have := hc.2.2
    push_cast at this
    linarith
  · right
    refine ⟨rfl, ?_⟩
    have hacc : ∀ q : ℝ, q = (LevenbergMarquardt.reductions before after (d.aXNorm minPositive largest p) lam pnorm).2.2.2 →
        q = actual / predicted := by
      intro q hq
      rw [hq, hr]
    have hx : s'.x = if decide ((Fns.lit (1 / 10000) : ℝ) ≤ (LevenbergMarquardt.reductions before after (d.aXNorm minPositive largest p) lam pnorm).2.2.2) = true
        then fun j => s.x j - p j else s.x := by rw [← hs]
    have hd : s'.delta ≤ g.xtol * if decide ((Fns.lit (1 / 10000) : ℝ) ≤ (LevenbergMarquardt.reductions before after (d.aXNorm minPositive largest p) lam pnorm).2.2.2) = true
        then arrayNorm minPositive largest (fun j => s.diag j * (s.x j - p j)) else s.xnorm := by
      rw [← hs]
      exact hc
    rw [hr, e4] at hx hd
    by_cases hq : 1 / 10000 ≤ actual / predicted
    · left
      rw [if_pos (by simpa using hq)] at hx hd
      refine ⟨hq, hx, ?_⟩
      rw [hx]
      exact hd
    · right
      rw [if_neg (by simpa using hq)] at hx hd
      exact ⟨not_le.1 hq, hx, hd⟩

/-- The hypotheses are met: from 1, with `f(x) = x + 5 (1 − x)²`, the undamped step to 0 is rejected and the region falls to
a tenth; with a coarser tolerance on the step that ends the search. -/
example : let f : (Fin 1 → ℝ) → Fin 1 → ℝ := fun x _ => x 0 + 5 * (1 - x 0) ^ 2
    let d : DampedLeastSquares 1 ℝ := ⟨!![1], fun _ => 1, id, fun _ => 1⟩
    let s : LmState 1 ℝ := ⟨fun _ => 1, fun _ => 1, 1, 1, 0, false⟩
    let g : LevenbergMarquardt ℝ := LevenbergMarquardt.default
    ∃ s', LevenbergMarquardt.trials 0 1000 g f d 1 s = ([fun _ => 0], .go s' false) ∧ s'.delta = 1 / 10
      ∧ (LevenbergMarquardt.trial 0 1000 { g with xtol := 1 / 2 } f d s).2 = .stop s' .xtol := by
  intro f d s g
  have hone : List.finRange 1 = [0] := rfl
  have hgn : d.solveWithZeroDiagonal.1 = fun _ => 1 := by
    funext i
    fin_cases i
    simp [d, DampedLeastSquares.solveWithZeroDiagonal, DampedLeastSquares.solveWithDiagonal, DampedLeastSquares.eliminated,
      eliminateRow, DampedLeastSquares.leading, DampedLeastSquares.backSolve, PivotedQr.unpermute, sumOver, indicesFrom, hone]
  have hroot : (30 : ℝ) < √1000 := Real.lt_sqrt_of_sq_lt (by norm_num)
  have hnorm : ∀ a : ℝ, 0 ≤ a → a ≤ 30 → arrayNorm (0 : ℝ) 1000 (fun _ : Fin 1 => a) = a := by
    intro a h0 h1
    have e : (fun _ : Fin 1 => a) ⬝ᵥ (fun _ : Fin 1 => a) = a ^ 2 := by simp [dotProduct, sq]
    rw [arrayNorm_eq, e, Real.sqrt_sq h0]
    rw [e, Real.sqrt_sq h0]
    push_cast
    linarith
  have hlam : determineLambda (0 : ℝ) 1000 d s.diag s.delta s.par = (0, fun _ => 1) := by
    unfold determineLambda
    rw [hgn]
    have : arrayNorm (0 : ℝ) 1000 (fun j => s.diag j * (1 : ℝ)) = 1 := by
      simpa [s] using hnorm 1 (by norm_num) (by norm_num)
    simp only [this]
    rw [if_pos]
    simp [s, Fns.lit]
  have hax : d.aXNorm 0 1000 (fun _ => 1) = 1 := by
    have := hnorm 1 (by norm_num) (by norm_num)
    simpa [d, DampedLeastSquares.aXNorm, arrayNorm, hone] using this
  have hp : arrayNorm (0 : ℝ) 1000 (fun j => s.diag j * (1 : ℝ)) = 1 := by
    simpa [s] using hnorm 1 (by norm_num) (by norm_num)
  have hf0 : arrayNorm (0 : ℝ) 1000 (f s.x) = 1 := by
    have := hnorm 1 (by norm_num) (by norm_num)
    simpa [f, s] using this
  have hx : (fun j => s.x j - 1) = (fun _ => 0 : Fin 1 → ℝ) := by
    funext j
    simp [s]
  have hf1 : arrayNorm (0 : ℝ) 1000 (f fun _ => 0) = 5 := by
    have := hnorm 5 (by norm_num) (by norm_num)
    simpa [f] using this
  have hr : LevenbergMarquardt.reductions (1 : ℝ) 5 1 0 1 = (-24, 1, -1, -24) := by
    simp [LevenbergMarquardt.reductions, Fns.lit, Fns.sqrt]
    norm_num
  have hs : LevenbergMarquardt.resize (1 : ℝ) 5 (-24) (-1) (-24) 1 0 1 = (1 / 10, 0) := by
    simp [LevenbergMarquardt.resize, Fns.lit, qrMin]
    norm_num
  have ht : ∀ g : LevenbergMarquardt ℝ, g.ftol < 1 → LevenbergMarquardt.trial (0 : ℝ) 1000 g f d s
      = if 1 / 10 ≤ g.xtol then (fun _ => 0, .stop ⟨s.x, s.diag, 1 / 10, 1, 0, false⟩ .xtol)
        else (fun _ => 0, .go ⟨s.x, s.diag, 1 / 10, 1, 0, false⟩ false) := by
    intro g hg
    unfold LevenbergMarquardt.trial
    simp only [hlam]
    simp only [hax, hp, hf0, hx, hf1, hr, real_allFinite, show s.first = false from rfl, show s.delta = 1 from rfl,
      show s.xnorm = 1 from rfl, hs, Bool.not_true, Bool.false_eq_true, if_false]
    have e4 : decide ((Fns.lit (1 / 10000) : ℝ) ≤ -24) = false := by
      simp [Fns.lit]
      norm_num
    rw [if_neg (fun h => absurd h.2.1 (not_le.2 hg)), e4]
    simp only [Bool.false_eq_true, if_false, mul_one]
  have hd : g.ftol < 1 ∧ g.xtol < 1 / 10 := by
    simp [g, LevenbergMarquardt.default, Fns.epsilon]
    norm_num
  refine ⟨⟨s.x, s.diag, 1 / 10, 1, 0, false⟩, ?_, rfl, ?_⟩
  · simp only [LevenbergMarquardt.trials, ht g hd.1, if_neg (not_le.2 hd.2)]
    rfl
  · rw [ht { g with xtol := 1 / 2 } hd.1, if_pos (by norm_num)]

end Multicalc
