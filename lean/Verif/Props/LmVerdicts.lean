import Verif.Props.TrustRegion

/-!
# What the verdicts of Levenberg-Marquardt mean (C129)
-/

namespace Multicalc

variable {m n : ℕ}

/-- A pass that ends the search ends with one trial from the point the pass began at. -/
theorem trials_stop (minPositive largest : ℝ) (g : LevenbergMarquardt ℝ) (f : (Fin n → ℝ) → Fin m → ℝ)
    (d : DampedLeastSquares n ℝ) (left : ℕ) :
    ∀ (s s' : LmState n ℝ) (tried : List (Fin n → ℝ)) (reason : TerminationReason),
      LevenbergMarquardt.trials minPositive largest g f d left s = (tried, .stop s' reason) →
      ∃ s₁, s₁.x = s.x ∧ s₁.diag = s.diag ∧ (LevenbergMarquardt.trial minPositive largest g f d s₁).2 = .stop s' reason := by
  induction left with
  | zero =>
    intro s s' tried reason h
    simp [LevenbergMarquardt.trials] at h
  | succ left ih =>
    intro s s' tried reason h
    unfold LevenbergMarquardt.trials at h
    rcases hT : LevenbergMarquardt.trial minPositive largest g f d s with ⟨xNew, out⟩
    rw [hT] at h
    cases out with
    | nonFinite => simp at h
    | stop t r =>
      simp only [Prod.mk.injEq] at h
      exact ⟨s, rfl, rfl, by rw [hT]; exact h.2⟩
    | go next accepted =>
      cases accepted with
      | true => simp at h
      | false =>
        simp only [Bool.false_eq_true, if_false, Prod.mk.injEq] at h
        obtain ⟨-, hx, hdg, -⟩ := trust_region_resize minPositive largest g f d s next false (by rw [hT])
        simp only [Bool.false_eq_true, if_false] at hx
        obtain ⟨s₁, h1, h2, h3⟩ := ih next s' _ reason (Prod.ext rfl h.2)
        exact ⟨s₁, h1.trans hx, h2.trans hdg, h3⟩

/-- A pass that goes on goes on from the point it began at or from one it tried. -/
theorem trials_go (minPositive largest : ℝ) (g : LevenbergMarquardt ℝ) (f : (Fin n → ℝ) → Fin m → ℝ)
    (d : DampedLeastSquares n ℝ) (left : ℕ) :
    ∀ (s s' : LmState n ℝ) (tried : List (Fin n → ℝ)) (accepted : Bool),
      LevenbergMarquardt.trials minPositive largest g f d left s = (tried, .go s' accepted) →
      s'.x ∈ s.x :: tried := by
  induction left with
  | zero =>
    intro s s' tried accepted h
    simp only [LevenbergMarquardt.trials, Prod.mk.injEq, LmOutcome.go.injEq] at h
    rw [← h.2.1]
    exact List.mem_cons_self
  | succ left ih =>
    intro s s' tried accepted h
    unfold LevenbergMarquardt.trials at h
    rcases hT : LevenbergMarquardt.trial minPositive largest g f d s with ⟨xNew, out⟩
    have hN : xNew = fun j => s.x j - (determineLambda minPositive largest d s.diag s.delta s.par).2 j := by
      have e : (LevenbergMarquardt.trial minPositive largest g f d s).1 = xNew := by rw [hT]
      rw [← e]
      unfold LevenbergMarquardt.trial
      dsimp only
      split_ifs <;> rfl
    rw [hT] at h
    cases out with
    | nonFinite => simp at h
    | stop t r => simp at h
    | go next acc =>
      obtain ⟨-, hx, -⟩ := trust_region_resize minPositive largest g f d s next acc (by rw [hT])
      cases acc with
      | true =>
        simp only [if_true, Prod.mk.injEq, LmOutcome.go.injEq] at h hx
        rw [← h.1, ← h.2.1, hx, hN]
        simp
      | false =>
        simp only [Bool.false_eq_true, if_false, Prod.mk.injEq] at h hx
        have := ih next s' _ accepted (Prod.ext rfl h.2)
        rw [hx] at this
        rw [← h.1]
        rcases List.mem_cons.1 this with e | e
        · rw [e]
          exact List.mem_cons_self
        · exact List.mem_cons_of_mem _ (List.mem_cons_of_mem _ e)

theorem lm_loop_verdicts (minPositive largest : ℝ) (g : LevenbergMarquardt ℝ) (f : (Fin n → ℝ) → Fin m → ℝ)
    (jacobian : (Fin n → ℝ) → Except MinimizeError (Matrix (Fin m) (Fin n) ℝ)) (left : ℕ) :
    ∀ (s : LmState n ℝ) (k : ℕ) (tried : List (Fin n → ℝ)) (r : MinimizationReport n ℝ),
      LevenbergMarquardt.loop minPositive largest g f jacobian left s k = (tried, .ok r) →
      r.termination = .gtol ∨ ∃ s₁ s' : LmState n ℝ, s₁.x ∈ s.x :: tried ∧ ∃ j q, jacobian s₁.x = .ok j
        ∧ PivotedQr.decompose minPositive largest j = .ok q ∧ r.solution = s'.x
        ∧ (LevenbergMarquardt.trial minPositive largest g f (q.intoDamped (f s₁.x)) s₁).2 = .stop s' r.termination := by
  induction left with
  | zero =>
    intro s k tried r h
    simp [LevenbergMarquardt.loop] at h
  | succ left ih =>
    intro s k tried r h
    unfold LevenbergMarquardt.loop at h
    have hprep : ∀ c, (LevenbergMarquardt.rescale g c (LevenbergMarquardt.prepare minPositive largest g c s)).x = s.x := by
      intro c
      unfold LevenbergMarquardt.rescale LevenbergMarquardt.prepare
      split_ifs <;> rfl
    cases hj : jacobian s.x with
    | error e => simp [hj] at h
    | ok j =>
      simp only [hj, real_matrixFinite, Bool.not_true, Bool.false_eq_true, if_false] at h
      cases hq : PivotedQr.decompose minPositive largest j with
      | error e => simp [hq] at h
      | ok q =>
        simp only [hq] at h
        split_ifs at h with h0
        · left
          simp only [Prod.mk.injEq, Except.ok.injEq] at h
          rw [← h.2]
          rfl
        · rcases hT : LevenbergMarquardt.trials minPositive largest g f (q.intoDamped (f s.x)) 100
            (LevenbergMarquardt.rescale g (q.intoDamped (f s.x)).columnNorms
              (LevenbergMarquardt.prepare minPositive largest g (q.intoDamped (f s.x)).columnNorms s)) with ⟨points, out⟩
          rw [hT] at h
          cases out with
          | nonFinite => simp at h
          | stop t reason =>
            right
            simp only [Prod.mk.injEq, Except.ok.injEq] at h
            obtain ⟨s₁, h1, -, h3⟩ := trials_stop _ _ _ _ _ _ _ _ _ _ hT
            rw [hprep] at h1
            refine ⟨s₁, t, by rw [h1]; exact List.mem_cons_self, j, q, by rw [h1]; exact hj, hq, by rw [← h.2]; rfl, ?_⟩
            rw [h1, h3, ← h.2]
            rfl
          | go t acc =>
            simp only [Prod.mk.injEq] at h
            rcases ih t _ _ r (Prod.ext rfl h.2) with hg | ⟨s₁, s', hm, hrest⟩
            · exact Or.inl hg
            · refine Or.inr ⟨s₁, s', ?_, hrest⟩
              have ht := trials_go _ _ _ _ _ _ _ _ _ _ hT
              rw [hprep] at ht
              rw [← h.1]
              rcases List.mem_cons.1 hm with e | e
              · rw [e]
                rcases List.mem_cons.1 ht with e | e
                · rw [e]
                  exact List.mem_cons_self
                · exact List.mem_cons_of_mem _ (List.mem_append_left _ e)
              · exact List.mem_cons_of_mem _ (List.mem_append_right _ e)

/-- C129. What the other two verdicts of a whole run mean, whatever the problem.  The last trial was made from a point the
solver evaluated, with the factors of the Jacobian there, and its verdict is the one reported; the solution is that point
or the one tried from it.  For a tolerance below one, "the objective stopped changing" means that the sums of squares at
these two points differ by at most the tolerance times the one at the former; "the region vanished" means that the radius
left after the last trial is within the tolerance times the scaled size of the point. -/
theorem levenberg_marquardt_verdicts (minPositive largest : ℝ) (g : LevenbergMarquardt ℝ) (f : (Fin n → ℝ) → Fin m → ℝ)
    (jacobian : (Fin n → ℝ) → Except MinimizeError (Matrix (Fin m) (Fin n) ℝ)) (x₀ : Fin n → ℝ) (r : MinimizationReport n ℝ)
    (h : (g.minimize minPositive largest f jacobian x₀).2 = .ok r) (hr : r.termination ≠ .gtol) (hf : g.ftol < 1) :
    ∃ s s' : LmState n ℝ, s.x ∈ (g.minimize minPositive largest f jacobian x₀).1 ∧ ∃ j q, jacobian s.x = .ok j
      ∧ PivotedQr.decompose minPositive largest j = .ok q
      ∧ (LevenbergMarquardt.trial minPositive largest g f (q.intoDamped (f s.x)) s).2 = .stop s' r.termination
      ∧ r.solution = s'.x
      ∧ let p := (determineLambda minPositive largest (q.intoDamped (f s.x)) s.diag s.delta s.par).2
        (r.solution = s.x ∨ r.solution = fun i => s.x i - p i)
        ∧ (r.termination = .ftol
            ∧ |arrayNorm minPositive largest (f s.x) ^ 2 - arrayNorm minPositive largest (f fun i => s.x i - p i) ^ 2|
              ≤ g.ftol * arrayNorm minPositive largest (f s.x) ^ 2
          ∨ r.termination = .xtol
            ∧ (s'.delta ≤ g.xtol * arrayNorm minPositive largest (fun i => s.diag i * r.solution i)
              ∨ r.solution = s.x ∧ s'.delta ≤ g.xtol * s.xnorm)) := by
  unfold LevenbergMarquardt.minimize at h ⊢
  simp only [real_allFinite, Bool.not_true, Bool.false_eq_true, if_false] at h ⊢
  rcases lm_loop_verdicts minPositive largest g f jacobian g.patience _ 1 _ r (Prod.ext rfl h) with hg | hv
  · exact absurd hg hr
  · obtain ⟨s, s', hm, j, q, hj, hq, hsol, ht⟩ := hv
    refine ⟨s, s', hm, j, q, hj, hq, ht, hsol, ?_⟩
    let p := (determineLambda minPositive largest (q.intoDamped (f s.x)) s.diag s.delta s.par).2
    constructor
    · rcases LevenbergMarquardt.trial_cases minPositive largest g f (q.intoDamped (f s.x)) s with ⟨-, he⟩ | ⟨-, next, acc, -, hnx, he⟩
      · rw [he] at ht
        cases ht
      · have hn : next = s' := by
          rcases he with he | he | he
          · rw [he] at ht
            injection ht
          · rw [he] at ht
            injection ht
          · rw [he] at ht
            cases ht
        rw [hsol, ← hn, hnx]
        cases acc
        · exact Or.inl rfl
        · exact Or.inr rfl
    · rcases trial_verdicts minPositive largest g f (q.intoDamped (f s.x)) s s' _ ht with ⟨h1, h2, -⟩ | ⟨h1, h2⟩
      · refine Or.inl ⟨h1, ?_⟩
        change |if arrayNorm minPositive largest (f fun i => s.x i - p i) < 10 * arrayNorm minPositive largest (f s.x)
          then 1 - (arrayNorm minPositive largest (f fun i => s.x i - p i) / arrayNorm minPositive largest (f s.x)) ^ 2 else -1|
            ≤ g.ftol at h2
        change |arrayNorm minPositive largest (f s.x) ^ 2 - arrayNorm minPositive largest (f fun i => s.x i - p i) ^ 2|
              ≤ g.ftol * arrayNorm minPositive largest (f s.x) ^ 2
        have ha := LevenbergMarquardt.arrayNorm_nonneg minPositive largest (f fun i => s.x i - p i)
        generalize arrayNorm minPositive largest (f fun i => s.x i - p i) = after at *
        generalize arrayNorm minPositive largest (f s.x) = before at *
        split_ifs at h2 with hc
        · have hb : 0 < before := by linarith
          have e : before ^ 2 - after ^ 2 = (1 - (after / before) ^ 2) * before ^ 2 := by
            field_simp
          rw [e, abs_mul, abs_of_nonneg (sq_nonneg before)]
          exact mul_le_mul_of_nonneg_right h2 (sq_nonneg _)
        · rw [abs_neg, abs_one] at h2
          linarith
      · right
        refine ⟨h1, ?_⟩
        rcases h2 with ⟨-, -, h3⟩ | ⟨-, hx, h3⟩
        · left
          rw [hsol]
          exact h3
        · exact Or.inr ⟨hsol.trans hx, h3⟩

/-- The hypotheses are met: on `f(x) = x + 5 (1 − x)²`, started at 1 with a coarse tolerance on the step. -/
example : let f : (Fin 1 → ℝ) → Fin 1 → ℝ := fun x _ => x 0 + 5 * (1 - x 0) ^ 2
    let jacobian : (Fin 1 → ℝ) → Except MinimizeError (Matrix (Fin 1) (Fin 1) ℝ) := fun x => .ok fun _ _ => 1 - 10 * (1 - x 0)
    let g : LevenbergMarquardt ℝ := { LevenbergMarquardt.default with xtol := 1 / 2 }
    g.ftol < 1 ∧ ∃ r, (g.minimize 0 1000 f jacobian fun _ => 1).2 = .ok r ∧ r.termination = .xtol := by
  intro f jacobian g
  have hone : List.finRange 1 = [0] := rfl
  have hroot : (30 : ℝ) < √1000 := Real.lt_sqrt_of_sq_lt (by norm_num)
  have hnorm : ∀ a : ℝ, 0 ≤ a → a ≤ 30 → arrayNorm (0 : ℝ) 1000 (fun _ : Fin 1 => a) = a := by
    intro a h0 h1
    have e : (fun _ : Fin 1 => a) ⬝ᵥ (fun _ : Fin 1 => a) = a ^ 2 := by simp [dotProduct, sq]
    rw [arrayNorm_eq, e, Real.sqrt_sq h0]
    rw [e, Real.sqrt_sq h0]
    push_cast
    linarith
  have h1 : enorm (0 : ℝ) 1000 [1] = 1 := by simpa [arrayNorm, hone] using hnorm 1 (by norm_num) (by norm_num)
  have hj : jacobian (fun _ => 1) = .ok fun _ _ => 1 := by simp [jacobian]
  have hf : f (fun _ => 1) = fun _ => 1 := by simp [f]
  have hlt : ¬ ((1 : ℝ) < 0) := by norm_num
  have hq : ∃ q, PivotedQr.decompose (0 : ℝ) 1000 (fun _ _ => 1 : Matrix (Fin 1) (Fin 1) ℝ) = .ok q
      ∧ q.intoDamped (fun _ => 1) = ⟨!![-1], fun _ => -1, id, fun _ => 1⟩ := by
    refine ⟨_, by unfold PivotedQr.decompose; exact dif_pos le_rfl, ?_⟩
    simp [PivotedQr.intoDamped, hone, h1, qrStep, pivotColumn, swapColumns, indicesFrom, PivotedQr.transposeApply,
      PivotedQr.applyReflector, reflect, sumOver, hlt]
    refine ⟨?_, ?_⟩
    · ext i j
      fin_cases i; fin_cases j
      simp [PivotedQr.triangular]
    · funext i
      fin_cases i
      simp
  obtain ⟨q, hq, hd⟩ := hq
  have hgf : g.ftol < 1 ∧ g.gtol < 1 := by
    simp [g, LevenbergMarquardt.default, Fns.epsilon]
    norm_num
  refine ⟨hgf.1, ?_⟩
  obtain ⟨d, hd'⟩ : ∃ d : DampedLeastSquares 1 ℝ, d = ⟨!![-1], fun _ => -1, id, fun _ => 1⟩ := ⟨_, rfl⟩
  have hgn : d.solveWithZeroDiagonal.1 = fun _ => 1 := by
    funext i
    fin_cases i
    simp [hd', DampedLeastSquares.solveWithZeroDiagonal, DampedLeastSquares.solveWithDiagonal, DampedLeastSquares.eliminated,
      eliminateRow, DampedLeastSquares.leading, DampedLeastSquares.backSolve, PivotedQr.unpermute, sumOver, indicesFrom, hone]
  have hgt : d.maxAtbScaled 1 = 1 := by
    simp [hd', DampedLeastSquares.maxAtbScaled, hone, sumOver, qrMax, Fns.abs]
  have hax : d.aXNorm 0 1000 (fun _ => 1) = 1 := by
    have e : arrayNorm (0 : ℝ) 1000 (fun _ : Fin 1 => -1) = 1 := by
      have e : (fun _ : Fin 1 => (-1 : ℝ)) ⬝ᵥ (fun _ : Fin 1 => (-1 : ℝ)) = 1 := by simp [dotProduct]
      rw [arrayNorm_eq, e, Real.sqrt_one]
      rw [e, Real.sqrt_one]
      push_cast
      linarith
    simpa [hd', DampedLeastSquares.aXNorm, arrayNorm, hone] using e
  have hn1 : arrayNorm (0 : ℝ) 1000 (fun _ : Fin 1 => 1) = 1 := hnorm 1 (by norm_num) (by norm_num)
  obtain ⟨s, hs⟩ : ∃ s : LmState 1 ℝ, s = ⟨fun _ => 1, fun _ => 1, 100, 1, 0, true⟩ := ⟨_, rfl⟩
  have hlam : determineLambda (0 : ℝ) 1000 d s.diag s.delta s.par = (0, fun _ => 1) := by
    unfold determineLambda
    rw [hgn]
    have : arrayNorm (0 : ℝ) 1000 (fun j => s.diag j * (1 : ℝ)) = 1 := by simpa [hs] using hn1
    simp only [this]
    rw [if_pos]
    simp [hs, Fns.lit]
    norm_num
  have hp : arrayNorm (0 : ℝ) 1000 (fun j => s.diag j * (1 : ℝ)) = 1 := by simpa [hs] using hn1
  have hf0 : arrayNorm (0 : ℝ) 1000 (f s.x) = 1 := by simpa [f, hs] using hn1
  have hx : (fun j => s.x j - 1) = (fun _ => 0 : Fin 1 → ℝ) := by
    funext j
    simp [hs]
  have hf1 : arrayNorm (0 : ℝ) 1000 (f fun _ => 0) = 5 := by
    have := hnorm 5 (by norm_num) (by norm_num)
    simpa [f] using this
  have hr : LevenbergMarquardt.reductions (1 : ℝ) 5 1 0 1 = (-24, 1, -1, -24) := by
    simp [LevenbergMarquardt.reductions, Fns.lit, Fns.sqrt]
    norm_num
  have hz : LevenbergMarquardt.resize (1 : ℝ) 5 (-24) (-1) (-24) 1 0 1 = (1 / 10, 0) := by
    simp [LevenbergMarquardt.resize, Fns.lit, qrMin]
    norm_num
  have h100 : qrMin (100 : ℝ) 1 = 1 := by
    simp [qrMin]
  have ht : LevenbergMarquardt.trial (0 : ℝ) 1000 g f d s = (fun _ => 0, .stop ⟨s.x, s.diag, 1 / 10, 1, 0, false⟩ .xtol) := by
    unfold LevenbergMarquardt.trial
    simp only [hlam]
    have s1 : s.first = true := by rw [hs]
    have s2 : s.delta = 100 := by rw [hs]
    have s3 : s.xnorm = 1 := by rw [hs]
    simp only [hax, hp, hf0, hx, hf1, hr, real_allFinite, s1, s2, s3, h100, hz, Bool.not_true, Bool.false_eq_true, if_false, if_true]
    have e4 : decide ((Fns.lit (1 / 10000) : ℝ) ≤ -24) = false := by
      simp [Fns.lit]
      norm_num
    rw [if_neg (fun h => absurd h.2.1 (not_le.2 hgf.1)), e4]
    simp only [Bool.false_eq_true, if_false, mul_one]
    rw [if_pos (by norm_num [g])]
  refine ⟨report (fun _ => 1) 1 2 .xtol, ?_, rfl⟩
  unfold LevenbergMarquardt.minimize
  simp only [real_allFinite, Bool.not_true, Bool.false_eq_true, if_false]
  rw [show g.patience = 99 + 1 from rfl]
  unfold LevenbergMarquardt.loop
  simp only [hj, hq, real_matrixFinite, Bool.not_true, Bool.false_eq_true, if_false, hf, hd, ← hd', hn1, hgt]
  rw [if_neg (not_le.2 hgf.2)]
  have hprep : LevenbergMarquardt.rescale g d.columnNorms (LevenbergMarquardt.prepare 0 1000 g d.columnNorms
      ⟨fun _ => 1, fun _ => 0, 0, 0, 0, true⟩) = s := by
    have : d.columnNorms = fun _ => 1 := by rw [hd']
    rw [this, hs]
    simp [LevenbergMarquardt.rescale, LevenbergMarquardt.prepare, g, LevenbergMarquardt.default, hn1, qrMax]
  rw [hprep]
  simp only [LevenbergMarquardt.trials, ht]
  have : s.x = fun _ => 1 := by rw [hs]
  simp [this, hf, hn1, matrixFinite, Fns.isFinite]

end Multicalc
