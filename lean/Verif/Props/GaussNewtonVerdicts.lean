import Verif.Props.OptimizationExact

/-!
# What the verdicts of Gauss-Newton mean (C80)
-/

namespace Multicalc

variable {m n : ℕ}

/-- What a run that ends at `r` with the points `tried` after `x` says about its last step. -/
theorem gn_loop_verdicts (minPositive largest : ℝ) (g : GaussNewton ℝ) (f : (Fin n → ℝ) → Fin m → ℝ)
    (jacobian : (Fin n → ℝ) → Except MinimizeError (Matrix (Fin m) (Fin n) ℝ)) (left : ℕ) :
    ∀ (x : Fin n → ℝ) (k : ℕ) (tried : List (Fin n → ℝ)) (r : MinimizationReport n ℝ),
      GaussNewton.loop minPositive largest g f jacobian left x k = (tried, .ok r) →
      r.termination = .gtol ∨ ∃ y ∈ x :: tried, ∃ j q step a, jacobian y = .ok j ∧ PivotedQr.decompose minPositive largest j = .ok q
        ∧ q.solveLeastSquares (f y) = .ok step
        ∧ (GaussNewton.lineSearch minPositive largest g.backtracking f y step (arrayNorm minPositive largest (f y)) 20 1).2
          = some (a, r.solution)
        ∧ (r.termination = .xtol ∧ a * arrayNorm minPositive largest step ≤ g.xtol * arrayNorm minPositive largest r.solution
          ∨ r.termination = .ftol
            ∧ |arrayNorm minPositive largest (f y) - arrayNorm minPositive largest (f r.solution)|
                ≤ g.ftol * arrayNorm minPositive largest (f y)) := by
  induction left with
  | zero =>
    intro x k tried r h
    simp [GaussNewton.loop] at h
  | succ left ih =>
    intro x k tried r h
    unfold GaussNewton.loop at h
    cases hj : jacobian x with
    | error e => simp [hj] at h
    | ok j =>
      simp only [hj, real_matrixFinite, Bool.not_true, Bool.false_eq_true, if_false] at h
      cases hq : PivotedQr.decompose minPositive largest j with
      | error e => simp [hq] at h
      | ok q =>
        simp only [hq] at h
        split_ifs at h with h0 h1
        · left
          simp only [Prod.mk.injEq, Except.ok.injEq] at h
          rw [← h.2]
          rfl
        · left
          simp only [Prod.mk.injEq, Except.ok.injEq] at h
          rw [← h.2]
          rfl
        · cases hs : q.solveLeastSquares (f x) with
          | error e => simp [hs] at h
          | ok step =>
            simp only [hs] at h
            rcases hL : GaussNewton.lineSearch minPositive largest g.backtracking f x step
              (arrayNorm minPositive largest (f x)) 20 1 with ⟨points, _ | ⟨a, y⟩⟩
            · simp [hL] at h
            · simp only [hL] at h
              split_ifs at h with h2 h3
              · right
                simp only [Prod.mk.injEq, Except.ok.injEq] at h
                obtain ⟨ht, hr⟩ := h
                subst hr
                exact ⟨x, List.mem_cons_self, j, q, step, a, hj, hq, hs, by rw [hL]; rfl, Or.inl ⟨rfl, h2⟩⟩
              · right
                simp only [Prod.mk.injEq, Except.ok.injEq] at h
                obtain ⟨ht, hr⟩ := h
                subst hr
                exact ⟨x, List.mem_cons_self, j, q, step, a, hj, hq, hs, by rw [hL]; rfl, Or.inr ⟨rfl, h3⟩⟩
              · simp only [Prod.mk.injEq] at h
                obtain ⟨ht, hr⟩ := h
                rcases ih y _ _ r (Prod.ext rfl hr) with hg | ⟨z, hz, hrest⟩
                · exact Or.inl hg
                · refine Or.inr ⟨z, ?_, hrest⟩
                  have hy : y ∈ points := by
                    have := (GaussNewton.lineSearch_spec minPositive largest g.backtracking f x step
                      (arrayNorm minPositive largest (f x)) 20 1).2.2.2 a y (by rw [hL])
                    rw [hL] at this
                    exact this.1
                  rw [← ht]
                  rcases List.mem_cons.1 hz with rfl | hz
                  · exact List.mem_cons_of_mem _ (List.mem_append_left _ hy)
                  · exact List.mem_cons_of_mem _ (List.mem_append_right _ hz)

/-- C80. What the other two verdicts of Gauss-Newton mean, whatever the problem.  The solution is one step away from a point
`y` the solver evaluated: a multiple `a` (one, without backtracking) of the least-squares step there.  "The parameters
stopped changing": the length of that multiple is within the tolerance times the norm of the solution.  "The objective
stopped changing": the residual norms at the two points differ by at most the tolerance times the one at `y`. -/
theorem gauss_newton_verdicts (minPositive largest : ℝ) (g : GaussNewton ℝ) (f : (Fin n → ℝ) → Fin m → ℝ)
    (jacobian : (Fin n → ℝ) → Except MinimizeError (Matrix (Fin m) (Fin n) ℝ)) (x₀ : Fin n → ℝ) (r : MinimizationReport n ℝ)
    (h : (g.minimize minPositive largest f jacobian x₀).2 = .ok r) (hr : r.termination ≠ .gtol) :
    ∃ y ∈ (g.minimize minPositive largest f jacobian x₀).1, ∃ j q step a, jacobian y = .ok j
      ∧ PivotedQr.decompose minPositive largest j = .ok q ∧ q.solveLeastSquares (f y) = .ok step
      ∧ (r.solution = fun k => y k - a * step k) ∧ (g.backtracking = false → a = 1)
      ∧ (r.termination = .xtol ∧ a * enorm minPositive largest ((List.finRange n).map step)
            ≤ g.xtol * enorm minPositive largest ((List.finRange n).map r.solution)
        ∨ r.termination = .ftol
          ∧ |enorm minPositive largest ((List.finRange m).map (f y))
              - enorm minPositive largest ((List.finRange m).map (f r.solution))|
            ≤ g.ftol * enorm minPositive largest ((List.finRange m).map (f y))) := by
  unfold GaussNewton.minimize at h ⊢
  simp only [real_allFinite, Bool.not_true, Bool.false_eq_true, if_false] at h ⊢
  rcases gn_loop_verdicts minPositive largest g f jacobian g.patience x₀ 1 _ r (Prod.ext rfl h) with hg | hv
  · exact absurd hg hr
  · obtain ⟨y, hy, j, q, step, a, h1, h2, h3, h4, h5⟩ := hv
    obtain ⟨-, -, hsol, ha, -⟩ := (GaussNewton.lineSearch_spec minPositive largest g.backtracking f y step
      (arrayNorm minPositive largest (f y)) 20 1).2.2.2 a _ h4
    exact ⟨y, hy, j, q, step, a, h1, h2, h3, hsol, ha, h5⟩

/-- The hypotheses are met: on `f(x) = 5x/4 − x³/4` the default solver stops for the objective. -/
example : ∃ r, (GaussNewton.default.minimize (0 : ℝ) 1000000 (fun x (_ : Fin 1) => 5 / 4 * x 0 - x 0 ^ 3 / 4)
      (fun x : Fin 1 → ℝ => .ok fun _ _ => 5 / 4 - 3 / 4 * x 0 ^ 2) fun _ => 1).2 = .ok r
    ∧ r.termination ≠ .gtol := by
  obtain ⟨-, ⟨r, h1, h2, -⟩, -⟩ := gauss_newton_stalls 0 1000000 le_rfl
  exact ⟨r, h1, by rw [h2]; simp⟩

end Multicalc
