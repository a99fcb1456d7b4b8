import Verif.Model.Optimization
import Verif.Props.Damped

/-!
# Nonlinear least squares (C80)
-/

namespace Multicalc

open Matrix

section Run

variable {T : Type} [Zero T] [One T] [NatCast T] [Add T] [Sub T] [Neg T] [Mul T] [Div T] [LT T] [LE T] [BEq T]
  [DecidableLT T] [DecidableLE T] [Fns T] {m n : ℕ}

/-- What every run of either solver satisfies, started at `x` after `base` evaluations: `points` are those it went on to
evaluate. -/
structure RunSound (minPositive largest : T) (f : (Fin n → T) → Fin m → T)
    (jacobian : (Fin n → T) → Except MinimizeError (Matrix (Fin m) (Fin n) T)) (x : Fin n → T) (base : ℕ)
    (points : List (Fin n → T)) (result : Except MinimizeError (MinimizationReport n T)) : Prop where
  /-- The solution is a point that was evaluated, with finite residuals; the count and the objective are true. -/
  ok : ∀ r, result = .ok r → r.solution ∈ x :: points ∧ r.evaluations = base + points.length
    ∧ allFinite (f r.solution) = true
    ∧ r.objectiveFunction = 1 / ((2 : ℕ) : T) * enorm minPositive largest ((List.finRange m).map (f r.solution))
        * enorm minPositive largest ((List.finRange m).map (f r.solution))
  /-- Running out reports the true count. -/
  budget : ∀ k, result = .error (.didNotConverge k) → k = base + points.length
  /-- A complaint about a value is about one that was met. -/
  nonFinite : result = .error .nonFinite → ∃ y ∈ x :: points, allFinite (f y) = false
    ∨ ∃ j, jacobian y = .ok j ∧ matrixFinite j = false
  /-- A failed derivative happened at a point that was evaluated. -/
  diff : result = .error .diff → ∃ y ∈ x :: points, jacobian y = .error .diff
  /-- The linear algebra fails for two reasons only. -/
  linalg : ∀ e, result = .error (.linalg e) → (e = .underdetermined ∧ m < n) ∨ (e = .singular ∧ n ≤ m)

theorem RunSound.extend {minPositive largest : T} {f : (Fin n → T) → Fin m → T}
    {jacobian : (Fin n → T) → Except MinimizeError (Matrix (Fin m) (Fin n) T)} {x x' : Fin n → T} {base : ℕ}
    {tried points : List (Fin n → T)} {result : Except MinimizeError (MinimizationReport n T)}
    (h : RunSound minPositive largest f jacobian x' (base + tried.length) points result) (hx : x' ∈ x :: tried) :
    RunSound minPositive largest f jacobian x base (tried ++ points) result := by
  have hm : ∀ y, y ∈ x' :: points → y ∈ x :: (tried ++ points) := by
    intro y hy
    rw [← List.cons_append, List.mem_append]
    rcases List.mem_cons.1 hy with rfl | hy
    · exact Or.inl hx
    · exact Or.inr hy
  refine ⟨fun r hr => ?_, fun k hk => ?_, fun hr => ?_, fun hr => ?_, h.linalg⟩
  · obtain ⟨h1, h2, h3⟩ := h.ok r hr
    refine ⟨hm _ h1, ?_, h3⟩
    rw [h2, List.length_append]; omega
  · rw [h.budget k hk, List.length_append]; omega
  · obtain ⟨y, hy, h1⟩ := h.nonFinite hr
    exact ⟨y, hm y hy, h1⟩
  · obtain ⟨y, hy, h1⟩ := h.diff hr
    exact ⟨y, hm y hy, h1⟩

theorem decompose_error {minPositive largest : T} {a : Matrix (Fin m) (Fin n) T} {e : LinalgError}
    (h : PivotedQr.decompose minPositive largest a = .error e) : e = .underdetermined ∧ m < n := by
  unfold PivotedQr.decompose at h
  split_ifs at h with tall
  cases h
  exact ⟨rfl, not_le.1 tall⟩

theorem backSubstitute_error {q : PivotedQr m n T} {qtb : Fin m → T} {l : List (Fin n)} {y : Fin n → T} {e : LinalgError}
    (h : q.backSubstitute qtb l y = .error e) : e = .singular := by
  induction l generalizing y with
  | nil => cases h
  | cons row rest ih =>
    unfold PivotedQr.backSubstitute at h
    split_ifs at h
    · cases h; rfl
    · exact ih h

theorem solve_error {q : PivotedQr m n T} {b : Fin m → T} {e : LinalgError} (h : q.solveLeastSquares b = .error e) :
    e = .singular := by
  unfold PivotedQr.solveLeastSquares at h
  cases hb : q.backSubstitute (q.transposeApply b) (List.finRange n).reverse (fun _ => 0) with
  | error e' => rw [hb] at h; cases h; exact backSubstitute_error hb
  | ok y => rw [hb] at h; cases h

namespace GaussNewton

theorem lineSearch_spec (minPositive largest : T) (backtracking : Bool) (f : (Fin n → T) → Fin m → T) (x step : Fin n → T)
    (fnorm : T) (left : ℕ) (alpha : T) :
    let r := lineSearch minPositive largest backtracking f x step fnorm left alpha
    0 < r.1.length ∧ r.1.length ≤ (if backtracking then left + 1 else 1)
    ∧ (r.2 = none → ∃ y ∈ r.1, allFinite (f y) = false)
    ∧ ∀ a y, r.2 = some (a, y) → y ∈ r.1 ∧ allFinite (f y) = true ∧ (y = fun k => x k - a * step k)
      ∧ (backtracking = false → a = alpha)
      ∧ (backtracking = true → enorm minPositive largest ((List.finRange m).map (f y)) < fnorm ∨ r.1.length = left + 1) := by
  induction left generalizing alpha with
  | zero =>
    unfold lineSearch
    dsimp only
    cases backtracking with
    | false =>
      cases hf : allFinite (f fun k => x k - alpha * step k) with
      | false => simp [hf]
      | true =>
        simp only [Bool.not_false, if_true]
        refine ⟨by simp, by simp, by simp, fun a y h => ?_⟩
        simp only [Option.some.injEq, Prod.mk.injEq] at h
        obtain ⟨rfl, rfl⟩ := h
        simp [hf]
    | true =>
      cases hf : allFinite (f fun k => x k - alpha * step k) with
      | false => simp [hf]
      | true =>
        simp only [Bool.not_true, Bool.false_eq_true, if_false, Bool.true_and, decide_eq_true_eq, if_true]
        split_ifs with hlt
        · refine ⟨by simp, by simp, by simp, fun a y h => ?_⟩
          simp only [Option.some.injEq, Prod.mk.injEq] at h
          obtain ⟨rfl, rfl⟩ := h
          simp [hf]
        · refine ⟨by simp, by simp, by simp, fun a y h => ?_⟩
          simp only [Option.some.injEq, Prod.mk.injEq] at h
          obtain ⟨rfl, rfl⟩ := h
          simp [hf]
  | succ left ih =>
    unfold lineSearch
    dsimp only
    cases backtracking with
    | false =>
      cases hf : allFinite (f fun k => x k - alpha * step k) with
      | false => simp [hf]
      | true =>
        simp only [Bool.not_false, if_true]
        refine ⟨by simp, by simp, by simp, fun a y h => ?_⟩
        simp only [Option.some.injEq, Prod.mk.injEq] at h
        obtain ⟨rfl, rfl⟩ := h
        simp [hf]
    | true =>
      simp only [Bool.not_true, Bool.false_eq_true, if_false]
      obtain ⟨h1, h2, h3, h4⟩ := ih (alpha * (1 / ((2 : ℕ) : T)))
      split_ifs with hlt
      · simp only [Bool.and_eq_true, decide_eq_true_eq] at hlt
        refine ⟨by simp, by simp, by simp, fun a y h => ?_⟩
        simp only [Option.some.injEq, Prod.mk.injEq] at h
        obtain ⟨rfl, rfl⟩ := h
        exact ⟨by simp, hlt.1, rfl, fun h => (by cases h), fun _ => Or.inl hlt.2⟩
      · dsimp only at h1 h2 h3 h4 ⊢
        refine ⟨by simp, ?_, fun h => ?_, fun a y h => ?_⟩
        · simp only [if_true, List.length_cons] at h2 ⊢
          omega
        · obtain ⟨y, hy, hf⟩ := h3 h
          exact ⟨y, List.mem_cons_of_mem _ hy, hf⟩
        · obtain ⟨k1, k2, k3, k4, k5⟩ := h4 a y h
          refine ⟨List.mem_cons_of_mem _ k1, k2, k3, fun h => (by cases h), fun _ => ?_⟩
          rcases k5 rfl with k5 | k5
          · exact Or.inl k5
          · right
            rw [List.length_cons, k5]

theorem loop_sound (minPositive largest : T) (g : GaussNewton T) (f : (Fin n → T) → Fin m → T)
    (jacobian : (Fin n → T) → Except MinimizeError (Matrix (Fin m) (Fin n) T))
    (hj : ∀ x e, jacobian x = .error e → e = .diff) (left : ℕ) (x : Fin n → T) (base : ℕ) (hx : allFinite (f x) = true) :
    RunSound minPositive largest f jacobian x base (loop minPositive largest g f jacobian left x base).1
      (loop minPositive largest g f jacobian left x base).2
    ∧ (loop minPositive largest g f jacobian left x base).1.length ≤ left * (if g.backtracking then 21 else 1) := by
  induction left generalizing x base with
  | zero =>
    unfold loop
    refine ⟨⟨?_, ?_, ?_, ?_, ?_⟩, by simp⟩
    · intro r hr; cases hr
    · intro k hk; injection hk with hk; injection hk with hk; simpa using hk.symm
    · intro hr; cases hr
    · intro hr; cases hr
    · intro e hr; cases hr
  | succ left ih =>
    unfold loop
    dsimp only
    cases hjx : jacobian x with
    | error e =>
      have he := hj x e hjx
      subst he
      refine ⟨⟨?_, ?_, ?_, ?_, ?_⟩, by simp⟩
      · intro r hr; cases hr
      · intro k hk; cases hk
      · intro hr; cases hr
      · intro _; exact ⟨x, List.mem_cons_self, hjx⟩
      · intro e hr; cases hr
    | ok j =>
      dsimp only
      cases hfin : matrixFinite j with
      | false =>
        simp only [Bool.not_false, if_true]
        refine ⟨⟨?_, ?_, ?_, ?_, ?_⟩, by simp⟩
        · intro r hr; cases hr
        · intro k hk; cases hk
        · intro _; exact ⟨x, List.mem_cons_self, Or.inr ⟨j, hjx, hfin⟩⟩
        · intro hr; cases hr
        · intro e hr; cases hr
      | true =>
        simp only [Bool.not_true, Bool.false_eq_true, if_false]
        cases hq : PivotedQr.decompose minPositive largest j with
        | error e =>
          have he := decompose_error hq
          refine ⟨⟨?_, ?_, ?_, ?_, ?_⟩, by simp⟩
          · intro r hr; cases hr
          · intro k hk; cases hk
          · intro hr; cases hr
          · intro hr; cases hr
          · intro e' hr; injection hr with hr; injection hr with hr; subst hr; exact Or.inl he
        | ok qr =>
          dsimp only
          have hstay : RunSound minPositive largest f jacobian x base []
              (.ok (report x (arrayNorm minPositive largest (f x)) base .gtol)) := by
            refine ⟨?_, ?_, ?_, ?_, ?_⟩
            · intro r hr
              injection hr with hr
              subst hr
              exact ⟨List.mem_cons_self, rfl, hx, rfl⟩
            · intro k hk; cases hk
            · intro hr; cases hr
            · intro hr; cases hr
            · intro e hr; cases hr
          by_cases h1 : (arrayNorm minPositive largest (f x) == 0) = true
          · rw [if_pos h1]
            exact ⟨hstay, by simp⟩
          rw [if_neg h1]
          by_cases h2 : gradientNorm j (f x) qr.columnNorms (arrayNorm minPositive largest (f x)) ≤ g.gtol
          · rw [if_pos h2]
            exact ⟨hstay, by simp⟩
          rw [if_neg h2]
          cases hs : qr.solveLeastSquares (f x) with
          | error e =>
            have he := solve_error hs
            refine ⟨⟨?_, ?_, ?_, ?_, ?_⟩, by simp⟩
            · intro r hr; cases hr
            · intro k hk; cases hk
            · intro hr; cases hr
            · intro hr; cases hr
            · intro e' hr; injection hr with hr; injection hr with hr; subst hr; exact Or.inr ⟨he, qr.tall⟩
          | ok step =>
            dsimp only
            have hls := lineSearch_spec minPositive largest g.backtracking f x step (arrayNorm minPositive largest (f x)) 20 1
            revert hls
            cases hl : lineSearch minPositive largest g.backtracking f x step (arrayNorm minPositive largest (f x)) 20 1 with
            | mk tried outcome =>
              intro hls
              obtain ⟨hpos, hlen, hnone, hsome⟩ := hls
              try dsimp only at hpos hlen hnone hsome
              have hK : tried.length ≤ (left + 1) * (if g.backtracking then 21 else 1) :=
                hlen.trans (Nat.le_mul_of_pos_left _ (Nat.succ_pos left))
              cases outcome with
              | none =>
                dsimp only
                obtain ⟨y, hy, hyf⟩ := hnone rfl
                refine ⟨⟨?_, ?_, ?_, ?_, ?_⟩, hK⟩
                · intro r hr; cases hr
                · intro k hk; cases hk
                · intro _; exact ⟨y, List.mem_cons_of_mem _ hy, Or.inl hyf⟩
                · intro hr; cases hr
                · intro e hr; cases hr
              | some pair =>
                obtain ⟨alpha, xNew⟩ := pair
                dsimp only
                obtain ⟨hmem, hfinite, -⟩ := hsome alpha xNew rfl
                have hdone : ∀ reason, RunSound minPositive largest f jacobian x base tried
                    (.ok (report xNew (arrayNorm minPositive largest (f xNew)) (base + tried.length) reason)) := by
                  intro reason
                  refine ⟨?_, ?_, ?_, ?_, ?_⟩
                  · intro r hr
                    injection hr with hr
                    subst hr
                    exact ⟨List.mem_cons_of_mem _ hmem, rfl, hfinite, rfl⟩
                  · intro k hk; cases hk
                  · intro hr; cases hr
                  · intro hr; cases hr
                  · intro e hr; cases hr
                generalize (if g.backtracking = true then 21 else 1) = K at *
                split_ifs
                · exact ⟨hdone _, hK⟩
                · exact ⟨hdone _, hK⟩
                · obtain ⟨hr, hlr⟩ := ih xNew (base + tried.length) hfinite
                  refine ⟨hr.extend (List.mem_cons_of_mem _ hmem), ?_⟩
                  rw [List.length_append, Nat.succ_mul]
                  omega

end GaussNewton

/-- C80. Gauss-Newton, whatever the residuals and number type: it starts at the guess, evaluates the residuals at most once
per pass (twenty-one times with backtracking) besides the first, and returns only a point it evaluated, with finite
residuals, the true number of evaluations and half the square of the residual norm there. -/
theorem gauss_newton_run (minPositive largest : T) (g : GaussNewton T) (f : (Fin n → T) → Fin m → T)
    (jacobian : (Fin n → T) → Except MinimizeError (Matrix (Fin m) (Fin n) T))
    (hj : ∀ x e, jacobian x = .error e → e = .diff) (x₀ : Fin n → T) :
    ∃ points, (g.minimize minPositive largest f jacobian x₀).1 = x₀ :: points
      ∧ points.length ≤ g.patience * (if g.backtracking then 21 else 1)
      ∧ RunSound minPositive largest f jacobian x₀ 1 points (g.minimize minPositive largest f jacobian x₀).2 := by
  unfold GaussNewton.minimize
  cases hf : allFinite (f x₀) with
  | false =>
    refine ⟨[], rfl, by simp, ?_, ?_, ?_, ?_, ?_⟩
    · intro r hr; cases hr
    · intro k hk; cases hk
    · intro _; exact ⟨x₀, List.mem_cons_self, Or.inl hf⟩
    · intro hr; cases hr
    · intro e hr; cases hr
  | true =>
    obtain ⟨h1, h2⟩ := GaussNewton.loop_sound minPositive largest g f jacobian hj g.patience x₀ 1 hf
    exact ⟨_, rfl, h2, h1⟩

/-- C80. A backtracking search takes a point with a smaller residual norm, or has halved the step all twenty times. -/
theorem gauss_newton_backtracks (minPositive largest : T) (f : (Fin n → T) → Fin m → T) (x step : Fin n → T) (fnorm : T) (a : T)
    (y : Fin n → T) (h : (GaussNewton.lineSearch minPositive largest true f x step fnorm 20 1).2 = some (a, y)) :
    (y = fun k => x k - a * step k)
    ∧ (enorm minPositive largest ((List.finRange m).map (f y)) < fnorm
      ∨ (GaussNewton.lineSearch minPositive largest true f x step fnorm 20 1).1.length = 21) := by
  obtain ⟨-, -, -, h4⟩ := GaussNewton.lineSearch_spec minPositive largest true f x step fnorm 20 1
  obtain ⟨-, -, h5, -, h6⟩ := h4 a y h
  exact ⟨h5, h6 rfl⟩

namespace LevenbergMarquardt

theorem ite_three {α : Type} (p q : Prop) [Decidable p] [Decidable q] (a b d : α) :
    (if p then a else if q then b else d) = a ∨ (if p then a else if q then b else d) = b
      ∨ (if p then a else if q then b else d) = d := by
  split_ifs <;> simp

/-- The point a trial evaluates. -/
def trialPoint (minPositive largest : T) (d : DampedLeastSquares n T) (s : LmState n T) : Fin n → T :=
  fun j => s.x j - (determineLambda minPositive largest d s.diag s.delta s.par).2 j

/-- What one trial can come to. -/
theorem trial_cases (minPositive largest : T) (g : LevenbergMarquardt T) (f : (Fin n → T) → Fin m → T)
    (d : DampedLeastSquares n T) (s : LmState n T) :
    (allFinite (f (trialPoint minPositive largest d s)) = false
      ∧ trial minPositive largest g f d s = (trialPoint minPositive largest d s, .nonFinite))
    ∨ (allFinite (f (trialPoint minPositive largest d s)) = true ∧ ∃ (next : LmState n T) (acc : Bool),
      acc = decide (Fns.lit (1 / 10000) ≤ (reductions (arrayNorm minPositive largest (f s.x))
        (arrayNorm minPositive largest (f (trialPoint minPositive largest d s)))
        (d.aXNorm minPositive largest (determineLambda minPositive largest d s.diag s.delta s.par).2)
        (determineLambda minPositive largest d s.diag s.delta s.par).1
        (arrayNorm minPositive largest fun j =>
          s.diag j * (determineLambda minPositive largest d s.diag s.delta s.par).2 j)).2.2.2)
      ∧ next.x = (if acc = true then trialPoint minPositive largest d s else s.x)
      ∧ (trial minPositive largest g f d s = (trialPoint minPositive largest d s, .stop next .ftol)
        ∨ trial minPositive largest g f d s = (trialPoint minPositive largest d s, .stop next .xtol)
        ∨ trial minPositive largest g f d s = (trialPoint minPositive largest d s, .go next acc))) := by
  cases hf : allFinite (f (trialPoint minPositive largest d s)) with
  | false =>
    left
    refine ⟨rfl, ?_⟩
    unfold trial
    exact if_pos (by unfold trialPoint at hf; simp [hf])
  | true =>
    right
    have hf' : ¬((!allFinite (f fun j => s.x j - (determineLambda minPositive largest d s.diag s.delta s.par).2 j)) = true) := by
      unfold trialPoint at hf
      simp [hf]
    unfold trial
    dsimp only
    rw [if_neg hf']
    exact ⟨rfl, _, _, rfl, rfl, ite_three _ _ _ _ _⟩

/-- What a batch of trials satisfies: the points tried, and where they leave the solver. -/
theorem trials_sound (minPositive largest : T) (g : LevenbergMarquardt T) (f : (Fin n → T) → Fin m → T)
    (d : DampedLeastSquares n T) (left : ℕ) (s : LmState n T) (hs : allFinite (f s.x) = true) :
    (trials minPositive largest g f d left s).1.length ≤ left
    ∧ ((trials minPositive largest g f d left s).2 = .nonFinite →
      ∃ y ∈ (trials minPositive largest g f d left s).1, allFinite (f y) = false)
    ∧ (∀ s' reason, (trials minPositive largest g f d left s).2 = .stop s' reason →
      s'.x ∈ s.x :: (trials minPositive largest g f d left s).1 ∧ allFinite (f s'.x) = true ∧ reason ≠ .gtol)
    ∧ (∀ s' acc, (trials minPositive largest g f d left s).2 = .go s' acc →
      s'.x ∈ s.x :: (trials minPositive largest g f d left s).1 ∧ allFinite (f s'.x) = true) := by
  induction left generalizing s with
  | zero =>
    unfold trials
    refine ⟨le_rfl, fun h => (by cases h), fun s' r h => (by cases h), fun s' a h => ?_⟩
    injection h with h1 h2
    subst h1
    exact ⟨List.mem_cons_self, hs⟩
  | succ left ih =>
    have ht : ∀ xNew o, trial minPositive largest g f d s = (xNew, o) →
        (o = .nonFinite → allFinite (f xNew) = false)
        ∧ (∀ s' reason, o = .stop s' reason → (s'.x = s.x ∨ s'.x = xNew) ∧ allFinite (f s'.x) = true ∧ reason ≠ .gtol)
        ∧ (∀ s' acc, o = .go s' acc → (s'.x = s.x ∨ s'.x = xNew) ∧ allFinite (f s'.x) = true) := by
      intro xNew o h
      rcases trial_cases minPositive largest g f d s with ⟨hf, he⟩ | ⟨hf, next, acc, -, hnx, he⟩
      · rw [he] at h
        injection h with h1 h2
        subst h1 h2
        exact ⟨fun _ => hf, fun s' r h => (by cases h), fun s' a h => (by cases h)⟩
      · have hx : (next.x = s.x ∨ next.x = trialPoint minPositive largest d s) ∧ allFinite (f next.x) = true := by
          rw [hnx]
          cases acc
          · exact ⟨Or.inl rfl, hs⟩
          · exact ⟨Or.inr rfl, hf⟩
        rcases he with he | he | he
        · rw [he] at h
          injection h with h1 h2
          subst h1 h2
          refine ⟨fun h => (by cases h), fun s' r h => ?_, fun s' a h => (by cases h)⟩
          injection h with h1 h2
          subst h1 h2
          exact ⟨hx.1, hx.2, by decide⟩
        · rw [he] at h
          injection h with h1 h2
          subst h1 h2
          refine ⟨fun h => (by cases h), fun s' r h => ?_, fun s' a h => (by cases h)⟩
          injection h with h1 h2
          subst h1 h2
          exact ⟨hx.1, hx.2, by decide⟩
        · rw [he] at h
          injection h with h1 h2
          subst h1 h2
          refine ⟨fun h => (by cases h), fun s' r h => (by cases h), fun s' a h => ?_⟩
          injection h with h1 h2
          subst h1
          exact hx
    unfold trials
    cases htr : trial minPositive largest g f d s with
    | mk xNew o =>
      obtain ⟨h1, h2, h3⟩ := ht xNew o htr
      cases o with
      | nonFinite =>
        refine ⟨by simp, fun _ => ⟨xNew, by simp, h1 rfl⟩, fun s' r h => (by cases h), fun s' a h => (by cases h)⟩
      | stop s₁ reason =>
        refine ⟨by simp, fun h => (by cases h), fun s' r h => ?_, fun s' a h => (by cases h)⟩
        obtain ⟨k1, k2⟩ := h2 s' r h
        refine ⟨?_, k2⟩
        rcases k1 with k | k <;> simp [k]
      | go s₁ acc =>
        dsimp only
        obtain ⟨k1, k2⟩ := h3 s₁ acc rfl
        cases acc with
        | true =>
          simp only [if_true]
          refine ⟨by simp, fun h => (by cases h), fun s' r h => (by cases h), fun s' a h => ?_⟩
          injection h with h' h''
          subst h'
          refine ⟨?_, k2⟩
          rcases k1 with k | k <;> simp [k]
        | false =>
          simp only [Bool.false_eq_true, if_false]
          obtain ⟨i1, i2, i3, i4⟩ := ih s₁ k2
          have hm : ∀ y, y ∈ s₁.x :: (trials minPositive largest g f d left s₁).1 →
              y ∈ s.x :: xNew :: (trials minPositive largest g f d left s₁).1 := by
            intro y hy
            rcases List.mem_cons.1 hy with rfl | hy
            · rcases k1 with k | k <;> simp [k]
            · simp [hy]
          refine ⟨by rw [List.length_cons]; omega, fun h => ?_, fun s' r h => ?_, fun s' a h => ?_⟩
          · obtain ⟨y, hy, hyf⟩ := i2 h
            exact ⟨y, List.mem_cons_of_mem _ hy, hyf⟩
          · obtain ⟨j1, j2⟩ := i3 s' r h
            exact ⟨hm _ j1, j2⟩
          · obtain ⟨j1, j2⟩ := i4 s' a h
            exact ⟨hm _ j1, j2⟩

theorem prepare_x (minPositive largest : T) (g : LevenbergMarquardt T) (norms : Fin n → T) (s : LmState n T) :
    (prepare minPositive largest g norms s).x = s.x := by
  unfold prepare
  split_ifs <;> rfl

theorem rescale_x (g : LevenbergMarquardt T) (norms : Fin n → T) (s : LmState n T) : (rescale g norms s).x = s.x := by
  unfold rescale
  split_ifs <;> rfl

theorem loop_sound (minPositive largest : T) (g : LevenbergMarquardt T) (f : (Fin n → T) → Fin m → T)
    (jacobian : (Fin n → T) → Except MinimizeError (Matrix (Fin m) (Fin n) T))
    (hj : ∀ x e, jacobian x = .error e → e = .diff) (left : ℕ) (s : LmState n T) (base : ℕ) (hs : allFinite (f s.x) = true) :
    RunSound minPositive largest f jacobian s.x base (loop minPositive largest g f jacobian left s base).1
      (loop minPositive largest g f jacobian left s base).2
    ∧ (loop minPositive largest g f jacobian left s base).1.length ≤ left * 100
    ∧ ∀ e, (loop minPositive largest g f jacobian left s base).2 = .error (.linalg e) → e = .underdetermined := by
  induction left generalizing s base with
  | zero =>
    unfold loop
    refine ⟨⟨?_, ?_, ?_, ?_, ?_⟩, by simp, ?_⟩
    · intro r hr; cases hr
    · intro k hk; injection hk with hk; injection hk with hk; simpa using hk.symm
    · intro hr; cases hr
    · intro hr; cases hr
    · intro e hr; cases hr
    · intro e hr; cases hr
  | succ left ih =>
    unfold loop
    dsimp only
    cases hjx : jacobian s.x with
    | error e =>
      have he := hj s.x e hjx
      subst he
      refine ⟨⟨?_, ?_, ?_, ?_, ?_⟩, by simp, ?_⟩
      · intro r hr; cases hr
      · intro k hk; cases hk
      · intro hr; cases hr
      · intro _; exact ⟨s.x, List.mem_cons_self, hjx⟩
      · intro e hr; cases hr
      · intro e hr; cases hr
    | ok j =>
      dsimp only
      cases hfin : matrixFinite j with
      | false =>
        simp only [Bool.not_false, if_true]
        refine ⟨⟨?_, ?_, ?_, ?_, ?_⟩, by simp, ?_⟩
        · intro r hr; cases hr
        · intro k hk; cases hk
        · intro _; exact ⟨s.x, List.mem_cons_self, Or.inr ⟨j, hjx, hfin⟩⟩
        · intro hr; cases hr
        · intro e hr; cases hr
        · intro e hr; cases hr
      | true =>
        simp only [Bool.not_true, Bool.false_eq_true, if_false]
        cases hq : PivotedQr.decompose minPositive largest j with
        | error e =>
          have he := decompose_error hq
          refine ⟨⟨?_, ?_, ?_, ?_, ?_⟩, by simp, ?_⟩
          · intro r hr; cases hr
          · intro k hk; cases hk
          · intro hr; cases hr
          · intro hr; cases hr
          · intro e' hr; injection hr with hr; injection hr with hr; subst hr; exact Or.inl he
          · intro e' hr; injection hr with hr; injection hr with hr; subst hr; exact he.1
        | ok qr =>
          dsimp only
          have hdone : ∀ (y : Fin n → T) (tried : List (Fin n → T)) (reason : TerminationReason), y ∈ s.x :: tried →
              allFinite (f y) = true → RunSound minPositive largest f jacobian s.x base tried
                (.ok (report y (arrayNorm minPositive largest (f y)) (base + tried.length) reason)) := by
            intro y tried reason hy hyf
            refine ⟨?_, ?_, ?_, ?_, ?_⟩
            · intro r hr
              injection hr with hr
              subst hr
              exact ⟨hy, rfl, hyf, rfl⟩
            · intro k hk; cases hk
            · intro hr; cases hr
            · intro hr; cases hr
            · intro e hr; cases hr
          split_ifs with h1
          · rw [prepare_x]
            exact ⟨hdone s.x [] .gtol List.mem_cons_self hs, by simp, fun e h => (by cases h)⟩
          · have ht := trials_sound minPositive largest g f (qr.intoDamped (f s.x)) 100
              (rescale g (qr.intoDamped (f s.x)).columnNorms
                (prepare minPositive largest g (qr.intoDamped (f s.x)).columnNorms s))
              (by rw [rescale_x, prepare_x]; exact hs)
            rw [rescale_x, prepare_x] at ht
            revert ht
            cases htr : trials minPositive largest g f (qr.intoDamped (f s.x)) 100
              (rescale g (qr.intoDamped (f s.x)).columnNorms
                (prepare minPositive largest g (qr.intoDamped (f s.x)).columnNorms s)) with
            | mk tried o =>
              intro ht
              obtain ⟨hlen, hnf, hstop, hgo⟩ := ht
              try dsimp only at hlen hnf hstop hgo
              have hK : tried.length ≤ (left + 1) * 100 := by omega
              cases o with
              | nonFinite =>
                obtain ⟨y, hy, hyf⟩ := hnf rfl
                refine ⟨⟨?_, ?_, ?_, ?_, ?_⟩, hK, fun e h => (by cases h)⟩
                · intro r hr; cases hr
                · intro k hk; cases hk
                · intro _; exact ⟨y, List.mem_cons_of_mem _ hy, Or.inl hyf⟩
                · intro hr; cases hr
                · intro e hr; cases hr
              | stop s' reason =>
                obtain ⟨k1, k2, -⟩ := hstop s' reason rfl
                exact ⟨hdone s'.x tried reason k1 k2, hK, fun e h => (by cases h)⟩
              | go s' acc =>
                obtain ⟨k1, k2⟩ := hgo s' acc rfl
                obtain ⟨i1, i2, i3⟩ := ih s' (base + tried.length) k2
                refine ⟨i1.extend k1, ?_, i3⟩
                rw [List.length_append]
                omega

end LevenbergMarquardt

/-- C80. Levenberg-Marquardt, whatever the residuals and number type: it starts at the guess, evaluates the residuals at
most a hundred times per pass besides the first, returns only a point it evaluated, with finite residuals, the true
number of evaluations and half the square of the residual norm there, and never complains of a singular matrix. -/
theorem levenberg_marquardt_run (minPositive largest : T) (g : LevenbergMarquardt T) (f : (Fin n → T) → Fin m → T)
    (jacobian : (Fin n → T) → Except MinimizeError (Matrix (Fin m) (Fin n) T))
    (hj : ∀ x e, jacobian x = .error e → e = .diff) (x₀ : Fin n → T) :
    ∃ points, (g.minimize minPositive largest f jacobian x₀).1 = x₀ :: points
      ∧ points.length ≤ g.patience * 100
      ∧ RunSound minPositive largest f jacobian x₀ 1 points (g.minimize minPositive largest f jacobian x₀).2
      ∧ (g.minimize minPositive largest f jacobian x₀).2 ≠ .error (.linalg .singular) := by
  unfold LevenbergMarquardt.minimize
  cases hf : allFinite (f x₀) with
  | false =>
    refine ⟨[], rfl, by simp, ⟨?_, ?_, ?_, ?_, ?_⟩, by simp⟩
    · intro r hr; cases hr
    · intro k hk; cases hk
    · intro _; exact ⟨x₀, List.mem_cons_self, Or.inl hf⟩
    · intro hr; cases hr
    · intro e hr; cases hr
  | true =>
    obtain ⟨h1, h2, h3⟩ := LevenbergMarquardt.loop_sound minPositive largest g f jacobian hj g.patience
      ⟨x₀, fun _ => 0, 0, 0, 0, true⟩ 1 hf
    refine ⟨_, rfl, h2, h1, fun h => ?_⟩
    have := h3 .singular h
    cases this

/-- C80. With fewer residuals than parameters both solvers say so, as soon as the first Jacobian is known. -/
theorem minimize_underdetermined (minPositive largest : T) (gn : GaussNewton T) (lm : LevenbergMarquardt T)
    (f : (Fin n → T) → Fin m → T) (jacobian : (Fin n → T) → Except MinimizeError (Matrix (Fin m) (Fin n) T))
    (x₀ : Fin n → T) (j : Matrix (Fin m) (Fin n) T) (hmn : m < n) (hf : allFinite (f x₀) = true)
    (hj : jacobian x₀ = .ok j) (hjf : matrixFinite j = true) (hgn : 0 < gn.patience) (hlm : 0 < lm.patience) :
    gn.minimize minPositive largest f jacobian x₀ = ([x₀], .error (.linalg .underdetermined))
    ∧ lm.minimize minPositive largest f jacobian x₀ = ([x₀], .error (.linalg .underdetermined)) := by
  have hq : PivotedQr.decompose minPositive largest j = .error .underdetermined := by
    unfold PivotedQr.decompose
    rw [dif_neg (by omega)]
  obtain ⟨p, hp⟩ := Nat.exists_eq_succ_of_ne_zero hgn.ne'
  obtain ⟨p', hp'⟩ := Nat.exists_eq_succ_of_ne_zero hlm.ne'
  unfold GaussNewton.minimize LevenbergMarquardt.minimize
  rw [hp, hp']
  unfold GaussNewton.loop LevenbergMarquardt.loop
  simp [hf, hj, hjf, hq]

end Run

/-- A Jacobian that is always there. -/
example : ∀ (x : Fin 2 → ℝ) e, ((fun _ => .ok !![1, 0; 0, 1; 1, 1]) : (Fin 2 → ℝ) → Except MinimizeError (Matrix (Fin 3) (Fin 2) ℝ)) x = .error e →
    e = .diff := by
  intro x e h
  cases h

variable {m n : ℕ}

/-! ### Descent -/

namespace LevenbergMarquardt

theorem arrayNorm_nonneg (minPositive largest : ℝ) (v : Fin m → ℝ) : 0 ≤ arrayNorm minPositive largest v :=
  (enorm_spec minPositive largest _).1

theorem ratio_descends (fnorm fnorm1 aStep par pnorm : ℝ) (h0 : 0 ≤ fnorm) (h1 : 0 ≤ fnorm1)
    (h : (1 / 10000 : ℝ) ≤ (reductions fnorm fnorm1 aStep par pnorm).2.2.2) : fnorm1 < fnorm := by
  unfold reductions at h
  have hl : (Fns.lit (1 / 10) : ℝ) = 1 / 10 := by simp [Fns.lit]
  simp only [hl, real_sqrt] at h
  set prered := aStep / fnorm * (aStep / fnorm) + √par * pnorm / fnorm * (√par * pnorm / fnorm) / (1 / ((2 : ℕ) : ℝ)) with hp
  have hnn : 0 ≤ prered := by
    have := mul_self_nonneg (√par * pnorm / fnorm)
    have := mul_self_nonneg (aStep / fnorm)
    positivity
  by_cases hz : prered = 0
  · simp [hz] at h
    norm_num at h
  · have hpos : 0 < prered := lt_of_le_of_ne hnn (Ne.symm hz)
    have hb : (prered != 0) = true := by simpa using hz
    rw [if_pos hb] at h
    have hact : 0 < (if 1 / 10 * fnorm1 < fnorm then 1 - fnorm1 / fnorm * (fnorm1 / fnorm) else -1) := by
      by_contra hneg
      have := div_nonpos_of_nonpos_of_nonneg (not_lt.1 hneg) hpos.le
      linarith
    split_ifs at hact with hlt
    · have hfp : 0 < fnorm := lt_of_le_of_lt (by positivity) hlt
      have hr : fnorm1 / fnorm < 1 := by
        have hr0 : 0 ≤ fnorm1 / fnorm := div_nonneg h1 h0
        nlinarith
      exact (div_lt_one hfp).1 hr
    · norm_num at hact

theorem trial_descends (minPositive largest : ℝ) (g : LevenbergMarquardt ℝ) (f : (Fin n → ℝ) → Fin m → ℝ)
    (d : DampedLeastSquares n ℝ) (s : LmState n ℝ) :
    ∀ s', (∃ reason, (trial minPositive largest g f d s).2 = .stop s' reason)
        ∨ (∃ acc, (trial minPositive largest g f d s).2 = .go s' acc) →
      s'.x = s.x ∨ arrayNorm minPositive largest (f s'.x) < arrayNorm minPositive largest (f s.x) := by
  intro s' h
  rcases trial_cases minPositive largest g f d s with ⟨-, he⟩ | ⟨-, next, acc, hacc, hnx, he⟩
  · rw [he] at h
    rcases h with ⟨_, h⟩ | ⟨_, h⟩ <;> cases h
  · have hl : (Fns.lit (1 / 10000) : ℝ) = 1 / 10000 := by simp [Fns.lit]
    rw [hl] at hacc
    have hx : next.x = s.x ∨ arrayNorm minPositive largest (f next.x) < arrayNorm minPositive largest (f s.x) := by
      rw [hnx]
      cases acc with
      | false => exact Or.inl rfl
      | true =>
        right
        exact ratio_descends _ _ _ _ _ (arrayNorm_nonneg _ _ _) (arrayNorm_nonneg _ _ _)
          (of_decide_eq_true hacc.symm)
    rcases he with he | he | he
    · rw [he] at h
      rcases h with ⟨_, h⟩ | ⟨_, h⟩
      · injection h with h1 h2
        rw [← h1]; exact hx
      · cases h
    · rw [he] at h
      rcases h with ⟨_, h⟩ | ⟨_, h⟩
      · injection h with h1 h2
        rw [← h1]; exact hx
      · cases h
    · rw [he] at h
      rcases h with ⟨_, h⟩ | ⟨_, h⟩
      · cases h
      · injection h with h1 h2
        rw [← h1]; exact hx

theorem trials_descends (minPositive largest : ℝ) (g : LevenbergMarquardt ℝ) (f : (Fin n → ℝ) → Fin m → ℝ)
    (d : DampedLeastSquares n ℝ) (left : ℕ) (s : LmState n ℝ) :
    ∀ s', (∃ reason, (trials minPositive largest g f d left s).2 = .stop s' reason)
        ∨ (∃ acc, (trials minPositive largest g f d left s).2 = .go s' acc) →
      s'.x = s.x ∨ arrayNorm minPositive largest (f s'.x) < arrayNorm minPositive largest (f s.x) := by
  induction left generalizing s with
  | zero =>
    intro s' h
    unfold trials at h
    rcases h with ⟨reason, h⟩ | ⟨acc, h⟩
    · cases h
    · injection h with h1 h2
      left; rw [h1]
  | succ left ih =>
    intro s' h
    have ht := trial_descends minPositive largest g f d s
    unfold trials at h
    revert h ht
    cases htr : trial minPositive largest g f d s with
    | mk xNew o =>
      intro ht h
      cases o with
      | nonFinite => rcases h with ⟨reason, h⟩ | ⟨acc, h⟩ <;> cases h
      | stop s₁ r =>
        rcases h with ⟨reason, h⟩ | ⟨acc, h⟩
        · exact ht s' (Or.inl ⟨reason, h⟩)
        · cases h
      | go s₁ acc =>
        have h1 := ht s₁ (Or.inr ⟨acc, rfl⟩)
        cases acc with
        | true =>
          simp only [if_true] at h
          rcases h with ⟨reason, h⟩ | ⟨acc, h⟩
          · cases h
          · injection h with h1' h2
            rw [← h1']; exact h1
        | false =>
          simp only [Bool.false_eq_true, if_false] at h
          have h2 := ih s₁ s' h
          rcases h1 with h1 | h1 <;> rcases h2 with h2 | h2
          · left; rw [h2, h1]
          · right; rw [h1] at h2; exact h2
          · right; rw [h2]; exact h1
          · right; exact h2.trans h1

theorem loop_descends (minPositive largest : ℝ) (g : LevenbergMarquardt ℝ) (f : (Fin n → ℝ) → Fin m → ℝ)
    (jacobian : (Fin n → ℝ) → Except MinimizeError (Matrix (Fin m) (Fin n) ℝ)) (left : ℕ) (s : LmState n ℝ) (base : ℕ) :
    ∀ r, (loop minPositive largest g f jacobian left s base).2 = .ok r →
      r.solution = s.x ∨ arrayNorm minPositive largest (f r.solution) < arrayNorm minPositive largest (f s.x) := by
  induction left generalizing s base with
  | zero => intro r h; cases h
  | succ left ih =>
    intro r h
    unfold loop at h
    dsimp only at h
    cases hjx : jacobian s.x with
    | error e => rw [hjx] at h; cases h
    | ok j =>
      rw [hjx] at h
      dsimp only at h
      cases hfin : matrixFinite j with
      | false => simp [hfin] at h
      | true =>
        simp only [hfin, Bool.not_true, Bool.false_eq_true, if_false] at h
        cases hq : PivotedQr.decompose minPositive largest j with
        | error e => rw [hq] at h; cases h
        | ok qr =>
          rw [hq] at h
          dsimp only at h
          split_ifs at h with h1
          · rw [prepare_x] at h
            injection h with h
            left; rw [← h]; rfl
          · have ht := trials_descends minPositive largest g f (qr.intoDamped (f s.x)) 100
              (rescale g (qr.intoDamped (f s.x)).columnNorms
                (prepare minPositive largest g (qr.intoDamped (f s.x)).columnNorms s))
            rw [rescale_x, prepare_x] at ht
            revert h ht
            cases htr : trials minPositive largest g f (qr.intoDamped (f s.x)) 100
              (rescale g (qr.intoDamped (f s.x)).columnNorms
                (prepare minPositive largest g (qr.intoDamped (f s.x)).columnNorms s)) with
            | mk tried o =>
              intro h ht
              cases o with
              | nonFinite => cases h
              | stop s' reason =>
                injection h with h
                have := ht s' (Or.inl ⟨reason, rfl⟩)
                rw [← h]; exact this
              | go s' acc =>
                have h1 := ht s' (Or.inr ⟨acc, rfl⟩)
                have h2 := ih s' (base + tried.length) r h
                rcases h1 with h1 | h1 <;> rcases h2 with h2 | h2
                · left; rw [h2, h1]
                · right; rw [h1] at h2; exact h2
                · right; rw [h2]; exact h1
                · right; exact h2.trans h1

end LevenbergMarquardt

/-- C80. Levenberg-Marquardt never makes things worse: it returns the guess, or a point whose residual norm is strictly
smaller. -/
theorem levenberg_marquardt_descends (minPositive largest : ℝ) (g : LevenbergMarquardt ℝ) (f : (Fin n → ℝ) → Fin m → ℝ)
    (jacobian : (Fin n → ℝ) → Except MinimizeError (Matrix (Fin m) (Fin n) ℝ)) (x₀ : Fin n → ℝ) (r : MinimizationReport n ℝ)
    (h : (g.minimize minPositive largest f jacobian x₀).2 = .ok r) :
    r.solution = x₀ ∨ enorm minPositive largest ((List.finRange m).map (f r.solution))
      < enorm minPositive largest ((List.finRange m).map (f x₀)) := by
  unfold LevenbergMarquardt.minimize at h
  have hfin : allFinite (f x₀) = true := by simp [allFinite, Fns.isFinite]
  simp only [hfin, Bool.not_true, Bool.false_eq_true, if_false] at h
  exact LevenbergMarquardt.loop_descends minPositive largest g f jacobian g.patience _ 1 r h

/-- C80. Each step the solver accepts strictly lowers the residual norm; a step it does not accept leaves it where it
was. -/
theorem levenberg_marquardt_step_descends (minPositive largest : ℝ) (g : LevenbergMarquardt ℝ) (f : (Fin n → ℝ) → Fin m → ℝ)
    (d : DampedLeastSquares n ℝ) (s s' : LmState n ℝ) (accepted : Bool)
    (h : (LevenbergMarquardt.trial minPositive largest g f d s).2 = .go s' accepted) :
    s'.x = s.x ∨ enorm minPositive largest ((List.finRange m).map (f s'.x))
      < enorm minPositive largest ((List.finRange m).map (f s.x)) :=
  LevenbergMarquardt.trial_descends minPositive largest g f d s s' (Or.inr ⟨accepted, h⟩)

end Multicalc
