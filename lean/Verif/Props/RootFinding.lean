import Verif.Model.RootFinding
import Mathlib.Topology.Order.IntermediateValue
import Mathlib.Topology.Instances.Real.Lemmas
import Mathlib.Tactic

/-!
# Properties C16–C19: scalar root finding
-/

namespace Multicalc
variable {T : Type}

/-! ## Bisection (C16) -/

section order
variable [LinearOrder T] [Zero T] [One T] [NatCast T] [Add T] [Sub T] [Mul T] [Div T] [Fns T]

/-- The only fact about arithmetic that bisection needs: a computed midpoint does not leave the
interval.  It holds for reals and for rounded arithmetic (rounding is monotone). -/
def MidpointInside (T : Type) [LinearOrder T] [One T] [NatCast T] [Add T] [Sub T] [Mul T] [Div T] :
    Prop :=
  ∀ a b : T, a ≤ b → a ≤ a + (b - a) * (1 / 2) ∧ a + (b - a) * (1 / 2) ≤ b

theorem bisectLoop_spec (hmid : MidpointInside T) (f : T → T) (xtol ftol : T) (fuel iter : ℕ)
    (l u : T) (hlu : l ≤ u) (r : RootReport T) (hi : 1 ≤ iter)
    (h : bisectLoop f xtol ftol fuel iter l (f l) u = .ok r) :
    l ≤ r.root ∧ r.root ≤ u ∧ r.residual = f r.root ∧ r.iterations < iter + fuel ∧
    ((r.termination = .residualTolerance ∧ Fns.abs r.residual ≤ ftol) ∨
     (r.termination = .bracketWidth ∧ ∃ l' u', l ≤ l' ∧ l' ≤ r.root ∧ r.root ≤ u' ∧ u' ≤ u ∧
        r.root = l' + (u' - l') * (1 / 2) ∧ u' - l' ≤ xtol * (1 + Fns.abs r.root) ∧
        (sameSign (f l) (f u) = false → sameSign (f l') (f u') = false))) := by
  induction fuel generalizing iter l u with
  | zero => simp [bisectLoop] at h
  | succ fuel ih =>
    obtain ⟨m1, m2⟩ := hmid l u hlu
    simp only [bisectLoop] at h
    set m := l + (u - l) * (1 / 2) with hm
    split at h
    · simp at h
    · split at h
      · next h1 =>
        simp only [Except.ok.injEq] at h
        subst h
        exact ⟨m1, m2, rfl, by simp, Or.inl ⟨rfl, h1⟩⟩
      · split at h
        · next h2 =>
          simp only [Except.ok.injEq] at h
          subst h
          exact ⟨m1, m2, rfl, by simp, Or.inr ⟨rfl, l, u, le_refl _, m1, m2, le_refl _, rfl, h2,
            id⟩⟩
        · split at h
          · next hs =>
            obtain ⟨a1, a2, a3, a4, a5⟩ := ih (iter + 1) m u m2 (by omega) h
            refine ⟨m1.trans a1, a2, a3, by omega, ?_⟩
            rcases a5 with a5 | ⟨b1, l', u', b2, b3, b4, b5, b6, b7, b8⟩
            · exact Or.inl a5
            · refine Or.inr ⟨b1, l', u', m1.trans b2, b3, b4, b5, b6, b7, fun hne => b8 ?_⟩
              simp only [sameSign] at hs hne ⊢
              simp only [beq_iff_eq] at hs
              rw [hs]; exact hne
          · next hs =>
            obtain ⟨a1, a2, a3, a4, a5⟩ := ih (iter + 1) l m m1 (by omega) h
            refine ⟨a1, a2.trans m2, a3, by omega, ?_⟩
            rcases a5 with a5 | ⟨b1, l', u', b2, b3, b4, b5, b6, b7, b8⟩
            · exact Or.inl a5
            · refine Or.inr ⟨b1, l', u', b2, b3, b4, b5.trans m2, b6, b7, fun _ => b8 ?_⟩
              simp only [sameSign, Bool.not_eq_true] at hs ⊢
              rw [Bool.beq_comm]; exact hs

/-- C16. For every function (no continuity), tolerance, budget and bracket, with any arithmetic whose
midpoints stay inside: a returned root lies in the bracket, the residual is the function there, the
iterations are within the budget, and the stopping test named by the report holds. -/
theorem bisection_report (hmid : MidpointInside T) (xtol ftol : T) (n : ℕ) (f : T → T) (a b : T)
    (r : RootReport T) (h : bisectionSolve xtol ftol n f a b = .ok r) :
    min a b ≤ r.root ∧ r.root ≤ max a b ∧ r.residual = f r.root ∧ r.iterations ≤ n ∧
    ((r.termination = .residualTolerance ∧ (Fns.abs r.residual ≤ ftol ∨ r.residual = 0)) ∨
     (r.termination = .bracketWidth ∧ ∃ l u, min a b ≤ l ∧ l ≤ r.root ∧ r.root ≤ u ∧ u ≤ max a b ∧
        u - l ≤ xtol * (1 + Fns.abs r.root) ∧ sameSign (f l) (f u) = false)) := by
  unfold bisectionSolve at h
  simp only at h
  split at h
  · simp at h
  split at h
  · next h0 =>
    simp only [Except.ok.injEq] at h; subst h
    exact ⟨min_le_left _ _, le_max_left _ _, rfl, by simp, Or.inl ⟨rfl, Or.inr (by simpa using h0)⟩⟩
  split at h
  · next h0 =>
    simp only [Except.ok.injEq] at h; subst h
    exact ⟨min_le_right _ _, le_max_right _ _, rfl, by simp,
      Or.inl ⟨rfl, Or.inr (by simpa using h0)⟩⟩
  split at h
  · simp at h
  next hs =>
  have hs' : sameSign (f a) (f b) = false := by simpa using hs
  split at h
  · next hab =>
    obtain ⟨a1, a2, a3, a4, a5⟩ := bisectLoop_spec hmid f xtol ftol n 1 a b hab r le_rfl h
    rw [min_eq_left hab, max_eq_right hab]
    refine ⟨a1, a2, a3, by omega, ?_⟩
    rcases a5 with ⟨b1, b2⟩ | ⟨b1, l', u', b2, b3, b4, b5, b6, b7, b8⟩
    · exact Or.inl ⟨b1, Or.inl b2⟩
    · exact Or.inr ⟨b1, l', u', b2, b3, b4, b5, b7, b8 hs'⟩
  · next hab =>
    have hba := (not_le.mp hab).le
    obtain ⟨a1, a2, a3, a4, a5⟩ := bisectLoop_spec hmid f xtol ftol n 1 b a hba r le_rfl h
    rw [min_eq_right hba, max_eq_left hba]
    refine ⟨a1, a2, a3, by omega, ?_⟩
    rcases a5 with ⟨b1, b2⟩ | ⟨b1, l', u', b2, b3, b4, b5, b6, b7, b8⟩
    · exact Or.inl ⟨b1, Or.inl b2⟩
    · refine Or.inr ⟨b1, l', u', b2, b3, b4, b5, b7, b8 ?_⟩
      simp only [sameSign] at hs' ⊢
      rw [Bool.beq_comm]; exact hs'

theorem bisectLoop_congr (hmid : MidpointInside T) (f g : T → T) (xtol ftol : T) (fuel iter : ℕ)
    (l v u : T) (hlu : l ≤ u) (hfg : ∀ x, l ≤ x → x ≤ u → f x = g x) :
    bisectLoop f xtol ftol fuel iter l v u = bisectLoop g xtol ftol fuel iter l v u := by
  induction fuel generalizing iter l v u with
  | zero => rfl
  | succ fuel ih =>
    obtain ⟨m1, m2⟩ := hmid l u hlu
    simp only [bisectLoop]
    rw [hfg _ m1 m2]
    congr 1
    congr 1
    congr 1
    congr 1
    · exact ih _ _ _ _ m2 fun x h1 h2 => hfg x (m1.trans h1) h2
    · exact ih _ _ _ _ m1 fun x h1 h2 => hfg x h1 (h2.trans m2)

/-- C16. The function is never evaluated outside the bracket: two functions that agree on the
bracket give the same answer. -/
theorem bisection_stays_inside (hmid : MidpointInside T) (xtol ftol : T) (n : ℕ) (f g : T → T)
    (a b : T) (hfg : ∀ x, min a b ≤ x → x ≤ max a b → f x = g x) :
    bisectionSolve xtol ftol n f a b = bisectionSolve xtol ftol n g a b := by
  unfold bisectionSolve
  simp only
  rw [hfg a (min_le_left _ _) (le_max_left _ _), hfg b (min_le_right _ _) (le_max_right _ _)]
  by_cases hab : a ≤ b
  · rw [min_eq_left hab, max_eq_right hab] at hfg
    simp only [hab, if_true]
    rw [bisectLoop_congr hmid f g xtol ftol n 1 a (g a) b hab hfg]
  · have hba := (not_le.mp hab).le
    rw [min_eq_right hba, max_eq_left hba] at hfg
    simp only [hab, if_false]
    rw [bisectLoop_congr hmid f g xtol ftol n 1 b (g b) a hba hfg]

end order

theorem real_midpointInside : MidpointInside ℝ := by
  intro a b h
  constructor <;> linarith

example : ∃ r, bisectionSolve (1 / 100 : ℝ) 0 3 (fun x => x - 1) 0 2 = .ok r ∧ r.root = 1 := by
  refine ⟨⟨1, 0, 1, .residualTolerance⟩, ?_, rfl⟩
  unfold bisectionSolve
  simp only [bisectLoop]
  norm_num [sameSign, Fns.isFinite, Fns.abs]

/-! ## Bisection on continuous functions (C17) -/

theorem root_between (f : ℝ → ℝ) (l u : ℝ) (hlu : l ≤ u) (hc : ContinuousOn f (Set.Icc l u))
    (hs : sameSign (f l) (f u) = false) : ∃ x, l ≤ x ∧ x ≤ u ∧ f x = 0 := by
  simp only [sameSign] at hs
  by_cases hl : 0 ≤ f l
  · have hu : ¬ 0 ≤ f u := by intro hu; simp [hl, hu] at hs
    obtain ⟨x, hx, h0⟩ := intermediate_value_Icc' hlu hc ⟨(not_le.mp hu).le, hl⟩
    exact ⟨x, hx.1, hx.2, h0⟩
  · have hu : 0 ≤ f u := by by_contra hu; simp [hl, hu] at hs
    obtain ⟨x, hx, h0⟩ := intermediate_value_Icc hlu hc ⟨(not_le.mp hl).le, hu⟩
    exact ⟨x, hx.1, hx.2, h0⟩

/-- C17. On a continuous function, a bracket-width return has a true root within the tolerance. -/
theorem bisection_true_root (xtol ftol : ℝ) (n : ℕ) (f : ℝ → ℝ) (a b : ℝ)
    (hc : ContinuousOn f (Set.Icc (min a b) (max a b))) (r : RootReport ℝ)
    (h : bisectionSolve xtol ftol n f a b = .ok r) (ht : r.termination = .bracketWidth) :
    ∃ x, min a b ≤ x ∧ x ≤ max a b ∧ f x = 0 ∧ |x - r.root| ≤ xtol * (1 + |r.root|) := by
  obtain ⟨_, _, _, _, h5⟩ := bisection_report real_midpointInside xtol ftol n f a b r h
  rcases h5 with ⟨h5, -⟩ | ⟨-, l, u, h6, h7, h8, h9, h10, h11⟩
  · rw [ht] at h5; simp at h5
  · obtain ⟨x, x1, x2, x3⟩ := root_between f l u (h7.trans h8)
      (hc.mono (Set.Icc_subset_Icc h6 h9)) h11
    simp only [Fns.abs] at h10
    refine ⟨x, h6.trans x1, x2.trans h9, x3, ?_⟩
    rw [abs_le]
    constructor <;> linarith

theorem bisectLoop_converges (f : ℝ → ℝ) (xtol ftol : ℝ) (hx : 0 < xtol) (fuel iter : ℕ)
    (l v u : ℝ) (hlu : l ≤ u) (hb : u - l ≤ xtol * 2 ^ fuel) :
    ∃ r, bisectLoop f xtol ftol (fuel + 1) iter l v u = .ok r := by
  induction fuel generalizing iter l v u with
  | zero =>
    simp only [bisectLoop, Fns.isFinite, Bool.not_true, Bool.false_eq_true, if_false, Fns.abs]
    set m := l + (u - l) * (1 / 2)
    split
    · exact ⟨_, rfl⟩
    · rw [if_pos]
      · exact ⟨_, rfl⟩
      · have := abs_nonneg m
        simp only [pow_zero, mul_one] at hb
        nlinarith
  | succ fuel ih =>
    rw [bisectLoop]
    simp only [Fns.isFinite, Bool.not_true, Bool.false_eq_true, if_false, Fns.abs]
    have hh : ∀ p q : ℝ, q - p = (u - l) / 2 → q - p ≤ xtol * 2 ^ fuel := by
      intro p q e
      rw [e]
      rw [pow_succ] at hb
      linarith
    split
    · exact ⟨_, rfl⟩
    · split
      · exact ⟨_, rfl⟩
      · split
        · exact ih _ _ _ _ (by linarith) (hh _ _ (by ring))
        · exact ih _ _ _ _ (by linarith) (hh _ _ (by ring))

/-- C17. Guaranteed budget: for every function (even discontinuous) with a sign change, a budget of
`k + 1` iterations with `2^k` at least the bracket width over the tolerance always succeeds. -/
theorem bisection_converges (xtol ftol : ℝ) (hx : 0 < xtol) (k : ℕ) (f : ℝ → ℝ) (a b : ℝ)
    (hs : sameSign (f a) (f b) = false) (hk : |b - a| ≤ xtol * 2 ^ k) :
    ∃ r, bisectionSolve xtol ftol (k + 1) f a b = .ok r := by
  unfold bisectionSolve
  simp only [Fns.isFinite, Bool.not_true, Bool.or_self, Bool.false_eq_true, if_false, hs]
  split
  · exact ⟨_, rfl⟩
  · split
    · exact ⟨_, rfl⟩
    · split
      · next hab =>
        exact bisectLoop_converges f xtol ftol hx k 1 a _ b hab
          ((le_abs_self _).trans hk)
      · next hab =>
        push Not at hab
        refine bisectLoop_converges f xtol ftol hx k 1 b _ a hab.le ?_
        rw [abs_sub_comm] at hk
        exact (le_abs_self _).trans hk

/-- A bracket of width 2, tolerance 1/1000: eleven halvings suffice. -/
example : sameSign ((fun x : ℝ => x * x - 2) 0) ((fun x : ℝ => x * x - 2) 2) = false ∧
    |(2 : ℝ) - 0| ≤ 1 / 1000 * 2 ^ 11 := by
  norm_num [sameSign]

/-- Width bookkeeping: a bracket-width return cannot happen before the width fits. -/
theorem bisectLoop_width (f : ℝ → ℝ) (xtol ftol : ℝ) (fuel iter : ℕ) (l v u : ℝ) (hlu : l ≤ u)
    (r : RootReport ℝ) (h : bisectLoop f xtol ftol fuel iter l v u = .ok r) (hi : 1 ≤ iter) :
    (|f r.root| ≤ ftol) ∨ (∃ j, j < fuel ∧ (u - l) / 2 ^ j ≤ xtol * (1 + |r.root|) ∧
      l ≤ r.root ∧ r.root ≤ u ∧ (sameSign (f u) v = false → ∃ p q, p ≤ r.root ∧ r.root ≤ q ∧
        q - p = (u - l) / 2 ^ j ∧ sameSign (f q) v = false ∧ l ≤ p ∧ q ≤ u ∧
        (p = l ∨ sameSign (f p) v = true))) := by
  induction fuel generalizing iter l v u with
  | zero => simp [bisectLoop] at h
  | succ fuel ih =>
    simp only [bisectLoop, Fns.isFinite, Bool.not_true, Bool.false_eq_true, if_false, Fns.abs] at h
    split at h
    · next h1 => simp only [Except.ok.injEq] at h; subst h; exact Or.inl h1
    · split at h
      · next h2 =>
        simp only [Except.ok.injEq] at h; subst h
        refine Or.inr ⟨0, by omega, by simpa using h2, by simp only; linarith, by simp only; linarith,
          fun hs => ⟨l, u, by simp only; linarith, by simp only; linarith, by simp, hs, le_refl _,
            le_refl _, Or.inl rfl⟩⟩
      · split at h
        · next hs =>
          rcases ih (iter + 1) _ _ _ (by linarith) h (by omega) with h' | ⟨j, h1, h2, h3, h4, h5⟩
          · exact Or.inl h'
          · have e : (u - (l + (u - l) * (1 / 2))) / 2 ^ j = (u - l) / 2 ^ (j + 1) := by
              rw [pow_succ]; field_simp; ring
            refine Or.inr ⟨j + 1, by omega, by rw [← e]; exact h2, by linarith, h4, fun hne => ?_⟩
            simp only [sameSign, beq_iff_eq] at hs
            obtain ⟨p, q, k1, k2, k3, k4, k5, k6, k7⟩ := h5 (by
              simp only [sameSign] at hne ⊢; rw [hs]; exact hne)
            refine ⟨p, q, k1, k2, by rw [k3, e], ?_, by linarith, k6, ?_⟩
            · simp only [sameSign] at k4 ⊢; rw [← hs]; exact k4
            · right
              rcases k7 with rfl | k7
              · simp only [sameSign, hs, BEq.rfl]
              · simp only [sameSign] at k7 ⊢; rw [← hs]; exact k7
        · next hs =>
          rcases ih (iter + 1) _ _ _ (by linarith) h (by omega) with h' | ⟨j, h1, h2, h3, h4, h5⟩
          · exact Or.inl h'
          · have e : (l + (u - l) * (1 / 2) - l) / 2 ^ j = (u - l) / 2 ^ (j + 1) := by
              rw [pow_succ]; field_simp; ring
            refine Or.inr ⟨j + 1, by omega, by rw [← e]; exact h2, h3, by linarith, fun _ => ?_⟩
            obtain ⟨p, q, k1, k2, k3, k4, k5, k6, k7⟩ := h5 (by simpa using hs)
            exact ⟨p, q, k1, k2, by rw [k3, e], k4, k5, by linarith, k7⟩

/-- C17 (finding). "… always fits within the default budget of 100 iterations" is false: on the
bracket `[-2^60, 2^60]` with the default tolerances a step at 1/3 exhausts the budget. -/
theorem bisection_default_budget_too_small :
    ∃ f : ℝ → ℝ, bisectionSolve (4 / 2 ^ 52) (4 / 2 ^ 52) 100 f (-2 ^ 60) (2 ^ 60) =
      .error (.didNotConverge 100) := by
  let f : ℝ → ℝ := fun x => if x < 1 / 3 then -1 else 1
  have f1 : ∀ x, |f x| = 1 := by intro x; simp only [f]; split <;> simp
  have fs : ∀ x, sameSign (f x) (-1) = decide (x < 1 / 3) := by
    intro x; simp only [f, sameSign]
    split
    · next h => simp only [h, decide_true]; norm_num
    · next h => simp only [h, decide_false]; norm_num
  refine ⟨f, ?_⟩
  have ha : f (-2 ^ 60) = -1 := by simp only [f]; rw [if_pos (by norm_num)]
  have hb : f (2 ^ 60) = 1 := by simp only [f]; rw [if_neg (by norm_num)]
  unfold bisectionSolve
  simp only [Fns.isFinite, ha, hb, Bool.not_true, Bool.or_self, Bool.false_eq_true, if_false]
  rw [if_neg (by simp), if_neg (by simp), if_neg (by simp [sameSign]), if_pos (by norm_num)]
  have herr : ∀ (fuel iter : ℕ) (l v u : ℝ) (e : SolveError), 1 ≤ iter →
      bisectLoop f (4 / 2 ^ 52) (4 / 2 ^ 52) fuel iter l v u = .error e →
      e = .didNotConverge (iter + fuel - 1) := by
    intro fuel
    induction fuel with
    | zero => intro iter l v u e hi h; simp [bisectLoop] at h; rw [← h]; simp
    | succ fuel ih =>
      intro iter l v u e hi h
      simp only [bisectLoop, Fns.isFinite, Bool.not_true, Bool.false_eq_true, if_false] at h
      split at h
      · simp at h
      · split at h
        · simp at h
        · split at h
          · rw [ih _ _ _ _ _ (by omega) h]; congr 1; omega
          · rw [ih _ _ _ _ _ (by omega) h]; congr 1; omega
  cases hres : bisectLoop f (4 / 2 ^ 52) (4 / 2 ^ 52) 100 1 (-2 ^ 60) (-1) (2 ^ 60) with
  | error e => rw [herr _ _ _ _ _ _ le_rfl hres]
  | ok r =>
    exfalso
    rcases bisectLoop_width f _ _ 100 1 _ _ _ (by norm_num) r hres le_rfl with
      h | ⟨j, hj, h2, h3, h4, h5⟩
    · rw [f1] at h; norm_num at h
    · obtain ⟨p, q, k1, k2, k3, k4, k5, k6, k7⟩ := h5 (by rw [fs]; norm_num)
      rw [fs] at k4
      have hq : 1 / 3 ≤ q := by simpa using k4
      have hp : p ≤ 1 / 3 := by
        rcases k7 with rfl | k7
        · norm_num
        · rw [fs] at k7; simp only [decide_eq_true_eq] at k7; exact k7.le
      have hw : (2 ^ 60 - -2 ^ 60 : ℝ) / 2 ^ j = q - p := k3.symm
      rw [hw] at h2
      have hr : |r.root| ≤ 1 / 3 + (q - p) := by
        rw [abs_le]; constructor <;> linarith
      have hbig : (2 ^ 60 - -2 ^ 60 : ℝ) / 2 ^ 99 ≤ q - p := by
        rw [← hw]
        gcongr
        · norm_num
        · omega
      norm_num at hbig h2
      nlinarith

/-! ## Brent (C18) -/

/-- What Brent's state always satisfies: values are those of `f`, the signs differ, both points are
in the bracket and `b` is the better one. -/
structure BrentInv (f : ℝ → ℝ) (lo hi : ℝ) (s : BrentState ℝ) : Prop where
  fa : s.fa = f s.a
  fb : s.fb = f s.b
  sign : sameSign s.fa s.fb = false
  a_mem : lo ≤ s.a ∧ s.a ≤ hi
  b_mem : lo ≤ s.b ∧ s.b ≤ hi
  best : |s.fb| ≤ |s.fa|

theorem brentTrial_between (xtol : ℝ) (s : BrentState ℝ) :
    min s.a s.b ≤ (brentTrial xtol s).1 ∧ (brentTrial xtol s).1 ≤ max s.a s.b := by
  unfold brentTrial
  simp only
  generalize (if (s.fa != s.fc && s.fb != s.fc) = true then
    inverseQuadratic s.a s.fa s.b s.fb s.c s.fc
    else s.b - s.fb * (s.b - s.a) / (s.fb - s.fa)) = t
  generalize hP : (!Fns.isFinite t || _ || _ || _ || _ || _) = P
  cases P with
  | true =>
    simp only [if_true]
    rcases le_total s.a s.b with h | h
    · rw [min_eq_left h, max_eq_right h]; constructor <;> linarith
    · rw [min_eq_right h, max_eq_left h]; constructor <;> linarith
  | false =>
    simp only [Bool.or_eq_false_iff, decide_eq_false_iff_not, not_lt] at hP
    obtain ⟨⟨⟨⟨⟨-, h1, h2⟩, -⟩, -⟩, -⟩, -⟩ := hP
    simp only [Bool.false_eq_true, if_false]
    split at h1
    · next hb =>
      simp only [hb, if_true] at h2
      rcases le_total s.a s.b with h | h
      · rw [min_eq_left h, max_eq_right h]; constructor <;> linarith
      · rw [min_eq_right h, max_eq_left h]; constructor <;> linarith
    · next hb =>
      simp only [hb, if_false] at h2
      rcases le_total s.a s.b with h | h
      · rw [min_eq_left h, max_eq_right h]; constructor <;> linarith
      · rw [min_eq_right h, max_eq_left h]; constructor <;> linarith

theorem brentSwap_inv (f : ℝ → ℝ) (lo hi : ℝ) (s : BrentState ℝ) (h1 : s.fa = f s.a)
    (h2 : s.fb = f s.b) (h3 : sameSign s.fa s.fb = false) (h4 : lo ≤ s.a ∧ s.a ≤ hi)
    (h5 : lo ≤ s.b ∧ s.b ≤ hi) : BrentInv f lo hi (brentSwap s) := by
  unfold brentSwap
  simp only [Fns.abs]
  split
  · next h =>
    refine ⟨h2, h1, ?_, h5, h4, h.le⟩
    simp only [sameSign] at h3 ⊢
    rw [Bool.beq_comm]; exact h3
  · next h => exact ⟨h1, h2, h3, h4, h5, not_lt.mp h⟩

theorem brentUpdate_inv (f : ℝ → ℝ) (lo hi xtol : ℝ) (s : BrentState ℝ) (h : BrentInv f lo hi s)
    (m : Bool) : BrentInv f lo hi
      (brentUpdate s (brentTrial xtol s).1 (f (brentTrial xtol s).1) m) := by
  obtain ⟨t1, t2⟩ := brentTrial_between xtol s
  have hm : lo ≤ (brentTrial xtol s).1 ∧ (brentTrial xtol s).1 ≤ hi :=
    ⟨(le_min h.a_mem.1 h.b_mem.1).trans t1, t2.trans (max_le h.a_mem.2 h.b_mem.2)⟩
  unfold brentUpdate
  simp only
  split
  · next hs =>
    refine brentSwap_inv f lo hi _ rfl h.fb ?_ hm h.b_mem
    have := h.sign
    simp only [sameSign, beq_iff_eq] at hs this ⊢
    rw [← hs]; exact this
  · next hs =>
    refine brentSwap_inv f lo hi _ h.fa rfl ?_ h.a_mem hm
    simpa using hs

theorem brentTest_spec (f : ℝ → ℝ) (lo hi xtol ftol : ℝ) (iter : ℕ) (s : BrentState ℝ)
    (h : BrentInv f lo hi s) (r : RootReport ℝ) (hr : brentTest xtol ftol iter s = some r) :
    r.iterations = iter ∧ r.root = s.b ∧ r.residual = f r.root ∧
    ((r.termination = .residualTolerance ∧ |f r.root| ≤ ftol) ∨
     (r.termination = .bracketWidth ∧ |s.a - s.b| / 2 ≤ xtol * (1 + |r.root|))) := by
  unfold brentTest at hr
  simp only [Fns.abs] at hr
  split at hr
  · next h1 =>
    simp only [Option.some.injEq] at hr; subst hr
    exact ⟨rfl, rfl, h.fb, Or.inl ⟨rfl, by rw [← h.fb]; exact h1⟩⟩
  · split at hr
    · next h2 =>
      simp only [Option.some.injEq] at hr; subst hr
      refine ⟨rfl, rfl, h.fb, Or.inr ⟨rfl, ?_⟩⟩
      rcases h2 with h2 | h2
      · rw [abs_mul, abs_of_pos (show (0 : ℝ) < 1 / 2 by norm_num)] at h2
        simp only; linarith
      · rw [abs_sub_comm] at h2
        have := abs_nonneg (s.a - s.b)
        simp only; linarith
    · simp at hr

/-- What a Brent report guarantees. -/
def BrentGood (f : ℝ → ℝ) (lo hi xtol ftol : ℝ) (r : RootReport ℝ) : Prop :=
  lo ≤ r.root ∧ r.root ≤ hi ∧ r.residual = f r.root ∧
  ((r.termination = .residualTolerance ∧ |f r.root| ≤ ftol) ∨
   (r.termination = .bracketWidth ∧ ∃ other, lo ≤ other ∧ other ≤ hi ∧
      sameSign (f other) (f r.root) = false ∧ |f r.root| ≤ |f other| ∧
      |other - r.root| / 2 ≤ xtol * (1 + |r.root|)))

theorem brentLoop_spec (f : ℝ → ℝ) (lo hi xtol ftol : ℝ) (fuel iter : ℕ) (s : BrentState ℝ)
    (h : BrentInv f lo hi s) (r : RootReport ℝ) (hi1 : 1 ≤ iter)
    (hr : brentLoop f xtol ftol fuel iter s = .ok r) :
    BrentGood f lo hi xtol ftol r ∧ r.iterations < iter + fuel := by
  have good : ∀ (s : BrentState ℝ) (it : ℕ), BrentInv f lo hi s →
      brentTest xtol ftol it s = some r → BrentGood f lo hi xtol ftol r ∧ r.iterations = it := by
    intro s it h hr
    obtain ⟨a1, a2, a3, a4⟩ := brentTest_spec f lo hi xtol ftol it s h r hr
    refine ⟨⟨a2 ▸ h.b_mem.1, a2 ▸ h.b_mem.2, a3, ?_⟩, a1⟩
    rcases a4 with a4 | ⟨a4, a5⟩
    · exact Or.inl a4
    · refine Or.inr ⟨a4, s.a, h.a_mem.1, h.a_mem.2, ?_, ?_, ?_⟩
      · rw [a2, ← h.fa, ← h.fb]; exact h.sign
      · rw [a2, ← h.fa, ← h.fb]; exact h.best
      · rw [a2] at a5 ⊢; exact a5
  induction fuel generalizing iter s with
  | zero => simp [brentLoop] at hr
  | succ fuel ih =>
    simp only [brentLoop, Fns.isFinite, Bool.not_true, Bool.false_eq_true, if_false] at hr
    split at hr
    · next r' h1 =>
      simp only [Except.ok.injEq] at hr; subst hr
      obtain ⟨g1, g2⟩ := good s _ h h1
      exact ⟨g1, by omega⟩
    · have hu := brentUpdate_inv f lo hi xtol s h (brentTrial xtol s).2
      split at hr
      · next r' h2 =>
        simp only [Except.ok.injEq] at hr; subst hr
        obtain ⟨g1, g2⟩ := good _ _ hu h2
        exact ⟨g1, by omega⟩
      · obtain ⟨g1, g2⟩ := ih (iter + 1) _ hu (by omega) hr
        exact ⟨g1, by omega⟩

/-- C18. For every function, bracket, tolerance and budget, Brent's method returns a point of the
initial bracket whose residual is the function there, within the budget, and the reported test holds:
either the residual is small, or another point of opposite sign and no smaller residual is within
twice the tolerance. -/
theorem brent_report (xtol ftol : ℝ) (n : ℕ) (f : ℝ → ℝ) (a b : ℝ) (r : RootReport ℝ)
    (h : brentSolve xtol ftol n f a b = .ok r) :
    (BrentGood f (min a b) (max a b) xtol ftol r ∨
      (r.residual = 0 ∧ r.residual = f r.root ∧ (r.root = a ∨ r.root = b))) ∧ r.iterations ≤ n := by
  unfold brentSolve at h
  simp only [Fns.isFinite, Bool.not_true, Bool.or_self, Bool.false_eq_true, if_false] at h
  split at h
  · next h0 =>
    simp only [Except.ok.injEq] at h; subst h
    exact ⟨Or.inr ⟨by simpa using h0, rfl, Or.inl rfl⟩, by simp⟩
  split at h
  · next h0 =>
    simp only [Except.ok.injEq] at h; subst h
    exact ⟨Or.inr ⟨by simpa using h0, rfl, Or.inr rfl⟩, by simp⟩
  split at h
  · simp at h
  next hs =>
  have hinv := brentSwap_inv f (min a b) (max a b) ⟨a, f a, b, f b, a, f a, b - a, true⟩ rfl rfl
    (by simpa using hs) ⟨min_le_left _ _, le_max_left _ _⟩ ⟨min_le_right _ _, le_max_right _ _⟩
  obtain ⟨g1, g2⟩ := brentLoop_spec f (min a b) (max a b) xtol ftol n 1 _
    (by exact ⟨hinv.fa, hinv.fb, hinv.sign, hinv.a_mem, hinv.b_mem, hinv.best⟩) r le_rfl h
  exact ⟨Or.inl g1, by omega⟩

/-- C18. On a continuous function a bracket-width return has a true root within twice the
tolerance. -/
theorem brent_true_root (xtol ftol : ℝ) (n : ℕ) (f : ℝ → ℝ) (a b : ℝ)
    (hc : ContinuousOn f (Set.Icc (min a b) (max a b))) (r : RootReport ℝ)
    (h : brentSolve xtol ftol n f a b = .ok r) (ht : r.termination = .bracketWidth) :
    ∃ x, min a b ≤ x ∧ x ≤ max a b ∧ f x = 0 ∧ |x - r.root| ≤ 2 * (xtol * (1 + |r.root|)) := by
  obtain ⟨h1, -⟩ := brent_report xtol ftol n f a b r h
  rcases h1 with ⟨g1, g2, g3, g4⟩ | ⟨h1, h2, h3⟩
  · rcases g4 with ⟨g4, -⟩ | ⟨-, o, o1, o2, o3, o4, o5⟩
    · rw [ht] at g4; simp at g4
    · rcases le_total o r.root with hle | hle
      · obtain ⟨x, x1, x2, x3⟩ := root_between f o r.root hle
          (hc.mono (Set.Icc_subset_Icc o1 g2)) o3
        refine ⟨x, o1.trans x1, x2.trans g2, x3, ?_⟩
        have : |x - r.root| ≤ |o - r.root| := by
          rw [abs_of_nonpos (by linarith), abs_of_nonpos (by linarith)]; linarith
        linarith
      · obtain ⟨x, x1, x2, x3⟩ := root_between f r.root o hle
          (hc.mono (Set.Icc_subset_Icc g1 o2)) (by
            simp only [sameSign] at o3 ⊢; rw [Bool.beq_comm]; exact o3)
        refine ⟨x, g1.trans x1, x2.trans o2, x3, ?_⟩
        have : |x - r.root| ≤ |o - r.root| := by
          rw [abs_of_nonneg (by linarith), abs_of_nonneg (by linarith)]; linarith
        linarith
  · exfalso
    unfold brentSolve at h
    simp only [Fns.isFinite, Bool.not_true, Bool.or_self, Bool.false_eq_true, if_false] at h
    have hz : f r.root = 0 := by rw [← h2]; exact h1
    split at h
    · simp only [Except.ok.injEq] at h; subst h; simp at ht
    split at h
    · simp only [Except.ok.injEq] at h; subst h; simp at ht
    next ha hb =>
    rcases h3 with h3 | h3
    · rw [h3] at hz; simp [hz] at ha
    · rw [h3] at hz; simp [hz] at hb

theorem brentLoop_congr (f g : ℝ → ℝ) (lo hi xtol ftol : ℝ) (fuel iter : ℕ) (s : BrentState ℝ)
    (h : BrentInv f lo hi s) (hfg : ∀ x, lo ≤ x → x ≤ hi → f x = g x) :
    brentLoop f xtol ftol fuel iter s = brentLoop g xtol ftol fuel iter s := by
  induction fuel generalizing iter s with
  | zero => rfl
  | succ fuel ih =>
    obtain ⟨t1, t2⟩ := brentTrial_between xtol s
    have hm : lo ≤ (brentTrial xtol s).1 ∧ (brentTrial xtol s).1 ≤ hi :=
      ⟨(le_min h.a_mem.1 h.b_mem.1).trans t1, t2.trans (max_le h.a_mem.2 h.b_mem.2)⟩
    have hu := brentUpdate_inv f lo hi xtol s h (brentTrial xtol s).2
    simp only [brentLoop]
    rw [← hfg _ hm.1 hm.2]
    rw [ih _ _ hu]

/-- C18. The function is never evaluated outside the bracket. -/
theorem brent_stays_inside (xtol ftol : ℝ) (n : ℕ) (f g : ℝ → ℝ) (a b : ℝ)
    (hfg : ∀ x, min a b ≤ x → x ≤ max a b → f x = g x) :
    brentSolve xtol ftol n f a b = brentSolve xtol ftol n g a b := by
  have ea := hfg a (min_le_left _ _) (le_max_left _ _)
  have eb := hfg b (min_le_right _ _) (le_max_right _ _)
  unfold brentSolve
  simp only [← ea, ← eb]
  split
  · rfl
  split
  · rfl
  split
  · rfl
  split
  · rfl
  next hs =>
  have hinv := brentSwap_inv f (min a b) (max a b) ⟨a, f a, b, f b, a, f a, b - a, true⟩ rfl rfl
    (by simpa using hs) ⟨min_le_left _ _, le_max_left _ _⟩ ⟨min_le_right _ _, le_max_right _ _⟩
  exact brentLoop_congr f g (min a b) (max a b) xtol ftol n 1 _
    (by exact ⟨hinv.fa, hinv.fb, hinv.sign, hinv.a_mem, hinv.b_mem, hinv.best⟩) hfg

/-- Bracketing `x³ - 2` on `[0, 2]` is accepted. -/
example : sameSign ((0 : ℝ) ^ 3 - 2) ((2 : ℝ) ^ 3 - 2) = false ∧ (0 : ℝ) ^ 3 - 2 ≠ 0 := by
  norm_num [sameSign]

/-! ## Newton (C19) -/

section newton
variable [Zero T] [One T] [NatCast T] [Add T] [Sub T] [Mul T] [Div T] [LT T] [DecidableLT T] [LE T]
  [DecidableLE T] [BEq T] [Fns T]

/-- Repeated halving of the step length, as computed. -/
def halvings (α : T) : ℕ → T
  | 0 => α
  | k + 1 => halvings (α * (1 / 2)) k

theorem newtonBacktrack_spec (f : T → T) (bt : Bool) (x res step : T) (left : ℕ) (α : T)
    (y fy : T) (h : newtonBacktrack f bt x res step left α = .ok (y, fy)) :
    ∃ k, k ≤ left ∧ y = x - halvings α k * step ∧ fy = f y ∧ Fns.isFinite fy = true ∧
      (bt = false → k = 0) ∧ (bt = true → Fns.abs fy < Fns.abs res ∨ k = left) := by
  induction left generalizing α with
  | zero =>
    unfold newtonBacktrack at h
    cases bt with
    | false =>
      simp only [Bool.not_false, if_true] at h
      split at h
      · simp at h
      · next hf =>
        simp only [Except.ok.injEq, Prod.mk.injEq] at h
        obtain ⟨rfl, rfl⟩ := h
        exact ⟨0, le_rfl, rfl, rfl, by simpa using hf, fun _ => rfl, fun h => by simp at h⟩
    | true =>
      simp only [Bool.not_true, Bool.false_eq_true, if_false, BEq.rfl, Bool.or_true, if_true] at h
      split at h
      · simp at h
      · next hf =>
        simp only [Except.ok.injEq, Prod.mk.injEq] at h
        obtain ⟨rfl, rfl⟩ := h
        exact ⟨0, le_rfl, rfl, rfl, by simpa using hf, fun _ => rfl, fun _ => Or.inr rfl⟩
  | succ left ih =>
    unfold newtonBacktrack at h
    cases bt with
    | false =>
      simp only [Bool.not_false, if_true] at h
      split at h
      · simp at h
      · next hf =>
        simp only [Except.ok.injEq, Prod.mk.injEq] at h
        obtain ⟨rfl, rfl⟩ := h
        exact ⟨0, by omega, rfl, rfl, by simpa using hf, fun _ => rfl, fun h => by simp at h⟩
    | true =>
      simp only [Bool.not_true, Bool.false_eq_true, if_false] at h
      split at h
      · next hc =>
        split at h
        · simp at h
        · next hf =>
          simp only [Except.ok.injEq, Prod.mk.injEq] at h
          obtain ⟨rfl, rfl⟩ := h
          refine ⟨0, by omega, rfl, rfl, by simpa using hf, fun _ => rfl, fun _ => Or.inl ?_⟩
          simp only [Bool.or_eq_true, Bool.and_eq_true, decide_eq_true_eq, beq_iff_eq] at hc
          exact (hc.resolve_right (by omega)).2
      · obtain ⟨k, h1, h2, h3, h4, h5, h6⟩ := ih _ h
        refine ⟨k + 1, by omega, h2, h3, h4, fun h => by simp at h, fun hb => ?_⟩
        rcases h6 hb with h6 | h6
        · exact Or.inl h6
        · exact Or.inr (by omega)

/-- Specification of one accepted Newton step. -/
structure NewtonStep (f : T → T) (deriv : T → Except SolveError T) (bt : Bool) (x y : T) : Prop where
  step : ∃ d k, deriv x = .ok d ∧ Fns.isFinite d = true ∧ (d == 0) = false ∧ k ≤ 20 ∧
    y = x - halvings 1 k * (f x / d) ∧ Fns.isFinite (f y) = true ∧ (bt = false → k = 0) ∧
    (bt = true → Fns.abs (f y) < Fns.abs (f x) ∨ k = 20)

/-- A chain of at most `n` accepted steps. -/
inductive NewtonChain (f : T → T) (deriv : T → Except SolveError T) (bt : Bool) :
    ℕ → T → T → Prop
  | refl (x : T) : NewtonChain f deriv bt 0 x x
  | cons {n : ℕ} {x y z : T} (h : NewtonStep f deriv bt x y) (t : NewtonChain f deriv bt n y z) :
      NewtonChain f deriv bt (n + 1) x z

/-- C19. For every scalar (rounding and special values included), function, derivator and budget: the
returned point is reached from the start by full Newton steps, or by at most twenty halvings each when
backtracking is on (which then lower the residual unless all twenty were used); the residual is the
function there, the report's test holds there, and the iterations are within the budget. -/
theorem newton_report (xtol ftol : T) (n : ℕ) (bt : Bool) (f : T → T)
    (deriv : T → Except SolveError T) (x₀ : T) (r : RootReport T)
    (h : newtonSolve xtol ftol n bt f deriv x₀ = .ok r) :
    r.residual = f r.root ∧ Fns.isFinite r.residual = true ∧ 1 ≤ r.iterations ∧ r.iterations ≤ n ∧
    ((r.termination = .residualTolerance ∧ Fns.abs r.residual ≤ ftol ∧
        NewtonChain f deriv bt (r.iterations - 1) x₀ r.root) ∨
     (r.termination = .stepTolerance ∧ ∃ x, NewtonChain f deriv bt (r.iterations - 1) x₀ x ∧
        NewtonStep f deriv bt x r.root ∧
        Fns.abs (r.root - x) ≤ xtol * (1 + Fns.abs r.root))) := by
  have key : ∀ (fuel iter : ℕ) (x : T), 1 ≤ iter → Fns.isFinite (f x) = true →
      newtonLoop f deriv xtol ftol bt fuel iter x (f x) = .ok r →
      r.residual = f r.root ∧ Fns.isFinite r.residual = true ∧ iter ≤ r.iterations ∧
      r.iterations < iter + fuel ∧
      ((r.termination = .residualTolerance ∧ Fns.abs r.residual ≤ ftol ∧
          NewtonChain f deriv bt (r.iterations - iter) x r.root) ∨
       (r.termination = .stepTolerance ∧ ∃ y, NewtonChain f deriv bt (r.iterations - iter) x y ∧
          NewtonStep f deriv bt y r.root ∧
          Fns.abs (r.root - y) ≤ xtol * (1 + Fns.abs r.root))) := by
    intro fuel
    induction fuel with
    | zero => intro iter x _ _ h; simp [newtonLoop] at h
    | succ fuel ih =>
      intro iter x hi hfin h
      simp only [newtonLoop] at h
      split at h
      · next h1 =>
        simp only [Except.ok.injEq] at h; subst h
        exact ⟨rfl, hfin, le_rfl, by simp, Or.inl ⟨rfl, h1, by simpa using NewtonChain.refl x⟩⟩
      · split at h
        · simp at h
        · next d hd =>
          split at h
          · simp at h
          · next hdf =>
            split at h
            · simp at h
            · next hd0 =>
              split at h
              · simp at h
              · next y fy hb =>
                obtain ⟨k, k1, k2, k3, k4, k5, k6⟩ := newtonBacktrack_spec _ _ _ _ _ _ _ _ _ hb
                subst k3
                have hstep : NewtonStep f deriv bt x y :=
                  ⟨d, k, hd, by simpa using hdf, by simpa using hd0, k1, k2, k4, k5, k6⟩
                split at h
                · next hx =>
                  simp only [Except.ok.injEq] at h; subst h
                  exact ⟨rfl, k4, le_rfl, by simp, Or.inr ⟨rfl, x, by simpa using NewtonChain.refl x,
                    hstep, hx⟩⟩
                · obtain ⟨a1, a2, a3, a4, a5⟩ := ih (iter + 1) y (by omega) k4 h
                  refine ⟨a1, a2, by omega, by omega, ?_⟩
                  have e : r.iterations - iter = (r.iterations - (iter + 1)) + 1 := by omega
                  rcases a5 with ⟨b1, b2, b3⟩ | ⟨b1, z, b2, b3, b4⟩
                  · exact Or.inl ⟨b1, b2, by rw [e]; exact .cons hstep b3⟩
                  · exact Or.inr ⟨b1, z, by rw [e]; exact .cons hstep b2, b3, b4⟩
  unfold newtonSolve at h
  simp only at h
  split at h
  · simp at h
  · next hf =>
    obtain ⟨a1, a2, a3, a4, a5⟩ := key n 1 x₀ le_rfl (by simpa using hf) h
    exact ⟨a1, a2, a3, by omega, a5⟩

/-- C19. The first evaluation decides the special errors: a non-finite value at the start is
`NonFinite`; a residual above tolerance with zero derivative there is `Singular`. -/
theorem newton_errors (xtol ftol : T) (n : ℕ) (bt : Bool) (f : T → T)
    (deriv : T → Except SolveError T) (x₀ : T) :
    (Fns.isFinite (f x₀) = false → newtonSolve xtol ftol n bt f deriv x₀ = .error .nonFinite) ∧
    (∀ d, Fns.isFinite (f x₀) = true → ¬ Fns.abs (f x₀) ≤ ftol → deriv x₀ = .ok d →
      Fns.isFinite d = true → (d == 0) = true →
      newtonSolve xtol ftol (n + 1) bt f deriv x₀ = .error .singular) := by
  constructor
  · intro h; simp [newtonSolve, h]
  · intro d h1 h2 h3 h4 h5
    simp [newtonSolve, newtonLoop, h1, h2, h3, h4, h5]

end newton

/-- C19. On every non-constant affine function two iterations give the exact root, with or without
backtracking. -/
theorem newton_affine (xtol ftol : ℝ) (hf : 0 ≤ ftol) (n : ℕ) (bt : Bool) (m c x₀ : ℝ) (hm : m ≠ 0)
    (h0 : ftol < |m * x₀ + c|) :
    ∃ r, newtonSolve xtol ftol (n + 2) bt (fun x => m * x + c) (fun _ => .ok m) x₀ = .ok r ∧
      r.root = -c / m ∧ r.residual = 0 := by
  have hroot : x₀ - 1 * ((m * x₀ + c) / m) = -c / m := by field_simp; ring
  have hz : m * (-c / m) + c = 0 := by field_simp; ring
  have hpos : 0 < |m * x₀ + c| := by linarith
  have hb : newtonBacktrack (fun x => m * x + c) bt x₀ (m * x₀ + c) ((m * x₀ + c) / m) 20 1 =
      .ok (-c / m, 0) := by
    unfold newtonBacktrack
    simp only [hroot, hz, Fns.isFinite, Fns.abs, abs_zero, hpos]
    cases bt <;> simp
  unfold newtonSolve
  simp only [Fns.isFinite, Bool.not_true, Bool.false_eq_true, if_false]
  rw [newtonLoop]
  simp only [Fns.abs, not_le.mpr h0, if_false, Fns.isFinite, Bool.not_true, Bool.false_eq_true]
  rw [if_neg (by simpa using hm), hb]
  simp only
  split
  · exact ⟨_, rfl, rfl, rfl⟩
  · rw [newtonLoop]
    simp only [Fns.abs, abs_zero, hf, if_true]
    exact ⟨_, rfl, rfl, rfl⟩

example : (0 : ℝ) ≤ 0 ∧ (3 : ℝ) ≠ 0 ∧ (0 : ℝ) < |3 * 5 + 1| := by norm_num

end Multicalc
