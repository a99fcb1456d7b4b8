import Verif.Model.NewtonSystem
import Verif.Props.OptimizationExact
import Verif.Props.Expm
import Verif.Props.RootFinding
import Mathlib.Analysis.Calculus.Deriv.MeanValue
import Mathlib.Analysis.Calculus.FDeriv.Pi
import Mathlib.Analysis.Calculus.Deriv.Pi
import Mathlib.Analysis.Calculus.FDeriv.Pow
import Mathlib.Topology.Algebra.Module.FiniteDimension

/-!
# Newton's method for square systems (C106)
-/

namespace Multicalc

open Matrix NewtonSystem

section lawfree

variable {T : Type} [Zero T] [One T] [NatCast T] [Add T] [Sub T] [Neg T] [Mul T] [Div T] [LT T] [LE T] [BEq T]
  [DecidableLT T] [DecidableLE T] [Max T] [Min T] [Fns T] {n : ℕ}

/-- The step length after `k` halvings, as computed. -/
def halved : ℕ → T
  | 0 => 1
  | k + 1 => halved k * (1 / ((2 : ℕ) : T))

/-- A point the line search may settle on: the function is finite there and its norm is below `fnorm`. -/
def Lowers (minPositive largest : T) (f : (Fin n → T) → Fin n → T) (fnorm : T) (y : Fin n → T) : Prop :=
  allFinite (f y) = true ∧ enorm minPositive largest ((List.finRange n).map (f y)) < fnorm

/-- The step along the direction `d` shortened `k` times. -/
def stepped (x d : Fin n → T) (k : ℕ) : Fin n → T := fun i => x i + halved k * d i

theorem systemSearch_spec (minPositive largest : T) (bt : Bool) (f : (Fin n → T) → Fin n → T) (x d : Fin n → T)
    (fnorm : T) (left k₀ : ℕ) :
    (∀ r, lineSearch minPositive largest bt f x d fnorm left (halved k₀) = some r →
      ∃ k, k₀ ≤ k ∧ k ≤ k₀ + left ∧ r = (halved k, stepped x d k) ∧ allFinite (f (stepped x d k)) = true ∧
        (bt = false → k = k₀) ∧
        (bt = true → (Lowers minPositive largest f fnorm (stepped x d k) ∨ k = k₀ + left) ∧
          ∀ i, k₀ ≤ i → i < k → ¬Lowers minPositive largest f fnorm (stepped x d i))) ∧
    (lineSearch minPositive largest bt f x d fnorm left (halved k₀) = none →
      (bt = false → allFinite (f (stepped x d k₀)) = false) ∧
      (bt = true → allFinite (f (stepped x d (k₀ + left))) = false ∧
        ∀ i, k₀ ≤ i → i ≤ k₀ + left → ¬Lowers minPositive largest f fnorm (stepped x d i))) := by
  have hlow : ∀ k, (allFinite (f (stepped x d k)) && decide (arrayNorm minPositive largest (f (stepped x d k)) < fnorm)) = true
      ↔ Lowers minPositive largest f fnorm (stepped x d k) := fun k => by
    rw [Bool.and_eq_true]
    exact and_congr_right fun _ => decide_eq_true_iff
  induction left generalizing k₀ with
  | zero =>
    rw [lineSearch.eq_def]
    have e : (fun k => x k + halved k₀ * d k) = stepped x d k₀ := rfl
    simp only [e]
    cases bt with
    | false =>
      simp only [Bool.not_false, if_true]
      cases hfin : allFinite (f (stepped x d k₀)) with
      | false => simp
      | true =>
        simp only [if_true, Option.some.injEq]
        refine ⟨?_, by simp⟩
        rintro r rfl
        exact ⟨k₀, le_rfl, le_rfl, rfl, hfin, fun _ => rfl, by simp⟩
    | true =>
      simp only [Bool.not_true, Bool.false_eq_true, if_false]
      by_cases hl : Lowers minPositive largest f fnorm (stepped x d k₀)
      · rw [if_pos ((hlow k₀).2 hl)]
        refine ⟨?_, by simp⟩
        rintro r hr
        simp only [Option.some.injEq] at hr
        subst hr
        exact ⟨k₀, le_rfl, le_rfl, rfl, hl.1, by simp, fun _ => ⟨Or.inl hl, fun i h1 h2 => by omega⟩⟩
      · rw [if_neg (fun h => hl ((hlow k₀).1 h))]
        cases hfin : allFinite (f (stepped x d k₀)) with
        | false =>
          refine ⟨by simp, fun _ => ⟨by simp, fun _ => ⟨by simpa using hfin, fun i h1 h2 => ?_⟩⟩⟩
          obtain rfl : i = k₀ := by omega
          exact hl
        | true =>
          simp only [if_true, Option.some.injEq]
          refine ⟨?_, by simp⟩
          rintro r rfl
          exact ⟨k₀, le_rfl, le_rfl, rfl, hfin, by simp, fun _ => ⟨Or.inr rfl, fun i h1 h2 => by omega⟩⟩
  | succ left ih =>
    rw [lineSearch.eq_def]
    have e : (fun k => x k + halved k₀ * d k) = stepped x d k₀ := rfl
    have e' : halved k₀ * (1 / ((2 : ℕ) : T)) = halved (k₀ + 1) := rfl
    simp only [e, e']
    cases bt with
    | false =>
      simp only [Bool.not_false, if_true]
      cases hfin : allFinite (f (stepped x d k₀)) with
      | false => simp
      | true =>
        simp only [if_true, Option.some.injEq]
        refine ⟨?_, by simp⟩
        rintro r rfl
        exact ⟨k₀, le_rfl, by omega, rfl, hfin, fun _ => rfl, by simp⟩
    | true =>
      simp only [Bool.not_true, Bool.false_eq_true, if_false]
      by_cases hl : Lowers minPositive largest f fnorm (stepped x d k₀)
      · rw [if_pos ((hlow k₀).2 hl)]
        refine ⟨?_, by simp⟩
        rintro r hr
        simp only [Option.some.injEq] at hr
        subst hr
        exact ⟨k₀, le_rfl, by omega, rfl, hl.1, by simp, fun _ => ⟨Or.inl hl, fun i h1 h2 => by omega⟩⟩
      · rw [if_neg (fun h => hl ((hlow k₀).1 h))]
        obtain ⟨h1, h2⟩ := ih (k₀ + 1)
        refine ⟨fun r hr => ?_, fun hn => ?_⟩
        · obtain ⟨k, a1, a2, a3, a4, -, a6⟩ := h1 r hr
          obtain ⟨b1, b2⟩ := a6 rfl
          refine ⟨k, by omega, by omega, a3, a4, by simp, fun _ => ⟨b1.imp id (by omega), fun i hi hk => ?_⟩⟩
          rcases Nat.eq_or_lt_of_le hi with rfl | hi
          · exact hl
          · exact b2 i hi hk
        · obtain ⟨-, b⟩ := h2 hn
          obtain ⟨b1, b2⟩ := b rfl
          have en : k₀ + 1 + left = k₀ + (left + 1) := by omega
          rw [en] at b1 b2
          refine ⟨by simp, fun _ => ⟨b1, fun i hi hk => ?_⟩⟩
          rcases Nat.eq_or_lt_of_le hi with rfl | hi
          · exact hl
          · exact b2 i hi hk

/-- Specification of one step of the solver from `x` to `y`: along the solution `d` of `J d = -F(x)`, the whole of it
without backtracking, and with it the first of the lengths `1, 1/2, …, 2⁻²⁰` that lowers the norm of `F`, or the last. -/
def SystemStep (minPositive largest : T) (bt : Bool) (f : (Fin n → T) → Fin n → T)
    (jacobian : (Fin n → T) → Except MinimizeError (Matrix (Fin n) (Fin n) T)) (x : Fin n → T) (d : Fin n → T) (k : ℕ)
    (y : Fin n → T) : Prop :=
  (∃ j, jacobian x = .ok j ∧ (∀ a b, Fns.isFinite (j a b) = true) ∧ msolve largest j (fun i => -f x i) = .ok d) ∧
  k ≤ 20 ∧ y = stepped x d k ∧ (∀ i, Fns.isFinite (f y i) = true) ∧ (bt = false → k = 0) ∧
  (bt = true →
    (Lowers minPositive largest f (enorm minPositive largest ((List.finRange n).map (f x))) y ∨ k = 20) ∧
    ∀ i, i < k → ¬Lowers minPositive largest f (enorm minPositive largest ((List.finRange n).map (f x))) (stepped x d i))

/-- A chain of steps none of which started from a point already within `ftol`, nor was as short as `xtol` asks. -/
inductive SystemChain (minPositive largest : T) (s : NewtonSystem T) (f : (Fin n → T) → Fin n → T)
    (jacobian : (Fin n → T) → Except MinimizeError (Matrix (Fin n) (Fin n) T)) : ℕ → (Fin n → T) → (Fin n → T) → Prop
  | refl (x : Fin n → T) : SystemChain minPositive largest s f jacobian 0 x x
  | cons {count : ℕ} {x y z d : Fin n → T} {k : ℕ} (h : SystemStep minPositive largest s.backtracking f jacobian x d k y)
      (hf : ¬enorm minPositive largest ((List.finRange n).map (f x)) ≤ s.ftol)
      (hx : ¬halved k * enorm minPositive largest ((List.finRange n).map d)
        ≤ s.xtol * (1 + enorm minPositive largest ((List.finRange n).map y)))
      (t : SystemChain minPositive largest s f jacobian count y z) :
      SystemChain minPositive largest s f jacobian (count + 1) x z

/-- Why the solver gave up at `x`: the Jacobian could not be had or was not finite, its linear system was refused, or
the function was not finite where the line search ended. -/
inductive StuckAt (minPositive largest : T) (bt : Bool) (f : (Fin n → T) → Fin n → T)
    (jacobian : (Fin n → T) → Except MinimizeError (Matrix (Fin n) (Fin n) T)) (x : Fin n → T) : MinimizeError → Prop
  | jacobian (e : MinimizeError) (h : jacobian x = .error e) : StuckAt minPositive largest bt f jacobian x e
  | nonFinite (j : Matrix (Fin n) (Fin n) T) (a b : Fin n) (h : jacobian x = .ok j) (hj : Fns.isFinite (j a b) = false) :
      StuckAt minPositive largest bt f jacobian x .nonFinite
  | linalg (j : Matrix (Fin n) (Fin n) T) (e : LinalgError) (h : jacobian x = .ok j)
      (hs : luDecompose largest j = .error e) : StuckAt minPositive largest bt f jacobian x (.linalg e)
  | search (j : Matrix (Fin n) (Fin n) T) (d : Fin n → T) (i : Fin n) (h : jacobian x = .ok j)
      (hd : msolve largest j (fun i => -f x i) = .ok d)
      (hf : Fns.isFinite (f (stepped x d (if bt then 20 else 0)) i) = false)
      (hl : bt = true → ∀ k, k ≤ 20 →
        ¬Lowers minPositive largest f (enorm minPositive largest ((List.finRange n).map (f x))) (stepped x d k)) :
      StuckAt minPositive largest bt f jacobian x .nonFinite

theorem allFinite_false {m : ℕ} (v : Fin m → T) (h : allFinite v = false) : ∃ i, Fns.isFinite (v i) = false := by
  simpa [allFinite] using h

theorem matrixFinite_false {m : ℕ} (a : Matrix (Fin m) (Fin n) T) (h : matrixFinite a = false) :
    ∃ i j, Fns.isFinite (a i j) = false := by
  simpa [matrixFinite] using h

/-- What a run of the loop from `x` amounts to. -/
def Outcome (minPositive largest : T) (s : NewtonSystem T) (f : (Fin n → T) → Fin n → T)
    (jacobian : (Fin n → T) → Except MinimizeError (Matrix (Fin n) (Fin n) T)) (x₀ : Fin n → T) (left iter : ℕ) :
    Except MinimizeError (RootReportN n T) → Prop
  | .ok r => iter ≤ r.iterations ∧ r.iterations < iter + left ∧
      r.residualNorm = enorm minPositive largest ((List.finRange n).map (f r.root)) ∧
      (∀ i, Fns.isFinite (f r.root i) = true) ∧
      ((r.termination = .residualTolerance ∧ r.residualNorm ≤ s.ftol ∧
          SystemChain minPositive largest s f jacobian (r.iterations - iter) x₀ r.root) ∨
       (r.termination = .stepTolerance ∧ ∃ x d k, SystemChain minPositive largest s f jacobian (r.iterations - iter) x₀ x ∧
          ¬enorm minPositive largest ((List.finRange n).map (f x)) ≤ s.ftol ∧
          SystemStep minPositive largest s.backtracking f jacobian x d k r.root ∧
          halved k * enorm minPositive largest ((List.finRange n).map d)
            ≤ s.xtol * (1 + enorm minPositive largest ((List.finRange n).map r.root))))
  | .error e => (e = .didNotConverge s.maxIterations ∧
        ∃ x, SystemChain minPositive largest s f jacobian left x₀ x) ∨
      ∃ count x, count < left ∧ SystemChain minPositive largest s f jacobian count x₀ x ∧
        ¬enorm minPositive largest ((List.finRange n).map (f x)) ≤ s.ftol ∧
        StuckAt minPositive largest s.backtracking f jacobian x e

theorem systemLoop_spec (minPositive largest : T) (s : NewtonSystem T) (f : (Fin n → T) → Fin n → T)
    (jacobian : (Fin n → T) → Except MinimizeError (Matrix (Fin n) (Fin n) T)) (left iter : ℕ) (x : Fin n → T)
    (hx : ∀ i, Fns.isFinite (f x i) = true) :
    Outcome minPositive largest s f jacobian x left iter
      (loop minPositive largest s f jacobian left iter x (f x) (arrayNorm minPositive largest (f x))) := by
  induction left generalizing iter x with
  | zero => exact Or.inl ⟨rfl, x, .refl x⟩
  | succ left ih =>
    rw [loop.eq_def]
    dsimp only
    split
    · rename_i h1
      exact ⟨le_rfl, by simp, rfl, hx, Or.inl ⟨rfl, h1, by simpa using SystemChain.refl x⟩⟩
    rename_i hft
    split
    · rename_i e he
      exact Or.inr ⟨0, x, by omega, .refl x, hft, .jacobian e he⟩
    rename_i j hj
    split
    · rename_i hm
      obtain ⟨a, b, hab⟩ := matrixFinite_false j (by simpa using hm)
      exact Or.inr ⟨0, x, by omega, .refl x, hft, .nonFinite j a b hj hab⟩
    rename_i hm
    have hm' : ∀ a b, Fns.isFinite (j a b) = true := by
      simpa [matrixFinite] using hm
    split
    · rename_i e he
      refine Or.inr ⟨0, x, by omega, .refl x, hft, .linalg j e hj ?_⟩
      unfold msolve at he
      split at he
      · rename_i e' he'
        rw [he']
        simpa using he
      · simp at he
    rename_i d hd
    obtain ⟨sp1, sp2⟩ := systemSearch_spec minPositive largest s.backtracking f x d
      (arrayNorm minPositive largest (f x)) 20 0
    split
    · rename_i hn
      obtain ⟨c1, c2⟩ := sp2 hn
      cases hb : s.backtracking with
      | false =>
        obtain ⟨i, hi⟩ := allFinite_false _ (c1 hb)
        refine Or.inr ⟨0, x, by omega, .refl x, hft, ?_⟩
        rw [hb]
        exact .search j d i hj hd (by simpa using hi) (by simp)
      | true =>
        obtain ⟨c3, c4⟩ := c2 hb
        obtain ⟨i, hi⟩ := allFinite_false _ c3
        refine Or.inr ⟨0, x, by omega, .refl x, hft, ?_⟩
        rw [hb]
        exact .search j d i hj hd (by simpa using hi) fun _ k hk => c4 k (by omega) (by omega)
    · rename_i alpha y hs
      obtain ⟨k, -, a2, a3, a4, a5, a6⟩ := sp1 _ hs
      simp only [Prod.mk.injEq] at a3
      obtain ⟨rfl, rfl⟩ := a3
      have hfin : ∀ i, Fns.isFinite (f (stepped x d k) i) = true := by
        simpa [allFinite] using a4
      have hstep : SystemStep minPositive largest s.backtracking f jacobian x d k (stepped x d k) :=
        ⟨⟨j, hj, hm', hd⟩, by omega, rfl, hfin, a5, fun hb => ⟨(a6 hb).1.imp id (by omega), fun i hi =>
          (a6 hb).2 i (by omega) hi⟩⟩
      split
      · rename_i ht
        exact ⟨le_rfl, by simp, rfl, hfin, Or.inr ⟨rfl, x, d, k, by simpa using SystemChain.refl x, hft, hstep, ht⟩⟩
      · rename_i ht
        have h := ih (iter + 1) (stepped x d k) hfin
        cases hr : loop minPositive largest s f jacobian left (iter + 1) (stepped x d k) (f (stepped x d k))
            (arrayNorm minPositive largest (f (stepped x d k))) with
        | ok r =>
          rw [hr] at h
          obtain ⟨b1, b2, b3, b4, b5⟩ := h
          have e : r.iterations - iter = (r.iterations - (iter + 1)) + 1 := by omega
          refine ⟨by omega, by omega, b3, b4, ?_⟩
          rw [e]
          rcases b5 with ⟨c1, c2, c3⟩ | ⟨c1, z, d', k', c2, c3⟩
          · exact Or.inl ⟨c1, c2, .cons hstep hft ht c3⟩
          · exact Or.inr ⟨c1, z, d', k', .cons hstep hft ht c2, c3⟩
        | error e =>
          rw [hr] at h
          rcases h with ⟨h1, z, h2⟩ | ⟨count, z, h1, h2, h3⟩
          · exact Or.inl ⟨h1, z, .cons hstep hft ht h2⟩
          · exact Or.inr ⟨count + 1, z, by omega, .cons hstep hft ht h2, h3⟩

/-- C106. For every scalar type (rounding and special values included), function, Jacobian, settings and start: a
report names a point reached from the start by exactly the documented steps, the norm it carries is that of the
function there, every value there is finite, the test named by the termination holds there and held at no point before
it, and the iterations are within the budget. -/
theorem newton_system_report (minPositive largest : T) (s : NewtonSystem T) (f : (Fin n → T) → Fin n → T)
    (jacobian : (Fin n → T) → Except MinimizeError (Matrix (Fin n) (Fin n) T)) (x₀ : Fin n → T) (r : RootReportN n T)
    (h : solve minPositive largest s f jacobian x₀ = .ok r) :
    1 ≤ r.iterations ∧ r.iterations ≤ s.maxIterations ∧
    r.residualNorm = enorm minPositive largest ((List.finRange n).map (f r.root)) ∧
    (∀ i, Fns.isFinite (f r.root i) = true) ∧
    ((r.termination = .residualTolerance ∧ r.residualNorm ≤ s.ftol ∧
        SystemChain minPositive largest s f jacobian (r.iterations - 1) x₀ r.root) ∨
     (r.termination = .stepTolerance ∧ ∃ x d k, SystemChain minPositive largest s f jacobian (r.iterations - 1) x₀ x ∧
        ¬enorm minPositive largest ((List.finRange n).map (f x)) ≤ s.ftol ∧
        SystemStep minPositive largest s.backtracking f jacobian x d k r.root ∧
        halved k * enorm minPositive largest ((List.finRange n).map d)
          ≤ s.xtol * (1 + enorm minPositive largest ((List.finRange n).map r.root)))) := by
  unfold solve at h
  dsimp only at h
  split at h
  · simp at h
  · rename_i hf
    have := systemLoop_spec minPositive largest s f jacobian s.maxIterations 1 x₀ (by simpa [allFinite] using hf)
    rw [h] at this
    obtain ⟨a1, a2, a3⟩ := this
    exact ⟨a1, by omega, a3⟩

/-- C106. Every error has one of four causes: the function is not finite at the start; the budget was used up by that
many steps; or, at a point reached by steps, the Jacobian was missing or not finite, its linear system was refused, or
the function was not finite where the step ended. -/
theorem newton_system_error (minPositive largest : T) (s : NewtonSystem T) (f : (Fin n → T) → Fin n → T)
    (jacobian : (Fin n → T) → Except MinimizeError (Matrix (Fin n) (Fin n) T)) (x₀ : Fin n → T) (e : MinimizeError)
    (h : solve minPositive largest s f jacobian x₀ = .error e) :
    (e = .nonFinite ∧ ∃ i, Fns.isFinite (f x₀ i) = false) ∨
    (e = .didNotConverge s.maxIterations ∧ ∃ x, SystemChain minPositive largest s f jacobian s.maxIterations x₀ x) ∨
    ∃ count x, count < s.maxIterations ∧ SystemChain minPositive largest s f jacobian count x₀ x ∧
      ¬enorm minPositive largest ((List.finRange n).map (f x)) ≤ s.ftol ∧
      StuckAt minPositive largest s.backtracking f jacobian x e := by
  unfold solve at h
  dsimp only at h
  split at h
  · rename_i hf
    obtain ⟨i, hi⟩ := allFinite_false (f x₀) (by simpa using hf)
    simp only [Except.error.injEq] at h
    exact Or.inl ⟨h.symm, i, hi⟩
  · rename_i hf
    have := systemLoop_spec minPositive largest s f jacobian s.maxIterations 1 x₀ (by simpa [allFinite] using hf)
    rw [h] at this
    exact Or.inr this

end lawfree

variable {n : ℕ}

/-! ### Over the reals -/

/-- C106. What a step is: the direction is the one solution of `J d = -F(x)`, and `k` halvings make the length `2⁻ᵏ`. -/
theorem newton_system_step_exact (minPositive largest : ℝ) (bt : Bool) (f : (Fin n → ℝ) → Fin n → ℝ)
    (jacobian : (Fin n → ℝ) → Except MinimizeError (Matrix (Fin n) (Fin n) ℝ)) (x d y : Fin n → ℝ) (k : ℕ)
    (h : SystemStep minPositive largest bt f jacobian x d k y) :
    ∃ j, jacobian x = .ok j ∧ (∀ d', j *ᵥ d' = -f x ↔ d' = d) ∧ y = x + (1 / 2 : ℝ) ^ k • d := by
  obtain ⟨⟨j, hj, -, hd⟩, -, hy, -⟩ := h
  refine ⟨j, hj, ?_, ?_⟩
  · unfold msolve at hd
    split at hd
    · simp at hd
    · rename_i lu hlu
      simp only [Except.ok.injEq] at hd
      intro d'
      have := (lu_solves (k := 0) largest j lu hlu).1 (fun i => -f x i) d'
      rw [mmulVec_eq, hd] at this
      exact this
  · have hh : ∀ k, (halved k : ℝ) = (1 / 2) ^ k := by
      intro k
      induction k with
      | zero => simp [halved]
      | succ k ih => rw [halved, ih, pow_succ]; norm_num
    rw [hy]
    funext i
    simp [stepped, hh]

theorem taylor_upper (φ φ' : ℝ → ℝ) (C : ℝ) (hφ : ∀ t ∈ Set.Icc (0 : ℝ) 1, HasDerivAt φ (φ' t) t)
    (hC : ∀ t ∈ Set.Icc (0 : ℝ) 1, φ' t - φ' 0 ≤ C * t) : φ 1 - φ 0 - φ' 0 ≤ C / 2 := by
  have hd : ∀ t ∈ Set.Icc (0 : ℝ) 1, HasDerivAt (fun t => φ t - t * φ' 0 - C / 2 * t ^ 2) (φ' t - φ' 0 - C * t) t := by
    intro t ht
    have h1 := ((hφ t ht).sub ((hasDerivAt_id t).mul_const (φ' 0))).sub (((hasDerivAt_id t).pow 2).const_mul (C / 2))
    refine h1.congr_deriv ?_
    simp
    ring
  have hanti : AntitoneOn (fun t => φ t - t * φ' 0 - C / 2 * t ^ 2) (Set.Icc 0 1) := by
    refine antitoneOn_of_deriv_nonpos (convex_Icc 0 1) (fun t ht => (hd t ht).continuousAt.continuousWithinAt)
      (fun t ht => (hd t (interior_subset ht)).differentiableAt.differentiableWithinAt) fun t ht => ?_
    rw [(hd t (interior_subset ht)).deriv]
    linarith [hC t (interior_subset ht)]
  have := hanti (Set.left_mem_Icc.2 zero_le_one) (Set.right_mem_Icc.2 zero_le_one) zero_le_one
  simp only at this
  linarith

theorem taylor_bound (φ φ' : ℝ → ℝ) (C : ℝ) (hφ : ∀ t ∈ Set.Icc (0 : ℝ) 1, HasDerivAt φ (φ' t) t)
    (hC : ∀ t ∈ Set.Icc (0 : ℝ) 1, |φ' t - φ' 0| ≤ C * t) : |φ 1 - φ 0 - φ' 0| ≤ C / 2 := by
  rw [abs_le]
  have h1 := taylor_upper φ φ' C hφ fun t ht => (abs_le.1 (hC t ht)).2
  have h2 := taylor_upper (fun t => -φ t) (fun t => -φ' t) C (fun t ht => (hφ t ht).neg) fun t ht => by
    have := (abs_le.1 (hC t ht)).1
    linarith
  constructor <;> linarith

theorem mulVec_bound {m : ℕ} (A : Matrix (Fin m) (Fin n) ℝ) (v : Fin n → ℝ) (c : ℝ) (i : Fin m) (h : ∑ j, |A i j| ≤ c) :
    |(A *ᵥ v) i| ≤ c * ‖v‖ := by
  calc |(A *ᵥ v) i| = |∑ j, A i j * v j| := rfl
    _ ≤ ∑ j, |A i j * v j| := Finset.abs_sum_le_sum_abs _ _
    _ ≤ ∑ j, |A i j| * ‖v‖ := by
        refine Finset.sum_le_sum fun j _ => ?_
        rw [abs_mul]
        exact mul_le_mul_of_nonneg_left (norm_le_pi_norm v j) (abs_nonneg _)
    _ = (∑ j, |A i j|) * ‖v‖ := by rw [Finset.sum_mul]
    _ ≤ c * ‖v‖ := mul_le_mul_of_nonneg_right h (norm_nonneg _)

/-- A system whose root and Jacobian are under control within `r` of the root: `J` is the derivative, its rows sum to
at most `K`, those of its inverse to at most `B`, and it changes at most `L` times as fast as the point. -/
structure Tame (f : (Fin n → ℝ) → Fin n → ℝ) (J : (Fin n → ℝ) → Matrix (Fin n) (Fin n) ℝ) (root : Fin n → ℝ)
    (r B K L : ℝ) : Prop where
  zero : f root = 0
  deriv : ∀ y, ‖y - root‖ ≤ r → HasFDerivAt f (LinearMap.toContinuousLinearMap (J y).mulVecLin) y
  rows : ∀ y, ‖y - root‖ ≤ r → ∀ i, ∑ j, |J y i j| ≤ K
  inverse : ∀ y, ‖y - root‖ ≤ r → ∃ X, J y * X = 1 ∧ ∀ i, ∑ j, |X i j| ≤ B
  lipschitz : ∀ y z, ‖y - root‖ ≤ r → ‖z - root‖ ≤ r → ∀ i, ∑ j, |J y i j - J z i j| ≤ L * ‖y - z‖

theorem Tame.segment {f : (Fin n → ℝ) → Fin n → ℝ} {J : (Fin n → ℝ) → Matrix (Fin n) (Fin n) ℝ} {root : Fin n → ℝ}
    {r B K L : ℝ} (h : Tame f J root r B K L) {x : Fin n → ℝ} (hx : ‖x - root‖ ≤ r) (t : ℝ) (ht : t ∈ Set.Icc (0 : ℝ) 1)
    (i : Fin n) :
    ‖x + t • (root - x) - root‖ ≤ r ∧
      HasDerivAt (fun t : ℝ => f (x + t • (root - x)) i) ((J (x + t • (root - x)) *ᵥ (root - x)) i) t := by
  have hb : ‖x + t • (root - x) - root‖ ≤ r := by
    have e : x + t • (root - x) - root = (1 - t) • (x - root) := by module
    rw [e, norm_smul, Real.norm_eq_abs, abs_of_nonneg (by linarith [ht.2])]
    calc (1 - t) * ‖x - root‖ ≤ 1 * ‖x - root‖ := mul_le_mul_of_nonneg_right (by linarith [ht.1]) (norm_nonneg _)
      _ ≤ r := by linarith
  refine ⟨hb, ?_⟩
  have hline : HasDerivAt (fun t : ℝ => x + t • (root - x)) (root - x) t := by
    have := ((hasDerivAt_id t).smul_const (root - x)).const_add x
    simpa using this
  have := (h.deriv _ hb).comp_hasDerivAt t hline
  have := (hasFDerivAt_apply (𝕜 := ℝ) i (f (x + t • (root - x)))).comp_hasDerivAt t this
  exact this

theorem Tame.residual {f : (Fin n → ℝ) → Fin n → ℝ} {J : (Fin n → ℝ) → Matrix (Fin n) (Fin n) ℝ} {root : Fin n → ℝ}
    {r B K L : ℝ} (h : Tame f J root r B K L) (hL : 0 ≤ L) {x : Fin n → ℝ} (hx : ‖x - root‖ ≤ r) (i : Fin n) :
    |f root i - f x i - (J x *ᵥ (root - x)) i| ≤ L * ‖x - root‖ ^ 2 / 2 ∧ |f x i| ≤ K * ‖x - root‖ := by
  have hr0 : ‖root - root‖ ≤ r := by simpa using (norm_nonneg _).trans hx
  constructor
  · have := taylor_bound (fun t : ℝ => f (x + t • (root - x)) i) (fun t => (J (x + t • (root - x)) *ᵥ (root - x)) i)
      (L * ‖x - root‖ ^ 2) (fun t ht => (h.segment hx t ht i).2) fun t ht => ?_
    · simpa using this
    have e : (J (x + t • (root - x)) *ᵥ (root - x)) i - (J (x + (0 : ℝ) • (root - x)) *ᵥ (root - x)) i
        = ((J (x + t • (root - x)) - J x) *ᵥ (root - x)) i := by
      rw [Matrix.sub_mulVec]; simp
    rw [e]
    have := mulVec_bound (J (x + t • (root - x)) - J x) (root - x) (L * ‖x + t • (root - x) - x‖) i
      (h.lipschitz _ _ (h.segment hx t ht i).1 hx i)
    refine this.trans (le_of_eq ?_)
    rw [add_sub_cancel_left, norm_smul, Real.norm_eq_abs, abs_of_nonneg ht.1, norm_sub_rev root x]
    ring
  · have key := Convex.norm_image_sub_le_of_norm_hasDerivWithin_le (f := fun t : ℝ => f (x + t • (root - x)) i)
      (f' := fun t => (J (x + t • (root - x)) *ᵥ (root - x)) i) (s := Set.Icc 0 1) (C := K * ‖x - root‖)
      (fun t ht => (h.segment hx t ht i).2.hasDerivWithinAt) (fun t ht => ?_) (convex_Icc 0 1)
      (Set.right_mem_Icc.2 zero_le_one) (Set.left_mem_Icc.2 zero_le_one)
    · simpa [h.zero] using key
    · rw [Real.norm_eq_abs, norm_sub_rev x root]
      exact mulVec_bound _ _ _ _ (h.rows _ (h.segment hx t ht i).1 i)

/-- The full Newton step squares the distance to the root. -/
theorem Tame.contract {f : (Fin n → ℝ) → Fin n → ℝ} {J : (Fin n → ℝ) → Matrix (Fin n) (Fin n) ℝ} {root : Fin n → ℝ}
    {r B K L : ℝ} (h : Tame f J root r B K L) (hL : 0 ≤ L) (hB : 0 ≤ B) {x d : Fin n → ℝ} (hx : ‖x - root‖ ≤ r)
    (hd : J x *ᵥ d = -f x) : ‖x + d - root‖ ≤ B * L / 2 * ‖x - root‖ ^ 2 := by
  obtain ⟨X, hX, hXB⟩ := h.inverse x hx
  have hXJ : X * J x = 1 := mul_eq_one_comm.1 hX
  have e : x + d - root = X *ᵥ (f root - f x - J x *ᵥ (root - x)) := by
    rw [h.zero, zero_sub, ← hd, ← Matrix.mulVec_sub, Matrix.mulVec_mulVec, hXJ, Matrix.one_mulVec]
    abel
  rw [e]
  have hv : ‖f root - f x - J x *ᵥ (root - x)‖ ≤ L * ‖x - root‖ ^ 2 / 2 := by
    refine (pi_norm_le_iff_of_nonneg (by positivity)).2 fun i => ?_
    exact (h.residual hL hx i).1
  refine (pi_norm_le_iff_of_nonneg (by positivity)).2 fun i => ?_
  calc ‖(X *ᵥ (f root - f x - J x *ᵥ (root - x))) i‖ ≤ B * ‖f root - f x - J x *ᵥ (root - x)‖ :=
        mulVec_bound X _ B i (hXB i)
    _ ≤ B * (L * ‖x - root‖ ^ 2 / 2) := mul_le_mul_of_nonneg_left hv hB
    _ = B * L / 2 * ‖x - root‖ ^ 2 := by ring

theorem arrayNorm_le_sup (minPositive largest : ℝ) (v : Fin n → ℝ) (c : ℝ) (hc : 0 ≤ c) (h : ∀ i, |v i| ≤ c) :
    arrayNorm minPositive largest v ≤ √n * c := by
  refine ((enorm_spec minPositive largest _).2.1).trans ?_
  have : ((((List.finRange n).map v).map (· ^ 2)).sum) ≤ n * c ^ 2 := by
    rw [List.map_map, ← List.ofFn_eq_map, List.sum_ofFn]
    calc ∑ i, ((fun x => x ^ 2) ∘ v) i ≤ ∑ _i : Fin n, c ^ 2 := by
          refine Finset.sum_le_sum fun i _ => ?_
          simpa using sq_le_sq' (by linarith [abs_le.1 (h i)]) (abs_le.1 (h i)).2
      _ = n * c ^ 2 := by simp
  refine (Real.sqrt_le_sqrt this).trans (le_of_eq ?_)
  rw [Real.sqrt_mul (Nat.cast_nonneg n), Real.sqrt_sq hc]

theorem Tame.solves {f : (Fin n → ℝ) → Fin n → ℝ} {J : (Fin n → ℝ) → Matrix (Fin n) (Fin n) ℝ} {root : Fin n → ℝ}
    {r B K L : ℝ} (h : Tame f J root r B K L) (hK : 0 ≤ K) {x : Fin n → ℝ} (hx : ‖x - root‖ ≤ r)
    (largest : ℝ) (hKB : K * B < 2 ^ 52) (hKl : K < 2 ^ 52 * largest) (b : Fin n → ℝ) :
    ∃ d, msolve largest (J x) b = .ok d ∧ J x *ᵥ d = b := by
  obtain ⟨X, hX, hXB⟩ := h.inverse x hx
  have hmax : maxAbs (J x) ≤ K := maxAbs_le _ hK fun i j =>
    (Finset.single_le_sum (f := fun j => |J x i j|) (fun j _ => abs_nonneg _) (Finset.mem_univ j)).trans (h.rows x hx i)
  have h0 := maxAbs_nonneg (J x)
  obtain ⟨lu, hlu⟩ := lu_accepts largest (J x) X (by rw [mmul_eq, midentity_eq]; exact hX) (by norm_num at hKl ⊢; linarith)
    fun i => by
      have hs : 0 ≤ ∑ j, |X i j| := Finset.sum_nonneg fun j _ => abs_nonneg _
      calc (1 / 2 ^ 52 : ℝ) * maxAbs (J x) * ∑ j, |X i j| ≤ (1 / 2 ^ 52 : ℝ) * K * B := by
            gcongr
            exact hXB i
        _ < 1 := by
            rw [mul_assoc, one_div_mul_eq_div, div_lt_one (by positivity)]
            exact hKB
  refine ⟨lu.solve b, by simp [msolve, hlu], ?_⟩
  have := ((lu_solves (k := 0) largest (J x) lu hlu).1 b (lu.solve b)).2 rfl
  rwa [mmulVec_eq] at this

/-- C106. Quadratic convergence, budget included.  Near a root with an invertible Jacobian that varies slowly — within
`r` of it, with `q = B L r / 2 ≤ 1` — the solver as it is by default returns a report whenever the budget covers the
squaring of the error: the point after `k` steps is within `r q^(2ᵏ - 1)` of the root, in every coordinate. -/
theorem newton_system_converges (minPositive largest : ℝ) (s : NewtonSystem ℝ) (hs : s.backtracking = false)
    (f : (Fin n → ℝ) → Fin n → ℝ) (J : (Fin n → ℝ) → Matrix (Fin n) (Fin n) ℝ)
    (jacobian : (Fin n → ℝ) → Except MinimizeError (Matrix (Fin n) (Fin n) ℝ)) (root x₀ : Fin n → ℝ) (r B K L : ℝ)
    (h : Tame f J root r B K L) (hB : 0 ≤ B) (hK : 0 ≤ K) (hL : 0 ≤ L) (hq : B * L * r / 2 ≤ 1)
    (hjac : ∀ y, ‖y - root‖ ≤ r → jacobian y = .ok (J y)) (hKB : K * B < 2 ^ 52) (hKl : K < 2 ^ 52 * largest)
    (hx₀ : ‖x₀ - root‖ ≤ r) (hN : 1 ≤ s.maxIterations)
    (hbudget : √n * (K * (r * (B * L * r / 2) ^ (2 ^ (s.maxIterations - 1) - 1))) ≤ s.ftol) :
    ∃ report, solve minPositive largest s f jacobian x₀ = .ok report ∧ report.iterations ≤ s.maxIterations ∧
      ‖report.root - root‖ ≤ r * (B * L * r / 2) ^ (2 ^ (report.iterations - 1) - 1) ∧
      (report.termination = .stepTolerance →
        ‖report.root - root‖ ≤ r * (B * L * r / 2) ^ (2 ^ report.iterations - 1)) := by
  have hr : 0 ≤ r := (norm_nonneg _).trans hx₀
  set q := B * L * r / 2 with hqd
  have hq0 : 0 ≤ q := by positivity
  have hball : ∀ k, r * q ^ k ≤ r := fun k => mul_le_of_le_one_right hr (pow_le_one₀ hq0 hq)
  have key : ∀ (left iter : ℕ) (x : Fin n → ℝ), 1 ≤ iter → iter + left = s.maxIterations →
      ‖x - root‖ ≤ r * q ^ (2 ^ (iter - 1) - 1) →
      ∃ report, loop minPositive largest s f jacobian (left + 1) iter x (f x) (arrayNorm minPositive largest (f x)) = .ok report ∧
        report.iterations ≤ s.maxIterations ∧
        ‖report.root - root‖ ≤ r * q ^ (2 ^ (report.iterations - 1) - 1) ∧
        (report.termination = .stepTolerance → ‖report.root - root‖ ≤ r * q ^ (2 ^ report.iterations - 1)) := by
    intro left
    induction left with
    | zero =>
      intro iter x hi hsum hx
      have hxr := hx.trans (hball _)
      have hfn : arrayNorm minPositive largest (f x) ≤ s.ftol := by
        refine (arrayNorm_le_sup minPositive largest (f x) (K * ‖x - root‖) (by positivity) fun i =>
          (h.residual hL hxr i).2).trans (le_trans ?_ hbudget)
        have : iter = s.maxIterations := by omega
        rw [← this]
        gcongr
      rw [loop, if_pos hfn]
      exact ⟨_, rfl, by simp; omega, hx, by simp⟩
    | succ left ih =>
      intro iter x hi hsum hx
      have hxr := hx.trans (hball _)
      rw [loop]
      by_cases hfn : arrayNorm minPositive largest (f x) ≤ s.ftol
      · rw [if_pos hfn]
        exact ⟨_, rfl, by simp; omega, hx, by simp⟩
      rw [if_neg hfn, hjac x hxr]
      obtain ⟨d, hd, hJd⟩ := h.solves hK hxr largest hKB hKl fun i => -f x i
      simp only [real_matrixFinite, Bool.not_true, Bool.false_eq_true, if_false, hd]
      have hls : lineSearch minPositive largest s.backtracking f x d (arrayNorm minPositive largest (f x)) 20 1
          = some (1, x + d) := by
        rw [lineSearch.eq_def, hs]
        simp only [Bool.not_false, if_true, real_allFinite, one_mul]
        rfl
      rw [hls]
      have hnext : ‖x + d - root‖ ≤ r * q ^ (2 ^ iter - 1) := by
        refine (h.contract hL hB hxr hJd).trans ?_
        have e : 2 ^ iter - 1 = 1 + 2 * (2 ^ (iter - 1) - 1) := by
          obtain ⟨i, rfl⟩ : ∃ i, iter = i + 1 := ⟨iter - 1, by omega⟩
          have : 1 ≤ 2 ^ i := Nat.one_le_two_pow
          simp only [Nat.add_sub_cancel, pow_succ]
          omega
        rw [e, pow_add, pow_mul', pow_one]
        calc B * L / 2 * ‖x - root‖ ^ 2 ≤ B * L / 2 * (r * q ^ (2 ^ (iter - 1) - 1)) ^ 2 := by gcongr
          _ = r * (q * (q ^ (2 ^ (iter - 1) - 1)) ^ 2) := by rw [hqd]; ring
      dsimp only
      split
      · refine ⟨_, rfl, by simp; omega, hnext.trans ?_, fun _ => hnext⟩
        refine mul_le_mul_of_nonneg_left (pow_le_pow_of_le_one hq0 hq ?_) hr
        have : 2 ^ (iter - 1) ≤ 2 ^ iter := Nat.pow_le_pow_right (by norm_num) (by omega)
        simp only
        omega
      · exact ih (iter + 1) (x + d) (by omega) (by omega) (by simpa using hnext)
  unfold solve
  simp only [real_allFinite, Bool.not_true, Bool.false_eq_true, if_false]
  obtain ⟨left, hleft⟩ : ∃ left, s.maxIterations = left + 1 := ⟨s.maxIterations - 1, by omega⟩
  have := key left 1 x₀ le_rfl (by omega) (by simpa using hx₀)
  rw [← hleft] at this
  exact this

/-- A bent plane with its root at the origin: `(x + y², y)`. -/
theorem bent_tame : Tame (fun v : Fin 2 → ℝ => ![v 0 + v 1 ^ 2, v 1]) (fun v => !![1, 2 * v 1; 0, 1]) 0 (1 / 4) (3 / 2) (3 / 2) 2 := by
  have hb : ∀ y : Fin 2 → ℝ, ‖y - 0‖ ≤ 1 / 4 → |y 1| ≤ 1 / 4 := fun y hy =>
    (norm_le_pi_norm y 1).trans (by simpa using hy)
  refine ⟨?_, fun y _ => ?_, fun y hy i => ?_, fun y hy => ⟨!![1, -(2 * y 1); 0, 1], ?_, fun i => ?_⟩, fun y z _ _ i => ?_⟩
  · funext i; fin_cases i <;> simp
  · rw [hasFDerivAt_pi']
    intro i
    fin_cases i
    · have := (hasFDerivAt_apply (𝕜 := ℝ) (0 : Fin 2) y).add ((hasFDerivAt_apply (𝕜 := ℝ) (1 : Fin 2) y).pow 2)
      refine this.congr_fderiv ?_
      ext v
      simp [Matrix.mulVec, dotProduct, Fin.sum_univ_two]
    · refine (hasFDerivAt_apply (𝕜 := ℝ) (1 : Fin 2) y).congr_fderiv ?_
      ext v
      simp [Matrix.mulVec, dotProduct, Fin.sum_univ_two]
  · have := hb y hy
    fin_cases i <;> simp [Fin.sum_univ_two, abs_mul] <;> linarith
  · ext i j
    fin_cases i <;> fin_cases j <;> simp [Matrix.mul_apply, Fin.sum_univ_two]
  · have := hb y hy
    fin_cases i <;> simp [Fin.sum_univ_two, abs_mul] <;> linarith
  · have : |y 1 - z 1| ≤ ‖y - z‖ := norm_le_pi_norm (y - z) 1
    have e : 2 * y 1 - 2 * z 1 = 2 * (y 1 - z 1) := by ring
    fin_cases i <;> simp [Fin.sum_univ_two, e, abs_mul] <;> linarith [abs_nonneg (y 1 - z 1)]

/-- Six iterations bring the default solver within a tolerance of `10⁻¹²` of the root of the bent plane. -/
example : ∃ report, solve (1 / 2 ^ 1022) (2 ^ 1000) ⟨1 / 10 ^ 12, 1 / 10 ^ 12, 7, false⟩
    (fun v : Fin 2 → ℝ => ![v 0 + v 1 ^ 2, v 1]) (fun v => .ok !![1, 2 * v 1; 0, 1]) ![1 / 5, -1 / 4] = .ok report ∧
    report.iterations ≤ 7 ∧ ‖report.root - 0‖ ≤ 1 / 4 * (3 / 8) ^ (2 ^ (report.iterations - 1) - 1) := by
  have h2 : √((2 : ℕ) : ℝ) ≤ 2 := Real.sqrt_le_iff.2 (by norm_num)
  obtain ⟨rep, h1, h2, h3, -⟩ := newton_system_converges (1 / 2 ^ 1022) (2 ^ 1000) ⟨1 / 10 ^ 12, 1 / 10 ^ 12, 7, false⟩ rfl
    _ _ (fun v => .ok !![1, 2 * v 1; 0, 1]) 0 ![1 / 5, -1 / 4] (1 / 4) (3 / 2) (3 / 2) 2 bent_tame (by norm_num) (by norm_num)
    (by norm_num) (by norm_num) (fun _ _ => rfl) (by norm_num)
    (by
      have : (1 : ℝ) ≤ 2 ^ 1000 := one_le_pow₀ (by norm_num)
      calc (3 / 2 : ℝ) < 2 ^ 52 * 1 := by norm_num
        _ ≤ 2 ^ 52 * 2 ^ 1000 := by gcongr)
    (by
      refine (pi_norm_le_iff_of_nonneg (by norm_num)).2 fun i => ?_
      fin_cases i <;> norm_num [abs_of_pos])
    (by norm_num) (by
      refine (mul_le_mul_of_nonneg_right h2 (by norm_num)).trans ?_
      norm_num)
  refine ⟨rep, h1, h2, ?_⟩
  have e : (3 / 2 * 2 * (1 / 4) / 2 : ℝ) = 3 / 8 := by norm_num
  rwa [e] at h3

/-- C106. The solver with its default settings: started where `q = B L r / 2 ≤ 1/2`, it returns a report for every system
whose scale is below `2 ^ 1000`, after at most a hundred iterations; when it stops on the residual, that is at most
thirty epsilons. -/
theorem newton_system_default (minPositive largest : ℝ)
    (f : (Fin n → ℝ) → Fin n → ℝ) (J : (Fin n → ℝ) → Matrix (Fin n) (Fin n) ℝ)
    (jacobian : (Fin n → ℝ) → Except MinimizeError (Matrix (Fin n) (Fin n) ℝ)) (root x₀ : Fin n → ℝ) (r B K L : ℝ)
    (h : Tame f J root r B K L) (hB : 0 ≤ B) (hK : 0 ≤ K) (hL : 0 ≤ L) (hq : B * L * r / 2 ≤ 1 / 2)
    (hjac : ∀ y, ‖y - root‖ ≤ r → jacobian y = .ok (J y)) (hKB : K * B < 2 ^ 52) (hKl : K < 2 ^ 52 * largest)
    (hx₀ : ‖x₀ - root‖ ≤ r) (hscale : √n * (K * r) ≤ (2 : ℝ) ^ 1000) :
    ∃ report, solve minPositive largest NewtonSystem.default f jacobian x₀ = .ok report ∧ report.iterations ≤ 100 ∧
      ‖report.root - root‖ ≤ r * (1 / 2) ^ (2 ^ (report.iterations - 1) - 1) ∧
      (report.termination = .residualTolerance → report.residualNorm ≤ 30 / 2 ^ 52) := by
  have hr : 0 ≤ r := (norm_nonneg _).trans hx₀
  have hq0 : 0 ≤ B * L * r / 2 := by positivity
  have hpow : ∀ e : ℕ, 1100 ≤ e → (B * L * r / 2) ^ e ≤ (1 / 2 : ℝ) ^ 1100 := by
    intro e he
    exact (pow_le_pow_left₀ hq0 hq e).trans (pow_le_pow_of_le_one (by norm_num) (by norm_num) he)
  have heps : (((30 : ℕ) : ℝ) * (Fns.epsilon : ℝ)) = 30 / 2 ^ 52 := by
    show ((30 : ℕ) : ℝ) * (1 / 2 ^ 52) = 30 / 2 ^ 52
    norm_num
  have hbudget : √n * (K * (r * (B * L * r / 2) ^ (2 ^ ((default : NewtonSystem ℝ).maxIterations - 1) - 1))) ≤
      (default : NewtonSystem ℝ).ftol := by
    show _ ≤ ((30 : ℕ) : ℝ) * (Fns.epsilon : ℝ)
    rw [heps]
    have h1 := hpow (2 ^ ((default : NewtonSystem ℝ).maxIterations - 1) - 1) (by simp only [NewtonSystem.default]; norm_num)
    calc √n * (K * (r * (B * L * r / 2) ^ (2 ^ ((default : NewtonSystem ℝ).maxIterations - 1) - 1)))
        = √n * (K * r) * (B * L * r / 2) ^ (2 ^ ((default : NewtonSystem ℝ).maxIterations - 1) - 1) := by ring
      _ ≤ (2 : ℝ) ^ 1000 * (1 / 2 : ℝ) ^ 1100 := mul_le_mul hscale h1 (pow_nonneg hq0 _) (pow_nonneg zero_le_two _)
      _ = (1 / 2 : ℝ) ^ 100 := by
        rw [show (1100 : ℕ) = 1000 + 100 from rfl, pow_add, ← mul_assoc, ← mul_pow]; norm_num
      _ ≤ 30 / 2 ^ 52 := by norm_num
  obtain ⟨rep, h1, h2, h3, -⟩ := newton_system_converges minPositive largest default rfl f J jacobian root x₀ r B K L h hB hK hL
    (by linarith) hjac hKB hKl hx₀ (by simp only [NewtonSystem.default]; norm_num) hbudget
  refine ⟨rep, h1, h2, h3.trans ?_, fun ht => ?_⟩
  · gcongr
  · obtain ⟨-, -, -, -, h4⟩ := newton_system_report minPositive largest default f jacobian x₀ rep h1
    rcases h4 with ⟨-, h4, -⟩ | ⟨h4, -⟩
    · refine h4.trans (le_of_eq ?_)
      exact heps
    · rw [ht] at h4; cases h4

example : ∃ report, solve (1 / 2 ^ 1022) (2 ^ 1000) NewtonSystem.default
    (fun v : Fin 2 → ℝ => ![v 0 + v 1 ^ 2, v 1]) (fun v => .ok !![1, 2 * v 1; 0, 1]) ![1 / 5, -1 / 4] = .ok report ∧
    report.iterations ≤ 100 := by
  have h2 : √((2 : ℕ) : ℝ) ≤ 2 := Real.sqrt_le_iff.2 (by norm_num)
  have hbig : (1 : ℝ) ≤ 2 ^ 1000 := one_le_pow₀ (by norm_num)
  obtain ⟨rep, h1, h2, -⟩ := newton_system_default (1 / 2 ^ 1022) (2 ^ 1000)
    _ _ (fun v => .ok !![1, 2 * v 1; 0, 1]) 0 ![1 / 5, -1 / 4] (1 / 4) (3 / 2) (3 / 2) 2 bent_tame (by norm_num) (by norm_num)
    (by norm_num) (by norm_num) (fun _ _ => rfl) (by norm_num)
    (by
      calc (3 / 2 : ℝ) < 2 ^ 52 * 1 := by norm_num
        _ ≤ 2 ^ 52 * 2 ^ 1000 := by gcongr)
    (by
      refine (pi_norm_le_iff_of_nonneg (by norm_num)).2 fun i => ?_
      fin_cases i <;> simp <;> norm_num [abs_of_pos, abs_of_neg])
    (by
      calc √((2 : ℕ) : ℝ) * (3 / 2 * (1 / 4)) ≤ 2 * (3 / 2 * (1 / 4)) := by gcongr
        _ ≤ 1 := by norm_num
        _ ≤ 2 ^ 1000 := hbig)
  exact ⟨rep, h1, h2⟩

/-- C106. There is one root in the region the convergence theorem speaks of. -/
theorem newton_system_root_unique (f : (Fin n → ℝ) → Fin n → ℝ) (J : (Fin n → ℝ) → Matrix (Fin n) (Fin n) ℝ)
    (root other : Fin n → ℝ) (r B K L : ℝ) (h : Tame f J root r B K L) (hB : 0 ≤ B) (hL : 0 ≤ L)
    (hq : B * L * r / 2 < 1) (hother : ‖other - root‖ ≤ r) (hzero : f other = 0) : other = root := by
  have := h.contract hL hB (d := 0) hother (by simp [hzero])
  rw [add_zero] at this
  have h0 := norm_nonneg (other - root)
  have : ‖other - root‖ ≤ (B * L * r / 2) * ‖other - root‖ := by
    refine this.trans ?_
    calc B * L / 2 * ‖other - root‖ ^ 2 = B * L / 2 * ‖other - root‖ * ‖other - root‖ := by ring
      _ ≤ B * L / 2 * r * ‖other - root‖ := by gcongr
      _ = (B * L * r / 2) * ‖other - root‖ := by ring
  have hz : ‖other - root‖ = 0 := by
    by_contra hne
    have hp : 0 < ‖other - root‖ := lt_of_le_of_ne h0 (Ne.symm hne)
    nlinarith
  exact sub_eq_zero.1 (norm_eq_zero.1 hz)

theorem affine_step (minPositive largest : ℝ) (bt : Bool) (A X : Matrix (Fin n) (Fin n) ℝ) (b x root : Fin n → ℝ)
    (hXA : X * A = 1) (hroot : A *ᵥ root = b) (lu : LuState n ℝ) (hlu : luDecompose largest A = .ok lu)
    (fnorm : ℝ) (hf : 0 < fnorm) :
    msolve largest A (fun i => -(A *ᵥ x - b) i) = .ok (root - x) ∧
    lineSearch minPositive largest bt (fun x => A *ᵥ x - b) x (root - x) fnorm 20 1 = some (1, root) := by
  constructor
  · have := ((lu_solves (k := 0) largest A lu hlu).1 (fun i => -(A *ᵥ x - b) i) (root - x)).1 (by
      rw [mmulVec_eq, Matrix.mulVec_sub, hroot]
      funext i
      simp)
    simp [msolve, hlu, this]
  · have e : (fun k => x k + 1 * (root - x) k) = root := by funext k; simp
    have hz : arrayNorm minPositive largest (A *ᵥ root - b) ≤ 0 := by
      have := arrayNorm_le_sup minPositive largest (A *ᵥ root - b) 0 le_rfl (by simp [hroot])
      simpa using this
    rw [lineSearch.eq_def]
    simp only [e, real_allFinite, if_true, Bool.true_and]
    cases bt with
    | false => simp
    | true => simp [lt_of_le_of_lt hz hf]

/-- C106. On every affine system `A x = b` that LU accepts, with or without backtracking, two iterations are enough: the
solver returns the start, if that is within the tolerance, or the exact solution. -/
theorem newton_system_affine (minPositive largest : ℝ) (s : NewtonSystem ℝ) (A X : Matrix (Fin n) (Fin n) ℝ)
    (b x₀ root : Fin n → ℝ) (hXA : X * A = 1) (hroot : A *ᵥ root = b)
    (hl : (1 / 2 ^ 52 : ℝ) * maxAbs A < largest) (hrow : ∀ i, (1 / 2 ^ 52 : ℝ) * maxAbs A * ∑ j, |X i j| < 1)
    (hf : 0 ≤ s.ftol) (hN : 2 ≤ s.maxIterations) :
    ∃ report, solve minPositive largest s (fun x => A *ᵥ x - b) (fun _ => .ok A) x₀ = .ok report ∧
      ((report.root = x₀ ∧ report.iterations = 1 ∧ report.residualNorm ≤ s.ftol) ∨
       (report.root = root ∧ report.residualNorm = 0 ∧ report.iterations ≤ 2)) := by
  obtain ⟨lu, hlu⟩ := lu_accepts largest A X (by rw [mmul_eq, midentity_eq]; exact mul_eq_one_comm.1 hXA) hl hrow
  obtain ⟨left, hleft⟩ : ∃ left, s.maxIterations = left + 2 := ⟨s.maxIterations - 2, by omega⟩
  have hz : arrayNorm minPositive largest (A *ᵥ root - b) = 0 := by
    refine le_antisymm ?_ ?_
    · have := arrayNorm_le_sup minPositive largest (A *ᵥ root - b) 0 le_rfl (by simp [hroot])
      simpa using this
    · exact (enorm_spec minPositive largest _).1
  unfold solve
  simp only [real_allFinite, Bool.not_true, Bool.false_eq_true, if_false]
  rw [hleft, loop]
  by_cases h0 : arrayNorm minPositive largest (A *ᵥ x₀ - b) ≤ s.ftol
  · rw [if_pos h0]
    exact ⟨_, rfl, Or.inl ⟨rfl, rfl, h0⟩⟩
  rw [if_neg h0]
  obtain ⟨h1, h2⟩ := affine_step minPositive largest s.backtracking A X b x₀ root hXA hroot lu hlu
    (arrayNorm minPositive largest (A *ᵥ x₀ - b)) (by linarith [not_le.1 h0])
  simp only [real_matrixFinite, Bool.not_true, Bool.false_eq_true, if_false, h1, h2]
  split
  · exact ⟨_, rfl, Or.inr ⟨rfl, hz, by simp⟩⟩
  · rw [loop, if_pos (by rw [hz]; exact hf)]
    exact ⟨_, rfl, Or.inr ⟨rfl, hz, le_rfl⟩⟩

/-- `2 x + y = 3`, `x + y = 2` is such a system. -/
example : (!![1, -1; -1, 2] : Matrix (Fin 2) (Fin 2) ℝ) * !![2, 1; 1, 1] = 1 ∧ !![2, 1; 1, 1] *ᵥ ![1, 1] = ![(3 : ℝ), 2] := by
  constructor
  · ext i j; fin_cases i <;> fin_cases j <;> norm_num [Matrix.mul_apply, Fin.sum_univ_two]
  · funext i; fin_cases i <;> norm_num [Matrix.mulVec, dotProduct, Fin.sum_univ_two]

/-- C106 (finding). "The solver stops when `‖F(x)‖ ≤ ftol`" fails for the last iteration: with a budget of one, the step
of `x - 1 = 0` from zero lands exactly on the root, and the answer is `DidNotConverge`; with a budget of two it is the
root. -/
theorem newton_system_last_step_untested (minPositive largest ftol : ℝ) (hl : 1 < largest) (hf : 0 ≤ ftol) (hf1 : ftol < 1) :
    solve minPositive largest ⟨0, ftol, 1, false⟩ (fun x : Fin 1 → ℝ => (1 : Matrix (Fin 1) (Fin 1) ℝ) *ᵥ x - ![1])
      (fun _ => .ok 1) ![0] = .error (.didNotConverge 1) ∧
    ∃ report, solve minPositive largest ⟨0, ftol, 2, false⟩ (fun x : Fin 1 → ℝ => (1 : Matrix (Fin 1) (Fin 1) ℝ) *ᵥ x - ![1])
      (fun _ => .ok 1) ![0] = .ok report ∧ report.root = ![1] := by
  have hmax : maxAbs (1 : Matrix (Fin 1) (Fin 1) ℝ) ≤ 1 := maxAbs_le _ zero_le_one fun i j => by
    fin_cases i; fin_cases j; simp
  have h0 := maxAbs_nonneg (1 : Matrix (Fin 1) (Fin 1) ℝ)
  have hL : (1 / 2 ^ 52 : ℝ) * maxAbs (1 : Matrix (Fin 1) (Fin 1) ℝ) < largest := by
    norm_num at hmax ⊢; linarith
  have hR : ∀ i, (1 / 2 ^ 52 : ℝ) * maxAbs (1 : Matrix (Fin 1) (Fin 1) ℝ) * ∑ j, |(1 : Matrix (Fin 1) (Fin 1) ℝ) i j| < 1 := by
    intro i
    have e : ∑ j, |(1 : Matrix (Fin 1) (Fin 1) ℝ) i j| = 1 := by
      rw [Fin.sum_univ_one, Subsingleton.elim i 0]; simp
    rw [e]
    norm_num at hmax ⊢; linarith
  have hroot : (1 : Matrix (Fin 1) (Fin 1) ℝ) *ᵥ ![1] = ![1] := by simp
  obtain ⟨lu, hlu⟩ := lu_accepts largest (1 : Matrix (Fin 1) (Fin 1) ℝ) 1 (by rw [mmul_eq, midentity_eq, mul_one]) hL hR
  have hs : 1 < √largest := Real.lt_sqrt_of_sq_lt (by linarith)
  have hn : ∀ v : Fin 1 → ℝ, |v 0| = 1 → arrayNorm minPositive largest v = 1 := by
    intro v hv
    have e : v ⬝ᵥ v = 1 := by simp [dotProduct, ← sq, ← sq_abs (v 0), hv]
    rw [arrayNorm_eq minPositive largest v (by rw [e]; simpa using hs), e, Real.sqrt_one]
  have hfn : arrayNorm minPositive largest ((1 : Matrix (Fin 1) (Fin 1) ℝ) *ᵥ ![0] - ![1]) = 1 := hn _ (by simp)
  constructor
  · unfold solve
    simp only [real_allFinite, Bool.not_true, Bool.false_eq_true, if_false]
    rw [loop, if_neg (by rw [hfn]; linarith)]
    obtain ⟨h1, h2⟩ := affine_step minPositive largest false 1 1 ![1] ![0] ![1] (mul_one 1) hroot lu hlu
      (arrayNorm minPositive largest ((1 : Matrix (Fin 1) (Fin 1) ℝ) *ᵥ ![0] - ![1])) (by rw [hfn]; norm_num)
    simp only [real_matrixFinite, Bool.not_true, Bool.false_eq_true, if_false, h1, h2]
    rw [if_neg (by rw [hn (![1] - ![0]) (by simp)]; norm_num)]
    rfl
  · obtain ⟨rep, h1, h2⟩ := newton_system_affine minPositive largest ⟨0, ftol, 2, false⟩ 1 1 ![1] ![0] ![1] (mul_one 1) hroot hL hR hf
      le_rfl
    refine ⟨rep, h1, ?_⟩
    rcases h2 with ⟨h2, -, h3⟩ | ⟨h2, -⟩
    · exfalso
      have := (newton_system_report minPositive largest _ _ _ _ rep h1).2.2.1
      rw [this, h2] at h3
      change arrayNorm minPositive largest _ ≤ _ at h3
      rw [hfn] at h3
      simp only at h3
      linarith
    · exact h2

/-! ### One unknown (C19) -/

/-- C19. Quadratic convergence of the scalar solver, budget included.  Within `r` of a root let the derivative be at
least `m` and at most `K` in size and change at most `L` times as fast as the point, with `q = L r / (2 m) ≤ 1`.  Then
without backtracking a budget that covers the squaring of the error is enough for a report, and the point after `k`
steps is within `r q^(2ᵏ - 1)` of the root. -/
theorem newton_converges (xtol ftol : ℝ) (budget : ℕ) (f f' : ℝ → ℝ) (deriv : ℝ → Except SolveError ℝ)
    (root x₀ r m K L : ℝ) (hroot : f root = 0) (hm : 0 < m) (hL : 0 ≤ L)
    (hd : ∀ y, |y - root| ≤ r → HasDerivAt f (f' y) y) (hderiv : ∀ y, |y - root| ≤ r → deriv y = .ok (f' y))
    (hlow : ∀ y, |y - root| ≤ r → m ≤ |f' y| ∧ |f' y| ≤ K)
    (hlip : ∀ y z, |y - root| ≤ r → |z - root| ≤ r → |f' y - f' z| ≤ L * |y - z|)
    (hq : L * r / (2 * m) ≤ 1) (hx₀ : |x₀ - root| ≤ r) (hN : 1 ≤ budget)
    (hbudget : K * (r * (L * r / (2 * m)) ^ (2 ^ (budget - 1) - 1)) ≤ ftol) :
    ∃ report, newtonSolve xtol ftol budget false f deriv x₀ = .ok report ∧ report.iterations ≤ budget ∧
      |report.root - root| ≤ r * (L * r / (2 * m)) ^ (2 ^ (report.iterations - 1) - 1) := by
  have hr : 0 ≤ r := (abs_nonneg _).trans hx₀
  have hK : 0 ≤ K := hm.le.trans ((hlow x₀ hx₀).1.trans (hlow x₀ hx₀).2)
  set q := L * r / (2 * m) with hqd
  have hq0 : 0 ≤ q := by positivity
  have hball : ∀ k, r * q ^ k ≤ r := fun k => mul_le_of_le_one_right hr (pow_le_one₀ hq0 hq)
  have hseg : ∀ x, |x - root| ≤ r → ∀ t ∈ Set.Icc (0 : ℝ) 1, |x + t * (root - x) - root| ≤ r ∧
      HasDerivAt (fun t : ℝ => f (x + t * (root - x))) (f' (x + t * (root - x)) * (root - x)) t := by
    intro x hx t ht
    have hb : |x + t * (root - x) - root| ≤ r := by
      have e : x + t * (root - x) - root = (1 - t) * (x - root) := by ring
      rw [e, abs_mul, abs_of_nonneg (by linarith [ht.2])]
      nlinarith [abs_nonneg (x - root), ht.1]
    refine ⟨hb, ?_⟩
    have hline : HasDerivAt (fun t : ℝ => x + t * (root - x)) (root - x) t := by
      simpa using ((hasDerivAt_id t).mul_const (root - x)).const_add x
    exact (hd _ hb).comp t hline
  have hres : ∀ x, |x - root| ≤ r → |f x| ≤ K * |x - root| := by
    intro x hx
    have key := Convex.norm_image_sub_le_of_norm_hasDerivWithin_le (f := fun t : ℝ => f (x + t * (root - x)))
      (f' := fun t => f' (x + t * (root - x)) * (root - x)) (s := Set.Icc 0 1) (C := K * |x - root|)
      (fun t ht => (hseg x hx t ht).2.hasDerivWithinAt) (fun t ht => ?_) (convex_Icc 0 1)
      (Set.right_mem_Icc.2 zero_le_one) (Set.left_mem_Icc.2 zero_le_one)
    · simpa [hroot] using key
    · rw [Real.norm_eq_abs, abs_mul, abs_sub_comm root x]
      exact mul_le_mul_of_nonneg_right (hlow _ (hseg x hx t ht).1).2 (abs_nonneg _)
  have hcontract : ∀ x, |x - root| ≤ r → |x - f x / f' x - root| ≤ L / (2 * m) * |x - root| ^ 2 := by
    intro x hx
    have hne : f' x ≠ 0 := fun h => by
      have := (hlow x hx).1
      rw [h, abs_zero] at this
      linarith
    have ht := taylor_bound (fun t : ℝ => f (x + t * (root - x))) (fun t => f' (x + t * (root - x)) * (root - x))
      (L * |x - root| ^ 2) (fun t ht => (hseg x hx t ht).2) fun t ht => by
        have e : f' (x + t * (root - x)) * (root - x) - f' (x + 0 * (root - x)) * (root - x)
            = (f' (x + t * (root - x)) - f' x) * (root - x) := by rw [zero_mul, add_zero]; ring
        rw [e, abs_mul]
        have := hlip (x + t * (root - x)) x (hseg x hx t ht).1 hx
        rw [add_sub_cancel_left, abs_mul, abs_of_nonneg ht.1, abs_sub_comm root x] at this
        rw [abs_sub_comm root x]
        nlinarith [abs_nonneg (x - root)]
    simp only [one_mul, add_sub_cancel, zero_mul, add_zero, hroot] at ht
    have e : x - f x / f' x - root = (0 - f x - f' x * (root - x)) / f' x := by field_simp; ring
    rw [e, abs_div, div_le_iff₀ (abs_pos.2 hne)]
    have h1 := (hlow x hx).1
    calc |0 - f x - f' x * (root - x)| ≤ L * |x - root| ^ 2 / 2 := ht
      _ = L / (2 * m) * |x - root| ^ 2 * m := by field_simp
      _ ≤ L / (2 * m) * |x - root| ^ 2 * |f' x| := by gcongr
  have key : ∀ (left iter : ℕ) (x : ℝ), 1 ≤ iter → iter + left = budget → |x - root| ≤ r * q ^ (2 ^ (iter - 1) - 1) →
      ∃ report, newtonLoop f deriv xtol ftol false (left + 1) iter x (f x) = .ok report ∧ report.iterations ≤ budget ∧
        |report.root - root| ≤ r * q ^ (2 ^ (report.iterations - 1) - 1) := by
    intro left
    induction left with
    | zero =>
      intro iter x hi hsum hx
      have hfn : |f x| ≤ ftol := by
        refine (hres x (hx.trans (hball _))).trans (le_trans ?_ hbudget)
        have : iter = budget := by omega
        rw [← this]
        gcongr
      rw [newtonLoop, real_abs, if_pos hfn]
      exact ⟨_, rfl, by simp; omega, hx⟩
    | succ left ih =>
      intro iter x hi hsum hx
      have hxr := hx.trans (hball _)
      rw [newtonLoop, real_abs]
      by_cases hfn : |f x| ≤ ftol
      · rw [if_pos hfn]
        exact ⟨_, rfl, by simp; omega, hx⟩
      have hne : f' x ≠ 0 := fun h => by
        have := (hlow x hxr).1
        rw [h, abs_zero] at this
        linarith
      rw [if_neg hfn, hderiv x hxr]
      have hls : newtonBacktrack f false x (f x) (f x / f' x) 20 1 = .ok (x - f x / f' x, f (x - f x / f' x)) := by
        rw [newtonBacktrack.eq_def]
        simp [Fns.isFinite]
      have hfin : Fns.isFinite (f' x) = true := rfl
      simp only [hfin, Bool.not_true, Bool.false_eq_true, if_false, hls, beq_iff_eq, hne]
      have hnext : |x - f x / f' x - root| ≤ r * q ^ (2 ^ iter - 1) := by
        refine (hcontract x hxr).trans ?_
        have e : 2 ^ iter - 1 = 1 + 2 * (2 ^ (iter - 1) - 1) := by
          obtain ⟨i, rfl⟩ : ∃ i, iter = i + 1 := ⟨iter - 1, by omega⟩
          have : 1 ≤ 2 ^ i := Nat.one_le_two_pow
          simp only [Nat.add_sub_cancel, pow_succ]
          omega
        rw [e, pow_add, pow_mul', pow_one]
        calc L / (2 * m) * |x - root| ^ 2 ≤ L / (2 * m) * (r * q ^ (2 ^ (iter - 1) - 1)) ^ 2 := by gcongr
          _ = r * (q * (q ^ (2 ^ (iter - 1) - 1)) ^ 2) := by rw [hqd]; field_simp
      split
      · refine ⟨_, rfl, by simp; omega, hnext.trans ?_⟩
        refine mul_le_mul_of_nonneg_left (pow_le_pow_of_le_one hq0 hq ?_) hr
        have : 2 ^ (iter - 1) ≤ 2 ^ iter := Nat.pow_le_pow_right (by norm_num) (by omega)
        simp only
        omega
      · exact ih (iter + 1) _ (by omega) (by omega) (by simpa using hnext)
  unfold newtonSolve
  have hfin : Fns.isFinite (f x₀) = true := rfl
  simp only [hfin, Bool.not_true, Bool.false_eq_true, if_false]
  obtain ⟨left, hleft⟩ : ∃ left, budget = left + 1 := ⟨budget - 1, by omega⟩
  have := key left 1 x₀ le_rfl (by omega) (by simpa using hx₀)
  rw [← hleft] at this
  exact this

/-- The square root of four, from three: six iterations are within `10⁻⁸`. -/
example : ∃ report, newtonSolve (1 / 10 ^ 12) (1 / 10 ^ 8) 6 false (fun x : ℝ => x ^ 2 - 4) (fun x => .ok (2 * x)) 3 = .ok report ∧
    report.iterations ≤ 6 := by
  obtain ⟨rep, h1, h2, -⟩ := newton_converges (1 / 10 ^ 12) (1 / 10 ^ 8) 6 (fun x : ℝ => x ^ 2 - 4) (fun x => 2 * x) (fun x => .ok (2 * x))
    2 3 1 2 6 2 (by norm_num) (by norm_num) (by norm_num)
    (fun y _ => by simpa using ((hasDerivAt_id y).pow 2).sub_const 4) (fun _ _ => rfl)
    (fun y hy => by
      rw [abs_le] at hy
      rw [abs_of_pos (by linarith)]
      constructor <;> linarith)
    (fun y z _ _ => by rw [← mul_sub, abs_mul]; norm_num) (by norm_num) (by norm_num) (by norm_num) (by norm_num)
  exact ⟨rep, h1, h2⟩

end Multicalc
