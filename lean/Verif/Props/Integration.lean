import Verif.Model.Integration
import Verif.Model.XR
import Verif.Props.Summation
import Mathlib.Tactic
import Mathlib.MeasureTheory.Integral.IntervalIntegral.FundThmCalculus
import Mathlib.MeasureTheory.Integral.IntervalIntegral.TrapezoidalRule
import Mathlib.MeasureTheory.Function.JacobianOneDim
import Mathlib.Analysis.Calculus.Deriv.Polynomial
import Mathlib.Analysis.SpecialFunctions.Trigonometric.ArctanDeriv

/-!
# Numerical integration: exactness, error reporting, infinite limits
-/

namespace Multicalc

open MeasureTheory

/-! ## Which points are sampled, and what happens when a sample fails -/

section Outcome
variable {T : Type} [Zero T] [One T] [NatCast T] [Add T] [Sub T] [Mul T] [Div T] [LT T]
  [DecidableLT T] [BEq T] [Fns T]

/-- The points a composite rule with `n` intervals looks at: the lower limit, the points reached by
adding the step again and again, and the upper limit. -/
def sampleNodes (n : ℕ) (lower upper : T) : List T :=
  lower :: ((List.range (n - 1)).map fun k => (fun x => x + (upper - lower) / (n : T))^[k + 1] lower)
    ++ [upper]

omit [Zero T] [One T] [NatCast T] [Sub T] [Div T] [LT T] [DecidableLT T] [BEq T] [Fns T] in
theorem ruleWalk_outcome (integrand : T → Except IntegrateFailure T) (next : ℕ → T) (delta : T)
    (e : IntegrateFailure) (h : ∀ x, (∃ v, integrand x = .ok v) ∨ integrand x = .error e)
    (m iter : ℕ) (point mult : T) :
    ((∃ l, ruleWalk integrand next delta m iter point mult = .ok l) ∧
        ∀ k < m, ∃ v, integrand ((fun x => x + delta)^[k + 1] point) = .ok v) ∨
      (ruleWalk integrand next delta m iter point mult = .error e ∧
        ∃ k < m, integrand ((fun x => x + delta)^[k + 1] point) = .error e) := by
  induction m generalizing iter point mult with
  | zero => exact .inl ⟨⟨[], rfl⟩, fun k hk => absurd hk (Nat.not_lt_zero k)⟩
  | succ m ih =>
    rcases h (point + delta) with ⟨v, hv⟩ | he
    · rcases ih (iter + 1) (point + delta) (next iter) with ⟨⟨l, hl⟩, hall⟩ | ⟨herr, k, hk, hke⟩
      · refine .inl ⟨⟨mult * v :: l, ?_⟩, fun k hk => ?_⟩
        · simp only [ruleWalk, hv, hl]; rfl
        · cases k with
          | zero => exact ⟨v, hv⟩
          | succ k => exact hall k (by omega)
      · refine .inr ⟨?_, k + 1, by omega, hke⟩
        simp only [ruleWalk, hv, herr]; rfl
    · refine .inr ⟨?_, 0, by omega, he⟩
      simp only [ruleWalk, he]; rfl

omit [One T] [LT T] [DecidableLT T] [BEq T] in
theorem integrateRule_outcome (c : IterativeConfig) (lower upper : T)
    (integrand : T → Except IntegrateFailure T) (e : IntegrateFailure)
    (h : ∀ x, (∃ v, integrand x = .ok v) ∨ integrand x = .error e) :
    ((∃ v, integrateRule c lower upper integrand = .ok v) ∧
        ∀ x ∈ sampleNodes c.totalIterations lower upper, ∃ v, integrand x = .ok v) ∨
      (integrateRule c lower upper integrand = .error e ∧
        ∃ x ∈ sampleNodes c.totalIterations lower upper, integrand x = .error e) := by
  have hw := fun next mult => ruleWalk_outcome integrand next
    ((upper - lower) / (c.totalIterations : T)) e h (c.totalIterations - 1) 0 lower mult
  have hnode : ∀ k < c.totalIterations - 1,
      (fun x => x + (upper - lower) / (c.totalIterations : T))^[k + 1] lower ∈
        sampleNodes c.totalIterations lower upper := by
    intro k hk
    refine List.mem_append_left _ (List.mem_cons_of_mem _ (List.mem_map.2 ⟨k, ?_, rfl⟩))
    exact List.mem_range.2 hk
  have hlow : lower ∈ sampleNodes c.totalIterations lower upper :=
    List.mem_append_left _ List.mem_cons_self
  have hup : upper ∈ sampleNodes c.totalIterations lower upper :=
    List.mem_append_right _ (List.mem_singleton.2 rfl)
  rcases h lower with ⟨v, hv⟩ | he
  · rcases hw (match c.method with
      | .booles => boolesNext | .simpsons => simpsonsNext | .trapezoidal => fun _ => ((2 : ℕ) : T))
      (match c.method with
      | .booles => Fns.lit 32 | .simpsons => Fns.lit 3 | .trapezoidal => ((2 : ℕ) : T))
      with ⟨⟨l, hl⟩, hall⟩ | ⟨herr, k, hk, hke⟩
    · rcases h upper with ⟨u, hu⟩ | hue
      · refine .inl ⟨?_, ?_⟩
        · unfold integrateRule
          cases hm : c.method <;> simp only [hm] at hl <;>
            simp only [booles, simpsons, trapezoidal, hv, hl, hu] <;> exact ⟨_, rfl⟩
        · intro x hx
          rcases List.mem_append.1 hx with hx | hx
          · rcases List.mem_cons.1 hx with rfl | hx
            · exact ⟨v, hv⟩
            · obtain ⟨k, hk, rfl⟩ := List.mem_map.1 hx
              exact hall k (List.mem_range.1 hk)
          · rw [List.mem_singleton.1 hx]; exact ⟨u, hu⟩
      · refine .inr ⟨?_, upper, hup, hue⟩
        unfold integrateRule
        cases hm : c.method <;> simp only [hm] at hl <;>
          simp only [booles, simpsons, trapezoidal, hv, hl, hue] <;> rfl
    · refine .inr ⟨?_, _, hnode k hk, hke⟩
      unfold integrateRule
      cases hm : c.method <;> simp only [hm] at herr <;>
        simp only [booles, simpsons, trapezoidal, hv, herr] <;> rfl
  · refine .inr ⟨?_, lower, hlow, he⟩
    unfold integrateRule
    cases hm : c.method <;> simp only [booles, simpsons, trapezoidal, he] <;> rfl

omit [Zero T] [One T] [NatCast T] [Add T] [Sub T] [Mul T] [Div T] [LT T] [DecidableLT T] [BEq T] in
theorem finiteSample_cases (v : T) :
    (Fns.isFinite v = true ∧ finiteSample v = .ok v) ∨
      (Fns.isFinite v = false ∧ finiteSample v = .error (.error .nonFinite)) := by
  unfold finiteSample
  cases hv : Fns.isFinite v
  · right; exact ⟨rfl, by simp⟩
  · left; exact ⟨rfl, by simp⟩

/-- C75. In any arithmetic, for every rule, count and accumulator: integrating over a limit pair that
classifies as finite either succeeds and then the integrand was finite at every sample point, or
reports `NonFinite` and the integrand was infinite or NaN at one of them.  Over an infinite limit the
same holds for the integrand times the weight of the domain transform. -/
theorem single_nonFinite (c : IterativeConfig) (hc : c.totalIterations ≠ 0) (func : T → T)
    (limit : T × T) (domain : Domain T) (hd : classify limit = .ok domain) :
    let weighted : T → T := fun t =>
      match domain with
      | .finite _ _ => func t
      | _ => func (mapSample domain t).1 * (mapSample domain t).2
    let nodes := sampleNodes c.totalIterations (tBounds domain).1 (tBounds domain).2
    ((∃ v, iterativeSingle c func [limit] = .ok v) ↔
        ∀ t ∈ nodes, Fns.isFinite (weighted t) = true) ∧
      (iterativeSingle c func [limit] = .error (.error .nonFinite) ↔
        ∃ t ∈ nodes, Fns.isFinite (weighted t) = false) := by
  intro weighted nodes
  have hcheck : c.check [limit] = .ok () := by
    simp [IterativeConfig.check, hc, hd]
  have hrun : iterativeSingle c func [limit] =
      integrateRule c (tBounds domain).1 (tBounds domain).2 fun t => finiteSample (weighted t) := by
    unfold iterativeSingle
    simp only [hcheck, List.reverse_cons, List.reverse_nil, List.nil_append, iterativeSingleLevel, hd]
    cases domain <;> rfl
  have hin : ∀ t, (∃ v, finiteSample (weighted t) = .ok v) ∨
      finiteSample (weighted t) = .error (.error .nonFinite) := by
    intro t
    rcases finiteSample_cases (weighted t) with ⟨_, h⟩ | ⟨_, h⟩
    · exact .inl ⟨_, h⟩
    · exact .inr h
  rw [hrun]
  rcases integrateRule_outcome c (tBounds domain).1 (tBounds domain).2 _ _ hin with
    ⟨⟨v, hv⟩, hall⟩ | ⟨herr, t, ht, hte⟩
  · have hfin : ∀ t ∈ nodes, Fns.isFinite (weighted t) = true := by
      intro t ht
      obtain ⟨w, hw⟩ := hall t ht
      rcases finiteSample_cases (weighted t) with ⟨h, _⟩ | ⟨_, h⟩
      · exact h
      · rw [h] at hw; cases hw
    refine ⟨⟨fun _ => hfin, fun _ => ⟨v, hv⟩⟩, ⟨fun h => ?_, fun ⟨t, ht, hf⟩ => ?_⟩⟩
    · rw [hv] at h; cases h
    · rw [hfin t ht] at hf; cases hf
  · have hbad : Fns.isFinite (weighted t) = false := by
      rcases finiteSample_cases (weighted t) with ⟨_, h⟩ | ⟨h, _⟩
      · rw [h] at hte; cases hte
      · exact h
    refine ⟨⟨fun ⟨v, hv⟩ => ?_, fun hfin => ?_⟩, ⟨fun _ => ⟨t, ht, hbad⟩, fun _ => herr⟩⟩
    · rw [hv] at herr; cases herr
    · rw [hfin t ht] at hbad; cases hbad

/-- The points a multiple integral over finite limits looks at, outermost limit first. -/
def visitedPoints {n : ℕ} (count : ℕ) : List (Fin n × (T × T)) → (Fin n → T) → Set (Fin n → T)
  | [], point => {point}
  | (var, (a, b)) :: rest, point =>
    { q | ∃ x ∈ sampleNodes count a b, q ∈ visitedPoints count rest (Function.update point var x) }

/-- C75. The same for a multiple integral of any depth over finite limits, in any arithmetic: it
succeeds exactly when the integrand is finite at every point of the product grid, and reports
`NonFinite` exactly when it is not. -/
theorem multi_nonFinite {n : ℕ} (c : IterativeConfig) (func : (Fin n → T) → T)
    (levels : List (Fin n × (T × T))) (hne : levels ≠ [])
    (hfin : ∀ l ∈ levels, classify l.2 = .ok (.finite l.2.1 l.2.2)) (point : Fin n → T) :
    ((∃ v, iterativeMultiLevel c func levels point = .ok v) ∧
        ∀ q ∈ visitedPoints c.totalIterations levels point, Fns.isFinite (func q) = true) ∨
      (iterativeMultiLevel c func levels point = .error (.error .nonFinite) ∧
        ∃ q ∈ visitedPoints c.totalIterations levels point, Fns.isFinite (func q) = false) := by
  induction levels generalizing point with
  | nil => exact absurd rfl hne
  | cons l rest ih =>
    obtain ⟨var, a, b⟩ := l
    have hcl := hfin (var, (a, b)) List.mem_cons_self
    cases rest with
    | nil =>
      have hrun : iterativeMultiLevel c func [(var, (a, b))] point =
          integrateRule c a b fun x => finiteSample (func (Function.update point var x)) := by
        simp only [iterativeMultiLevel, hcl]; rfl
      have hin : ∀ x, (∃ v, finiteSample (func (Function.update point var x)) = .ok v) ∨
          finiteSample (func (Function.update point var x)) = .error (.error .nonFinite) := by
        intro t
        rcases finiteSample_cases (func (Function.update point var t)) with ⟨_, h⟩ | ⟨_, h⟩
        · exact .inl ⟨_, h⟩
        · exact .inr h
      rw [hrun]
      rcases integrateRule_outcome c a b _ _ hin with ⟨hv, hall⟩ | ⟨herr, t, ht, hte⟩
      · refine .inl ⟨hv, ?_⟩
        rintro q ⟨x, hx, hq⟩
        obtain ⟨w, hw⟩ := hall x hx
        rw [show q = Function.update point var x from hq]
        rcases finiteSample_cases (func (Function.update point var x)) with ⟨h, _⟩ | ⟨_, h⟩
        · exact h
        · rw [h] at hw; cases hw
      · refine .inr ⟨herr, Function.update point var t, ⟨t, ht, rfl⟩, ?_⟩
        rcases finiteSample_cases (func (Function.update point var t)) with ⟨_, h⟩ | ⟨h, _⟩
        · rw [h] at hte; cases hte
        · exact h
    | cons l2 rest2 =>
      have hrun : iterativeMultiLevel c func ((var, (a, b)) :: l2 :: rest2) point =
          integrateRule c a b fun x =>
            iterativeMultiLevel c func (l2 :: rest2) (Function.update point var x) := by
        rw [iterativeMultiLevel.eq_def]
        simp only [hcl]; rfl
      have ih' := fun p => ih (by simp) (fun l hl => hfin l (List.mem_cons_of_mem _ hl)) p
      have hin : ∀ x, (∃ v, iterativeMultiLevel c func (l2 :: rest2) (Function.update point var x)
            = .ok v) ∨ iterativeMultiLevel c func (l2 :: rest2) (Function.update point var x)
            = .error (.error .nonFinite) := by
        intro t
        rcases ih' (Function.update point var t) with ⟨h, _⟩ | ⟨h, _⟩
        · exact .inl h
        · exact .inr h
      rw [hrun]
      rcases integrateRule_outcome c a b _ _ hin with ⟨hv, hall⟩ | ⟨herr, t, ht, hte⟩
      · refine .inl ⟨hv, ?_⟩
        rintro q ⟨x, hx, hq⟩
        obtain ⟨w, hw⟩ := hall x hx
        rcases ih' (Function.update point var x) with ⟨_, h⟩ | ⟨h, _⟩
        · exact h q hq
        · rw [h] at hw; cases hw
      · rcases ih' (Function.update point var t) with ⟨⟨w, h⟩, _⟩ | ⟨_, q, hq, hqf⟩
        · rw [h] at hte; cases hte
        · exact .inr ⟨herr, q, ⟨t, ht, hq⟩, hqf⟩

/-- C75. In any arithmetic a zero interval count is reported before anything about the limits, by the
single- and the multi-variable integrator, whatever rule it was built for. -/
theorem iterations_zero_first (m : IterativeMethod) (func : T → T) (limits : List (T × T)) {n : ℕ}
    (g : (Fin n → T) → T) (mlimits : List (ℕ × (T × T))) (point : Fin n → T) :
    iterativeSingle (.fromParameters 0 m) func limits = .error (.error .iterationsZero) ∧
      iterativeMulti (.fromParameters 0 m) g mlimits point = .error (.error .iterationsZero) := by
  have h : (IterativeConfig.fromParameters 0 m).totalIterations = 0 := by
    cases m <;> rfl
  constructor
  · unfold iterativeSingle IterativeConfig.check; rw [if_pos h]; rfl
  · unfold iterativeMulti IterativeConfig.check; rw [if_pos h]; rfl

omit [NatCast T] [Mul T] [Div T] [One T] [Add T] [Sub T] [BEq T] in
theorem check_error (c : IterativeConfig) (hc : c.totalIterations ≠ 0) (limits : List (T × T))
    (limit : T × T) (hl : limit ∈ limits)
    (hbad : ∀ l ∈ limits, (∃ d, classify l = .ok d) ∨ classify l = .error (.error .limitsIllDefined))
    (hlim : classify limit = .error (.error .limitsIllDefined)) :
    c.check limits = .error (.error .limitsIllDefined) := by
  unfold IterativeConfig.check
  rw [if_neg hc]
  induction limits with
  | nil => cases hl
  | cons l rest ih =>
    rcases hbad l List.mem_cons_self with ⟨d, hd⟩ | he
    · have hrest : limit ∈ rest := by
        rcases List.mem_cons.1 hl with rfl | h
        · rw [hd] at hlim; cases hlim
        · exact h
      have := ih hrest (fun l hl => hbad l (List.mem_cons_of_mem _ hl))
      simp only [List.forM, hd]
      exact this
    · simp only [List.forM, he]; rfl

omit [NatCast T] [Mul T] [Div T] [One T] [Add T] [Sub T] [BEq T] in
theorem classify_cases (l : T × T) :
    (∃ d, classify l = .ok d) ∨ classify l = .error (.error .limitsIllDefined) := by
  unfold classify
  dsimp only
  split
  · exact .inr rfl
  · split <;> split <;> first | exact .inl ⟨_, rfl⟩ | exact .inr rfl

end Outcome

/-- C75. With infinities and NaN (`XR`): a limit pair is accepted exactly when the lower limit is
below the upper one, in the order where `-∞` is least, `+∞` greatest and NaN incomparable; and what it
is classified as tells which ends are finite. -/
theorem classify_iff (a b : XR) :
    ((∃ d, classify (a, b) = .ok d) ↔ a < b) ∧
      (∀ x y, classify (a, b) = .ok (.finite x y) ↔ a < b ∧ x = a ∧ y = b ∧ a ≠ .ninf ∧ b ≠ .pinf) ∧
      (∀ x, classify (a, b) = .ok (.lowerToInf x) ↔ a < b ∧ x = a ∧ a ≠ .ninf ∧ b = .pinf) ∧
      (∀ y, classify (a, b) = .ok (.upperToInf y) ↔ a < b ∧ y = b ∧ a = .ninf ∧ b ≠ .pinf) ∧
      (classify (a, b) = .ok .bothInf ↔ a = .ninf ∧ b = .pinf) := by
  have hz : (0 : XR) = .fin 0 := rfl
  have hlt : ∀ x y : XR, (x < y) = XR.lt x y := fun _ _ => rfl
  cases a <;> cases b <;>
    simp [classify, Fns.isNan, Fns.isFinite, hz, hlt, XR.lt] <;>
    (try split_ifs) <;> simp_all [eq_comm, and_assoc] <;> tauto

/-- C75. Over `XR`: if one of the limit pairs is equal, reversed, contains a NaN or points the wrong
way, then both integrators report `LimitsIllDefined`, whatever the function and the other (possibly
also bad) limits. -/
theorem limits_ill_defined (c : IterativeConfig) (hc : c.totalIterations ≠ 0)
    (limits : List (XR × XR)) (limit : XR × XR) (hl : limit ∈ limits) (hbad : ¬ limit.1 < limit.2)
    (func : XR → XR) :
    iterativeSingle c func limits = .error (.error .limitsIllDefined) ∧
      ∀ {n : ℕ} (g : (Fin n → XR) → XR) (idx : List ℕ) (_ : idx.length = limits.length)
        (point : Fin n → XR),
        iterativeMulti c g (idx.zip limits) point = .error (.error .limitsIllDefined) := by
  have hcl : classify limit = .error (.error .limitsIllDefined) := by
    rcases classify_cases limit with h | h
    · exact absurd ((classify_iff limit.1 limit.2).1.1 h) hbad
    · exact h
  have hch := check_error c hc limits limit hl (fun l _ => classify_cases l) hcl
  constructor
  · unfold iterativeSingle; rw [hch]; rfl
  · intro n g idx hlen point
    unfold iterativeMulti
    rw [show (idx.zip limits).map Prod.snd = limits from List.map_snd_zip (le_of_eq hlen.symm), hch]
    rfl

example : (⟨120, .booles, .pairwise⟩ : IterativeConfig).totalIterations ≠ 0 ∧
    ((.fin 1, .nan) : XR × XR) ∈ [(.fin 0, .fin 1), (.fin 1, .nan)] ∧ ¬ (XR.fin 1 < XR.nan) :=
  ⟨by decide, by simp, fun h => h⟩


/-! ## Exactness of the composite rules -/

section Exact

/-- The number of intervals a rule needs at a time. -/
def IterativeMethod.unit : IterativeMethod → ℕ
  | .booles => 4
  | .simpsons => 3
  | .trapezoidal => 1

/-- The degree up to which a rule is meant to be exact. -/
def IterativeMethod.exactDegree : IterativeMethod → ℕ
  | .booles => 5
  | .simpsons => 3
  | .trapezoidal => 1

/-- The interior terms when no sample fails. -/
noncomputable def walkTerms (f : ℝ → ℝ) (next : ℕ → ℝ) (delta : ℝ) :
    ℕ → ℕ → ℝ → ℝ → List ℝ
  | 0, _, _, _ => []
  | remaining + 1, iter, point, mult =>
    mult * f (point + delta) :: walkTerms f next delta remaining (iter + 1) (point + delta) (next iter)

theorem ruleWalk_ok (f : ℝ → ℝ) (next : ℕ → ℝ) (delta : ℝ) (m iter : ℕ) (point mult : ℝ) :
    ruleWalk (fun x => .ok (f x)) next delta m iter point mult =
      .ok (walkTerms f next delta m iter point mult) := by
  induction m generalizing iter point mult with
  | zero => rfl
  | succ m ih =>
    simp only [ruleWalk, ih]; rfl

theorem lit_cast (q : ℚ) : (Fns.lit q : ℝ) = (q : ℝ) := rfl

/-- Boole's panels: if the five-point formula is right on one panel of four steps, then it is right
on any number of them. -/
theorem booles_panels (f F : ℝ → ℝ) (d : ℝ)
    (h : ∀ x, 2 * d / 45 * (7 * f x + 32 * f (x + d) + 12 * f (x + 2 * d) + 32 * f (x + 3 * d)
      + 7 * f (x + 4 * d)) = F (x + 4 * d) - F x) (m : ℕ) (iter : ℕ) (hi : iter % 4 = 0) (x : ℝ) :
    2 * d / 45 * (7 * f x + (walkTerms f boolesNext d (4 * m + 3) iter x 32).sum
      + 7 * f (x + (4 * m + 4) * d)) = F (x + (4 * m + 4) * d) - F x := by
  induction m generalizing iter x with
  | zero =>
    have e1 : (iter + 2) % 2 = 0 := by omega
    have e2 : ¬ (iter + 2) % 4 = 0 := by omega
    have e3 : (iter + 1 + 2) % 2 ≠ 0 := by omega
    simp only [walkTerms, boolesNext, e1, e2, e3, List.sum_cons, List.sum_nil, ne_eq,
      not_true_eq_false, not_false_eq_true, if_true, if_false, lit_cast]
    have := h x
    rw [show x + d + d = x + 2 * d by ring, show x + 2 * d + d = x + 3 * d by ring]
    push_cast
    rw [show x + (4 * (0 : ℝ) + 4) * d = x + 4 * d by ring]
    linarith [this]
  | succ m ih =>
    have e1 : (iter + 2) % 2 = 0 := by omega
    have e2 : ¬ (iter + 2) % 4 = 0 := by omega
    have e3 : (iter + 1 + 2) % 2 ≠ 0 := by omega
    have e4 : (iter + 1 + 1 + 2) % 2 = 0 := by omega
    have e5 : (iter + 1 + 1 + 2) % 4 = 0 := by omega
    have e6 : (iter + 1 + 1 + 1 + 2) % 2 ≠ 0 := by omega
    have hstep : (walkTerms f boolesNext d (4 * (m + 1) + 3) iter x 32).sum =
        32 * f (x + d) + 12 * f (x + 2 * d) + 32 * f (x + 3 * d) + 14 * f (x + 4 * d)
          + (walkTerms f boolesNext d (4 * m + 3) (iter + 4) (x + 4 * d) 32).sum := by
      rw [show 4 * (m + 1) + 3 = (4 * m + 3) + 1 + 1 + 1 + 1 by ring]
      simp only [walkTerms, List.sum_cons]
      rw [show x + d + d = x + 2 * d by ring, show x + 2 * d + d = x + 3 * d by ring,
        show x + 3 * d + d = x + 4 * d by ring]
      simp only [boolesNext, e1, e2, e3, e4, e5, e6, ne_eq, not_true_eq_false, not_false_eq_true,
        if_true, if_false, lit_cast]
      push_cast
      ring
    have h1 := ih (iter + 4) (by omega) (x + 4 * d)
    rw [hstep]
    have h2 := h x
    rw [show x + 4 * d + (4 * (m : ℝ) + 4) * d = x + (4 * ((m + 1 : ℕ) : ℝ) + 4) * d by
      push_cast; ring] at h1
    linarith [h1, h2]

theorem simpsons_panels (f F : ℝ → ℝ) (d : ℝ)
    (h : ∀ x, 3 * d / 8 * (f x + 3 * f (x + d) + 3 * f (x + 2 * d) + f (x + 3 * d))
      = F (x + 3 * d) - F x) (m : ℕ) (iter : ℕ) (hi : iter % 3 = 0) (x : ℝ) :
    3 * d / 8 * (f x + (walkTerms f simpsonsNext d (3 * m + 2) iter x 3).sum
      + f (x + (3 * m + 3) * d)) = F (x + (3 * m + 3) * d) - F x := by
  induction m generalizing iter x with
  | zero =>
    have e1 : ¬ (iter + 2) % 3 = 0 := by omega
    simp only [walkTerms, simpsonsNext, e1, List.sum_cons, List.sum_nil, if_false, lit_cast]
    have := h x
    rw [show x + d + d = x + 2 * d by ring]
    push_cast
    rw [show x + (3 * (0 : ℝ) + 3) * d = x + 3 * d by ring]
    linarith [this]
  | succ m ih =>
    have e1 : ¬ (iter + 2) % 3 = 0 := by omega
    have e2 : (iter + 1 + 2) % 3 = 0 := by omega
    have e3 : ¬ (iter + 1 + 1 + 2) % 3 = 0 := by omega
    have hstep : (walkTerms f simpsonsNext d (3 * (m + 1) + 2) iter x 3).sum =
        3 * f (x + d) + 3 * f (x + 2 * d) + 2 * f (x + 3 * d)
          + (walkTerms f simpsonsNext d (3 * m + 2) (iter + 3) (x + 3 * d) 3).sum := by
      rw [show 3 * (m + 1) + 2 = (3 * m + 2) + 1 + 1 + 1 by ring]
      simp only [walkTerms, List.sum_cons]
      rw [show x + d + d = x + 2 * d by ring, show x + 2 * d + d = x + 3 * d by ring]
      simp only [simpsonsNext, e1, e2, e3, if_true, if_false, lit_cast]
      push_cast
      ring
    have h1 := ih (iter + 3) (by omega) (x + 3 * d)
    rw [hstep]
    have h2 := h x
    rw [show x + 3 * d + (3 * (m : ℝ) + 3) * d = x + (3 * ((m + 1 : ℕ) : ℝ) + 3) * d by
      push_cast; ring] at h1
    linarith [h1, h2]

theorem trapezoidal_panels (f F : ℝ → ℝ) (d : ℝ)
    (h : ∀ x, d / 2 * (f x + f (x + d)) = F (x + d) - F x) (m : ℕ) (iter : ℕ) (x : ℝ) :
    d / 2 * (f x + (walkTerms f (fun _ => 2) d m iter x 2).sum + f (x + (m + 1) * d))
      = F (x + (m + 1) * d) - F x := by
  induction m generalizing iter x with
  | zero =>
    simp only [walkTerms, List.sum_nil]
    have := h x
    push_cast
    rw [show x + ((0 : ℝ) + 1) * d = x + d by ring]
    linarith [this]
  | succ m ih =>
    have h1 := ih (iter + 1) (x + d)
    simp only [walkTerms, List.sum_cons]
    have h2 := h x
    rw [show x + d + ((m : ℝ) + 1) * d = x + (((m + 1 : ℕ) : ℝ) + 1) * d by
      push_cast; ring] at h1
    linarith [h1, h2]

theorem booles_panel_poly (c : ℕ → ℝ) (d x : ℝ) :
    let f := fun x : ℝ => ∑ i ∈ Finset.range 6, c i * x ^ i
    let F := fun x : ℝ => ∑ i ∈ Finset.range 6, c i * x ^ (i + 1) / (i + 1)
    2 * d / 45 * (7 * f x + 32 * f (x + d) + 12 * f (x + 2 * d) + 32 * f (x + 3 * d)
      + 7 * f (x + 4 * d)) = F (x + 4 * d) - F x := by
  intro f F
  simp only [f, F, Finset.sum_range_succ, Finset.sum_range_zero]
  push_cast
  ring

theorem simpsons_panel_poly (c : ℕ → ℝ) (d x : ℝ) :
    let f := fun x : ℝ => ∑ i ∈ Finset.range 4, c i * x ^ i
    let F := fun x : ℝ => ∑ i ∈ Finset.range 4, c i * x ^ (i + 1) / (i + 1)
    3 * d / 8 * (f x + 3 * f (x + d) + 3 * f (x + 2 * d) + f (x + 3 * d)) = F (x + 3 * d) - F x := by
  intro f F
  simp only [f, F, Finset.sum_range_succ, Finset.sum_range_zero]
  push_cast
  ring

theorem trapezoidal_panel_poly (c : ℕ → ℝ) (d x : ℝ) :
    let f := fun x : ℝ => ∑ i ∈ Finset.range 2, c i * x ^ i
    let F := fun x : ℝ => ∑ i ∈ Finset.range 2, c i * x ^ (i + 1) / (i + 1)
    d / 2 * (f x + f (x + d)) = F (x + d) - F x := by
  intro f F
  simp only [f, F, Finset.sum_range_succ, Finset.sum_range_zero]
  push_cast
  ring

theorem integral_coeffs (c : ℕ → ℝ) (n : ℕ) (a b : ℝ) :
    ∫ x in a..b, ∑ i ∈ Finset.range n, c i * x ^ i =
      ∑ i ∈ Finset.range n, c i * b ^ (i + 1) / (i + 1)
        - ∑ i ∈ Finset.range n, c i * a ^ (i + 1) / (i + 1) := by
  refine intervalIntegral.integral_eq_sub_of_hasDerivAt
    (f := fun x : ℝ => ∑ i ∈ Finset.range n, c i * x ^ (i + 1) / (i + 1)) (fun x _ => ?_) ?_
  · refine HasDerivAt.fun_sum fun i _ => ?_
    refine (((hasDerivAt_pow (i + 1) x).const_mul (c i)).div_const ((i : ℝ) + 1)).congr_deriv ?_
    have : (i : ℝ) + 1 ≠ 0 := by positivity
    push_cast
    field_simp
  · exact (by fun_prop : Continuous fun x : ℝ => ∑ i ∈ Finset.range n, c i * x ^ i).intervalIntegrable
      _ _

/-- One rule over one interval with an integrand that never fails. -/
theorem integrateRule_exact (c : IterativeConfig) (hc : c.totalIterations ≠ 0)
    (hd : c.method.unit ∣ c.totalIterations) (a b : ℝ) (p : Polynomial ℝ)
    (hp : p.natDegree ≤ c.method.exactDegree) :
    integrateRule c a b (fun x => .ok (p.eval x)) = .ok (∫ x in a..b, p.eval x) := by
  have hn : ((c.totalIterations : ℕ) : ℝ) ≠ 0 := Nat.cast_ne_zero.2 hc
  have hb : ∀ k : ℝ, k = c.totalIterations → a + k * ((b - a) / c.totalIterations) = b := by
    rintro k rfl; field_simp; ring
  have hev : ∀ k, p.natDegree < k →
      ∀ x, p.eval x = ∑ i ∈ Finset.range k, p.coeff i * x ^ i :=
    fun k hk x => Polynomial.eval_eq_sum_range' hk x
  unfold integrateRule
  cases hm : c.method
  · rw [hm] at hd hp
    obtain ⟨m, hm4⟩ := hd
    change c.totalIterations = 4 * m at hm4
    obtain ⟨m, rfl⟩ : ∃ k, m = k + 1 := ⟨m - 1, by omega⟩
    simp only [hev 6 (Nat.lt_succ_of_le hp)]
    have hpan := booles_panels (fun x => ∑ i ∈ Finset.range 6, p.coeff i * x ^ i)
      (fun x => ∑ i ∈ Finset.range 6, p.coeff i * x ^ (i + 1) / (i + 1)) ((b - a) / c.totalIterations) (booles_panel_poly p.coeff _) m 0 rfl a
    rw [hb (4 * m + 4) (by rw [hm4]; push_cast; ring)] at hpan
    simp only [booles, ruleWalk_ok, show c.totalIterations - 1 = 4 * m + 3 by omega]
    refine congrArg Except.ok ?_
    rw [integral_coeffs, ← hpan]
    simp only [accSum_eq_sum, List.sum_cons, List.sum_append, List.sum_nil, lit_cast]
    push_cast
    ring
  · rw [hm] at hd hp
    obtain ⟨m, hm4⟩ := hd
    change c.totalIterations = 3 * m at hm4
    obtain ⟨m, rfl⟩ : ∃ k, m = k + 1 := ⟨m - 1, by omega⟩
    simp only [hev 4 (Nat.lt_succ_of_le hp)]
    have hpan := simpsons_panels (fun x => ∑ i ∈ Finset.range 4, p.coeff i * x ^ i)
      (fun x => ∑ i ∈ Finset.range 4, p.coeff i * x ^ (i + 1) / (i + 1)) ((b - a) / c.totalIterations) (simpsons_panel_poly p.coeff _) m 0
      rfl a
    rw [hb (3 * m + 3) (by rw [hm4]; push_cast; ring)] at hpan
    simp only [simpsons, ruleWalk_ok, show c.totalIterations - 1 = 3 * m + 2 by omega]
    refine congrArg Except.ok ?_
    rw [integral_coeffs, ← hpan]
    simp only [accSum_eq_sum, List.sum_cons, List.sum_append, List.sum_nil, lit_cast]
    push_cast
    ring
  · rw [hm] at hp
    obtain ⟨m, hm4⟩ : ∃ k, c.totalIterations = k + 1 := ⟨c.totalIterations - 1, by omega⟩
    simp only [hev 2 (Nat.lt_succ_of_le hp)]
    have hpan := trapezoidal_panels (fun x => ∑ i ∈ Finset.range 2, p.coeff i * x ^ i)
      (fun x => ∑ i ∈ Finset.range 2, p.coeff i * x ^ (i + 1) / (i + 1)) ((b - a) / c.totalIterations)
      (trapezoidal_panel_poly p.coeff _) m 0 a
    rw [hb (m + 1) (by rw [hm4]; push_cast; ring)] at hpan
    simp only [trapezoidal, ruleWalk_ok, show c.totalIterations - 1 = m by omega]
    refine congrArg Except.ok ?_
    rw [integral_coeffs, ← hpan]
    simp only [accSum_eq_sum, List.sum_cons, List.sum_append, List.sum_nil, lit_cast]
    push_cast
    ring

theorem real_finiteSample (x : ℝ) : finiteSample x = .ok x := rfl

theorem real_classify {a b : ℝ} (h : a < b) : classify (a, b) = .ok (.finite a b) := by
  simp [classify, Fns.isNan, Fns.isFinite, h]

theorem real_check (c : IterativeConfig) (hc : c.totalIterations ≠ 0) (limits : List (ℝ × ℝ))
    (h : ∀ l ∈ limits, l.1 < l.2) : c.check limits = .ok () := by
  unfold IterativeConfig.check
  rw [if_neg hc]
  induction limits with
  | nil => rfl
  | cons l rest ih =>
    simp only [List.forM, real_classify (h l List.mem_cons_self)]
    exact ih fun l hl => h l (List.mem_cons_of_mem _ hl)

/-- The hypotheses of `single_nonFinite` and `multi_nonFinite` hold for finite limits in order. -/
example : classify ((0, 2) : ℝ × ℝ) = .ok (.finite 0 2) ∧
    ∀ l ∈ [((0 : Fin 2), ((0, 2) : ℝ × ℝ)), (1, (-1, 1))], classify l.2 = .ok (.finite l.2.1 l.2.2) := by
  refine ⟨real_classify (by norm_num), ?_⟩
  intro l hl
  simp only [List.mem_cons, List.not_mem_nil, or_false] at hl
  rcases hl with rfl | rfl
  · exact real_classify (by norm_num)
  · exact real_classify (by norm_num)

theorem single_finite (c : IterativeConfig) (hc : c.totalIterations ≠ 0) (f : ℝ → ℝ) {a b : ℝ}
    (hab : a < b) :
    iterativeSingle c f [(a, b)] = integrateRule c a b fun x => .ok (f x) := by
  unfold iterativeSingle
  rw [real_check c hc _ (by simpa using hab)]
  simp only [List.reverse_cons, List.reverse_nil, List.nil_append, iterativeSingleLevel,
    real_classify hab, real_finiteSample]
  rfl

/-- The rounding of `from_parameters`. -/
theorem nextMultipleOf_spec (n k : ℕ) (hk : 0 < k) :
    k ∣ nextMultipleOf n k ∧ n ≤ nextMultipleOf n k ∧ nextMultipleOf n k < n + k := by
  unfold nextMultipleOf
  split
  · rename_i h
    exact ⟨Nat.dvd_of_mod_eq_zero h, le_refl _, by omega⟩
  · have h1 := Nat.mod_lt n hk
    have h2 := Nat.div_add_mod n k
    refine ⟨⟨n / k + 1, ?_⟩, by omega, by omega⟩
    rw [Nat.mul_add]; omega

/-- C74. `from_parameters` rounds a count of at most 12000 up to the next count the rule can use, so
it is never zero, never smaller than asked and less than one panel larger. -/
theorem fromParameters_count (N : ℕ) (hN : N ≤ 12000) (m : IterativeMethod) :
    let c := IterativeConfig.fromParameters N m
    c.method = m ∧ m.unit ∣ c.totalIterations ∧ N ≤ c.totalIterations ∧
      c.totalIterations < N + m.unit := by
  intro c
  cases m <;> simp only [c, IterativeConfig.fromParameters, hN, if_true]
  · exact ⟨trivial, nextMultipleOf_spec N 4 (by norm_num)⟩
  · exact ⟨trivial, nextMultipleOf_spec N 3 (by norm_num)⟩
  · exact ⟨trivial, one_dvd _, le_refl _, Nat.lt_succ_self _⟩

/-- C74. For every count that fits the rule — in particular every positive count up to 12000 given to
`from_parameters` — every interval and every accumulator, in exact arithmetic: Boole's rule returns
the integral of every polynomial of degree at most five, Simpson's 3/8 rule of degree at most three,
the trapezoidal rule of degree at most one. -/
theorem iterative_exact (N : ℕ) (hN : 0 < N) (m : IterativeMethod) (hfit : N ≤ 12000 ∨ m.unit ∣ N)
    (kahan : Bool) (p : Polynomial ℝ) (hp : p.natDegree ≤ m.exactDegree) (a b : ℝ) (hab : a < b) :
    let c := IterativeConfig.fromParameters N m
    iterativeSingle (if kahan then c.withKahan else c) (fun x => p.eval x) [(a, b)] =
      .ok (∫ x in a..b, p.eval x) := by
  intro c
  have hcount : c.method = m ∧ m.unit ∣ c.totalIterations ∧ c.totalIterations ≠ 0 := by
    by_cases h : N ≤ 12000
    · obtain ⟨h1, h2, h3, -⟩ := fromParameters_count N h m
      exact ⟨h1, h2, by show (IterativeConfig.fromParameters N m).totalIterations ≠ 0; omega⟩
    · have hd := hfit.resolve_left h
      have ht : c.totalIterations = N := by
        show (IterativeConfig.fromParameters N m).totalIterations = N
        simp [IterativeConfig.fromParameters, h]
      exact ⟨rfl, by rw [ht]; exact hd, by omega⟩
  set c' := if kahan then c.withKahan else c with hc'
  have hm' : c'.method = m := by rw [hc']; split <;> exact hcount.1
  have ht' : c'.totalIterations = c.totalIterations := by rw [hc']; split <;> rfl
  unfold iterativeSingle
  rw [real_check c' (by rw [ht']; exact hcount.2.2) _ (by simpa using hab)]
  simp only [List.reverse_cons, List.reverse_nil, List.nil_append, iterativeSingleLevel,
    real_classify hab, real_finiteSample]
  exact integrateRule_exact c' (by rw [ht']; exact hcount.2.2)
    (by rw [hm', ht']; exact hcount.2.1) a b p (by rw [hm']; exact hp)

example : (0 : ℕ) < 7 ∧ (7 ≤ 12000 ∨ IterativeMethod.booles.unit ∣ 7) ∧
    (Polynomial.X ^ 5 : Polynomial ℝ).natDegree ≤ IterativeMethod.booles.exactDegree ∧
    (-1 : ℝ) < 3 := by
  refine ⟨by norm_num, .inl (by norm_num), ?_, by norm_num⟩
  rw [Polynomial.natDegree_X_pow]; rfl

/-- C74. `integral`, the short form, is exact on polynomials up to degree five. -/
theorem integral_exact (p : Polynomial ℝ) (hp : p.natDegree ≤ 5) (a b : ℝ) (hab : a < b) :
    integral' (fun x => p.eval x) (a, b) = .ok (∫ x in a..b, p.eval x) :=
  iterative_exact 120 (by norm_num) .booles (.inl (by norm_num)) false p hp a b hab

/-- A function of several variables that is a polynomial of degree at most `d` in each variable
separately. -/
def PolyInEach {n : ℕ} (d : ℕ) (f : (Fin n → ℝ) → ℝ) : Prop :=
  ∀ (point : Fin n → ℝ) (i : Fin n), ∃ p : Polynomial ℝ, p.natDegree ≤ d ∧
    ∀ x, f (Function.update point i x) = p.eval x

/-- The iterated integral, outermost limit first. -/
noncomputable def iteratedIntegral {n : ℕ} (f : (Fin n → ℝ) → ℝ) :
    List (Fin n × (ℝ × ℝ)) → (Fin n → ℝ) → ℝ
  | [], point => f point
  | (var, (a, b)) :: rest, point =>
    ∫ x in a..b, iteratedIntegral f rest (Function.update point var x)

/-- A composite rule is a weighted sum of samples. -/
theorem integrateRule_weights (c : IterativeConfig) (a b : ℝ) :
    ∃ nodes : List (ℝ × ℝ), ∀ f : ℝ → ℝ,
      integrateRule c a b (fun x => .ok (f x)) = .ok (nodes.map fun wx => wx.1 * f wx.2).sum := by
  have hw : ∀ (next : ℕ → ℝ) (d : ℝ) (m iter : ℕ) (pt mult : ℝ), ∃ nodes : List (ℝ × ℝ),
      ∀ f : ℝ → ℝ, (walkTerms f next d m iter pt mult).sum
        = (nodes.map fun wx => wx.1 * f wx.2).sum := by
    intro next d m
    induction m with
    | zero => exact fun _ _ _ => ⟨[], fun f => rfl⟩
    | succ m ih =>
      intro iter pt mult
      obtain ⟨l, hl⟩ := ih (iter + 1) (pt + d) (next iter)
      exact ⟨(mult, pt + d) :: l, fun f => by simp only [walkTerms, List.sum_cons, hl, List.map_cons]⟩
  have hscale : ∀ (k : ℝ) (l : List (ℝ × ℝ)) (f : ℝ → ℝ),
      k * (l.map fun wx => wx.1 * f wx.2).sum =
        ((l.map fun wx => (k * wx.1, wx.2)).map fun wx => wx.1 * f wx.2).sum := by
    intro k l f
    induction l with
    | nil => simp
    | cons x l ih => simp only [List.map_cons, List.sum_cons, mul_add, ih]; ring
  unfold integrateRule
  cases c.method
  · obtain ⟨l, hl⟩ := hw boolesNext ((b - a) / c.totalIterations) (c.totalIterations - 1) 0 a 32
    refine ⟨((7, a) :: (7, b) :: l).map fun wx =>
      (2 * ((b - a) / c.totalIterations) / 45 * wx.1, wx.2), fun f => ?_⟩
    rw [← hscale]
    simp only [booles, ruleWalk_ok]
    refine congrArg Except.ok ?_
    simp only [accSum_eq_sum, List.sum_cons, List.sum_append, List.sum_nil, lit_cast, List.map_cons]
    push_cast
    rw [hl]
    ring
  · obtain ⟨l, hl⟩ := hw simpsonsNext ((b - a) / c.totalIterations) (c.totalIterations - 1) 0 a 3
    refine ⟨((1, a) :: (1, b) :: l).map fun wx =>
      (3 * ((b - a) / c.totalIterations) / 8 * wx.1, wx.2), fun f => ?_⟩
    rw [← hscale]
    simp only [simpsons, ruleWalk_ok]
    refine congrArg Except.ok ?_
    simp only [accSum_eq_sum, List.sum_cons, List.sum_append, List.sum_nil, lit_cast, List.map_cons]
    push_cast
    rw [hl]
    ring
  · obtain ⟨l, hl⟩ := hw (fun _ => 2) ((b - a) / c.totalIterations) (c.totalIterations - 1) 0 a 2
    refine ⟨((1, a) :: (1, b) :: l).map fun wx =>
      (((b - a) / c.totalIterations) / 2 * wx.1, wx.2), fun f => ?_⟩
    rw [← hscale]
    simp only [trapezoidal, ruleWalk_ok]
    refine congrArg Except.ok ?_
    simp only [accSum_eq_sum, List.sum_cons, List.sum_append, List.sum_nil, lit_cast, List.map_cons]
    push_cast
    rw [hl]
    ring

theorem polyInEach_sum {n d : ℕ} (f : (Fin n → ℝ) → ℝ) (hf : PolyInEach d f) (var : Fin n)
    (nodes : List (ℝ × ℝ)) :
    PolyInEach d fun q => (nodes.map fun wx => wx.1 * f (Function.update q var wx.2)).sum := by
  intro point i
  induction nodes with
  | nil => exact ⟨0, by simp, fun x => by simp⟩
  | cons wx l ih =>
    obtain ⟨p, hp, hpe⟩ := ih
    by_cases hi : i = var
    · subst hi
      refine ⟨Polynomial.C (wx.1 * f (Function.update point i wx.2)) + p,
        (Polynomial.natDegree_add_le _ _).trans
          (max_le (by rw [Polynomial.natDegree_C]; exact Nat.zero_le _) hp), fun x => ?_⟩
      simp only [List.map_cons, List.sum_cons, Polynomial.eval_add, Polynomial.eval_C, ← hpe,
        Function.update_idem]
    · obtain ⟨q, hq, hqe⟩ := hf (Function.update point var wx.2) i
      refine ⟨Polynomial.C wx.1 * q + p, (Polynomial.natDegree_add_le _ _).trans
        (max_le ((Polynomial.natDegree_C_mul_le _ _).trans hq) hp), fun x => ?_⟩
      simp only [List.map_cons, List.sum_cons, Polynomial.eval_add, Polynomial.eval_mul,
        Polynomial.eval_C, ← hpe, ← hqe]
      rw [Function.update_comm (Ne.symm hi)]

theorem multi_exact_aux {n : ℕ} (c : IterativeConfig) (hc : c.totalIterations ≠ 0)
    (hd : c.method.unit ∣ c.totalIterations) (f : (Fin n → ℝ) → ℝ)
    (hf : PolyInEach c.method.exactDegree f) (levels : List (Fin n × (ℝ × ℝ)))
    (hlim : ∀ l ∈ levels, l.2.1 < l.2.2) :
    PolyInEach c.method.exactDegree (iteratedIntegral f levels) ∧
      (levels ≠ [] → ∀ point, iterativeMultiLevel c f levels point =
        .ok (iteratedIntegral f levels point)) := by
  induction levels with
  | nil => exact ⟨hf, fun h => absurd rfl h⟩
  | cons l rest ih =>
    obtain ⟨var, a, b⟩ := l
    obtain ⟨ih1, ih2⟩ := ih fun l hl => hlim l (List.mem_cons_of_mem _ hl)
    have hab : a < b := hlim (var, (a, b)) List.mem_cons_self
    have hex : ∀ point, integrateRule c a b
        (fun x => .ok (iteratedIntegral f rest (Function.update point var x))) =
          .ok (iteratedIntegral f ((var, (a, b)) :: rest) point) := by
      intro point
      obtain ⟨p, hp, hpe⟩ := ih1 point var
      simp only [iteratedIntegral, hpe]
      exact integrateRule_exact c hc hd a b p hp
    refine ⟨?_, fun _ point => ?_⟩
    · obtain ⟨nodes, hnodes⟩ := integrateRule_weights c a b
      have heq : iteratedIntegral f ((var, (a, b)) :: rest) = fun q =>
          (nodes.map fun wx => wx.1 * iteratedIntegral f rest (Function.update q var wx.2)).sum := by
        funext q
        have h := (hnodes fun x => iteratedIntegral f rest (Function.update q var x)).symm.trans (hex q)
        exact (Except.ok.inj h).symm
      rw [heq]
      exact polyInEach_sum _ ih1 var nodes
    · rw [← hex point]
      cases rest with
      | nil =>
        simp only [iterativeMultiLevel, real_classify hab, real_finiteSample]; rfl
      | cons l2 rest2 =>
        rw [iterativeMultiLevel.eq_def]
        simp only [real_classify hab]
        have : (fun x => iterativeMultiLevel c f (l2 :: rest2) (Function.update point var x)) =
            fun x => .ok (iteratedIntegral f (l2 :: rest2) (Function.update point var x)) := by
          funext x; exact ih2 (by simp) _
        rw [← this]; rfl

theorem checkIndices_ok {n : ℕ} (limits : List (ℕ × (ℝ × ℝ))) (h : ∀ l ∈ limits, l.1 < n) :
    ∃ levels : List (Fin n × (ℝ × ℝ)), checkIndices limits = .ok levels ∧
      levels.map (fun l => ((l.1 : ℕ), l.2)) = limits := by
  induction limits with
  | nil => exact ⟨[], rfl, rfl⟩
  | cons l rest ih =>
    obtain ⟨levels, h1, h2⟩ := ih fun l hl => h l (List.mem_cons_of_mem _ hl)
    have hl := h l List.mem_cons_self
    refine ⟨(⟨l.1, hl⟩, l.2) :: levels, ?_, by simp [h2]⟩
    obtain ⟨idx, lim⟩ := l
    simp only [checkIndices, h1]
    rw [dif_pos hl]; rfl

/-- C74. Multiple integrals, any number of them over any variables: for an integrand that is a
polynomial of the rule's degree in each variable separately, the multi-variable integrator returns
the iterated integral, the first limit being the innermost. -/
theorem iterativeMulti_exact {n : ℕ} (c : IterativeConfig) (hc : c.totalIterations ≠ 0)
    (hd : c.method.unit ∣ c.totalIterations) (f : (Fin n → ℝ) → ℝ)
    (hf : PolyInEach c.method.exactDegree f) (levels : List (Fin n × (ℝ × ℝ))) (hne : levels ≠ [])
    (hlim : ∀ l ∈ levels, l.2.1 < l.2.2) (point : Fin n → ℝ) :
    iterativeMulti c f (levels.map fun l => ((l.1 : ℕ), l.2)) point =
      .ok (iteratedIntegral f levels.reverse point) := by
  have hci : checkIndices (levels.map fun l => ((l.1 : ℕ), l.2)) = .ok levels := by
    clear hne hlim
    induction levels with
    | nil => rfl
    | cons l rest ih =>
      obtain ⟨idx, lim⟩ := l
      simp only [List.map_cons, checkIndices, ih]
      rw [dif_pos idx.2]; rfl
  unfold iterativeMulti
  rw [real_check c hc _ (by
    intro l hl
    simp only [List.map_map, List.mem_map] at hl
    obtain ⟨l', hl', rfl⟩ := hl
    exact hlim l' hl')]
  simp only [hci]
  exact (multi_exact_aux c hc hd f hf levels.reverse (fun l hl => hlim l (List.mem_reverse.1 hl))).2
    (by simpa using hne) point

example : PolyInEach (n := 2) 3 (fun q => q 0 ^ 3 * q 1 ^ 2 + q 1) ∧
    (∀ l ∈ [((0 : Fin 2), ((0 : ℝ), (1 : ℝ))), (1, (-1, 2))], l.2.1 < l.2.2) := by
  refine ⟨fun point i => ?_, by simp; norm_num⟩
  fin_cases i
  · refine ⟨Polynomial.C (point 1 ^ 2) * Polynomial.X ^ 3 + Polynomial.C (point 1), ?_, ?_⟩
    · compute_degree
    · intro x; simp [Function.update]; ring
  · refine ⟨Polynomial.C (point 0 ^ 3) * Polynomial.X ^ 2 + Polynomial.X, ?_, ?_⟩
    · compute_degree!
    · intro x; simp [Function.update]

/-- C74. Repeated integrals of a single-variable function: each further limit pair multiplies the
innermost integral by its length. -/
theorem iterativeSingle_repeated (c : IterativeConfig) (hc : c.totalIterations ≠ 0)
    (hd : c.method.unit ∣ c.totalIterations) (p : Polynomial ℝ)
    (hp : p.natDegree ≤ c.method.exactDegree) (a b : ℝ) (hab : a < b) (outer : List (ℝ × ℝ))
    (hout : ∀ l ∈ outer, l.1 < l.2) :
    iterativeSingle c (fun x => p.eval x) ((a, b) :: outer) =
      .ok ((∫ x in a..b, p.eval x) * (outer.map fun l => l.2 - l.1).prod) := by
  unfold iterativeSingle
  rw [real_check c hc _ (by
    intro l hl
    rcases List.mem_cons.1 hl with rfl | hl
    · exact hab
    · exact hout l hl)]
  show iterativeSingleLevel c _ ((a, b) :: outer).reverse = _
  rw [List.reverse_cons]
  rw [← List.prod_reverse, ← List.map_reverse]
  have hout' : ∀ l ∈ outer.reverse, l.1 < l.2 := fun l hl => hout l (List.mem_reverse.1 hl)
  generalize outer.reverse = ls at hout'
  induction ls with
  | nil =>
    simp only [List.nil_append, iterativeSingleLevel, real_classify hab, real_finiteSample,
      List.map_nil, List.prod_nil, mul_one]
    exact integrateRule_exact c hc hd a b p hp
  | cons l ls ih =>
    have h1 := ih fun l hl => hout' l (List.mem_cons_of_mem _ hl)
    have hl : l.1 < l.2 := hout' l List.mem_cons_self
    have hcons : iterativeSingleLevel c (fun x => p.eval x) (l :: (ls ++ [(a, b)])) =
        integrateRule c l.1 l.2 fun _ =>
          .ok ((∫ x in a..b, p.eval x) * (ls.map fun l => l.2 - l.1).prod) := by
      obtain ⟨l2, rest, hrest⟩ : ∃ l2 rest, ls ++ [(a, b)] = l2 :: rest := by
        cases ls with
        | nil => exact ⟨_, _, rfl⟩
        | cons l2 rest => exact ⟨l2, rest ++ [(a, b)], rfl⟩
      rw [hrest] at h1 ⊢
      rw [iterativeSingleLevel.eq_def]
      simp only [h1, real_classify hl, real_finiteSample]
      rfl
    rw [List.cons_append, hcons]
    have hconst := integrateRule_exact c hc hd l.1 l.2
      (Polynomial.C ((∫ x in a..b, p.eval x) * (ls.map fun l => l.2 - l.1).prod))
      (by rw [Polynomial.natDegree_C]; exact Nat.zero_le _)
    simp only [Polynomial.eval_C] at hconst
    rw [hconst]
    simp only [intervalIntegral.integral_const, smul_eq_mul, List.map_cons, List.prod_cons]
    refine congrArg Except.ok ?_
    ring

example : IterativeMethod.simpsons.unit ∣ 12 ∧ ∀ l ∈ [((0, 1) : ℝ × ℝ), (2, 5)], l.1 < l.2 := by
  constructor
  · decide
  · intro l hl
    simp only [List.mem_cons, List.not_mem_nil, or_false] at hl
    rcases hl with rfl | rfl <;> norm_num

theorem boole_walk_const (d : ℝ) (m iter : ℕ) (hi : iter % 4 = 0) (x : ℝ) :
    (walkTerms (fun _ => 1) boolesNext d (4 * m) iter x 32).sum = 90 * m := by
  induction m generalizing iter x with
  | zero => simp [walkTerms]
  | succ m ih =>
    have e1 : (iter + 2) % 2 = 0 := by omega
    have e2 : ¬ (iter + 2) % 4 = 0 := by omega
    have e3 : (iter + 1 + 2) % 2 ≠ 0 := by omega
    have e4 : (iter + 1 + 1 + 2) % 2 = 0 := by omega
    have e5 : (iter + 1 + 1 + 2) % 4 = 0 := by omega
    have e6 : (iter + 1 + 1 + 1 + 2) % 2 ≠ 0 := by omega
    have h1 := ih (iter + 4) (by omega) (x + d + d + d + d)
    have e7 : boolesNext (T := ℝ) (iter + 1 + 1 + 1) = 32 := by
      simp only [boolesNext, e6, ne_eq, not_false_eq_true, if_true, lit_cast]; norm_num
    rw [show 4 * (m + 1) = 4 * m + 1 + 1 + 1 + 1 by ring]
    simp only [walkTerms, List.sum_cons]
    rw [e7, h1]
    simp only [boolesNext, e1, e2, e3, e4, e5, ne_eq,
      not_true_eq_false, not_false_eq_true, if_true, if_false, lit_cast]
    push_cast
    ring

/-- C74 (finding). Above 12000 the count is not rounded.  With any such count that is one more than a
multiple of four, Boole's rule is wrong even on the constant one: over every interval it returns less
than the length, and the relative error is `17 / (45 N)`. -/
theorem booles_unrounded_wrong (m : ℕ) (hm : 12000 < 4 * m + 1) (a b : ℝ) (hab : a < b) :
    iterativeSingle (.fromParameters (4 * m + 1) .booles) (fun _ => 1) [(a, b)] =
        .ok ((b - a) * (1 - 17 / (45 * (4 * m + 1)))) ∧
      (b - a) * (1 - 17 / (45 * (4 * (m : ℝ) + 1))) ≠ ∫ _x in a..b, (1 : ℝ) := by
  have hpos : (0 : ℝ) < 4 * m + 1 := by positivity
  constructor
  · have hc : IterativeConfig.fromParameters (4 * m + 1) .booles =
        ⟨4 * m + 1, .booles, .pairwise⟩ := by
      unfold IterativeConfig.fromParameters
      simp only [show ¬ 4 * m + 1 ≤ 12000 by omega, if_false]
    rw [hc]
    rw [single_finite _ (by simp) _ hab]
    have hw := boole_walk_const ((b - a) / ((4 * m + 1 : ℕ) : ℝ)) m 0 rfl a
    simp only [integrateRule, booles, ruleWalk_ok (fun _ => 1), show 4 * m + 1 - 1 = 4 * m by omega]
    refine congrArg Except.ok ?_
    simp only [accSum_eq_sum, List.sum_cons, List.sum_append, List.sum_nil, lit_cast]
    push_cast at hw ⊢
    rw [hw]
    field_simp
    ring
  · simp only [intervalIntegral.integral_const, smul_eq_mul, mul_one]
    intro h
    have h17 : (b - a) * (17 / (45 * (4 * (m : ℝ) + 1))) = 0 := by linarith
    have : 0 < (b - a) * (17 / (45 * (4 * (m : ℝ) + 1))) :=
      mul_pos (by linarith) (by positivity)
    linarith

example : 12000 < 4 * 3000 + 1 := by norm_num

theorem walk_two (f : ℝ → ℝ) (d : ℝ) (m iter : ℕ) (x : ℝ) :
    (walkTerms f (fun _ => 2) d m iter x 2).sum =
      2 * ∑ k ∈ Finset.range m, f (x + (k + 1) * d) := by
  induction m generalizing iter x with
  | zero => simp [walkTerms]
  | succ m ih =>
    simp only [walkTerms, List.sum_cons, ih, Finset.sum_range_succ']
    have : ∀ k : ℕ, x + d + ((k : ℝ) + 1) * d = x + (((k + 1 : ℕ) : ℝ) + 1) * d := by
      intro k; push_cast; ring
    simp only [this]
    push_cast
    rw [show x + (0 + 1) * d = x + d by ring]
    ring

/-- C74. On integrands that are not polynomials: the trapezoidal rule over `n` intervals differs from
the integral of a twice continuously differentiable function by at most `(b-a)³ M / (12 n²)`, where
`M` bounds the second derivative. -/
theorem trapezoidal_error_bound (n : ℕ) (hn : 0 < n) (summation : SummationMethod) (f : ℝ → ℝ)
    (a b : ℝ) (hab : a < b) (hf : ContDiffOn ℝ 2 f (Set.uIcc a b)) (M : ℝ)
    (hM : ∀ x, |iteratedDerivWithin 2 f (Set.uIcc a b) x| ≤ M) :
    ∃ v, iterativeSingle ⟨n, .trapezoidal, summation⟩ f [(a, b)] = .ok v ∧
      |v - ∫ x in a..b, f x| ≤ (b - a) ^ 3 * M / (12 * n ^ 2) := by
  refine ⟨trapezoidal_integral f n a b, ?_, ?_⟩
  · rw [single_finite _ hn.ne' _ hab]
    simp only [integrateRule, trapezoidal, ruleWalk_ok]
    refine congrArg Except.ok ?_
    simp only [accSum_eq_sum, List.sum_cons, List.sum_append, List.sum_nil, lit_cast]
    push_cast
    rw [walk_two]
    unfold trapezoidal_integral
    simp only [mul_div_assoc]
    ring
  · have h := trapezoidal_error_le_of_c2 hf hM hn
    rw [abs_of_pos (sub_pos.2 hab)] at h
    exact h

example : ContDiffOn ℝ 2 Real.exp (Set.uIcc 0 1) ∧
    ∃ M, ∀ x, |iteratedDerivWithin 2 (fun _ : ℝ => (1 : ℝ)) (Set.uIcc (0 : ℝ) 1) x| ≤ M :=
  ⟨Real.contDiff_exp.contDiffOn, 0, fun x => by
    simp [iteratedDerivWithin_succ, iteratedDerivWithin_const]⟩

end Exact

/-! ## Infinite limits -/

section Infinite

/-- The set of reals a domain stands for. -/
def Domain.toSet : Domain ℝ → Set ℝ
  | .finite a b => Set.Ioo a b
  | .lowerToInf a => Set.Ioi a
  | .upperToInf b => Set.Iio b
  | .bothInf => Set.univ

theorem map_lower_deriv (a t : ℝ) (ht : t ≠ 1) :
    HasDerivAt (fun t => a + t / (1 - t)) (1 / ((1 - t) * (1 - t))) t := by
  have h1 : (1 : ℝ) - t ≠ 0 := sub_ne_zero.2 ht.symm
  have := ((hasDerivAt_id t).div ((hasDerivAt_const t (1 : ℝ)).sub (hasDerivAt_id t)) h1).const_add a
  refine HasDerivAt.congr_deriv (f := fun t => a + t / (1 - t)) this ?_
  show (1 * (1 - t) - t * (0 - 1)) / (1 - t) ^ 2 = _
  field_simp
  ring

theorem map_upper_deriv (b t : ℝ) (ht : t ≠ 1) :
    HasDerivAt (fun t => b - t / (1 - t)) (-(1 / ((1 - t) * (1 - t)))) t := by
  have := (map_lower_deriv 0 t ht).const_sub b
  refine HasDerivAt.congr_of_eventuallyEq this (Filter.Eventually.of_forall fun t => by simp)

theorem cos_pos_of_unit {t : ℝ} (h0 : 0 < t) (h1 : t < 1) : 0 < Real.cos (Real.pi * (t - 1 / 2)) := by
  have hp := Real.pi_pos
  apply Real.cos_pos_of_mem_Ioo
  constructor <;> nlinarith

theorem map_both_deriv (t : ℝ) (h0 : 0 < t) (h1 : t < 1) :
    HasDerivAt (fun t => Real.tan (Real.pi * (t - 1 / 2)))
      (Real.pi / (Real.cos (Real.pi * (t - 1 / 2)) * Real.cos (Real.pi * (t - 1 / 2)))) t := by
  have hc := (cos_pos_of_unit h0 h1).ne'
  have hin : HasDerivAt (fun t : ℝ => Real.pi * (t - 1 / 2)) Real.pi t := by
    exact (((hasDerivAt_id t).sub_const (1 / 2)).const_mul Real.pi).congr_deriv (mul_one _)
  have := (Real.hasDerivAt_tan hc).comp t hin
  refine HasDerivAt.congr_deriv this ?_
  rw [sq]; ring

/-- C75. The transform of an infinite limit maps the open unit interval onto the half-line or line it
stands for, one to one; the weight it reports is the absolute value of its derivative and positive. -/
theorem mapSample_bijection (dom : Domain ℝ) (hinf : ∀ a b, dom ≠ .finite a b) :
    Set.BijOn (fun t => (mapSample dom t).1) (Set.Ioo 0 1) dom.toSet ∧
      ∀ t ∈ Set.Ioo (0 : ℝ) 1, ∃ d, HasDerivAt (fun t => (mapSample dom t).1) d t ∧
        (mapSample dom t).2 = |d| ∧ 0 < (mapSample dom t).2 := by
  have hp := Real.pi_pos
  cases dom with
  | finite a b => exact absurd rfl (hinf a b)
  | lowerToInf a =>
    refine ⟨⟨fun t ht => ?_, fun s hs t ht h => ?_, fun x hx => ?_⟩, fun t ht => ?_⟩
    · have : 0 < t / (1 - t) := div_pos ht.1 (by linarith [ht.2])
      show a < a + t / (1 - t); linarith
    · have h1 : (1 : ℝ) - s ≠ 0 := by linarith [hs.2]
      have h2 : (1 : ℝ) - t ≠ 0 := by linarith [ht.2]
      have h' : a + s / (1 - s) = a + t / (1 - t) := h
      have h3 : s / (1 - s) = t / (1 - t) := by linarith
      rw [div_eq_div_iff h1 h2] at h3
      linarith
    · have hx' : a < x := hx
      have hd : 0 < 1 + (x - a) := by linarith
      refine ⟨(x - a) / (1 + (x - a)), ⟨by apply div_pos <;> linarith, ?_⟩, ?_⟩
      · rw [div_lt_one hd]; linarith
      · show a + (x - a) / (1 + (x - a)) / (1 - (x - a) / (1 + (x - a))) = x
        have : 1 - (x - a) / (1 + (x - a)) = 1 / (1 + (x - a)) := by field_simp; ring
        rw [this]; field_simp; ring
    · have hd : 0 < 1 - t := by linarith [ht.2]
      refine ⟨_, map_lower_deriv a t ht.2.ne, ?_, ?_⟩
      · exact (abs_of_pos (one_div_pos.2 (mul_pos hd hd))).symm
      · show 0 < 1 / ((1 - t) * (1 - t)); positivity
  | upperToInf b =>
    refine ⟨⟨fun t ht => ?_, fun s hs t ht h => ?_, fun x hx => ?_⟩, fun t ht => ?_⟩
    · have : 0 < t / (1 - t) := div_pos ht.1 (by linarith [ht.2])
      show b - t / (1 - t) < b; linarith
    · have h1 : (1 : ℝ) - s ≠ 0 := by linarith [hs.2]
      have h2 : (1 : ℝ) - t ≠ 0 := by linarith [ht.2]
      have h' : b - s / (1 - s) = b - t / (1 - t) := h
      have h3 : s / (1 - s) = t / (1 - t) := by linarith
      rw [div_eq_div_iff h1 h2] at h3
      linarith
    · have hx' : x < b := hx
      have hd : 0 < 1 + (b - x) := by linarith
      refine ⟨(b - x) / (1 + (b - x)), ⟨by apply div_pos <;> linarith, ?_⟩, ?_⟩
      · rw [div_lt_one hd]; linarith
      · show b - (b - x) / (1 + (b - x)) / (1 - (b - x) / (1 + (b - x))) = x
        have : 1 - (b - x) / (1 + (b - x)) = 1 / (1 + (b - x)) := by field_simp; ring
        rw [this]; field_simp; ring
    · have hd : 0 < 1 - t := by linarith [ht.2]
      refine ⟨_, map_upper_deriv b t ht.2.ne, ?_, ?_⟩
      · rw [abs_neg]; exact (abs_of_pos (one_div_pos.2 (mul_pos hd hd))).symm
      · show 0 < 1 / ((1 - t) * (1 - t)); positivity
  | bothInf =>
    have hval : ∀ t : ℝ, (mapSample (.bothInf) t).1 = Real.tan (Real.pi * (t - 1 / 2)) := by
      intro t
      show Real.tan (Real.pi * (t - ((1 / 2 : ℚ) : ℝ))) = _
      push_cast; rfl
    have hjac : ∀ t : ℝ, (mapSample (.bothInf) t).2 =
        Real.pi / (Real.cos (Real.pi * (t - 1 / 2)) * Real.cos (Real.pi * (t - 1 / 2))) := by
      intro t
      show Real.pi / (Real.cos (Real.pi * (t - ((1 / 2 : ℚ) : ℝ))) *
        Real.cos (Real.pi * (t - ((1 / 2 : ℚ) : ℝ)))) = _
      push_cast; rfl
    simp only [hval, hjac]
    refine ⟨⟨fun t _ => Set.mem_univ _, fun s hs t ht h => ?_, fun x _ => ?_⟩, fun t ht => ?_⟩
    · have hs1 : Real.pi * (s - 1 / 2) ∈ Set.Ioo (-(Real.pi / 2)) (Real.pi / 2) := by
        constructor <;> nlinarith [hs.1, hs.2]
      have ht1 : Real.pi * (t - 1 / 2) ∈ Set.Ioo (-(Real.pi / 2)) (Real.pi / 2) := by
        constructor <;> nlinarith [ht.1, ht.2]
      have := Real.injOn_tan hs1 ht1 h
      have := mul_left_cancel₀ hp.ne' this
      linarith
    · have h1 := Real.neg_pi_div_two_lt_arctan x
      have h2 := Real.arctan_lt_pi_div_two x
      refine ⟨Real.arctan x / Real.pi + 1 / 2, ⟨?_, ?_⟩, ?_⟩
      · have : -(1 / 2) < Real.arctan x / Real.pi := by rw [lt_div_iff₀ hp]; linarith
        linarith
      · have : Real.arctan x / Real.pi < 1 / 2 := by rw [div_lt_iff₀ hp]; linarith
        linarith
      · show Real.tan (Real.pi * (Real.arctan x / Real.pi + 1 / 2 - 1 / 2)) = x
        rw [show Real.pi * (Real.arctan x / Real.pi + 1 / 2 - 1 / 2) = Real.arctan x by
          field_simp; ring, Real.tan_arctan]
    · have hc := cos_pos_of_unit ht.1 ht.2
      exact ⟨_, map_both_deriv t ht.1 ht.2, (abs_of_pos (by positivity)).symm, by positivity⟩

/-- C75. So the weighted integrand handed to the rule has over the unit interval the integral of the
given function over the infinite domain, for every function. -/
theorem mapSample_integral (dom : Domain ℝ) (hinf : ∀ a b, dom ≠ .finite a b) (f : ℝ → ℝ) :
    ∫ t in Set.Ioo (0 : ℝ) 1, f (mapSample dom t).1 * (mapSample dom t).2 =
      ∫ x in dom.toSet, f x := by
  obtain ⟨hbij, hder⟩ := mapSample_bijection dom hinf
  have hd : ∀ t : ℝ, ∃ d, t ∈ Set.Ioo (0 : ℝ) 1 →
      HasDerivAt (fun t => (mapSample dom t).1) d t ∧ (mapSample dom t).2 = |d| := by
    intro t
    by_cases ht : t ∈ Set.Ioo (0 : ℝ) 1
    · obtain ⟨d, h1, h2, _⟩ := hder t ht
      exact ⟨d, fun _ => ⟨h1, h2⟩⟩
    · exact ⟨0, fun h => absurd h ht⟩
  choose f' hf' using hd
  have h := integral_image_eq_integral_abs_deriv_smul (f := fun t => (mapSample dom t).1) (f' := f')
    (s := Set.Ioo (0 : ℝ) 1) measurableSet_Ioo
    (fun t ht => (hf' t ht).1.hasDerivWithinAt) hbij.injOn f
  rw [hbij.image_eq] at h
  rw [h]
  refine setIntegral_congr_fun measurableSet_Ioo fun t ht => ?_
  show f (mapSample dom t).1 * (mapSample dom t).2 = |f' t| • f (mapSample dom t).1
  rw [(hf' t ht).2, smul_eq_mul, mul_comm]

example : ∀ a b, (Domain.bothInf : Domain ℝ) ≠ .finite a b := fun _ _ h => nomatch h

/-- C75. The interval walked for an infinite limit stays inside `[0, 1)` and is missing at most one
unit in the last place at each infinite end. -/
theorem tBounds_inside (dom : Domain ℝ) (hinf : ∀ a b, dom ≠ .finite a b) :
    0 ≤ (tBounds dom).1 ∧ (tBounds dom).1 ≤ 1 / 2 ^ 52 ∧ (tBounds dom).2 = 1 - 1 / 2 ^ 52 ∧
      ((tBounds dom).1 = 0 ↔ dom ≠ .bothInf) := by
  have he : (Fns.epsilon : ℝ) = 1 / 2 ^ 52 := rfl
  cases dom with
  | finite a b => exact absurd rfl (hinf a b)
  | lowerToInf a =>
    refine ⟨le_refl _, by simp only [tBounds]; positivity, rfl, fun _ h => (nomatch h), fun _ => rfl⟩
  | upperToInf a =>
    refine ⟨le_refl _, by simp only [tBounds]; positivity, rfl, fun _ h => (nomatch h), fun _ => rfl⟩
  | bothInf => simp only [tBounds, he]; norm_num

end Infinite

/-! ## Gaussian quadrature: error reporting -/

section Gaussian
variable {T : Type} [Zero T] [One T] [NatCast T] [Add T] [Sub T] [Mul T] [Div T] [LT T]
  [DecidableLT T] [BEq T] [Fns T]

/-- C75. Gaussian quadrature in any arithmetic: an order outside `1..=30` is reported before anything
else; then a limit pair that does not match the family; then an index out of range. -/
theorem gaussian_errors (tables : GaussianMethod → ℕ → List (ℚ × ℚ)) (m : GaussianMethod)
    (order : ℕ) (func : T → T) (limits : List (T × T)) {n : ℕ} (g : (Fin n → T) → T)
    (mlimits : List (ℕ × (T × T))) (point : Fin n → T) :
    (¬ (1 ≤ order ∧ order ≤ 30) →
      gaussianSingle tables m order func limits = .error (.error .quadratureOrderOutOfRange) ∧
      gaussianMulti tables m order g mlimits point = .error (.error .quadratureOrderOutOfRange)) ∧
    (1 ≤ order → order ≤ 30 →
      ((∃ l ∈ limits, gaussianLimitOk m l = false) →
        gaussianSingle tables m order func limits = .error (.error .limitsIllDefined)) ∧
      ((∃ l ∈ mlimits, gaussianLimitOk m l.2 = false) →
        gaussianMulti tables m order g mlimits point = .error (.error .limitsIllDefined)) ∧
      ((∀ l ∈ mlimits, gaussianLimitOk m l.2 = true) → (∃ l ∈ mlimits, n ≤ l.1) →
        gaussianMulti tables m order g mlimits point = .error (.error .indexOutOfRange))) := by
  have hlim : ∀ ls : List (T × T), (∃ l ∈ ls, gaussianLimitOk m l = false) →
      gaussianCheckLimits m ls = .error (.error .limitsIllDefined) := by
    intro ls ⟨l, hl, hf⟩
    induction ls with
    | nil => cases hl
    | cons x xs ih =>
      unfold gaussianCheckLimits
      by_cases hx : gaussianLimitOk m x = true
      · rw [if_pos hx]
        rcases List.mem_cons.1 hl with rfl | h
        · rw [hx] at hf; cases hf
        · exact ih h
      · rw [if_neg hx]
  have hlimok : ∀ ls : List (T × T), (∀ l ∈ ls, gaussianLimitOk m l = true) →
      gaussianCheckLimits m ls = .ok () := by
    intro ls h
    induction ls with
    | nil => rfl
    | cons x xs ih =>
      unfold gaussianCheckLimits
      rw [if_pos (h x List.mem_cons_self)]
      exact ih fun l hl => h l (List.mem_cons_of_mem _ hl)
  have hidx : ∀ ls : List (ℕ × (T × T)), (∃ l ∈ ls, n ≤ l.1) →
      checkIndices (n := n) ls = .error (.error .indexOutOfRange) := by
    intro ls ⟨l, hl, hf⟩
    induction ls with
    | nil => cases hl
    | cons x xs ih =>
      obtain ⟨i, lim⟩ := x
      unfold checkIndices
      by_cases hx : i < n
      · rw [dif_pos hx]
        rcases List.mem_cons.1 hl with rfl | h
        · exact absurd hx (not_lt.2 hf)
        · rw [ih h]; rfl
      · rw [dif_neg hx]
  constructor
  · intro h
    have ho : order = 0 ∨ 30 < order := by omega
    constructor
    · simp only [gaussianSingle, gaussianNodes, if_pos ho]; rfl
    · simp only [gaussianMulti, gaussianNodes, if_pos ho]; rfl
  · intro h1 h2
    have ho : ¬ (order = 0 ∨ 30 < order) := by omega
    refine ⟨fun h => ?_, fun h => ?_, fun h hi => ?_⟩
    · simp only [gaussianSingle, gaussianNodes, if_neg ho, hlim limits h]; rfl
    · have h' : ∃ l ∈ mlimits.map Prod.snd, gaussianLimitOk m l = false := by
        obtain ⟨l, hl, hf⟩ := h
        exact ⟨l.2, List.mem_map.2 ⟨l, hl, rfl⟩, hf⟩
      simp only [gaussianMulti, gaussianNodes, if_neg ho, hlim _ h']; rfl
    · have h' : ∀ l ∈ mlimits.map Prod.snd, gaussianLimitOk m l = true := by
        intro l hl
        obtain ⟨l', hl', rfl⟩ := List.mem_map.1 hl
        exact h l' hl'
      simp only [gaussianMulti, gaussianNodes, if_neg ho, hlimok _ h', hidx _ hi]; rfl

/-- C75. Which limits each family accepts, with infinities and NaN. -/
theorem gaussian_limits (a b : XR) :
    (gaussianLimitOk .legendre (a, b) = true ↔ a < b ∧ a ≠ .ninf ∧ b ≠ .pinf) ∧
      (gaussianLimitOk .hermite (a, b) = true ↔ a = .ninf ∧ b = .pinf) ∧
      (gaussianLimitOk .laguerre (a, b) = true ↔ a = .fin 0 ∧ b = .pinf) := by
  have hz : (0 : XR) = .fin 0 := rfl
  have hlt : ∀ x y : XR, (x < y) = XR.lt x y := fun _ _ => rfl
  have hb : ∀ x y : XR, (x == y) = XR.beq x y := fun _ _ => rfl
  have hp : (Fns.infinity : XR) = .pinf := rfl
  have hn : (Fns.negInfinity : XR) = .ninf := rfl
  cases a <;> cases b <;>
    simp [gaussianLimitOk, Fns.isFinite, hz, hlt, hb, hp, hn, XR.lt, XR.beq]

omit [One T] [NatCast T] [Sub T] [Div T] [LT T] [DecidableLT T] [BEq T] in
/-- C75. A Gaussian sum succeeds exactly when every sample does, and otherwise reports the failure. -/
theorem gaussianSum_outcome (table : List (ℚ × ℚ)) (f : T → T) :
    ((∃ v, gaussianSum table (fun x => finiteSample (f x)) = .ok v) ↔
        ∀ wx ∈ table, Fns.isFinite (f (Fns.lit wx.2)) = true) ∧
      (gaussianSum table (fun x => finiteSample (f x)) = .error (.error .nonFinite) ↔
        ∃ wx ∈ table, Fns.isFinite (f (Fns.lit wx.2)) = false) := by
  unfold gaussianSum
  generalize (0 : T) = acc
  induction table generalizing acc with
  | nil =>
    refine ⟨⟨fun _ wx h => absurd h (by simp), fun _ => ⟨acc, rfl⟩⟩,
      ⟨fun h => (nomatch (show Except.ok acc = _ from h)), fun ⟨wx, h, _⟩ => absurd h (by simp)⟩⟩
  | cons wx rest ih =>
    simp only [List.foldlM_cons]
    rcases finiteSample_cases (f (Fns.lit wx.2)) with ⟨h1, h2⟩ | ⟨h1, h2⟩
    · have := ih (acc + Fns.lit wx.1 * f (Fns.lit wx.2))
      simp only [h2, List.mem_cons, forall_eq_or_imp, exists_eq_or_imp, h1, true_and,
        Bool.true_eq_false, false_or]
      exact this
    · simp only [h2, List.mem_cons, forall_eq_or_imp, exists_eq_or_imp, h1, true_or,
        Bool.false_eq_true, false_and, iff_false, iff_true]
      exact ⟨fun ⟨v, h⟩ => (nomatch (show Except.error _ = Except.ok v from h)), rfl⟩

end Gaussian

end Multicalc
