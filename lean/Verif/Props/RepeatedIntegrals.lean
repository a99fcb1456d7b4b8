import Verif.Props.GaussianMulti
import Verif.Props.Integration
import Mathlib.Tactic

/-!
# Integrating a function of one variable several times

With several pairs of limits the single-variable integrators integrate the result of the inner integral,
a constant, over each further pair.
-/

namespace Multicalc

section
variable {T : Type} [Zero T] [One T] [NatCast T] [Add T] [Sub T] [Mul T] [Div T] [LT T]
  [DecidableLT T] [BEq T] [Fns T]

/-- C74. Whatever the scalar type, and whether or not the limits are finite: the last pair of limits is
the outermost, and integrating over it means integrating the constant that the other pairs gave, with the
same mapping of an infinite range and the same failures. -/
theorem iterativeSingle_nested (c : IterativeConfig) (func : T → T) (inner : List (T × T))
    (hne : inner ≠ []) (outer : T × T) (hout : ∃ d, classify outer = .ok d) :
    iterativeSingle c func (inner ++ [outer]) =
      (iterativeSingle c func inner).bind fun v => iterativeSingle c (fun _ => v) [outer] := by
  obtain ⟨d, hd⟩ := hout
  unfold iterativeSingle
  by_cases hc : c.totalIterations = 0
  · simp [IterativeConfig.check, hc, bind, Except.bind]
  have hone : c.check [outer] = .ok () := by
    unfold IterativeConfig.check
    rw [if_neg hc]
    simp only [List.forM, hd]
    rfl
  have hall : c.check (inner ++ [outer]) = c.check inner := by
    unfold IterativeConfig.check
    rw [if_neg hc, if_neg hc]
    clear hne
    induction inner with
    | nil =>
      simp only [List.nil_append, List.forM, hd]
      rfl
    | cons l r ih =>
      rcases classify_cases l with ⟨x, hx⟩ | hx
      · simp only [List.cons_append, List.forM, hx]
        exact ih
      · simp only [List.cons_append, List.forM, hx]
        rfl
  rw [hall, hone]
  cases hchk : c.check inner with
  | error e => rfl
  | ok u =>
    show iterativeSingleLevel c func (inner ++ [outer]).reverse =
      (iterativeSingleLevel c func inner.reverse).bind fun v =>
        iterativeSingleLevel c (fun _ => v) [outer].reverse
    rw [List.reverse_append, List.reverse_singleton, List.singleton_append]
    obtain ⟨a, r, hr⟩ : ∃ a r, inner.reverse = a :: r := by
      cases h : inner.reverse with
      | nil => exact absurd (List.reverse_eq_nil_iff.1 h) hne
      | cons a r => exact ⟨a, r, rfl⟩
    rw [hr]
    rw [iterativeSingleLevel.eq_def c func (outer :: a :: r)]
    simp only [hd]
    cases hin : iterativeSingleLevel c func (a :: r) with
    | error e => rfl
    | ok v =>
      show _ = iterativeSingleLevel c (fun _ => v) [outer]
      rw [iterativeSingleLevel.eq_def c (fun _ => v) [outer]]
      simp only [hd]
      cases d <;> rfl

end

/-- A repeated integral whose outer range is infinite, in the reals with infinities. -/
example : (∃ d, classify ((XR.fin 0, XR.pinf) : XR × XR) = .ok d) ∧ [((XR.fin 0, XR.fin 1) : XR × XR)] ≠ [] :=
  ⟨((classify_iff _ _).1).2 trivial, by simp⟩

namespace GaussianTables

/-- C117. Integrating several times with a Gaussian rule multiplies the innermost integral by what the rule
makes of the constant one over each further pair of limits. -/
theorem gauss_single_repeated (tables : GaussianMethod → ℕ → List (ℚ × ℚ)) (m : GaussianMethod) (order : ℕ)
    (f : ℝ → ℝ) (first : ℝ × ℝ) (v : ℝ) (hfirst : gaussianSingle tables m order f [first] = .ok v)
    (rest : List (ℝ × ℝ)) (w : ℝ × ℝ → ℝ)
    (hrest : ∀ l ∈ rest, gaussianSingle tables m order (fun _ => 1) [l] = .ok (w l)) :
    gaussianSingle tables m order f (first :: rest) = .ok (v * (rest.map w).prod) := by
  obtain ⟨h1, h30, hl⟩ := single_refuses hfirst
  rw [single_ok h1 h30 hl] at hfirst
  have hv : v = level m (tables m order) first f := (Except.ok.inj hfirst).symm
  have hw : ∀ l ∈ rest, gaussianLimitOk m l = true ∧
      w l = level m (tables m order) l fun _ => 1 := fun l hlr => by
    have h := hrest l hlr
    have hok := (single_refuses h).2.2
    rw [single_ok h1 h30 hok] at h
    exact ⟨hok, (Except.ok.inj h).symm⟩
  have hlim : gaussianCheckLimits m (first :: rest) = .ok () := checkLimits_ok m _ fun l h => by
    rcases List.mem_cons.1 h with rfl | h
    · exact hl
    · exact (hw l h).1
  have hn : gaussianNodes tables m order = .ok (tables m order) := by rw [gaussianNodes, if_neg (by omega)]
  have hprod : (rest.map w).prod = (rest.map fun l => level m (tables m order) l fun _ => 1).prod := by
    congr 1
    exact List.map_congr_left fun l h => (hw l h).2
  rw [hv, hprod]
  have hconst : ∀ (l : ℝ × ℝ) (k : ℝ), level m (tables m order) l (fun _ => k) =
      k * level m (tables m order) l fun _ => 1 := fun l k => by
    rw [← level_mul]; simp
  generalize tables m order = t at *
  have hsum : ∀ k : ℝ, gaussianSum t (fun _ => .ok k) =
      (.ok ((t.map fun p => (p.1 : ℝ) * k).sum) : Except IntegrateFailure ℝ) := fun k =>
    gaussianSum_ok t (fun _ => k) _ fun _ => rfl
  simp only [gaussianSingle, hn, hlim, bind, Except.bind]
  have hcan : m ≠ .legendre → ∀ (r : List (ℝ × ℝ)), gaussCanonicalSingle t f (first :: r).length =
      .ok (level m t first f * (r.map fun l => level m t l fun _ => 1).prod) := by
    intro hm r
    induction r with
    | nil =>
      simp only [List.length_singleton, List.map_nil, List.prod_nil, mul_one, gaussCanonicalSingle]
      rw [gaussianSum_ok t f _ fun x => finiteSample_real _]
      cases m <;> first | exact absurd rfl hm | rfl
    | cons l r ih =>
      simp only [List.length_cons] at ih ⊢
      rw [gaussCanonicalSingle, ih]
      show gaussianSum t (fun _ => (.ok (level m t first f *
        (r.map fun l => level m t l fun _ => 1).prod) : Except IntegrateFailure ℝ)) = _
      rw [hsum, List.map_cons, List.prod_cons, show ∀ a b c : ℝ, a * (b * c) = a * c * b from
        fun a b c => by ring, ← hconst]
      cases m <;> first | exact absurd rfl hm | rfl
  have hleg : ∀ (r : List (ℝ × ℝ)), gaussLegendreSingle t f (r ++ [first]) =
      .ok (level .legendre t first f * (r.map fun l => level .legendre t l fun _ => 1).prod) := by
    intro r
    induction r with
    | nil =>
      obtain ⟨a, b⟩ := first
      simp only [List.nil_append, List.map_nil, List.prod_nil, mul_one, gaussLegendreSingle, half_lit]
      rw [gaussianSum_ok _ (fun x => f ((b - a) / 2 * x + (b + a) / 2)) _ fun x => finiteSample_real _]
      rfl
    | cons l r ih =>
      obtain ⟨a, b⟩ := l
      obtain ⟨x, r', hr⟩ : ∃ x r', r ++ [first] = x :: r' := by
        cases r with
        | nil => exact ⟨_, _, rfl⟩
        | cons x r' => exact ⟨x, r' ++ [first], rfl⟩
      rw [List.cons_append, hr, gaussLegendreSingle.eq_def]
      rw [hr] at ih
      simp only [half_lit, ih, bind, Except.bind, hsum]
      simp only [List.map_cons, List.prod_cons, level, mul_one]
      refine congrArg Except.ok ?_
      rw [List.sum_map_mul_right]
      ring
  cases m with
  | legendre =>
    simp only [List.reverse_cons]
    rw [hleg, List.map_reverse, List.prod_reverse]
  | hermite => exact hcan (by simp) rest
  | laguerre => exact hcan (by simp) rest

/-- Twice, over two intervals. -/
example : ∃ v, gaussianSingle (fun _ _ => [(2, 0)]) .legendre 1 (fun x : ℝ => x) [(0, 2), (0, 3)] = .ok v := by
  have h : ∀ (f : ℝ → ℝ) (a b : ℝ), a < b →
      gaussianSingle (fun _ _ => [(2, 0)]) .legendre 1 f [(a, b)] =
        .ok (level .legendre [(2, 0)] (a, b) f) := fun f a b hab =>
    single_ok le_rfl (by norm_num) (by simp [gaussianLimitOk, hab, Fns.isFinite])
  exact ⟨_, gauss_single_repeated _ _ _ _ _ _ (h _ _ _ (by norm_num)) [(0, 3)]
    (fun l => level .legendre [(2, 0)] l fun _ => 1) (by
      intro l hl
      rw [List.mem_singleton] at hl
      subst hl
      exact h _ _ _ (by norm_num))⟩

end GaussianTables

end Multicalc
