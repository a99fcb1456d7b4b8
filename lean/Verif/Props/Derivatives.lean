import Verif.Props.Autodiff
import Verif.Model.XR
import Mathlib.Tactic

/-!
# The automatic differentiators return the derivatives
-/

open Filter Topology

namespace Multicalc

/-- `g` is the partial derivative of `f` in variable `i`, at every point near `x`. -/
def IsPartialNear {n : ℕ} (f : (Fin n → ℝ) → ℝ) (i : Fin n) (g : (Fin n → ℝ) → ℝ)
    (x : Fin n → ℝ) : Prop :=
  ∀ᶠ y in 𝓝 x, HasDerivAt (fun s => f (Function.update y i s)) (g y) (y i)

theorem hasDerivAt_update {n : ℕ} (x : Fin n → ℝ) (i k : Fin n) (t : ℝ) :
    HasDerivAt (fun s => Function.update x i s k) (if k.1 = i.1 then 1 else 0) t := by
  by_cases h : k = i
  · subst h
    simp only [Function.update_self, if_true]
    exact hasDerivAt_id t
  · have h' : ¬ k.1 = i.1 := fun e => h (Fin.ext e)
    rw [if_neg h']
    simp only [Function.update_of_ne h]
    exact hasDerivAt_const t _

theorem dualSeed_eq {n : ℕ} (x : Fin n → ℝ) (i : ℕ) :
    dualSeed x i = fun k => (⟨x k, if k.1 = i then 1 else 0⟩ : Dual ℝ) := by
  funext k
  unfold dualSeed Dual.variable' Dual.constant
  split_ifs <;> rfl

theorem continuous_update' {n : ℕ} (x : Fin n → ℝ) (i : Fin n) :
    Continuous fun s : ℝ => Function.update x i s := continuous_const.update i continuous_id

/-- Running a program on first-derivative seeds gives its partial derivative. -/
theorem Expr.partial_one {n : ℕ} (e : Expr n) (i : Fin n) {x : Fin n → ℝ} (h : e.SmoothAt x) :
    HasDerivAt (fun s => e.eval (Function.update x i s)) (e.eval (dualSeed x i)).deriv (x i) := by
  have := e.dual_hasDerivAt (c := fun s => Function.update x i s) (t := x i)
    (fun k => hasDerivAt_update x i k (x i)) (by rwa [Function.update_eq_self])
  rw [Function.update_eq_self] at this
  rw [dualSeed_eq]
  exact this

theorem Expr.partial_one_near {n : ℕ} (e : Expr n) (i : Fin n) {x : Fin n → ℝ}
    (h : e.SmoothAt x) :
    IsPartialNear (fun y => e.eval y) i (fun y => (e.eval (dualSeed y i)).deriv) x := by
  filter_upwards [(e.smooth h).2] with y hy
  exact e.partial_one i hy

/-- Running a program on second-derivative seeds differentiates the partial derivative. -/
theorem Expr.partial_two {n : ℕ} (e : Expr n) (i j : Fin n) {x : Fin n → ℝ} (h : e.SmoothAt x) :
    HasDerivAt (fun s => (e.eval (dualSeed (Function.update x i s) j)).deriv)
      (e.eval (hyperSeed x i j)).eps1eps2 (x i) := by
  have := (e.tanDual (c := fun s => dualSeed (Function.update x i s) j) (h := hyperSeed x i j)
    (t := x i) ?_ h).2.2
  · exact this
  · intro k
    simp only [dualSeed_eq]
    refine ⟨?_, hasDerivAt_update x i k (x i), hasDerivAt_const _ _⟩
    simp only [Function.update_eq_self]
    rfl

theorem Expr.partial_two_near {n : ℕ} (e : Expr n) (i j : Fin n) {x : Fin n → ℝ}
    (h : e.SmoothAt x) :
    IsPartialNear (fun y => (e.eval (dualSeed y j)).deriv) i
      (fun y => (e.eval (hyperSeed y i j)).eps1eps2) x := by
  filter_upwards [(e.smooth h).2] with y hy
  exact e.partial_two i j hy

theorem Expr.partial_three {n : ℕ} (e : Expr n) (i j k : Fin n) {x : Fin n → ℝ}
    (h : e.SmoothAt x) :
    HasDerivAt (fun s => (e.eval (hyperSeed (Function.update x k s) i j)).eps1eps2)
      (e.eval (tripleSeed x i j k)).deriv.eps1eps2 (x k) := by
  have := (e.tanHyper (c := fun s => hyperSeed (Function.update x k s) i j)
    (d := tripleSeed x i j k) (t := x k) ?_ h).2.2.2.2
  · exact this
  · intro m
    refine ⟨?_, hasDerivAt_update x k m (x k), hasDerivAt_const _ _, hasDerivAt_const _ _,
      hasDerivAt_const _ _⟩
    simp only [Function.update_eq_self]
    rfl

/-- C09. `AutoDiffMulti` with one index returns the partial derivative, for every program of any
number of variables and every point where the operations it performs are smooth and no comparison
is a tie.  The value part of the same run is the value of the program (`dual_value`). -/
theorem autoDiffMulti_one {n : ℕ} (e : Expr n) (i : Fin n) (x : Fin n → ℝ) (h : e.SmoothAt x) :
    ∃ d, autoDiffMulti e [i.1] x = .ok d ∧
      HasDerivAt (fun s => e.eval (Function.update x i s)) d (x i) := by
  refine ⟨_, ?_, e.partial_one i h⟩
  unfold autoDiffMulti
  simp [i.2]

/-- C09. `AutoDiffSingle` of order one returns the derivative. -/
theorem autoDiffSingle_one (e : Expr 1) (x : ℝ) (h : e.SmoothAt (fun _ => x)) :
    ∃ d, autoDiffSingle 1 e x = .ok d ∧ HasDerivAt (fun s => e.eval (fun _ => s)) d x := by
  refine ⟨_, rfl, ?_⟩
  exact e.dual_hasDerivAt (c := fun s _ => s) (c' := fun _ => 1) (t := x)
    (fun _ => hasDerivAt_id x) h

/-- C09. One evaluation gives a whole Jacobian column, and the Jacobian of any `VectorFn` of at
least one component is the matrix of partial derivatives. -/
theorem jacobian_autodiff {n m : ℕ} (f : Fin m → Expr n) (x : Fin n → ℝ) (hm : 0 < m)
    (h : ∀ r, (f r).SmoothAt x) :
    ∃ J : Matrix (Fin m) (Fin n) ℝ,
      jacobianEvaluate (fun c => autoDiffColumn f c x) = .ok J ∧
      ∀ r c, HasDerivAt (fun s => (f r).eval (Function.update x c s)) (J r c) (x c) := by
  refine ⟨fun r c => ((f r).eval (dualSeed x c)).deriv, ?_, fun r c => (f r).partial_one c (h r)⟩
  unfold jacobianEvaluate
  rw [if_neg hm.ne']
  have key : ∀ (l : List (Fin n)) (M : Matrix (Fin m) (Fin n) ℝ),
      l.foldlM (fun (result : Matrix (Fin m) (Fin n) ℝ) (c : Fin n) => do
        let col ← autoDiffColumn f c.1 x
        pure (fun i j => if j = c then col i else result i j)) M =
      (Except.ok (fun i j => if j ∈ l then ((f i).eval (dualSeed x j)).deriv else M i j) :
        Except DiffError (Matrix (Fin m) (Fin n) ℝ)) := by
    intro l
    induction l with
    | nil => intro M; simp [pure, Except.pure]
    | cons c l ih =>
      intro M
      have hcol : autoDiffColumn f c.1 x = .ok fun row => ((f row).eval (dualSeed x c)).deriv := by
        unfold autoDiffColumn
        rw [if_neg (not_le.mpr c.2)]
      rw [List.foldlM_cons, hcol]
      refine (ih (fun i j => if j = c then ((f i).eval (dualSeed x c)).deriv else M i j)).trans ?_
      congr 1
      funext i j
      by_cases hj : j ∈ l
      · simp [hj]
      · by_cases hjc : j = c
        · subst hjc; simp [hj]
        · simp [hj, hjc]
  refine (key (List.finRange n) _).trans ?_
  simp

/-- C10. `AutoDiffMulti` with two indices returns the mixed second partial derivative. -/
theorem autoDiffMulti_two {n : ℕ} (e : Expr n) (i j : Fin n) (x : Fin n → ℝ) (h : e.SmoothAt x) :
    ∃ d g, autoDiffMulti e [i.1, j.1] x = .ok d ∧
      IsPartialNear (fun y => e.eval y) j g x ∧
      HasDerivAt (fun s => g (Function.update x i s)) d (x i) := by
  refine ⟨_, _, ?_, e.partial_one_near j h, e.partial_two i j h⟩
  unfold autoDiffMulti
  simp [i.2, j.2]

/-- C10. A hyper-dual run also carries both first partials: the `eps1` and `eps2` parts. -/
theorem hyperDual_first {n : ℕ} (e : Expr n) (i j : Fin n) (x : Fin n → ℝ) (h : e.SmoothAt x) :
    HasDerivAt (fun s => e.eval (Function.update x i s)) (e.eval (hyperSeed x i j)).eps1 (x i) ∧
    HasDerivAt (fun s => e.eval (Function.update x j s)) (e.eval (hyperSeed x i j)).eps2 (x j) := by
  have ht := e.tanDual (c := fun s => dualSeed (Function.update x i s) j) (h := hyperSeed x i j)
    (t := x i) (by
      intro k
      simp only [dualSeed_eq]
      refine ⟨?_, hasDerivAt_update x i k (x i), hasDerivAt_const _ _⟩
      simp only [Function.update_eq_self]
      rfl) h
  constructor
  · refine ht.2.1.congr_of_eventuallyEq (Eventually.of_forall fun s => ?_)
    beta_reduce
    rw [dual_value]
    simp only [dualSeed_eq]
  · have h2 := congrArg Dual.deriv ht.1
    simp only [Function.update_eq_self] at h2
    rw [← h2]
    exact e.partial_one j h

/-- C10. `AutoDiffSingle` of order two returns the second derivative. -/
theorem autoDiffSingle_two (e : Expr 1) (x : ℝ) (h : e.SmoothAt (fun _ => x)) :
    ∃ d g, autoDiffSingle 2 e x = .ok d ∧
      (∀ᶠ y in 𝓝 x, HasDerivAt (fun s => e.eval (fun _ => s)) (g y) y) ∧ HasDerivAt g d x := by
  refine ⟨_, fun y => (e.eval (fun _ => (Dual.variable' y : Dual ℝ))).deriv, rfl, ?_, ?_⟩
  · have hc : Continuous fun s : ℝ => (fun _ : Fin 1 => s) := by fun_prop
    filter_upwards [(hc.tendsto x).eventually (e.smooth h).2] with y hy
    exact e.dual_hasDerivAt (c := fun s _ => s) (c' := fun _ => 1) (t := y)
      (fun _ => hasDerivAt_id y) hy
  · refine (e.tanDual (c := fun s _ => (Dual.variable' s : Dual ℝ))
      (h := fun _ => HyperDual.variable' x) (t := x) (fun _ => ⟨rfl, hasDerivAt_id x,
        hasDerivAt_const x _⟩) h).2.2

/-- C10. `AutoDiffMulti` with three indices returns the mixed third partial derivative. -/
theorem autoDiffMulti_three {n : ℕ} (e : Expr n) (i j k : Fin n) (x : Fin n → ℝ)
    (h : e.SmoothAt x) :
    ∃ d g₁ g₂, autoDiffMulti e [i.1, j.1, k.1] x = .ok d ∧
      IsPartialNear (fun y => e.eval y) j g₁ x ∧ IsPartialNear g₁ i g₂ x ∧
      HasDerivAt (fun s => g₂ (Function.update x k s)) d (x k) := by
  refine ⟨_, _, _, ?_, e.partial_one_near j h, e.partial_two_near i j h, e.partial_three i j k h⟩
  unfold autoDiffMulti
  simp [i.2, j.2, k.2]

/-- Exchange of the two directions. -/
def HyperDual.swap (h : HyperDual ℝ) : HyperDual ℝ := ⟨h.real, h.eps2, h.eps1, h.eps1eps2⟩

theorem Expr.eval_swap {n : ℕ} (e : Expr n) (x : Fin n → HyperDual ℝ) :
    e.eval (fun i => (x i).swap) = (e.eval x).swap := by
  induction e with
  | var i => rfl
  | lit q => rfl
  | nat k => rfl
  | pi => rfl
  | un op a ih =>
    simp only [Expr.eval, ih]
    generalize a.eval x = h
    rw [op.hyper, op.hyper h]
    ext <;> simp only [HyperDual.swap, HyperDual.chain] <;> ring
  | bin op a b iha ihb =>
    simp only [Expr.eval, iha, ihb]
    generalize a.eval x = h
    generalize b.eval x = k
    cases op with
    | add => rfl
    | sub => rfl
    | mul =>
      simp only [BinOp.eval, HyperDual.mul_def]
      ext <;> simp only [HyperDual.swap] <;> ring
    | div =>
      simp only [BinOp.eval, HyperDual.div_def, HyperDual.recip_def, HyperDual.mul_def]
      ext <;> simp only [HyperDual.swap] <;> ring
    | atan2 =>
      show HyperDual.atan2 h.swap k.swap = (HyperDual.atan2 h k).swap
      unfold HyperDual.atan2
      ext <;> simp only [HyperDual.swap] <;> ring
    | copysign =>
      show h.swap.chain _ _ _ = (h.chain _ _ _).swap
      ext <;> simp only [HyperDual.swap, HyperDual.chain, zero_mul, zero_add, add_zero] <;> rfl
  | ite o a b u v iha ihb ihu ihv =>
    simp only [Expr.eval, iha, ihb, ihu, ihv]
    have : o.eval (a.eval x).swap (b.eval x).swap = o.eval (a.eval x) (b.eval x) := by
      cases o <;> rfl
    rw [this]
    split_ifs <;> rfl

/-- C10. The second partial derivative does not depend on the order of the two indices, at every
point and for every program (smooth there or not). -/
theorem autoDiffMulti_symm {n : ℕ} (e : Expr n) (i j : ℕ) (x : Fin n → ℝ) :
    autoDiffMulti e [i, j] x = autoDiffMulti e [j, i] x := by
  unfold autoDiffMulti
  have hs : hyperSeed x j i = fun k => (hyperSeed x i j k).swap := rfl
  have he := e.eval_swap (hyperSeed x i j)
  rw [← hs] at he
  by_cases h : n ≤ i <;> by_cases h' : n ≤ j <;> simp [h, h', he, HyperDual.swap]

/-- C10. The error cases of the differentiators: order zero, an index out of range and an order
above three (single variable: six) are refused, in this precedence, for every scalar type. -/
theorem autoDiff_errors {T : Type} [Zero T] [One T] [NatCast T] [Add T] [Sub T] [Mul T] [Div T]
    [Neg T] [LT T] [DecidableLT T] [LE T] [DecidableLE T] [BEq T] [Fns T] [More T] {n : ℕ}
    (e : Expr n) (f : Expr 1) (idx : List ℕ) (x : Fin n → T) (p : T) (order : ℕ) :
    autoDiffMulti e [] x = .error .orderZero ∧
    (idx ≠ [] → (∃ i ∈ idx, n ≤ i) → autoDiffMulti e idx x = .error .indexOutOfRange) ∧
    ((∀ i ∈ idx, i < n) → 4 ≤ idx.length → autoDiffMulti e idx x = .error .orderUnsupported) ∧
    autoDiffSingle 0 f p = .error .orderZero ∧
    (7 ≤ order → autoDiffSingle order f p = .error .orderUnsupported) ∧
    (1 ≤ order → order ≤ 6 → ∃ d, autoDiffSingle order f p = .ok d) := by
  refine ⟨rfl, ?_, ?_, rfl, ?_, ?_⟩
  · rintro hne ⟨i, hi, hin⟩
    unfold autoDiffMulti
    rw [if_neg (by simpa using hne), if_pos (by
      rw [List.any_eq_true]; exact ⟨i, hi, by simpa using hin⟩)]
  · intro hall hlen
    unfold autoDiffMulti
    rw [if_neg (by omega), if_neg (by
      rw [List.any_eq_true]
      rintro ⟨i, hi, hin⟩
      have := hall i hi
      simp at hin
      omega)]
    match idx, hlen with
    | _ :: _ :: _ :: _ :: _, _ => rfl
  · intro h
    unfold autoDiffSingle
    rw [if_neg (by omega), if_neg (by omega), if_neg (by omega), if_neg (by omega)]
  · intro h1 h6
    unfold autoDiffSingle
    rw [if_neg (by omega)]
    split_ifs <;> exact ⟨_, rfl⟩

/-- The second partials a Hessian entry may hold: computed in either index order. -/
def IsSecondPartial {T : Type} {n : ℕ} (partial2 : Fin n → Fin n → Except DiffError T)
    (r c : Fin n) (v : T) : Prop := partial2 r c = .ok v ∨ partial2 c r = .ok v

theorem hessian_fold {T : Type} [Fns T] {n : ℕ} (hnan : Fns.isNan (Fns.nan : T) = true)
    (partial2 : Fin n → Fin n → Except DiffError T) (l : List (Fin n × Fin n)) :
    ∀ (H H' : Fin n → Fin n → T), (∀ r c, H r c = H c r) →
      (∀ r c, H r c = Fns.nan ∨ IsSecondPartial partial2 r c (H r c)) →
      l.foldlM (hessianStep partial2) H = .ok H' →
      (∀ r c, H' r c = H' c r) ∧
      (∀ r c, IsSecondPartial partial2 r c (H r c) → IsSecondPartial partial2 r c (H' r c)) ∧
      ∀ rc ∈ l, IsSecondPartial partial2 rc.1 rc.2 (H' rc.1 rc.2) := by
  induction l with
  | nil =>
    intro H H' hs _ h
    have : H = H' := by simpa [pure, Except.pure] using h
    subst this
    exact ⟨hs, fun _ _ h => h, by simp⟩
  | cons rc l ih =>
    intro H H' hs hi h
    rw [List.foldlM_cons] at h
    unfold hessianStep at h
    by_cases hn : Fns.isNan (H rc.1 rc.2) = true
    · simp only [hn, if_true] at h
      cases hv : partial2 rc.1 rc.2 with
      | error e =>
        rw [hv] at h
        exact nomatch (show (Except.error e : Except DiffError (Fin n → Fin n → T)) = .ok H' from h)
      | ok v =>
        rw [hv] at h
        set K : Fin n → Fin n → T := fun i j => if i = rc.2 ∧ j = rc.1 then v else
          if i = rc.1 ∧ j = rc.2 then v else H i j with hK
        have hf : l.foldlM (hessianStep partial2) K = .ok H' := h
        have hKs : ∀ r c, K r c = K c r := by
          intro r c
          simp only [hK]
          by_cases h1 : r = rc.2 ∧ c = rc.1
          · simp [h1]
          · by_cases h2 : r = rc.1 ∧ c = rc.2
            · simp [h2]
            · rw [if_neg h1, if_neg h2, if_neg (fun h => h2 ⟨h.2, h.1⟩),
                if_neg (fun h => h1 ⟨h.2, h.1⟩), hs]
        have hKp : ∀ r c, (r = rc.1 ∧ c = rc.2 ∨ IsSecondPartial partial2 r c (H r c)) →
            IsSecondPartial partial2 r c (K r c) := by
          intro r c hrc
          simp only [hK]
          by_cases h1 : r = rc.2 ∧ c = rc.1
          · rw [if_pos h1, h1.1, h1.2]; exact Or.inr hv
          · by_cases h2 : r = rc.1 ∧ c = rc.2
            · rw [if_neg h1, if_pos h2, h2.1, h2.2]; exact Or.inl hv
            · rw [if_neg h1, if_neg h2]
              exact hrc.resolve_left h2
        have hKi : ∀ r c, K r c = Fns.nan ∨ IsSecondPartial partial2 r c (K r c) := by
          intro r c
          rcases hi r c with h0 | h0
          · by_cases h1 : r = rc.2 ∧ c = rc.1
            · right; simp only [hK]; rw [if_pos h1, h1.1, h1.2]; exact Or.inr hv
            · by_cases h2 : r = rc.1 ∧ c = rc.2
              · exact Or.inr (hKp r c (Or.inl h2))
              · left; simp only [hK]; rw [if_neg h1, if_neg h2, h0]
          · exact Or.inr (hKp r c (Or.inr h0))
        obtain ⟨g1, g2, g3⟩ := ih K H' hKs hKi hf
        refine ⟨g1, fun r c h => g2 r c (hKp r c (Or.inr h)), ?_⟩
        intro q hq
        rcases List.mem_cons.1 hq with rfl | hq
        · exact g2 _ _ (hKp _ _ (Or.inl ⟨rfl, rfl⟩))
        · exact g3 q hq
    · simp only [hn] at h
      have hf : l.foldlM (hessianStep partial2) H = .ok H' := h
      obtain ⟨g1, g2, g3⟩ := ih H H' hs hi hf
      refine ⟨g1, g2, ?_⟩
      intro q hq
      rcases List.mem_cons.1 hq with rfl | hq
      · refine g2 _ _ ((hi _ _).resolve_left fun h0 => hn (by rw [h0, hnan]))
      · exact g3 q hq

theorem hessian_mem_pairs {n : ℕ} (r c : Fin n) :
    (r, c) ∈ (List.finRange n).flatMap fun r => (List.finRange n).map fun c => (r, c) := by
  simp

/-- C10. A Hessian that is returned is exactly symmetric and every entry is a second partial
derivative as computed by the differentiator (for one of the two index orders), for every scalar
type with a NaN, in any arithmetic.  With a differentiator whose second partials do not depend on
the order (`autoDiffMulti_symm`) every entry is the one computed for its own row and column. -/
theorem hessian_entries {T : Type} [Fns T] {n : ℕ} (hnan : Fns.isNan (Fns.nan : T) = true)
    (partial2 : Fin n → Fin n → Except DiffError T) (H : Fin n → Fin n → T)
    (h : hessianEvaluate partial2 = .ok H) :
    (∀ r c, H r c = H c r) ∧
    (∀ r c, partial2 r c = .ok (H r c) ∨ partial2 c r = .ok (H r c)) ∧
    ((∀ r c, partial2 r c = partial2 c r) → ∀ r c, partial2 r c = .ok (H r c)) := by
  obtain ⟨h1, _, h3⟩ := hessian_fold hnan partial2 _ _ H (fun _ _ => rfl) (fun _ _ => Or.inl rfl) h
  have h4 : ∀ r c, partial2 r c = .ok (H r c) ∨ partial2 c r = .ok (H r c) :=
    fun r c => h3 (r, c) (hessian_mem_pairs r c)
  refine ⟨h1, h4, fun hs r c => ?_⟩
  rcases h4 r c with h | h
  · exact h
  · rw [hs]; exact h

/-- C10. The Hessian succeeds exactly when no second partial it needs fails; a failure is one of
the differentiator's own errors. -/
theorem hessian_total {T : Type} [Fns T] {n : ℕ} 
    (partial2 : Fin n → Fin n → Except DiffError T) :
    ((∀ r c, ∃ v, partial2 r c = .ok v) → ∃ H, hessianEvaluate partial2 = .ok H) ∧
    ∀ err, hessianEvaluate partial2 = .error err → ∃ r c, partial2 r c = .error err := by
  constructor
  · intro hall
    unfold hessianEvaluate
    generalize (List.finRange n).flatMap _ = l
    generalize (fun _ _ => Fns.nan : Fin n → Fin n → T) = H
    induction l generalizing H with
    | nil => exact ⟨H, rfl⟩
    | cons rc l ih =>
      rw [List.foldlM_cons]
      unfold hessianStep
      obtain ⟨v, hv⟩ := hall rc.1 rc.2
      rw [hv]
      split_ifs
      · exact ih _
      · exact ih _
  · intro err
    unfold hessianEvaluate
    generalize (List.finRange n).flatMap _ = l
    generalize (fun _ _ => Fns.nan : Fin n → Fin n → T) = H
    induction l generalizing H with
    | nil => intro h; cases h
    | cons rc l ih =>
      rw [List.foldlM_cons]
      unfold hessianStep
      cases hv : partial2 rc.1 rc.2 with
      | ok v =>
        split_ifs
        · exact ih _
        · exact ih _
      | error e =>
        split_ifs
        · intro h
          refine ⟨rc.1, rc.2, ?_⟩
          rw [hv]
          have h' : (Except.error e : Except DiffError (Fin n → Fin n → T)) = .error err := h
          injection h' with h'
          rw [h']
        · exact ih _

/-- The NaN hypothesis holds of the extended reals, and a two-by-two Hessian of an asymmetric
differentiator is returned. -/
example : Fns.isNan (Fns.nan : XR) = true ∧ ∃ H, hessianEvaluate (n := 2)
    (fun r c => (.ok (if r.1 < c.1 then 1 else 2) : Except DiffError XR)) = .ok H :=
  ⟨rfl, (hessian_total _).1 fun _ _ => ⟨_, rfl⟩⟩

/-- A program to which the theorems apply: `atan2(x0, x1) * sqrt(x0)` at `(4, -3)`, where the
branch `x1 < x0` is taken. -/
example : (Expr.ite .lt (.var 1) (.var 0)
      (.bin .mul (.bin .atan2 (.var 0) (.var 1)) (.un .sqrt (.var 0))) (.lit 0) : Expr 2).SmoothAt
    ![4, -3] := by
  simp only [Expr.SmoothAt, Expr.eval, Cmp.eval, BinOp.SmoothAt, UnOp.SmoothAt]
  norm_num

end Multicalc
