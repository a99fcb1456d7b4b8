import Verif.Model.Multivariate
import Verif.Props.Polynomial
import Verif.Props.Scalar
import Mathlib.Algebra.MvPolynomial.PDeriv
import Mathlib.Algebra.MvPolynomial.CommRing
import Mathlib.Tactic

/-!
# Polynomials in several variables (C73)

`toMv` reads a list of terms as a Mathlib polynomial; every operation is compared with the operation
of the same name there, and evaluation with evaluation of it.
-/

namespace Multicalc
namespace Poly

open MvPolynomial

variable {K : Type} [Field K] {n : ℕ}

/-- The polynomial a single term stands for. -/
noncomputable def Term.toMv (t : Term n K) : MvPolynomial (Fin n) K :=
  monomial (Finsupp.equivFunOnFinite.symm t.exponents) t.coefficient

/-- The polynomial a list of terms stands for. -/
noncomputable def toMv (terms : List (Term n K)) : MvPolynomial (Fin n) K :=
  (terms.map Term.toMv).sum

/-- No exponent is above `i32::MAX`, the largest power the scalar types raise to. -/
def Representable (terms : List (Term n K)) : Prop :=
  ∀ t ∈ terms, ∀ i, t.exponents i ≤ i32Max

@[simp] theorem toMv_nil : toMv ([] : List (Term n K)) = 0 := rfl

@[simp] theorem toMv_cons (t : Term n K) (l : List (Term n K)) :
    toMv (t :: l) = t.toMv + toMv l := by simp [toMv]

@[simp] theorem toMv_append (a b : List (Term n K)) : toMv (a ++ b) = toMv a + toMv b := by
  simp [toMv]

theorem eval_term (t : Term n K) (x : Fin n → K) :
    eval x t.toMv = t.coefficient * ∏ i, x i ^ t.exponents i := by
  rw [Term.toMv, eval_monomial]
  congr 1
  rw [Finsupp.prod_fintype _ _ (by simp)]
  simp

theorem foldl_mul_finRange (f : Fin n → K) (a : K) :
    (List.finRange n).foldl (fun product i => product * f i) a = a * ∏ i, f i := by
  rw [← List.prod_ofFn, List.ofFn_eq_map]
  generalize List.finRange n = l
  induction l generalizing a with
  | nil => simp
  | cons i l ih => simp [ih, mul_assoc]

theorem raise_eq (x : K) (e : ℕ) : raise x e = x ^ min e i32Max := by
  rw [raise, powi_eq_zpow, zpow_natCast]

theorem termValue_eq (t : Term n K) (x : Fin n → K) (h : ∀ i, t.exponents i ≤ i32Max) :
    termValue t x = eval x t.toMv := by
  rw [termValue, foldl_mul_finRange, eval_term]
  congr 1
  refine Finset.prod_congr rfl fun i _ => ?_
  rw [raise_eq, min_eq_left (h i)]

theorem foldl_add_terms (f : Term n K → K) (l : List (Term n K)) (a : K) :
    l.foldl (fun total t => total + f t) a = a + (l.map f).sum := by
  induction l generalizing a with
  | nil => simp
  | cons t l ih => simp [ih, add_assoc]

theorem eval_toMv (terms : List (Term n K)) (x : Fin n → K) :
    eval x (toMv terms) = (terms.map fun t => eval x t.toMv).sum := by
  induction terms with
  | nil => simp
  | cons t l ih => simp [ih]

/-- C73. As long as no exponent is above `i32::MAX`, `evaluate` is the sum of the terms'
coefficients times the powers of the variables, and `gradient_at` holds the partial derivatives. -/
theorem multivariate_evaluate_partial (terms : List (Term n K)) (h : Representable terms)
    (x : Fin n → K) :
    evaluateMulti terms x =
      (terms.map fun t => t.coefficient * ∏ i, x i ^ t.exponents i).sum ∧
    evaluateMulti terms x = eval x (toMv terms) ∧
    ∀ i, gradientAt terms x i = eval x (pderiv i (toMv terms)) := by
  have h1 : evaluateMulti terms x = eval x (toMv terms) := by
    rw [evaluateMulti, foldl_add_terms, zero_add, eval_toMv]
    congr 1
    exact List.map_congr_left fun t ht => termValue_eq t x (h t ht)
  refine ⟨?_, h1, ?_⟩
  · rw [h1, eval_toMv]
    simp only [eval_term]
  · intro i
    have hstep : ∀ t ∈ terms, ∀ total : K,
        (if t.exponents i = 0 then total else total + gradientTerm x i t) =
          total + eval x (pderiv i t.toMv) := by
      intro t ht total
      rw [Term.toMv, pderiv_monomial]
      simp only [Finsupp.equivFunOnFinite_symm_apply_apply]
      split_ifs with h0
      · simp [h0]
      · congr 1
        rw [gradientTerm, foldl_mul_finRange, eval_monomial, Finsupp.prod_fintype _ _ (by simp)]
        congr 1
        refine Finset.prod_congr rfl fun j _ => ?_
        rw [raise_eq]
        have hj := h t ht j
        by_cases hji : j = i
        · subst hji
          simp only [if_true, Finsupp.coe_tsub, Pi.sub_apply, Finsupp.single_eq_same,
            Finsupp.equivFunOnFinite_symm_apply_apply]
          rw [min_eq_left (by omega)]
        · simp only [if_neg hji, Finsupp.coe_tsub, Pi.sub_apply,
            Finsupp.equivFunOnFinite_symm_apply_apply]
          rw [min_eq_left hj, Finsupp.single_eq_of_ne (by tauto)]
          simp
    have hfold : ∀ (l : List (Term n K)), (∀ t ∈ l, t ∈ terms) → ∀ total : K,
        l.foldl (fun total t => if t.exponents i = 0 then total
          else total + gradientTerm x i t) total = total + eval x (pderiv i (toMv l)) := by
      intro l
      induction l with
      | nil => intro _ total; simp
      | cons t l ih =>
        intro hl total
        rw [List.foldl_cons, hstep t (hl t (by simp)), ih (fun s hs => hl s (by simp [hs]))]
        simp [add_assoc]
    rw [gradientAt, hfold terms (fun _ h => h) 0, zero_add]

/-- Two variables, `3 x² y - 2`. -/
example : Representable ([⟨3, ![2, 1]⟩, ⟨-2, ![0, 0]⟩] : List (Term 2 ℚ)) := by
  intro t ht i
  simp only [List.mem_cons, List.not_mem_nil, or_false] at ht
  rcases ht with rfl | rfl <;> fin_cases i <;> simp [i32Max]

/-- C73 (finding). An exponent above `i32::MAX` is silently raised to `i32::MAX` instead: the term
`x^(2^31)`, which `multiply_into` itself can produce from two terms `x^(2^30)`, evaluates to `-1` at
`x = -1`. -/
theorem multivariate_exponent_saturates :
    (evaluateMulti [⟨1, fun _ => 2 ^ 30⟩] (fun _ : Fin 1 => (-1 : ℝ)) = 1) ∧
    (∃ product, multiplyMulti 1 [(⟨1, fun _ => 2 ^ 30⟩ : Term 1 ℝ)] [⟨1, fun _ => 2 ^ 30⟩] =
        .ok product ∧
      evaluateMulti product (fun _ : Fin 1 => (-1 : ℝ)) = -1) := by
  constructor
  · simp only [evaluateMulti, List.foldl_cons, List.foldl_nil, termValue, foldl_mul_finRange,
      raise_eq, zero_add, one_mul, Finset.univ_unique, Finset.prod_singleton]
    exact Even.neg_one_pow (by rw [i32Max]; decide)
  · refine ⟨[⟨1 * 1, fun _ => 2 ^ 30 + 2 ^ 30⟩], ?_, ?_⟩
    · have hf : ((List.finRange 1).any fun _ : Fin 1 =>
          decide (u32Max < 2 ^ 30 + 2 ^ 30)) = false := by
        rw [u32Max]; simp
      simp only [multiplyMulti, List.flatMap_cons, List.flatMap_nil, List.map_cons, List.map_nil,
        List.append_nil, multiplyPairs, hf, pushTerm, Bool.false_eq_true, if_false,
        List.length_nil, Nat.lt_one_iff, if_true, List.nil_append]
      rw [show (Fns.isFinite ((1 : ℝ) * 1)) = true from rfl]
      simp [collectLikeTerms, mergeTerm]
    · simp only [evaluateMulti, List.foldl_cons, List.foldl_nil, termValue, foldl_mul_finRange,
        raise_eq, zero_add, one_mul, Finset.univ_unique, Finset.prod_singleton]
      exact Odd.neg_one_pow (by rw [i32Max]; decide)

/-! ### Pushing -/

variable [Fns K]

theorem pushTerm_ok {m : ℕ} {l out : List (Term n K)} {t : Term n K}
    (h : pushTerm m l t = .ok out) : out = l ++ [t] ∧ out.length ≤ m := by
  unfold pushTerm at h
  split_ifs at h with h1 h2
  injection h with h
  subst h
  simp only [List.length_append, List.length_singleton, true_and]
  omega

theorem pushAll_ok {m : ℕ} {l out rest : List (Term n K)} (h : pushAll m l rest = .ok out)
    (hl : l.length ≤ m) : out = l ++ rest ∧ out.length ≤ m := by
  induction rest generalizing l with
  | nil => simp only [pushAll] at h; injection h with h; subst h; simpa using hl
  | cons t rest ih =>
    rw [pushAll] at h
    cases hp : pushTerm m l t with
    | error e => rw [hp] at h; cases h
    | ok l' =>
      rw [hp] at h
      obtain ⟨rfl, hlen⟩ := pushTerm_ok hp
      obtain ⟨h1, h2⟩ := ih h hlen
      exact ⟨by simpa using h1, h2⟩

theorem pushAll_real {m : ℕ} {l rest : List (Term n ℝ)} (h : (l ++ rest).length ≤ m) :
    pushAll m l rest = .ok (l ++ rest) := by
  induction rest generalizing l with
  | nil => simp [pushAll]
  | cons t rest ih =>
    have hp : pushTerm m l t = .ok (l ++ [t]) := by
      unfold pushTerm
      rw [show Fns.isFinite t.coefficient = true from rfl]
      simp only [List.length_append, List.length_cons] at h
      rw [if_neg (by simp), if_pos (by omega)]
    rw [pushAll, hp]
    dsimp only
    rw [ih (by simp only [List.length_append, List.length_cons, List.length_nil] at h ⊢; omega)]
    simp

/-! ### Collecting like terms -/

omit [Fns K] in
theorem toMv_mergeTerm (t : Term n K) (l : List (Term n K)) :
    toMv (mergeTerm t l) = toMv l + t.toMv := by
  induction l with
  | nil => simp [mergeTerm]
  | cons e l ih =>
    rw [mergeTerm]
    split_ifs with h
    · simp only [toMv_cons, Term.toMv, h, map_add]
      ring
    · simp only [toMv_cons, ih]; ring

omit [Field K] [Fns K] in
theorem mergeTerm_exponents [Add K] (t : Term n K) (l : List (Term n K)) :
    (mergeTerm t l).map Term.exponents =
      if t.exponents ∈ l.map Term.exponents then l.map Term.exponents
      else l.map Term.exponents ++ [t.exponents] := by
  induction l with
  | nil => simp [mergeTerm]
  | cons e l ih =>
    rw [mergeTerm]
    by_cases h : e.exponents = t.exponents
    · simp [h]
    · simp only [h, if_false, List.map_cons, ih, List.mem_cons, Ne.symm h, false_or]
      split_ifs <;> simp

/-- C73. Collecting like terms leaves the polynomial it stands for unchanged; afterwards no two terms
have the same exponents, none has coefficient zero, there are no more terms than before, and every
set of exponents left was there before. -/
theorem collect_like_terms_spec [BEq K] [LawfulBEq K] (terms : List (Term n K)) :
    toMv (collectLikeTerms terms) = toMv terms ∧
    ((collectLikeTerms terms).map Term.exponents).Nodup ∧
    (∀ t ∈ collectLikeTerms terms, t.coefficient ≠ 0) ∧
    (collectLikeTerms terms).length ≤ terms.length ∧
    (∀ t ∈ collectLikeTerms terms, t.exponents ∈ terms.map Term.exponents) := by
  have key : ∀ (l kept : List (Term n K)), (kept.map Term.exponents).Nodup →
      toMv (l.foldl (fun kept t => mergeTerm t kept) kept) = toMv kept + toMv l ∧
      ((l.foldl (fun kept t => mergeTerm t kept) kept).map Term.exponents).Nodup ∧
      (l.foldl (fun kept t => mergeTerm t kept) kept).length ≤ kept.length + l.length ∧
      ∀ e ∈ (l.foldl (fun kept t => mergeTerm t kept) kept).map Term.exponents,
        e ∈ kept.map Term.exponents ∨ e ∈ l.map Term.exponents := by
    intro l
    induction l with
    | nil => intro kept h; simp [h]
    | cons t l ih =>
      intro kept h
      have hn : ((mergeTerm t kept).map Term.exponents).Nodup := by
        rw [mergeTerm_exponents]
        split_ifs with hm
        · exact h
        · rw [List.nodup_append]
          refine ⟨h, by simp, ?_⟩
          intro a ha b hb
          simp only [List.mem_singleton] at hb
          subst hb
          rintro rfl
          exact hm ha
      have hlen : (mergeTerm t kept).length ≤ kept.length + 1 := by
        have := congrArg List.length (mergeTerm_exponents t kept)
        rw [List.length_map] at this
        rw [this]
        split_ifs <;> simp
      obtain ⟨h1, h2, h3, h4⟩ := ih _ hn
      rw [List.foldl_cons]
      refine ⟨?_, h2, ?_, ?_⟩
      · rw [h1, toMv_mergeTerm, toMv_cons]; ring
      · simp only [List.length_cons]; omega
      · intro e he
        rcases h4 e he with h5 | h5
        · rw [mergeTerm_exponents] at h5
          split_ifs at h5 with hm
          · exact Or.inl h5
          · rw [List.mem_append] at h5
            rcases h5 with h5 | h5
            · exact Or.inl h5
            · right; simp at h5; simp [h5]
        · right; simp only [List.map_cons, List.mem_cons]; exact Or.inr h5
  have hfilter : ∀ l : List (Term n K),
      toMv (l.filter fun t => !(t.coefficient == 0)) = toMv l := by
    intro l
    induction l with
    | nil => rfl
    | cons t l ih =>
      rw [List.filter_cons]
      split_ifs with h
      · simp [ih]
      · have h0 : t.coefficient = 0 := by simpa using h
        simp [ih, Term.toMv, h0]
  obtain ⟨h1, h2, h3, h4⟩ := key terms [] (by simp)
  unfold collectLikeTerms
  refine ⟨?_, ?_, ?_, ?_, ?_⟩
  · rw [hfilter, h1]; simp
  · exact h2.sublist (List.filter_sublist.map _)
  · intro t ht
    simpa using (List.mem_filter.1 ht).2
  · exact (List.length_filter_le _ _).trans (by simpa using h3)
  · intro t ht
    have := h4 t.exponents (List.mem_map_of_mem (List.mem_filter.1 ht).1)
    simpa using this

/-- `3x + 2y - 3x` collects to `2y`. -/
example : collectLikeTerms ([⟨3, ![1, 0]⟩, ⟨2, ![0, 1]⟩, ⟨-3, ![1, 0]⟩] : List (Term 2 ℚ)) =
    [⟨2, ![0, 1]⟩] := by
  simp [collectLikeTerms, mergeTerm]

omit [Fns K] in
/-- The coefficient of a collected list is the coefficient of the polynomial. -/
theorem coeff_toMv_nodup {terms : List (Term n K)} (h : (terms.map Term.exponents).Nodup)
    {t : Term n K} (ht : t ∈ terms) :
    coeff (Finsupp.equivFunOnFinite.symm t.exponents) (toMv terms) = t.coefficient := by
  induction terms with
  | nil => simp at ht
  | cons e l ih =>
    simp only [List.map_cons, List.nodup_cons] at h
    have hz : ∀ (l : List (Term n K)) (x : Fin n → ℕ), x ∉ l.map Term.exponents →
        coeff (Finsupp.equivFunOnFinite.symm x) (toMv l) = 0 := by
      intro l x hx
      induction l with
      | nil => simp
      | cons s l ih =>
        simp only [List.map_cons, List.mem_cons, not_or] at hx
        rw [toMv_cons, coeff_add, ih hx.2, Term.toMv, coeff_monomial, if_neg, add_zero]
        intro h
        exact hx.1 (Finsupp.equivFunOnFinite.symm.injective h).symm
    rw [toMv_cons, coeff_add, Term.toMv, coeff_monomial]
    rcases List.mem_cons.1 ht with rfl | ht
    · rw [if_pos rfl, hz l _ h.1, add_zero]
    · rw [if_neg, zero_add, ih h.2 ht]
      intro heq
      apply h.1
      rw [Finsupp.equivFunOnFinite.symm.injective heq]
      exact List.mem_map_of_mem ht

/-! ### The operations -/

/-- C73. Whenever it answers, `add_into` gives the sum of the two polynomials; over the reals it
answers whenever there is room for all the terms of both, before any of them combine. -/
theorem multivariate_add [BEq K] [LawfulBEq K] (m : ℕ) (p q out : List (Term n K))
    (h : addMulti m p q = .ok out) :
    toMv out = toMv p + toMv q ∧ out.length ≤ m ∧ (out.map Term.exponents).Nodup := by
  unfold addMulti at h
  cases hp : pushAll m [] (p ++ q) with
  | error e => rw [hp] at h; cases h
  | ok l =>
    rw [hp] at h
    injection h with h
    subst h
    obtain ⟨h1, h2⟩ := pushAll_ok hp (by simp)
    obtain ⟨c1, c2, -, c4, -⟩ := collect_like_terms_spec l
    refine ⟨by rw [c1, h1]; simp, c4.trans h2, c2⟩

/-- C73. Over the reals, `add_into` answers whenever the output has room for the terms of both. -/
theorem multivariate_add_room (m : ℕ) (p q : List (Term n ℝ)) :
    (∃ out, addMulti m p q = .ok out) ↔ p.length + q.length ≤ m := by
  constructor
  · rintro ⟨out, h⟩
    unfold addMulti at h
    cases hp : pushAll m [] (p ++ q) with
    | error e => rw [hp] at h; cases h
    | ok l =>
      obtain ⟨h1, h2⟩ := pushAll_ok hp (by simp)
      rw [h1] at h2
      simpa using h2
  · intro h
    unfold addMulti
    rw [pushAll_real (by simpa using h)]
    exact ⟨_, rfl⟩

example : ∃ out, addMulti 2 [(⟨1, ![1, 0]⟩ : Term 2 ℝ)] [⟨2, ![0, 1]⟩] = .ok out :=
  (multivariate_add_room _ _ _).2 (by simp)

omit [Fns K] in
theorem toMv_mul_term (l r : Term n K) :
    (⟨l.coefficient * r.coefficient, fun i => l.exponents i + r.exponents i⟩ : Term n K).toMv =
      l.toMv * r.toMv := by
  simp only [Term.toMv, monomial_mul]
  have : (Finsupp.equivFunOnFinite.symm fun i => l.exponents i + r.exponents i) =
      Finsupp.equivFunOnFinite.symm l.exponents + Finsupp.equivFunOnFinite.symm r.exponents := by
    ext i
    simp
  rw [this]

theorem multiplyPairs_ok {m : ℕ} {result out : List (Term n K)}
    {pairs : List (Term n K × Term n K)} (h : multiplyPairs m result pairs = .ok out)
    (hl : result.length ≤ m) :
    toMv out = toMv result + (pairs.map fun p => p.1.toMv * p.2.toMv).sum ∧ out.length ≤ m ∧
    ((∀ t ∈ result, ∀ i, t.exponents i ≤ u32Max) → ∀ t ∈ out, ∀ i, t.exponents i ≤ u32Max) := by
  induction pairs generalizing result with
  | nil =>
    simp only [multiplyPairs] at h; injection h with h; subst h
    simpa using hl
  | cons pr pairs ih =>
    obtain ⟨l, r⟩ := pr
    rw [multiplyPairs] at h
    split_ifs at h with hov
    cases hp : pushTerm m result
        ⟨l.coefficient * r.coefficient, fun i => l.exponents i + r.exponents i⟩ with
    | error e => rw [hp] at h; cases h
    | ok l' =>
      rw [hp] at h
      obtain ⟨rfl, hlen⟩ := pushTerm_ok hp
      obtain ⟨h1, h2, h3⟩ := ih h hlen
      refine ⟨?_, h2, ?_⟩
      · rw [h1, toMv_append]
        simp only [toMv_cons, toMv_nil, toMv_mul_term, List.map_cons, List.sum_cons]
        ring
      · intro hr
        apply h3
        intro t ht
        rw [List.mem_append, List.mem_singleton] at ht
        rcases ht with ht | rfl
        · exact hr t ht
        · intro i
          simp only [List.any_eq_true, List.mem_finRange, true_and, decide_eq_true_eq, not_exists,
            not_lt] at hov
          exact hov i

omit [Fns K] in
theorem sum_pairs (p q : List (Term n K)) :
    ((p.flatMap fun l => q.map fun r => (l, r)).map fun x => x.1.toMv * x.2.toMv).sum =
      toMv p * toMv q := by
  induction p with
  | nil => simp
  | cons l p ih =>
    simp only [List.flatMap_cons, List.map_append, List.sum_append, ih, toMv_cons, add_mul]
    congr 1
    rw [toMv, ← List.sum_map_mul_left]
    simp [Function.comp_def]

/-- C73. Whenever it answers, `multiply_into` gives the product of the two polynomials, with like
terms collected and every exponent within a `u32`. -/
theorem multivariate_multiply [BEq K] [LawfulBEq K] (m : ℕ) (p q out : List (Term n K))
    (h : multiplyMulti m p q = .ok out) :
    toMv out = toMv p * toMv q ∧ out.length ≤ m ∧ (out.map Term.exponents).Nodup ∧
    ∀ t ∈ out, ∀ i, t.exponents i ≤ u32Max := by
  unfold multiplyMulti at h
  cases hp : multiplyPairs m [] (p.flatMap fun l => q.map fun r => (l, r)) with
  | error e => rw [hp] at h; cases h
  | ok l =>
    rw [hp] at h
    injection h with h
    subst h
    obtain ⟨h1, h2, h3⟩ := multiplyPairs_ok hp (by simp)
    obtain ⟨c1, c2, -, c4, c5⟩ := collect_like_terms_spec l
    refine ⟨by rw [c1, h1, sum_pairs]; simp, c4.trans h2, c2, ?_⟩
    intro t ht i
    obtain ⟨s, hs, hse⟩ := List.mem_map.1 (c5 t ht)
    rw [← hse]
    exact h3 (by simp) s hs i

/-- C73. Over the reals, `multiply_into` answers exactly when the output has room for one term per
pair and no exponent of any pair overflows a `u32`. -/
theorem multivariate_multiply_room (m : ℕ) (p q : List (Term n ℝ)) :
    (∃ out, multiplyMulti m p q = .ok out) ↔
      p.length * q.length ≤ m ∧
      ∀ l ∈ p, ∀ r ∈ q, ∀ i, l.exponents i + r.exponents i ≤ u32Max := by
  have key : ∀ (pairs : List (Term n ℝ × Term n ℝ)) (result : List (Term n ℝ)),
      result.length ≤ m →
      ((∃ out, multiplyPairs m result pairs = .ok out) ↔
        result.length + pairs.length ≤ m ∧
        ∀ pr ∈ pairs, ∀ i, pr.1.exponents i + pr.2.exponents i ≤ u32Max) := by
    intro pairs
    induction pairs with
    | nil => intro result h; simp [multiplyPairs, h]
    | cons pr pairs ih =>
      intro result h
      obtain ⟨l, r⟩ := pr
      rw [multiplyPairs]
      by_cases hov : ((List.finRange n).any fun i =>
          decide (u32Max < l.exponents i + r.exponents i)) = true
      · rw [if_pos hov]
        constructor
        · rintro ⟨out, ho⟩; cases ho
        · rintro ⟨-, hb⟩
          simp only [List.any_eq_true, List.mem_finRange, true_and, decide_eq_true_eq] at hov
          obtain ⟨i, hi⟩ := hov
          exact absurd (hb (l, r) (by simp) i) (not_le.2 hi)
      · rw [if_neg hov]
        simp only [List.any_eq_true, List.mem_finRange, true_and, decide_eq_true_eq, not_exists,
          not_lt] at hov
        unfold pushTerm
        rw [show Fns.isFinite (l.coefficient * r.coefficient) = true from rfl]
        simp only [Bool.not_true, Bool.false_eq_true, if_false]
        by_cases hr : result.length < m
        · rw [if_pos hr]
          dsimp only
          rw [ih _ (by simpa using hr)]
          simp only [List.length_append, List.length_cons, List.length_nil, zero_add,
            List.mem_cons, forall_eq_or_imp]
          constructor
          · rintro ⟨a, b⟩; exact ⟨by omega, hov, b⟩
          · rintro ⟨a, -, b⟩; exact ⟨by omega, b⟩
        · rw [if_neg hr]
          constructor
          · rintro ⟨out, ho⟩; cases ho
          · rintro ⟨a, -⟩; simp only [List.length_cons] at a; omega
  have hmul : (∃ out, multiplyMulti m p q = .ok out) ↔
      ∃ out, multiplyPairs m [] (p.flatMap fun l => q.map fun r => (l, r)) = .ok out := by
    unfold multiplyMulti
    cases multiplyPairs m [] (p.flatMap fun l => q.map fun r => (l, r)) <;> simp
  rw [hmul, key _ _ (by simp)]
  simp only [List.length_nil, zero_add, List.length_flatMap, List.length_map, List.map_const',
    List.sum_replicate, smul_eq_mul, List.mem_flatMap, List.mem_map, forall_exists_index, and_imp]
  refine and_congr Iff.rfl ⟨fun h l hl r hr i => ?_, ?_⟩
  · exact h (l, r) l hl r hr rfl i
  · rintro h pr l hl r hr rfl i
    exact h l hl r hr i

example : ∃ out, multiplyMulti 2 [(⟨1, ![1, 0]⟩ : Term 2 ℝ)] [⟨2, ![0, 1]⟩, ⟨3, ![4, 0]⟩] =
    .ok out := by
  rw [multivariate_multiply_room]
  refine ⟨by simp, ?_⟩
  intro l hl r hr i
  simp only [List.mem_cons, List.not_mem_nil, or_false] at hl hr
  subst hl
  rcases hr with rfl | rfl <;> fin_cases i <;> simp [u32Max]

/-- C73. Whenever it answers, `partial_derivative` gives the partial derivative; over a list that
fits it always answers over the reals; a variable that does not exist is refused. -/
theorem multivariate_partial_derivative (m : ℕ) (p : List (Term n K)) (which : ℕ) :
    (∀ out, partialDerivative m p which = .ok out →
      ∃ h : which < n, toMv out = pderiv ⟨which, h⟩ (toMv p)) ∧
    (n ≤ which → partialDerivative m p which = .error .variableOutOfRange) := by
  constructor
  · intro out h
    unfold partialDerivative at h
    split_ifs at h with hw
    refine ⟨hw, ?_⟩
    obtain ⟨rfl, -⟩ := pushAll_ok h (by simp)
    simp only [List.nil_append]
    clear h
    induction p with
    | nil => simp
    | cons t p ih =>
      rw [List.filterMap_cons]
      have ht : pderiv ⟨which, hw⟩ t.toMv =
          (match termDerivative ⟨which, hw⟩ t with | none => 0 | some s => s.toMv) := by
        rw [Term.toMv, pderiv_monomial, termDerivative]
        simp only [Finsupp.equivFunOnFinite_symm_apply_apply]
        split_ifs with h0
        · simp [h0]
        · simp only [Term.toMv]
          rw [show Finsupp.equivFunOnFinite.symm t.exponents - Finsupp.single ⟨which, hw⟩ 1 =
              Finsupp.equivFunOnFinite.symm (Function.update t.exponents ⟨which, hw⟩
                (t.exponents ⟨which, hw⟩ - 1)) from ?_]
          ext j
          simp only [Finsupp.coe_tsub, Pi.sub_apply, Finsupp.equivFunOnFinite_symm_apply_apply]
          by_cases hj : j = ⟨which, hw⟩
          · subst hj; simp
          · rw [Function.update_of_ne hj, Finsupp.single_eq_of_ne (by tauto)]; simp
      cases htd : termDerivative ⟨which, hw⟩ t with
      | none => rw [htd] at ht; simp [ih, ht]
      | some s => rw [htd] at ht; simp [ih, ht]
  · intro hn
    rw [partialDerivative, dif_neg (by omega)]

/-- C73. Over the reals, `partial_derivative` of a polynomial within its capacity answers. -/
theorem multivariate_partial_derivative_room (m : ℕ) (p : List (Term n ℝ)) (which : ℕ)
    (hp : p.length ≤ m) (hw : which < n) : ∃ out, partialDerivative m p which = .ok out := by
  rw [partialDerivative, dif_pos hw, pushAll_real]
  · exact ⟨_, rfl⟩
  · simpa using (List.length_filterMap_le _ _).trans hp

example : ∃ out, partialDerivative 2 [(⟨5, ![2, 1]⟩ : Term 2 ℝ)] 0 = .ok out :=
  multivariate_partial_derivative_room _ _ _ (by simp) (by norm_num)

/-- C73. The partial antiderivative differentiates back to the polynomial it came from. -/
theorem multivariate_antiderivative [CharZero K] (m : ℕ) (p out : List (Term n K)) (which : ℕ)
    (h : partialAntiderivative m p which = .ok out) :
    ∃ hw : which < n, pderiv ⟨which, hw⟩ (toMv out) = toMv p ∧ out.length = p.length ∧
      ∀ t ∈ out, t.exponents ⟨which, hw⟩ ≠ 0 := by
  unfold partialAntiderivative at h
  split_ifs at h with hw
  refine ⟨hw, ?_⟩
  have key : ∀ (l result out : List (Term n K)), result.length ≤ m →
      antiderivativeLoop m ⟨which, hw⟩ result l = .ok out →
      pderiv ⟨which, hw⟩ (toMv out) = pderiv ⟨which, hw⟩ (toMv result) + toMv l ∧
      out.length = result.length + l.length ∧
      ((∀ t ∈ result, t.exponents ⟨which, hw⟩ ≠ 0) → ∀ t ∈ out, t.exponents ⟨which, hw⟩ ≠ 0) := by
    intro l
    induction l with
    | nil =>
      intro result out hr h
      simp only [antiderivativeLoop] at h; injection h with h; subst h; simp
    | cons t l ih =>
      intro result out hr h
      rw [antiderivativeLoop] at h
      split_ifs at h with hov
      cases hp : pushTerm m result ⟨t.coefficient / ((t.exponents ⟨which, hw⟩ + 1 : ℕ) : K),
          Function.update t.exponents ⟨which, hw⟩ (t.exponents ⟨which, hw⟩ + 1)⟩ with
      | error e => rw [hp] at h; cases h
      | ok l' =>
        rw [hp] at h
        obtain ⟨rfl, hlen⟩ := pushTerm_ok hp
        obtain ⟨h1, h2, h3⟩ := ih _ _ hlen h
        refine ⟨?_, ?_, ?_⟩
        · rw [h1, toMv_append, map_add, toMv_cons, toMv_nil, add_zero, toMv_cons, add_assoc]
          congr 2
          rw [Term.toMv, pderiv_monomial, Term.toMv]
          simp only [Finsupp.equivFunOnFinite_symm_apply_apply, Function.update_self]
          rw [div_mul_cancel₀ _ (Nat.cast_ne_zero.2 (Nat.succ_ne_zero (t.exponents ⟨which, hw⟩)))]
          rw [show Finsupp.equivFunOnFinite.symm (Function.update t.exponents ⟨which, hw⟩
                (t.exponents ⟨which, hw⟩ + 1)) - Finsupp.single ⟨which, hw⟩ 1 =
              Finsupp.equivFunOnFinite.symm t.exponents from ?_]
          ext j
          simp only [Finsupp.coe_tsub, Pi.sub_apply, Finsupp.equivFunOnFinite_symm_apply_apply]
          by_cases hj : j = ⟨which, hw⟩
          · subst hj; simp
          · rw [Function.update_of_ne hj, Finsupp.single_eq_of_ne (by tauto)]; simp
        · rw [h2]; simp; omega
        · intro hr0
          apply h3
          intro s hs
          rw [List.mem_append, List.mem_singleton] at hs
          rcases hs with hs | rfl
          · exact hr0 s hs
          · simp
  obtain ⟨h1, h2, h3⟩ := key p [] out (by simp) h
  exact ⟨by simpa using h1, by simpa using h2, h3 (by simp)⟩

/-- The antiderivative of `4 x y²` in `x` is `2 x² y²`. -/
example : partialAntiderivative 2 ([⟨4, ![1, 2]⟩] : List (Term 2 ℝ)) 0 =
    .ok [⟨4 / (2 : ℕ), Function.update ![1, 2] 0 2⟩] := by
  have h : ∀ x : ℝ, Fns.isFinite x = true := fun _ => rfl
  simp [partialAntiderivative, antiderivativeLoop, u32Max, pushTerm, h]

/-- C73. Substituting a number for a variable gives the polynomial whose value at every point is the
original's at that point with the variable fixed (as long as no exponent of that variable is above
`i32::MAX`), and which no longer mentions the variable. -/
theorem multivariate_substitute_partial [BEq K] [LawfulBEq K] (m : ℕ) (p out : List (Term n K))
    (which : ℕ) (value : K) (h : substitute m p which value = .ok out) (hr : Representable p) :
    ∃ hw : which < n,
      (∀ x : Fin n → K, eval x (toMv out) =
        eval (Function.update x ⟨which, hw⟩ value) (toMv p)) ∧
      (∀ t ∈ out, t.exponents ⟨which, hw⟩ = 0) ∧ (out.map Term.exponents).Nodup := by
  unfold substitute at h
  split_ifs at h with hw
  refine ⟨hw, ?_⟩
  cases hp : pushAll m [] (p.map fun term =>
        (⟨term.coefficient * raise value (term.exponents ⟨which, hw⟩),
          Function.update term.exponents ⟨which, hw⟩ 0⟩ : Term n K)) with
  | error e => rw [hp] at h; cases h
  | ok l =>
    rw [hp] at h
    injection h with h
    subst h
    obtain ⟨rfl, -⟩ := pushAll_ok hp (by simp)
    simp only [List.nil_append]
    obtain ⟨c1, c2, -, -, c5⟩ := collect_like_terms_spec (p.map fun term =>
        (⟨term.coefficient * raise value (term.exponents ⟨which, hw⟩),
          Function.update term.exponents ⟨which, hw⟩ 0⟩ : Term n K))
    refine ⟨?_, ?_, c2⟩
    · intro x
      rw [c1, eval_toMv, eval_toMv, List.map_map]
      congr 1
      refine List.map_congr_left fun t ht => ?_
      simp only [Function.comp_apply, eval_term]
      rw [raise_eq, min_eq_left (hr t ht _), mul_assoc]
      congr 1
      rw [← Finset.mul_prod_erase Finset.univ _ (Finset.mem_univ (⟨which, hw⟩ : Fin n)),
        ← Finset.mul_prod_erase Finset.univ (fun i =>
          Function.update x ⟨which, hw⟩ value i ^ t.exponents i)
          (Finset.mem_univ (⟨which, hw⟩ : Fin n))]
      simp only [Function.update_self, pow_zero, one_mul]
      congr 1
      refine Finset.prod_congr rfl fun j hj => ?_
      rw [Function.update_of_ne (Finset.ne_of_mem_erase hj),
        Function.update_of_ne (Finset.ne_of_mem_erase hj)]
    · intro t ht
      obtain ⟨s, hs, hse⟩ := List.mem_map.1 (c5 t ht)
      obtain ⟨r, -, rfl⟩ := List.mem_map.1 hs
      rw [← hse]
      simp

/-- C73. Over the reals, `substitute` in a polynomial within its capacity answers. -/
theorem multivariate_substitute_room (m : ℕ) (p : List (Term n ℝ)) (which : ℕ) (value : ℝ)
    (hp : p.length ≤ m) (hw : which < n) : ∃ out, substitute m p which value = .ok out := by
  rw [substitute, dif_pos hw, pushAll_real (by simpa using hp)]
  exact ⟨_, rfl⟩

example : ∃ out, substitute 2 [(⟨5, ![2, 1]⟩ : Term 2 ℝ)] 0 3 = .ok out :=
  multivariate_substitute_room _ _ _ _ (by simp) (by norm_num)

/-! ### Degrees and single-variable conversion -/

omit [Field K] [Fns K] in
/-- C73. `total_degree` is the largest total of the exponents of a term, when no total overflows a
`u32`; `degree_in` is the largest exponent of a variable.  Neither has an answer for the polynomial
without terms. -/
theorem multivariate_degrees (terms : List (Term n K)) :
    ((∀ t ∈ terms, ∑ i, t.exponents i ≤ u32Max) →
      totalDegree terms = (terms.map fun t => ∑ i, t.exponents i).max?) ∧
    ∀ (which : ℕ) (hw : which < n),
      degreeIn terms which = (terms.map fun t => t.exponents ⟨which, hw⟩).max? := by
  constructor
  · intro h
    have hrow : ∀ t ∈ terms, (List.finRange n).foldl
        (fun running i => min (running + t.exponents i) u32Max) 0 = ∑ i, t.exponents i := by
      intro t ht
      have hs := h t ht
      rw [← List.sum_ofFn, List.ofFn_eq_map] at hs ⊢
      have : ∀ (l : List (Fin n)) (a : ℕ), a + (l.map t.exponents).sum ≤ u32Max →
          l.foldl (fun running i => min (running + t.exponents i) u32Max) a =
            a + (l.map t.exponents).sum := by
        intro l
        induction l with
        | nil => intro a _; simp
        | cons i l ih =>
          intro a ha
          simp only [List.map_cons, List.sum_cons] at ha ⊢
          rw [List.foldl_cons, min_eq_left (by omega), ih _ (by omega)]
          omega
      simpa using this (List.finRange n) 0 (by simpa using hs)
    cases terms with
    | nil => rfl
    | cons t l =>
      rw [totalDegree, List.foldl_cons, List.map_cons, List.max?_cons']
      dsimp only
      rw [hrow t (by simp)]
      have hl : ∀ s ∈ l, s ∈ t :: l := fun s hs => by simp [hs]
      generalize (∑ i, t.exponents i) = a
      revert hl
      generalize t :: l = full at hrow
      clear h
      induction l generalizing a with
      | nil => intro _; rfl
      | cons s l ih =>
        intro hl
        simp only [List.foldl_cons, List.map_cons]
        rw [hrow s (hl s (by simp))]
        exact ih _ (fun r hr => hl r (by simp [hr]))
  · intro which hw
    rw [degreeIn, dif_pos hw]
    cases terms with
    | nil => rfl
    | cons t l =>
      simp only [List.isEmpty_cons, Bool.false_eq_true, if_false, List.foldl_cons, List.map_cons,
        List.max?_cons', List.foldl_map, Nat.zero_max]

example : degreeIn ([⟨3, ![2, 1]⟩, ⟨-2, ![0, 4]⟩] : List (Term 2 ℚ)) 1 = some 4 := by
  rw [(multivariate_degrees _).2 1 (by norm_num)]
  rfl

omit [Fns K] in
/-- C73. Converting a polynomial in one variable gives the ordinary polynomial with the same value
everywhere. -/
theorem multivariate_to_univariate (count : ℕ) (terms : List (Term 1 K)) (out : List K)
    (h : toUnivariate count terms = .ok out) (x : K) :
    evaluate out x = eval (fun _ => x) (toMv terms) ∧ out.length = count := by
  have key : ∀ (l : List (Term 1 K)) (c out : List K), toUnivariateLoop c l = .ok out →
      (ofCoeffs out).eval x = (ofCoeffs c).eval x + eval (fun _ => x) (toMv l) ∧
      out.length = c.length := by
    intro l
    induction l with
    | nil => intro c out h; simp only [toUnivariateLoop] at h; injection h with h; subst h; simp
    | cons t l ih =>
      intro c out h
      rw [toUnivariateLoop] at h
      cases hs : c[t.exponents 0]? with
      | none => rw [hs] at h; cases h
      | some slot =>
        rw [hs] at h
        obtain ⟨h1, h2⟩ := ih _ _ h
        rw [h1, h2, ofCoeffs_set_add c _ _ _ hs, toMv_cons, map_add, eval_term]
        simp [add_assoc]
  obtain ⟨h1, h2⟩ := key terms _ out h
  rw [evaluate_eq_eval, h1, h2, ofCoeffs_zeros]
  simp [zeros]

/-- C73. Converting an ordinary polynomial to a list of terms keeps its value everywhere. -/
theorem multivariate_from_univariate [BEq K] [LawfulBEq K] (m : ℕ) (p : List K)
    (out : List (Term 1 K)) (h : fromUnivariate m p = .ok out) (x : K) :
    eval (fun _ => x) (toMv out) = evaluate p x := by
  have key : ∀ (l : List K) (power : ℕ) (result out : List (Term 1 K)), result.length ≤ m →
      fromUnivariateLoop m power result l = .ok out →
      eval (fun _ => x) (toMv out) =
        eval (fun _ => x) (toMv result) + x ^ power * (ofCoeffs l).eval x := by
    intro l
    induction l with
    | nil =>
      intro power result out _ h
      simp only [fromUnivariateLoop] at h; injection h with h; subst h; simp
    | cons c l ih =>
      intro power result out hr h
      rw [fromUnivariateLoop] at h
      split_ifs at h with h0 hov
      · have h0 : c = 0 := by simpa using h0
        rw [ih _ _ _ hr h, h0]
        simp [pow_succ]; ring
      · cases hp : pushTerm m result (⟨c, fun _ => power⟩ : Term 1 K) with
        | error e => rw [hp] at h; cases h
        | ok l' =>
          rw [hp] at h
          obtain ⟨rfl, hlen⟩ := pushTerm_ok hp
          rw [ih _ _ _ hlen h, toMv_append, map_add, toMv_cons, map_add, eval_term]
          simp [pow_succ]; ring
  rw [key p 0 [] out (by simp) h, evaluate_eq_eval]
  simp

example : toUnivariate 3 ([⟨3, ![2]⟩, ⟨1, ![0]⟩, ⟨2, ![2]⟩] : List (Term 1 ℚ)) = .ok [1, 0, 5] := by
  simp [toUnivariate, toUnivariateLoop, zeros]
  norm_num

end Poly
end Multicalc
