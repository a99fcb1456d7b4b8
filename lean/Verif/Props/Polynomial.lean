import Verif.Lemmas.Polynomial
import Mathlib.Analysis.SpecialFunctions.Integrals.Basic

/-!
# Polynomial arithmetic (C68)

Meaning is given by Mathlib's polynomials: `ofCoeffs p` has the list `p` as its coefficients
(`polynomial_meaning`).
-/

namespace Multicalc
namespace Poly

open Polynomial

/-- C68. `evaluate` is the sum of `c_k x^k`, and it is the value of the Mathlib polynomial with these
coefficients. -/
theorem polynomial_meaning {R : Type} [CommSemiring R] (p : List R) (x : R) :
    (∀ k, (ofCoeffs p).coeff k = p.getD k 0) ∧
    evaluate p x = ∑ k ∈ Finset.range p.length, p.getD k 0 * x ^ k ∧
    evaluate p x = (ofCoeffs p).eval x := by
  refine ⟨coeff_ofCoeffs p, ?_, evaluate_eq_eval p x⟩
  rw [evaluate_eq_eval]
  by_cases hp : p.length = 0
  · rw [List.length_eq_zero_iff] at hp; subst hp; simp
  · have hd : (ofCoeffs p).natDegree < p.length := by
      rcases eq_or_ne (ofCoeffs p) 0 with h | h
      · rw [h]; simp; omega
      · exact (natDegree_lt_iff_degree_lt h).mpr (degree_ofCoeffs_lt p)
    rw [eval_eq_sum_range' hd]
    simp only [coeff_ofCoeffs]

example : evaluate ([1, 2, 3] : List ℤ) 10 = 321 := by
  rw [(polynomial_meaning _ _).2.1]; simp [Finset.sum_range_succ]

/-- C68. `degree` is the degree and `leading_coefficient` the leading coefficient; both are absent
exactly for the zero polynomial, which is what `is_zero` tests. -/
theorem polynomial_degree {K : Type} [Field K] [BEq K] [LawfulBEq K] (p : List K) :
    (ofCoeffs p ≠ 0 → degree p = some (ofCoeffs p).natDegree ∧
      leadingCoefficient p = some (ofCoeffs p).leadingCoeff) ∧
    (ofCoeffs p = 0 → degree p = none ∧ leadingCoefficient p = none) ∧
    (isZero p = true ↔ ofCoeffs p = 0) := by
  refine ⟨fun h => ?_, fun h => ?_, ?_⟩
  · rcases degree_eq p with ⟨-, h2⟩ | ⟨-, h2⟩
    · exact absurd h2 h
    · refine ⟨h2, ?_⟩
      have hlt : (ofCoeffs p).natDegree < p.length :=
        (natDegree_lt_iff_degree_lt h).mpr (degree_ofCoeffs_lt p)
      rw [leadingCoefficient, h2, leadingCoeff, coeff_ofCoeffs]
      simp [List.getD_eq_getElem?_getD, hlt]
  · rcases degree_eq p with ⟨h1, -⟩ | ⟨h1, -⟩
    · exact ⟨h1, by simp [leadingCoefficient, h1]⟩
    · exact absurd h h1
  · simp only [isZero, List.all_eq_true, beq_iff_eq]
    constructor
    · intro h
      ext k
      rw [coeff_ofCoeffs, coeff_zero]
      by_cases hk : k < p.length
      · simpa [List.getD_eq_getElem?_getD, hk] using h p[k] (List.getElem_mem hk)
      · exact getD_of_le p k (not_lt.mp hk)
    · intro h c hc
      obtain ⟨k, hk, rfl⟩ := List.getElem_of_mem hc
      have := coeff_ofCoeffs p k
      rw [h] at this
      simpa [List.getD_eq_getElem?_getD, hk, eq_comm] using this

example : degree ([1, 2, 0] : List ℚ) = some 1 := by
  have h : ofCoeffs ([1, 2, 0] : List ℚ) = C 2 * X + C 1 := by simp; ring
  rw [((polynomial_degree _).1 _).1, h, natDegree_linear (by norm_num)]
  rw [h]
  intro h0
  have := congrArg (fun q => q.coeff 0) h0
  simp at this

/-- C68. Sum, difference, negation, scaling and division by a number are the operations on
polynomials, and keep the capacity. -/
theorem polynomial_linear {K : Type} [Field K] (p q : List K) (hpq : p.length = q.length) (c : K) :
    (ofCoeffs (add p q) = ofCoeffs p + ofCoeffs q ∧ (add p q).length = p.length) ∧
    (ofCoeffs (sub p q) = ofCoeffs p - ofCoeffs q ∧ (sub p q).length = p.length) ∧
    (ofCoeffs (neg p) = -ofCoeffs p ∧ (neg p).length = p.length) ∧
    (ofCoeffs (scale p c) = C c * ofCoeffs p ∧ (scale p c).length = p.length) ∧
    (ofCoeffs (divScalar p c) = C c⁻¹ * ofCoeffs p ∧ (divScalar p c).length = p.length) := by
  have hg : ∀ (f : K → K → K), f 0 0 = 0 → ∀ k,
      (List.zipWith f p q).getD k 0 = f (p.getD k 0) (q.getD k 0) := by
    intro f h0 k
    by_cases hk : k < p.length
    · have hk2 : k < q.length := hpq ▸ hk
      simp [List.getD_eq_getElem?_getD, hk, hk2]
    · have hk2 : ¬ k < q.length := hpq ▸ hk
      simp [List.getD_eq_getElem?_getD, hk, hk2, h0]
  have hm : ∀ (f : K → K), f 0 = 0 → ∀ k, (p.map f).getD k 0 = f (p.getD k 0) := by
    intro f h0 k
    by_cases hk : k < p.length
    · simp [List.getD_eq_getElem?_getD, hk]
    · simp [List.getD_eq_getElem?_getD, hk, h0]
  refine ⟨⟨?_, by simp [add, hpq]⟩, ⟨?_, by simp [sub, hpq]⟩, ⟨?_, by simp [neg]⟩,
    ⟨?_, by simp [scale]⟩, ⟨?_, by simp [divScalar]⟩⟩
  · ext k; simp only [coeff_ofCoeffs, coeff_add, add]; exact hg _ (by simp) k
  · ext k; simp only [coeff_ofCoeffs, coeff_sub, sub]; exact hg _ (by simp) k
  · ext k; simp only [coeff_ofCoeffs, coeff_neg, neg]; exact hm _ (by simp) k
  · ext k; simp only [coeff_ofCoeffs, coeff_C_mul, scale]; rw [hm _ (by simp) k, mul_comm]
  · ext k; simp only [coeff_ofCoeffs, coeff_C_mul, divScalar]
    rw [hm _ (by simp) k, div_eq_mul_inv, mul_comm]

example : (add [1, 2] [3, 4] : List ℚ).length = 2 :=
  ((polynomial_linear ([1, 2] : List ℚ) [3, 4] rfl 0).1).2

/-- C68. `multiply_into` writes the product whenever it fits the capacity named by the caller, and
reports `DegreeOverflow` exactly when it does not; nothing is ever cut off. -/
theorem polynomial_multiply {R : Type} [CommRing R] [NoZeroDivisors R] [BEq R] [LawfulBEq R]
    (n : ℕ) (p q : List R) :
    ((ofCoeffs p * ofCoeffs q).degree < n ∧
      ∃ out, multiplyInto n p q = .ok out ∧ out.length = n ∧
        ofCoeffs out = ofCoeffs p * ofCoeffs q) ∨
    ((n : WithBot ℕ) ≤ (ofCoeffs p * ofCoeffs q).degree ∧
      multiplyInto n p q = .error .degreeOverflow) := by
  rcases multiplyInto_cases n p q with ⟨h1, out, h2⟩ | h
  · exact .inl ⟨h1, out, h2, multiplyInto_ok h2⟩
  · exact .inr h

example : ∃ out, multiplyInto 3 [1, 1] [2, -1] = .ok out ∧
    ofCoeffs out = (ofCoeffs [1, 1] * ofCoeffs [2, -1] : ℤ[X]) := by
  rcases polynomial_multiply (R := ℤ) 3 [1, 1] [2, -1] with ⟨-, out, h1, -, h2⟩ | ⟨h, -⟩
  · exact ⟨out, h1, h2⟩
  · exfalso
    rw [Polynomial.degree_mul] at h
    have h1 := degree_ofCoeffs_lt ([1, 1] : List ℤ)
    have h2 := degree_ofCoeffs_lt ([2, -1] : List ℤ)
    have e1 : (ofCoeffs ([1, 1] : List ℤ)).degree ≤ 1 := Order.lt_succ_iff.mp h1
    have e2 : (ofCoeffs ([2, -1] : List ℤ)).degree ≤ 1 := Order.lt_succ_iff.mp h2
    have := h.trans (add_le_add e1 e2)
    exact absurd this (by decide)

/-- The Horner steps of a composition stay within the degree of the whole. -/
theorem composeLoop_complete {R : Type} [CommRing R] [IsDomain R] [BEq R] [LawfulBEq R]
    (n : ℕ) (hn : 0 < n) (inner : List R) :
    ∀ (cs done acc : List R), acc.length = n →
      ofCoeffs acc = (ofCoeffs done).comp (ofCoeffs inner) →
      ((ofCoeffs (cs.reverse ++ done)).comp (ofCoeffs inner)).degree < n →
      ∃ out, composeLoop n inner cs acc = .ok out := by
  intro cs
  induction cs with
  | nil => intro done acc _ _ _; exact ⟨acc, by simp [composeLoop]⟩
  | cons c cs ih =>
    intro done acc hl hacc hdeg
    have hlist : (c :: cs).reverse ++ done = cs.reverse ++ (c :: done) := by simp
    rw [hlist] at hdeg
    have hprod : (ofCoeffs acc * ofCoeffs inner).degree < n := by
      rcases eq_or_ne (ofCoeffs acc * ofCoeffs inner) 0 with h0 | h0
      · rw [h0, degree_zero]; exact WithBot.bot_lt_coe n
      · rw [← natDegree_lt_iff_degree_lt h0]
        have hacc0 : ofCoeffs acc ≠ 0 := left_ne_zero_of_mul h0
        have hin0 : ofCoeffs inner ≠ 0 := right_ne_zero_of_mul h0
        rw [natDegree_mul hacc0 hin0, hacc, natDegree_comp]
        have hdone : ofCoeffs done ≠ 0 := by
          intro h; rw [hacc, h] at hacc0; simp at hacc0
        set W := ofCoeffs (cs.reverse ++ c :: done) with hW
        have hWd : (ofCoeffs done).natDegree + 1 ≤ W.natDegree := by
          rw [hW, ofCoeffs_append, ofCoeffs_cons]
          have h1 : (ofCoeffs cs.reverse).degree < (X ^ cs.reverse.length *
              (C c + X * ofCoeffs done)).degree := by
            rw [Polynomial.degree_mul, degree_X_pow]
            have hne : (C c + X * ofCoeffs done).natDegree = (ofCoeffs done).natDegree + 1 := by
              rw [add_comm, mul_comm, natDegree_add_C, natDegree_mul_X hdone]
            have hne0 : C c + X * ofCoeffs done ≠ 0 := by
              intro h; rw [h] at hne; simp at hne
            refine lt_of_lt_of_le (degree_ofCoeffs_lt _) ?_
            rw [degree_eq_natDegree hne0]
            exact_mod_cast Nat.le_add_right _ _
          rw [natDegree_eq_of_degree_eq (degree_add_eq_right_of_degree_lt h1)]
          have hne : (C c + X * ofCoeffs done).natDegree = (ofCoeffs done).natDegree + 1 := by
            rw [add_comm, mul_comm, natDegree_add_C, natDegree_mul_X hdone]
          have hne0 : C c + X * ofCoeffs done ≠ 0 := by
            intro h; rw [h] at hne; simp at hne
          rw [natDegree_mul (pow_ne_zero _ X_ne_zero) hne0, hne]
          omega
        have hcomp : (W.comp (ofCoeffs inner)).natDegree < n := by
          rcases eq_or_ne (W.comp (ofCoeffs inner)) 0 with h | h
          · rw [h]; simpa using hn
          · exact (natDegree_lt_iff_degree_lt h).mpr hdeg
        rw [natDegree_comp] at hcomp
        nlinarith [Nat.mul_le_mul_right (ofCoeffs inner).natDegree hWd]
    rcases polynomial_multiply n acc inner with ⟨-, prod, h1, h2, h3⟩ | ⟨h1, -⟩
    · simp only [composeLoop, h1]
      cases ha : addAt prod 0 c with
      | error e =>
        obtain ⟨-, h4, -⟩ := addAt_error ha
        omega
      | ok acc' =>
        obtain ⟨h4, h5⟩ := addAt_ok ha
        refine ih (c :: done) acc' (h4.trans h2) ?_ hdeg
        rw [h5, h3, hacc]
        simp; ring
    · exact absurd hprod (not_lt.mpr h1)

/-- C68. `compose_into` writes the composition whenever it fits the capacity (at least one
coefficient) and reports `DegreeOverflow` otherwise. -/
theorem polynomial_compose {R : Type} [CommRing R] [IsDomain R] [BEq R] [LawfulBEq R]
    (n : ℕ) (hn : 0 < n) (p inner : List R) :
    (((ofCoeffs p).comp (ofCoeffs inner)).degree < n ∧
      ∃ out, composeInto n p inner = .ok out ∧ out.length = n ∧
        ofCoeffs out = (ofCoeffs p).comp (ofCoeffs inner)) ∨
    ((n : WithBot ℕ) ≤ ((ofCoeffs p).comp (ofCoeffs inner)).degree ∧
      composeInto n p inner = .error .degreeOverflow) := by
  cases h : composeInto n p inner with
  | ok out =>
    obtain ⟨h1, h2⟩ := composeLoop_ok h (by simp [zeros])
    rw [List.reverse_reverse, ofCoeffs_zeros, mul_zero, add_zero] at h2
    exact .inl ⟨by rw [← h2, ← h1]; exact degree_ofCoeffs_lt out, out, rfl, h1, h2⟩
  | error e =>
    right
    have he : ∀ (cs acc : List R) (e : PolynomialError),
        composeLoop n inner cs acc = .error e → e = .degreeOverflow := by
      intro cs
      induction cs with
      | nil => intro acc e h; simp [composeLoop] at h
      | cons c cs ih =>
        intro acc e h
        simp only [composeLoop] at h
        split at h
        · rename_i e' he
          cases h
          exact (multiplyInto_error he).1
        · split at h
          · rename_i e' he
            cases h
            exact (addAt_error he).1
          · exact ih _ _ h
    refine ⟨?_, by rw [he _ _ _ h]⟩
    by_contra hlt
    obtain ⟨out, ho⟩ := composeLoop_complete n hn inner p.reverse [] (zeros n) (by simp [zeros])
      (by simp [ofCoeffs_zeros]) (by simpa using hlt)
    rw [composeInto, ho] at h
    cases h

example : composeInto 2 ([0, 0, 1] : List ℤ) [0, 1] = .error .degreeOverflow := by
  rcases polynomial_compose (R := ℤ) 2 (by norm_num) [0, 0, 1] [0, 1] with ⟨h, -⟩ | ⟨-, h⟩
  · exfalso
    have : (ofCoeffs ([0, 0, 1] : List ℤ)).comp (ofCoeffs [0, 1]) = X ^ 2 := by simp; ring
    rw [this, degree_X_pow] at h
    exact absurd h (by decide)
  · exact h

/-- C68. `divide` refuses a zero divisor.  Otherwise it returns the quotient and the remainder of
Euclidean division (so `p = q d + r` with `deg r < deg d`) when both fit the capacities named by the
caller, and reports `DegreeOverflow` when one does not. -/
theorem polynomial_divide {K : Type} [Field K] [BEq K] [LawfulBEq K] (nq nr : ℕ)
    (p d : List K) :
    (ofCoeffs d = 0 → divide nq nr p d = .error .leadingCoefficientZero) ∧
    (ofCoeffs d ≠ 0 →
      ((ofCoeffs p / ofCoeffs d).degree < nq ∧ (ofCoeffs p % ofCoeffs d).degree < nr ∧
        ∃ q r, divide nq nr p d = .ok (q, r) ∧ q.length = nq ∧ r.length = nr ∧
          ofCoeffs q = ofCoeffs p / ofCoeffs d ∧ ofCoeffs r = ofCoeffs p % ofCoeffs d ∧
          ofCoeffs p = ofCoeffs q * ofCoeffs d + ofCoeffs r ∧
          (ofCoeffs r).degree < (ofCoeffs d).degree) ∨
      (((nq : WithBot ℕ) ≤ (ofCoeffs p / ofCoeffs d).degree ∨
          (nr : WithBot ℕ) ≤ (ofCoeffs p % ofCoeffs d).degree) ∧
        divide nq nr p d = .error .degreeOverflow)) := by
  refine ⟨fun h => ?_, fun h => ?_⟩
  · rcases degree_eq d with ⟨h1, -⟩ | ⟨h1, -⟩
    · simp [divide, h1]
    · exact absurd h h1
  · rcases degree_eq d with ⟨-, h1⟩ | ⟨-, hdd⟩
    · exact absurd h1 h
    set D := ofCoeffs d with hD
    set P := ofCoeffs p with hP
    have hlt : D.natDegree < d.length := (natDegree_lt_iff_degree_lt h).mpr (degree_ofCoeffs_lt d)
    have hdl : d[D.natDegree]? = some d[D.natDegree] := List.getElem?_eq_getElem hlt
    have hmodlt : (P % D).degree < D.degree := EuclideanDomain.mod_lt P h
    have huniq : ∀ A B : K[X], P = A * D + B → B.degree < D.degree → A = P / D ∧ B = P % D := by
      intro A B hAB hB
      have h1 : (A - P / D) * D = P % D - B := by
        have h2 := EuclideanDomain.div_add_mod P D
        rw [hAB] at h2 ⊢
        rw [← hAB] at h2 ⊢
        have h3 : D * (P / D) + P % D = A * D + B := h2.trans hAB
        linear_combination -h3
      have h0 : A - P / D = 0 := by
        by_contra hne
        have h3 : ((A - P / D) * D).degree < D.degree := by
          rw [h1]; exact lt_of_le_of_lt (degree_sub_le _ _) (max_lt hmodlt hB)
        rw [Polynomial.degree_mul, degree_eq_natDegree hne, degree_eq_natDegree h] at h3
        have h4 : (A - P / D).natDegree + D.natDegree < D.natDegree := by exact_mod_cast h3
        omega
      refine ⟨sub_eq_zero.mp h0, ?_⟩
      rw [h0, zero_mul] at h1
      exact (sub_eq_zero.mp h1.symm).symm
    have hPdeg : ∀ k, p.length ≤ k → P.coeff k = 0 := fun k hk => by
      rw [hP, coeff_ofCoeffs, getD_of_le p k hk]
    rcases divideLoop_spec (P := P) hdd hdl p.length p (zeros nq) rfl le_rfl
        ⟨by rw [ofCoeffs_zeros]; simp [hP], hPdeg⟩ with
      ⟨q, w, h1, h2, h3, h4⟩ | ⟨h1, h2⟩
    · have hq : q.length = nq := by simpa [zeros] using h2
      have hwd : (ofCoeffs w).degree < D.degree := by
        rw [degree_eq_natDegree h, degree_lt_iff_coeff_zero]
        exact fun m hm => h4.top m hm
      obtain ⟨hA, hB⟩ := huniq _ _ h4.eq hwd
      have hdeq : divide nq nr p d =
          (match copyRemainder 0 (w.take D.natDegree) (zeros nr) with
            | .error e => .error e
            | .ok remainder => .ok (q, remainder)) := by
        simp only [divide, hdd, hdl, h1]
        rfl
      have hqd : (P / D).degree < nq := by rw [← hA, ← hq]; exact degree_ofCoeffs_lt q
      have htake : ∀ k, (w.take D.natDegree).getD k 0 = (ofCoeffs w).coeff k := by
        intro k
        rw [coeff_ofCoeffs]
        by_cases hk : k < D.natDegree
        · simp [List.getD_eq_getElem?_getD, List.getElem?_take, hk]
        · rw [← coeff_ofCoeffs w, h4.top k (not_lt.mp hk)]
          simp [List.getD_eq_getElem?_getD, List.getElem?_take, hk]
      rcases copyRemainder_spec 0 (w.take D.natDegree) (zeros nr : List K) with
        ⟨r, c1, c2, c3, c4⟩ | ⟨c1, j, c2, c3⟩
      · left
        have hr : r.length = nr := by simpa [zeros] using c2
        have hrw : ofCoeffs r = ofCoeffs w := by
          ext k
          rw [coeff_ofCoeffs, c3 k]
          have hz : (zeros nr : List K).getD k 0 = 0 := by
            rw [← coeff_ofCoeffs, ofCoeffs_zeros, coeff_zero]
          have hzl : (zeros nr : List K).length = nr := by simp [zeros]
          rw [hz, hzl]
          split
          · simp only [Nat.sub_zero]; exact htake k
          · rename_i hc
            rw [← htake k]
            symm
            by_cases hk : k < nr
            · have : ¬ k < (w.take D.natDegree).length := by
                intro h5; exact hc ⟨hk, Nat.zero_le k, by simpa using h5⟩
              exact getD_of_le _ _ (not_lt.mp this)
            · exact c4 k (by rw [hzl]; omega)
        have hrd : ofCoeffs r = P % D := hrw.trans hB
        refine ⟨hqd, ?_, q, r, ?_, hq, hr, hA, hrd, ?_, ?_⟩
        · rw [← hrd, ← hr]; exact degree_ofCoeffs_lt r
        · rw [hdeq, c1]
        · rw [hrw]; exact h4.eq
        · rw [hrw]; exact hwd
      · right
        refine ⟨.inr ?_, by rw [hdeq, c1]⟩
        rw [htake j, hB] at c3
        have hzl : (zeros nr : List K).length = nr := by simp [zeros]
        rw [hzl] at c2
        exact le_trans (by exact_mod_cast (by omega : nr ≤ j)) (le_degree_of_ne_zero c3)
    · right
      refine ⟨.inl ?_, by simp only [divide, hdd, hdl, h1]⟩
      obtain ⟨k, hk, hne⟩ := h2 (P / D) (P % D) (by
        rw [mul_comm]; exact (EuclideanDomain.div_add_mod P D).symm) hmodlt
      have hk' : nq ≤ k := by simpa [zeros] using hk
      exact le_trans (by exact_mod_cast hk') (le_degree_of_ne_zero hne)

example : ∃ q r, divide 4 2 ([-2, -1, 2, 1] : List ℚ) [2, 1] = .ok (q, r) ∧
    ofCoeffs ([-2, -1, 2, 1] : List ℚ) = ofCoeffs q * ofCoeffs [2, 1] + ofCoeffs r := by
  have hd : ofCoeffs ([2, 1] : List ℚ) = C 1 * X + C 2 := by simp; ring
  have h0 : ofCoeffs ([2, 1] : List ℚ) ≠ 0 := by
    rw [hd]; intro h; simpa using congrArg (fun q => q.coeff 0) h
  rcases (polynomial_divide 4 2 ([-2, -1, 2, 1] : List ℚ) [2, 1]).2 h0 with
    ⟨-, -, q, r, h1, -, -, -, -, h2, -⟩ | ⟨h1 | h1, -⟩
  · exact ⟨q, r, h1, h2⟩
  · exfalso
    have := h1.trans (degree_div_le _ _)
    exact absurd (degree_ofCoeffs_lt ([-2, -1, 2, 1] : List ℚ)) (not_lt.mpr this)
  · exfalso
    have hlt : (ofCoeffs ([-2, -1, 2, 1] : List ℚ) % ofCoeffs [2, 1]).degree <
        (ofCoeffs ([2, 1] : List ℚ)).degree := EuclideanDomain.mod_lt _ h0
    have := lt_trans hlt (degree_ofCoeffs_lt ([2, 1] : List ℚ))
    exact absurd this (not_lt.mpr h1)

/-- C68. `derivative` and `nth_derivative` differentiate; the capacity is kept. -/
theorem polynomial_derivative {R : Type} [CommRing R] (p : List R) (order : ℕ) :
    ofCoeffs (derivative p) = Polynomial.derivative (ofCoeffs p) ∧
    ofCoeffs (nthDerivative order p) = Polynomial.derivative^[order] (ofCoeffs p) ∧
    (derivative p).length = p.length ∧ (nthDerivative order p).length = p.length := by
  have hit : ∀ (k : ℕ) (p : List R),
      ofCoeffs (derivative^[k] p) = Polynomial.derivative^[k] (ofCoeffs p) ∧
      (derivative^[k] p).length = p.length := by
    intro k
    induction k with
    | zero => intro p; simp
    | succ k ih =>
      intro p
      rw [Function.iterate_succ_apply, Function.iterate_succ_apply]
      obtain ⟨h1, h2⟩ := ih (derivative p)
      exact ⟨by rw [h1, ofCoeffs_derivative], by rw [h2, derivative_length]⟩
  refine ⟨ofCoeffs_derivative p, ?_, derivative_length p, ?_⟩
  · unfold nthDerivative
    split
    · rename_i h
      rw [ofCoeffs_zeros]
      by_cases hp : ofCoeffs p = 0
      · rw [hp]; simp
      · symm
        apply iterate_derivative_eq_zero
        exact lt_of_lt_of_le ((natDegree_lt_iff_degree_lt hp).mpr (degree_ofCoeffs_lt p)) h
    · exact (hit order p).1
  · unfold nthDerivative
    split
    · simp [zeros]
    · exact (hit order p).2

example : ofCoeffs (derivative ([5, 3, 2] : List ℤ)) = C 3 + C 4 * X := by
  rw [(polynomial_derivative _ 0).1]
  simp [derivative_mul, C_ofNat]
  ring

/-- C68. `evaluate_with_derivatives` returns the value and the derivatives of every order asked
for. -/
theorem polynomial_all_derivatives {R : Type} [CommRing R] (p : List R) (x : R) (n : ℕ) :
    (evaluateWithDerivatives n p x).length = n ∧
    ∀ k < n, (evaluateWithDerivatives n p x).getD k 0 =
      (Polynomial.derivative^[k] (ofCoeffs p)).eval x := by
  obtain ⟨h1, h2⟩ := taylor_table x n p
  refine ⟨by rw [evaluateWithDerivatives, scaleOrders_length, h1], fun k hk => ?_⟩
  rw [evaluateWithDerivatives, scaleOrders_zero_getD _ _ (by omega), h2 k hk, taylor_coeff,
    ← factorial_smul_hasseDeriv]
  simp [mul_comm]

example : (evaluateWithDerivatives 3 ([5, 3, 2] : List ℤ) 1).getD 1 0 = 7 := by
  rw [(polynomial_all_derivatives _ _ 3).2 1 (by norm_num)]
  simp [derivative_mul]

/-- C68. `definite_integral` is the integral of the polynomial, in either direction. -/
theorem polynomial_integral (p : List ℝ) (a b : ℝ) :
    definiteIntegral p a b = ∫ x in a..b, (ofCoeffs p).eval x := by
  have key : ∀ (p : List ℝ) (k : ℕ) (total : ℝ),
      definiteIntegralLoop a b k total (a ^ (k + 1)) (b ^ (k + 1)) p =
        total + ∫ x in a..b, x ^ k * (ofCoeffs p).eval x := by
    intro p
    induction p with
    | nil => intro k total; simp [definiteIntegralLoop]
    | cons c l ih =>
      intro k total
      rw [definiteIntegralLoop, ← pow_succ, ← pow_succ, ih (k + 1)]
      have h1 : ∀ x : ℝ, x ^ k * (ofCoeffs (c :: l)).eval x =
          c * x ^ k + x ^ (k + 1) * (ofCoeffs l).eval x := by
        intro x; simp; ring
      simp only [h1]
      rw [intervalIntegral.integral_add, intervalIntegral.integral_const_mul, integral_pow]
      · push_cast; ring
      · exact (continuous_const.mul (continuous_pow k)).intervalIntegrable _ _
      · exact ((continuous_pow (k + 1)).mul (ofCoeffs l).continuous).intervalIntegrable _ _
  have := key p 0 0
  simpa [definiteIntegral] using this

example : definiteIntegral [0, 2] (0 : ℝ) 3 = 9 := by
  rw [polynomial_integral]
  simp only [ofCoeffs_cons, ofCoeffs_nil, eval_add, eval_mul, eval_C, eval_X, eval_zero, mul_zero,
    add_zero, zero_add, intervalIntegral.integral_mul_const, integral_id]
  norm_num

/-- C68. `shift_argument` and `scale_argument` substitute `x + offset` and `factor * x`; `reverse`
multiplies by the top power the value at the reciprocal. -/
theorem polynomial_substitutions {K : Type} [Field K] (p : List K) (c x : K) :
    (evaluate (shiftArgument p c) x = evaluate p (x + c) ∧
      (shiftArgument p c).length = p.length) ∧
    (evaluate (scaleArgument p c) x = evaluate p (c * x)) ∧
    (x ≠ 0 → evaluate (reverse p) x * x = x ^ p.length * evaluate p x⁻¹) := by
  refine ⟨⟨?_, (ofCoeffs_shiftArgument p c).1⟩, ?_, fun hx => ?_⟩
  · rw [evaluate_eq_eval, evaluate_eq_eval, (ofCoeffs_shiftArgument p c).2, taylor_eval]
  · rw [evaluate_eq_eval, evaluate_eq_eval, scaleArgument, ofCoeffs_scaleArgumentLoop]
    simp
  · simp only [evaluate_eq_eval, reverse]
    induction p with
    | nil => simp
    | cons a l ih =>
      rw [List.reverse_cons, ofCoeffs_append]
      simp only [ofCoeffs_cons, ofCoeffs_nil, mul_zero, add_zero, eval_add, eval_mul, eval_pow,
        eval_X, eval_C, List.length_reverse, List.length_cons, add_mul, ih]
      field_simp
      ring

example : evaluate (reverse ([2, -3, 1] : List ℚ)) (1 / 2) = 0 := by
  have := (polynomial_substitutions ([2, -3, 1] : List ℚ) 0 (1 / 2)).2.2 (by norm_num)
  have h2 : evaluate ([2, -3, 1] : List ℚ) (1 / 2)⁻¹ = 0 := by norm_num [evaluate]
  rw [h2] at this
  simpa using this

/-- C68. `try_resize` fails exactly when a coefficient that is not zero would be dropped, and
otherwise keeps the polynomial. -/
theorem polynomial_resize {K : Type} [Field K] [BEq K] [LawfulBEq K] (n : ℕ) (p : List K) :
    ((ofCoeffs p).degree < n ∧
      ∃ q, tryResize n p = some q ∧ q.length = n ∧ ofCoeffs q = ofCoeffs p) ∨
    ((n : WithBot ℕ) ≤ (ofCoeffs p).degree ∧ tryResize n p = none) := by
  by_cases h : (p.drop n).any fun c => c != 0
  · right
    refine ⟨?_, by simp [tryResize, h]⟩
    rw [List.any_eq_true] at h
    obtain ⟨c, hc, hc0⟩ := h
    obtain ⟨k, hk, rfl⟩ := List.getElem_of_mem hc
    rw [List.getElem_drop] at hc0
    have hk2 : n + k < p.length := by simp at hk; omega
    have : (ofCoeffs p).coeff (n + k) ≠ 0 := by
      rw [coeff_ofCoeffs]
      simpa [List.getD_eq_getElem?_getD, hk2] using hc0
    exact le_trans (by exact_mod_cast Nat.le_add_right n k) (le_degree_of_ne_zero this)
  · left
    have hz : ∀ k, n ≤ k → p.getD k 0 = 0 := by
      intro k hk
      by_cases hk2 : k < p.length
      · rw [Bool.not_eq_true, List.any_eq_false] at h
        have hk3 : k - n < (p.drop n).length := by simp; omega
        have := h (p.drop n)[k - n] (List.getElem_mem hk3)
        rw [List.getElem_drop] at this
        have hk4 : n + (k - n) = k := by omega
        simp only [hk4] at this
        simpa [List.getD_eq_getElem?_getD, hk2] using this
      · exact getD_of_le p k (not_lt.mp hk2)
    refine ⟨?_, p.take n ++ zeros (n - p.length), by simp [tryResize, h], ?_, ?_⟩
    · rw [degree_lt_iff_coeff_zero]
      intro m hm
      rw [coeff_ofCoeffs]; exact hz m hm
    · simp only [zeros, List.length_append, List.length_take, List.length_replicate]
      omega
    · rw [ofCoeffs_append, ofCoeffs_zeros, mul_zero, add_zero]
      ext k
      rw [coeff_ofCoeffs, coeff_ofCoeffs]
      by_cases hk : k < n
      · simp [List.getD_eq_getElem?_getD, List.getElem?_take, hk]
      · rw [hz k (not_lt.mp hk)]
        simp [List.getD_eq_getElem?_getD, List.getElem?_take, hk]

example : tryResize 1 ([1, 2] : List ℚ) = none := by
  rcases polynomial_resize 1 ([1, 2] : List ℚ) with ⟨h, -⟩ | ⟨-, h⟩
  · exfalso
    have h1 : (ofCoeffs ([1, 2] : List ℚ)).coeff 1 ≠ 0 := by rw [coeff_ofCoeffs]; simp
    exact absurd h (not_lt.mpr (le_degree_of_ne_zero h1))
  · exact h

end Poly
end Multicalc
