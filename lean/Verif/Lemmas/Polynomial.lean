import Verif.Model.Polynomial
import Mathlib.Tactic
import Mathlib.Algebra.Polynomial.Taylor
import Mathlib.Algebra.Polynomial.FieldDivision
import Mathlib.Algebra.Polynomial.Derivative

/-!
# Lemmas on coefficient lists

`ofCoeffs p` is Mathlib's polynomial whose coefficients are those of the list.
-/

namespace Multicalc
namespace Poly

open Polynomial

variable {R : Type}

/-- The polynomial with the given coefficients, lowest power first. -/
noncomputable def ofCoeffs [Semiring R] : List R → R[X]
  | [] => 0
  | a :: l => C a + X * ofCoeffs l

section Semiring
variable [CommSemiring R]

@[simp] theorem ofCoeffs_nil : ofCoeffs ([] : List R) = 0 := rfl
@[simp] theorem ofCoeffs_cons (a : R) (l : List R) :
    ofCoeffs (a :: l) = C a + X * ofCoeffs l := rfl

theorem coeff_ofCoeffs (p : List R) (k : ℕ) : (ofCoeffs p).coeff k = p.getD k 0 := by
  induction p generalizing k with
  | nil => simp
  | cons a l ih =>
    cases k with
    | zero => simp
    | succ k => simp [ih, coeff_X_mul, coeff_C]

theorem degree_ofCoeffs_lt (p : List R) : (ofCoeffs p).degree < p.length := by
  rw [degree_lt_iff_coeff_zero]
  intro m hm
  rw [coeff_ofCoeffs, List.getD_eq_getElem?_getD, List.getElem?_eq_none (by simpa using hm)]
  rfl

theorem ofCoeffs_append (p q : List R) :
    ofCoeffs (p ++ q) = ofCoeffs p + X ^ p.length * ofCoeffs q := by
  induction p with
  | nil => simp
  | cons a l ih => simp [ih, pow_succ]; ring

theorem ofCoeffs_zeros (n : ℕ) : ofCoeffs (zeros n : List R) = 0 := by
  ext k
  rw [coeff_ofCoeffs]
  simp only [zeros, List.getD_eq_getElem?_getD, List.getElem?_replicate]
  split <;> simp

/-- Two lists of one length with one polynomial are equal. -/
theorem eq_of_ofCoeffs {p q : List R} (hl : p.length = q.length) (h : ofCoeffs p = ofCoeffs q) :
    p = q := by
  apply List.ext_getElem hl
  intro k h1 h2
  have := congrArg (fun r => r.coeff k) h
  simp only [coeff_ofCoeffs] at this
  simpa [List.getD_eq_getElem?_getD, h1, h2] using this

theorem evaluate_nil (x : R) : evaluate ([] : List R) x = 0 := rfl

theorem evaluate_cons (a : R) (l : List R) (x : R) :
    evaluate (a :: l) x = evaluate l x * x + a := by
  simp [evaluate, List.foldl_append]

theorem evaluate_eq_eval (p : List R) (x : R) : evaluate p x = (ofCoeffs p).eval x := by
  induction p with
  | nil => simp [evaluate_nil]
  | cons a l ih => simp [evaluate_cons, ih]; ring

theorem getD_set (l : List R) (i k : ℕ) (v : R) :
    (l.set i v).getD k 0 = if i = k ∧ k < l.length then v else l.getD k 0 := by
  simp only [List.getD_eq_getElem?_getD, List.getElem?_set]
  by_cases h : i = k
  · subst h
    by_cases h2 : i < l.length
    · simp [h2]
    · simp [h2]
  · simp [h]

theorem ofCoeffs_set_add (l : List R) (i : ℕ) (v w : R) (h : l[i]? = some w) :
    ofCoeffs (l.set i (w + v)) = ofCoeffs l + C v * X ^ i := by
  ext k
  rw [coeff_ofCoeffs, coeff_add, coeff_ofCoeffs, coeff_C_mul_X_pow, getD_set]
  obtain ⟨hi, rfl⟩ := List.getElem?_eq_some_iff.mp h
  by_cases hk : i = k
  · subst hk; simp [hi, List.getD_eq_getElem?_getD]
  · simp [hk, Ne.symm hk, eq_comm]

/-! ### Derivatives through the Taylor table -/

theorem sweepRow_length (x lower : R) (l : List R) : (sweepRow x lower l).length = l.length := by
  induction l generalizing lower with
  | nil => rfl
  | cons a l ih => simp [sweepRow, ih]

theorem sweepRow_getD (x lower : R) (l : List R) (k : ℕ) (hk : k < l.length) :
    (sweepRow x lower l).getD k 0 =
      l.getD k 0 * x + (match k with | 0 => lower | j + 1 => l.getD j 0) := by
  induction l generalizing lower k with
  | nil => simp at hk
  | cons a l ih =>
    cases k with
    | zero => simp [sweepRow]
    | succ j =>
      simp only [List.length_cons, Nat.add_lt_add_iff_right] at hk
      simp only [sweepRow, List.getD_cons_succ, ih a j hk]
      cases j <;> simp

theorem taylor_table (x : R) (n : ℕ) (p : List R) :
    let t := p.reverse.foldl (fun result c => sweepRow x c result) (zeros n)
    t.length = n ∧ ∀ k < n, t.getD k 0 = (taylor x (ofCoeffs p)).coeff k := by
  induction p with
  | nil =>
    simp only [List.reverse_nil, List.foldl_nil, ofCoeffs_nil, map_zero, coeff_zero]
    refine ⟨by simp [zeros], fun k hk => ?_⟩
    simp [zeros, List.getD_eq_getElem?_getD, hk]
  | cons a l ih =>
    simp only [List.reverse_cons, List.foldl_append, List.foldl_cons, List.foldl_nil] at ih ⊢
    generalize l.reverse.foldl (fun result c => sweepRow x c result) (zeros n) = t at ih ⊢
    obtain ⟨hl, ht⟩ := ih
    refine ⟨by rw [sweepRow_length, hl], fun k hk => ?_⟩
    rw [sweepRow_getD x a t k (by omega)]
    rw [ht k hk, ofCoeffs_cons, map_add, taylor_C, taylor_mul, taylor_X, add_mul, coeff_add,
      coeff_add, coeff_C_mul, coeff_C]
    cases k with
    | zero => simp; ring
    | succ j =>
      rw [coeff_X_mul, ← ht j (by omega)]
      simp only [Nat.succ_ne_zero, if_false]
      ring

theorem scaleOrders_getD (l : List R) (o k : ℕ) (hk : k < l.length) :
    (scaleOrders (o + 1) (o.factorial : R) l).getD k 0
      = l.getD k 0 * ((o + 1 + k).factorial : R) := by
  induction l generalizing o k with
  | nil => simp at hk
  | cons a l ih =>
    have h1 : (o.factorial : R) * ((o + 1 : ℕ) : R) = ((o + 1).factorial : R) := by
      rw [Nat.factorial_succ]; push_cast; ring
    cases k with
    | zero => simp only [scaleOrders, Nat.succ_pos, if_true, h1]; simp
    | succ j =>
      simp only [List.length_cons, Nat.add_lt_add_iff_right] at hk
      simp only [scaleOrders, Nat.succ_pos, if_true, h1, List.getD_cons_succ, ih (o + 1) j hk]
      congr 3; omega

theorem scaleOrders_zero_getD (l : List R) (k : ℕ) (hk : k < l.length) :
    (scaleOrders 0 (1 : R) l).getD k 0 = l.getD k 0 * (k.factorial : R) := by
  cases l with
  | nil => simp at hk
  | cons a l =>
    cases k with
    | zero => simp [scaleOrders]
    | succ j =>
      simp only [List.length_cons, Nat.add_lt_add_iff_right] at hk
      have := scaleOrders_getD l 0 j hk
      simp only [Nat.factorial_zero, Nat.cast_one, zero_add] at this
      simp only [scaleOrders, lt_irrefl, if_false, List.getD_cons_succ, zero_add, this]
      rw [Nat.add_comm]

theorem scaleOrders_length (o : ℕ) (s : R) (l : List R) : (scaleOrders o s l).length = l.length := by
  induction l generalizing o s with
  | nil => rfl
  | cons a l ih => simp [scaleOrders, ih]

theorem derivative_length (p : List R) : (derivative p).length = p.length := by
  simp [derivative]

theorem ofCoeffs_derivative (p : List R) :
    ofCoeffs (derivative p) = Polynomial.derivative (ofCoeffs p) := by
  ext k
  rw [coeff_ofCoeffs, coeff_derivative, coeff_ofCoeffs]
  simp only [derivative, List.getD_eq_getElem?_getD, List.getElem?_map]
  by_cases hk : k < p.length
  · rw [List.getElem?_range hk]
    simp only [Option.map_some, Option.getD_some]
    cases h : p[k + 1]? with
    | none => simp
    | some v => simp
  · rw [List.getElem?_eq_none (by simpa using hk), List.getElem?_eq_none (by omega)]
    simp

end Semiring

/-! ### Products -/

section Products
variable [CommRing R] [BEq R] [LawfulBEq R]

theorem getD_of_le (l : List R) (k : ℕ) (h : l.length ≤ k) : l.getD k 0 = 0 := by
  rw [List.getD_eq_getElem?_getD, List.getElem?_eq_none h]; rfl

theorem addAt_ok {out out' : List R} {power : ℕ} {term : R} (h : addAt out power term = .ok out') :
    out'.length = out.length ∧ ofCoeffs out' = ofCoeffs out + C term * X ^ power := by
  unfold addAt at h
  split at h
  · rename_i slot hs
    cases h
    exact ⟨by simp, ofCoeffs_set_add _ _ _ _ hs⟩
  · split at h
    · cases h
    · rename_i ht
      cases h
      have : term = 0 := by simpa using ht
      simp [this]

theorem addAt_error {out : List R} {power : ℕ} {term : R} {e : PolynomialError}
    (h : addAt out power term = .error e) :
    e = .degreeOverflow ∧ out.length ≤ power ∧ term ≠ 0 := by
  unfold addAt at h
  split at h
  · cases h
  · rename_i hs
    split at h
    · rename_i ht
      cases h
      exact ⟨rfl, by simpa using hs, by simpa using ht⟩
    · cases h

theorem multiplyRow_ok {left : R} {power : ℕ} {rest out out' : List R}
    (h : multiplyRow left power rest out = .ok out') :
    out'.length = out.length ∧
      ofCoeffs out' = ofCoeffs out + C left * X ^ power * ofCoeffs rest := by
  induction rest generalizing power out with
  | nil => simp only [multiplyRow] at h; cases h; simp
  | cons r rs ih =>
    simp only [multiplyRow] at h
    split at h
    · cases h
    · rename_i o ho
      obtain ⟨h1, h2⟩ := addAt_ok ho
      obtain ⟨h3, h4⟩ := ih h
      refine ⟨h3.trans h1, ?_⟩
      rw [h4, h2, ofCoeffs_cons, C_mul]
      ring

theorem multiplyRow_error {left : R} {power : ℕ} {rest out : List R} {e : PolynomialError}
    (h : multiplyRow left power rest out = .error e) :
    e = .degreeOverflow ∧ ∃ j, out.length ≤ power + j ∧ left * rest.getD j 0 ≠ 0 := by
  induction rest generalizing power out with
  | nil => simp [multiplyRow] at h
  | cons r rs ih =>
    simp only [multiplyRow] at h
    split at h
    · rename_i e' ho
      cases h
      obtain ⟨h1, h2, h3⟩ := addAt_error ho
      exact ⟨h1, 0, by omega, by simpa using h3⟩
    · rename_i o ho
      obtain ⟨h1, -⟩ := addAt_ok ho
      obtain ⟨h2, j, h3, h4⟩ := ih h
      exact ⟨h2, j + 1, by omega, by simpa using h4⟩

theorem multiplyRows_ok {other : List R} {power : ℕ} {rest out out' : List R}
    (h : multiplyRows other power rest out = .ok out') :
    out'.length = out.length ∧
      ofCoeffs out' = ofCoeffs out + X ^ power * ofCoeffs rest * ofCoeffs other := by
  induction rest generalizing power out with
  | nil => simp only [multiplyRows] at h; cases h; simp
  | cons r rs ih =>
    simp only [multiplyRows] at h
    split at h
    · cases h
    · rename_i o ho
      obtain ⟨h1, h2⟩ := multiplyRow_ok ho
      obtain ⟨h3, h4⟩ := ih h
      refine ⟨h3.trans h1, ?_⟩
      rw [h4, h2, ofCoeffs_cons]
      ring

theorem multiplyRows_error {other : List R} {power : ℕ} {rest out : List R} {e : PolynomialError}
    (h : multiplyRows other power rest out = .error e) :
    e = .degreeOverflow ∧
      ∃ i j, out.length ≤ power + i + j ∧ rest.getD i 0 * other.getD j 0 ≠ 0 := by
  induction rest generalizing power out with
  | nil => simp [multiplyRows] at h
  | cons r rs ih =>
    simp only [multiplyRows] at h
    split at h
    · rename_i e' ho
      cases h
      obtain ⟨h1, j, h2, h3⟩ := multiplyRow_error ho
      exact ⟨h1, 0, j, by omega, by simpa using h3⟩
    · rename_i o ho
      obtain ⟨h1, -⟩ := multiplyRow_ok ho
      obtain ⟨h2, i, j, h3, h4⟩ := ih h
      exact ⟨h2, i + 1, j, by omega, by simpa using h4⟩

theorem multiplyInto_ok {n : ℕ} {p q out : List R} (h : multiplyInto n p q = .ok out) :
    out.length = n ∧ ofCoeffs out = ofCoeffs p * ofCoeffs q := by
  obtain ⟨h1, h2⟩ := multiplyRows_ok h
  refine ⟨by simpa [zeros] using h1, ?_⟩
  rw [h2, ofCoeffs_zeros]; ring

theorem multiplyInto_error [NoZeroDivisors R] {n : ℕ} {p q : List R} {e : PolynomialError}
    (h : multiplyInto n p q = .error e) :
    e = .degreeOverflow ∧ (n : WithBot ℕ) ≤ (ofCoeffs p * ofCoeffs q).degree := by
  obtain ⟨h1, i, j, h2, h3⟩ := multiplyRows_error h
  refine ⟨h1, ?_⟩
  simp only [zeros, List.length_replicate, zero_add] at h2
  have hi : (ofCoeffs p).coeff i ≠ 0 := by rw [coeff_ofCoeffs]; exact left_ne_zero_of_mul h3
  have hj : (ofCoeffs q).coeff j ≠ 0 := by rw [coeff_ofCoeffs]; exact right_ne_zero_of_mul h3
  rw [Polynomial.degree_mul]
  calc (n : WithBot ℕ) ≤ ((i + j : ℕ) : WithBot ℕ) := by exact_mod_cast h2
    _ = (i : WithBot ℕ) + (j : WithBot ℕ) := by push_cast; rfl
    _ ≤ _ := add_le_add (le_degree_of_ne_zero hi) (le_degree_of_ne_zero hj)

/-- The product as one case distinction. -/
theorem multiplyInto_cases [NoZeroDivisors R] (n : ℕ) (p q : List R) :
    ((ofCoeffs p * ofCoeffs q).degree < n ∧ ∃ out, multiplyInto n p q = .ok out) ∨
    ((n : WithBot ℕ) ≤ (ofCoeffs p * ofCoeffs q).degree ∧
      multiplyInto n p q = .error .degreeOverflow) := by
  cases h : multiplyInto n p q with
  | ok out =>
    obtain ⟨h1, h2⟩ := multiplyInto_ok h
    left
    exact ⟨by rw [← h2, ← h1]; exact degree_ofCoeffs_lt out, out, rfl⟩
  | error e =>
    obtain ⟨h1, h2⟩ := multiplyInto_error h
    right
    exact ⟨h2, by rw [h1]⟩

theorem composeLoop_ok {n : ℕ} {inner cs acc out : List R}
    (h : composeLoop n inner cs acc = .ok out) (hacc : acc.length = n) :
    out.length = n ∧
      ofCoeffs out = (ofCoeffs cs.reverse).comp (ofCoeffs inner)
        + ofCoeffs inner ^ cs.length * ofCoeffs acc := by
  induction cs generalizing acc with
  | nil => simp only [composeLoop] at h; cases h; simp [hacc]
  | cons c cs ih =>
    simp only [composeLoop] at h
    split at h
    · cases h
    · rename_i prod hp
      obtain ⟨h1, h2⟩ := multiplyInto_ok hp
      split at h
      · cases h
      · rename_i acc' ha
        obtain ⟨h3, h4⟩ := addAt_ok ha
        obtain ⟨h5, h6⟩ := ih h (h3.trans h1)
        refine ⟨h5, ?_⟩
        rw [h6, h4, h2, List.reverse_cons, ofCoeffs_append]
        simp only [ofCoeffs_cons, ofCoeffs_nil, mul_zero, add_zero, pow_zero, mul_one, add_comp,
          mul_comp, pow_comp, X_comp, C_comp, List.length_reverse, List.length_cons, X_pow_comp]
        ring

end Products

/-! ### Division -/

section Division
variable [Field R] [BEq R] [LawfulBEq R]

theorem degree_eq (p : List R) :
    (degree p = none ∧ ofCoeffs p = 0) ∨
    (ofCoeffs p ≠ 0 ∧ degree p = some (ofCoeffs p).natDegree) := by
  induction p with
  | nil => left; exact ⟨rfl, rfl⟩
  | cons a l ih =>
    rcases ih with ⟨h1, h2⟩ | ⟨h1, h2⟩
    · by_cases ha : a = 0
      · left; simp [degree, h1, h2, ha]
      · right
        simp [degree, h1, h2, ha]
    · right
      have hd : (C a + X * ofCoeffs l).natDegree = (ofCoeffs l).natDegree + 1 := by
        rw [add_comm, mul_comm, natDegree_add_C, natDegree_mul_X h1]
      refine ⟨?_, ?_⟩
      · intro h0
        rw [ofCoeffs_cons] at h0
        rw [h0] at hd
        simp at hd
      · simp [degree, h2, hd]

theorem subtractScaled_length (share : R) (off : ℕ) (ds w : List R) :
    (subtractScaled share off ds w).length = w.length := by
  induction ds generalizing off w with
  | nil => rfl
  | cons d ds ih =>
    simp only [subtractScaled]
    rw [ih]
    unfold subAt
    split <;> simp

theorem ofCoeffs_subtractScaled (share : R) (off : ℕ) (ds w : List R)
    (h : ∀ j, w.length ≤ off + j → ds.getD j 0 = 0) :
    ofCoeffs (subtractScaled share off ds w) =
      ofCoeffs w - C share * X ^ off * ofCoeffs ds := by
  induction ds generalizing off w with
  | nil => simp [subtractScaled]
  | cons d ds ih =>
    simp only [subtractScaled]
    generalize hg : subAt w off (share * d) = w'
    unfold subAt at hg
    have hw : ofCoeffs w' = ofCoeffs w - C (share * d) * X ^ off ∧ w'.length = w.length := by
      split at hg
      · rename_i slot hs
        rw [← hg, sub_eq_add_neg slot, ofCoeffs_set_add _ _ _ _ hs]
        refine ⟨?_, by simp⟩
        simp; ring
      · rename_i hs
        have : d = 0 := by simpa using h 0 (by simpa using hs)
        simp [this, hg]
    rw [ih, hw.1, ofCoeffs_cons, C_mul]
    · ring
    · intro j hj
      rw [hw.2] at hj
      simpa using h (j + 1) (by omega)

/-- What the division loop keeps true. -/
structure DivInv (P D : R[X]) (power : ℕ) (w q : List R) : Prop where
  eq : P = ofCoeffs q * D + ofCoeffs w
  top : ∀ k, power ≤ k → (ofCoeffs w).coeff k = 0

theorem divideLoop_spec {divisor : List R} {dd : ℕ} {dl : R} {P : R[X]}
    (hdd : degree divisor = some dd) (hdl : divisor[dd]? = some dl) {n : ℕ} :
    ∀ (power : ℕ) (w q : List R), w.length = n → power ≤ n →
      DivInv P (ofCoeffs divisor) power w q →
      (∃ q' w', divideLoop divisor dd dl power w q = .ok (q', w') ∧ q'.length = q.length ∧
        w'.length = n ∧ DivInv P (ofCoeffs divisor) dd w' q') ∨
      (divideLoop divisor dd dl power w q = .error .degreeOverflow ∧
        ∀ A B : R[X], P = A * ofCoeffs divisor + B → B.degree < (ofCoeffs divisor).degree →
          ∃ k, q.length ≤ k ∧ A.coeff k ≠ 0) := by
  have hD0 : ofCoeffs divisor ≠ 0 := by
    rcases degree_eq divisor with ⟨h1, -⟩ | ⟨h1, -⟩
    · simp [h1] at hdd
    · exact h1
  have hDdeg : (ofCoeffs divisor).natDegree = dd := by
    rcases degree_eq divisor with ⟨h1, -⟩ | ⟨-, h1⟩
    · simp [h1] at hdd
    · rw [h1] at hdd; simpa using hdd
  have hDl : (ofCoeffs divisor).coeff dd = dl := by
    rw [coeff_ofCoeffs, List.getD_eq_getElem?_getD, hdl]; rfl
  have hdl0 : dl ≠ 0 := by
    rw [← hDl, ← hDdeg]; simpa using hD0
  intro power
  induction power with
  | zero =>
    intro w q hw _ hinv
    left
    exact ⟨q, w, by simp [divideLoop], rfl, hw, hinv.eq, fun k _ => hinv.top k (Nat.zero_le k)⟩
  | succ power ih =>
    intro w q hw hp hinv
    by_cases hle : power + 1 ≤ dd
    · left
      exact ⟨q, w, by simp [divideLoop, hle], rfl, hw, hinv.eq, fun k hk => hinv.top k (by omega)⟩
    · by_cases hlead : w.getD power 0 = 0
      · have hstep : divideLoop divisor dd dl (power + 1) w q = divideLoop divisor dd dl power w q := by
          rw [divideLoop]; simp only [hle, if_false, hlead, beq_self_eq_true, if_true]
        rw [hstep]
        refine ih w q hw (by omega) ⟨hinv.eq, fun k hk => ?_⟩
        rcases Nat.lt_or_ge power k with h | h
        · exact hinv.top k h
        · have : k = power := by omega
          subst this; rw [coeff_ofCoeffs, hlead]
      · have hb : (w.getD power 0 == 0) = false := by simpa using hlead
        cases hq : q[power - dd]? with
        | none =>
          right
          refine ⟨by rw [divideLoop]; simp only [hle, if_false, hb, Bool.false_eq_true, hq], ?_⟩
          intro A B hA hB
          have hql : q.length ≤ power - dd := by simpa using hq
          refine ⟨power - dd, hql, ?_⟩
          have hEq : (A - ofCoeffs q) * ofCoeffs divisor = ofCoeffs w - B := by
            have := hinv.eq; rw [hA] at this; linear_combination this
          have hBc : ∀ k, dd ≤ k → B.coeff k = 0 := by
            intro k hk
            apply coeff_eq_zero_of_degree_lt
            refine lt_of_lt_of_le hB ?_
            rw [degree_eq_natDegree hD0, hDdeg]; exact_mod_cast hk
          have hdeg : ((A - ofCoeffs q) * ofCoeffs divisor).natDegree = power := by
            rw [hEq]
            apply natDegree_eq_of_le_of_coeff_ne_zero
            · rw [natDegree_le_iff_coeff_eq_zero]
              intro N hN
              rw [coeff_sub, hinv.top N (by omega), hBc N (by omega), sub_zero]
            · rw [coeff_sub, hBc power (by omega), sub_zero, coeff_ofCoeffs]; exact hlead
          have hAq : A - ofCoeffs q ≠ 0 := by
            intro h0
            have h1 : (ofCoeffs w - B).coeff power = 0 := by rw [← hEq, h0]; simp
            rw [coeff_sub, hBc power (by omega), sub_zero, coeff_ofCoeffs] at h1
            exact hlead h1
          rw [natDegree_mul hAq hD0, hDdeg] at hdeg
          have h2 : (A - ofCoeffs q).coeff (power - dd) ≠ 0 := by
            have : power - dd = (A - ofCoeffs q).natDegree := by omega
            rw [this]; simpa using hAq
          rw [coeff_sub, coeff_ofCoeffs q, getD_of_le q _ hql, sub_zero] at h2
          exact h2
        | some slot =>
          have hstep : divideLoop divisor dd dl (power + 1) w q =
              divideLoop divisor dd dl power
                ((subtractScaled (w.getD power 0 / dl) (power - dd) divisor w).set power 0)
                (q.set (power - dd) (slot + w.getD power 0 / dl)) := by
            rw [divideLoop]; simp only [hle, if_false, hb, Bool.false_eq_true, hq]
          rw [hstep]
          set share := w.getD power 0 / dl with hshare
          have hsub : ofCoeffs (subtractScaled share (power - dd) divisor w) =
              ofCoeffs w - C share * X ^ (power - dd) * ofCoeffs divisor := by
            apply ofCoeffs_subtractScaled
            intro j hj
            rw [← coeff_ofCoeffs]
            apply coeff_eq_zero_of_natDegree_lt
            omega
          have hcoeff : ∀ k, power ≤ k →
              (ofCoeffs (subtractScaled share (power - dd) divisor w)).coeff k = 0 := by
            intro k hk
            rw [hsub, coeff_sub, mul_assoc, coeff_C_mul, coeff_X_pow_mul', if_pos (by omega)]
            rcases Nat.lt_or_ge power k with h | h
            · rw [hinv.top k h, coeff_eq_zero_of_natDegree_lt (by omega)]; simp
            · have hk' : k = power := by omega
              subst hk'
              have : k - (k - dd) = dd := by omega
              rw [this, hDl, coeff_ofCoeffs, hshare]
              field_simp
              simp
          have hset : ofCoeffs ((subtractScaled share (power - dd) divisor w).set power 0) =
              ofCoeffs w - C share * X ^ (power - dd) * ofCoeffs divisor := by
            rw [← hsub]
            ext k
            rw [coeff_ofCoeffs, getD_set]
            split
            · rename_i hk; rw [← hk.1, hcoeff power le_rfl]
            · rw [coeff_ofCoeffs]
          have hql : (q.set (power - dd) (slot + share)).length = q.length := by simp
          rw [← hql]
          refine ih _ _ (by simp [subtractScaled_length, hw]) (by omega) ⟨?_, ?_⟩
          · rw [hset, ofCoeffs_set_add _ _ _ _ hq, hinv.eq]
            ring
          · intro k hk
            rw [hset, ← hsub]
            exact hcoeff k hk

theorem copyRemainder_spec (power : ℕ) (cs out : List R) :
    (∃ out', copyRemainder power cs out = .ok out' ∧ out'.length = out.length ∧
      (∀ k, out'.getD k 0 = if k < out.length ∧ power ≤ k ∧ k - power < cs.length
        then cs.getD (k - power) 0 else out.getD k 0) ∧
      ∀ j, out.length ≤ power + j → cs.getD j 0 = 0) ∨
    (copyRemainder power cs out = .error .degreeOverflow ∧
      ∃ j, out.length ≤ power + j ∧ cs.getD j 0 ≠ 0) := by
  induction cs generalizing power out with
  | nil => left; exact ⟨out, by simp [copyRemainder], rfl, by simp, by simp⟩
  | cons c cs ih =>
    simp only [copyRemainder]
    by_cases hp : power < out.length
    · rw [if_pos hp]
      rcases ih (power + 1) (out.set power c) with ⟨o, h1, h2, h3, h4⟩ | ⟨h1, j, h2, h3⟩
      · left
        refine ⟨o, h1, by simpa using h2, fun k => ?_, fun j hj => ?_⟩
        · rw [h3 k, getD_set]
          simp only [List.length_set, List.length_cons]
          by_cases hk : power = k
          · subst hk; simp [hp]
          · by_cases hk2 : k < out.length ∧ power + 1 ≤ k ∧ k - (power + 1) < cs.length
            · rw [if_pos hk2, if_pos (by omega)]
              have : k - power = (k - (power + 1)) + 1 := by omega
              rw [this, List.getD_cons_succ]
            · rw [if_neg hk2, if_neg (by omega), if_neg (by omega)]
        · cases j with
          | zero => omega
          | succ j => simpa using h4 j (by simp; omega)
      · right
        exact ⟨h1, j + 1, by simp at h2; omega, by simpa using h3⟩
    · rw [if_neg hp]
      by_cases hc : c = 0
      · subst hc
        simp only [bne_self_eq_false, Bool.false_eq_true, if_false]
        rcases ih (power + 1) out with ⟨o, h1, h2, h3, h4⟩ | ⟨h1, j, h2, h3⟩
        · left
          refine ⟨o, h1, h2, fun k => ?_, fun j hj => ?_⟩
          · rw [h3 k]
            by_cases hk : k < out.length
            · rw [if_neg (by omega), if_neg (by omega)]
            · rw [if_neg (by omega), if_neg (by omega)]
          · cases j with
            | zero => simp
            | succ j => simpa using h4 j (by omega)
        · right
          exact ⟨h1, j + 1, by omega, by simpa using h3⟩
      · right
        have : (c != 0) = true := by simpa using hc
        rw [if_pos this]
        exact ⟨rfl, 0, by omega, by simpa using hc⟩

end Division

/-! ### Shifting -/

section Shift
variable [CommRing R]

theorem shiftCarries_append (offset : R) (carry : R) (l : List R) (a : R) :
    shiftCarries offset carry (l ++ [a]) = shiftCarries offset carry l ++
      [l.foldl (fun acc c => acc * offset + c) carry * offset + a] := by
  induction l generalizing carry with
  | nil => simp [shiftCarries]
  | cons b l ih => simp [shiftCarries, ih]

theorem shiftCarries_cons (offset a : R) (l : List R) :
    (shiftCarries offset 0 (a :: l).reverse).reverse =
      evaluate (a :: l) offset :: (shiftCarries offset 0 l.reverse).reverse := by
  rw [List.reverse_cons, shiftCarries_append, evaluate_cons]
  simp [evaluate]

theorem shiftCarries_length (offset : R) (l : List R) :
    (shiftCarries offset 0 l.reverse).reverse.length = l.length := by
  induction l with
  | nil => rfl
  | cons a l ih => rw [shiftCarries_cons]; simpa using ih

theorem ofCoeffs_shiftCarries (offset a : R) (l : List R) :
    ofCoeffs (a :: l) = (X - C offset) * ofCoeffs (shiftCarries offset 0 l.reverse).reverse
      + C (evaluate (a :: l) offset) := by
  induction l generalizing a with
  | nil => simp [shiftCarries, evaluate]
  | cons b l ih =>
    rw [shiftCarries_cons, ofCoeffs_cons, ih b, evaluate_cons a]
    simp only [ofCoeffs_cons, C_add, C_mul]
    ring

theorem shiftRound_spec (offset : R) (w : List R) :
    (shiftRound offset w).2.length = w.length ∧
    ofCoeffs w = (X - C offset) * ofCoeffs (shiftRound offset w).2 + C (shiftRound offset w).1 := by
  cases w with
  | nil => simp [shiftRound, shiftCarries]
  | cons a l =>
    have h : shiftRound offset (a :: l) = (evaluate (a :: l) offset,
        (shiftCarries offset 0 l.reverse).reverse ++ [0]) := by
      unfold shiftRound
      rw [shiftCarries_cons]
    rw [h]
    refine ⟨?_, ?_⟩
    · have := shiftCarries_length offset l
      simp only [List.length_append, this, List.length_cons, List.length_nil]
    · simp only []
      rw [ofCoeffs_append, ofCoeffs_shiftCarries offset]
      simp

theorem shiftLoop_spec (offset : R) (count : ℕ) (w : List R) :
    (shiftLoop offset count w).length = count ∧
    ∀ k < count, (shiftLoop offset count w).getD k 0 = (taylor offset (ofCoeffs w)).coeff k := by
  induction count generalizing w with
  | zero => simp [shiftLoop]
  | succ count ih =>
    obtain ⟨h1, h2⟩ := ih (shiftRound offset w).2
    refine ⟨by simp [shiftLoop, h1], fun k hk => ?_⟩
    rw [(shiftRound_spec offset w).2]
    have ht : taylor offset ((X - C offset) * ofCoeffs (shiftRound offset w).2
        + C (shiftRound offset w).1) =
        X * taylor offset (ofCoeffs (shiftRound offset w).2) + C (shiftRound offset w).1 := by
      rw [map_add, taylor_mul, map_sub, taylor_X, taylor_C, taylor_C]; ring
    rw [ht, coeff_add, coeff_C]
    cases k with
    | zero => simp [shiftLoop]
    | succ j => rw [coeff_X_mul]; simp only [shiftLoop, List.getD_cons_succ]; rw [h2 j (by omega)]; simp

theorem ofCoeffs_shiftArgument (p : List R) (offset : R) :
    (shiftArgument p offset).length = p.length ∧
      ofCoeffs (shiftArgument p offset) = taylor offset (ofCoeffs p) := by
  obtain ⟨h1, h2⟩ := shiftLoop_spec offset p.length p
  refine ⟨h1, ?_⟩
  ext k
  rw [coeff_ofCoeffs]
  by_cases hk : k < p.length
  · exact h2 k hk
  · rw [shiftArgument, List.getD_eq_getElem?_getD, List.getElem?_eq_none (by omega)]
    symm
    apply coeff_eq_zero_of_degree_lt
    rw [degree_taylor]
    exact lt_of_lt_of_le (degree_ofCoeffs_lt p) (by exact_mod_cast not_lt.mp hk)

theorem ofCoeffs_scaleArgumentLoop (factor s : R) (p : List R) :
    ofCoeffs (scaleArgumentLoop factor s p) = C s * (ofCoeffs p).comp (C factor * X) := by
  induction p generalizing s with
  | nil => simp [scaleArgumentLoop]
  | cons a l ih => simp [scaleArgumentLoop, ih]; ring

end Shift

end Poly
end Multicalc
