import Verif.Model.Autodiff
import Verif.Lemmas.LinearAlgebra
import Verif.Model.XR
import Mathlib.Algebra.Polynomial.Taylor
import Mathlib.RingTheory.Polynomial.DegreeLT
import Mathlib.Tactic

/-!
# Finite differences

Exactness on polynomials of low degree, for every order, every step and every step multiplier, and
the error cases.
-/

namespace Multicalc

open Polynomial

/-- The extra degree on which a difference is exact: one more for central differences. -/
def DiffMode.bonus : DiffMode → ℕ
  | .forward | .backward => 0
  | .central => 1

/-- One divided difference of a polynomial, again a polynomial. -/
noncomputable def divDiff (mode : DiffMode) (s : ℝ) (p : ℝ[X]) : ℝ[X] :=
  C ((fdOffsets mode : ℝ × ℝ × ℝ).2.2 * s)⁻¹ *
    (taylor ((fdOffsets mode : ℝ × ℝ × ℝ).2.1 * s) p - taylor ((fdOffsets mode : ℝ × ℝ × ℝ).1 * s) p)

theorem divDiff_eval (mode : DiffMode) (s : ℝ) (p : ℝ[X]) (x : ℝ) :
    (divDiff mode s p).eval x = (p.eval (x + (fdOffsets mode : ℝ × ℝ × ℝ).2.1 * s) -
      p.eval (x + (fdOffsets mode : ℝ × ℝ × ℝ).1 * s)) / ((fdOffsets mode : ℝ × ℝ × ℝ).2.2 * s) := by
  unfold divDiff
  rw [eval_mul, eval_C, eval_sub, taylor_eval, taylor_eval, div_eq_inv_mul, add_comm x, add_comm x]

/-- `q - q'` for a divided difference `q` loses two degrees (three for central differences). -/
theorem divDiff_sub_derivative (mode : DiffMode) {s : ℝ} (hs : s ≠ 0) {p : ℝ[X]} {n : ℕ}
    (hp : p ∈ degreeLT ℝ n) :
    divDiff mode s p - derivative p ∈ degreeLT ℝ (n - (2 + mode.bonus)) := by
  rw [mem_degreeLT, degree_lt_iff_coeff_zero] at hp ⊢
  intro i hi
  set q := hasseDeriv i p with hq
  have hqc : ∀ j, q.coeff j = ((j + i).choose i : ℝ) * p.coeff (j + i) := fun j =>
    hasseDeriv_coeff i p j
  have hq1 : (derivative p).coeff i = q.coeff 1 := by
    rw [hqc, coeff_derivative, add_comm 1 i, Nat.choose_succ_self_right]
    push_cast
    ring
  have hdeg : ∀ j, 2 + mode.bonus ≤ j → q.coeff j = 0 := by
    intro j hj
    rw [hqc, hp (j + i) (by omega), mul_zero]
  have heval : ∀ r : ℝ, q.eval r = q.coeff 0 + q.coeff 1 * r + q.coeff 2 * r ^ 2 := by
    intro r
    have hlt : q.natDegree < 3 := by
      rw [Nat.lt_iff_le_pred (by norm_num)]
      refine natDegree_le_iff_coeff_eq_zero.2 fun j hj => hdeg j ?_
      cases mode <;> simp [DiffMode.bonus] <;> omega
    rw [eval_eq_sum_range' hlt]
    simp [Finset.sum_range_succ]
  rw [coeff_sub, hq1]
  unfold divDiff
  rw [coeff_C_mul, coeff_sub, taylor_coeff, taylor_coeff, ← hq, heval, heval]
  cases mode with
  | forward =>
    have h2 : q.coeff 2 = 0 := hdeg 2 (by simp [DiffMode.bonus])
    rw [h2]
    simp only [fdOffsets]
    field_simp
    ring
  | backward =>
    have h2 : q.coeff 2 = 0 := hdeg 2 (by simp [DiffMode.bonus])
    rw [h2]
    simp only [fdOffsets]
    field_simp
    ring
  | central =>
    simp only [fdOffsets]
    push_cast
    field_simp
    ring

theorem derivative_degreeLT {p : ℝ[X]} {n : ℕ} (hp : p ∈ degreeLT ℝ n) :
    derivative p ∈ degreeLT ℝ (n - 1) := by
  rw [mem_degreeLT, degree_lt_iff_coeff_zero] at hp ⊢
  intro i hi
  rw [coeff_derivative, hp (i + 1) (by omega), zero_mul]

theorem degreeLT_mono' {p : ℝ[X]} {m n : ℕ} (h : m ≤ n) (hp : p ∈ degreeLT ℝ m) :
    p ∈ degreeLT ℝ n := degreeLT_mono h hp

theorem iterate_degreeLT {p : ℝ[X]} {n : ℕ} (hp : p ∈ degreeLT ℝ n) (c : ℕ) :
    derivative^[c] p ∈ degreeLT ℝ (n - c) := by
  induction c with
  | zero => exact hp
  | succ c ih =>
    rw [Function.iterate_succ_apply']
    exact degreeLT_mono' (by omega) (derivative_degreeLT ih)

/-- The invariant: after `c` differences, `q` is the `c`-th derivative of `p` up to low degree. -/
def Tracks (mode : DiffMode) (n c : ℕ) (p q : ℝ[X]) : Prop :=
  p ∈ degreeLT ℝ n ∧ q - derivative^[c] p ∈ degreeLT ℝ (n - (c + 1 + mode.bonus))

theorem Tracks.init (mode : DiffMode) {n : ℕ} {p : ℝ[X]} (hp : p ∈ degreeLT ℝ n) :
    Tracks mode n 0 p p := ⟨hp, by simp⟩

theorem Tracks.step {mode : DiffMode} {n c : ℕ} {p q : ℝ[X]} (h : Tracks mode n c p q) {s : ℝ}
    (hs : s ≠ 0) : Tracks mode n (c + 1) p (divDiff mode s q) := by
  refine ⟨h.1, ?_⟩
  have hq : q ∈ degreeLT ℝ (n - c) := by
    have := Submodule.add_mem _ (degreeLT_mono' (n := n - c) (by omega) h.2)
      (iterate_degreeLT h.1 c)
    simpa using this
  have h1 := divDiff_sub_derivative mode hs hq
  have h2 := derivative_degreeLT h.2
  have := Submodule.add_mem (degreeLT ℝ (n - (c + 1 + 1 + mode.bonus)))
    (degreeLT_mono' (by omega) h1) (degreeLT_mono' (by omega) h2)
  rw [Function.iterate_succ_apply']
  convert this using 1
  rw [derivative_sub]
  ring

theorem Tracks.exact {mode : DiffMode} {n c : ℕ} {p q : ℝ[X]} (h : Tracks mode n c p q)
    (hn : n ≤ c + 1 + mode.bonus) : q = derivative^[c] p := by
  have h2 := h.2
  rw [Nat.sub_eq_zero_of_le hn, mem_degreeLT] at h2
  have : q - derivative^[c] p = 0 := by
    rw [← degree_eq_bot]
    exact Nat.WithBot.lt_zero_iff.1 h2
  exact sub_eq_zero.1 this

/-- C13. The finite difference of order `k + 1` of every polynomial of degree at most `k + 1`
(`k + 2` for central differences) is exactly the derivative of that order, at every point, for
every nonzero step and step multiplier. -/
theorem fdDiff_exact (c : FdConfig ℝ) (hm : c.multiplier ≠ 0) (p : ℝ[X]) (k : ℕ)
    (hp : p.natDegree ≤ k + 1 + c.method.bonus) (x s : ℝ) (hs : s ≠ 0) :
    fdDiff c (fun t => p.eval t) k x s = (derivative^[k + 1] p).eval x := by
  have key : ∀ (n k : ℕ) (s : ℝ), s ≠ 0 → p ∈ degreeLT ℝ n →
      ∃ q, Tracks c.method n (k + 1) p q ∧
        ∀ x, fdDiff c (fun t => p.eval t) k x s = q.eval x := by
    intro n k
    induction k with
    | zero =>
      intro s hs hp
      exact ⟨_, (Tracks.init c.method hp).step hs, fun x => (divDiff_eval _ _ _ _).symm⟩
    | succ k ih =>
      intro s hs hp
      obtain ⟨q, hq, he⟩ := ih (c.multiplier * s) (mul_ne_zero hm hs) hp
      refine ⟨_, hq.step hs, fun x => ?_⟩
      rw [divDiff_eval]
      simp only [fdDiff]
      rw [he, he]
  obtain ⟨q, hq, he⟩ := key (k + 2 + c.method.bonus) k s hs (by
    rw [mem_degreeLT]
    refine lt_of_le_of_lt degree_le_natDegree ?_
    exact_mod_cast (by omega : p.natDegree < k + 2 + c.method.bonus))
  rw [he, hq.exact (by omega)]

theorem fd_check_ok {c : FdConfig ℝ} (h : 0 < c.stepSize) : c.check = .ok () := by
  unfold FdConfig.check
  have h1 : (c.stepSize == 0) = false := by simpa using h.ne'
  have h2 : Fns.isFinite c.stepSize = true := rfl
  rw [h1, h2]
  simp [not_lt.2 h.le]

/-- C13. The public call on a polynomial: with any positive step it returns the derivative. -/
theorem fdSingle_exact (c : FdConfig ℝ) (hs : 0 < c.stepSize) (hm : c.multiplier ≠ 0) (p : ℝ[X])
    (order : ℕ) (ho : order ≠ 0) (hp : p.natDegree ≤ order + c.method.bonus) (x : ℝ) :
    fdSingle c order (fun t => p.eval t) x = .ok ((derivative^[order] p).eval x) := by
  obtain ⟨k, rfl⟩ : ∃ k, order = k + 1 := ⟨order - 1, by omega⟩
  unfold fdSingle
  rw [if_neg ho, fd_check_ok hs, Nat.add_sub_cancel]
  exact congrArg Except.ok (fdDiff_exact c hm p k hp x _ hs.ne')

/-! ### Several variables -/

theorem prod_update {n : ℕ} (Q : Fin n → ℝ[X]) (x : Fin n → ℝ) (v : Fin n) (t : ℝ) :
    ∏ k, (Q k).eval (Function.update x v t k) =
      (Q v).eval t * ∏ k ∈ Finset.univ.erase v, (Q k).eval (x k) := by
  rw [← Finset.mul_prod_erase Finset.univ _ (Finset.mem_univ v), Function.update_self]
  congr 1
  refine Finset.prod_congr rfl fun k hk => ?_
  rw [Function.update_of_ne (Finset.ne_of_mem_erase hk)]

/-- The nested difference of a sum of products of one-variable polynomials is one too. -/
theorem fdDiffMulti_tracks {n L : ℕ} (c : FdConfig ℝ) (hm : c.multiplier ≠ 0)
    (p : Fin L → Fin n → ℝ[X]) (N : Fin L → Fin n → ℕ) (hp : ∀ l k, p l k ∈ degreeLT ℝ (N l k))
    (vars : List (Fin n)) : ∀ s : ℝ, s ≠ 0 →
    ∃ Q : Fin L → Fin n → ℝ[X], (∀ l k, Tracks c.method (N l k) (vars.count k) (p l k) (Q l k)) ∧
      (∀ k, k ∉ vars → ∀ l, Q l k = p l k) ∧
      ∀ x, fdDiffMulti c (fun y => ∑ l, ∏ k, (p l k).eval (y k)) vars x s =
        ∑ l, ∏ k, (Q l k).eval (x k) := by
  have core : ∀ (v : Fin n) (rest : List (Fin n)) (s : ℝ), s ≠ 0 →
      ∀ Q : Fin L → Fin n → ℝ[X],
      (∀ l k, Tracks c.method (N l k) (rest.count k) (p l k) (Q l k)) →
      (∀ k, k ∉ rest → ∀ l, Q l k = p l k) →
      (∀ l k, Tracks c.method (N l k) ((v :: rest).count k) (p l k)
        (if k = v then divDiff c.method s (Q l k) else Q l k)) ∧
      (∀ k, k ∉ v :: rest → ∀ l,
        (if k = v then divDiff c.method s (Q l k) else Q l k) = p l k) ∧
      ∀ x : Fin n → ℝ, ((∑ l, ∏ k, (Q l k).eval (Function.update x v
          (x v + (fdOffsets c.method : ℝ × ℝ × ℝ).2.1 * s) k)) -
        ∑ l, ∏ k, (Q l k).eval (Function.update x v
          (x v + (fdOffsets c.method : ℝ × ℝ × ℝ).1 * s) k)) /
          ((fdOffsets c.method : ℝ × ℝ × ℝ).2.2 * s) =
        ∑ l, ∏ k, ((if k = v then divDiff c.method s (Q l k) else Q l k) : ℝ[X]).eval (x k) := by
    intro v rest s hs Q h1 h2
    refine ⟨fun l k => ?_, fun k hk l => ?_, fun x => ?_⟩
    · by_cases hkv : k = v
      · subst hkv
        rw [if_pos rfl, List.count_cons_self]
        exact (h1 l k).step hs
      · rw [if_neg hkv, List.count_cons_of_ne (Ne.symm hkv)]
        exact h1 l k
    · rw [List.mem_cons, not_or] at hk
      rw [if_neg hk.1]
      exact h2 k hk.2 l
    · rw [← Finset.sum_sub_distrib, Finset.sum_div]
      refine Finset.sum_congr rfl fun l _ => ?_
      rw [prod_update, prod_update, ← sub_mul,
        ← Finset.mul_prod_erase Finset.univ (fun k => ((if k = v then divDiff c.method s (Q l k)
          else Q l k) : ℝ[X]).eval (x k)) (Finset.mem_univ v), if_pos rfl, divDiff_eval,
        mul_div_right_comm]
      congr 1
      refine Finset.prod_congr rfl fun k hk => ?_
      rw [if_neg (Finset.ne_of_mem_erase hk)]
  have base : (∀ l k, Tracks c.method (N l k) (([] : List (Fin n)).count k) (p l k) (p l k)) :=
    fun l k => Tracks.init _ (hp l k)
  induction vars with
  | nil => exact fun s _ => ⟨p, base, fun _ _ _ => rfl, fun x => rfl⟩
  | cons v rest ih =>
    intro s hs
    cases rest with
    | nil =>
      obtain ⟨g1, g2, g3⟩ := core v [] s hs p base (fun _ _ _ => rfl)
      exact ⟨_, g1, g2, g3⟩
    | cons w rest =>
      obtain ⟨Q, h1, h2, h3⟩ := ih (c.multiplier * s) (mul_ne_zero hm hs)
      obtain ⟨g1, g2, g3⟩ := core v (w :: rest) s hs Q h1 h2
      refine ⟨_, g1, g2, fun x => ?_⟩
      rw [← g3 x]
      simp only [fdDiffMulti]
      rw [h3, h3]

/-- C13. Mixed partial differences of any order, in any number of variables: exact on every
polynomial (a sum of products of one-variable polynomials) whose degree in each differentiated
variable is at most the number of times it is differentiated (one more for central differences).
Undifferentiated variables may occur in any degree. -/
theorem fdMulti_exact {n L : ℕ} (c : FdConfig ℝ) (hs : 0 < c.stepSize) (hm : c.multiplier ≠ 0)
    (p : Fin L → Fin n → ℝ[X]) (vars : List (Fin n)) (hv : vars ≠ [])
    (hp : ∀ l, ∀ k ∈ vars, (p l k).natDegree ≤ vars.count k + c.method.bonus) (x : Fin n → ℝ) :
    fdMulti c (fun y => ∑ l, ∏ k, (p l k).eval (y k)) (vars.map Fin.val) x =
      .ok (∑ l, ∏ k, (derivative^[vars.count k] (p l k)).eval (x k)) := by
  unfold fdMulti
  rw [if_neg (by simpa using hv), fd_check_ok hs]
  have h1 : ((vars.map Fin.val).any fun i => decide (n ≤ i)) = false := by
    rw [List.any_eq_false]
    intro i hi
    obtain ⟨k, _, rfl⟩ := List.mem_map.1 hi
    simp [k.2]
  have h2 : (vars.map Fin.val).filterMap (fun i => if h : i < n then some (⟨i, h⟩ : Fin n)
      else none) = vars := by
    rw [List.filterMap_map]
    convert List.filterMap_some using 1
    congr 1
    funext k
    simp [Function.comp]
  show (if _ then _ else _) = _
  rw [h1, h2]
  obtain ⟨Q, q1, q2, q3⟩ := fdDiffMulti_tracks c hm p (fun l k => (p l k).natDegree + 1) (by
    intro l k
    rw [mem_degreeLT]
    refine lt_of_le_of_lt degree_le_natDegree ?_
    exact_mod_cast Nat.lt_succ_self _) vars.reverse c.stepSize hs.ne'
  show Except.ok _ = Except.ok _
  rw [q3]
  congr 1
  refine Finset.sum_congr rfl fun l _ => Finset.prod_congr rfl fun k _ => ?_
  by_cases hk : k ∈ vars
  · have := hp l k hk
    rw [(q1 l k).exact (by rw [List.count_reverse]; omega), List.count_reverse]
  · rw [q2 k (by simpa using hk) l, List.count_eq_zero_of_not_mem hk]
    rfl

/-! ### Refusals -/

section
variable {T : Type} [Zero T] [One T] [NatCast T] [Add T] [Sub T] [Mul T] [Div T] [Neg T] [LT T]
  [DecidableLT T] [BEq T] [Fns T]

/-- C13. Refusals and their precedence, for every scalar type: order zero first, then a zero step,
then a non-finite or negative step, then an index out of range; in every other case a value is
returned. -/
theorem fd_errors {n : ℕ} (c : FdConfig T) (f : T → T) (F : (Fin n → T) → T) (order : ℕ)
    (idx : List ℕ) (x : T) (X : Fin n → T) :
    fdSingle c 0 f x = .error .orderZero ∧ fdMulti c F [] X = .error .orderZero ∧
    (order ≠ 0 → idx ≠ [] →
      (((c.stepSize == 0) = true → fdSingle c order f x = .error .stepSizeZero ∧
        fdMulti c F idx X = .error .stepSizeZero) ∧
      ((c.stepSize == 0) = false → (Fns.isFinite c.stepSize = false ∨ c.stepSize < 0) →
        fdSingle c order f x = .error .invalidStepSize ∧
        fdMulti c F idx X = .error .invalidStepSize) ∧
      ((c.stepSize == 0) = false → Fns.isFinite c.stepSize = true → ¬ c.stepSize < 0 →
        (∃ v, fdSingle c order f x = .ok v) ∧
        ((∃ i ∈ idx, n ≤ i) → fdMulti c F idx X = .error .indexOutOfRange) ∧
        ((∀ i ∈ idx, i < n) → ∃ v, fdMulti c F idx X = .ok v)))) := by
  refine ⟨rfl, rfl, fun ho hi => ⟨fun h => ?_, fun h h' => ?_, fun h h1 h2 => ⟨?_, ?_, ?_⟩⟩⟩
  · have hc : c.check = .error .stepSizeZero := by unfold FdConfig.check; rw [if_pos h]
    unfold fdSingle fdMulti
    rw [if_neg ho, if_neg (by simpa using hi), hc]
    exact ⟨rfl, rfl⟩
  · have hc : c.check = .error .invalidStepSize := by
      unfold FdConfig.check
      rw [if_neg (by simp [h]), if_pos (by
        rcases h' with h' | h'
        · simp [h']
        · simp [h'])]
    unfold fdSingle fdMulti
    rw [if_neg ho, if_neg (by simpa using hi), hc]
    exact ⟨rfl, rfl⟩
  all_goals
    have hc : c.check = .ok () := by
      unfold FdConfig.check
      rw [if_neg (by simp [h]), if_neg (by simp [h1, h2])]
  · unfold fdSingle
    rw [if_neg ho, hc]
    exact ⟨_, rfl⟩
  · rintro ⟨i, hi1, hi2⟩
    unfold fdMulti
    rw [if_neg (by simpa using hi), hc]
    show (if _ then _ else _) = _
    rw [if_pos (by rw [List.any_eq_true]; exact ⟨i, hi1, by simpa using hi2⟩)]
  · intro hall
    unfold fdMulti
    rw [if_neg (by simpa using hi), hc]
    refine ⟨_, if_neg (by
      rw [List.any_eq_true]
      rintro ⟨i, hi1, hi2⟩
      have := hall i hi1
      simp at hi2
      omega)⟩

end

/-- The refusals are reachable: a NaN step on the extended reals, a negative step on the reals. -/
example : Fns.isFinite (XR.nan : XR) = false ∧ ((-1 : ℝ) == 0) = false ∧ (-1 : ℝ) < 0 :=
  ⟨rfl, by simp, by norm_num⟩

/-- Central differences of `x²·y²` once in each of `x`, `x`, `y` are within the exact class. -/
example : ∀ l : Fin 1, ∀ k ∈ ([0, 0, 1] : List (Fin 2)),
    ((fun _ k => if k = 0 then X ^ 2 else X ^ 2 : Fin 1 → Fin 2 → ℝ[X]) l k).natDegree ≤
      ([0, 0, 1] : List (Fin 2)).count k + DiffMode.central.bonus := by
  intro l k _
  fin_cases k <;> simp [DiffMode.bonus]

end Multicalc
