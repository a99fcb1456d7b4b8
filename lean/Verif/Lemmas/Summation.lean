import Mathlib.Algebra.BigOperators.Group.Finset.Basic
import Mathlib.Algebra.Order.BigOperators.Group.Finset
import Mathlib.Data.Multiset.Basic
import Mathlib.Tactic
import Verif.Model.Summation

/-!
# Invariant of the pairwise accumulator

The invariant is generic in what is claimed about a partial sum, so that one induction gives both
the exact statement and the rounding-error statement.
-/

namespace Multicalc.PairwiseSum

theorem bit_ne_zero_iff (w : BitVec 64) (k : ℕ) :
    (w &&& (1#64 <<< k)) ≠ 0 ↔ w.getLsbD k = true := by
  constructor
  · intro h
    by_contra hk
    apply h
    apply BitVec.eq_of_getLsbD_eq
    intro i hi
    simp only [BitVec.getLsbD_and, BitVec.getLsbD_shiftLeft, BitVec.getLsbD_one]
    by_cases hik : i = k
    · subst hik; simp only [Bool.not_eq_true] at hk; simp [hk]
    · by_cases h2 : i < k
      · simp [h2]
      · simp [show i - k ≠ 0 by omega]
  · intro hk h
    have h1 := congrArg (fun w => BitVec.getLsbD w k) h
    have hk64 : k < 64 := by
      by_contra hc
      rw [BitVec.getLsbD_of_ge _ _ (by omega)] at hk; simp at hk
    rw [BitVec.getLsbD_eq_getElem hk64] at hk
    simp [hk64] at h1
    rw [h1] at hk; exact absurd hk (by simp)

theorem bit_clear (w : BitVec 64) (k j : ℕ) (hk : k < 64) :
    (w &&& ~~~(1#64 <<< k)).getLsbD j = (w.getLsbD j && decide (j ≠ k)) := by
  simp only [BitVec.getLsbD_and, BitVec.getLsbD_not, BitVec.getLsbD_shiftLeft, BitVec.getLsbD_one]
  by_cases hj : j < 64
  · by_cases hjk : j = k
    · subst hjk; simp [hj]
    · by_cases h2 : j < k
      · simp [hj, h2, hjk]
      · simp [hj, hjk, show j - k ≠ 0 by omega]
  · rw [BitVec.getLsbD_of_ge _ _ (by omega)]; simp

theorem bit_set (w : BitVec 64) (k j : ℕ) (hk : k < 64) :
    (w ||| (1#64 <<< k)).getLsbD j = (w.getLsbD j || decide (j = k)) := by
  simp only [BitVec.getLsbD_or, BitVec.getLsbD_shiftLeft, BitVec.getLsbD_one]
  by_cases hjk : j = k
  · subst hjk; simp [hk]
  · by_cases h2 : j < k
    · simp [hjk, h2]
    · simp [hjk, show j - k ≠ 0 by omega]

variable {T : Type} [Zero T] [Add T]

/-- What has to be known about partial sums.  `blk n v A`: the partial block value `v` of `n` terms
stands for the terms `A`.  `slot k v A`: the same for the slot of level `k`. `fin k v A`: the same
for the final scan after the levels below `k`. -/
structure Claims (T : Type) [Zero T] [Add T] (all : Multiset T) where
  blk : ℕ → T → Multiset T → Prop
  slot : ℕ → T → Multiset T → Prop
  fin : ℕ → T → Multiset T → Prop
  blk_zero : blk 0 0 0
  blk_add : ∀ n v A x, blk n v A → blk (n + 1) (v + x) (A + {x})
  blk_full : ∀ v A, blk sumBlock v A → slot 0 v A
  slot_carry : ∀ k a b A B, slot k a A → slot k b B → slot (k + 1) (a + b) (A + B)
  slot_top : ∀ v A, slot sumLevels v A → A ≤ all → slot (sumLevels - 1) v A
  fin_start : ∀ n v A, n < sumBlock → blk n v A → fin 0 v A
  fin_add : ∀ k s t A B, fin k s A → slot k t B → fin (k + 1) (s + t) (A + B)
  fin_skip : ∀ k s A, fin k s A → fin (k + 1) s A

variable {all : Multiset T}

/-- The occupied slots stand for the terms `S k`; empty slots stand for nothing. -/
structure Slots (C : Claims T all) (tree : ℕ → T) (occ : BitVec 64) (S : ℕ → Multiset T) :
    Prop where
  low : ∀ k, sumLevels ≤ k → occ.getLsbD k = false
  full : ∀ k, occ.getLsbD k = true → C.slot k (tree k) (S k)
  empty : ∀ k, occ.getLsbD k = false → S k = 0

theorem carry_spec (C : Claims T all) (tree : ℕ → T) (occ : BitVec 64) (value : T) (level : ℕ)
    (S : ℕ → Multiset T) (A : Multiset T) (hS : Slots C tree occ S)
    (hl : level ≤ sumLevels) (hlow : ∀ k < level, occ.getLsbD k = false)
    (hv : C.slot level value A) :
    let r := carry tree occ value level
    r.2.2 ≤ sumLevels ∧ (∀ k ≤ r.2.2, r.2.1.getLsbD k = false) ∧
    ∃ S' A', Slots C tree r.2.1 S' ∧ C.slot r.2.2 r.1 A' ∧
      A' + ∑ k ∈ Finset.range sumLevels, S' k = A + ∑ k ∈ Finset.range sumLevels, S k := by
  induction hd : sumLevels - level generalizing occ value level S A with
  | zero =>
    have : level = sumLevels := by omega
    rw [carry, dif_neg (by omega)]
    refine ⟨hl, ?_, S, A, hS, hv, rfl⟩
    intro k hk
    rcases Nat.lt_or_ge k level with h | h
    · exact hlow k h
    · exact hS.low k (by omega)
  | succ d ih =>
    rw [carry]
    by_cases h : level < sumLevels ∧ (occ &&& (1#64 <<< level)) ≠ 0
    · rw [dif_pos h]
      have hb := (bit_ne_zero_iff _ _).mp h.2
      have hlt : level < 64 := by have := h.1; simp only [sumLevels] at this; omega
      have := ih (occ &&& ~~~(1#64 <<< level)) (tree level + value) (level + 1)
        (Function.update S level 0) (S level + A) ?_ (by omega) ?_
        (C.slot_carry _ _ _ _ _ (hS.full level hb) hv) (by omega)
      · obtain ⟨h1, h2, S', A', h3, h4, h5⟩ := this
        refine ⟨h1, h2, S', A', h3, h4, ?_⟩
        rw [h5, Finset.sum_update_of_mem (by simp [h.1]),
          Finset.sum_eq_add_sum_sdiff_singleton_of_mem (Finset.mem_range.mpr h.1) S, zero_add]
        abel
      · constructor
        · intro k hk; rw [bit_clear _ _ _ hlt, hS.low k hk]; rfl
        · intro k hk
          rw [bit_clear _ _ _ hlt] at hk
          simp only [Bool.and_eq_true, decide_eq_true_eq] at hk
          rw [Function.update_of_ne hk.2]; exact hS.full k hk.1
        · intro k hk
          rw [bit_clear _ _ _ hlt] at hk
          by_cases hkl : k = level
          · subst hkl; simp
          · rw [Function.update_of_ne hkl]
            exact hS.empty k (by simpa [hkl] using hk)
      · intro k hk
        rw [bit_clear _ _ _ hlt]
        by_cases hkl : k = level
        · simp [hkl]
        · rw [hlow k (by omega)]; rfl
    · rw [dif_neg h]
      refine ⟨hl, ?_, S, A, hS, hv, rfl⟩
      intro k hk
      rcases Nat.lt_or_ge k level with h' | h'
      · exact hlow k h'
      · have hkl : k = level := by simp only at hk; omega
        subst hkl
        by_contra hc
        simp only [Bool.not_eq_false] at hc
        exact h ⟨by omega, (bit_ne_zero_iff _ _).mpr hc⟩

/-- The accumulator stands for the terms `ts`. -/
structure Inv (C : Claims T all) (s : PairwiseSum T) (ts : Multiset T) : Prop where
  count : s.blockCount < sumBlock
  parts : ∃ S A, Slots C s.tree s.occupied S ∧ C.blk s.blockCount s.blockSum A ∧
    A + ∑ k ∈ Finset.range sumLevels, S k = ts

theorem inv_new (C : Claims T all) : Inv C new 0 := by
  refine ⟨by simp [new, sumBlock], fun _ => 0, 0, ⟨?_, ?_, ?_⟩, C.blk_zero, by simp⟩
  · intro k _; simp [new]
  · intro k hk; simp [new] at hk
  · intro k _; rfl

theorem inv_add (C : Claims T all) (s : PairwiseSum T) (ts : Multiset T) (x : T)
    (h : Inv C s ts) (hall : ts + {x} ≤ all) : Inv C (s.add x) (ts + {x}) := by
  obtain ⟨hc, S, A, hS, hA, hsum⟩ := h
  have hb := C.blk_add _ _ _ x hA
  unfold add
  dsimp only
  by_cases hfull : s.blockCount + 1 = sumBlock
  · rw [if_pos hfull]
    rw [hfull] at hb
    have hq := C.blk_full _ _ hb
    obtain ⟨h1, h2, S', A', h3, h4, h5⟩ :=
      carry_spec C s.tree s.occupied (s.blockSum + x) 0 S (A + {x}) hS (by simp) (by simp) hq
    have htot : A' + ∑ k ∈ Finset.range sumLevels, S' k = ts + {x} := by
      rw [h5, ← hsum]; abel
    unfold push
    dsimp only
    set r := carry s.tree s.occupied (s.blockSum + x) 0
    obtain ⟨lev, hlev⟩ : ∃ lev, lev = if r.2.2 = sumLevels then sumLevels - 1 else r.2.2 := ⟨_, rfl⟩
    rw [← hlev]
    have hlt : lev < sumLevels := by
      rw [hlev]; split
      · simp [sumLevels]
      · omega
    have hlt64 : lev < 64 := by simp only [sumLevels] at hlt; omega
    have hle : lev ≤ r.2.2 := by rw [hlev]; split <;> omega
    have hslot : C.slot lev r.1 A' := by
      rw [hlev]; split
      · next hh =>
        apply C.slot_top _ _ (hh ▸ h4)
        calc A' ≤ A' + ∑ k ∈ Finset.range sumLevels, S' k := Multiset.le_add_right _ _
          _ = ts + {x} := htot
          _ ≤ all := hall
      · exact h4
    have hbit : r.2.1.getLsbD lev = false := h2 lev hle
    refine ⟨by simp [sumBlock], Function.update S' lev A', 0, ⟨?_, ?_, ?_⟩, C.blk_zero, ?_⟩
    · intro k hk
      rw [bit_set _ _ _ hlt64, h3.low k hk]
      simp; omega
    · intro k hk
      rw [bit_set _ _ _ hlt64] at hk
      by_cases hkl : k = lev
      · subst hkl; simpa using hslot
      · dsimp only
        rw [Function.update_of_ne hkl, Function.update_of_ne hkl]
        exact h3.full k (by simpa [hkl] using hk)
    · intro k hk
      rw [bit_set _ _ _ hlt64] at hk
      by_cases hkl : k = lev
      · simp [hkl] at hk
      · rw [Function.update_of_ne hkl]
        exact h3.empty k (by simpa [hkl] using hk)
    · have hz := h3.empty lev hbit
      rw [zero_add, Finset.sum_update_of_mem (by simp [hlt]), ← htot,
        Finset.sum_eq_add_sum_sdiff_singleton_of_mem (Finset.mem_range.mpr hlt) S', hz, zero_add]
  · rw [if_neg hfull]
    refine ⟨by simp only; omega, S, A + {x}, hS, hb, ?_⟩
    rw [← hsum]; abel

theorem inv_foldl (C : Claims T all) (xs : List T) (s : PairwiseSum T) (ts : Multiset T)
    (h : Inv C s ts) (hall : ts + (xs : Multiset T) ≤ all) :
    Inv C (xs.foldl add s) (ts + (xs : Multiset T)) := by
  induction xs generalizing s ts with
  | nil => simpa using h
  | cons x xs ih =>
    have e : ts + ((x :: xs : List T) : Multiset T) = ts + {x} + (xs : Multiset T) := by
      rw [add_assoc, ← Multiset.cons_coe, Multiset.singleton_add]
    rw [e] at hall ⊢
    exact ih _ _ (inv_add C s ts x h (le_trans (Multiset.le_add_right _ _) hall)) hall

theorem bit_of_size (w : BitVec 64) (k : ℕ) (h : w.toNat.size ≤ k) : w.getLsbD k = false := by
  rw [BitVec.getLsbD]
  exact Nat.testBit_lt_two_pow (Nat.size_le.mp h)

theorem size_bit (w : BitVec 64) (h : 0 < w.toNat.size) :
    w.getLsbD (w.toNat.size - 1) = true := by
  rw [BitVec.getLsbD]
  set n := w.toNat
  have h1 : 2 ^ (n.size - 1) ≤ n := Nat.lt_size.mp (by omega)
  have h2 : n < 2 ^ (n.size - 1 + 1) := by
    rw [Nat.sub_add_cancel h]; exact Nat.lt_size_self n
  exact Nat.testBit_of_two_pow_le_and_two_pow_add_one_gt h1 h2

theorem total_spec (C : Claims T all) (s : PairwiseSum T) (ts : Multiset T) (h : Inv C s ts) :
    C.fin s.occupied.toNat.size s.total ts ∧ s.occupied.toNat.size ≤ sumLevels ∧
    (0 < s.occupied.toNat.size → ∃ v B, C.slot (s.occupied.toNat.size - 1) v B ∧ B ≤ ts) := by
  obtain ⟨hc, S, A, hS, hA, hsum⟩ := h
  have hsize : s.occupied.toNat.size ≤ sumLevels := by
    by_contra hcon
    have := size_bit s.occupied (by omega)
    rw [hS.low _ (by omega)] at this; simp at this
  refine ⟨?_, hsize, ?_⟩
  · have key : ∀ n, C.fin n ((List.range n).foldl
        (fun sum level => if (s.occupied &&& (1#64 <<< level)) ≠ 0 then sum + s.tree level else sum)
        s.blockSum) (A + ∑ k ∈ Finset.range n, S k) := by
      intro n
      induction n with
      | zero => simpa using C.fin_start _ _ _ hc hA
      | succ n ih =>
        rw [List.range_succ, List.foldl_append, Finset.sum_range_succ]
        simp only [List.foldl_cons, List.foldl_nil]
        split
        · next hb =>
          rw [← add_assoc]
          exact C.fin_add _ _ _ _ _ ih (hS.full n ((bit_ne_zero_iff _ _).mp hb))
        · next hb =>
          rw [bit_ne_zero_iff, Bool.not_eq_true] at hb
          rw [hS.empty n hb, add_zero]
          exact C.fin_skip _ _ _ ih
    have hk := key s.occupied.toNat.size
    have e : ∑ k ∈ Finset.range s.occupied.toNat.size, S k = ∑ k ∈ Finset.range sumLevels, S k := by
      apply Finset.sum_subset (Finset.range_mono hsize)
      intro k _ hk
      exact hS.empty k (bit_of_size _ _ (by simpa using hk))
    rw [e, hsum] at hk
    exact hk
  · intro hpos
    refine ⟨_, _, hS.full _ (size_bit _ hpos), ?_⟩
    rw [← hsum]
    refine le_trans ?_ (Multiset.le_add_left _ _)
    exact Finset.single_le_sum (f := S) (fun _ _ => Multiset.zero_le _)
      (Finset.mem_range.mpr (by omega))

end Multicalc.PairwiseSum
