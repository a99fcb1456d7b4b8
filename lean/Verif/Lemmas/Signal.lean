import Mathlib.Data.List.Rotate
import Mathlib.Tactic
import Verif.Model.Signal

/-!
# Helper lemmas for the signal-processing properties
-/

namespace Multicalc
variable {T : Type}

theorem runFilter_snd {S I O : Type} (step : S → I → O × S) (s : S) (xs : List I) :
    (runFilter step s xs).2 = xs.foldl (fun s x => (step s x).2) s := by
  induction xs generalizing s with
  | nil => rfl
  | cons x xs ih => simp only [runFilter, List.foldl_cons, ih]

theorem runFilter_append {S I O : Type} (step : S → I → O × S) (s : S) (xs ys : List I) :
    runFilter step s (xs ++ ys) =
      ((runFilter step s xs).1 ++ (runFilter step (runFilter step s xs).2 ys).1,
       (runFilter step (runFilter step s xs).2 ys).2) := by
  induction xs generalizing s with
  | nil => rfl
  | cons x xs ih => simp only [runFilter, List.cons_append, ih]

theorem set_rotate (l : List T) (n W : ℕ) (x : T) (hl : l.length = W) (hn : n < W) :
    (l.set n x).rotate ((n + 1) % W) = (l.rotate n).tail ++ [x] := by
  have hW : (l.set n x).length = W := by simp [hl]
  conv_lhs => rw [← hW, List.rotate_mod]
  rw [List.rotate_eq_drop_append_take (by rw [hW]; omega),
    List.rotate_eq_drop_append_take (by omega)]
  rw [List.drop_set_of_lt (by omega), List.take_set]
  have h2 : l.take (n + 1) = l.take n ++ [l[n]] := by simp
  rw [h2, List.set_append_right _ _ (by simp)]
  have h3 : n - (l.take n).length = 0 := by simp; omega
  rw [h3]
  simp only [List.set_cons_zero]
  rw [List.tail_append_of_ne_nil (by simp; omega), List.tail_drop, List.append_assoc]

/-! ## Sorting -/

section sort
variable [Zero T] [LT T] [DecidableLT T]

/-- Insertion into the reversed prefix. -/
def insRev (m : T) : List T → List T
  | [] => [m]
  | a :: l => if m < a then a :: insRev m l else m :: a :: l

theorem insRev_perm (m : T) (l : List T) : (insRev m l).Perm (m :: l) := by
  induction l with
  | nil => simp [insRev]
  | cons a l ih =>
    simp only [insRev]
    split
    · exact (List.Perm.cons a ih).trans (List.Perm.swap m a l)
    · exact List.Perm.refl _

theorem shiftInto_eq (m : T) (p : List T) (y : T) (post : List T) :
    shiftInto m (p.reverse ++ y :: post) p.length = (insRev m p).reverse ++ post := by
  induction p generalizing y post with
  | nil => simp [shiftInto, insRev]
  | cons a p ih =>
    simp only [List.length_cons, shiftInto, insRev, List.reverse_cons, List.append_assoc,
      List.cons_append, List.nil_append]
    have hget : (p.reverse ++ a :: y :: post).getD p.length 0 = a := by
      simp [List.getD_eq_getElem?_getD]
    have hset : ∀ z, (p.reverse ++ a :: y :: post).set (p.length + 1) z =
        p.reverse ++ a :: z :: post := by
      intro z
      rw [List.set_append_right _ _ (by simp)]
      simp
    rw [hget, hset, hset]
    split
    · rw [ih]; simp
    · simp

theorem windowSort_prefix (l : List T) (k : ℕ) (hk : k + 1 ≤ l.length) :
    ∃ q : List T, q.Perm (l.take (k + 1)) ∧ q.length = k + 1 ∧
      (List.range' 1 k).foldl
        (fun sorted placed => shiftInto (sorted.getD placed 0) sorted placed) l
        = q.reverse ++ l.drop (k + 1) := by
  induction k with
  | zero =>
    refine ⟨l.take 1, List.Perm.refl _, by simp; omega, ?_⟩
    match l, hk with
    | a :: l, _ => simp
  | succ k ih =>
    obtain ⟨q, hq, hlen, he⟩ := ih (by omega)
    rw [List.range'_concat, List.foldl_append, he]
    simp only [List.foldl_cons, List.foldl_nil, mul_one, one_mul]
    have hd : l.drop (k + 1) = l[k + 1] :: l.drop (k + 2) := List.drop_eq_getElem_cons (by omega)
    rw [hd]
    have hg : (q.reverse ++ l[k + 1] :: l.drop (k + 2)).getD (1 + k) 0 = l[k + 1] := by
      rw [List.getD_eq_getElem?_getD, List.getElem?_append_right (by simp; omega),
        List.length_reverse, show 1 + k - q.length = 0 by omega]
      rfl
    rw [hg, show 1 + k = q.length by omega, shiftInto_eq]
    refine ⟨insRev l[k + 1] q, ?_, ?_, rfl⟩
    · refine (insRev_perm _ _).trans ?_
      rw [List.take_succ_eq_append_getElem (by omega)]
      exact (List.Perm.cons _ hq).trans (List.perm_append_singleton _ _).symm
    · rw [(insRev_perm _ _).length_eq]; simp; omega

/-- The sort returns a rearrangement of the samples, whatever the comparison does. -/
theorem windowSort_perm (l : List T) : (windowSort l.length l).Perm l := by
  unfold windowSort
  rcases Nat.eq_zero_or_pos l.length with h | h
  · simp [h]
  · obtain ⟨q, hq, hlen, he⟩ := windowSort_prefix l (l.length - 1) (by omega)
    rw [he]
    have e : l.length - 1 + 1 = l.length := by omega
    rw [e] at hq ⊢
    simp only [List.drop_length, List.append_nil]
    exact (List.reverse_perm q).trans (by simpa using hq)

end sort

section linear
variable [Zero T] [LinearOrder T]

theorem insRev_sorted (m : T) (l : List T) (h : l.Pairwise (· ≥ ·)) :
    (insRev m l).Pairwise (· ≥ ·) := by
  induction l with
  | nil => simp [insRev]
  | cons a l ih =>
    simp only [insRev]
    have h' := List.pairwise_cons.mp h
    split
    · next hm =>
      refine List.pairwise_cons.mpr ⟨?_, ih h'.2⟩
      intro b hb
      rcases List.mem_cons.mp ((insRev_perm m l).mem_iff.mp hb) with rfl | hb
      · exact hm.le
      · exact h'.1 b hb
    · next hm =>
      refine List.pairwise_cons.mpr ⟨?_, h⟩
      intro b hb
      rcases List.mem_cons.mp hb with rfl | hb
      · exact not_lt.mp hm
      · exact (h'.1 b hb).trans (not_lt.mp hm)

theorem windowSort_prefix_sorted (l : List T) (k : ℕ) (hk : k + 1 ≤ l.length) :
    ∃ q : List T, q.Pairwise (· ≥ ·) ∧ q.length = k + 1 ∧
      (List.range' 1 k).foldl
        (fun sorted placed => shiftInto (sorted.getD placed 0) sorted placed) l
        = q.reverse ++ l.drop (k + 1) := by
  induction k with
  | zero =>
    refine ⟨l.take 1, ?_, by simp; omega, ?_⟩
    · match l, hk with
      | a :: l, _ => simp
    · match l, hk with
      | a :: l, _ => simp
  | succ k ih =>
    obtain ⟨q, hq, hlen, he⟩ := ih (by omega)
    rw [List.range'_concat, List.foldl_append, he]
    simp only [List.foldl_cons, List.foldl_nil, mul_one, one_mul]
    have hd : l.drop (k + 1) = l[k + 1] :: l.drop (k + 2) := List.drop_eq_getElem_cons (by omega)
    rw [hd]
    have hg : (q.reverse ++ l[k + 1] :: l.drop (k + 2)).getD (1 + k) 0 = l[k + 1] := by
      rw [List.getD_eq_getElem?_getD, List.getElem?_append_right (by simp; omega),
        List.length_reverse, show 1 + k - q.length = 0 by omega]
      rfl
    rw [hg, show 1 + k = q.length by omega, shiftInto_eq]
    refine ⟨insRev l[k + 1] q, insRev_sorted _ _ hq, ?_, rfl⟩
    rw [(insRev_perm _ _).length_eq]; simp; omega

theorem windowSort_sorted (l : List T) : (windowSort l.length l).Pairwise (· ≤ ·) := by
  unfold windowSort
  rcases Nat.eq_zero_or_pos l.length with h | h
  · have := List.eq_nil_of_length_eq_zero h; simp [this]
  · obtain ⟨q, hq, hlen, he⟩ := windowSort_prefix_sorted l (l.length - 1) (by omega)
    rw [he]
    have e : l.length - 1 + 1 = l.length := by omega
    rw [e]
    simp only [List.drop_length, List.append_nil]
    exact List.pairwise_reverse.mpr hq

theorem countP_lt_sorted (l : List T) (h : l.Pairwise (· ≤ ·)) (k : ℕ) (hk : k < l.length) :
    l.countP (fun x => decide (x < l[k])) ≤ k ∧
    l.countP (fun x => decide (l[k] < x)) ≤ l.length - k - 1 := by
  have hmono : ∀ i j (hi : i < l.length) (hj : j < l.length), i ≤ j → l[i] ≤ l[j] := by
    intro i j hi hj hij
    rcases Nat.eq_or_lt_of_le hij with rfl | hlt
    · exact le_refl _
    · exact List.pairwise_iff_getElem.mp h i j hi hj hlt
  obtain ⟨m, hm⟩ : ∃ m, m = l[k] := ⟨_, rfl⟩
  rw [← hm]
  constructor
  · conv_lhs => rw [← List.take_append_drop k l, List.countP_append]
    have : (l.drop k).countP (fun x => decide (x < m)) = 0 := by
      rw [List.countP_eq_zero, hm]
      intro x hx
      obtain ⟨i, hi, rfl⟩ := List.getElem_of_mem hx
      rw [List.getElem_drop]
      simp only [decide_eq_true_eq, not_lt]
      exact hmono _ _ _ _ (by omega)
    rw [this, add_zero]
    refine le_trans List.countP_le_length ?_
    simp
  · conv_lhs => rw [← List.take_append_drop (k + 1) l, List.countP_append]
    have : (l.take (k + 1)).countP (fun x => decide (m < x)) = 0 := by
      rw [List.countP_eq_zero, hm]
      intro x hx
      obtain ⟨i, hi, rfl⟩ := List.getElem_of_mem hx
      rw [List.getElem_take]
      simp only [decide_eq_true_eq, not_lt]
      simp at hi
      exact hmono _ _ _ _ (by omega)
    rw [this, zero_add]
    refine le_trans List.countP_le_length ?_
    simp; omega

end linear

end Multicalc
