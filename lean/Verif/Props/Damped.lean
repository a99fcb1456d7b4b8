import Verif.Props.LeastSquares

/-!
# Damped least squares (C97)
-/

namespace Multicalc

open Matrix

variable {m n : ℕ}

/-! ### One rotation -/

theorem givensPair_spec (d e : ℝ) (he : e ≠ 0) :
    (givensPair d e).2 ^ 2 + (givensPair d e).1 ^ 2 = 1 ∧ -(givensPair d e).1 * d + (givensPair d e).2 * e = 0 := by
  have hroot : ∀ t : ℝ, (1 / ((2 : ℕ) : ℝ)) / √(25 / 100 + 25 / 100 * t * t) = 1 / √(1 + t ^ 2) := by
    intro t
    have h1 : (25 / 100 + 25 / 100 * t * t : ℝ) = (1 / 2) ^ 2 * (1 + t ^ 2) := by ring
    rw [h1, Real.sqrt_mul (by positivity), Real.sqrt_sq (by norm_num)]
    have : √(1 + t ^ 2) ≠ 0 := (Real.sqrt_pos.2 (by positivity)).ne'
    push_cast
    field_simp
  have hsq : ∀ t : ℝ, (1 / √(1 + t ^ 2)) ^ 2 * (1 + t ^ 2) = 1 := by
    intro t
    have h0 : (0 : ℝ) < 1 + t ^ 2 := by positivity
    rw [div_pow, Real.sq_sqrt h0.le]
    field_simp
  unfold givensPair
  have hl : (Fns.lit (25 / 100) : ℝ) = 25 / 100 := by simp [Fns.lit]
  dsimp only
  rw [hl]
  simp only [real_abs, real_sqrt, hroot]
  split_ifs with h
  · have hd : d ≠ 0 := fun h0 => he (abs_eq_zero.1 (le_antisymm (by rw [h0, abs_zero] at h; exact h) (abs_nonneg _)))
    dsimp only
    refine ⟨?_, ?_⟩
    · linear_combination hsq (e / d)
    · field_simp
      ring
  · dsimp only
    refine ⟨?_, ?_⟩
    · linear_combination hsq (d / e)
    · field_simp
      ring

theorem rot_sum (k : Fin n) (f f' g g' : Fin n → ℝ) (x x' y y' c s : ℝ) (hcs : c ^ 2 + s ^ 2 = 1)
    (hf : ∀ r, r ≠ k → f' r = f r) (hg : ∀ r, r ≠ k → g' r = g r) (hfk : f' k = c * f k + s * x)
    (hgk : g' k = c * g k + s * y) (hx : x' = -s * f k + c * x) (hy : y' = -s * g k + c * y) :
    ∑ r, f' r * g' r + x' * y' = ∑ r, f r * g r + x * y := by
  rw [← Finset.add_sum_erase _ _ (Finset.mem_univ k), ← Finset.add_sum_erase _ (fun r => f r * g r) (Finset.mem_univ k)]
  have : ∑ r ∈ Finset.univ.erase k, f' r * g' r = ∑ r ∈ Finset.univ.erase k, f r * g r :=
    Finset.sum_congr rfl fun r hr => by rw [hf r (Finset.mem_erase.1 hr).1, hg r (Finset.mem_erase.1 hr).1]
  rw [this, hfk, hgk, hx, hy]
  linear_combination (f k * g k + x * y) * hcs

namespace GivensState

/-- The triangular matrix a state stands for when so many rows are done. -/
def upper (j : ℕ) (s : GivensState n ℝ) : Matrix (Fin n) (Fin n) ℝ := fun k i =>
  if k < i then s.factor i k else if k = i then (if k.val < j then s.sDiag k else s.factor k k) else 0

/-- The row still to be rotated away. -/
def rest (k : ℕ) (s : GivensState n ℝ) : Fin n → ℝ := fun i => if k ≤ i.val then s.sDiag i else 0

/-- What the rotations preserve. -/
def gram (j k : ℕ) (s : GivensState n ℝ) (a b : Fin n) : ℝ :=
  ∑ r, s.upper j r a * s.upper j r b + s.rest k a * s.rest k b

/-- What the rotations preserve on the right-hand side. -/
def image (j k : ℕ) (s : GivensState n ℝ) (a : Fin n) : ℝ :=
  ∑ r, s.upper j r a * s.work r + s.rest k a * s.extra

theorem givensStep_inv (j : ℕ) (s : GivensState n ℝ) (k : Fin n) (hjk : j ≤ k.val) :
    (∀ a b, (givensStep s k).gram j (k.val + 1) a b = s.gram j k.val a b)
    ∧ ∀ a, (givensStep s k).image j (k.val + 1) a = s.image j k.val a := by
  unfold givensStep
  by_cases h : s.sDiag k = 0
  · rw [if_pos (by simpa using h)]
    have e : s.rest (k.val + 1) = s.rest k.val := by
      ext i
      unfold rest
      by_cases hi : k.val + 1 ≤ i.val
      · rw [if_pos hi, if_pos (by omega)]
      · rw [if_neg hi]
        by_cases hk : k.val ≤ i.val
        · have : i = k := Fin.ext (by omega)
          rw [if_pos hk, this, h]
        · rw [if_neg hk]
    simp only [gram, image, e, implies_true, and_self]
  · rw [if_neg (by simpa using h)]
    obtain ⟨hcs, hz⟩ := givensPair_spec (s.factor k k) (s.sDiag k) h
    dsimp only
    generalize (givensPair (s.factor k k) (s.sDiag k)).1 = sn at *
    generalize (givensPair (s.factor k k) (s.sDiag k)).2 = cn at *
    set s' : GivensState n ℝ :=
      { factor := fun i c =>
          if c = k then
            if i = k then cn * s.factor k k + sn * s.sDiag k
            else if k < i then cn * s.factor i k + sn * s.sDiag i
            else s.factor i c
          else s.factor i c
        sDiag := fun i => if k < i then -sn * s.factor i k + cn * s.sDiag i else s.sDiag i
        work := Function.update s.work k (cn * s.work k + sn * s.extra)
        extra := -sn * s.work k + cn * s.extra } with hs'
    have hrow : ∀ r a, r ≠ k → s'.upper j r a = s.upper j r a := by
      intro r a hr
      unfold upper
      have hf : ∀ i, s'.factor i r = s.factor i r := fun i => by simp [hs', hr]
      have hd : r.val < j → s'.sDiag r = s.sDiag r := by
        intro hrj
        have : ¬(k < r) := fun h => by have := Fin.lt_def.1 h; omega
        simp [hs', this]
      rw [hf, hf]
      split_ifs with h1 h2 h3
      · rfl
      · exact hd h3
      · rfl
      · rfl
    have hk : ∀ a, s'.upper j k a = cn * s.upper j k a + sn * s.rest k.val a := by
      intro a
      have hkj : ¬(k.val < j) := not_lt.2 hjk
      unfold upper rest
      rcases lt_trichotomy k a with hlt | rfl | hlt
      · have h1 : k.val ≤ a.val := Fin.le_def.1 hlt.le
        rw [if_pos hlt, if_pos hlt, if_pos h1]
        simp [hs', hlt, hlt.ne']
      · simp [hs', hkj]
      · have h1 : ¬(k.val ≤ a.val) := not_le.2 hlt
        rw [if_neg (not_lt.2 hlt.le), if_neg (not_lt.2 hlt.le), if_neg hlt.ne', if_neg hlt.ne', if_neg h1]
        ring
    have hw : ∀ a, s'.rest (k.val + 1) a = -sn * s.upper j k a + cn * s.rest k.val a := by
      intro a
      have hkj : ¬(k.val < j) := not_lt.2 hjk
      unfold upper rest
      rcases lt_trichotomy k a with hlt | rfl | hlt
      · have h1 : k.val + 1 ≤ a.val := hlt
        rw [if_pos h1, if_pos hlt, if_pos (by omega : k.val ≤ a.val)]
        simp [hs', hlt]
      · rw [if_neg (by omega), if_neg (lt_irrefl _), if_pos rfl, if_neg hkj, if_pos le_rfl]
        exact hz.symm
      · have h1 : ¬(k.val ≤ a.val) := not_le.2 hlt
        rw [if_neg (by omega), if_neg (not_lt.2 hlt.le), if_neg hlt.ne', if_neg h1]
        ring
    refine ⟨fun a b => ?_, fun a => ?_⟩
    · exact rot_sum k _ _ _ _ _ _ _ _ cn sn hcs (fun r hr => hrow r a hr) (fun r hr => hrow r b hr) (hk a) (hk b)
        (hw a) (hw b)
    · refine rot_sum k _ _ _ _ _ _ _ _ cn sn hcs (fun r hr => hrow r a hr) (fun r hr => ?_) (hk a) ?_ (hw a) ?_
      · simp [hs', hr]
      · simp [hs']
      · simp [hs']

end GivensState

theorem indicesFrom_drop (j : ℕ) : indicesFrom n j = (List.finRange n).drop j := by
  unfold indicesFrom
  conv_lhs => rw [← List.take_append_drop j (List.finRange n)]
  rw [List.filter_append, List.filter_eq_nil_iff.2, List.nil_append, List.filter_eq_self.2]
  · intro i hi
    obtain ⟨k, hk, rfl⟩ := List.mem_drop_iff_getElem.1 hi
    simp
  · intro i hi
    have := mem_take_finRange hi
    simpa using this

theorem drop_finRange (k : ℕ) (hk : k < n) : (List.finRange n).drop k = ⟨k, hk⟩ :: (List.finRange n).drop (k + 1) := by
  rw [List.drop_eq_getElem_cons (by simpa using hk)]
  simp

theorem givens_fold (j : ℕ) (d k : ℕ) (hd : k + d = n) (hjk : j ≤ k) (s : GivensState n ℝ) :
    (∀ a b, (((List.finRange n).drop k).foldl givensStep s).gram j n a b = s.gram j k a b)
    ∧ ∀ a, (((List.finRange n).drop k).foldl givensStep s).image j n a = s.image j k a := by
  induction d generalizing k s with
  | zero =>
    have : k = n := by omega
    subst this
    rw [List.drop_of_length_le (by simp)]
    simp
  | succ d ih =>
    have hk : k < n := by omega
    rw [drop_finRange k hk, List.foldl_cons]
    obtain ⟨h1, h2⟩ := ih (k + 1) (by omega) (by omega) (givensStep s ⟨k, hk⟩)
    obtain ⟨h3, h4⟩ := GivensState.givensStep_inv j s ⟨k, hk⟩ hjk
    exact ⟨fun a b => (h1 a b).trans (h3 a b), fun a => (h2 a).trans (h4 a)⟩

theorem givens_fold_low (l : List (Fin n)) (j : ℕ) (hl : ∀ k ∈ l, j ≤ k.val) (s : GivensState n ℝ) (i : Fin n) (hi : i.val < j) :
    (l.foldl givensStep s).sDiag i = s.sDiag i := by
  induction l generalizing s with
  | nil => rfl
  | cons k l ih =>
    rw [List.foldl_cons, ih (fun k hk => hl k (List.mem_cons_of_mem _ hk))]
    unfold givensStep
    split_ifs
    · rfl
    · have : ¬(k < i) := fun h => by
        have := hl k List.mem_cons_self
        have := Fin.lt_def.1 h
        omega
      simp [this]

theorem upper_restore (v : ℝ) (t : GivensState n ℝ) (j : Fin n) : GivensState.upper (j.val + 1)
    ({ t with sDiag := Function.update t.sDiag j (t.factor j j)
              factor := fun i c => if i = j ∧ c = j then v else t.factor i c } : GivensState n ℝ) = t.upper j.val := by
  ext k i
  unfold GivensState.upper
  dsimp only
  rcases lt_trichotomy k i with h | rfl | h
  · rw [if_pos h, if_pos h, if_neg]
    rintro ⟨rfl, rfl⟩
    exact lt_irrefl _ h
  · rw [if_neg (lt_irrefl _), if_neg (lt_irrefl _), if_pos rfl, if_pos rfl]
    rcases lt_trichotomy k j with h | rfl | h
    · have h1 : k.val < j.val := h
      rw [if_pos (by omega), if_pos h1, Function.update_of_ne h.ne]
    · rw [if_pos (Nat.lt_succ_self _), Function.update_self, if_neg (lt_irrefl _)]
    · have h1 : j.val < k.val := h
      rw [if_neg (by omega : ¬(k.val < j.val + 1)), if_neg (by omega : ¬(k.val < j.val)), if_neg (fun e : k = j ∧ k = j => h.ne' e.1)]
  · rw [if_neg (not_lt.2 h.le), if_neg (not_lt.2 h.le), if_neg h.ne', if_neg h.ne']

theorem eliminateRow_inv (perm : Fin n → Fin n) (saved diag : Fin n → ℝ) (s : GivensState n ℝ) (j : Fin n) :
    (∀ a b, ∑ r, (eliminateRow perm saved diag s j).upper (j.val + 1) r a * (eliminateRow perm saved diag s j).upper (j.val + 1) r b
      = ∑ r, s.upper j.val r a * s.upper j.val r b + (if a = j ∧ b = j then diag (perm j) ^ 2 else 0))
    ∧ ∀ a, ∑ r, (eliminateRow perm saved diag s j).upper (j.val + 1) r a * (eliminateRow perm saved diag s j).work r
      = ∑ r, s.upper j.val r a * s.work r := by
  have hfin := fun t => upper_restore (saved j) t j
  unfold eliminateRow
  by_cases hz : diag (perm j) = 0
  · simp only [hz, bne_self_eq_false, Bool.false_eq_true, if_false]
    rw [hfin]
    refine ⟨fun a b => ?_, fun a => rfl⟩
    simp
  · have hb : (diag (perm j) != 0) = true := by simpa using hz
    simp only [hb, if_true]
    rw [hfin, indicesFrom_drop]
    set s1 : GivensState n ℝ := { s with
          sDiag := fun k => if k = j then diag (perm j) else if j < k then 0 else s.sDiag k
          extra := 0 } with hs1
    obtain ⟨h1, h2⟩ := givens_fold j.val (n - j.val) j.val (by have := j.isLt; omega) le_rfl s1
    have hup : s1.upper j.val = s.upper j.val := by
      ext k i
      unfold GivensState.upper
      have hd : k.val < j.val → s1.sDiag k = s.sDiag k := by
        intro h
        have h' : k < j := h
        simp [hs1, h'.ne, not_lt.2 h'.le]
      split_ifs with h1 h2 h3
      · rfl
      · exact hd h3
      · rfl
      · rfl
    have hrest : ∀ i, s1.rest j.val i = if i = j then diag (perm j) else 0 := by
      intro i
      unfold GivensState.rest
      rcases lt_trichotomy i j with h | rfl | h
      · have h1 : ¬(j.val ≤ i.val) := not_le.2 h
        simp [h1, h.ne]
      · simp [hs1]
      · have h1 : j.val ≤ i.val := Fin.le_def.1 h.le
        simp [hs1, h1, h.ne', h]
    have hend : ∀ (t : GivensState n ℝ) i, t.rest n i = 0 := by
      intro t i
      unfold GivensState.rest
      rw [if_neg (by have := i.isLt; omega)]
    refine ⟨fun a b => ?_, fun a => ?_⟩
    · have := h1 a b
      unfold GivensState.gram at this
      rw [hend, hend, mul_zero, add_zero, hup, hrest, hrest] at this
      rw [this]
      congr 1
      by_cases ha : a = j <;> by_cases hb : b = j <;> simp [ha, hb, sq]
    · have := h2 a
      unfold GivensState.image at this
      rw [hend, zero_mul, add_zero, hup] at this
      refine this.trans ?_
      have : s1.extra = 0 := rfl
      rw [this, mul_zero, add_zero]

namespace DampedLeastSquares

/-- What the elimination leaves: a triangular matrix whose Gram matrix is that of the triangular factor plus the squares
of the diagonal, and the right-hand side that goes with it. -/
theorem eliminated_spec (d : DampedLeastSquares n ℝ) (hup : ∀ i j, j < i → d.triangular i j = 0) (diag : Fin n → ℝ) :
    ((d.eliminated diag).upper n)ᵀ * (d.eliminated diag).upper n
      = d.triangularᵀ * d.triangular + Matrix.diagonal (fun j => diag (d.permutation j) ^ 2)
    ∧ ((d.eliminated diag).upper n)ᵀ *ᵥ (d.eliminated diag).work = d.triangularᵀ *ᵥ d.qtb := by
  unfold eliminated
  set mirrored : Matrix (Fin n) (Fin n) ℝ := fun i j => if j < i then d.triangular j i else d.triangular i j with hm
  have key : ∀ j ≤ n,
      let s := ((List.finRange n).take j).foldl (eliminateRow d.permutation (fun j => mirrored j j) diag)
        ⟨mirrored, fun _ => 0, d.qtb, 0⟩
      (∀ a b, ∑ r, s.upper j r a * s.upper j r b = ∑ r, d.triangular r a * d.triangular r b
        + if a = b ∧ a.val < j then diag (d.permutation a) ^ 2 else 0)
      ∧ ∀ a, ∑ r, s.upper j r a * s.work r = ∑ r, d.triangular r a * d.qtb r := by
    intro j
    induction j with
    | zero =>
      intro _
      have e : GivensState.upper 0 (⟨mirrored, fun _ => 0, d.qtb, 0⟩ : GivensState n ℝ) = d.triangular := by
        ext k i
        unfold GivensState.upper
        rcases lt_trichotomy k i with h | rfl | h
        · simp [h, hm]
        · simp [hm]
        · simp [not_lt.2 h.le, h.ne', hup k i h]
      simp only [List.take_zero, List.foldl_nil]
      rw [e]
      refine ⟨fun a b => ?_, fun a => rfl⟩
      simp
    | succ j ih =>
      intro hj
      have hlt : j < n := hj
      obtain ⟨h1, h2⟩ := ih hlt.le
      have htake : (List.finRange n).take (j + 1) = (List.finRange n).take j ++ [⟨j, hlt⟩] := by
        rw [List.take_succ_eq_append_getElem (by simpa using hlt)]
        simp
      rw [htake]
      simp only [List.foldl_append, List.foldl_cons, List.foldl_nil]
      obtain ⟨h3, h4⟩ := eliminateRow_inv d.permutation (fun j => mirrored j j) diag
        (((List.finRange n).take j).foldl (eliminateRow d.permutation (fun j => mirrored j j) diag)
        ⟨mirrored, fun _ => 0, d.qtb, 0⟩) ⟨j, hlt⟩
      refine ⟨fun a b => ?_, fun a => (h4 a).trans (h2 a)⟩
      refine (h3 a b).trans ?_
      dsimp only
      rw [h1 a b, add_assoc]
      congr 1
      by_cases ha : a = ⟨j, hlt⟩
      · subst ha
        by_cases hb : b = ⟨j, hlt⟩
        · subst hb; simp
        · simp [hb, Ne.symm hb]
      · have hv : a.val ≠ j := fun e => ha (Fin.ext e)
        have : a.val < j + 1 ↔ a.val < j := by omega
        simp [ha, this]
  obtain ⟨h1, h2⟩ := key n le_rfl
  rw [show (List.finRange n).take n = List.finRange n from List.take_of_length_le (by simp)] at h1 h2
  refine ⟨?_, ?_⟩
  · ext a b
    rw [mul_apply, Matrix.add_apply, mul_apply, diagonal_apply]
    simp only [transpose_apply]
    rw [h1 a b]
    simp
  · ext a
    exact h2 a

theorem leading_spec (sDiag : Fin n → ℝ) :
    leading sDiag ≤ n ∧ (∀ j : Fin n, j.val < leading sDiag → sDiag j ≠ 0)
    ∧ ∀ h : leading sDiag < n, sDiag ⟨leading sDiag, h⟩ = 0 := by
  have key : ∀ k ≤ n, let v := (((List.finRange n).take k).foldl
      (fun nsing j => if sDiag j == 0 && nsing == n then j.val else nsing) n);
      (v = n ∧ ∀ j : Fin n, j.val < k → sDiag j ≠ 0)
      ∨ ∃ i : Fin n, v = i.val ∧ (∀ j : Fin n, j < i → sDiag j ≠ 0) ∧ sDiag i = 0 := by
    intro k
    induction k with
    | zero => intro _; exact Or.inl ⟨rfl, fun j hj => absurd hj (Nat.not_lt_zero _)⟩
    | succ k ih =>
      intro hk
      have hlt : k < n := hk
      have htake : (List.finRange n).take (k + 1) = (List.finRange n).take k ++ [⟨k, hlt⟩] := by
        rw [List.take_succ_eq_append_getElem (by simpa using hlt)]
        simp
      rw [htake]
      simp only [List.foldl_append, List.foldl_cons, List.foldl_nil]
      have h := ih hlt.le
      dsimp only at h
      generalize ((List.finRange n).take k).foldl _ n = v at *
      rcases h with ⟨rfl, h⟩ | ⟨i, rfl, h1, h2⟩
      · by_cases hz : sDiag ⟨k, hlt⟩ = 0
        · right
          simp only [hz, beq_self_eq_true, Bool.and_self, if_true]
          exact ⟨⟨k, hlt⟩, rfl, fun j hj => h j hj, hz⟩
        · left
          have hb : (sDiag ⟨k, hlt⟩ == 0) = false := by simpa using hz
          simp only [hb, Bool.false_and, Bool.false_eq_true, if_false, true_and]
          intro j hj
          by_cases hjk : j.val < k
          · exact h j hjk
          · have : j = ⟨k, hlt⟩ := Fin.ext (by simp; omega)
            rw [this]; exact hz
      · right
        have hb : (i.val == n) = false := by simpa using i.isLt.ne
        simp only [hb, Bool.and_false, Bool.false_eq_true, if_false]
        exact ⟨i, rfl, h1, h2⟩
  have h := key n le_rfl
  rw [show (List.finRange n).take n = List.finRange n from List.take_of_length_le (by simp)] at h
  have e : leading sDiag = (List.finRange n).foldl
      (fun nsing j => if sDiag j == 0 && nsing == n then j.val else nsing) n := rfl
  dsimp only at h
  rw [← e] at h
  rcases h with ⟨hv, h⟩ | ⟨i, hv, h1, h2⟩
  · exact ⟨hv.le, fun j _ => h j j.isLt, fun h' => absurd hv h'.ne⟩
  · refine ⟨hv ▸ i.isLt.le, fun j hj => h1 j (by rw [hv] at hj; exact hj), fun h' => ?_⟩
    have : (⟨leading sDiag, h'⟩ : Fin n) = i := Fin.ext hv
    rw [this]
    exact h2

theorem backSolve_spec (factor : Matrix (Fin n) (Fin n) ℝ) (sDiag : Fin n → ℝ) (nsing : ℕ) (hns : ∀ r : Fin n, r.val < nsing → sDiag r ≠ 0)
    (j : ℕ) (hj : j ≤ nsing) (hn : nsing ≤ n) (y : Fin n → ℝ) :
    let z := ((List.finRange n).take j).reverse.foldl (backSolve factor sDiag nsing) y
    (∀ c : Fin n, j ≤ c.val → z c = y c)
    ∧ ∀ r : Fin n, r.val < j → sDiag r * z r + ∑ c : Fin n, (if r < c ∧ c.val < nsing then factor c r * z c else 0) = y r := by
  induction j generalizing y with
  | zero => exact ⟨fun _ _ => rfl, fun r hr => absurd hr (Nat.not_lt_zero _)⟩
  | succ j ih =>
    have hlt : j < n := by omega
    have htake : ((List.finRange n).take (j + 1)).reverse = ⟨j, hlt⟩ :: ((List.finRange n).take j).reverse := by
      rw [List.take_succ_eq_append_getElem (by simpa using hlt)]
      simp
    rw [htake, List.foldl_cons]
    obtain ⟨h1, h2⟩ := ih (by omega) (backSolve factor sDiag nsing y ⟨j, hlt⟩)
    have hval : backSolve factor sDiag nsing y ⟨j, hlt⟩ = Function.update y ⟨j, hlt⟩
        ((y ⟨j, hlt⟩ - ∑ c : Fin n, (if ⟨j, hlt⟩ < c ∧ c.val < nsing then factor c ⟨j, hlt⟩ * y c else 0)) / sDiag ⟨j, hlt⟩) := by
      unfold backSolve
      dsimp only
      rw [sumOver_eq, indicesFrom, List.filter_filter, sum_filter_finRange]
      congr 3
      refine Finset.sum_congr rfl fun c _ => ?_
      refine if_congr ?_ rfl rfl
      rw [Bool.and_eq_true, decide_eq_true_iff, decide_eq_true_iff, Fin.lt_def]
      simp only [Nat.succ_le_iff]
      exact and_comm
    dsimp only at h1 h2 ⊢
    generalize hz : ((List.finRange n).take j).reverse.foldl (backSolve factor sDiag nsing) (backSolve factor sDiag nsing y ⟨j, hlt⟩) = z at *
    rw [hval] at h1 h2
    refine ⟨fun c hc => ?_, fun r hr => ?_⟩
    · rw [h1 c (by omega), Function.update_of_ne]
      intro e
      rw [e] at hc
      exact absurd hc (by simp)
    · by_cases hrj : r.val < j
      · rw [h2 r hrj, Function.update_of_ne]
        intro e
        rw [e] at hrj
        exact absurd hrj (by simp)
      · have hr' : r = ⟨j, hlt⟩ := Fin.ext (by simp; omega)
        subst hr'
        have hsum : ∑ c : Fin n, (if ⟨j, hlt⟩ < c ∧ c.val < nsing then factor c ⟨j, hlt⟩ * z c else 0)
            = ∑ c : Fin n, (if ⟨j, hlt⟩ < c ∧ c.val < nsing then factor c ⟨j, hlt⟩ * y c else 0) := by
          refine Finset.sum_congr rfl fun c _ => ?_
          split_ifs with hc
          · have hc' : j < c.val := hc.1
            rw [h1 c hc'.le, Function.update_of_ne (fun e => by rw [e] at hc'; exact lt_irrefl _ hc')]
          · rfl
        rw [hsum, h1 ⟨j, hlt⟩ le_rfl, Function.update_self, mul_div_cancel₀ _ (hns ⟨j, hlt⟩ (by simp; omega))]
        ring

theorem filter_lt_reverse (k : ℕ) : ((List.finRange n).reverse.filter fun j => j.val < k) = ((List.finRange n).take k).reverse := by
  rw [List.filter_reverse]
  congr 1
  conv_lhs => rw [← List.take_append_drop k (List.finRange n)]
  rw [List.filter_append]
  rw [List.filter_eq_self.2 (fun i hi => by simpa using mem_take_finRange hi)]
  rw [List.filter_eq_nil_iff.2, List.append_nil]
  intro i hi
  obtain ⟨k, hk, rfl⟩ := List.mem_drop_iff_getElem.1 hi
  simp

/-- The vector the back substitution finds, in the order of the factorisation. -/
theorem solve_rows (d : DampedLeastSquares n ℝ) (hp : Function.Injective d.permutation) (diag : Fin n → ℝ) :
    let x := (d.solveWithDiagonal diag).1
    let s := d.eliminated diag
    (∀ r : Fin n, r.val < leading s.sDiag → (s.upper n *ᵥ fun j => x (d.permutation j)) r = s.work r)
    ∧ ∀ r : Fin n, leading s.sDiag ≤ r.val → x (d.permutation r) = 0 := by
  intro x s
  obtain ⟨hle, hne, -⟩ := leading_spec s.sDiag
  have hx : ∀ j, x (d.permutation j) = ((List.finRange n).take (leading s.sDiag)).reverse.foldl
      (backSolve s.factor s.sDiag (leading s.sDiag)) (fun j => if leading s.sDiag ≤ j.val then 0 else s.work j) j := by
    intro j
    have : x = PivotedQr.unpermute d.permutation (((List.finRange n).reverse.filter fun j => j.val < leading s.sDiag).foldl
      (backSolve s.factor s.sDiag (leading s.sDiag)) (fun j => if leading s.sDiag ≤ j.val then 0 else s.work j)) := rfl
    rw [this, PivotedQr.unpermute_spec _ hp, filter_lt_reverse]
  obtain ⟨h1, h2⟩ := backSolve_spec s.factor s.sDiag (leading s.sDiag) hne (leading s.sDiag) le_rfl hle
    (fun j => if leading s.sDiag ≤ j.val then 0 else s.work j)
  generalize ((List.finRange n).take (leading s.sDiag)).reverse.foldl
      (backSolve s.factor s.sDiag (leading s.sDiag)) (fun j => if leading s.sDiag ≤ j.val then 0 else s.work j) = z at *
  have hzero : ∀ r : Fin n, leading s.sDiag ≤ r.val → z r = 0 := fun r hr => by rw [h1 r hr, if_pos hr]
  refine ⟨fun r hr => ?_, fun r hr => by rw [hx r, hzero r hr]⟩
  have := h2 r hr
  rw [if_neg (not_le.2 hr)] at this
  rw [← this]
  simp only [mulVec, dotProduct, hx]
  rw [← Finset.add_sum_erase _ _ (Finset.mem_univ r), ← Finset.add_sum_erase (Finset.univ : Finset (Fin n)) (fun c : Fin n =>
    if r < c ∧ c.val < leading s.sDiag then s.factor c r * z c else 0) (Finset.mem_univ r)]
  congr 1
  · simp [GivensState.upper]
  · rw [if_neg (fun h => lt_irrefl _ h.1), zero_add]
    refine Finset.sum_congr rfl fun c hc => ?_
    have hcr : c ≠ r := (Finset.mem_erase.1 hc).1
    unfold GivensState.upper
    by_cases hlt : r < c
    · by_cases hcl : c.val < leading s.sDiag
      · rw [if_pos hlt, if_pos ⟨hlt, hcl⟩]
      · rw [if_neg (fun h : r < c ∧ c.val < DampedLeastSquares.leading s.sDiag => hcl h.2), hzero c (not_lt.1 hcl), mul_zero]
    · rw [if_neg hlt, if_neg hcr.symm, if_neg (fun h : r < c ∧ c.val < DampedLeastSquares.leading s.sDiag => hlt h.1), zero_mul]

theorem upper_det (s : GivensState n ℝ) : (s.upper n).det = ∏ j, s.sDiag j := by
  rw [det_of_upperTriangular (fun i j hij => by
    have : j < i := hij
    simp [GivensState.upper, this.ne', not_lt.2 this.le])]
  simp [GivensState.upper]

end DampedLeastSquares

/-! ### The damped problem -/

namespace PivotedQr

theorem transposeApply_eq {q : PivotedQr m n ℝ} {A : Matrix (Fin m) (Fin n) ℝ} {U : Matrix (Fin m) (Fin m) ℝ} (h : q.Of A U)
    (b : Fin m → ℝ) : q.transposeApply b = U *ᵥ b := by
  unfold transposeApply
  rw [foldl_apply, h.prod]

theorem gram_eq {q : PivotedQr m n ℝ} {A : Matrix (Fin m) (Fin n) ℝ} {U : Matrix (Fin m) (Fin m) ℝ} (h : q.Of A U) :
    q.triangularᵀ * q.triangular = (Aᵀ * A).submatrix q.permutation q.permutation := by
  have e1 : q.stackedᵀ * q.stacked = (A.submatrix id q.permutation)ᵀ * A.submatrix id q.permutation := by
    have key : ∀ (Q : Matrix (Fin m) (Fin m) ℝ) (B : Matrix (Fin m) (Fin n) ℝ), Qᵀ * Q = 1 → (Q * B)ᵀ * (Q * B) = Bᵀ * B := by
      intro Q B hQ
      rw [transpose_mul, Matrix.mul_assoc, ← Matrix.mul_assoc Qᵀ, hQ, Matrix.one_mul]
    rw [← h.fact, key _ _ h.orth]
  have e2 : q.triangularᵀ * q.triangular = q.stackedᵀ * q.stacked := by
    ext a b
    rw [mul_apply, mul_apply]
    simp only [transpose_apply]
    rw [← sum_castLE q.tall _ (fun i hi => by rw [q.stacked_bottom i hi a, zero_mul])]
    simp only [q.stacked_top]
  rw [e2, e1]
  rfl

theorem image_eq {q : PivotedQr m n ℝ} {A : Matrix (Fin m) (Fin n) ℝ} {U : Matrix (Fin m) (Fin m) ℝ} (h : q.Of A U)
    (b : Fin m → ℝ) (c : Fin n) : (q.triangularᵀ *ᵥ (q.intoDamped b).qtb) c = (Aᵀ *ᵥ b) (q.permutation c) := by
  have : (A.submatrix id q.permutation)ᵀ = q.stackedᵀ * U := by
    rw [← h.fact, transpose_mul, Matrix.mul_assoc, h.orth, Matrix.mul_one]
  have e : (Aᵀ *ᵥ b) (q.permutation c) = ((A.submatrix id q.permutation)ᵀ *ᵥ b) c := rfl
  rw [e, this, ← mulVec_mulVec, ← transposeApply_eq h]
  simp only [mulVec, dotProduct, transpose_apply, intoDamped]
  rw [← sum_castLE q.tall (fun i => q.stacked i c * _) (fun i hi => by rw [q.stacked_bottom i hi c, zero_mul])]
  simp only [q.stacked_top]

theorem triangular_zero (q : PivotedQr m n ℝ) (i j : Fin n) (h : j < i) : q.triangular i j = 0 := by
  simp [triangular, h.ne', not_lt.2 h.le]

end PivotedQr

/-- `Aᵀ A x + D² x`, entry by entry. -/
theorem damped_gram {q : PivotedQr m n ℝ} {A : Matrix (Fin m) (Fin n) ℝ} {U : Matrix (Fin m) (Fin m) ℝ} (h : q.Of A U)
    (diag x : Fin n → ℝ) (c : Fin n) :
    ((q.triangularᵀ * q.triangular + Matrix.diagonal fun j => diag (q.permutation j) ^ 2) *ᵥ fun j => x (q.permutation j)) c
      = (Aᵀ *ᵥ (A *ᵥ x)) (q.permutation c) + diag (q.permutation c) ^ 2 * x (q.permutation c) := by
  rw [PivotedQr.gram_eq h, add_mulVec, Pi.add_apply, mulVec_diagonal, mulVec_mulVec]
  congr 1
  simp only [mulVec, dotProduct, submatrix_apply]
  exact Function.Bijective.sum_comp h.perm fun k => (Aᵀ * A) (q.permutation c) k * x k

set_option maxHeartbeats 1000000 in
/-- C97. The damped problem: whenever `Aᵀ A + D²` is invertible — for instance when no entry of the diagonal is zero —
the step returned is the one solution of `(Aᵀ A + D²) x = Aᵀ b`, so it minimises `‖A x − b‖² + ‖D x‖²`, and the factor
returned with it is a Cholesky factor of that matrix with rows and columns permuted. -/
theorem damped_solve_correct (minPositive largest : ℝ) (hl : 0 < largest) (A : Matrix (Fin m) (Fin n) ℝ)
    (hA : ∀ c, √(∑ i, A i c ^ 2) * m < √largest) (q : PivotedQr m n ℝ)
    (hq : PivotedQr.decompose minPositive largest A = .ok q) (b : Fin m → ℝ) (diag : Fin n → ℝ)
    (hinj : ∀ v, A *ᵥ v = 0 → (∀ c, diag c * v c = 0) → v = 0) :
    let x := ((q.intoDamped b).solveWithDiagonal diag).1
    let L : Matrix (Fin n) (Fin n) ℝ := fun i k =>
      if k < i then ((q.intoDamped b).solveWithDiagonal diag).2.factor i k
      else if i = k then ((q.intoDamped b).solveWithDiagonal diag).2.sDiag i else 0
    (∀ c, (Aᵀ *ᵥ (A *ᵥ x)) c + diag c ^ 2 * x c = (Aᵀ *ᵥ b) c)
    ∧ (∀ y, (A *ᵥ x - b) ⬝ᵥ (A *ᵥ x - b) + ∑ c, (diag c * x c) ^ 2 ≤ (A *ᵥ y - b) ⬝ᵥ (A *ᵥ y - b) + ∑ c, (diag c * y c) ^ 2)
    ∧ (∀ y, (∀ c, (Aᵀ *ᵥ (A *ᵥ y)) c + diag c ^ 2 * y c = (Aᵀ *ᵥ b) c) → y = x)
    ∧ (∀ i, ((q.intoDamped b).solveWithDiagonal diag).2.sDiag i ≠ 0)
    ∧ L * Lᵀ = (Aᵀ * A + Matrix.diagonal fun c => diag c ^ 2).submatrix q.permutation q.permutation := by
  obtain ⟨-, U, h⟩ := decompose_of minPositive largest hl A hA q hq
  intro x L
  set d := q.intoDamped b with hd
  obtain ⟨e1, e2⟩ := d.eliminated_spec (fun i j hij => q.triangular_zero i j hij) diag
  have htri : d.triangular = q.triangular := rfl
  have hperm : d.permutation = q.permutation := rfl
  rw [htri, hperm] at e1
  rw [htri] at e2
  have hnn : ∀ v : Fin m → ℝ, 0 ≤ v ⬝ᵥ v := fun v => Finset.sum_nonneg fun i _ => mul_self_nonneg _
  have huniq : ∀ y, (∀ c, (Aᵀ *ᵥ (A *ᵥ y)) c + diag c ^ 2 * y c = 0) → y = 0 := by
    intro y hy
    have hs : (A *ᵥ y) ⬝ᵥ (A *ᵥ y) + ∑ c, (diag c * y c) ^ 2 = 0 := by
      rw [dotProduct_mulVec, ← mulVec_transpose]
      rw [show (Aᵀ *ᵥ A *ᵥ y) ⬝ᵥ y = ∑ c, (Aᵀ *ᵥ A *ᵥ y) c * y c from rfl, ← Finset.sum_add_distrib]
      refine Finset.sum_eq_zero fun c _ => ?_
      linear_combination y c * hy c
    have h2 : 0 ≤ ∑ c, (diag c * y c) ^ 2 := Finset.sum_nonneg fun c _ => sq_nonneg _
    refine hinj y (dotProduct_self_zero (by linarith)) fun c => ?_
    have h3 : (diag c * y c) ^ 2 ≤ ∑ c, (diag c * y c) ^ 2 :=
      Finset.single_le_sum (f := fun c => (diag c * y c) ^ 2) (fun c _ => sq_nonneg _) (Finset.mem_univ c)
    have h4 := hnn (A *ᵥ y)
    exact pow_eq_zero_iff (two_ne_zero) |>.1 (le_antisymm (by linarith) (sq_nonneg _))
  have hdet : ∏ j, (d.eliminated diag).sDiag j ≠ 0 := by
    rw [← DampedLeastSquares.upper_det]
    intro h0
    obtain ⟨v, hv0, hv⟩ := exists_mulVec_eq_zero_iff.2 h0
    apply hv0
    obtain ⟨w, rfl⟩ : ∃ w : Fin n → ℝ, v = fun j => w (q.permutation j) := by
      let σ := Equiv.ofBijective _ h.perm
      refine ⟨fun c => v (σ.symm c), ?_⟩
      ext j
      exact congrArg v (σ.symm_apply_apply j).symm
    have hw : w = 0 := by
      refine huniq w fun c => ?_
      obtain ⟨j, rfl⟩ := h.perm.2 c
      rw [← damped_gram h diag w j, ← e1, ← mulVec_mulVec, hv, mulVec_zero]
      rfl
    rw [hw]
    rfl
  have hne : ∀ j, (d.eliminated diag).sDiag j ≠ 0 := fun j => (Finset.prod_ne_zero_iff.1 hdet) j (Finset.mem_univ j)
  obtain ⟨hle, -, hz⟩ := DampedLeastSquares.leading_spec (d.eliminated diag).sDiag
  have hfull : DampedLeastSquares.leading (d.eliminated diag).sDiag = n := by
    rcases hle.lt_or_eq with hlt | he
    · exact absurd (hz hlt) (hne _)
    · exact he
  have hrows := (d.solve_rows h.perm.1 diag).1
  rw [hfull, hperm] at hrows
  have hsol : ∀ c, (Aᵀ *ᵥ (A *ᵥ x)) c + diag c ^ 2 * x c = (Aᵀ *ᵥ b) c := by
    intro c
    obtain ⟨j, rfl⟩ := h.perm.2 c
    rw [← damped_gram h diag x j, ← e1, ← PivotedQr.image_eq h b j, ← e2, ← mulVec_mulVec]
    congr 2
    ext r
    exact hrows r r.isLt
  refine ⟨hsol, fun y => ?_, fun y hy => ?_, hne, ?_⟩
  · have e : A *ᵥ y - b = (A *ᵥ (y - x)) + (A *ᵥ x - b) := by rw [mulVec_sub]; abel
    have hcross : (A *ᵥ (y - x)) ⬝ᵥ (A *ᵥ x - b) + ∑ c, diag c ^ 2 * x c * (y c - x c) = 0 := by
      rw [dotProduct_comm, dotProduct_mulVec, ← mulVec_transpose, mulVec_sub]
      rw [show (Aᵀ *ᵥ A *ᵥ x - Aᵀ *ᵥ b) ⬝ᵥ (y - x) = ∑ c, ((Aᵀ *ᵥ A *ᵥ x) c - (Aᵀ *ᵥ b) c) * (y c - x c) from rfl,
        ← Finset.sum_add_distrib]
      refine Finset.sum_eq_zero fun c _ => ?_
      linear_combination (y c - x c) * hsol c
    have hsum : ∑ c, (diag c * y c) ^ 2 = ∑ c, (diag c * x c) ^ 2 + 2 * ∑ c, diag c ^ 2 * x c * (y c - x c)
        + ∑ c, (diag c * (y c - x c)) ^ 2 := by
      rw [Finset.mul_sum, ← Finset.sum_add_distrib, ← Finset.sum_add_distrib]
      refine Finset.sum_congr rfl fun c _ => ?_
      ring
    have h2 : 0 ≤ ∑ c, (diag c * (y c - x c)) ^ 2 := Finset.sum_nonneg fun c _ => sq_nonneg _
    have h3 := hnn (A *ᵥ (y - x))
    rw [e, add_dotProduct, dotProduct_add, dotProduct_add, dotProduct_comm (A *ᵥ x - b) (A *ᵥ (y - x)), hsum]
    linarith
  · have := huniq (y - x) fun c => by
      have h1 := hsol c
      have h2 := hy c
      rw [mulVec_sub, mulVec_sub, Pi.sub_apply, Pi.sub_apply]
      linear_combination h2 - h1
    exact sub_eq_zero.1 this
  · have hL : L = ((d.eliminated diag).upper n)ᵀ := by
      ext i k
      have e0 : L i k = if k < i then (d.eliminated diag).factor i k else if i = k then (d.eliminated diag).sDiag i else 0 := rfl
      rw [e0, transpose_apply]
      unfold GivensState.upper
      simp only [k.isLt, if_true]
      by_cases hik : i = k
      · subst hik; simp
      · simp [hik, Ne.symm hik]
    rw [hL, transpose_transpose, e1, PivotedQr.gram_eq h]
    ext i k
    simp only [Matrix.add_apply, submatrix_apply, diagonal_apply, h.perm.1.eq_iff]

/-- Dependent columns, made regular by the diagonal. -/
example : ∀ v : Fin 2 → ℝ, (!![1, 1; 1, 1] : Matrix (Fin 2) (Fin 2) ℝ) *ᵥ v = 0 → (∀ c, (![1, 2] : Fin 2 → ℝ) c * v c = 0) →
    v = 0 := by
  intro v _ h
  ext c
  have := h c
  fin_cases c <;> simpa using this

/-- C97. Without damping the step solves the normal equations `Aᵀ A x = Aᵀ b` whatever the rank of the matrix, so it is a
point of least residual: the pivoting leaves nothing below the first zero on the diagonal. -/
theorem undamped_solve_correct (minPositive largest : ℝ) (hl : 0 < largest) (A : Matrix (Fin m) (Fin n) ℝ)
    (hA : ∀ c, √(∑ i, A i c ^ 2) * m < √largest) (q : PivotedQr m n ℝ)
    (hq : PivotedQr.decompose minPositive largest A = .ok q) (b : Fin m → ℝ) :
    let x := ((q.intoDamped b).solveWithZeroDiagonal).1
    Aᵀ *ᵥ (A *ᵥ x) = Aᵀ *ᵥ b ∧ ∀ y, (A *ᵥ x - b) ⬝ᵥ (A *ᵥ x - b) ≤ (A *ᵥ y - b) ⬝ᵥ (A *ᵥ y - b) := by
  obtain ⟨-, U, h⟩ := decompose_of minPositive largest hl A hA q hq
  intro x
  set d := q.intoDamped b with hd
  -- with a zero diagonal the elimination changes nothing
  have hel : ∀ j ≤ n, let s := (((List.finRange n).take j).foldl (eliminateRow d.permutation
      (fun j => if j < j then d.triangular j j else d.triangular j j) (fun _ => 0))
      ⟨fun i j => if j < i then d.triangular j i else d.triangular i j, fun _ => 0, d.qtb, 0⟩);
      s.upper j = q.triangular ∧ s.work = d.qtb := by
    intro j
    induction j with
    | zero =>
      intro _
      refine ⟨?_, rfl⟩
      ext k i
      simp only [List.take_zero, List.foldl_nil, GivensState.upper]
      rcases lt_trichotomy k i with h | rfl | h
      · simp [h]; rfl
      · simp; rfl
      · simp [not_lt.2 h.le, h.ne', q.triangular_zero k i h]
    | succ j ih =>
      intro hj
      have hlt : j < n := hj
      obtain ⟨h1, h2⟩ := ih hlt.le
      have htake : (List.finRange n).take (j + 1) = (List.finRange n).take j ++ [⟨j, hlt⟩] := by
        rw [List.take_succ_eq_append_getElem (by simpa using hlt)]
        simp
      rw [htake]
      simp only [List.foldl_append, List.foldl_cons, List.foldl_nil]
      try dsimp only at h1 h2
      generalize ((List.finRange n).take j).foldl _ _ = s at *
      unfold eliminateRow
      simp only [bne_self_eq_false, Bool.false_eq_true, if_false]
      exact ⟨(upper_restore _ s ⟨j, hlt⟩).trans h1, h2⟩
  obtain ⟨e1, e2⟩ := hel n le_rfl
  rw [show (List.finRange n).take n = List.finRange n from List.take_of_length_le (by simp)] at e1 e2
  have e1' : (d.eliminated fun _ => 0).upper n = q.triangular := e1
  have e2' : (d.eliminated fun _ => 0).work = d.qtb := e2
  clear e1 e2 hel
  obtain ⟨hrows, hzeros⟩ := d.solve_rows h.perm.1 fun _ => 0
  obtain ⟨hle, -, hzero⟩ := DampedLeastSquares.leading_spec (d.eliminated fun _ => 0).sDiag
  try dsimp only at hrows hzeros
  rw [e1', e2'] at hrows
  set ns := DampedLeastSquares.leading (d.eliminated fun _ => 0).sDiag with hns
  have hdiag : ∀ c, (d.eliminated fun _ => 0).sDiag c = q.rDiag c := by
    intro c
    have := congrFun (congrFun e1' c) c
    simpa [GivensState.upper, PivotedQr.triangular] using this
  have hn : Aᵀ *ᵥ (A *ᵥ x) = Aᵀ *ᵥ b := by
    refine PivotedQr.normal_of_top h b x fun r c => ?_
    by_cases hr : r.val < ns
    · have := hrows r hr
      have hx : ∑ k, q.triangular r k * x (q.permutation k) = d.qtb r := this
      have hb : d.qtb r = (U *ᵥ b) (Fin.castLE q.tall r) := by
        rw [← PivotedQr.transposeApply_eq h]
        rfl
      rw [hx, hb, sub_self, mul_zero]
    · have hlt : ns < n := lt_of_le_of_lt (not_lt.1 hr) r.isLt
      have h0 := hzero hlt
      rw [hdiag] at h0
      have hz : q.triangular r c = 0 := by
        by_cases hcr : c < r
        · exact q.triangular_zero r c hcr
        · have hc : (⟨ns, hlt⟩ : Fin n) ≤ c := Fin.le_def.2 (le_trans (not_lt.1 hr) (Fin.le_def.1 (not_lt.1 hcr)))
          have ho := h.order ⟨ns, hlt⟩ c hc
          rw [h0] at ho
          have := tailSq_zero (le_antisymm (ho.trans (by norm_num)) (tailSq_nonneg _ _)) (Fin.castLE q.tall r) (not_lt.1 hr)
          rwa [q.stacked_top] at this
      rw [hz, zero_mul]
  refine ⟨hn, fun y => ?_⟩
  rw [normal_least A b x y hn]
  exact le_add_of_nonneg_right (Finset.sum_nonneg fun i _ => mul_self_nonneg _)

/-! ### What the solver reports beside the step -/

/-- C97. Forward substitution with the returned factor solves the triangular system. -/
theorem cholesky_factor_solve (f : CholeskyFactor n ℝ) (hne : ∀ i, f.sDiag i ≠ 0) (rhs : Fin n → ℝ) :
    (fun i k => if k < i then f.factor i k else if i = k then f.sDiag i else 0 : Matrix (Fin n) (Fin n) ℝ) *ᵥ f.solve rhs
      = rhs := by
  set L : Matrix (Fin n) (Fin n) ℝ := fun i k => if k < i then f.factor i k else if i = k then f.sDiag i else 0 with hL
  have key : ∀ j ≤ n, ∀ i : Fin n,
      ∑ k : Fin n, (if k.val < j then L i k * (((List.finRange n).take j).foldl (fun rhs j =>
        let temp := if f.sDiag j != 0 then rhs j / f.sDiag j else 0
        fun i => if i = j then temp else if j < i then rhs i - f.factor i j * temp else rhs i) rhs) k else 0)
      + (if i.val < j then 0 else (((List.finRange n).take j).foldl (fun rhs j =>
        let temp := if f.sDiag j != 0 then rhs j / f.sDiag j else 0
        fun i => if i = j then temp else if j < i then rhs i - f.factor i j * temp else rhs i) rhs) i) = rhs i := by
    intro j
    induction j with
    | zero => intro _ i; simp
    | succ j ih =>
      intro hj i
      have hlt : j < n := hj
      have htake : (List.finRange n).take (j + 1) = (List.finRange n).take j ++ [⟨j, hlt⟩] := by
        rw [List.take_succ_eq_append_getElem (by simpa using hlt)]
        simp
      have h := ih hlt.le i
      rw [htake]
      simp only [List.foldl_append, List.foldl_cons, List.foldl_nil]
      generalize ((List.finRange n).take j).foldl _ rhs = cur at *
      have hb : (f.sDiag ⟨j, hlt⟩ != 0) = true := by simpa using hne ⟨j, hlt⟩
      simp only [hb, if_true]
      rw [← h]
      have hsplit : ∑ k : Fin n, (if k.val < j + 1 then L i k * (if k = ⟨j, hlt⟩ then cur ⟨j, hlt⟩ / f.sDiag ⟨j, hlt⟩
            else if ⟨j, hlt⟩ < k then cur k - f.factor k ⟨j, hlt⟩ * (cur ⟨j, hlt⟩ / f.sDiag ⟨j, hlt⟩) else cur k) else 0)
          = L i ⟨j, hlt⟩ * (cur ⟨j, hlt⟩ / f.sDiag ⟨j, hlt⟩) + ∑ k : Fin n, (if k.val < j then L i k * cur k else 0) := by
        rw [← Finset.add_sum_erase _ _ (Finset.mem_univ (⟨j, hlt⟩ : Fin n)),
          ← Finset.add_sum_erase (Finset.univ : Finset (Fin n)) (fun k : Fin n => if k.val < j then L i k * cur k else 0)
            (Finset.mem_univ (⟨j, hlt⟩ : Fin n))]
        have e0 : (if (⟨j, hlt⟩ : Fin n).val < j then L i ⟨j, hlt⟩ * cur ⟨j, hlt⟩ else 0) = 0 := if_neg (lt_irrefl _)
        rw [e0, zero_add, if_pos (Nat.lt_succ_self j), if_pos rfl]
        congr 1
        refine Finset.sum_congr rfl fun k hk => ?_
        have hkj : k ≠ ⟨j, hlt⟩ := (Finset.mem_erase.1 hk).1
        have hv : k.val ≠ j := fun e => hkj (Fin.ext e)
        by_cases hk' : k.val < j
        · have h2 : ¬((⟨j, hlt⟩ : Fin n) < k) := fun h => by have : j < k.val := h; omega
          rw [if_pos (by omega), if_pos hk', if_neg hkj, if_neg h2]
        · rw [if_neg (by omega), if_neg hk']
      rw [hsplit]
      rcases lt_trichotomy i.val j with hi | hi | hi
      · have h1 : ¬((⟨j, hlt⟩ : Fin n) < i) := fun h => by have : j < i.val := h; omega
        have h2 : i ≠ ⟨j, hlt⟩ := fun e => by rw [e] at hi; exact lt_irrefl _ hi
        have : L i ⟨j, hlt⟩ = 0 := by simp [hL, h1, h2]
        rw [this, if_pos (by omega), if_pos hi]
        ring
      · have : i = ⟨j, hlt⟩ := Fin.ext hi
        subst this
        have : L ⟨j, hlt⟩ ⟨j, hlt⟩ = f.sDiag ⟨j, hlt⟩ := by simp [hL]
        rw [this, if_pos (Nat.lt_succ_self j), if_neg (lt_irrefl _), mul_div_cancel₀ _ (hne _)]
        ring
      · have h1 : (⟨j, hlt⟩ : Fin n) < i := hi
        have : L i ⟨j, hlt⟩ = f.factor i ⟨j, hlt⟩ := by simp [hL, h1]
        rw [this, if_neg (by omega : ¬(i.val < j + 1)), if_neg (by omega : ¬(i.val < j)), if_neg h1.ne', if_pos h1]
        ring
  ext i
  have h := key n le_rfl i
  rw [show (List.finRange n).take n = List.finRange n from List.take_of_length_le (by simp)] at h
  simp only [Fin.is_lt, if_true, add_zero] at h
  exact h

/-- A two-by-two factor. -/
example : ∀ i, (⟨!![0, 0; 3, 0], ![2, 5]⟩ : CholeskyFactor 2 ℝ).sDiag i ≠ 0 := by
  intro i
  fin_cases i <;> simp

theorem foldl_qrMax {ι : Type} (p : ι → Bool) (f : ι → ℝ) (l : List ι) (r : ℝ) :
    r ≤ l.foldl (fun r j => if p j then qrMax r (f j) else r) r
    ∧ (∀ j ∈ l, p j = true → f j ≤ l.foldl (fun r j => if p j then qrMax r (f j) else r) r)
    ∧ (l.foldl (fun r j => if p j then qrMax r (f j) else r) r = r
      ∨ ∃ j ∈ l, p j = true ∧ l.foldl (fun r j => if p j then qrMax r (f j) else r) r = f j) := by
  induction l generalizing r with
  | nil => simp
  | cons a l ih =>
    rw [List.foldl_cons]
    have hq : ∀ x y : ℝ, qrMax x y = max x y := by
      intro x y
      unfold qrMax
      split_ifs with h
      · exact (max_eq_right h.le).symm
      · exact (max_eq_left (not_lt.1 h)).symm
    by_cases hp : p a = true
    · simp only [hp, if_true]
      obtain ⟨h1, h2, h3⟩ := ih (qrMax r (f a))
      rw [hq] at *
      refine ⟨(le_max_left _ _).trans h1, ?_, ?_⟩
      · intro j hj hpj
        rcases List.mem_cons.1 hj with rfl | hj
        · exact (le_max_right _ _).trans h1
        · exact h2 j hj hpj
      · rcases h3 with h3 | ⟨j, hj, hpj, h3⟩
        · rcases max_choice r (f a) with h | h
          · left; rw [h3, h]
          · right; exact ⟨a, List.mem_cons_self, hp, by rw [h3, h]⟩
        · right; exact ⟨j, List.mem_cons_of_mem _ hj, hpj, h3⟩
    · simp only [hp, Bool.false_eq_true, if_false]
      obtain ⟨h1, h2, h3⟩ := ih r
      refine ⟨h1, ?_, ?_⟩
      · intro j hj hpj
        rcases List.mem_cons.1 hj with rfl | hj
        · exact absurd hpj hp
        · exact h2 j hj hpj
      · rcases h3 with h3 | ⟨j, hj, hpj, h3⟩
        · exact Or.inl h3
        · exact Or.inr ⟨j, List.mem_cons_of_mem _ hj, hpj, h3⟩

/-- C97. The reported gradient measure is the greatest cosine between the right-hand side and a nonzero column: no
column's `|(Aᵀ b)_c| / (‖b‖ ‖A_c‖)` exceeds it, and it is one of these unless there is none (then it is zero). -/
theorem max_atb_scaled_spec (minPositive largest : ℝ) (hl : 0 < largest) (A : Matrix (Fin m) (Fin n) ℝ)
    (hA : ∀ c, √(∑ i, A i c ^ 2) * m < √largest) (q : PivotedQr m n ℝ)
    (hq : PivotedQr.decompose minPositive largest A = .ok q) (b : Fin m → ℝ) (bNorm : ℝ) (hb : 0 < bNorm) :
    let v := (q.intoDamped b).maxAtbScaled bNorm
    0 ≤ v
    ∧ (∀ c, √(∑ i, A i c ^ 2) ≠ 0 → |(Aᵀ *ᵥ b) c| ≤ v * (bNorm * √(∑ i, A i c ^ 2)))
    ∧ (v = 0 ∨ ∃ c, √(∑ i, A i c ^ 2) ≠ 0 ∧ |(Aᵀ *ᵥ b) c| = v * (bNorm * √(∑ i, A i c ^ 2))) := by
  obtain ⟨hnorm, U, h⟩ := decompose_of minPositive largest hl A hA q hq
  have hterm : ∀ j : Fin n, sumOver ((List.finRange n).filter fun i => i ≤ j)
      (fun i => (q.intoDamped b).triangular i j * ((q.intoDamped b).qtb i / bNorm)) = (Aᵀ *ᵥ b) (q.permutation j) / bNorm := by
    intro j
    rw [sumOver_eq, sum_filter_finRange, ← PivotedQr.image_eq h b j]
    simp only [mulVec, dotProduct, transpose_apply, Finset.sum_div]
    refine Finset.sum_congr rfl fun i _ => ?_
    have ht : (q.intoDamped b).triangular = q.triangular := rfl
    by_cases hij : i ≤ j
    · simp only [hij, decide_true, if_true, ht]
      ring
    · simp only [hij, decide_false, Bool.false_eq_true, if_false]
      rw [q.triangular_zero i j (not_le.1 hij)]
      ring
  intro v
  have hv : v = (List.finRange n).foldl (fun r j => if (q.columnNorms (q.permutation j) != 0) then
      qrMax r |(Aᵀ *ᵥ b) (q.permutation j) / bNorm / q.columnNorms (q.permutation j)| else r) 0 := by
    show (q.intoDamped b).maxAtbScaled bNorm = _
    unfold DampedLeastSquares.maxAtbScaled
    rw [if_neg (by simpa using hb.ne')]
    simp only [hterm]
    rfl
  obtain ⟨h1, h2, h3⟩ := foldl_qrMax (fun j => q.columnNorms (q.permutation j) != 0)
    (fun j => |(Aᵀ *ᵥ b) (q.permutation j) / bNorm / q.columnNorms (q.permutation j)|) (List.finRange n) 0
  rw [← hv] at h1 h2 h3
  have hval : ∀ c, √(∑ i, A i c ^ 2) ≠ 0 → ∀ w, |(Aᵀ *ᵥ b) c / bNorm / q.columnNorms c| = w ↔
      |(Aᵀ *ᵥ b) c| = w * (bNorm * √(∑ i, A i c ^ 2)) := by
    intro c hc w
    rw [hnorm c, div_div, abs_div, abs_of_nonneg (mul_nonneg hb.le (Real.sqrt_nonneg _)),
      div_eq_iff (mul_ne_zero hb.ne' hc)]
  refine ⟨h1, fun c hc => ?_, ?_⟩
  · obtain ⟨j, rfl⟩ := h.perm.2 c
    have := h2 j (List.mem_finRange j) (by simpa [hnorm] using hc)
    rw [(hval _ hc _).1 rfl]
    exact mul_le_mul_of_nonneg_right this (mul_nonneg hb.le (Real.sqrt_nonneg _))
  · rcases h3 with h3 | ⟨j, -, hpj, h3⟩
    · exact Or.inl h3
    · right
      have hc : √(∑ i, A i (q.permutation j) ^ 2) ≠ 0 := by
        rw [← hnorm]; simpa using hpj
      exact ⟨_, hc, (hval _ hc _).1 h3.symm⟩

/-- C97. The reported length of the predicted change is `‖A x‖`. -/
theorem a_x_norm_spec (minPositive largest : ℝ) (hl : 0 < largest) (A : Matrix (Fin m) (Fin n) ℝ)
    (hA : ∀ c, √(∑ i, A i c ^ 2) * m < √largest) (q : PivotedQr m n ℝ)
    (hq : PivotedQr.decompose minPositive largest A = .ok q) (b : Fin m → ℝ) (x : Fin n → ℝ)
    (hx : √((A *ᵥ x) ⬝ᵥ (A *ᵥ x)) * n < √largest) :
    (q.intoDamped b).aXNorm minPositive largest x = √((A *ᵥ x) ⬝ᵥ (A *ᵥ x)) := by
  obtain ⟨-, U, h⟩ := decompose_of minPositive largest hl A hA q hq
  have hfold : ∀ (l : List (Fin n)) (w : Fin n → ℝ) (i : Fin n), l.foldl (fun (w : Fin n → ℝ) j => fun i =>
      if i ≤ j then w i + q.triangular i j * x (q.permutation j) else w i) w i
      = w i + (l.map fun j => q.triangular i j * x (q.permutation j)).sum := by
    intro l
    induction l with
    | nil => intro w i; simp
    | cons j l ih =>
      intro w i
      rw [List.foldl_cons, ih, List.map_cons, List.sum_cons]
      by_cases hij : i ≤ j
      · rw [if_pos hij]; ring
      · rw [if_neg hij, q.triangular_zero i j (not_le.1 hij)]; ring
  have hw : ∀ i, (List.finRange n).foldl (fun (w : Fin n → ℝ) j => fun i =>
      if i ≤ j then w i + q.triangular i j * x (q.permutation j) else w i) (fun _ => 0) i
      = (q.triangular *ᵥ fun j => x (q.permutation j)) i := by
    intro i
    rw [hfold, zero_add]
    have := sum_filter_finRange (n := n) (fun _ => true) fun j => q.triangular i j * x (q.permutation j)
    simpa [mulVec, dotProduct] using this
  have hsq : ∑ i, ((q.triangular *ᵥ fun j => x (q.permutation j)) i) ^ 2 = (A *ᵥ x) ⬝ᵥ (A *ᵥ x) := by
    have e : ∑ i, ((q.triangular *ᵥ fun j => x (q.permutation j)) i) ^ 2
        = (q.triangular *ᵥ fun j => x (q.permutation j)) ⬝ᵥ (q.triangular *ᵥ fun j => x (q.permutation j)) := by
      simp only [dotProduct, sq]
    rw [e, dotProduct_mulVec, ← mulVec_transpose, mulVec_mulVec]
    have hg := damped_gram h (fun _ => 0) x
    simp only [ne_eq, OfNat.ofNat_ne_zero, not_false_eq_true, zero_pow, zero_mul, add_zero, Matrix.diagonal_zero] at hg
    simp only [dotProduct, hg]
    rw [Function.Bijective.sum_comp h.perm fun k => (Aᵀ *ᵥ (A *ᵥ x)) k * x k]
    have := dotProduct_mulVec (A *ᵥ x) A x
    rw [← mulVec_transpose] at this
    exact this.symm
  have hnn : 0 ≤ (A *ᵥ x) ⬝ᵥ (A *ᵥ x) := Finset.sum_nonneg fun i _ => mul_self_nonneg _
  have := enorm_tail minPositive largest 0 (q.triangular *ᵥ fun j => x (q.permutation j)) _ hx
    (by rw [hsq, Real.sq_sqrt hnn]) (Real.sqrt_nonneg _)
  rw [finRange_from_zero] at this
  simp only [Nat.zero_le, if_true, hsq] at this
  rw [← this]
  unfold DampedLeastSquares.aXNorm
  dsimp only
  congr 2
  ext i
  exact hw i

/-- C97. The factorisation calls itself non-singular when every diagonal entry stands out from the rounding of the first;
the columns are then linearly independent. -/
theorem is_non_singular_spec (minPositive largest : ℝ) (hl : 0 < largest) (A : Matrix (Fin m) (Fin n) ℝ)
    (hA : ∀ c, √(∑ i, A i c ^ 2) * m < √largest) (q : PivotedQr m n ℝ)
    (hq : PivotedQr.decompose minPositive largest A = .ok q) (b : Fin m → ℝ) :
    ((q.intoDamped b).isNonSingular = true ↔
      ∀ r : Fin n, 1 / 2 ^ 52 * n * |q.triangular ⟨0, r.pos⟩ ⟨0, r.pos⟩| < |q.triangular r r|)
    ∧ ((q.intoDamped b).isNonSingular = true → ∀ v, A *ᵥ v = 0 → v = 0) := by
  obtain ⟨-, U, h⟩ := decompose_of minPositive largest hl A hA q hq
  have hiff : (q.intoDamped b).isNonSingular = true ↔
      ∀ r : Fin n, 1 / 2 ^ 52 * n * |q.triangular ⟨0, r.pos⟩ ⟨0, r.pos⟩| < |q.triangular r r| := by
    unfold DampedLeastSquares.isNonSingular
    by_cases hn : n = 0
    · rw [dif_pos hn]
      subst hn
      simp
    · rw [dif_neg hn]
      simp only [List.all_eq_true, decide_eq_true_eq, List.mem_finRange, true_implies, real_abs]
      rfl
  refine ⟨hiff, fun hs v hv => PivotedQr.injective_of_diag h (fun r e => ?_) v hv⟩
  have := hiff.1 hs r
  have e' : q.triangular r r = 0 := by simpa [PivotedQr.triangular] using e
  rw [e', abs_zero] at this
  exact absurd this (not_lt.2 (by positivity))

end Multicalc
