import Verif.Model.CheckedAccess
import Mathlib.Tactic

/-!
# Checked access to vectors and matrices (C128)
-/

namespace Multicalc

variable {T : Type} {n rows cols : ℕ}

/-- C128. A vector is built from a slice exactly when the slice has as many entries, and then it holds them in
order: `try_from_slice` answers `v` on the components of `v` and on nothing else. -/
theorem try_from_slice_iff (slice : List T) (v : Fin n → T) :
    (vtryFromSlice n slice = some v ↔ slice = List.ofFn v) ∧ (vtryFromSlice n slice = none ↔ slice.length ≠ n) := by
  constructor
  · constructor
    · intro h
      unfold vtryFromSlice at h
      split_ifs at h with hl
      injection h with h
      subst h
      refine List.ext_getElem (by simp [hl]) fun i h1 h2 => ?_
      simp
    · rintro rfl
      unfold vtryFromSlice
      rw [dif_pos (by simp)]
      simp
  · unfold vtryFromSlice
    split_ifs with hl <;> simp [hl]

theorem mflatten_eq (m : Matrix (Fin rows) (Fin cols) T) :
    mflatten m = List.ofFn fun k : Fin (rows * cols) => m k.divNat k.modNat := by
  rw [List.ofFn_mul]
  unfold mflatten
  congr 2
  funext r
  congr 1
  funext c
  have hc : 0 < cols := c.pos
  congr 1
  · refine Fin.ext ?_
    simp only [Fin.divNat]
    rw [Nat.add_comm, Nat.add_mul_div_right _ _ hc, Nat.div_eq_of_lt c.2, Nat.zero_add]
  · refine Fin.ext ?_
    simp only [Fin.modNat]
    rw [Nat.add_comm, Nat.add_mul_mod_self_right, Nat.mod_eq_of_lt c.2]

/-- C128. A matrix is built from a slice exactly when the slice has rows times columns entries, and then row by
row: `try_from_row_slice` answers `m` on the rows of `m` laid end to end and on nothing else. -/
theorem try_from_row_slice_iff (slice : List T) (m : Matrix (Fin rows) (Fin cols) T) :
    (mtryFromRowSlice rows cols slice = some m ↔ slice = mflatten m) ∧
    (mtryFromRowSlice rows cols slice = none ↔ slice.length ≠ rows * cols) := by
  constructor
  · constructor
    · intro h
      unfold mtryFromRowSlice at h
      split_ifs at h with hl
      injection h with h
      subst h
      rw [mflatten_eq (rows := rows) (cols := cols) (fun row column => slice[row.val * cols + column.val]'(hl ▸ row_slice_index row column))]
      refine List.ext_getElem (by simp [hl]) fun i h1 h2 => ?_
      rw [List.getElem_ofFn]
      congr 1
      simp only [Fin.divNat, Fin.modNat]
      exact (Nat.div_add_mod' i cols).symm
    · rintro rfl
      unfold mtryFromRowSlice
      rw [dif_pos (by rw [mflatten_eq]; simp)]
      refine congrArg some ?_
      funext r c
      have hc : 0 < cols := c.pos
      simp only [mflatten_eq, List.getElem_ofFn]
      congr 1
      · refine Fin.ext ?_
        simp only [Fin.divNat]
        rw [Nat.add_comm, Nat.add_mul_div_right _ _ hc, Nat.div_eq_of_lt c.2, Nat.zero_add]
      · refine Fin.ext ?_
        simp only [Fin.modNat]
        rw [Nat.add_comm, Nat.add_mul_mod_self_right, Nat.mod_eq_of_lt c.2]
  · unfold mtryFromRowSlice
    split_ifs with hl <;> simp [hl]

/-- C128. Reading, at every index: `get` answers exactly inside the bounds; a row or a column is given exactly
when its own index is inside, even if there is nothing along it, and agrees with `get` entry by entry; the columns
are the rows of the transpose, the diagonal is where the two indices agree, and it is what `from_diagonal` was given. -/
theorem checked_reads [Zero T] (m : Matrix (Fin rows) (Fin cols) T) (s : Matrix (Fin n) (Fin n) T) (d : Fin n → T) (i j : ℕ) :
    (mget m i j = none ↔ rows ≤ i ∨ cols ≤ j) ∧
    (∀ (r : Fin rows) (c : Fin cols), mget m r c = some (m r c)) ∧
    (mtryRow m i = none ↔ rows ≤ i) ∧ (mtryColumn m j = none ↔ cols ≤ j) ∧
    (∀ v, mtryRow m i = some v → vget v j = mget m i j) ∧
    (∀ v, mtryColumn m j = some v → vget v i = mget m i j) ∧
    mtryColumn m j = mtryRow (mtranspose m) j ∧
    vget (mdiagonalOf s) i = mget s i i ∧ mdiagonalOf (mdiagonal d) = d := by
  refine ⟨?_, ?_, ?_, ?_, ?_, ?_, rfl, ?_, ?_⟩
  · unfold mget vget
    split_ifs with h1 h2 <;> simp <;> omega
  · intro r c
    unfold mget vget
    rw [dif_pos r.2, dif_pos c.2]
  · unfold mtryRow
    split_ifs with h <;> simp <;> omega
  · unfold mtryColumn
    split_ifs with h <;> simp <;> omega
  · intro v hv
    unfold mtryRow at hv
    split_ifs at hv with h
    injection hv with hv
    subst hv
    unfold mget
    rw [dif_pos h]
  · intro v hv
    unfold mtryColumn at hv
    split_ifs at hv with h
    injection hv with hv
    subst hv
    unfold mget vget
    split_ifs <;> rfl
  · unfold mget vget mdiagonalOf
    split_ifs <;> rfl
  · funext k
    simp [mdiagonalOf, mdiagonal]

/-- C128. Writing, at every index: `get_mut` gives a place exactly where `get` gives a value; after the write that
entry reads back as written, and every other entry of the matrix as before. -/
theorem checked_writes (m : Matrix (Fin rows) (Fin cols) T) (i j : ℕ) (value : T) :
    (mset m i j value = none ↔ mget m i j = none) ∧
    ∀ m', mset m i j value = some m' → mget m' i j = some value ∧
      ∀ a b, (a, b) ≠ (i, j) → mget m' a b = mget m a b := by
  constructor
  · unfold mset mget vset vget
    by_cases h1 : i < rows <;> by_cases h2 : j < cols <;> simp [h1, h2]
  · intro m' h
    unfold mset vset at h
    by_cases h1 : i < rows
    · by_cases h2 : j < cols
      · simp only [h1, h2, dif_pos] at h
        injection h with h
        subst h
        refine ⟨?_, fun a b hab => ?_⟩
        · unfold mget vget
          rw [dif_pos h1, dif_pos h2]
          dsimp only
          rw [if_pos rfl, Function.update_self]
        · unfold mget vget
          by_cases ha : a < rows
          · by_cases hb : b < cols
            · simp only [ha, hb, dif_pos]
              refine congrArg some ?_
              by_cases e : a = i
              · subst e
                rw [if_pos rfl, Function.update_of_ne]
                intro hc
                exact hab (by rw [Fin.mk.injEq] at hc; rw [hc])
              · rw [if_neg]
                intro hc
                exact e (by rwa [Fin.mk.injEq] at hc)
            · simp [ha, hb]
          · simp [ha]
      · simp [h1, h2] at h
    · simp [h1] at h

/-- A matrix, its row-major slice, and a write. -/
example : mtryFromRowSlice 2 2 [1, 2, 3, (4 : ℕ)] = some !![1, 2; 3, 4] ∧
    mset !![1, 2; 3, (4 : ℕ)] 0 1 7 = some !![1, 7; 3, 4] := by
  constructor
  · exact ((try_from_row_slice_iff _ _).1).2 rfl
  · refine congrArg some (Matrix.ext fun a b => ?_)
    fin_cases a <;> fin_cases b <;> rfl

end Multicalc
