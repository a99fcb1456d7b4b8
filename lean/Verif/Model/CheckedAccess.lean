import Verif.Model.LinearAlgebra

/-!
# Checked access to vectors and matrices

Model of the checked accessors of `linear_algebra/matrix.rs:70-185, 306-308` and `linear_algebra/vector.rs:50-170`.
Rust arrays `[[T; COLS]; ROWS]` are functions of the two indices; borrowing and copying are not told apart.
-/

namespace Multicalc

variable {T : Type} {n rows cols : ℕ}

/-- `Vector::get` (`vector.rs:113-115`). -/
def vget (v : Fin n → T) (i : ℕ) : Option T := if h : i < n then some (v ⟨i, h⟩) else none

/-- Writing through `Vector::get_mut` (`vector.rs:128-130`); `none` when it gives no reference. -/
def vset (v : Fin n → T) (i : ℕ) (value : T) : Option (Fin n → T) :=
  if h : i < n then some (Function.update v ⟨i, h⟩ value) else none

/-- `Vector::try_from_slice` (`vector.rs:166-168`). -/
def vtryFromSlice (n : ℕ) (slice : List T) : Option (Fin n → T) :=
  if h : slice.length = n then some fun i => slice[i.val]'(h ▸ i.2) else none

/-- `Matrix::get` (`matrix.rs:104-106`). -/
def mget (m : Matrix (Fin rows) (Fin cols) T) (row column : ℕ) : Option T :=
  if h : row < rows then vget (m ⟨row, h⟩) column else none

/-- Writing through `Matrix::get_mut` (`matrix.rs:119-124`). -/
def mset (m : Matrix (Fin rows) (Fin cols) T) (row column : ℕ) (value : T) :
    Option (Matrix (Fin rows) (Fin cols) T) :=
  if h : row < rows then
    match vset (m ⟨row, h⟩) column value with
    | some r => some fun i j => if i = ⟨row, h⟩ then r j else m i j
    | none => none
  else none

/-- The rows of `as_slice_rows` (`matrix.rs:77-79`), one after another. -/
def mflatten (m : Matrix (Fin rows) (Fin cols) T) : List T :=
  (List.ofFn fun row => List.ofFn fun column => m row column).flatten

theorem row_slice_index (r : Fin rows) (c : Fin cols) : r.val * cols + c.val < rows * cols :=
  calc r.val * cols + c.val < r.val * cols + cols := Nat.add_lt_add_left c.2 _
    _ = (r.val + 1) * cols := by rw [Nat.add_mul, Nat.one_mul]
    _ ≤ rows * cols := Nat.mul_le_mul_right cols r.2

/-- `Matrix::try_from_row_slice` (`matrix.rs:143-149`). -/
def mtryFromRowSlice (rows cols : ℕ) (slice : List T) : Option (Matrix (Fin rows) (Fin cols) T) :=
  if h : slice.length = rows * cols then
    some fun row column => slice[row.val * cols + column.val]'(h ▸ row_slice_index row column)
  else none

/-- `Matrix::try_row` (`matrix.rs:160-162`). -/
def mtryRow (m : Matrix (Fin rows) (Fin cols) T) (row : ℕ) : Option (Fin cols → T) :=
  if h : row < rows then some (m ⟨row, h⟩) else none

/-- `Matrix::try_column` (`matrix.rs:177-179`). -/
def mtryColumn (m : Matrix (Fin rows) (Fin cols) T) (column : ℕ) : Option (Fin rows → T) :=
  if h : column < cols then some fun row => m row ⟨column, h⟩ else none

/-- `Matrix::diagonal` (`matrix.rs:306-308`). -/
def mdiagonalOf (m : Matrix (Fin n) (Fin n) T) : Fin n → T := fun i => m i i

end Multicalc
