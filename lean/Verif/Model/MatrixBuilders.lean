import Verif.Model.LinearAlgebra
import Verif.Model.Spatial

/-!
# Built matrices and the tangent space of the plane rotations

Model of `Matrix::symmetric_positive_definite` (`linear_algebra/matrix.rs:614-627`) and of the remaining
operations of `spatial/lie/so2.rs`.
-/

namespace Multicalc

variable {T : Type} {n : ℕ}

/-- `Matrix::symmetric_positive_definite` (`linear_algebra/matrix.rs:623-626`); `none` is the panic of the
slice index.  In the code the scalar is `f64`. -/
def symmetricPositiveDefinite [Zero T] [Add T] [Mul T] [Fns T] (n : ℕ) (entries : List T) :
    Option (Matrix (Fin n) (Fin n) T) :=
  if h : ∀ row column : Fin n, row.val * n + column.val < entries.length then
    let factor : Matrix (Fin n) (Fin n) T := fun row column => entries[row.val * n + column.val]'(h row column)
    some fun row column => mmul factor (mtranspose factor) row column +
      (if row = column then Fns.lit (1 / 4) else 0)
  else none

/-- `SO2::hat` (`spatial/lie/so2.rs:91-93`). -/
def SO2.hat [Zero T] [Neg T] (theta : T) : Matrix (Fin 2) (Fin 2) T := !![0, -theta; theta, 0]

/-- `SO2::vee` (`spatial/lie/so2.rs:98-101`). -/
def SO2.vee (m : Matrix (Fin 2) (Fin 2) T) : T := m 1 0

/-- `SO2::adjoint` (`spatial/lie/so2.rs:106-108`). -/
def SO2.adjoint [One T] (_p : SO2 T) : T := 1

/-- `SO2::left_jacobian`, `right_jacobian` and their inverses (`spatial/lie/so2.rs:190-213`). -/
def SO2.jacobian [One T] (_theta : T) : T := 1

end Multicalc
