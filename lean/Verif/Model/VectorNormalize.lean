import Verif.Model.LinearAlgebra

/-!
Normalising a vector in place, `crates/multicalc/src/linear_algebra/vector.rs:286-335`.  A method that
changes its receiver returns the changed vector.
-/

namespace Multicalc

variable {T : Type} {n : ℕ}

/-- `Vector::do_normalize` (`vector.rs:330-334`). -/
def vdoNormalize [Zero T] [Div T] [LT T] [DecidableLT T] [BEq T] [Fns T] (a : Fin n → T) (norm : T) :
    Fin n → T :=
  fun i => safeDiv (a i) norm

/-- `Vector::normalize` (`vector.rs:296-299`). -/
def vnormalize [Zero T] [Add T] [Mul T] [Div T] [LT T] [DecidableLT T] [BEq T] [Fns T] (a : Fin n → T) :
    Fin n → T :=
  vdoNormalize a (vnorm a)

/-- `Vector::try_normalize` (`vector.rs:321-328`): what is returned, and the vector afterwards. -/
def vtryNormalize [Zero T] [Add T] [Mul T] [Div T] [LT T] [DecidableLT T] [BEq T] [Fns T] (a : Fin n → T) :
    Option Unit × (Fin n → T) :=
  if Fns.isNan (vnorm a) || vnorm a == 0 then (none, a) else (some (), vdoNormalize a (vnorm a))

end Multicalc
