import Verif.Model.Eigen

/-!
# The condition number of a symmetric eigendecomposition
-/

namespace Multicalc

variable {T : Type} {n : ℕ}

/-- `SymmetricEigendecomposition::condition_number` (`symmetric_eigendecomposition.rs:232-252`). -/
def SymmetricEigen.conditionNumber [Zero T] [Div T] [LE T] [DecidableLE T] [Max T] [Min T] [Fns T]
    (d : SymmetricEigen n T) : T :=
  if n = 0 then Fns.infinity
  else
    let ends := (List.finRange n).foldl
      (fun (s : T × T) index => (max s.1 (Fns.abs (d.values index)), min s.2 (Fns.abs (d.values index))))
      (0, Fns.infinity)
    if ends.2 ≤ 0 then Fns.infinity else ends.1 / ends.2

end Multicalc
