import Verif.Model.Spatial

/-!
# Right Jacobians of the planar exponential map

`crates/multicalc/src/spatial/lie/se2.rs:236-240, 275-279`; the left ones are in `Model/Spatial.lean`.
-/

namespace Multicalc

variable {T : Type} [Zero T] [One T] [NatCast T] [Add T] [Sub T] [Mul T] [Div T] [Neg T] [LT T]
  [DecidableLT T] [LE T] [DecidableLE T] [Max T] [Min T] [Fns T]

/-- `SE2::right_jacobian` (`lie/se2.rs:236-240`). -/
def SE2.rightJacobian (twist : Fin 3 → T) : Matrix (Fin 3) (Fin 3) T := SE2.leftJacobian (vneg twist)

/-- `SE2::right_jacobian_inverse` (`lie/se2.rs:275-279`). -/
def SE2.rightJacobianInverse (twist : Fin 3 → T) : Matrix (Fin 3) (Fin 3) T := SE2.leftJacobianInverse (vneg twist)

end Multicalc
