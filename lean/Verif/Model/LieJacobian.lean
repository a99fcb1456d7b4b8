import Verif.Model.Spatial

/-!
# Jacobians of the exponential maps

`crates/multicalc/src/spatial/lie/mod.rs:76-162` and the public methods of `lie/so3.rs:248-278`,
`lie/se3.rs:364-394`.
-/

namespace Multicalc

variable {T : Type} [Zero T] [One T] [NatCast T] [Add T] [Sub T] [Mul T] [Div T] [Neg T] [LT T]
  [DecidableLT T] [LE T] [DecidableLE T] [Max T] [Min T] [Fns T]

/-- `SO3::left_jacobian` (`lie/so3.rs:248-252`). -/
def SO3.leftJacobian (phi : Fin 3 → T) : Matrix (Fin 3) (Fin 3) T := leftJacobianSo3 phi

/-- `SO3::right_jacobian` (`lie/so3.rs:254-258`). -/
def SO3.rightJacobian (phi : Fin 3 → T) : Matrix (Fin 3) (Fin 3) T := leftJacobianSo3 (vneg phi)

/-- `SO3::left_jacobian_inverse` (`lie/so3.rs:269-272`). -/
def SO3.leftJacobianInverse (phi : Fin 3 → T) : Matrix (Fin 3) (Fin 3) T := inverseLeftJacobianSo3 phi

/-- `SO3::right_jacobian_inverse` (`lie/so3.rs:274-278`). -/
def SO3.rightJacobianInverse (phi : Fin 3 → T) : Matrix (Fin 3) (Fin 3) T := inverseLeftJacobianSo3 (vneg phi)

/-- `coeff2` of `q_matrix_se3` (`lie/mod.rs:92-96`), threshold from `spatial/mod.rs:71`. -/
def qCoeff2 (thetaSq : T) : T :=
  let theta := Fns.sqrt thetaSq
  if thetaSq < Fns.cbrt (Fns.lit 2520 * Fns.epsilon) then 1 / Fns.lit 6 - thetaSq / Fns.lit 120
  else (theta - Fns.sin theta) / (thetaSq * theta)

/-- `coeff3` of `q_matrix_se3` (`lie/mod.rs:98-102`), threshold from `spatial/mod.rs:72`. -/
def qCoeff3 (thetaSq : T) : T :=
  let theta := Fns.sqrt thetaSq
  let theta4 := thetaSq * thetaSq
  if thetaSq < Fns.sqrt (Fns.sqrt (Fns.lit 20160 * Fns.epsilon)) then -1 / Fns.lit 24 + thetaSq / Fns.lit 720
  else (1 - thetaSq * half - Fns.cos theta) / theta4

/-- `coeff5` of `q_matrix_se3` (`lie/mod.rs:104-108`), threshold from `spatial/mod.rs:73`. -/
def qCoeff5 (thetaSq : T) : T :=
  let theta := Fns.sqrt thetaSq
  let theta3 := thetaSq * theta
  let theta4 := thetaSq * thetaSq
  let theta5 := theta4 * theta
  if thetaSq < Fns.sqrt (Fns.sqrt (Fns.lit 181440 * Fns.epsilon)) then -1 / Fns.lit 120 + thetaSq / Fns.lit 5040
  else (theta - Fns.sin theta - theta3 / Fns.lit 6) / theta5

/-- `q_matrix_se3` (`lie/mod.rs:76-119`). -/
def qMatrixSe3 (rho phi : Fin 3 → T) : Matrix (Fin 3) (Fin 3) T :=
  let thetaSq := vdot phi phi
  let rhoSkew := skew3 rho
  let phiSkew := skew3 phi
  let coeff2 := qCoeff2 thetaSq
  let coeff3 := qCoeff3 thetaSq
  let coeff5 := qCoeff5 thetaSq
  let coeff4 := (coeff3 - Fns.lit 3 * coeff5) * half
  let phiRhoPhi := mmul (mmul phiSkew rhoSkew) phiSkew
  let term2 := madd (madd (mmul phiSkew rhoSkew) (mmul rhoSkew phiSkew)) phiRhoPhi
  let term3 := msub (madd (mmul (mmul phiSkew phiSkew) rhoSkew) (mmul (mmul rhoSkew phiSkew) phiSkew))
    (mscale phiRhoPhi (Fns.lit 3))
  let term4 := madd (mmul (mmul (mmul phiSkew rhoSkew) phiSkew) phiSkew)
    (mmul (mmul (mmul phiSkew phiSkew) rhoSkew) phiSkew)
  msub (msub (madd (mscale rhoSkew half) (mscale term2 coeff2)) (mscale term3 coeff3)) (mscale term4 coeff4)

/-- `left_jacobian_se3` (`lie/mod.rs:121-139`) and `SE3::left_jacobian` (`lie/se3.rs:373-376`). -/
def SE3.leftJacobian (twist : Fin 6 → T) : Matrix (Fin 6) (Fin 6) T :=
  let j := leftJacobianSo3 (tail3 twist)
  blocks j (qMatrixSe3 (head3 twist) (tail3 twist)) (fun _ _ => 0) j

/-- `SE3::right_jacobian` (`lie/se3.rs:378-382`). -/
def SE3.rightJacobian (twist : Fin 6 → T) : Matrix (Fin 6) (Fin 6) T := SE3.leftJacobian (vneg twist)

/-- `inverse_left_jacobian_se3` (`lie/mod.rs:141-162`) and `SE3::left_jacobian_inverse` (`lie/se3.rs:384-388`). -/
def SE3.leftJacobianInverse (twist : Fin 6 → T) : Matrix (Fin 6) (Fin 6) T :=
  let jInv := inverseLeftJacobianSo3 (tail3 twist)
  let topRight : Matrix (Fin 3) (Fin 3) T := fun i j =>
    -(mmul (mmul jInv (qMatrixSe3 (head3 twist) (tail3 twist))) jInv i j)
  blocks jInv topRight (fun _ _ => 0) jInv

/-- `SE3::right_jacobian_inverse` (`lie/se3.rs:390-394`). -/
def SE3.rightJacobianInverse (twist : Fin 6 → T) : Matrix (Fin 6) (Fin 6) T := SE3.leftJacobianInverse (vneg twist)

end Multicalc
