import Verif.Model.LinearAlgebra

/-!
# Quaternions, rotations, rigid transforms, twists, wrenches and inertias

Model of `crates/multicalc/src/spatial`.  Vectors are functions `Fin 3 → T`; `recip` is `1 / x`.
-/

namespace Multicalc

section

variable {T : Type} [Zero T] [One T] [NatCast T] [Add T] [Sub T] [Mul T] [Div T] [Neg T] [LT T]
  [DecidableLT T] [LE T] [DecidableLE T] [BEq T] [Max T] [Fns T]

/-- `T::HALF`. -/
def half : T := 1 / ((2 : ℕ) : T)

/-- `small_angle` (`spatial/mod.rs:32-34`). -/
def smallAngle : T := epsilonX30

/-- `small_angle_sq` (`spatial/mod.rs:40-42`). -/
def smallAngleSq : T := smallAngle * smallAngle

/-- `Vector::is_finite` (`vector.rs`). -/
def vecIsFinite {n : ℕ} (v : Fin n → T) : Bool := (List.finRange n).all fun i => Fns.isFinite (v i)

/-! ### Quaternions -/

/-- `Quaternion` (`quaternion.rs:33-39`). -/
@[ext] structure Quat (T : Type) where
  w : T
  x : T
  y : T
  z : T

/-- `Quaternion::identity` (`quaternion.rs:84-91`). -/
def Quat.identity : Quat T := ⟨1, 0, 0, 0⟩

/-- `Quaternion::from_scalar_vector` (`quaternion.rs:104-107`). -/
def Quat.fromScalarVector (w : T) (v : Fin 3 → T) : Quat T := ⟨w, v 0, v 1, v 2⟩

/-- `Quaternion::vec` (`quaternion.rs:139-141`). -/
def Quat.vec (q : Quat T) : Fin 3 → T := ![q.x, q.y, q.z]

/-- `Quaternion::conjugate` (`quaternion.rs:153-160`). -/
def Quat.conjugate (q : Quat T) : Quat T := ⟨q.w, -q.x, -q.y, -q.z⟩

/-- `Quaternion::norm_squared` (`quaternion.rs:165-167`). -/
def Quat.normSquared (q : Quat T) : T := q.w * q.w + q.x * q.x + q.y * q.y + q.z * q.z

/-- `Quaternion::norm` (`quaternion.rs:172-174`). -/
def Quat.norm (q : Quat T) : T := Fns.sqrt q.normSquared

/-- `Quaternion::dot` (`quaternion.rs:179-181`). -/
def Quat.dot (p q : Quat T) : T := p.w * q.w + p.x * q.x + p.y * q.y + p.z * q.z

/-- `Add` (`quaternion.rs:637-647`). -/
def Quat.add (p q : Quat T) : Quat T := ⟨p.w + q.w, p.x + q.x, p.y + q.y, p.z + q.z⟩

/-- `Sub` (`quaternion.rs:649-659`). -/
def Quat.sub (p q : Quat T) : Quat T := ⟨p.w - q.w, p.x - q.x, p.y - q.y, p.z - q.z⟩

/-- `Neg` (`quaternion.rs:661-671`). -/
def Quat.neg (p : Quat T) : Quat T := ⟨-p.w, -p.x, -p.y, -p.z⟩

/-- `Mul<T>` (`quaternion.rs:674-685`). -/
def Quat.scale (p : Quat T) (s : T) : Quat T := ⟨p.w * s, p.x * s, p.y * s, p.z * s⟩

/-- The Hamilton product (`quaternion.rs:689-703`). -/
def Quat.mul (p q : Quat T) : Quat T :=
  ⟨p.w * q.w - p.x * q.x - p.y * q.y - p.z * q.z,
   p.w * q.x + p.x * q.w + p.y * q.z - p.z * q.y,
   p.w * q.y - p.x * q.z + p.y * q.w + p.z * q.x,
   p.w * q.z + p.x * q.y - p.y * q.x + p.z * q.w⟩

/-- `Quaternion::inverse` (`quaternion.rs:187-189`). -/
def Quat.inverse (q : Quat T) : Quat T := q.conjugate.scale (1 / q.normSquared)

/-- `Quaternion::normalized` (`quaternion.rs:195-197`). -/
def Quat.normalized (q : Quat T) : Quat T := q.scale (1 / q.norm)

/-- `Quaternion::try_normalized` (`quaternion.rs:202-209`). -/
def Quat.tryNormalized (q : Quat T) : Option (Quat T) :=
  if !Fns.isFinite q.norm || decide (q.norm ≤ Fns.epsilon) then none
  else some (q.scale (1 / q.norm))

/-- `Quaternion::exp` (`quaternion.rs:216-233`). -/
def Quat.exp (q : Quat T) : Quat T :=
  let vnSq := q.x * q.x + q.y * q.y + q.z * q.z
  let expScalar := Fns.exp q.w
  let cs := if vnSq < smallAngleSq then
      (1 - vnSq / ((2 : ℕ) : T), 1 - vnSq / Fns.lit 6)
    else (Fns.cos (Fns.sqrt vnSq), Fns.sin (Fns.sqrt vnSq) / Fns.sqrt vnSq)
  let scale := expScalar * cs.2
  ⟨expScalar * cs.1, q.x * scale, q.y * scale, q.z * scale⟩

/-- `Quaternion::log` (`quaternion.rs:244-260`). -/
def Quat.log (q : Quat T) : Quat T :=
  let n := q.norm
  let vectorNorm := Fns.sqrt (q.x * q.x + q.y * q.y + q.z * q.z)
  let coeff := if vectorNorm < smallAngle ∧ 0 < q.w then 1 / n
    else Fns.atan2 vectorNorm q.w / vectorNorm
  ⟨Fns.log n, q.x * coeff, q.y * coeff, q.z * coeff⟩

/-- `Quaternion::from_axis_angle` (`quaternion.rs:280-294`). -/
def Quat.fromAxisAngle (axis : Fin 3 → T) (angle : T) : Quat T :=
  let axisNorm := Fns.sqrt (vdot axis axis)
  if axisNorm ≤ Fns.epsilon then Quat.identity
  else
    let h := angle * half
    let scale := Fns.sin h / axisNorm
    ⟨Fns.cos h, axis 0 * scale, axis 1 * scale, axis 2 * scale⟩

/-- `Quaternion::from_scaled_axis` (`quaternion.rs:302-322`). -/
def Quat.fromScaledAxis (rotvec : Fin 3 → T) : Quat T :=
  let thetaSq := vdot rotvec rotvec
  let ws := if thetaSq < smallAngleSq then
      (1 - thetaSq / Fns.lit 8, half - thetaSq / Fns.lit 48)
    else
      let theta := Fns.sqrt thetaSq
      let h := theta * half
      (Fns.cos h, Fns.sin h / theta)
  ⟨ws.1, rotvec 0 * ws.2, rotvec 1 * ws.2, rotvec 2 * ws.2⟩

/-- `Quaternion::from_euler_zyx` (`quaternion.rs:328-338`). -/
def Quat.fromEulerZyx (roll pitch yaw : T) : Quat T :=
  let cr := Fns.cos (roll * half)
  let sr := Fns.sin (roll * half)
  let cp := Fns.cos (pitch * half)
  let sp := Fns.sin (pitch * half)
  let cy := Fns.cos (yaw * half)
  let sy := Fns.sin (yaw * half)
  ⟨cr * cp * cy + sr * sp * sy, sr * cp * cy - cr * sp * sy, cr * sp * cy + sr * cp * sy,
   cr * cp * sy - sr * sp * cy⟩

/-- `unit_direction` (`quaternion.rs:51-66`). -/
def unitDirection (v : Fin 3 → T) : Option (Fin 3 → T) :=
  if !vecIsFinite v then none
  else
    let scale := max (max (Fns.abs (v 0)) (Fns.abs (v 1))) (Fns.abs (v 2))
    if scale == 0 then none else vtryNormalized (vdivBy v scale)

/-- The principal axis least aligned with `a` (`quaternion.rs:390-397`). -/
def principalAxis (a : Fin 3 → T) : Fin 3 → T :=
  if Fns.abs (a 0) ≤ Fns.abs (a 1) ∧ Fns.abs (a 0) ≤ Fns.abs (a 2) then ![1, 0, 0]
  else if Fns.abs (a 1) ≤ Fns.abs (a 2) then ![0, 1, 0]
  else ![0, 0, 1]

/-- `Quaternion::from_two_vectors` (`quaternion.rs:368-409`). -/
def Quat.fromTwoVectors (source target : Fin 3 → T) : Quat T :=
  match unitDirection source, unitDirection target with
  | some a, some b =>
    let h := vadd a b
    let hSq := vnormSquared h
    if hSq == 0 then Quat.fromScalarVector 0 (vnormalized (cross a (principalAxis a)))
    else (Quat.fromScalarVector (hSq * half) (cross a h)).normalized
  | _, _ => Quat.identity

/-- `Quaternion::try_from_rotation_matrix` (`quaternion.rs:417-455`). -/
def Quat.tryFromRotationMatrix (m : Matrix (Fin 3) (Fin 3) T) : Option (Quat T) :=
  let quarter : T := Fns.lit (1 / 4)
  let two : T := ((2 : ℕ) : T)
  let trace := m 0 0 + m 1 1 + m 2 2
  let q : Quat T :=
    if 0 < trace then
      let s := Fns.sqrt (trace + 1) * two
      ⟨quarter * s, (m 2 1 - m 1 2) / s, (m 0 2 - m 2 0) / s, (m 1 0 - m 0 1) / s⟩
    else if m 1 1 < m 0 0 ∧ m 2 2 < m 0 0 then
      let s := Fns.sqrt (1 + m 0 0 - m 1 1 - m 2 2) * two
      ⟨(m 2 1 - m 1 2) / s, quarter * s, (m 0 1 + m 1 0) / s, (m 0 2 + m 2 0) / s⟩
    else if m 2 2 < m 1 1 then
      let s := Fns.sqrt (1 + m 1 1 - m 0 0 - m 2 2) * two
      ⟨(m 0 2 - m 2 0) / s, (m 0 1 + m 1 0) / s, quarter * s, (m 1 2 + m 2 1) / s⟩
    else
      let s := Fns.sqrt (1 + m 2 2 - m 0 0 - m 1 1) * two
      ⟨(m 1 0 - m 0 1) / s, (m 0 2 + m 2 0) / s, (m 1 2 + m 2 1) / s, quarter * s⟩
  q.tryNormalized

/-- `Quaternion::to_rotation_matrix` (`quaternion.rs:460-480`). -/
def Quat.toRotationMatrix (q : Quat T) : Matrix (Fin 3) (Fin 3) T :=
  let two : T := ((2 : ℕ) : T)
  !![1 - two * (q.y * q.y + q.z * q.z), two * (q.x * q.y - q.w * q.z), two * (q.x * q.z + q.w * q.y);
     two * (q.x * q.y + q.w * q.z), 1 - two * (q.x * q.x + q.z * q.z), two * (q.y * q.z - q.w * q.x);
     two * (q.x * q.z - q.w * q.y), two * (q.y * q.z + q.w * q.x), 1 - two * (q.x * q.x + q.y * q.y)]

/-- The sign fix `if self.w < 0 { -self } else { self }` (`quaternion.rs:486, 506`). -/
def Quat.shortest (q : Quat T) : Quat T := if q.w < 0 then q.neg else q

/-- `Quaternion::to_axis_angle` (`quaternion.rs:485-499`). -/
def Quat.toAxisAngle (self : Quat T) : (Fin 3 → T) × T :=
  let q := self.shortest
  let vectorNorm := Fns.sqrt (q.x * q.x + q.y * q.y + q.z * q.z)
  if vectorNorm ≤ Fns.epsilon then (![1, 0, 0], 0)
  else
    let inv := 1 / vectorNorm
    (![q.x * inv, q.y * inv, q.z * inv], ((2 : ℕ) : T) * Fns.atan2 vectorNorm q.w)

/-- `Quaternion::to_scaled_axis` (`quaternion.rs:505-521`). -/
def Quat.toScaledAxis (self : Quat T) : Fin 3 → T :=
  let q := self.shortest
  let vectorNorm := Fns.sqrt (q.x * q.x + q.y * q.y + q.z * q.z)
  let coeff := if vectorNorm < smallAngle then ((2 : ℕ) : T)
    else (((2 : ℕ) : T) * Fns.atan2 vectorNorm q.w) / vectorNorm
  ![q.x * coeff, q.y * coeff, q.z * coeff]

/-- `Quaternion::to_euler_zyx` (`quaternion.rs:529-546`). -/
def Quat.toEulerZyx (q : Quat T) : T × T × T :=
  let two : T := ((2 : ℕ) : T)
  let sinp := two * (q.w * q.y - q.z * q.x)
  if 1 - smallAngle ≤ Fns.abs sinp then
    let pitch := Fns.copysign (Fns.pi * half) sinp
    let a := two * Fns.atan2 q.x q.w
    let yaw := if 0 < sinp then -a else a
    (0, pitch, yaw)
  else
    (Fns.atan2 (two * (q.w * q.x + q.y * q.z)) (1 - two * (q.x * q.x + q.y * q.y)),
     asin sinp,
     Fns.atan2 (two * (q.w * q.z + q.x * q.y)) (1 - two * (q.y * q.y + q.z * q.z)))

/-- `Quaternion::transform_point` (`quaternion.rs:550-560`). -/
def Quat.transformPoint (q : Quat T) (p : Fin 3 → T) : Fin 3 → T :=
  let rotated := (q.mul ⟨0, p 0, p 1, p 2⟩).mul q.conjugate
  ![rotated.x, rotated.y, rotated.z]

/-- `Quaternion::inverse_transform_point` (`quaternion.rs:579-581`). -/
def Quat.inverseTransformPoint (q : Quat T) (p : Fin 3 → T) : Fin 3 → T :=
  q.conjugate.transformPoint p

/-- `Quaternion::rotation_angle_to` (`quaternion.rs:603-610`). -/
def Quat.rotationAngleTo (q other : Quat T) : T :=
  let relative := q.conjugate.mul other
  let vectorNorm := Fns.sqrt (relative.x * relative.x + relative.y * relative.y
    + relative.z * relative.z)
  ((2 : ℕ) : T) * Fns.atan2 vectorNorm (Fns.abs relative.w)

/-- `Quaternion::slerp` (`quaternion.rs:618-634`). -/
def Quat.slerp (q other : Quat T) (amount : T) : Quat T :=
  let d := q.dot other
  let dot := if d < 0 then -d else d
  let shortest := if d < 0 then other.neg else other
  if 1 - Fns.epsilon < dot then
    ((q.scale (1 - amount)).add (shortest.scale amount)).normalized
  else
    let theta := acos dot
    let sinTheta := Fns.sin theta
    let weightStart := Fns.sin ((1 - amount) * theta) / sinTheta
    let weightEnd := Fns.sin (amount * theta) / sinTheta
    ((q.scale weightStart).add (shortest.scale weightEnd)).normalized

/-! ### Planar rotations and transforms -/

/-- `SO2` (`lie/so2.rs:12-15`). -/
@[ext] structure SO2 (T : Type) where
  cos : T
  sin : T

/-- `SO2::identity` (`lie/so2.rs:21-26`). -/
def SO2.identity : SO2 T := ⟨1, 0⟩

/-- `SO2::from_angle` and `SO2::exp` (`lie/so2.rs:31-36, 78-80`). -/
def SO2.exp (theta : T) : SO2 T := ⟨Fns.cos theta, Fns.sin theta⟩

/-- `SO2::compose` (`lie/so2.rs:48-53`). -/
def SO2.compose (p q : SO2 T) : SO2 T :=
  ⟨p.cos * q.cos - p.sin * q.sin, p.cos * q.sin + p.sin * q.cos⟩

/-- `SO2::inverse` (`lie/so2.rs:58-63`). -/
def SO2.inverse (p : SO2 T) : SO2 T := ⟨p.cos, -p.sin⟩

/-- `SO2::act` (`lie/so2.rs:67-73`). -/
def SO2.act (p : SO2 T) (v : Fin 2 → T) : Fin 2 → T :=
  ![p.cos * v 0 - p.sin * v 1, p.sin * v 0 + p.cos * v 1]

/-- `SO2::log` (`lie/so2.rs:85-87`). -/
def SO2.log (p : SO2 T) : T := Fns.atan2 p.sin p.cos

/-- `SO2::to_matrix` (`lie/so2.rs:112-114`). -/
def SO2.toMatrix (p : SO2 T) : Matrix (Fin 2) (Fin 2) T := !![p.cos, -p.sin; p.sin, p.cos]

/-- `SO2::try_from_matrix` (`lie/so2.rs:120-136`). -/
def SO2.tryFromMatrix (m : Matrix (Fin 2) (Fin 2) T) : Option (SO2 T) :=
  let n := hypot (m 0 0) (m 1 0)
  if !Fns.isFinite n || decide (n ≤ Fns.epsilon) || decide (epsilonX30 < Fns.abs (n - 1)) then none
  else
    let cos := m 0 0 / n
    let sin := m 1 0 / n
    let secondColumnError := hypot (m 0 1 + sin) (m 1 1 - cos)
    if !Fns.isFinite secondColumnError || decide (epsilonX30 < secondColumnError) then none
    else some ⟨cos, sin⟩

/-- `SO2::interpolate` (`lie/so2.rs:140-142`). -/
def SO2.interpolate (p q : SO2 T) (amount : T) : SO2 T :=
  p.compose (SO2.exp ((p.inverse.compose q).log * amount))

/-- `SO2::normalized` (`lie/so2.rs:146-187`). -/
def SO2.normalized (p : SO2 T) : SO2 T :=
  let scale := 1 / Fns.sqrt (p.cos * p.cos + p.sin * p.sin)
  ⟨p.cos * scale, p.sin * scale⟩

/-- `SE2` (`lie/se2.rs:13-16`). -/
@[ext] structure SE2 (T : Type) where
  rotation : SO2 T
  translation : Fin 2 → T

/-- `SE2::identity` (`lie/se2.rs:22-27`). -/
def SE2.identity : SE2 T := ⟨SO2.identity, fun _ => 0⟩

/-- `SE2::compose` (`lie/se2.rs:55-60`). -/
def SE2.compose (p q : SE2 T) : SE2 T :=
  ⟨p.rotation.compose q.rotation, vadd (p.rotation.act q.translation) p.translation⟩

/-- `SE2::inverse` (`lie/se2.rs:65-71`). -/
def SE2.inverse (p : SE2 T) : SE2 T :=
  ⟨p.rotation.inverse, vneg (p.rotation.inverse.act p.translation)⟩

/-- `SE2::act` (`lie/se2.rs:75-77`). -/
def SE2.act (p : SE2 T) (v : Fin 2 → T) : Fin 2 → T := vadd (p.rotation.act v) p.translation

/-- The two coefficients of `V(θ)` (`lie/se2.rs:86-93`). -/
def SE2.vCoeffs (omega : T) : T × T :=
  let thetaSq := omega * omega
  if thetaSq < smallAngleSq then
    (1 - thetaSq / Fns.lit 6, omega * (half - thetaSq / Fns.lit 24))
  else (Fns.sin omega / omega, (1 - Fns.cos omega) / omega)

/-- `SE2::exp` (`lie/se2.rs:83-99`). -/
def SE2.exp (twist : Fin 3 → T) : SE2 T :=
  let ab := SE2.vCoeffs (twist 2)
  ⟨SO2.exp (twist 2), ![ab.1 * twist 0 - ab.2 * twist 1, ab.2 * twist 0 + ab.1 * twist 1]⟩

/-- The two coefficients of `V(θ)⁻¹` (`lie/se2.rs:106-111`). -/
def SE2.vInvCoeffs (omega : T) : T × T :=
  let thetaSq := omega * omega
  if thetaSq < smallAngleSq then (1 - thetaSq / Fns.lit 12, omega * half)
  else
    let h := omega * half
    (h * (Fns.cos h / Fns.sin h), h)

/-- `SE2::log` (`lie/se2.rs:103-118`). -/
def SE2.log (p : SE2 T) : Fin 3 → T :=
  let omega := p.rotation.log
  let ab := SE2.vInvCoeffs omega
  ![ab.1 * p.translation 0 + ab.2 * p.translation 1,
    -ab.2 * p.translation 0 + ab.1 * p.translation 1, omega]

/-- `SE2::adjoint` (`lie/se2.rs:122-130`). -/
def SE2.adjoint (p : SE2 T) : Matrix (Fin 3) (Fin 3) T :=
  !![p.rotation.cos, -p.rotation.sin, p.translation 1;
     p.rotation.sin, p.rotation.cos, -p.translation 0;
     0, 0, 1]

/-- `SE2::hat` (`lie/se2.rs:134-141`). -/
def SE2.hat (twist : Fin 3 → T) : Matrix (Fin 3) (Fin 3) T :=
  !![0, -twist 2, twist 0; twist 2, 0, twist 1; 0, 0, 0]

/-- `SE2::vee` (`lie/se2.rs:145-148`). -/
def SE2.vee (m : Matrix (Fin 3) (Fin 3) T) : Fin 3 → T := ![m 0 2, m 1 2, m 1 0]

/-- `SE2::to_matrix` (`lie/se2.rs:152-160`). -/
def SE2.toMatrix (p : SE2 T) : Matrix (Fin 3) (Fin 3) T :=
  !![p.rotation.cos, -p.rotation.sin, p.translation 0;
     p.rotation.sin, p.rotation.cos, p.translation 1;
     0, 0, 1]

/-- `SE2::try_from_matrix` (`lie/se2.rs:167-187`). -/
def SE2.tryFromMatrix (m : Matrix (Fin 3) (Fin 3) T) : Option (SE2 T) :=
  if !Fns.isFinite (m 0 2) || !Fns.isFinite (m 1 2) || !Fns.isFinite (m 2 0)
      || !Fns.isFinite (m 2 1) || !Fns.isFinite (m 2 2)
      || decide (epsilonX30 < Fns.abs (m 2 0)) || decide (epsilonX30 < Fns.abs (m 2 1))
      || decide (epsilonX30 < Fns.abs (m 2 2 - 1)) then none
  else
    match SO2.tryFromMatrix !![m 0 0, m 0 1; m 1 0, m 1 1] with
    | none => none
    | some rotation => some ⟨rotation, ![m 0 2, m 1 2]⟩

/-- `SE2::interpolate` (`lie/se2.rs:191-193`). -/
def SE2.interpolate (p q : SE2 T) (amount : T) : SE2 T :=
  p.compose (SE2.exp (vscaleBy (p.inverse.compose q).log amount))

/-- The coupling coefficients `p, r` of the planar Jacobians (`lie/se2.rs:211-226, 249-258`). -/
def SE2.couplingCoeffs (omega : T) : T × T :=
  let thetaSq := omega * omega
  if thetaSq < smallAngleSq then
    (half - thetaSq / Fns.lit 24, omega * (1 / Fns.lit 6 - thetaSq / Fns.lit 120))
  else ((1 - Fns.cos omega) / thetaSq, (omega - Fns.sin omega) / thetaSq)

/-- `SE2::left_jacobian` (`lie/se2.rs:207-234`). -/
def SE2.leftJacobian (twist : Fin 3 → T) : Matrix (Fin 3) (Fin 3) T :=
  let ab := SE2.vCoeffs (twist 2)
  let pr := SE2.couplingCoeffs (twist 2)
  !![ab.1, -ab.2, pr.1 * twist 1 + pr.2 * twist 0;
     ab.2, ab.1, pr.2 * twist 1 - pr.1 * twist 0;
     0, 0, 1]

/-- `SE2::left_jacobian_inverse` (`lie/se2.rs:245-273`). -/
def SE2.leftJacobianInverse (twist : Fin 3 → T) : Matrix (Fin 3) (Fin 3) T :=
  let pr := SE2.couplingCoeffs (twist 2)
  let couplingX := pr.1 * twist 1 + pr.2 * twist 0
  let couplingY := pr.2 * twist 1 - pr.1 * twist 0
  let ab := SE2.vInvCoeffs (twist 2)
  !![ab.1, ab.2, -(ab.1 * couplingX + ab.2 * couplingY);
     -ab.2, ab.1, -(-ab.2 * couplingX + ab.1 * couplingY);
     0, 0, 1]

/-! ### Spatial rotations and transforms -/

/-- `SO3` (`lie/so3.rs:27-29`). -/
@[ext] structure SO3 (T : Type) where
  quaternion : Quat T

/-- `SO3::identity` (`lie/so3.rs:35-39`). -/
def SO3.identity : SO3 T := ⟨Quat.identity⟩

/-- `SO3::from_quaternion` (`lie/so3.rs:45-49`). -/
def SO3.fromQuaternion (q : Quat T) : SO3 T := ⟨q.normalized⟩

/-- `SO3::try_from_quaternion` (`lie/so3.rs:54-58`). -/
def SO3.tryFromQuaternion (q : Quat T) : Option (SO3 T) := q.tryNormalized.map SO3.mk

/-- `SO3::compose` (`lie/so3.rs:70-74`). -/
def SO3.compose (p q : SO3 T) : SO3 T := ⟨p.quaternion.mul q.quaternion⟩

/-- `SO3::inverse` (`lie/so3.rs:79-83`). -/
def SO3.inverse (p : SO3 T) : SO3 T := ⟨p.quaternion.conjugate⟩

/-- `SO3::act` (`lie/so3.rs:87-89`). -/
def SO3.act (p : SO3 T) (v : Fin 3 → T) : Fin 3 → T := p.quaternion.transformPoint v

/-- `SO3::exp` (`lie/so3.rs:95-99`). -/
def SO3.exp (phi : Fin 3 → T) : SO3 T := ⟨Quat.fromScaledAxis phi⟩

/-- `SO3::log` (`lie/so3.rs:103-105`). -/
def SO3.log (p : SO3 T) : Fin 3 → T := p.quaternion.toScaledAxis

/-- `skew3` (`lie/mod.rs:29-32`), which is also `SO3::hat` (`lie/so3.rs:109-111`). -/
def skew3 (v : Fin 3 → T) : Matrix (Fin 3) (Fin 3) T :=
  !![0, -v 2, v 1; v 2, 0, -v 0; -v 1, v 0, 0]

/-- `SO3::vee` (`lie/so3.rs:115-118`). -/
def SO3.vee (m : Matrix (Fin 3) (Fin 3) T) : Fin 3 → T := ![m 2 1, m 0 2, m 1 0]

/-- `SO3::to_matrix` and `SO3::adjoint` (`lie/so3.rs:122-130`). -/
def SO3.toMatrix (p : SO3 T) : Matrix (Fin 3) (Fin 3) T := p.quaternion.toRotationMatrix

/-- `SO3::try_from_matrix` (`lie/so3.rs:136-154`). -/
def SO3.tryFromMatrix (m : Matrix (Fin 3) (Fin 3) T) : Option (SO3 T) :=
  let gram := mmul (mtranspose m) m
  if !((List.finRange 3).all fun row => (List.finRange 3).all fun column =>
      let target : T := if row = column then 1 else 0
      let error := Fns.abs (gram row column - target)
      Fns.isFinite error && !decide (epsilonX30 < error)) then none
  else
    let determinant := determinant3 m
    if !Fns.isFinite determinant || decide (determinant ≤ 0) then none
    else (Quat.tryFromRotationMatrix m).map SO3.mk

/-- The three axes as columns (`lie/so3.rs:217-226`). -/
def axesAsColumns (first second third : Fin 3 → T) : Matrix (Fin 3) (Fin 3) T := fun row column =>
  if column = 0 then first row else if column = 1 then second row else third row

/-- `SO3::from_two_direction_pairs` (`lie/so3.rs:191-228`). -/
def SO3.fromTwoDirectionPairs (primaryObserved secondaryObserved primaryReference
    secondaryReference : Fin 3 → T) : Option (SO3 T) :=
  if !vecIsFinite primaryObserved || !vecIsFinite secondaryObserved || !vecIsFinite primaryReference
      || !vecIsFinite secondaryReference then none
  else do
    let observedFirst ← vtryNormalized primaryObserved
    let observedThird ← vtryNormalized (cross observedFirst secondaryObserved)
    let observedSecond := cross observedThird observedFirst
    let referenceFirst ← vtryNormalized primaryReference
    let referenceThird ← vtryNormalized (cross referenceFirst secondaryReference)
    let referenceSecond := cross referenceThird referenceFirst
    SO3.tryFromMatrix (mmul (axesAsColumns referenceFirst referenceSecond referenceThird)
      (mtranspose (axesAsColumns observedFirst observedSecond observedThird)))

/-- `SO3::interpolate` (`lie/so3.rs:233-237`). -/
def SO3.interpolate (p q : SO3 T) (amount : T) : SO3 T := ⟨p.quaternion.slerp q.quaternion amount⟩

/-- `SO3::normalized` (`lie/so3.rs:242-246`). -/
def SO3.normalized (p : SO3 T) : SO3 T := ⟨p.quaternion.normalized⟩

/-- The first coefficient of `left_jacobian_so3` (`lie/mod.rs:44-48`). -/
def so3Coeff1 (thetaSq : T) : T :=
  if thetaSq < Fns.cbrt (Fns.lit 360 * Fns.epsilon) then half - thetaSq / Fns.lit 24
  else (1 - Fns.cos (Fns.sqrt thetaSq)) / thetaSq

/-- The second coefficient of `left_jacobian_so3` (`lie/mod.rs:50-54`). -/
def so3Coeff2 (thetaSq : T) : T :=
  if thetaSq < Fns.cbrt (Fns.lit 2520 * Fns.epsilon) then 1 / Fns.lit 6 - thetaSq / Fns.lit 120
  else (Fns.sqrt thetaSq - Fns.sin (Fns.sqrt thetaSq)) / (thetaSq * Fns.sqrt thetaSq)

/-- `left_jacobian_so3` (`lie/mod.rs:37-57`). -/
def leftJacobianSo3 (phi : Fin 3 → T) : Matrix (Fin 3) (Fin 3) T :=
  let thetaSq := vdot phi phi
  let skew := skew3 phi
  let skewSq := mmul skew skew
  madd (madd (midentity 3) (mscale skew (so3Coeff1 thetaSq))) (mscale skewSq (so3Coeff2 thetaSq))

/-- The coefficient of `inverse_left_jacobian_so3` (`lie/mod.rs:66-72`). -/
def so3Coeff3 (thetaSq : T) : T :=
  if thetaSq < Fns.cbrt (Fns.lit 15120 * Fns.epsilon) then 1 / Fns.lit 12 + thetaSq / Fns.lit 720
  else
    let h := Fns.sqrt thetaSq * half
    (1 - h * (Fns.cos h / Fns.sin h)) / thetaSq

/-- `inverse_left_jacobian_so3` (`lie/mod.rs:62-74`). -/
def inverseLeftJacobianSo3 (phi : Fin 3 → T) : Matrix (Fin 3) (Fin 3) T :=
  let thetaSq := vdot phi phi
  let skew := skew3 phi
  let skewSq := mmul skew skew
  madd (msub (midentity 3) (mscale skew half)) (mscale skewSq (so3Coeff3 thetaSq))

/-- `SE3` (`lie/se3.rs:16-19`). -/
@[ext] structure SE3 (T : Type) where
  rotation : SO3 T
  translation : Fin 3 → T

/-- `SE3::identity` (`lie/se3.rs:25-30`). -/
def SE3.identity : SE3 T := ⟨SO3.identity, fun _ => 0⟩

/-- `SE3::compose` (`lie/se3.rs:58-63`). -/
def SE3.compose (p q : SE3 T) : SE3 T :=
  ⟨p.rotation.compose q.rotation, vadd (p.rotation.act q.translation) p.translation⟩

/-- `SE3::inverse` (`lie/se3.rs:68-74`). -/
def SE3.inverse (p : SE3 T) : SE3 T :=
  ⟨p.rotation.inverse, vneg (p.rotation.inverse.act p.translation)⟩

/-- `SE3::act` (`lie/se3.rs:78-80`). -/
def SE3.act (p : SE3 T) (v : Fin 3 → T) : Fin 3 → T := vadd (p.rotation.act v) p.translation

/-- The first and last three entries of a six-vector. -/
def head3 (v : Fin 6 → T) : Fin 3 → T := ![v 0, v 1, v 2]
def tail3 (v : Fin 6 → T) : Fin 3 → T := ![v 3, v 4, v 5]

/-- `SE3::exp` (`lie/se3.rs:86-94`). -/
def SE3.exp (twist : Fin 6 → T) : SE3 T :=
  ⟨SO3.exp (tail3 twist), mmulVec (leftJacobianSo3 (tail3 twist)) (head3 twist)⟩

/-- `SE3::log` (`lie/se3.rs:98-104`). -/
def SE3.log (p : SE3 T) : Fin 6 → T :=
  let phi := p.rotation.log
  let linear := mmulVec (inverseLeftJacobianSo3 phi) p.translation
  ![linear 0, linear 1, linear 2, phi 0, phi 1, phi 2]

/-- A 6×6 matrix from four 3×3 blocks: the loops at `lie/se3.rs:111-121, 140-150`. -/
def blocks (a b c d : Matrix (Fin 3) (Fin 3) T) : Matrix (Fin 6) (Fin 6) T := fun i j =>
  if hi : i.val < 3 then
    if hj : j.val < 3 then a ⟨i, hi⟩ ⟨j, hj⟩ else b ⟨i, hi⟩ ⟨j - 3, by omega⟩
  else
    if hj : j.val < 3 then c ⟨i - 3, by omega⟩ ⟨j, hj⟩ else d ⟨i - 3, by omega⟩ ⟨j - 3, by omega⟩

/-- `SE3::adjoint` (`lie/se3.rs:108-122`). -/
def SE3.adjoint (p : SE3 T) : Matrix (Fin 6) (Fin 6) T :=
  let rotation := p.rotation.toMatrix
  blocks rotation (mmul (skew3 p.translation) rotation) (fun _ _ => 0) rotation

/-- `SE3::force_adjoint` (`lie/se3.rs:137-151`). -/
def SE3.forceAdjoint (p : SE3 T) : Matrix (Fin 6) (Fin 6) T :=
  let rotation := p.rotation.toMatrix
  blocks rotation (fun _ _ => 0) (mmul (skew3 p.translation) rotation) rotation

/-- `SE3::hat` (`lie/se3.rs:289-297`). -/
def SE3.hat (twist : Fin 6 → T) : Matrix (Fin 4) (Fin 4) T :=
  !![0, -twist 5, twist 4, twist 0;
     twist 5, 0, -twist 3, twist 1;
     -twist 4, twist 3, 0, twist 2;
     0, 0, 0, 0]

/-- `SE3::vee` (`lie/se3.rs:301-304`). -/
def SE3.vee (m : Matrix (Fin 4) (Fin 4) T) : Fin 6 → T :=
  ![m 0 3, m 1 3, m 2 3, m 2 1, m 0 2, m 1 0]

/-- `SE3::to_matrix` (`lie/se3.rs:308-320`). -/
def SE3.toMatrix (p : SE3 T) : Matrix (Fin 4) (Fin 4) T :=
  let r := p.rotation.toMatrix
  !![r 0 0, r 0 1, r 0 2, p.translation 0;
     r 1 0, r 1 1, r 1 2, p.translation 1;
     r 2 0, r 2 1, r 2 2, p.translation 2;
     0, 0, 0, 1]

/-- `SE3::try_from_matrix` (`lie/se3.rs:327-355`). -/
def SE3.tryFromMatrix (m : Matrix (Fin 4) (Fin 4) T) : Option (SE3 T) :=
  if !Fns.isFinite (m 0 3) || !Fns.isFinite (m 1 3) || !Fns.isFinite (m 2 3)
      || !Fns.isFinite (m 3 0) || !Fns.isFinite (m 3 1) || !Fns.isFinite (m 3 2)
      || !Fns.isFinite (m 3 3)
      || decide (epsilonX30 < Fns.abs (m 3 0)) || decide (epsilonX30 < Fns.abs (m 3 1))
      || decide (epsilonX30 < Fns.abs (m 3 2)) || decide (epsilonX30 < Fns.abs (m 3 3 - 1)) then none
  else
    match SO3.tryFromMatrix !![m 0 0, m 0 1, m 0 2; m 1 0, m 1 1, m 1 2; m 2 0, m 2 1, m 2 2] with
    | none => none
    | some rotation => some ⟨rotation, ![m 0 3, m 1 3, m 2 3]⟩

/-- `SE3::interpolate` (`lie/se3.rs:360-362`). -/
def SE3.interpolate (p q : SE3 T) (amount : T) : SE3 T :=
  p.compose (SE3.exp (vscaleBy (p.inverse.compose q).log amount))

/-! ### Twists, wrenches and inertias -/

/-- `Twist` (`twist.rs:30-34`), linear part first. -/
@[ext] structure Twist (T : Type) where
  linear : Fin 3 → T
  angular : Fin 3 → T

/-- `Wrench` (`wrench.rs`), force first. -/
@[ext] structure Wrench (T : Type) where
  force : Fin 3 → T
  torque : Fin 3 → T

/-- `Twist::to_vector` (`twist.rs:94-116`). -/
def Twist.toVector (v : Twist T) : Fin 6 → T :=
  ![v.linear 0, v.linear 1, v.linear 2, v.angular 0, v.angular 1, v.angular 2]

/-- `Wrench::to_vector` (`wrench.rs`). -/
def Wrench.toVector (f : Wrench T) : Fin 6 → T :=
  ![f.force 0, f.force 1, f.force 2, f.torque 0, f.torque 1, f.torque 2]

/-- `Twist::scale` (`twist.rs:150-155`). -/
def Twist.scale (v : Twist T) (s : T) : Twist T := ⟨vscaleBy v.linear s, vscaleBy v.angular s⟩

/-- `Wrench::scale` (`wrench.rs:145-150`). -/
def Wrench.scale (f : Wrench T) (s : T) : Wrench T := ⟨vscaleBy f.force s, vscaleBy f.torque s⟩

/-- `Twist + Twist` (`twist.rs:211-221`). -/
def Twist.add (v w : Twist T) : Twist T := ⟨vadd v.linear w.linear, vadd v.angular w.angular⟩

/-- `Twist - Twist` (`twist.rs:223-233`). -/
def Twist.sub (v w : Twist T) : Twist T := ⟨vsub v.linear w.linear, vsub v.angular w.angular⟩

/-- `-Twist` (`twist.rs:235-245`). -/
def Twist.neg (v : Twist T) : Twist T := ⟨vneg v.linear, vneg v.angular⟩

/-- `Wrench + Wrench` (`wrench.rs:153-163`). -/
def Wrench.add (f g : Wrench T) : Wrench T := ⟨vadd f.force g.force, vadd f.torque g.torque⟩

/-- `Twist::cross` (`twist.rs:169-174`). -/
def Twist.cross (v w : Twist T) : Twist T :=
  ⟨vadd (Multicalc.cross v.angular w.linear) (Multicalc.cross v.linear w.angular),
   Multicalc.cross v.angular w.angular⟩

/-- `Twist::cross_wrench` (`twist.rs:189-194`). -/
def Twist.crossWrench (v : Twist T) (f : Wrench T) : Wrench T :=
  ⟨Multicalc.cross v.angular f.force,
   vadd (Multicalc.cross v.angular f.torque) (Multicalc.cross v.linear f.force)⟩

/-- `Twist::dot_wrench` (`twist.rs:206-208`). -/
def Twist.dotWrench (v : Twist T) (f : Wrench T) : T :=
  vdot v.linear f.force + vdot v.angular f.torque

/-- `SE3::act_twist` (`lie/se3.rs:173-177`). -/
def SE3.actTwist (p : SE3 T) (v : Twist T) : Twist T :=
  let angular := p.rotation.act v.angular
  ⟨vadd (p.rotation.act v.linear) (cross p.translation angular), angular⟩

/-- `SE3::act_wrench` (`lie/se3.rs:193-197`). -/
def SE3.actWrench (p : SE3 T) (f : Wrench T) : Wrench T :=
  let force := p.rotation.act f.force
  ⟨force, vadd (p.rotation.act f.torque) (cross p.translation force)⟩

/-- `SE3::inverse_act_twist` (`lie/se3.rs:211-216`). -/
def SE3.inverseActTwist (p : SE3 T) (v : Twist T) : Twist T :=
  let r := p.rotation.inverse
  ⟨r.act (vsub v.linear (cross p.translation v.angular)), r.act v.angular⟩

/-- `SE3::inverse_act_wrench` (`lie/se3.rs:230-235`). -/
def SE3.inverseActWrench (p : SE3 T) (f : Wrench T) : Wrench T :=
  let r := p.rotation.inverse
  ⟨r.act f.force, r.act (vsub f.torque (cross p.translation f.force))⟩

/-- `SpatialInertia` (`inertia.rs:27-32`). -/
@[ext] structure SpatialInertia (T : Type) where
  mass : T
  centerOfMass : Fin 3 → T
  rotationalInertia : Matrix (Fin 3) (Fin 3) T

/-- The variants of `SpatialError` (`error.rs`). -/
inductive SpatialError where
  | nonFinite
  | nonPositiveMass
  | notSymmetric
  | nonPositiveInertia
  deriving DecidableEq, Repr

/-- `SpatialInertia::new` (`inertia.rs:76-100`). -/
def SpatialInertia.new (mass : T) (centerOfMass : Fin 3 → T)
    (rotationalInertia : Matrix (Fin 3) (Fin 3) T) : Except SpatialError (SpatialInertia T) :=
  if !Fns.isFinite mass || !vecIsFinite centerOfMass || !mIsFinite rotationalInertia then
    .error .nonFinite
  else if mass ≤ 0 then .error .nonPositiveMass
  else if !isSymmetric rotationalInertia then .error .notSymmetric
  else if (List.finRange 3).any fun i => decide (rotationalInertia i i ≤ 0) then
    .error .nonPositiveInertia
  else .ok ⟨mass, centerOfMass, rotationalInertia⟩

/-- `SpatialInertia::from_diagonal_inertia` (`inertia.rs:116-126`). -/
def SpatialInertia.fromDiagonalInertia (mass : T) (centerOfMass diagonal : Fin 3 → T) :
    Except SpatialError (SpatialInertia T) :=
  SpatialInertia.new mass centerOfMass (mdiagonal diagonal)

/-- `SpatialInertia::inertia_about` (`inertia.rs:165-176`). -/
def SpatialInertia.inertiaAbout (b : SpatialInertia T) (point : Fin 3 → T) :
    Matrix (Fin 3) (Fin 3) T :=
  let offset := vsub point b.centerOfMass
  let distanceSquared := vdot offset offset
  fun row col =>
    let spread := if row = col then distanceSquared else 0
    b.rotationalInertia row col + b.mass * (spread - offset row * offset col)

/-- `SpatialInertia::momentum` (`inertia.rs:197-204`). -/
def SpatialInertia.momentum (b : SpatialInertia T) (v : Twist T) : Wrench T :=
  let balancePointVelocity := vadd v.linear (cross v.angular b.centerOfMass)
  let linear := vscaleBy balancePointVelocity b.mass
  ⟨linear, vadd (mmulVec b.rotationalInertia v.angular) (cross b.centerOfMass linear)⟩

/-- `SpatialInertia::bias_wrench` (`inertia.rs:223-225`). -/
def SpatialInertia.biasWrench (b : SpatialInertia T) (v : Twist T) : Wrench T :=
  v.crossWrench (b.momentum v)

/-- `SpatialInertia::kinetic_energy` (`inertia.rs:243-245`). -/
def SpatialInertia.kineticEnergy (b : SpatialInertia T) (v : Twist T) : T :=
  half * v.dotWrench (b.momentum v)

/-- `SpatialInertia::to_matrix` (`inertia.rs:272-286`). -/
def SpatialInertia.toMatrix (b : SpatialInertia T) : Matrix (Fin 6) (Fin 6) T :=
  blocks (mdiagonal fun _ => b.mass) (fun i j => -(b.mass * skew3 b.centerOfMass i j))
    (fun i j => b.mass * skew3 b.centerOfMass i j) (b.inertiaAbout fun _ => 0)

/-- `SpatialInertia::combined` (`inertia.rs:306-317`). -/
def SpatialInertia.combined (a b : SpatialInertia T) : SpatialInertia T :=
  let mass := a.mass + b.mass
  let centerOfMass := vscaleBy (vadd (vscaleBy a.centerOfMass a.mass) (vscaleBy b.centerOfMass b.mass))
    (1 / mass)
  ⟨mass, centerOfMass, madd (a.inertiaAbout centerOfMass) (b.inertiaAbout centerOfMass)⟩

/-- `SE3::act_inertia` (`lie/se3.rs:257-264`). -/
def SE3.actInertia (p : SE3 T) (b : SpatialInertia T) : SpatialInertia T :=
  let r := p.rotation.toMatrix
  ⟨b.mass, p.act b.centerOfMass, mmul (mmul r b.rotationalInertia) (mtranspose r)⟩

/-- `SE3::inverse_act_inertia` (`lie/se3.rs:283-285`). -/
def SE3.inverseActInertia (p : SE3 T) (b : SpatialInertia T) : SpatialInertia T :=
  p.inverse.actInertia b

/-- `FreeJointState` (`free_joint.rs:27-30`). -/
structure FreeJointState (T : Type) where
  pose : SE3 T
  velocity : Twist T

/-- `FreeJointState::from_generalized_vectors` (`free_joint.rs:98-105`). -/
def FreeJointState.fromGeneralizedVectors (position : Fin 7 → T) (velocity : Fin 6 → T) :
    Option (FreeJointState T) :=
  match (Quat.mk (position 3) (position 4) (position 5) (position 6)).tryNormalized with
  | none => none
  | some orientation =>
    some ⟨⟨SO3.fromQuaternion orientation, ![position 0, position 1, position 2]⟩,
      ⟨![velocity 0, velocity 1, velocity 2], ![velocity 3, velocity 4, velocity 5]⟩⟩

/-- `FreeJointState::generalized_position` (`free_joint.rs:116-120`). -/
def FreeJointState.generalizedPosition (s : FreeJointState T) : Fin 7 → T :=
  let t := s.pose.translation
  let q := s.pose.rotation.quaternion
  ![t 0, t 1, t 2, q.w, q.x, q.y, q.z]

/-- `FreeJointState::generalized_velocity` (`free_joint.rs:131-133`). -/
def FreeJointState.generalizedVelocity (s : FreeJointState T) : Fin 6 → T := s.velocity.toVector

/-! ### Pure pursuit -/

/-- The variants of `ControlError` used here (`error.rs`). -/
inductive PursuitError where
  | nonPositiveLookaheadDistance
  | nonFinite
  deriving DecidableEq, Repr

/-- `pure_pursuit_curvature` (`control/pure_pursuit.rs:67-81`). -/
def purePursuitCurvature (pose : SE2 T) (lookaheadPoint : Fin 2 → T) (lookaheadDistance : T) :
    Except PursuitError T :=
  if !Fns.isFinite lookaheadDistance || decide (lookaheadDistance ≤ 0) then
    .error .nonPositiveLookaheadDistance
  else if !vecIsFinite lookaheadPoint then .error .nonFinite
  else
    let lateral := pose.inverse.act lookaheadPoint 1
    .ok ((((2 : ℕ) : T) * lateral) / (lookaheadDistance * lookaheadDistance))

/-- `Curvature::to_body_twist` (`control/pure_pursuit.rs:33-35`): forward speed and turn rate. -/
def curvatureTwist (curvature forwardSpeed : T) : T × T := (forwardSpeed, forwardSpeed * curvature)

end

end Multicalc
