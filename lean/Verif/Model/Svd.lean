import Verif.Model.Eigen

/-!
# Singular value decomposition

Model of `crates/multicalc/src/linear_algebra/svd.rs`.
-/

namespace Multicalc

variable {T : Type} {m n : ℕ}

/-- The rotation for columns with squared lengths `alpha`, `beta` and inner product `gamma` (`svd.rs:105-109`), as
`(cos, sin)`. -/
def svdAngle [Zero T] [One T] [NatCast T] [Add T] [Sub T] [Mul T] [Div T] [Neg T] [LT T] [DecidableLT T] [Fns T]
    (alpha beta gamma : T) : T × T :=
  let zeta := (beta - alpha) / (((2 : ℕ) : T) * gamma)
  let sign : T := if zeta < 0 then -1 else 1
  let tan := sign / (Fns.abs zeta + Fns.sqrt (1 + zeta * zeta))
  let cos := 1 / Fns.sqrt (1 + tan * tan)
  (cos, cos * tan)

/-- The rotation of two columns (`svd.rs:110-115` for `left`, `116-121` for `right`). -/
def rotateColumns [Add T] [Sub T] [Mul T] (v : Matrix (Fin m) (Fin n) T) (p q : Fin n) (cos sin : T) :
    Matrix (Fin m) (Fin n) T := fun i c =>
  if c = p then cos * v i p - sin * v i q
  else if c = q then sin * v i p + cos * v i q
  else v i c

/-- `left`, `right` and `off_max` (`svd.rs:79-85`). -/
structure SvdState (m n : ℕ) (T : Type) where
  left : Matrix (Fin m) (Fin n) T
  right : Matrix (Fin n) (Fin n) T
  offMax : T

/-- The body for one pair (`svd.rs:88-121`). -/
def svdPair [Zero T] [One T] [NatCast T] [Add T] [Sub T] [Mul T] [Div T] [Neg T] [LT T] [DecidableLT T] [LE T]
    [DecidableLE T] [BEq T] [Fns T] (s : SvdState m n T) (pair : Fin n × Fin n) : SvdState m n T :=
  let p := pair.1
  let q := pair.2
  let columnP := fun row => s.left row p
  let columnQ := fun row => s.left row q
  let alpha := vnormSquared columnP
  let beta := vnormSquared columnQ
  let gamma := vdot columnP columnQ
  if alpha == 0 || beta == 0 then s
  else
    let scale := Fns.sqrt (alpha * beta)
    let off := Fns.abs gamma / scale
    let offMax := if s.offMax < off then off else s.offMax
    if Fns.abs gamma ≤ Fns.epsilon * scale then { s with offMax := offMax }
    else
      let angle := svdAngle alpha beta gamma
      ⟨rotateColumns s.left p q angle.1 angle.2, rotateColumns s.right p q angle.1 angle.2, offMax⟩

/-- The sweeps (`svd.rs:83-127`): at most so many more. -/
def svdSweeps [Zero T] [One T] [NatCast T] [Add T] [Sub T] [Mul T] [Div T] [Neg T] [LT T] [DecidableLT T] [LE T]
    [DecidableLE T] [BEq T] [Fns T] : ℕ → SvdState m n T → SvdState m n T
  | 0, s => s
  | sweeps + 1, s =>
    let s := (jacobiPairs n).foldl svdPair { s with offMax := 0 }
    if s.offMax ≤ Fns.epsilon then s else svdSweeps sweeps s

/-- `Svd` (`svd.rs:17-24`). -/
structure Svd (m n : ℕ) (T : Type) where
  left : Matrix (Fin m) (Fin n) T
  singularValues : Fin n → T
  right : Matrix (Fin n) (Fin n) T

/-- The lengths of the columns, and the columns divided by them (`svd.rs:130-139`). -/
def svdNormalize [Zero T] [Add T] [Mul T] [Div T] [LT T] [DecidableLT T] [Fns T] (s : SvdState m n T) : Svd m n T :=
  let sigma := fun k => vnorm fun row => s.left row k
  ⟨fun i k => if 0 < sigma k then s.left i k / sigma k else s.left i k, sigma, s.right⟩

/-- One pass of the sort (`svd.rs:142-164`). -/
def svdSortStep [LT T] [DecidableLT T] (s : Svd m n T) (k : Fin n) : Svd m n T :=
  let top := topFrom s.singularValues k
  if top ≠ k then
    ⟨fun i c => s.left i (Equiv.swap k top c), fun i => s.singularValues (Equiv.swap k top i),
      fun i c => s.right i (Equiv.swap k top c)⟩
  else s

/-- The row of the entry of largest magnitude in a column, row 0 if there is none (`svd.rs:168-176`). -/
def svdLargest [Zero T] [LT T] [DecidableLT T] [Fns T] (first : Fin m) (column : Fin m → T) : Fin m :=
  ((List.finRange m).foldl
    (fun (s : T × Fin m) i => if s.1 < Fns.abs (column i) then (Fns.abs (column i), i) else s) (0, first)).2

/-- The sign convention (`svd.rs:167-184`). -/
def svdSigns [Zero T] [Neg T] [LT T] [DecidableLT T] [Fns T] (tall : n ≤ m) (s : Svd m n T) : Svd m n T :=
  let negative := fun k : Fin n =>
    decide (s.left (svdLargest ⟨0, k.pos.trans_le tall⟩ fun i => s.left i k) k < 0)
  ⟨fun i k => if negative k then -s.left i k else s.left i k, s.singularValues,
    fun i k => if negative k then -s.right i k else s.right i k⟩

/-- `Matrix::svd` (`svd.rs:71-195`). -/
def svd [Zero T] [One T] [NatCast T] [Add T] [Sub T] [Mul T] [Div T] [Neg T] [LT T] [DecidableLT T] [LE T]
    [DecidableLE T] [BEq T] [Fns T] (a : Matrix (Fin m) (Fin n) T) : Except LinalgError (Svd m n T) :=
  if tall : n ≤ m then
    if !mIsFinite a then .error .nonFinite
    else
      let normalized := svdNormalize (svdSweeps 60 ⟨a, midentity n, 0⟩)
      .ok (svdSigns tall ((List.finRange n).foldl svdSortStep normalized))
  else .error .underdetermined

namespace Svd

/-- `Svd::rank` (`svd.rs:247-255`). -/
def rank [LT T] [DecidableLT T] (s : Svd m n T) (tol : T) : ℕ :=
  (List.finRange n).foldl (fun count k => if tol < s.singularValues k then count + 1 else count) 0

/-- `Svd::condition_number` (`svd.rs:266-276`). -/
def conditionNumber [Zero T] [Div T] [LE T] [DecidableLE T] [Fns T] (s : Svd m n T) : T :=
  if h : n = 0 then Fns.infinity
  else
    let smallest := s.singularValues ⟨n - 1, by omega⟩
    if smallest ≤ 0 then Fns.infinity else s.singularValues ⟨0, by omega⟩ / smallest

/-- `Svd::default_tol` (`svd.rs:280-285`). -/
def defaultTol [Zero T] [NatCast T] [Mul T] [Fns T] (s : Svd m n T) : T :=
  if h : n = 0 then 0 else ((max m n : ℕ) : T) * Fns.epsilon * s.singularValues ⟨0, by omega⟩

/-- `Svd::pseudo_inverse_tol` (`svd.rs:288-299`). -/
def pseudoInverseTol [Zero T] [Add T] [Mul T] [Div T] [LT T] [DecidableLT T] (s : Svd m n T) (tol : T) :
    Matrix (Fin n) (Fin m) T := fun i j =>
  (List.finRange n).foldl (fun acc k =>
    if tol < s.singularValues k then acc + s.right i k * s.left j k / s.singularValues k else acc) 0

/-- `Svd::pseudo_inverse` (`svd.rs:314-316`). -/
def pseudoInverse [Zero T] [NatCast T] [Add T] [Mul T] [Div T] [LT T] [DecidableLT T] [Fns T] (s : Svd m n T) :
    Matrix (Fin n) (Fin m) T := s.pseudoInverseTol s.defaultTol

/-- `Svd::solve` (`svd.rs:331-343`). -/
def solve [Zero T] [NatCast T] [Add T] [Mul T] [Div T] [LT T] [DecidableLT T] [Fns T] (s : Svd m n T) (b : Fin m → T) :
    Fin n → T :=
  mmulVec s.right fun k =>
    if s.defaultTol < s.singularValues k then vdot (fun row => s.left row k) b / s.singularValues k else 0

end Svd

/-- `Matrix::pseudo_inverse` (`svd.rs:211-217`). -/
def pseudoInverse [Zero T] [One T] [NatCast T] [Add T] [Sub T] [Mul T] [Div T] [Neg T] [LT T] [DecidableLT T] [LE T]
    [DecidableLE T] [BEq T] [Fns T] (a : Matrix (Fin m) (Fin n) T) : Except LinalgError (Matrix (Fin n) (Fin m) T) :=
  if n ≤ m then
    match svd a with
    | .error e => .error e
    | .ok s => .ok s.pseudoInverse
  else
    match svd (mtranspose a) with
    | .error e => .error e
    | .ok s => .ok (mtranspose s.pseudoInverse)

end Multicalc
