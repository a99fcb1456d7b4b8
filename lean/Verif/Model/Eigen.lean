import Verif.Model.LinearAlgebra

/-!
# Symmetric eigen-decomposition

Model of `crates/multicalc/src/linear_algebra/symmetric_eigendecomposition.rs`.
-/

namespace Multicalc

variable {T : Type} {n : ℕ}

/-- The rotation for the pair with diagonal entries `alpha`, `beta` and shared entry `gamma`
(`symmetric_eigendecomposition.rs:99-103`), as `(tan, cos, sin)`. -/
def jacobiAngle [Zero T] [One T] [NatCast T] [Add T] [Sub T] [Mul T] [Div T] [Neg T] [LT T]
    [DecidableLT T] [Fns T] (alpha beta gamma : T) : T × T × T :=
  let zeta := (beta - alpha) / (((2 : ℕ) : T) * gamma)
  let sign : T := if zeta < 0 then -1 else 1
  let tan := sign / (Fns.abs zeta + Fns.sqrt (1 + zeta * zeta))
  let cos := 1 / Fns.sqrt (1 + tan * tan)
  (tan, cos, tan * cos)

/-- The update of `working` by one rotation (`symmetric_eigendecomposition.rs:107-122`).  The loop
body for `i` reads entries `(i, p)` and `(i, q)`, which no other `i` writes, so it is one
simultaneous update. -/
def rotateWorking [Zero T] [Add T] [Sub T] [Mul T] (w : Matrix (Fin n) (Fin n) T) (p q : Fin n)
    (tan cos sin : T) : Matrix (Fin n) (Fin n) T := fun r c =>
  if r = p ∧ c = p then w p p - tan * w p q
  else if r = q ∧ c = q then w q q + tan * w p q
  else if r = p ∧ c = q ∨ r = q ∧ c = p then 0
  else if c = p then cos * w r p - sin * w r q
  else if c = q then sin * w r p + cos * w r q
  else if r = p then cos * w c p - sin * w c q
  else if r = q then sin * w c p + cos * w c q
  else w r c

/-- The update of `eigenvectors` (`symmetric_eigendecomposition.rs:124-129`). -/
def rotateVectors [Add T] [Sub T] [Mul T] (v : Matrix (Fin n) (Fin n) T) (p q : Fin n)
    (cos sin : T) : Matrix (Fin n) (Fin n) T := fun i c =>
  if c = p then cos * v i p - sin * v i q
  else if c = q then sin * v i p + cos * v i q
  else v i c

/-- `working`, `eigenvectors` and `off_max`. -/
structure JacobiState (n : ℕ) (T : Type) where
  working : Matrix (Fin n) (Fin n) T
  vectors : Matrix (Fin n) (Fin n) T
  offMax : T

/-- The body for one pair (`symmetric_eigendecomposition.rs:89-129`). -/
def jacobiPair [Zero T] [One T] [NatCast T] [Add T] [Sub T] [Mul T] [Div T] [Neg T] [LT T]
    [DecidableLT T] [LE T] [DecidableLE T] [Max T] [Fns T] (threshold : T) (s : JacobiState n T)
    (pair : Fin n × Fin n) : JacobiState n T :=
  let p := pair.1
  let q := pair.2
  let off := s.working p q
  let offMax := max s.offMax (Fns.abs off)
  if Fns.abs off ≤ threshold then { s with offMax := offMax }
  else
    let (tan, cos, sin) := jacobiAngle (s.working p p) (s.working q q) off
    ⟨rotateWorking s.working p q tan cos sin, rotateVectors s.vectors p q cos sin, offMax⟩

/-- The pairs in visiting order (`symmetric_eigendecomposition.rs:87-88`). -/
def jacobiPairs (n : ℕ) : List (Fin n × Fin n) :=
  (List.finRange n).flatMap fun p =>
    ((List.finRange n).filter fun q => decide (p < q)).map fun q => (p, q)

/-- The sweeps (`symmetric_eigendecomposition.rs:85-135`): at most `sweeps` more. -/
def jacobiSweeps [Zero T] [One T] [NatCast T] [Add T] [Sub T] [Mul T] [Div T] [Neg T] [LT T]
    [DecidableLT T] [LE T] [DecidableLE T] [Max T] [Fns T] (threshold : T) :
    ℕ → JacobiState n T → JacobiState n T
  | 0, s => s
  | sweeps + 1, s =>
    let s := (jacobiPairs n).foldl (jacobiPair threshold) { s with offMax := 0 }
    if s.offMax ≤ threshold then s else jacobiSweeps threshold sweeps s

/-- The index of the largest remaining eigenvalue (`symmetric_eigendecomposition.rs:145-150`). -/
def topFrom [LT T] [DecidableLT T] (values : Fin n → T) (k : Fin n) : Fin n :=
  (List.finRange n).foldl (fun top j => if k < j ∧ values top < values j then j else top) k

/-- One pass of the sort (`symmetric_eigendecomposition.rs:144-161`). -/
def sortStep [LT T] [DecidableLT T] (s : (Fin n → T) × Matrix (Fin n) (Fin n) T) (k : Fin n) :
    (Fin n → T) × Matrix (Fin n) (Fin n) T :=
  let top := topFrom s.1 k
  if top ≠ k then (fun i => s.1 (Equiv.swap k top i), fun i c => s.2 i (Equiv.swap k top c)) else s

/-- The row of the entry of largest magnitude in column `k`
(`symmetric_eigendecomposition.rs:166-174`). -/
def largestRow [Zero T] [LT T] [DecidableLT T] [Fns T] (v : Matrix (Fin n) (Fin n) T) (k : Fin n) :
    Fin n :=
  ((List.finRange n).foldl
    (fun (s : T × Fin n) i => if s.1 < Fns.abs (v i k) then (Fns.abs (v i k), i) else s)
    (0, ⟨0, k.pos⟩)).2

/-- The sign convention (`symmetric_eigendecomposition.rs:165-180`). -/
def fixSigns [Zero T] [Neg T] [LT T] [DecidableLT T] [Fns T] (v : Matrix (Fin n) (Fin n) T) :
    Matrix (Fin n) (Fin n) T := fun i k =>
  if v (largestRow v k) k < 0 then -v i k else v i k

/-- The result: eigenvalues and eigenvectors (`symmetric_eigendecomposition.rs:19-24`). -/
structure SymmetricEigen (n : ℕ) (T : Type) where
  values : Fin n → T
  vectors : Matrix (Fin n) (Fin n) T

/-- `Matrix::symmetric_eigendecomposition` (`symmetric_eigendecomposition.rs:55-186`). -/
def symmetricEigen [Zero T] [One T] [NatCast T] [Add T] [Sub T] [Mul T] [Div T] [Neg T] [LT T]
    [DecidableLT T] [LE T] [DecidableLE T] [Max T] [Fns T] (a : Matrix (Fin n) (Fin n) T) :
    Except LinalgError (SymmetricEigen n T) :=
  if !mIsFinite a then .error .nonFinite
  else if !isSymmetric a then .error .notSymmetric
  else
    let threshold := Fns.epsilon * maxAbs a
    let s := jacobiSweeps threshold 60 ⟨a, midentity n, 0⟩
    let sorted := (List.finRange n).foldl sortStep ((fun i => s.working i i), s.vectors)
    .ok ⟨sorted.1, fixSigns sorted.2⟩

/-- `SymmetricEigendecomposition::determinant` (`symmetric_eigendecomposition.rs:212-218`). -/
def SymmetricEigen.determinant [One T] [Mul T] (d : SymmetricEigen n T) : T :=
  (List.finRange n).foldl (fun product i => product * d.values i) 1

/-- `SymmetricEigendecomposition::is_positive_definite`
(`symmetric_eigendecomposition.rs:263-269`). -/
def SymmetricEigen.isPositiveDefinite [Zero T] [LT T] [DecidableLT T] :
    {n : ℕ} → SymmetricEigen n T → Bool
  | 0, _ => true
  | n + 1, d => decide (0 < d.values (Fin.last n))

/-- `SymmetricEigendecomposition::clamped` (`symmetric_eigendecomposition.rs:286-307`): half is
computed and mirrored. -/
def SymmetricEigen.clamped [Zero T] [Add T] [Mul T] [Max T] (d : SymmetricEigen n T) (minimum : T) :
    Matrix (Fin n) (Fin n) T :=
  let raised : Fin n → T := fun i => max (d.values i) minimum
  let entry := fun row column => sumLoop n fun k => d.vectors row k * raised k * d.vectors column k
  fun row column => if row ≤ column then entry row column else entry column row

end Multicalc
