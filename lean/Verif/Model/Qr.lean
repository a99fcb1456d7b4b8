import Verif.Model.LinearAlgebra

/-!
# Column-pivoted QR and damped least squares

Model of `crates/multicalc/src/linear_algebra/qr.rs`.  `minPositive` and `largest` stand for `T::MIN_POSITIVE` and
`T::MAX`; only the norm looks at them.
-/

namespace Multicalc

variable {T : Type} [Zero T] [One T] [NatCast T] [Add T] [Sub T] [Neg T] [Mul T] [Div T] [LT T] [LE T] [BEq T]
  [DecidableLT T] [DecidableLE T] [Fns T] {m n : ℕ}

/-- What `enorm` carries from value to value, `qr.rs:24-28`. -/
structure EnormState (T : Type) where
  smallSum : T
  midSum : T
  largeSum : T
  smallMax : T
  largeMax : T

/-- One pass of `enorm`'s loop, `qr.rs:30-56`. -/
def enormStep (rdwarf agiant : T) (s : EnormState T) (value : T) : EnormState T :=
  let a := Fns.abs value
  if rdwarf < a && a < agiant then { s with midSum := s.midSum + a * a }
  else if rdwarf < a then
    if s.largeMax < a then
      let ratio := s.largeMax / a
      { s with largeSum := 1 + s.largeSum * ratio * ratio, largeMax := a }
    else
      let ratio := a / s.largeMax
      { s with largeSum := s.largeSum + ratio * ratio }
  else if a != 0 then
    if s.smallMax < a then
      let ratio := s.smallMax / a
      { s with smallSum := 1 + s.smallSum * ratio * ratio, smallMax := a }
    else
      let ratio := a / s.smallMax
      { s with smallSum := s.smallSum + ratio * ratio }
  else s

/-- The end of `enorm`, `qr.rs:58-68`. -/
def enormFinish (s : EnormState T) : T :=
  if s.largeSum != 0 then s.largeMax * Fns.sqrt (s.largeSum + (s.midSum / s.largeMax) / s.largeMax)
  else if s.midSum != 0 then
    if s.smallMax ≤ s.midSum then
      Fns.sqrt (s.midSum * (1 + (s.smallMax / s.midSum) * (s.smallMax * s.smallSum)))
    else Fns.sqrt (s.smallMax * ((s.midSum / s.smallMax) + (s.smallMax * s.smallSum)))
  else s.smallMax * Fns.sqrt s.smallSum

/-- `enorm`, `qr.rs:18-69`. -/
def enorm (minPositive largest : T) (values : List T) : T :=
  let rdwarf := Fns.sqrt minPositive
  let agiant := Fns.sqrt largest / (values.length : T)
  enormFinish (values.foldl (enormStep rdwarf agiant) ⟨0, 0, 0, 0, 0⟩)

/-- `max` of `qr.rs:74-76`. -/
def qrMax (a b : T) : T := if a < b then b else a

/-- `min` of `qr.rs:81-83`. -/
def qrMin (a b : T) : T := if b < a then b else a

/-- The indices `first..k`, in order. -/
def indicesFrom (k first : ℕ) : List (Fin k) := (List.finRange k).filter fun i => first ≤ i.val

/-- `acc += f(i)` over a list of indices, from zero. -/
def sumOver {ι : Type} (l : List ι) (f : ι → T) : T := l.foldl (fun acc i => acc + f i) 0

/-- `PivotedQr`, `qr.rs:93-102`.  `tall` records that `decompose` only builds one when `M >= N`. -/
structure PivotedQr (m n : ℕ) (T : Type) where
  packed : Matrix (Fin m) (Fin n) T
  rDiag : Fin n → T
  columnNorms : Fin n → T
  permutation : Fin n → Fin n
  tall : n ≤ m

/-- What `decompose` carries from column to column, `qr.rs:128-132`. -/
structure QrState (m n : ℕ) (T : Type) where
  packed : Matrix (Fin m) (Fin n) T
  rDiag : Fin n → T
  referenceNorm : Fin n → T
  permutation : Fin n → Fin n

/-- The search for the pivot, `qr.rs:153-158`. -/
def pivotColumn (rDiag : Fin n → T) (j : Fin n) : Fin n :=
  (indicesFrom n j.val).foldl (fun kmax k => if rDiag kmax < rDiag k then k else kmax) j

/-- The exchange of columns, `qr.rs:159-166`. -/
def swapColumns (s : QrState m n T) (j kmax : Fin n) : QrState m n T :=
  if kmax ≠ j then
    { packed := fun row col => s.packed row (Equiv.swap j kmax col)
      rDiag := Function.update s.rDiag kmax (s.rDiag j)
      referenceNorm := Function.update s.referenceNorm kmax (s.referenceNorm j)
      permutation := fun col => s.permutation (Equiv.swap j kmax col) }
  else s

/-- The reflection of column `k`, rows `j` and below, by the vector `v` held in column `j`, `qr.rs:189-197`, also
`qr.rs:296-303`, `344-351` and `251-258`. -/
def reflect (v : Fin m → T) (pivotRow : Fin m) (b : Fin m → T) : Fin m → T :=
  let rows := indicesFrom m pivotRow.val
  let factor := sumOver rows (fun i => v i * b i) / v pivotRow
  fun i => if pivotRow ≤ i then b i - factor * v i else b i

/-- The running norm of column `k` after its reflection, `qr.rs:199-213`: the new `r_diag[k]` and
`reference_norm[k]`. -/
def downdate (minPositive largest : T) (column : Fin m → T) (pivotRow : Fin m) (rDiag reference : T) : T × T :=
  if rDiag != 0 then
    let ratio := column pivotRow / rDiag
    let updated := rDiag * Fns.sqrt (qrMax 0 (1 - ratio * ratio))
    let relative := updated / reference
    if Fns.lit (5 / 100) * relative * relative ≤ Fns.epsilon then
      let fresh := enorm minPositive largest ((indicesFrom m (pivotRow.val + 1)).map column)
      (fresh, fresh)
    else (updated, reference)
  else (rDiag, reference)

/-- One pass of `decompose`'s loop, `qr.rs:152-216`.  Each later column is reflected from its own entries and those
of column `j` only, so the columns are written here as one function. -/
def qrStep (minPositive largest : T) (tall : n ≤ m) (s₀ : QrState m n T) (j : Fin n) : QrState m n T :=
  let s := swapColumns s₀ j (pivotColumn s₀.rDiag j)
  let row := Fin.castLE tall j
  let norm := enorm minPositive largest ((indicesFrom m j.val).map fun i => s.packed i j)
  if norm == 0 then { s with rDiag := Function.update s.rDiag j (-norm) }
  else
    let ajnorm := if s.packed row j < 0 then -norm else norm
    let v : Fin m → T := fun i =>
      if row ≤ i then (if i = row then s.packed i j / ajnorm + 1 else s.packed i j / ajnorm) else s.packed i j
    let column := fun k : Fin n => reflect v row fun i => s.packed i k
    let norms := fun k : Fin n => downdate minPositive largest (column k) row (s.rDiag k) (s.referenceNorm k)
    { packed := fun i k => if k = j then v i else if j < k then column k i else s.packed i k
      rDiag := fun k => if k = j then -ajnorm else if j < k then (norms k).1 else s.rDiag k
      referenceNorm := fun k => if j < k then (norms k).2 else s.referenceNorm k
      permutation := s.permutation }

/-- `PivotedQr::decompose`, `qr.rs:123-225`. -/
def PivotedQr.decompose (minPositive largest : T) (a : Matrix (Fin m) (Fin n) T) : Except LinalgError (PivotedQr m n T) :=
  if tall : n ≤ m then
    let norms := fun j => enorm minPositive largest ((List.finRange m).map fun i => a i j)
    let s := (List.finRange n).foldl (qrStep minPositive largest tall) ⟨a, norms, norms, id⟩
    .ok ⟨s.packed, s.rDiag, norms, s.permutation, tall⟩
  else .error .underdetermined

namespace PivotedQr

/-- `PivotedQr::triangular`, `qr.rs:229-239`. -/
def triangular (q : PivotedQr m n T) : Matrix (Fin n) (Fin n) T := fun row col =>
  if row = col then q.rDiag row
  else if row < col then q.packed (Fin.castLE q.tall row) col
  else 0

/-- One stored reflector applied to a vector: `qr.rs:247-258`, `292-303` and `340-351`. -/
def applyReflector (q : PivotedQr m n T) (b : Fin m → T) (j : Fin n) : Fin m → T :=
  if q.packed (Fin.castLE q.tall j) j == 0 then b
  else reflect (fun i => q.packed i j) (Fin.castLE q.tall j) b

/-- `PivotedQr::orthogonal`, `qr.rs:243-262`. -/
def orthogonal (q : PivotedQr m n T) : Matrix (Fin m) (Fin n) T := fun row col =>
  (List.finRange n).reverse.foldl q.applyReflector (fun i => if i = Fin.castLE q.tall col then 1 else 0) row

/-- The reflectors applied to a right-hand side, `qr.rs:290-304` and `338-352`. -/
def transposeApply (q : PivotedQr m n T) (b : Fin m → T) : Fin m → T := (List.finRange n).foldl q.applyReflector b

/-- The threshold of `solve_least_squares`, `qr.rs:307-311`. -/
def threshold (q : PivotedQr m n T) : T :=
  if h : n = 0 then 0 else Fns.epsilon * (((max m n : ℕ)) : T) * Fns.abs (q.rDiag ⟨0, by omega⟩)

/-- The back substitution, `qr.rs:314-324`, for the rows of the list, last row first. -/
def backSubstitute (q : PivotedQr m n T) (qtb : Fin m → T) : List (Fin n) → (Fin n → T) → Except LinalgError (Fin n → T)
  | [], y => .ok y
  | row :: rest, y =>
    if Fns.abs (q.rDiag row) ≤ q.threshold then .error .singular
    else
      let acc := (indicesFrom n (row.val + 1)).foldl (fun acc col => acc - q.packed (Fin.castLE q.tall row) col * y col)
        (qtb (Fin.castLE q.tall row))
      backSubstitute q qtb rest (Function.update y row (acc / q.rDiag row))

/-- `x[permutation[j]] = y[j]` for every `j` in turn, from zeros, `qr.rs:327-330` and `470-473`. -/
def unpermute (permutation : Fin n → Fin n) (y : Fin n → T) : Fin n → T :=
  (List.finRange n).foldl (fun x j => Function.update x (permutation j) (y j)) fun _ => 0

/-- `PivotedQr::solve_least_squares`, `qr.rs:288-332`. -/
def solveLeastSquares (q : PivotedQr m n T) (b : Fin m → T) : Except LinalgError (Fin n → T) :=
  match q.backSubstitute (q.transposeApply b) (List.finRange n).reverse fun _ => 0 with
  | .error e => .error e
  | .ok y => .ok (unpermute q.permutation y)

end PivotedQr

/-- `DampedLeastSquares`, `qr.rs:374-383`. -/
structure DampedLeastSquares (n : ℕ) (T : Type) where
  triangular : Matrix (Fin n) (Fin n) T
  qtb : Fin n → T
  permutation : Fin n → Fin n
  columnNorms : Fin n → T

/-- `PivotedQr::into_damped`, `qr.rs:336-364`. -/
def PivotedQr.intoDamped (q : PivotedQr m n T) (b : Fin m → T) : DampedLeastSquares n T :=
  ⟨q.triangular, fun j => q.transposeApply b (Fin.castLE q.tall j), q.permutation, q.columnNorms⟩

/-- What the elimination carries: the working matrix, the row being rotated away (which doubles as the diagonal of
the result), the right-hand side and its extra element, `qr.rs:391-405` and `418`. -/
structure GivensState (n : ℕ) (T : Type) where
  factor : Matrix (Fin n) (Fin n) T
  sDiag : Fin n → T
  work : Fin n → T
  extra : T

/-- The sine and cosine of one rotation, `qr.rs:423-431`. -/
def givensPair (diagonal entry : T) : T × T :=
  let quarter : T := Fns.lit (25 / 100)
  let half : T := 1 / ((2 : ℕ) : T)
  if Fns.abs entry ≤ Fns.abs diagonal then
    let tan := entry / diagonal
    let cos := half / Fns.sqrt (quarter + quarter * tan * tan)
    (cos * tan, cos)
  else
    let cotan := diagonal / entry
    let sin := half / Fns.sqrt (quarter + quarter * cotan * cotan)
    (sin, sin * cotan)

/-- One rotation, `qr.rs:420-443`. -/
def givensStep (s : GivensState n T) (k : Fin n) : GivensState n T :=
  if s.sDiag k == 0 then s
  else
    let pair := givensPair (s.factor k k) (s.sDiag k)
    let sin := pair.1
    let cos := pair.2
    { factor := fun i c =>
        if c = k then
          if i = k then cos * s.factor k k + sin * s.sDiag k
          else if k < i then cos * s.factor i k + sin * s.sDiag i
          else s.factor i c
        else s.factor i c
      sDiag := fun i => if k < i then -sin * s.factor i k + cos * s.sDiag i else s.sDiag i
      work := Function.update s.work k (cos * s.work k + sin * s.extra)
      extra := -sin * s.work k + cos * s.extra }

/-- One pass of the outer loop, `qr.rs:409-447`. -/
def eliminateRow (permutation : Fin n → Fin n) (savedDiag diag : Fin n → T) (s : GivensState n T) (j : Fin n) :
    GivensState n T :=
  let rotated :=
    if diag (permutation j) != 0 then
      (indicesFrom n j.val).foldl givensStep
        { s with
          sDiag := fun k => if k = j then diag (permutation j) else if j < k then 0 else s.sDiag k
          extra := 0 }
    else s
  { rotated with
    sDiag := Function.update rotated.sDiag j (rotated.factor j j)
    factor := fun i c => if i = j ∧ c = j then savedDiag j else rotated.factor i c }

/-- `CholeskyFactor`, `qr.rs:537-542`. -/
structure CholeskyFactor (n : ℕ) (T : Type) where
  factor : Matrix (Fin n) (Fin n) T
  sDiag : Fin n → T

namespace DampedLeastSquares

/-- The elimination of the diagonal, `qr.rs:391-448`. -/
def eliminated (d : DampedLeastSquares n T) (diag : Fin n → T) : GivensState n T :=
  let mirrored : Matrix (Fin n) (Fin n) T := fun i j => if j < i then d.triangular j i else d.triangular i j
  (List.finRange n).foldl (eliminateRow d.permutation (fun j => mirrored j j) diag) ⟨mirrored, fun _ => 0, d.qtb, 0⟩

/-- How many leading diagonal entries are not zero, `qr.rs:451-455`. -/
def leading (sDiag : Fin n → T) : ℕ :=
  (List.finRange n).foldl (fun nsing j => if sDiag j == 0 && nsing == n then j.val else nsing) n

/-- The back substitution, `qr.rs:460-467`, for the rows of the list, last row first. -/
def backSolve (factor : Matrix (Fin n) (Fin n) T) (sDiag : Fin n → T) (nsing : ℕ) (work : Fin n → T) (j : Fin n) :
    Fin n → T :=
  let sum := sumOver ((indicesFrom n (j.val + 1)).filter fun i => i.val < nsing) fun i => factor i j * work i
  Function.update work j ((work j - sum) / sDiag j)

/-- `DampedLeastSquares::solve_with_diagonal`, `qr.rs:389-476`. -/
def solveWithDiagonal (d : DampedLeastSquares n T) (diag : Fin n → T) : (Fin n → T) × CholeskyFactor n T :=
  let s := d.eliminated diag
  let nsing := leading s.sDiag
  let cleared : Fin n → T := fun j => if nsing ≤ j.val then 0 else s.work j
  let solved := ((List.finRange n).reverse.filter fun j => j.val < nsing).foldl
    (backSolve s.factor s.sDiag nsing) cleared
  (PivotedQr.unpermute d.permutation solved, ⟨s.factor, s.sDiag⟩)

/-- `DampedLeastSquares::solve_with_zero_diagonal`, `qr.rs:479-481`. -/
def solveWithZeroDiagonal (d : DampedLeastSquares n T) : (Fin n → T) × CholeskyFactor n T :=
  d.solveWithDiagonal fun _ => 0

/-- `DampedLeastSquares::max_a_t_b_scaled`, `qr.rs:487-503`. -/
def maxAtbScaled (d : DampedLeastSquares n T) (bNorm : T) : T :=
  if bNorm == 0 then 0
  else (List.finRange n).foldl (fun result j =>
    let pivot := d.permutation j
    if d.columnNorms pivot != 0 then
      let sum := sumOver ((List.finRange n).filter fun i => i ≤ j) fun i => d.triangular i j * (d.qtb i / bNorm)
      qrMax result (Fns.abs (sum / d.columnNorms pivot))
    else result) 0

/-- `DampedLeastSquares::a_x_norm`, `qr.rs:508-517`. -/
def aXNorm (minPositive largest : T) (d : DampedLeastSquares n T) (x : Fin n → T) : T :=
  let w := (List.finRange n).foldl (fun (w : Fin n → T) j => fun i =>
    if i ≤ j then w i + d.triangular i j * x (d.permutation j) else w i) fun _ => 0
  enorm minPositive largest ((List.finRange n).map w)

/-- `DampedLeastSquares::is_non_singular`, `qr.rs:521-527`. -/
def isNonSingular (d : DampedLeastSquares n T) : Bool :=
  if h : n = 0 then true
  else
    let threshold := Fns.epsilon * (n : T) * Fns.abs (d.triangular ⟨0, by omega⟩ ⟨0, by omega⟩)
    (List.finRange n).all fun j => threshold < Fns.abs (d.triangular j j)

end DampedLeastSquares

/-- `CholeskyFactor::solve`, `qr.rs:548-561`. -/
def CholeskyFactor.solve (c : CholeskyFactor n T) (rhs : Fin n → T) : Fin n → T :=
  (List.finRange n).foldl (fun rhs j =>
    let temp := if c.sDiag j != 0 then rhs j / c.sDiag j else 0
    fun i => if i = j then temp else if j < i then rhs i - c.factor i j * temp else rhs i) rhs

end Multicalc
