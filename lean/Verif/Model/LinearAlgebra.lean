import Verif.Model.Scalar
import Mathlib.Data.Matrix.Basic
import Mathlib.LinearAlgebra.Matrix.Notation

/-!
# Vectors and matrices

Model of `crates/multicalc/src/linear_algebra/{vector,matrix,lu,cholesky}.rs`.  A `Vector<N, T>` is a
function `Fin n → T` and a `Matrix<ROWS, COLS, T>` is Mathlib's `Matrix (Fin r) (Fin c) T`, which is a
function of the two indices.  Only the type is taken from Mathlib: every operation below is the loop
of the code.
-/

namespace Multicalc

variable {T : Type} {n r c k : ℕ}

/-- The variants of `LinalgError` used by the modelled code (`error.rs`). -/
inductive LinalgError where
  | singular
  | illConditioned
  | notPositiveDefinite
  | notSymmetric
  | nonFinite
  | didNotConverge
  | underdetermined
  | invalidTimestep
  deriving DecidableEq, Repr

/-- `acc += f(i)` for `i` in `0..n`, from zero. -/
def sumLoop [Zero T] [Add T] (n : ℕ) (f : Fin n → T) : T :=
  (List.finRange n).foldl (fun acc i => acc + f i) 0

/-! ### Vectors -/

/-- `Vector::dot` (`vector.rs:212-218`). -/
def vdot [Zero T] [Add T] [Mul T] (a b : Fin n → T) : T := sumLoop n fun i => a i * b i

/-- `Vector::norm_squared` (`vector.rs:228-230`). -/
def vnormSquared [Zero T] [Add T] [Mul T] (a : Fin n → T) : T := vdot a a

/-- `Vector::norm` (`vector.rs:240-242`). -/
def vnorm [Zero T] [Add T] [Mul T] [Fns T] (a : Fin n → T) : T := Fns.sqrt (vnormSquared a)

/-- `Vector::scale` (`vector.rs:193-195`). -/
def vscaleBy [Mul T] (a : Fin n → T) (s : T) : Fin n → T := fun i => a i * s

/-- `Vector / T` (`vector.rs:418-425`). -/
def vdivBy [Div T] (a : Fin n → T) (s : T) : Fin n → T := fun i => a i / s

/-- `Vector + Vector` (`vector.rs:364-371`). -/
def vadd [Add T] (a b : Fin n → T) : Fin n → T := fun i => a i + b i

/-- `Vector - Vector` (`vector.rs:382-389`). -/
def vsub [Sub T] (a b : Fin n → T) : Fin n → T := fun i => a i - b i

/-- `-Vector` (`vector.rs:400-407`). -/
def vneg [Neg T] (a : Fin n → T) : Fin n → T := fun i => -a i

/-- `Vector::normalized` (`vector.rs:264-266`). -/
def vnormalized [Zero T] [Add T] [Mul T] [Div T] [Fns T] (a : Fin n → T) : Fin n → T :=
  vdivBy a (vnorm a)

/-- `Vector::try_normalized` (`vector.rs:279-285`). -/
def vtryNormalized [Zero T] [Add T] [Mul T] [Div T] [BEq T] [Fns T] (a : Fin n → T) :
    Option (Fin n → T) :=
  if Fns.isNan (vnorm a) || vnorm a == 0 then none else some (vdivBy a (vnorm a))

/-- `Vector<3>::cross` (`vector.rs:437-443`). -/
def cross [Sub T] [Mul T] (a b : Fin 3 → T) : Fin 3 → T :=
  ![a 1 * b 2 - a 2 * b 1, a 2 * b 0 - a 0 * b 2, a 0 * b 1 - a 1 * b 0]

/-- `Vector<3>::scalar_triple` (`vector.rs:458-460`). -/
def scalarTriple [Zero T] [Add T] [Sub T] [Mul T] (a b c : Fin 3 → T) : T := vdot a (cross b c)

/-- `Vector<2>::cross` (`vector.rs:476-478`). -/
def cross2 [Sub T] [Mul T] (a b : Fin 2 → T) : T := a 0 * b 1 - a 1 * b 0

/-! ### Matrices -/

/-- `Matrix::scale` (`matrix.rs:204-206`). -/
def mscale [Mul T] (m : Matrix (Fin r) (Fin c) T) (s : T) : Matrix (Fin r) (Fin c) T :=
  fun i j => m i j * s

/-- `Matrix::transpose` (`matrix.rs:216-218`). -/
def mtranspose (m : Matrix (Fin r) (Fin c) T) : Matrix (Fin c) (Fin r) T := fun i j => m j i

/-- `Matrix::add` (`matrix.rs:656-675`). -/
def madd [Add T] (a b : Matrix (Fin r) (Fin c) T) : Matrix (Fin r) (Fin c) T :=
  fun i j => a i j + b i j

/-- `Matrix::sub` (`matrix.rs:677-696`). -/
def msub [Sub T] (a b : Matrix (Fin r) (Fin c) T) : Matrix (Fin r) (Fin c) T :=
  fun i j => a i j - b i j

/-- `Matrix::neg` (`matrix.rs:698-710`). -/
def mneg [Neg T] (a : Matrix (Fin r) (Fin c) T) : Matrix (Fin r) (Fin c) T := fun i j => -a i j

/-- `Matrix * Matrix` (`matrix.rs:730-745`). -/
def mmul [Zero T] [Add T] [Mul T] (a : Matrix (Fin r) (Fin k) T) (b : Matrix (Fin k) (Fin c) T) :
    Matrix (Fin r) (Fin c) T :=
  fun i j => sumLoop k fun l => a i l * b l j

/-- `Matrix * Vector` (`matrix.rs:747-762`). -/
def mmulVec [Zero T] [Add T] [Mul T] (a : Matrix (Fin r) (Fin c) T) (v : Fin c → T) : Fin r → T :=
  fun i => sumLoop c fun j => a i j * v j

/-- `Matrix::from_diagonal` (`matrix.rs:288-295`). -/
def mdiagonal [Zero T] (d : Fin n → T) : Matrix (Fin n) (Fin n) T :=
  fun i j => if j = i then d i else 0

/-- `Matrix::identity` (`matrix.rs:378-380`). -/
def midentity [Zero T] [One T] (n : ℕ) : Matrix (Fin n) (Fin n) T := mdiagonal fun _ => 1

/-- `Matrix::trace` (`matrix.rs:422-424`). -/
def mtrace [Zero T] [Add T] (m : Matrix (Fin n) (Fin n) T) : T := sumLoop n fun i => m i i

/-- `Matrix::frobenius_norm` (`matrix.rs:235-242`): the rows are flattened in order. -/
def frobeniusNorm [Zero T] [Add T] [Mul T] [Fns T] (m : Matrix (Fin r) (Fin c) T) : T :=
  Fns.sqrt ((List.finRange r).foldl
    (fun acc i => (List.finRange c).foldl (fun acc j => acc + m i j * m i j) acc) 0)

/-- `Matrix::max_abs` (`matrix.rs:260-268`). -/
def maxAbs [Zero T] [Max T] [Fns T] (m : Matrix (Fin r) (Fin c) T) : T :=
  (List.finRange r).foldl
    (fun best i => (List.finRange c).foldl (fun best j => max best (Fns.abs (m i j))) best) 0

/-- `Matrix::is_finite` (`matrix.rs:253-255`). -/
def mIsFinite [Fns T] (m : Matrix (Fin r) (Fin c) T) : Bool :=
  (List.finRange r).all fun i => (List.finRange c).all fun j => Fns.isFinite (m i j)

/-- `T::EPSILON_X30` (`scalar/numeric.rs`): thirty times the machine epsilon. -/
def epsilonX30 [NatCast T] [Mul T] [Fns T] : T := Fns.epsilon * ((30 : ℕ) : T)

/-- `Matrix::is_symmetric` (`matrix.rs:329-341`). -/
def isSymmetric [One T] [NatCast T] [Sub T] [Mul T] [LT T] [DecidableLT T] [Max T] [Fns T]
    (m : Matrix (Fin n) (Fin n) T) : Bool :=
  (List.finRange n).all fun row => (List.finRange n).all fun column =>
    if row < column then
      let upper := m row column
      let lower := m column row
      let scale := max (max (Fns.abs upper) (Fns.abs lower)) 1
      !decide (epsilonX30 * scale < Fns.abs (upper - lower))
    else true

/-- `Matrix::symmetrized` (`matrix.rs:358-368`). -/
def symmetrized [One T] [NatCast T] [Add T] [Mul T] [Div T] (m : Matrix (Fin n) (Fin n) T) :
    Matrix (Fin n) (Fin n) T := fun i j =>
  if i < j then (m i j + m j i) * (1 / ((2 : ℕ) : T))
  else if j < i then (m j i + m i j) * (1 / ((2 : ℕ) : T))
  else m i j

/-! ### Determinant and inverse in closed form -/

/-- `det_near_singular` (`matrix.rs:273-275`). -/
def detNearSingular [One T] [NatCast T] [Mul T] [Div T] [LE T] [DecidableLE T] [Fns T]
    (det scale : T) (n : ℕ) : Bool :=
  decide (Fns.abs det ≤ Fns.epsilon * (n : T) * powi scale n)

/-- `determinant_2x2` (`matrix.rs:465-467`). -/
def determinant2 [Sub T] [Mul T] (m : Matrix (Fin 2) (Fin 2) T) : T :=
  m 0 0 * m 1 1 - m 0 1 * m 1 0

/-- `determinant_3x3` (`matrix.rs:486-491`). -/
def determinant3 [Add T] [Sub T] [Mul T] (m : Matrix (Fin 3) (Fin 3) T) : T :=
  m 0 0 * (m 1 1 * m 2 2 - m 1 2 * m 2 1)
    - m 0 1 * (m 1 0 * m 2 2 - m 1 2 * m 2 0)
    + m 0 2 * (m 1 0 * m 2 1 - m 1 1 * m 2 0)

/-- `row_pair_minors` (`matrix.rs:531-550`): the minors of the top two and bottom two rows. -/
def rowPairMinors [Sub T] [Mul T] (m : Matrix (Fin 4) (Fin 4) T) : (Fin 6 → T) × (Fin 6 → T) :=
  (![m 0 0 * m 1 1 - m 0 1 * m 1 0,
     m 0 0 * m 1 2 - m 0 2 * m 1 0,
     m 0 0 * m 1 3 - m 0 3 * m 1 0,
     m 0 1 * m 1 2 - m 0 2 * m 1 1,
     m 0 1 * m 1 3 - m 0 3 * m 1 1,
     m 0 2 * m 1 3 - m 0 3 * m 1 2],
   ![m 2 0 * m 3 1 - m 2 1 * m 3 0,
     m 2 0 * m 3 2 - m 2 2 * m 3 0,
     m 2 0 * m 3 3 - m 2 3 * m 3 0,
     m 2 1 * m 3 2 - m 2 2 * m 3 1,
     m 2 1 * m 3 3 - m 2 3 * m 3 1,
     m 2 2 * m 3 3 - m 2 3 * m 3 2])

/-- `determinant_4x4` (`matrix.rs:554-559`). -/
def determinant4 [Add T] [Sub T] [Mul T] (m : Matrix (Fin 4) (Fin 4) T) : T :=
  let top := (rowPairMinors m).1
  let bottom := (rowPairMinors m).2
  top 0 * bottom 5 - top 1 * bottom 4 + top 2 * bottom 3 + top 3 * bottom 2
    - top 4 * bottom 1 + top 5 * bottom 0

/-- `inverse_1x1` (`matrix.rs:454-461`). -/
def inverse1 [One T] [NatCast T] [Mul T] [Div T] [LE T] [DecidableLE T] [Fns T]
    (m : Matrix (Fin 1) (Fin 1) T) : Except LinalgError (Matrix (Fin 1) (Fin 1) T) :=
  if detNearSingular (m 0 0) (Fns.abs (m 0 0)) 1 then .error .singular
  else .ok fun _ _ => 1 / m 0 0

/-- `inverse_2x2` (`matrix.rs:470-482`). -/
def inverse2 [Zero T] [One T] [NatCast T] [Sub T] [Mul T] [Div T] [Neg T] [LE T] [DecidableLE T]
    [Max T] [Fns T] (m : Matrix (Fin 2) (Fin 2) T) :
    Except LinalgError (Matrix (Fin 2) (Fin 2) T) :=
  let determinant := determinant2 m
  if detNearSingular determinant (maxAbs m) 2 then .error .singular
  else
    let scale := 1 / determinant
    .ok !![m 1 1 * scale, -m 0 1 * scale; -m 1 0 * scale, m 0 0 * scale]

/-- `inverse_3x3` (`matrix.rs:494-524`). -/
def inverse3 [Zero T] [One T] [NatCast T] [Add T] [Sub T] [Mul T] [Div T] [LE T] [DecidableLE T]
    [Max T] [Fns T] (m : Matrix (Fin 3) (Fin 3) T) :
    Except LinalgError (Matrix (Fin 3) (Fin 3) T) :=
  let determinant := determinant3 m
  if detNearSingular determinant (maxAbs m) 3 then .error .singular
  else
    let scale := 1 / determinant
    let adjugate := !![
      m 1 1 * m 2 2 - m 1 2 * m 2 1, m 0 2 * m 2 1 - m 0 1 * m 2 2, m 0 1 * m 1 2 - m 0 2 * m 1 1;
      m 1 2 * m 2 0 - m 1 0 * m 2 2, m 0 0 * m 2 2 - m 0 2 * m 2 0, m 0 2 * m 1 0 - m 0 0 * m 1 2;
      m 1 0 * m 2 1 - m 1 1 * m 2 0, m 0 1 * m 2 0 - m 0 0 * m 2 1, m 0 0 * m 1 1 - m 0 1 * m 1 0]
    .ok (mscale adjugate scale)

/-- `inverse_4x4` (`matrix.rs:562-605`). -/
def inverse4 [Zero T] [One T] [NatCast T] [Add T] [Sub T] [Mul T] [Div T] [Neg T] [LE T]
    [DecidableLE T] [Max T] [Fns T] (m : Matrix (Fin 4) (Fin 4) T) :
    Except LinalgError (Matrix (Fin 4) (Fin 4) T) :=
  let top := (rowPairMinors m).1
  let bottom := (rowPairMinors m).2
  let determinant := top 0 * bottom 5 - top 1 * bottom 4 + top 2 * bottom 3 + top 3 * bottom 2
    - top 4 * bottom 1 + top 5 * bottom 0
  if detNearSingular determinant (maxAbs m) 4 then .error .singular
  else
    let scale := 1 / determinant
    let adjugate := !![
      m 1 1 * bottom 5 - m 1 2 * bottom 4 + m 1 3 * bottom 3,
      -m 0 1 * bottom 5 + m 0 2 * bottom 4 - m 0 3 * bottom 3,
      m 3 1 * top 5 - m 3 2 * top 4 + m 3 3 * top 3,
      -m 2 1 * top 5 + m 2 2 * top 4 - m 2 3 * top 3;
      -m 1 0 * bottom 5 + m 1 2 * bottom 2 - m 1 3 * bottom 1,
      m 0 0 * bottom 5 - m 0 2 * bottom 2 + m 0 3 * bottom 1,
      -m 3 0 * top 5 + m 3 2 * top 2 - m 3 3 * top 1,
      m 2 0 * top 5 - m 2 2 * top 2 + m 2 3 * top 1;
      m 1 0 * bottom 4 - m 1 1 * bottom 2 + m 1 3 * bottom 0,
      -m 0 0 * bottom 4 + m 0 1 * bottom 2 - m 0 3 * bottom 0,
      m 3 0 * top 4 - m 3 1 * top 2 + m 3 3 * top 0,
      -m 2 0 * top 4 + m 2 1 * top 2 - m 2 3 * top 0;
      -m 1 0 * bottom 3 + m 1 1 * bottom 1 - m 1 2 * bottom 0,
      m 0 0 * bottom 3 - m 0 1 * bottom 1 + m 0 2 * bottom 0,
      -m 3 0 * top 3 + m 3 1 * top 1 - m 3 2 * top 0,
      m 2 0 * top 3 - m 2 1 * top 1 + m 2 2 * top 0]
    .ok (mscale adjugate scale)

/-! ### LU -/

/-- The pivot search in column `k` (`lu.rs:72-80`): the state is `(best, pivot)`. -/
def pivotSearch [LT T] [DecidableLT T] [Fns T] (a : Matrix (Fin n) (Fin n) T) (k : Fin n) :
    T × Fin n :=
  (List.finRange n).foldl
    (fun (s : T × Fin n) i =>
      if k < i ∧ s.1 < Fns.abs (a i k) then (Fns.abs (a i k), i) else s)
    (Fns.abs (a k k), k)

/-- The elimination below the pivot (`lu.rs:91-98`).  Row `k` is not written, and each entry below
it is written once from its old value and from row `k`, so the loops are one simultaneous update. -/
def eliminate [Sub T] [Mul T] [Div T] (a : Matrix (Fin n) (Fin n) T) (k : Fin n) :
    Matrix (Fin n) (Fin n) T := fun i j =>
  if k < i then
    let factor := a i k / a k k
    if j = k then factor else if k < j then a i j - factor * a k j else a i j
  else a i j

/-- The working state of `factor_lu` (`lu.rs:65-68`). -/
structure LuState (n : ℕ) (T : Type) where
  a : Matrix (Fin n) (Fin n) T
  perm : Fin n → Fin n
  sign : T
  smallestPivot : T

/-- One pass of the loop of `factor_lu` (`lu.rs:70-99`). -/
def luStep [Zero T] [Sub T] [Mul T] [Div T] [Neg T] [LT T] [DecidableLT T] [BEq T] [Min T] [Fns T]
    (s : LuState n T) (k : Fin n) : Except LinalgError (LuState n T) :=
  let (best, pivot) := pivotSearch s.a k
  if best == 0 then .error .singular
  else
    let smallestPivot := min s.smallestPivot best
    let swapped : LuState n T :=
      if pivot = k then { s with smallestPivot := smallestPivot }
      else ⟨fun i => s.a (Equiv.swap k pivot i), fun i => s.perm (Equiv.swap k pivot i), -s.sign,
        smallestPivot⟩
    .ok { swapped with a := eliminate swapped.a k }

/-- The loop over columns. -/
def luLoop [Zero T] [Sub T] [Mul T] [Div T] [Neg T] [LT T] [DecidableLT T] [BEq T] [Min T] [Fns T] :
    List (Fin n) → LuState n T → Except LinalgError (LuState n T)
  | [], s => .ok s
  | k :: ks, s =>
    match luStep s k with
    | .error e => .error e
    | .ok s => luLoop ks s

/-- `factor_lu` (`lu.rs:64-109`); `largest` is `T::MAX`. -/
def factorLu [Zero T] [One T] [Sub T] [Mul T] [Div T] [Neg T] [LT T] [DecidableLT T] [BEq T] [Min T]
    [Fns T] (largest : T) (m : Matrix (Fin n) (Fin n) T) : Except LinalgError (LuState n T) :=
  luLoop (List.finRange n) ⟨m, fun i => i, 1, largest⟩

/-- `lu_decompose` (`lu.rs:50-57`). -/
def luDecompose [Zero T] [One T] [Sub T] [Mul T] [Div T] [Neg T] [LT T] [DecidableLT T] [LE T]
    [DecidableLE T] [BEq T] [Max T] [Min T] [Fns T] (largest : T) (m : Matrix (Fin n) (Fin n) T) :
    Except LinalgError (LuState n T) :=
  match factorLu largest m with
  | .error e => .error e
  | .ok s => if s.smallestPivot ≤ Fns.epsilon * maxAbs m then .error .illConditioned else .ok s

/-- `LuDecomposition::lower` (`lu.rs:135-145`). -/
def LuState.lower [Zero T] [One T] (f : LuState n T) : Matrix (Fin n) (Fin n) T := fun row column =>
  if row = column then 1 else if column < row then f.a row column else 0

/-- `LuDecomposition::upper` (`lu.rs:148-156`). -/
def LuState.upper [Zero T] (f : LuState n T) : Matrix (Fin n) (Fin n) T := fun row column =>
  if row ≤ column then f.a row column else 0

/-- `LuDecomposition::determinant` (`lu.rs:174-180`). -/
def LuState.determinant [Mul T] (f : LuState n T) : T :=
  (List.finRange n).foldl (fun det i => det * f.a i i) f.sign

/-- One substitution step in place (`lu.rs:202-206, 211-215`): the entries at the indices in `used`
have been found already; `finish` divides by the diagonal entry, or does nothing for a unit diagonal. -/
def substituteStep [Sub T] [Mul T] (coeff : Fin n → T) (used : Fin n → Bool) (finish : T → T)
    (x : Fin n → T) (i : Fin n) : Fin n → T :=
  Function.update x i (finish
    (((List.finRange n).filter used).foldl (fun sum j => sum - coeff j * x j) (x i)))

/-- `LuDecomposition::solve` (`lu.rs:196-219`). -/
def LuState.solve [Sub T] [Mul T] [Div T] (f : LuState n T) (b : Fin n → T) : Fin n → T :=
  let x : Fin n → T := fun i => b (f.perm i)
  let x := (List.finRange n).foldl
    (fun x i => substituteStep (fun j => f.a i j) (fun j => decide (j < i)) (fun s => s) x i) x
  (List.finRange n).reverse.foldl
    (fun x i => substituteStep (fun j => f.a i j) (fun j => decide (i < j)) (fun s => s / f.a i i) x i)
    x

/-- `LuDecomposition::solve_matrix` (`lu.rs:233-243`). -/
def LuState.solveMatrix [Sub T] [Mul T] [Div T] (f : LuState n T) (b : Matrix (Fin n) (Fin k) T) :
    Matrix (Fin n) (Fin k) T :=
  fun row col => f.solve (fun row => b row col) row

/-- `LuDecomposition::inverse` (`lu.rs:258-260`). -/
def LuState.inverse [Zero T] [One T] [Sub T] [Mul T] [Div T] (f : LuState n T) :
    Matrix (Fin n) (Fin n) T :=
  f.solveMatrix (midentity n)

/-- `Matrix::solve` (`lu.rs:128-130`). -/
def msolve [Zero T] [One T] [Sub T] [Mul T] [Div T] [Neg T] [LT T] [DecidableLT T] [LE T]
    [DecidableLE T] [BEq T] [Max T] [Min T] [Fns T] (largest : T) (m : Matrix (Fin n) (Fin n) T)
    (b : Fin n → T) : Except LinalgError (Fin n → T) :=
  match luDecompose largest m with
  | .error e => .error e
  | .ok f => .ok (f.solve b)

/-- `Matrix::determinant` (`matrix.rs:395-407`). -/
def mdeterminant [Zero T] [One T] [Add T] [Sub T] [Mul T] [Div T] [Neg T] [LT T] [DecidableLT T]
    [BEq T] [Min T] [Fns T] (largest : T) : {n : ℕ} → Matrix (Fin n) (Fin n) T → T
  | 0, _ => 1
  | 1, m => m 0 0
  | 2, m => determinant2 m
  | 3, m => determinant3 m
  | 4, m => determinant4 m
  | _ + 5, m =>
    match factorLu largest m with
    | .ok f => f.determinant
    | .error _ => 0

/-- `Matrix::inverse` (`matrix.rs:442-451, 608-611`). -/
def minverse [Zero T] [One T] [NatCast T] [Add T] [Sub T] [Mul T] [Div T] [Neg T] [LT T]
    [DecidableLT T] [LE T] [DecidableLE T] [BEq T] [Max T] [Min T] [Fns T] (largest : T) :
    {n : ℕ} → Matrix (Fin n) (Fin n) T → Except LinalgError (Matrix (Fin n) (Fin n) T)
  | 0, m => .ok m
  | 1, m => inverse1 m
  | 2, m => inverse2 m
  | 3, m => inverse3 m
  | 4, m => inverse4 m
  | _ + 5, m =>
    match luDecompose largest m with
    | .error e => .error e
    | .ok f => .ok f.inverse

/-! ### Cholesky -/

/-- `self[(i, j)]` less the products of the earlier entries of rows `i` and `j` of `lower`
(`cholesky.rs:46-49, 58-61`). -/
def choleskyResidual [Sub T] [Mul T] (a lower : Matrix (Fin n) (Fin n) T) (i j : Fin n) : T :=
  ((List.finRange n).filter fun k => decide (k < j)).foldl
    (fun sum k => sum - lower i k * lower j k) (a i j)

/-- One column of `cholesky` (`cholesky.rs:44-64`); the column below the diagonal only reads earlier
columns, so it is one simultaneous update. -/
def choleskyStep [Zero T] [Sub T] [Mul T] [Div T] [LE T] [DecidableLE T] [Fns T]
    (a lower : Matrix (Fin n) (Fin n) T) (j : Fin n) :
    Except LinalgError (Matrix (Fin n) (Fin n) T) :=
  let diag := choleskyResidual a lower j j
  if diag ≤ 0 then .error .notPositiveDefinite
  else
    let ljj := Fns.sqrt diag
    .ok fun row column =>
      if column = j then
        if row = j then ljj
        else if j < row then choleskyResidual a lower row j / ljj
        else lower row column
      else lower row column

/-- The loop over columns. -/
def choleskyLoop [Zero T] [Sub T] [Mul T] [Div T] [LE T] [DecidableLE T] [Fns T]
    (a : Matrix (Fin n) (Fin n) T) :
    List (Fin n) → Matrix (Fin n) (Fin n) T → Except LinalgError (Matrix (Fin n) (Fin n) T)
  | [], lower => .ok lower
  | j :: js, lower =>
    match choleskyStep a lower j with
    | .error e => .error e
    | .ok lower => choleskyLoop a js lower

/-- `Matrix::cholesky` (`cholesky.rs:41-67`); the result is `lower`. -/
def cholesky [Zero T] [Sub T] [Mul T] [Div T] [LE T] [DecidableLE T] [Fns T]
    (a : Matrix (Fin n) (Fin n) T) : Except LinalgError (Matrix (Fin n) (Fin n) T) :=
  choleskyLoop a (List.finRange n) fun _ _ => 0

/-- `Cholesky::determinant` (`cholesky.rs:85-91`). -/
def choleskyDeterminant [One T] [Mul T] (lower : Matrix (Fin n) (Fin n) T) : T :=
  (List.finRange n).foldl (fun det i => det * (lower i i * lower i i)) 1

/-- `Cholesky::solve` (`cholesky.rs:106-128`). -/
def choleskySolve [Sub T] [Mul T] [Div T] (lower : Matrix (Fin n) (Fin n) T) (b : Fin n → T) :
    Fin n → T :=
  let x := (List.finRange n).foldl
    (fun x i => substituteStep (fun j => lower i j) (fun j => decide (j < i))
      (fun s => s / lower i i) x i) b
  (List.finRange n).reverse.foldl
    (fun x i => substituteStep (fun j => lower j i) (fun j => decide (i < j))
      (fun s => s / lower i i) x i) x

/-- `Cholesky::solve_matrix` (`cholesky.rs:142-152`). -/
def choleskySolveMatrix [Sub T] [Mul T] [Div T] (lower : Matrix (Fin n) (Fin n) T)
    (b : Matrix (Fin n) (Fin k) T) : Matrix (Fin n) (Fin k) T :=
  fun row column => choleskySolve lower (fun row => b row column) row

/-- `Cholesky::inverse` (`cholesky.rs:167-169`). -/
def choleskyInverse [Zero T] [One T] [Sub T] [Mul T] [Div T] (lower : Matrix (Fin n) (Fin n) T) :
    Matrix (Fin n) (Fin n) T :=
  choleskySolveMatrix lower (midentity n)

end Multicalc
