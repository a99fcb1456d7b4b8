import Verif.Model.LinearAlgebra

/-!
# Matrix exponential and discretization

Model of `crates/multicalc/src/linear_algebra/expm.rs` and `crates/multicalc/src/discretization/mod.rs`.
-/

namespace Multicalc

variable {T : Type} {n m : ℕ}

section
variable [Zero T] [One T] [NatCast T] [Add T] [Sub T] [Mul T] [Div T] [Neg T] [LT T] [DecidableLT T] [LE T]
  [DecidableLE T] [BEq T] [Max T] [Min T] [Fns T]

/-- The 1-norm, the largest absolute column sum (`expm.rs:28-37`). -/
def oneNorm (a : Matrix (Fin n) (Fin n) T) : T :=
  (List.finRange n).foldl
    (fun nrm j =>
      let col := sumLoop n fun i => Fns.abs (a i j)
      if nrm < col then col else nrm) 0

/-- The loop choosing the scaling exponent (`expm.rs:39-44`), from `scaled` and `squares`.  `fuel` bounds the
number of passes; `none` means the loop has not ended by then. -/
def halveLoop : ℕ → T → ℕ → Option ℕ
  | 0, scaled, squares => if 1 / ((2 : ℕ) : T) < scaled then none else some squares
  | fuel + 1, scaled, squares =>
    if 1 / ((2 : ℕ) : T) < scaled then halveLoop fuel (scaled * (1 / ((2 : ℕ) : T))) (squares + 1) else some squares

/-- The Padé coefficients `coef[k]` (`expm.rs:48-53`).  The quotient is formed in `f64` and then converted. -/
def padeCoef : ℕ → T
  | 0 => 1
  | k + 1 => padeCoef k *
    Fns.lit ((6 - ((k + 1 : ℕ) : ℚ) + 1) / (((k + 1 : ℕ) : ℚ) * (12 - ((k + 1 : ℕ) : ℚ) + 1)))

/-- The loop building numerator and denominator (`expm.rs:55-66`); the state is `(apow, num, den)`. -/
def padeLoop (a : Matrix (Fin n) (Fin n) T) :
    Matrix (Fin n) (Fin n) T × Matrix (Fin n) (Fin n) T × Matrix (Fin n) (Fin n) T :=
  (List.range 7).foldl
    (fun s k =>
      let num := madd s.2.1 (mscale s.1 (padeCoef k))
      let signed : T := if k % 2 = 0 then padeCoef k else -padeCoef k
      let den := madd s.2.2 (mscale s.1 signed)
      (if k < 6 then mmul s.1 a else s.1, num, den))
    (midentity n, fun _ _ => 0, fun _ _ => 0)

/-- `Matrix::expm` (`expm.rs:22-75`); `largest` is `T::MAX`, used by the factorization.  `none` means the scaling
loop is still running after `fuel` passes. -/
def expm (largest : T) (fuel : ℕ) (self : Matrix (Fin n) (Fin n) T) :
    Option (Except LinalgError (Matrix (Fin n) (Fin n) T)) :=
  if mIsFinite self then
    match halveLoop fuel (oneNorm self) 0 with
    | none => none
    | some squares =>
      let a := mscale self (powi (1 / ((2 : ℕ) : T)) squares)
      let s := padeLoop a
      match luDecompose largest s.2.2 with
      | .error e => some (.error e)
      | .ok f =>
        let result := (List.range squares).foldl (fun r _ => mmul r r) (f.solveMatrix s.2.1)
        if mIsFinite result then some (.ok result) else some (.error .nonFinite)
  else some (.error .nonFinite)

/-- The augmented matrix of `zoh` (`discretization/mod.rs:42-50`). -/
def zohAugmented (a : Matrix (Fin n) (Fin n) T) (b : Matrix (Fin n) (Fin m) T) (timestep : T) :
    Matrix (Fin (n + m)) (Fin (n + m)) T := fun i j =>
  Fin.addCases (fun i => Fin.addCases (fun j => a i j * timestep) (fun j => b i j * timestep) j) (fun _ => 0) i

/-- `zoh` (`discretization/mod.rs:32-55`).  The compile-time check makes the third size `N + M`. -/
def zoh (largest : T) (fuel : ℕ) (a : Matrix (Fin n) (Fin n) T) (b : Matrix (Fin n) (Fin m) T) (timestep : T) :
    Option (Except LinalgError (Matrix (Fin n) (Fin n) T × Matrix (Fin n) (Fin m) T)) :=
  if !Fns.isFinite timestep ∨ timestep < 0 then some (.error .invalidTimestep)
  else
    match expm largest fuel (zohAugmented a b timestep) with
    | none => none
    | some (.error e) => some (.error e)
    | some (.ok exponential) =>
      some (.ok (fun i j => exponential (Fin.castAdd m i) (Fin.castAdd m j),
        fun i j => exponential (Fin.castAdd m i) (Fin.natAdd n j)))

/-- The augmented matrix of `van_loan` (`discretization/mod.rs:84-94`). -/
def vanLoanAugmented (a processNoise : Matrix (Fin n) (Fin n) T) (timestep : T) :
    Matrix (Fin (n + n)) (Fin (n + n)) T := fun i j =>
  Fin.addCases
    (fun i => Fin.addCases (fun j => -a i j * timestep) (fun j => processNoise i j * timestep) j)
    (fun i => Fin.addCases (fun _ => 0) (fun j => a j i * timestep) j) i

/-- `van_loan` (`discretization/mod.rs:74-101`).  The compile-time check makes the second size `2 N`. -/
def vanLoan (largest : T) (fuel : ℕ) (a processNoise : Matrix (Fin n) (Fin n) T) (timestep : T) :
    Option (Except LinalgError (Matrix (Fin n) (Fin n) T × Matrix (Fin n) (Fin n) T)) :=
  if !Fns.isFinite timestep ∨ timestep < 0 then some (.error .invalidTimestep)
  else
    match expm largest fuel (vanLoanAugmented a processNoise timestep) with
    | none => none
    | some (.error e) => some (.error e)
    | some (.ok exponential) =>
      let g12 : Matrix (Fin n) (Fin n) T := fun i j => exponential (Fin.castAdd n i) (Fin.natAdd n j)
      let g22 : Matrix (Fin n) (Fin n) T := fun i j => exponential (Fin.natAdd n i) (Fin.natAdd n j)
      let f := mtranspose g22
      some (.ok (f, mmul f g12))

/-- `q_discrete_white_noise` (`discretization/mod.rs:117-159`).  Sizes other than 2, 3 and 4 do not compile. -/
def qDiscreteWhiteNoise (dim : ℕ) (timestep variance : T) : Matrix (Fin dim) (Fin dim) T := fun i j =>
  let timestep2 := timestep * timestep
  let timestep3 := timestep2 * timestep
  let timestep4 := timestep3 * timestep
  let timestep5 := timestep4 * timestep
  let timestep6 := timestep5 * timestep
  let half : T := 1 / ((2 : ℕ) : T)
  let entry : T := match dim, (i : ℕ), (j : ℕ) with
    | 2, 0, 0 => timestep4 * Fns.lit (1 / 4)
    | 2, 0, 1 | 2, 1, 0 => timestep3 * half
    | 2, 1, 1 => timestep2
    | 3, 0, 0 => timestep4 * Fns.lit (1 / 4)
    | 3, 0, 1 | 3, 1, 0 => timestep3 * half
    | 3, 0, 2 | 3, 2, 0 => timestep2 * half
    | 3, 1, 1 => timestep2
    | 3, 1, 2 | 3, 2, 1 => timestep
    | 3, 2, 2 => 1
    | 4, 0, 0 => timestep6 / Fns.lit 36
    | 4, 0, 1 | 4, 1, 0 => timestep5 / Fns.lit 12
    | 4, 0, 2 | 4, 2, 0 => timestep4 / Fns.lit 6
    | 4, 0, 3 | 4, 3, 0 => timestep3 / Fns.lit 6
    | 4, 1, 1 => timestep4 * Fns.lit (1 / 4)
    | 4, 1, 2 | 4, 2, 1 => timestep3 * half
    | 4, 1, 3 | 4, 3, 1 => timestep2 * half
    | 4, 2, 2 => timestep2
    | 4, 2, 3 | 4, 3, 2 => timestep
    | 4, 3, 3 => 1
    | _, _, _ => 0
  entry * variance

end
end Multicalc
