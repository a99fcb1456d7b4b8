import Verif.Model.PolynomialConstruction
import Verif.Model.Qr
import Verif.Model.Autodiff

/-!
# Polynomials fitted to too many points, and polynomials read off a jet

Model of `Polynomial::fit_least_squares` and `Polynomial::from_jet`
(`crates/multicalc/src/polynomial/construction.rs`).  The sample count `m` and the coefficient count `n` are the
constant parameters `SAMPLE_COUNT` and `COEFFICIENT_COUNT`.
-/

namespace Multicalc
namespace Poly

variable {T : Type}

/-- `raised` after `column` rounds of the inner loop (`construction.rs:264-270`). -/
def raisedTo [One T] [Mul T] (normalized : T) : ℕ → T
  | 0 => 1
  | column + 1 => raisedTo normalized column * normalized

/-- The design matrix of `fit_least_squares` (`construction.rs:260-271`). -/
def designMatrix [One T] [Sub T] [Mul T] [Div T] {m : ℕ} (n : ℕ) (nodes : Fin m → T) (centre halfWidth : T) :
    Matrix (Fin m) (Fin n) T :=
  fun row column => raisedTo ((nodes row - centre) / halfWidth) column

/-- The solve of `fit_least_squares` (`construction.rs:273`): both `?` turn a linear-algebra error into
`PolynomialError::Linalg`. -/
def solveDesign [Zero T] [One T] [NatCast T] [Add T] [Sub T] [Neg T] [Mul T] [Div T] [LT T] [LE T] [BEq T]
    [DecidableLT T] [DecidableLE T] [Fns T] {m n : ℕ} (minPositive largest : T)
    (design : Matrix (Fin m) (Fin n) T) (values : Fin m → T) : Except PolynomialError (Fin n → T) :=
  match PivotedQr.decompose minPositive largest design with
  | .error _ => .error .linalg
  | .ok q =>
    match q.solveLeastSquares values with
    | .error _ => .error .linalg
    | .ok solved => .ok solved

/-- `Polynomial::fit_least_squares` (`construction.rs:246-278`). -/
def fitLeastSquares [Zero T] [One T] [NatCast T] [Add T] [Sub T] [Neg T] [Mul T] [Div T] [LT T] [LE T] [BEq T]
    [DecidableLT T] [DecidableLE T] [Max T] [Min T] [Fns T] {m : ℕ} (n : ℕ) (minPositive largest : T)
    (nodes values : Fin m → T) : Except PolynomialError (List T) :=
  if m < n then .error .tooFewSamples
  else if (List.ofFn nodes ++ List.ofFn values).any fun v => !Fns.isFinite v then .error .nonFinite
  else
    match sampleRange (List.ofFn nodes) with
    | .error e => .error e
    | .ok (centre, halfWidth) =>
      match solveDesign minPositive largest (designMatrix n nodes centre halfWidth) values with
      | .error e => .error e
      | .ok solved => .ok (shiftArgument (scaleArgument (List.ofFn solved) (1 / halfWidth)) (-centre))

/-- `Polynomial::from_jet` (`construction.rs:105-116`): slot `k` is overwritten when the jet has a coefficient `k`. -/
def fromJet [Zero T] {N : ℕ} (count : ℕ) (jet : Jet T N) : Except PolynomialError (List T) :=
  if count < N then .error .degreeOverflow
  else .ok (List.ofFn jet.coeffs ++ List.replicate (count - N) 0)

end Poly
end Multicalc
