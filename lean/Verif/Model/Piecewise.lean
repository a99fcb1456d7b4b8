import Verif.Model.Polynomial

/-!
# Curves made of polynomial pieces

Model of `crates/multicalc/src/polynomial/piecewise.rs`.  A
`PiecewisePolynomial<MAX_PIECES, COEFFICIENTS_PER_PIECE, DIMENSION, T>` is the list of the pieces in
use (`pieces[..length]` with `spans[..length]`); an axis is an index in `Fin d`.
-/

namespace Multicalc
namespace Poly

variable {T : Type} {d : ℕ}

/-- One entry of `pieces` with its entry of `spans` (`piecewise.rs:48-49`). -/
structure Piece (d : ℕ) (T : Type) where
  polys : Fin d → List T
  span : T

/-- `try_from_pieces` (`piecewise.rs:66-94`). -/
def tryFromPieces [Zero T] [LE T] [DecidableLE T] [Fns T] (maxPieces : ℕ)
    (pieces : List (Fin d → List T)) (spans : List T) : Except PolynomialError (List (Piece d T)) :=
  if pieces.isEmpty || spans.isEmpty then .error .empty
  else if pieces.length ≠ spans.length ∨ maxPieces < pieces.length then .error .capacityExceeded
  else if spans.any fun span => !Fns.isFinite span || decide (span ≤ 0) then .error .spanNotPositive
  else .ok (List.zipWith Piece.mk pieces spans)

/-- `total_span` (`piecewise.rs:113-119`). -/
def totalSpan [Zero T] [Add T] (curve : List (Piece d T)) : T :=
  curve.foldl (fun total piece => total + piece.span) 0

/-- The walk of `locate` (`piecewise.rs:158-164`) and its fallback (`piecewise.rs:165`): `last` is
the piece just passed.  Gives the piece itself in place of its index. -/
def locateLoop [One T] [Add T] [Sub T] [Div T] [LT T] [DecidableLT T] (parameter : T) :
    T → Piece d T → List (Piece d T) → Piece d T × T
  | _, last, [] => (last, 1)
  | covered, _, piece :: rest =>
    if parameter < covered + piece.span then (piece, (parameter - covered) / piece.span)
    else locateLoop parameter (covered + piece.span) piece rest

/-- `locate` (`piecewise.rs:150-166`). -/
def locate [Zero T] [One T] [Add T] [Sub T] [Div T] [LT T] [DecidableLT T] [LE T] [DecidableLE T]
    (curve : List (Piece d T)) (parameter : T) : Option (Piece d T × T) :=
  match curve with
  | [] => none
  | first :: rest =>
    if parameter ≤ 0 then some (first, 0)
    else some (locateLoop parameter 0 first (first :: rest))

/-- `evaluate` (`piecewise.rs:172-181`). -/
def evaluateCurve [Zero T] [One T] [Add T] [Sub T] [Mul T] [Div T] [LT T] [DecidableLT T] [LE T]
    [DecidableLE T] (curve : List (Piece d T)) (parameter : T) :
    Except PolynomialError (Fin d → T) :=
  match locate curve parameter with
  | none => .error .empty
  | some (piece, along) => .ok fun axis => evaluate (piece.polys axis) along

/-- `span_raised` when order `order` is reached (`piecewise.rs:211-215, 371-374`). -/
def spanRaised [One T] [Mul T] (span : T) : ℕ → T
  | 0 => 1
  | order + 1 => spanRaised span order * span

/-- `evaluate_with_derivatives` (`piecewise.rs:190-225`); the result is indexed by the order. -/
def evaluateCurveWithDerivatives [Zero T] [One T] [NatCast T] [Add T] [Sub T] [Mul T] [Div T] [LT T]
    [DecidableLT T] [LE T] [DecidableLE T] (orderCount : ℕ) (curve : List (Piece d T))
    (parameter : T) : Except PolynomialError (Fin orderCount → Fin d → T) :=
  match locate curve parameter with
  | none => .error .empty
  | some (piece, along) => .ok fun order axis =>
      (evaluateWithDerivatives orderCount (piece.polys axis) along).getD order 0
        * (1 / spanRaised piece.span order)

/-- The loop of `definite_integral` on one axis (`piecewise.rs:279-299`). -/
def integralLoop [Zero T] [NatCast T] [Add T] [Sub T] [Mul T] [Div T] [LE T] [DecidableLE T] [Max T]
    [Min T] (wantedStart wantedEnd : T) (axis : Fin d) : T → T → List (Piece d T) → T
  | area, _, [] => area
  | area, covered, piece :: rest =>
    let reached := covered + piece.span
    let start := max wantedStart covered
    let stop := min wantedEnd reached
    let area :=
      if stop ≤ start then area
      else area + definiteIntegral (piece.polys axis) ((start - covered) / piece.span)
        ((stop - covered) / piece.span) * piece.span
    integralLoop wantedStart wantedEnd axis area reached rest

/-- `definite_integral` (`piecewise.rs:259-307`). -/
def integrateCurve [Zero T] [NatCast T] [Add T] [Sub T] [Mul T] [Div T] [Neg T] [LT T]
    [DecidableLT T] [LE T] [DecidableLE T] [Max T] [Min T] (curve : List (Piece d T))
    (lower upper : T) : Except PolynomialError (Fin d → T) :=
  if curve.isEmpty then .error .empty
  else
    let flipped := decide (upper < lower)
    let wanted := if upper < lower then (upper, lower) else (lower, upper)
    let total := totalSpan curve
    let wantedStart := min (max wanted.1 0) total
    let wantedEnd := min (max wanted.2 0) total
    .ok fun axis =>
      let area := integralLoop wantedStart wantedEnd axis 0 0 curve
      if flipped then -area else area

/-- `nth_derivative` (`piecewise.rs:359-382`); `derivative` is order one (`piecewise.rs:338-340`). -/
def nthDerivativeCurve [Zero T] [One T] [NatCast T] [Mul T] [Div T] (coefficientsPerPiece : ℕ)
    (curve : List (Piece d T)) (order : ℕ) : List (Piece d T) :=
  curve.map fun piece =>
    let converted := 1 / spanRaised piece.span (min order coefficientsPerPiece)
    { piece with polys := fun axis => scale (nthDerivative order (piece.polys axis)) converted }

end Poly
end Multicalc
