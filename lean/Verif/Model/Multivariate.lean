import Verif.Model.Polynomial

/-!
# Polynomials in several variables

Model of `crates/multicalc/src/polynomial/multivariate.rs`.  A
`MultivariatePolynomial<VARIABLES, MAX_TERMS, T>` is the list of its terms in use
(`terms[..length]`); `MAX_TERMS` is passed to the operations that can run out of room.  Exponents are
natural numbers, and the places where the code checks a `u32` sum are modelled by a comparison with
`u32::MAX`.
-/

namespace Multicalc
namespace Poly

variable {T : Type} {n : ℕ}

/-- `i32::MAX`. -/
def i32Max : ℕ := 2 ^ 31 - 1

/-- `u32::MAX`. -/
def u32Max : ℕ := 2 ^ 32 - 1

/-- `raise` (`multivariate.rs:10-12`): an exponent above `i32::MAX` saturates. -/
def raise [One T] [Mul T] [Div T] (value : T) (exponent : ℕ) : T :=
  powi value (min exponent i32Max : ℕ)

/-- `MultivariateTerm` (`multivariate.rs:19-22`). -/
structure Term (n : ℕ) (T : Type) where
  coefficient : T
  exponents : Fin n → ℕ

/-- `push` (`multivariate.rs:146-158`). -/
def pushTerm [Fns T] (maxTerms : ℕ) (terms : List (Term n T)) (term : Term n T) :
    Except PolynomialError (List (Term n T)) :=
  if !Fns.isFinite term.coefficient then .error .nonFinite
  else if terms.length < maxTerms then .ok (terms ++ [term])
  else .error .capacityExceeded

/-- Pushing a run of terms in order, stopping at the first error: `try_from_terms`
(`multivariate.rs:115-123`) from an empty list, and the loops of the other operations. -/
def pushAll [Fns T] (maxTerms : ℕ) : List (Term n T) → List (Term n T) →
    Except PolynomialError (List (Term n T))
  | terms, [] => .ok terms
  | terms, term :: rest =>
    match pushTerm maxTerms terms term with
    | .error e => .error e
    | .ok terms => pushAll maxTerms terms rest

/-- `try_from_terms` (`multivariate.rs:115-123`). -/
def tryFromTerms [Fns T] (maxTerms : ℕ) (terms : List (Term n T)) :
    Except PolynomialError (List (Term n T)) :=
  pushAll maxTerms [] terms

/-- The inner loop of `evaluate` (`multivariate.rs:205-208`). -/
def termValue [One T] [Mul T] [Div T] (term : Term n T) (point : Fin n → T) : T :=
  (List.finRange n).foldl (fun product i => product * raise (point i) (term.exponents i))
    term.coefficient

/-- `evaluate` (`multivariate.rs:202-212`). -/
def evaluateMulti [Zero T] [One T] [Add T] [Mul T] [Div T] (terms : List (Term n T))
    (point : Fin n → T) : T :=
  terms.foldl (fun total term => total + termValue term point) 0

/-- One term of `partial_derivative` (`multivariate.rs:236-246`); `none` when it is skipped. -/
def termDerivative [NatCast T] [Mul T] (which : Fin n) (term : Term n T) : Option (Term n T) :=
  let exponent := term.exponents which
  if exponent = 0 then none
  else some ⟨term.coefficient * (exponent : T), Function.update term.exponents which (exponent - 1)⟩

/-- `partial_derivative` (`multivariate.rs:230-249`). -/
def partialDerivative [NatCast T] [Mul T] [Fns T] (maxTerms : ℕ) (terms : List (Term n T))
    (which : ℕ) : Except PolynomialError (List (Term n T)) :=
  if h : which < n then pushAll maxTerms [] (terms.filterMap (termDerivative ⟨which, h⟩))
  else .error .variableOutOfRange

/-- The amount one term adds to one entry of `gradient_at` (`multivariate.rs:259-278`). -/
def gradientTerm [One T] [NatCast T] [Mul T] [Div T] (point : Fin n → T) (which : Fin n)
    (term : Term n T) : T :=
  (List.finRange n).foldl
    (fun product other => product * raise (point other)
      (if other = which then term.exponents other - 1 else term.exponents other))
    (term.coefficient * (term.exponents which : T))

/-- `gradient_at` (`multivariate.rs:256-282`), entry by entry. -/
def gradientAt [Zero T] [One T] [NatCast T] [Add T] [Mul T] [Div T] (terms : List (Term n T))
    (point : Fin n → T) : Fin n → T := fun which =>
  terms.foldl (fun total term =>
    if term.exponents which = 0 then total
    else total + gradientTerm point which term) 0

/-- The loop of `partial_antiderivative` (`multivariate.rs:294-305`). -/
def antiderivativeLoop [NatCast T] [Div T] [Fns T] (maxTerms : ℕ) (which : Fin n) :
    List (Term n T) → List (Term n T) → Except PolynomialError (List (Term n T))
  | result, [] => .ok result
  | result, term :: rest =>
    let raised := term.exponents which + 1
    if u32Max < raised then .error .degreeOverflow
    else match pushTerm maxTerms result
        ⟨term.coefficient / (raised : T), Function.update term.exponents which raised⟩ with
      | .error e => .error e
      | .ok result => antiderivativeLoop maxTerms which result rest

/-- `partial_antiderivative` (`multivariate.rs:289-307`). -/
def partialAntiderivative [NatCast T] [Div T] [Fns T] (maxTerms : ℕ) (terms : List (Term n T))
    (which : ℕ) : Except PolynomialError (List (Term n T)) :=
  if h : which < n then antiderivativeLoop maxTerms ⟨which, h⟩ [] terms
  else .error .variableOutOfRange

/-- One step of the first loop of `collect_like_terms` (`multivariate.rs:395-406`): merge into the
first kept term with the same exponents, or keep as a new one.  The kept terms never reach past the
term being read, so doing it in place loses nothing. -/
def mergeTerm [Add T] (term : Term n T) : List (Term n T) → List (Term n T)
  | [] => [term]
  | existing :: rest =>
    if existing.exponents = term.exponents then
      ⟨existing.coefficient + term.coefficient, existing.exponents⟩ :: rest
    else existing :: mergeTerm term rest

/-- `collect_like_terms` (`multivariate.rs:389-424`). -/
def collectLikeTerms [Zero T] [Add T] [BEq T] (terms : List (Term n T)) : List (Term n T) :=
  (terms.foldl (fun kept term => mergeTerm term kept) []).filter
    fun term => !(term.coefficient == 0)

/-- `substitute` (`multivariate.rs:320-337`). -/
def substitute [Zero T] [One T] [Add T] [Mul T] [Div T] [BEq T] [Fns T] (maxTerms : ℕ)
    (terms : List (Term n T)) (which : ℕ) (value : T) :
    Except PolynomialError (List (Term n T)) :=
  if h : which < n then
    match pushAll maxTerms [] (terms.map fun term =>
        (⟨term.coefficient * raise value (term.exponents ⟨which, h⟩),
          Function.update term.exponents ⟨which, h⟩ 0⟩ : Term n T)) with
    | .error e => .error e
    | .ok result => .ok (collectLikeTerms result)
  else .error .variableOutOfRange

/-- `add_into` (`multivariate.rs:343-353`). -/
def addMulti [Zero T] [Add T] [BEq T] [Fns T] (maxTerms : ℕ) (left right : List (Term n T)) :
    Except PolynomialError (List (Term n T)) :=
  match pushAll maxTerms [] (left ++ right) with
  | .error e => .error e
  | .ok result => .ok (collectLikeTerms result)

/-- The loops of `multiply_into` (`multivariate.rs:366-378`) over the pairs in order. -/
def multiplyPairs [Mul T] [Fns T] (maxTerms : ℕ) : List (Term n T) →
    List (Term n T × Term n T) → Except PolynomialError (List (Term n T))
  | result, [] => .ok result
  | result, (left, right) :: rest =>
    if (List.finRange n).any fun i => decide (u32Max < left.exponents i + right.exponents i) then
      .error .degreeOverflow
    else match pushTerm maxTerms result
        ⟨left.coefficient * right.coefficient, fun i => left.exponents i + right.exponents i⟩ with
      | .error e => .error e
      | .ok result => multiplyPairs maxTerms result rest

/-- `multiply_into` (`multivariate.rs:361-381`). -/
def multiplyMulti [Zero T] [Add T] [Mul T] [BEq T] [Fns T] (maxTerms : ℕ)
    (left right : List (Term n T)) : Except PolynomialError (List (Term n T)) :=
  match multiplyPairs maxTerms [] (left.flatMap fun l => right.map fun r => (l, r)) with
  | .error e => .error e
  | .ok result => .ok (collectLikeTerms result)

/-- `total_degree` (`multivariate.rs:429-442`), with the saturating sum of `u32`s. -/
def totalDegree (terms : List (Term n T)) : Option ℕ :=
  terms.foldl (fun largest term =>
    let total := (List.finRange n).foldl
      (fun running i => min (running + term.exponents i) u32Max) 0
    match largest with
    | some previous => some (max previous total)
    | none => some total) none

/-- `degree_in` (`multivariate.rs:448-457`). -/
def degreeIn (terms : List (Term n T)) (which : ℕ) : Option ℕ :=
  if h : which < n then
    if terms.isEmpty then none
    else some (terms.foldl (fun largest term => max largest (term.exponents ⟨which, h⟩)) 0)
  else none

/-- `to_univariate` (`multivariate.rs:479-491`). -/
def toUnivariateLoop [Add T] : List T → List (Term 1 T) → Except PolynomialError (List T)
  | coefficients, [] => .ok coefficients
  | coefficients, term :: rest =>
    match coefficients[term.exponents 0]? with
    | none => .error .degreeOverflow
    | some slot => toUnivariateLoop (coefficients.set (term.exponents 0) (slot + term.coefficient)) rest

/-- `to_univariate` (`multivariate.rs:479-491`). -/
def toUnivariate [Zero T] [Add T] (coefficientCount : ℕ) (terms : List (Term 1 T)) :
    Except PolynomialError (List T) :=
  toUnivariateLoop (zeros coefficientCount) terms

/-- `from_univariate` (`multivariate.rs:497-509`); `power` counts up. -/
def fromUnivariateLoop [Zero T] [BEq T] [Fns T] (maxTerms : ℕ) :
    ℕ → List (Term 1 T) → List T → Except PolynomialError (List (Term 1 T))
  | _, result, [] => .ok result
  | power, result, coefficient :: rest =>
    if coefficient == 0 then fromUnivariateLoop maxTerms (power + 1) result rest
    else if u32Max < power then .error .degreeOverflow
    else match pushTerm maxTerms result ⟨coefficient, fun _ => power⟩ with
      | .error e => .error e
      | .ok result => fromUnivariateLoop maxTerms (power + 1) result rest

/-- `from_univariate` (`multivariate.rs:497-509`). -/
def fromUnivariate [Zero T] [BEq T] [Fns T] (maxTerms : ℕ) (polynomial : List T) :
    Except PolynomialError (List (Term 1 T)) :=
  fromUnivariateLoop maxTerms 0 [] polynomial

end Poly
end Multicalc
