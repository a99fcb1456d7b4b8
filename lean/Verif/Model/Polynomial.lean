import Verif.Model.Scalar

/-!
# Polynomials held as coefficients, lowest power first

Model of `crates/multicalc/src/polynomial/polynomial.rs`.

The Rust type is `Polynomial<COEFFICIENT_COUNT, T>`, a fixed-size array.  Here a polynomial is the
list of its coefficients, and its capacity `COEFFICIENT_COUNT` is the length of the list.  Functions
whose output size is named by the caller (`OUT`, `QUOTIENT`, `REMAINDER`) take that size as an
argument.  `mul_add` is one multiplication followed by one addition, as everywhere in this model.
-/

namespace Multicalc
namespace Poly

variable {T : Type}

/-- `PolynomialError` (`crates/multicalc/src/error.rs:331-363`).  The linear-algebra error
carried by the last variant is not recorded. -/
inductive PolynomialError where
  | nonFinite
  | leadingCoefficientZero
  | degreeOverflow
  | capacityExceeded
  | empty
  | variableOutOfRange
  | duplicateNode
  | tooFewSamples
  | spanNotPositive
  | toleranceNotPositive
  | rangeReversed
  | didNotConverge (steps : ℕ)
  | linalg
  deriving DecidableEq, Repr

/-- `Polynomial::zeros` (`polynomial.rs:68-74`). -/
def zeros [Zero T] (n : ℕ) : List T := List.replicate n 0

/-- `Polynomial::degree` (`polynomial.rs:118-124`): the last position whose coefficient is not
zero. -/
def degree [Zero T] [BEq T] : List T → Option ℕ
  | [] => none
  | a :: l =>
    match degree l with
    | some d => some (d + 1)
    | none => if a != 0 then some 0 else none

/-- `Polynomial::leading_coefficient` (`polynomial.rs:134-138`). -/
def leadingCoefficient [Zero T] [BEq T] (p : List T) : Option T :=
  (degree p).bind fun power => p[power]?

/-- `Polynomial::is_zero` (`polynomial.rs:148-154`). -/
def isZero [Zero T] [BEq T] (p : List T) : Bool := p.all fun c => c == 0

/-- `Polynomial::is_finite` (`polynomial.rs:164-170`). -/
def isFinite [Fns T] (p : List T) : Bool := p.all fun c => Fns.isFinite c

/-- `Polynomial::try_resize` (`polynomial.rs:190-208`). -/
def tryResize [Zero T] [BEq T] (other : ℕ) (p : List T) : Option (List T) :=
  if (p.drop other).any fun c => c != 0 then none
  else some (p.take other ++ zeros (other - p.length))

/-- `Polynomial::evaluate` (`polynomial.rs:223-230`): Horner's rule from the highest power down. -/
def evaluate [Zero T] [Add T] [Mul T] (p : List T) (x : T) : T :=
  p.reverse.foldl (fun accumulator c => accumulator * x + c) 0

/-- One sweep of the table of `evaluate_with_derivatives` (`polynomial.rs:255-263`).  The Rust loop
runs from the highest order down, so every slot sees the old value of the slot below it; `lower` is
that old value, and the new coefficient for order zero. -/
def sweepRow [Add T] [Mul T] (x : T) : T → List T → List T
  | _, [] => []
  | lower, r :: rs => (r * x + lower) :: sweepRow x r rs

/-- The final scaling of `evaluate_with_derivatives` (`polynomial.rs:267-273`); `order` is the
index of the head of the list and `scale` the factor before it is updated. -/
def scaleOrders [NatCast T] [Mul T] : ℕ → T → List T → List T
  | _, _, [] => []
  | order, scale, r :: rs =>
    let scale := if 0 < order then scale * (order : T) else scale
    (r * scale) :: scaleOrders (order + 1) scale rs

/-- `Polynomial::evaluate_with_derivatives` (`polynomial.rs:251-275`). -/
def evaluateWithDerivatives [Zero T] [One T] [NatCast T] [Add T] [Mul T] (orderCount : ℕ)
    (p : List T) (x : T) : List T :=
  scaleOrders 0 1 (p.reverse.foldl (fun result c => sweepRow x c result) (zeros orderCount))

/-- `Polynomial::derivative` (`polynomial.rs:284-293`). -/
def derivative [Zero T] [NatCast T] [Mul T] (p : List T) : List T :=
  (List.range p.length).map fun power =>
    match p[power + 1]? with
    | some above => above * ((power + 1 : ℕ) : T)
    | none => 0

/-- `Polynomial::nth_derivative` (`polynomial.rs:305-315`). -/
def nthDerivative [Zero T] [NatCast T] [Mul T] (order : ℕ) (p : List T) : List T :=
  if p.length ≤ order then zeros p.length else derivative^[order] p

/-- The loop of `definite_integral` (`polynomial.rs:334-338`). -/
def definiteIntegralLoop [NatCast T] [Add T] [Sub T] [Mul T] [Div T] (lower upper : T) :
    ℕ → T → T → T → List T → T
  | _, total, _, _, [] => total
  | power, total, lowerPower, upperPower, c :: cs =>
    definiteIntegralLoop lower upper (power + 1)
      (total + c * (upperPower - lowerPower) / ((power + 1 : ℕ) : T))
      (lowerPower * lower) (upperPower * upper) cs

/-- `Polynomial::definite_integral` (`polynomial.rs:329-340`). -/
def definiteIntegral [Zero T] [NatCast T] [Add T] [Sub T] [Mul T] [Div T] (p : List T)
    (lower upper : T) : T :=
  definiteIntegralLoop lower upper 0 0 lower upper p

/-- `Polynomial::scale`, also `Mul<T>` (`polynomial.rs:350-357, 636-650`). -/
def scale [Mul T] (p : List T) (factor : T) : List T := p.map (· * factor)

/-- Add `term` into slot `power`, or report the overflow when there is no such slot and the term is
not zero (`polynomial.rs:385-389`). -/
def addAt [Zero T] [Add T] [BEq T] (out : List T) (power : ℕ) (term : T) :
    Except PolynomialError (List T) :=
  match out[power]? with
  | some slot => .ok (out.set power (slot + term))
  | none => if term != 0 then .error .degreeOverflow else .ok out

/-- The inner loop of `multiply_into` (`polynomial.rs:383-390`); `power` is
`left_power + right_power`. -/
def multiplyRow [Zero T] [Add T] [Mul T] [BEq T] (left : T) :
    ℕ → List T → List T → Except PolynomialError (List T)
  | _, [], out => .ok out
  | power, right :: rest, out =>
    match addAt out power (left * right) with
    | .error e => .error e
    | .ok out => multiplyRow left (power + 1) rest out

/-- The outer loop of `multiply_into` (`polynomial.rs:382-391`). -/
def multiplyRows [Zero T] [Add T] [Mul T] [BEq T] (other : List T) :
    ℕ → List T → List T → Except PolynomialError (List T)
  | _, [], out => .ok out
  | leftPower, left :: rest, out =>
    match multiplyRow left leftPower other out with
    | .error e => .error e
    | .ok out => multiplyRows other (leftPower + 1) rest out

/-- `Polynomial::multiply_into` (`polynomial.rs:377-393`). -/
def multiplyInto [Zero T] [Add T] [Mul T] [BEq T] (outCount : ℕ) (p other : List T) :
    Except PolynomialError (List T) :=
  multiplyRows other 0 p (zeros outCount)

/-- `Polynomial::compose_into` (`polynomial.rs:411-425`), over the coefficients from the highest
power down. -/
def composeLoop [Zero T] [Add T] [Mul T] [BEq T] (outCount : ℕ) (inner : List T) :
    List T → List T → Except PolynomialError (List T)
  | [], accumulator => .ok accumulator
  | c :: cs, accumulator =>
    match multiplyInto outCount accumulator inner with
    | .error e => .error e
    | .ok product =>
      match addAt product 0 c with
      | .error e => .error e
      | .ok accumulator => composeLoop outCount inner cs accumulator

/-- `Polynomial::compose_into` (`polynomial.rs:411-425`). -/
def composeInto [Zero T] [Add T] [Mul T] [BEq T] (outCount : ℕ) (p inner : List T) :
    Except PolynomialError (List T) :=
  composeLoop outCount inner p.reverse (zeros outCount)

/-- Subtract `value` from slot `power`, if there is one (`polynomial.rs:477-479`). -/
def subAt [Sub T] (working : List T) (power : ℕ) (value : T) : List T :=
  match working[power]? with
  | some slot => working.set power (slot - value)
  | none => working

/-- Subtract `share` times the divisor from the working copy, `offset` places up; what lands past
the end is dropped (`polynomial.rs:476-480`). -/
def subtractScaled [Sub T] [Mul T] (share : T) : ℕ → List T → List T → List T
  | _, [], working => working
  | offset, d :: ds, working =>
    subtractScaled share (offset + 1) ds (subAt working offset (share * d))

/-- The loop of `divide` (`polynomial.rs:463-485`); `power` is the loop counter before it is
lowered.  Returns the quotient and the working copy. -/
def divideLoop [Zero T] [Add T] [Sub T] [Mul T] [Div T] [BEq T] (divisor : List T)
    (divisorDegree : ℕ) (divisorLeading : T) :
    ℕ → List T → List T → Except PolynomialError (List T × List T)
  | 0, working, quotient => .ok (quotient, working)
  | power + 1, working, quotient =>
    if power + 1 ≤ divisorDegree then .ok (quotient, working)
    else
      let leading := working.getD power 0
      if leading == 0 then divideLoop divisor divisorDegree divisorLeading power working quotient
      else
        let share := leading / divisorLeading
        let quotientPower := power - divisorDegree
        match quotient[quotientPower]? with
        | none => .error .degreeOverflow
        | some slot =>
          divideLoop divisor divisorDegree divisorLeading power
            ((subtractScaled share quotientPower divisor working).set power 0)
            (quotient.set quotientPower (slot + share))

/-- Copy the low coefficients of the working copy into the remainder (`polynomial.rs:487-494`). -/
def copyRemainder [Zero T] [BEq T] : ℕ → List T → List T → Except PolynomialError (List T)
  | _, [], out => .ok out
  | power, c :: cs, out =>
    if power < out.length then copyRemainder (power + 1) cs (out.set power c)
    else if c != 0 then .error .degreeOverflow
    else copyRemainder (power + 1) cs out

/-- `Polynomial::divide` (`polynomial.rs:447-496`). -/
def divide [Zero T] [Add T] [Sub T] [Mul T] [Div T] [BEq T] (quotientCount remainderCount : ℕ)
    (p divisor : List T) : Except PolynomialError (List T × List T) :=
  match degree divisor with
  | none => .error .leadingCoefficientZero
  | some divisorDegree =>
    match divisor[divisorDegree]? with
    | none => .error .leadingCoefficientZero
    | some divisorLeading =>
      match divideLoop divisor divisorDegree divisorLeading p.length p (zeros quotientCount) with
      | .error e => .error e
      | .ok (quotient, working) =>
        match copyRemainder 0 (working.take divisorDegree) (zeros remainderCount) with
        | .error e => .error e
        | .ok remainder => .ok (quotient, remainder)

/-- The inner loop of `shift_argument` (`polynomial.rs:515-526`), over the coefficients from the
highest power down: the successive carries, lowest power last. -/
def shiftCarries [Add T] [Mul T] (offset : T) : T → List T → List T
  | _, [] => []
  | carry, c :: cs => (carry * offset + c) :: shiftCarries offset (carry * offset + c) cs

/-- One round of `shift_argument` (`polynomial.rs:515-528`): the value left behind, and the quotient
by `x - offset` in an array of the same size (the top slot is never written and stays zero). -/
def shiftRound [Zero T] [Add T] [Mul T] (offset : T) (working : List T) : T × List T :=
  match (shiftCarries offset 0 working.reverse).reverse with
  | [] => (0, [])
  | carry :: quotient => (carry, quotient ++ [0])

/-- The outer loop of `shift_argument` (`polynomial.rs:512-529`): `count` slots remain. -/
def shiftLoop [Zero T] [Add T] [Mul T] (offset : T) : ℕ → List T → List T
  | 0, _ => []
  | count + 1, working =>
    (shiftRound offset working).1 :: shiftLoop offset count (shiftRound offset working).2

/-- `Polynomial::shift_argument` (`polynomial.rs:508-531`). -/
def shiftArgument [Zero T] [Add T] [Mul T] (p : List T) (offset : T) : List T :=
  shiftLoop offset p.length p

/-- The loop of `scale_argument` (`polynomial.rs:547-550`). -/
def scaleArgumentLoop [Mul T] (factor : T) : T → List T → List T
  | _, [] => []
  | powerOfFactor, c :: cs =>
    (c * powerOfFactor) :: scaleArgumentLoop factor (powerOfFactor * factor) cs

/-- `Polynomial::scale_argument` (`polynomial.rs:543-552`). -/
def scaleArgument [One T] [Mul T] (p : List T) (factor : T) : List T :=
  scaleArgumentLoop factor 1 p

/-- `Polynomial::reverse` (`polynomial.rs:568-573`). -/
def reverse (p : List T) : List T := p.reverse

/-- `Add` for polynomials of one size (`polynomial.rs:576-595`). -/
def add [Add T] (p q : List T) : List T := List.zipWith (· + ·) p q

/-- `Sub` for polynomials of one size (`polynomial.rs:597-615`). -/
def sub [Sub T] (p q : List T) : List T := List.zipWith (· - ·) p q

/-- `Neg` (`polynomial.rs:617-634`). -/
def neg [Neg T] (p : List T) : List T := p.map (- ·)

/-- `Div<T>` (`polynomial.rs:652-669`). -/
def divScalar [Div T] (p : List T) (divisor : T) : List T := p.map (· / divisor)

end Poly
end Multicalc
