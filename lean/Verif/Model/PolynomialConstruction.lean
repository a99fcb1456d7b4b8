import Verif.Model.Polynomial

/-!
# Building polynomials

Model of `crates/multicalc/src/polynomial/construction.rs`.  The conventions are those of
`Verif.Model.Polynomial`.
-/

namespace Multicalc
namespace Poly

variable {T : Type}

/-- `multiply_in_a_root` (`construction.rs:26-37`); the count is `raised_degree + 1`. -/
def multiplyInRootLoop [Sub T] [Mul T] (root : T) : T → ℕ → List T → List T
  | _, 0, coefficients => coefficients
  | _, _ + 1, [] => []
  | carried, count + 1, current :: rest =>
    (carried - root * current) :: multiplyInRootLoop root current count rest

/-- `multiply_in_a_root` (`construction.rs:26-37`). -/
def multiplyInRoot [Zero T] [Sub T] [Mul T] (coefficients : List T) (raisedDegree : ℕ) (root : T) :
    List T :=
  multiplyInRootLoop root 0 (raisedDegree + 1) coefficients

/-- The loop of `from_roots` (`construction.rs:83-85`); `index` counts the roots already in. -/
def fromRootsLoop [Zero T] [Sub T] [Mul T] : ℕ → List T → List T → List T
  | _, [], coefficients => coefficients
  | index, root :: rest, coefficients =>
    fromRootsLoop (index + 1) rest (multiplyInRoot coefficients (index + 1) root)

/-- `Polynomial::from_roots` (`construction.rs:70-87`). -/
def fromRoots [Zero T] [One T] [Sub T] [Mul T] [Fns T] (count : ℕ) (roots : List T) :
    Except PolynomialError (List T) :=
  if roots.any fun root => !Fns.isFinite root then .error .nonFinite
  else if count ≤ roots.length then .error .degreeOverflow
  else
    match zeros (T := T) count with
    | [] => .error .degreeOverflow
    | _ :: rest => .ok (fromRootsLoop 0 roots (1 :: rest))

/-- `Polynomial::chebyshev_nodes` (`construction.rs:132-146`). -/
def chebyshevNodes [One T] [NatCast T] [Add T] [Sub T] [Mul T] [Div T] [Fns T] (count : ℕ)
    (lower upper : T) : List T :=
  let half : T := 1 / ((2 : ℕ) : T)
  let centre := (lower + upper) * half
  let halfWidth := (upper - lower) * half
  (List.range count).map fun index =>
    let step := count - 1 - index
    let angle := (((2 : ℕ) : T) * (step : T) + 1) * Fns.pi / (((2 : ℕ) : T) * (count : T))
    centre + halfWidth * Fns.cos angle

/-- `sample_range` (`construction.rs:43-55`). -/
def sampleRange [Zero T] [One T] [NatCast T] [Add T] [Sub T] [Mul T] [Div T] [BEq T] [Max T] [Min T]
    (nodes : List T) : Except PolynomialError (T × T) :=
  match nodes with
  | [] => .error .empty
  | first :: _ =>
    let smallest := nodes.foldl min first
    let largest := nodes.foldl max first
    let half : T := 1 / ((2 : ℕ) : T)
    let halfWidth := (largest - smallest) * half
    if halfWidth == 0 then .error .duplicateNode
    else .ok ((smallest + largest) * half, halfWidth)

/-- One pass over the table of `from_points` (`construction.rs:192-204`).  The table and the
normalised positions are functions of the index; entry `index` reads entry `index + 1` before that
one is overwritten. -/
def bendPass [Zero T] [Sub T] [Div T] [BEq T] (count order : ℕ) (normalized table : ℕ → T) :
    Except PolynomialError (ℕ → T) :=
  if (List.range (count - order)).any fun index =>
      normalized (index + order) - normalized index == 0 then .error .duplicateNode
  else .ok fun index =>
    if index < count - order then
      (table (index + 1) - table index) / (normalized (index + order) - normalized index)
    else table index

/-- The loop over the passes (`construction.rs:191-208`): `passes` remain, the next one has the given
order.  The bends found, in order. -/
def bendLoop [Zero T] [Sub T] [Div T] [BEq T] (count : ℕ) (normalized : ℕ → T) :
    ℕ → ℕ → (ℕ → T) → Except PolynomialError (List T)
  | 0, _, _ => .ok []
  | passes + 1, order, table =>
    match bendPass count order normalized table with
    | .error e => .error e
    | .ok table =>
      match bendLoop count normalized passes (order + 1) table with
      | .error e => .error e
      | .ok bends => .ok (table 0 :: bends)

/-- The folding loop (`construction.rs:216-222`): `step` is the loop counter plus one. -/
def foldBends [Zero T] [Add T] [Sub T] [Mul T] (count : ℕ) (normalized : ℕ → T) (bends : List T) :
    ℕ → List T → List T
  | 0, coefficients => coefficients
  | step + 1, coefficients =>
    let raised := multiplyInRoot coefficients (count - 1 - step) (normalized step)
    foldBends count normalized bends step
      (raised.modifyHead fun slot => slot + bends.getD step 0)

/-- `Polynomial::from_points` (`construction.rs:161-228`). -/
def fromPoints [Zero T] [One T] [NatCast T] [Add T] [Sub T] [Mul T] [Div T] [Neg T] [BEq T] [Max T]
    [Min T] [Fns T] (nodes values : List T) : Except PolynomialError (List T) :=
  let count := values.length
  if (nodes ++ values).any fun v => !Fns.isFinite v then .error .nonFinite
  else if count ≤ 1 then .ok values
  else
    match sampleRange nodes with
    | .error e => .error e
    | .ok (centre, halfWidth) =>
      let normalized := fun index => (nodes.getD index 0 - centre) / halfWidth
      let table := fun index => values.getD index 0
      match bendLoop count normalized (count - 1) 1 table with
      | .error e => .error e
      | .ok later =>
        let bends := table 0 :: later
        let start := (zeros (T := T) count).modifyHead fun _ => bends.getLastD 0
        let coefficients := foldBends count normalized bends (count - 1) start
        .ok (shiftArgument (scaleArgument coefficients (1 / halfWidth)) (-centre))

/-- `Polynomial::<4>::from_endpoint_derivatives` (`construction.rs:354-379`). -/
def fromEndpointSlopes [Zero T] [NatCast T] [Add T] [Sub T] [Mul T] [Neg T] [LE T] [DecidableLE T]
    [Fns T] (startValue startSlope endValue endSlope span : T) :
    Except PolynomialError (List T) :=
  if [startValue, startSlope, endValue, endSlope, span].any fun v => !Fns.isFinite v then
    .error .nonFinite
  else if span ≤ 0 then .error .spanNotPositive
  else
    let startRise := startSlope * span
    let endRise := endSlope * span
    let two : T := ((2 : ℕ) : T)
    let three : T := ((3 : ℕ) : T)
    .ok [startValue, startRise,
      -three * startValue - two * startRise + three * endValue - endRise,
      two * startValue + startRise - two * endValue + endRise]

end Poly
end Multicalc
