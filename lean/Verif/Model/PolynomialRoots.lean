import Verif.Model.Polynomial

/-!
# Real roots

Model of `crates/multicalc/src/polynomial/roots.rs`.  A `RealRoots<MAX_ROOTS>` is the list of the
roots found so far; the capacity is passed to `pushRoot`.
-/

namespace Multicalc
namespace Poly

variable {T : Type}

/-- `RealRoots::push` (`roots.rs:40-45`): a root past the capacity is dropped. -/
def pushRoot (capacity : ℕ) (roots : List T) (value : T) : List T :=
  if roots.length < capacity then roots ++ [value] else roots

/-- One pass of the inner loop of `sort_ascending` (`roots.rs:51-60`): the new value is swapped
down past the sorted values before it, which are given nearest first. -/
def insertBack [LE T] [DecidableLE T] (value : T) : List T → List T
  | [] => [value]
  | previous :: rest =>
    if previous ≤ value then value :: previous :: rest
    else previous :: insertBack value rest

/-- `RealRoots::sort_ascending` (`roots.rs:49-62`). -/
def sortAscending [LE T] [DecidableLE T] (roots : List T) : List T :=
  (roots.foldl (fun sorted value => insertBack value sorted) []).reverse

/-- `check` (`roots.rs:91-102`). -/
def checkRoots [Zero T] [BEq T] [Fns T] (p : List T) (highest : T) :
    Except PolynomialError Unit :=
  if !isFinite p then .error .nonFinite
  else if highest == 0 then .error .leadingCoefficientZero
  else .ok ()

/-- `Polynomial<2>::real_roots` (`roots.rs:121-128`). -/
def realRoots2 [Zero T] [Neg T] [Div T] [BEq T] [Fns T] (constant linear : T) :
    Except PolynomialError (List T) :=
  match checkRoots [constant, linear] linear with
  | .error e => .error e
  | .ok _ => .ok (pushRoot 1 [] (-constant / linear))

section
variable [Zero T] [One T] [NatCast T] [Add T] [Sub T] [Mul T] [Div T] [Neg T] [LT T] [LE T]
  [DecidableLT T] [DecidableLE T] [BEq T] [Max T] [Min T] [Fns T]

/-- `Polynomial<3>::real_roots` (`roots.rs:148-171`). -/
def realRoots3 (constant linear quadratic : T) : Except PolynomialError (List T) :=
  match checkRoots [constant, linear, quadratic] quadratic with
  | .error e => .error e
  | .ok _ =>
    let discriminant := linear * linear - Fns.lit 4 * quadratic * constant
    if discriminant < 0 then .ok []
    else
      let combined := -(1 / ((2 : ℕ) : T)) * (linear + Fns.copysign (Fns.sqrt discriminant) linear)
      let roots :=
        if combined == 0 then pushRoot 2 (pushRoot 2 [] 0) 0
        else pushRoot 2 (pushRoot 2 [] (combined / quadratic)) (constant / combined)
      .ok (sortAscending roots)

/-- `Polynomial<4>::real_roots` (`roots.rs:191-237`). -/
def realRoots4 (constant linear quadratic cubic : T) : Except PolynomialError (List T) :=
  match checkRoots [constant, linear, quadratic, cubic] cubic with
  | .error e => .error e
  | .ok _ =>
    let two : T := ((2 : ℕ) : T)
    let three : T := ((3 : ℕ) : T)
    let four : T := Fns.lit 4
    let twentySeven : T := Fns.lit 27
    let slide := -quadratic / (three * cubic)
    let reducedLinear :=
      (three * cubic * linear - quadratic * quadratic) / (three * cubic * cubic)
    let reducedConstant :=
      (two * quadratic * quadratic * quadratic - Fns.lit 9 * cubic * quadratic * linear
        + twentySeven * cubic * cubic * constant) / (twentySeven * cubic * cubic * cubic)
    let roots :=
      if reducedLinear == 0 then pushRoot 3 [] (Fns.cbrt (-reducedConstant) + slide)
      else if four * powi reducedLinear 3 + twentySeven * reducedConstant * reducedConstant ≤ 0 then
        let radius := two * Fns.sqrt (-reducedLinear / three)
        let cosine := (three * reducedConstant) / (two * reducedLinear)
          * Fns.sqrt (-three / reducedLinear)
        let angle := acos (min (max cosine (-1)) 1)
        (List.range 3).foldl (fun roots (step : ℕ) =>
          let turn := two * Fns.pi * (step : T) / three
          pushRoot 3 roots (radius * Fns.cos (angle / three - turn) + slide)) []
      else
        let halfConstant := -reducedConstant * (1 / two)
        let spread := Fns.sqrt (reducedConstant * reducedConstant / four
          + powi reducedLinear 3 / twentySeven)
        pushRoot 3 [] (Fns.cbrt (halfConstant + spread) + Fns.cbrt (halfConstant - spread) + slide)
    .ok (sortAscending roots)

/-- `Polynomial<5>::real_roots` (`roots.rs:257-320`). -/
def realRoots5 (constant linear quadratic cubic quartic : T) : Except PolynomialError (List T) :=
  match checkRoots [constant, linear, quadratic, cubic, quartic] quartic with
  | .error e => .error e
  | .ok _ =>
    let two : T := ((2 : ℕ) : T)
    let three : T := ((3 : ℕ) : T)
    let four : T := Fns.lit 4
    let eight : T := Fns.lit 8
    let twoHundredFiftySix : T := Fns.lit 256
    let slide := -cubic / (four * quartic)
    let reducedQuadratic :=
      (eight * quartic * quadratic - three * cubic * cubic) / (eight * quartic * quartic)
    let reducedLinear :=
      (cubic * cubic * cubic - four * quartic * cubic * quadratic
        + eight * quartic * quartic * linear) / (eight * quartic * quartic * quartic)
    let reducedConstant :=
      (-three * powi cubic 4 + twoHundredFiftySix * powi quartic 3 * constant
        - Fns.lit 64 * quartic * quartic * cubic * linear
        + Fns.lit 16 * quartic * cubic * cubic * quadratic)
        / (twoHundredFiftySix * powi quartic 4)
    if reducedLinear == 0 then
      match realRoots3 reducedConstant reducedQuadratic 1 with
      | .error e => .error e
      | .ok squares =>
        .ok (sortAscending (squares.foldl (fun roots square =>
          if 0 ≤ square then
            let root := Fns.sqrt square
            pushRoot 4 (pushRoot 4 roots (root + slide)) (-root + slide)
          else roots) []))
    else
      match realRoots4 (-reducedLinear * reducedLinear)
          (two * reducedQuadratic * reducedQuadratic - eight * reducedConstant)
          (eight * reducedQuadratic) eight with
      | .error e => .error e
      | .ok helper =>
        let largest := helper.getLastD 0
        let separation := Fns.sqrt (two * largest)
        let shared := reducedQuadratic * (1 / two) + largest
        let apart := reducedLinear / (two * separation)
        match realRoots3 (shared + apart) (-separation) 1 with
        | .error e => .error e
        | .ok first =>
          match realRoots3 (shared - apart) separation 1 with
          | .error e => .error e
          | .ok second =>
            let roots := first.foldl (fun roots root => pushRoot 4 roots (root + slide)) []
            let roots := second.foldl (fun roots root => pushRoot 4 roots (root + slide)) roots
            .ok (sortAscending roots)

end

/-- The loop of `remainder` (`roots.rs:335-353`). -/
def remainderLoop [Zero T] [Sub T] [Mul T] [Div T] [BEq T] (divisor : List T)
    (divisorDegree : ℕ) (divisorHighest : T) : ℕ → List T → List T
  | 0, working => working
  | power + 1, working =>
    if power + 1 ≤ divisorDegree then working
    else
      let highest := working.getD power 0
      if highest == 0 then remainderLoop divisor divisorDegree divisorHighest power working
      else
        let share := highest / divisorHighest
        remainderLoop divisor divisorDegree divisorHighest power
          ((subtractScaled share (power - divisorDegree) divisor working).set power 0)

/-- `remainder` (`roots.rs:327-355`). -/
def remainder [Zero T] [Sub T] [Mul T] [Div T] [BEq T] (dividend divisor : List T) :
    Option (List T) :=
  (degree divisor).bind fun divisorDegree =>
    divisor[divisorDegree]?.map fun divisorHighest =>
      remainderLoop divisor divisorDegree divisorHighest dividend.length dividend

/-- `sign_changes` (`roots.rs:366-385`), with the sign of the last nonzero value and the count so
far. -/
def signChangesLoop [Zero T] [Add T] [Mul T] [LT T] [DecidableLT T] [BEq T] (point : T) :
    Option Bool → ℕ → List (List T) → ℕ
  | _, changes, [] => changes
  | previous, changes, p :: rest =>
    let value := evaluate p point
    if value == 0 then signChangesLoop point previous changes rest
    else
      let positive := decide (0 < value)
      let changes :=
        match previous with
        | some q => if q != positive then changes + 1 else changes
        | none => changes
      signChangesLoop point (some positive) changes rest

/-- `sign_changes` (`roots.rs:366-385`). -/
def signChanges [Zero T] [Add T] [Mul T] [LT T] [DecidableLT T] [BEq T] (chain : List (List T))
    (point : T) : ℕ :=
  signChangesLoop point none 0 chain

/-- `cauchy_root_bound` (`roots.rs:401-417`). -/
def cauchyRootBound [Zero T] [One T] [Add T] [Div T] [BEq T] [Max T] [Fns T] (p : List T) :
    Except PolynomialError T :=
  if !isFinite p then .error .nonFinite
  else
    match degree p with
    | none => .error .leadingCoefficientZero
    | some d =>
      match p[d]? with
      | none => .error .leadingCoefficientZero
      | some highest =>
        .ok (1 + (p.take d).foldl (fun largest c => max largest (Fns.abs (c / highest))) 0)

/-- The loop of `root_counting_chain` (`roots.rs:450-466`): `previous` and `current` are the last two
entries, `room` the number of slots left; returns the entries appended. -/
def chainLoop [Zero T] [Sub T] [Mul T] [Div T] [Neg T] [BEq T] :
    ℕ → List T → List T → List (List T)
  | 0, _, _ => []
  | room + 1, previous, current =>
    match remainder previous current with
    | none => []
    | some next => if isZero next then [] else neg next :: chainLoop room current (neg next)

/-- `root_counting_chain` (`roots.rs:424-468`).  The array of `COEFFICIENT_COUNT` polynomials and
its used length are the list of the used entries.  For a nonzero polynomial there is at least one
coefficient, so slot 0 exists; for degree at least one there are two, so slot 1 exists.  With degree
zero the Rust loop then reads `chain.get(length - 2)` at `length = 1`, where `1 - 2` underflows when
there is a second slot; see `sturm_constant_panics`. -/
def rootCountingChain [Zero T] [NatCast T] [Sub T] [Mul T] [Div T] [Neg T] [BEq T] [Fns T]
    (p : List T) : Except PolynomialError (Option (List (List T))) :=
  if !isFinite p then .error .nonFinite
  else
    match degree p with
    | none => .error .leadingCoefficientZero
    | some d =>
      if 1 ≤ d then .ok (some (p :: derivative p :: chainLoop (p.length - 2) p (derivative p)))
      else if p.length ≤ 1 then .ok (some [p])
      else .ok none

/-- `count_real_roots` (`roots.rs:487-490`) and the closure `count_between`
(`roots.rs:536-538`): the subtraction saturates at zero. -/
def countBetween [Zero T] [Add T] [Mul T] [LT T] [DecidableLT T] [BEq T] (chain : List (List T))
    (lower upper : T) : ℕ :=
  signChanges chain lower - signChanges chain upper

section
variable [Zero T] [One T] [NatCast T] [Add T] [Sub T] [Mul T] [Div T] [Neg T] [LT T] [LE T]
  [DecidableLT T] [DecidableLE T] [BEq T] [Fns T]

/-- `count_real_roots` (`roots.rs:487-490`); `none` is the panic of `rootCountingChain`. -/
def countRealRoots (p : List T) (lower upper : T) : Except PolynomialError (Option ℕ) :=
  match rootCountingChain p with
  | .error e => .error e
  | .ok none => .ok none
  | .ok (some chain) => .ok (some (countBetween chain lower upper))

/-- The halving loop on a range that holds one root (`roots.rs:561-576`): `remaining` is
`maximum_bisections - steps`.  `none` is running out. -/
def closeIn (chain : List (List T)) (tolerance : T) : ℕ → T → T → Option (T × ℕ)
  | remaining, low, high =>
    if tolerance < high - low then
      match remaining with
      | 0 => none
      | r + 1 =>
        let middle := (low + high) * (1 / ((2 : ℕ) : T))
        if countBetween chain low middle = 1 then closeIn chain tolerance r low middle
        else closeIn chain tolerance r middle high
    else some ((low + high) * (1 / ((2 : ℕ) : T)), remaining)

omit [Zero T] [One T] [NatCast T] [Add T] [Sub T] [Mul T] [Div T] [Neg T] [LT T] [LE T]
  [DecidableLT T] [DecidableLE T] [BEq T] [Fns T] in
theorem closeIn_remaining [Zero T] [One T] [NatCast T] [Add T] [Sub T] [Mul T] [Div T] [LT T]
    [DecidableLT T] [BEq T] (chain : List (List T)) (tolerance : T) :
    ∀ (remaining : ℕ) (low high root : T) (left : ℕ),
      closeIn chain tolerance remaining low high = some (root, left) → left ≤ remaining := by
  intro remaining
  induction remaining with
  | zero =>
    intro low high root left h
    rw [closeIn] at h
    split at h
    · cases h
    · cases h; exact le_rfl
  | succ r ih =>
    intro low high root left h
    rw [closeIn] at h
    split at h
    · dsimp only at h
      split at h
      · exact (ih _ _ _ _ h).trans (Nat.le_succ r)
      · exact (ih _ _ _ _ h).trans (Nat.le_succ r)
    · cases h; exact le_rfl

/-- `add_range` (`roots.rs:358-363`) on the stack of pending ranges, most recent first: a range past
the capacity is dropped. -/
def addRange (capacity : ℕ) (pending : List (T × T)) (range : T × T) : List (T × T) :=
  if pending.length < capacity then range :: pending else pending

/-- The loop of `real_roots_in` (`roots.rs:551-597`); `none` is `DidNotConverge`. -/
def separate (chain : List (List T)) (tolerance : T) (capacity : ℕ) (remaining : ℕ)
    (pending : List (T × T)) (roots : List T) : Option (List T) :=
  match pending with
  | [] => some roots
  | (low, high) :: rest =>
    if countBetween chain low high = 1 then
      match h : closeIn chain tolerance remaining low high with
      | none => none
      | some (root, left) =>
        separate chain tolerance capacity left rest (pushRoot capacity roots root)
    else
      match remaining with
      | 0 => none
      | r + 1 =>
        let middle := (low + high) * (1 / ((2 : ℕ) : T))
        let rest := if 0 < countBetween chain low middle then addRange capacity rest (low, middle)
          else rest
        let rest := if 0 < countBetween chain middle high then addRange capacity rest (middle, high)
          else rest
        separate chain tolerance capacity r rest roots
termination_by (remaining, pending.length)
decreasing_by
  · have := closeIn_remaining chain tolerance _ _ _ _ _ h
    rcases Nat.lt_or_eq_of_le this with h1 | h1
    · exact Prod.Lex.left _ _ h1
    · rw [h1]; exact Prod.Lex.right _ (by simp)
  · exact Prod.Lex.left _ _ (Nat.lt_succ_self r)

/-- `real_roots_in` (`roots.rs:518-600`).  The `steps` reported with `DidNotConverge` are the whole
budget; `none` is the panic of `rootCountingChain`. -/
def realRootsIn (p : List T) (lower upper tolerance : T) (maximumBisections : ℕ) :
    Except PolynomialError (Option (List T)) :=
  if !Fns.isFinite lower || !Fns.isFinite upper || !Fns.isFinite tolerance then .error .nonFinite
  else if tolerance ≤ 0 then .error .toleranceNotPositive
  else if upper < lower then .error .rangeReversed
  else
    match rootCountingChain p with
    | .error e => .error e
    | .ok none => .ok none
    | .ok (some chain) =>
      let pending := if 0 < countBetween chain lower upper
        then addRange p.length [] (lower, upper) else []
      match separate chain tolerance p.length maximumBisections pending [] with
      | none => .error (.didNotConverge maximumBisections)
      | some roots => .ok (some (sortAscending roots))

end

end Poly
end Multicalc
