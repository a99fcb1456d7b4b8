import Verif.Model.Scalar

/-!
# Scalar root finding

Models `root_finding/mod.rs`, `bisection.rs`, `brent.rs`, `newton.rs`.
-/

namespace Multicalc
variable {T : Type}

/-- `enum SolveError`, `error.rs:74-91`; the wrapped errors keep no payload except singularity. -/
inductive SolveError
  | nonFinite
  | invalidBracket
  | didNotConverge (iters : ℕ)
  | singular
  | linalg
  | diff
  deriving DecidableEq

/-- `enum RootTermination`, `root_finding/mod.rs:26-33`. -/
inductive RootTermination
  | residualTolerance
  | stepTolerance
  | bracketWidth
  deriving DecidableEq

/-- `struct RootReport`, `root_finding/mod.rs:38-47`. -/
structure RootReport (T : Type) where
  root : T
  residual : T
  iterations : ℕ
  termination : RootTermination

/-- `same_sign`, `root_finding/mod.rs:68-70`. -/
def sameSign [Zero T] [LE T] [DecidableLE T] (a b : T) : Bool :=
  decide (0 ≤ a) == decide (0 ≤ b)

section bisection
variable [Zero T] [One T] [NatCast T] [Add T] [Sub T] [Mul T] [Div T] [LE T] [DecidableLE T]
  [BEq T] [Fns T]

/-- The loop of `Bisection::solve`, `bisection.rs:121-151`.  `fuel` counts the iterations left,
`iter` is the loop variable. -/
def bisectLoop (f : T → T) (xtol ftol : T) : (fuel iter : ℕ) → (lower vLower upper : T) →
    Except SolveError (RootReport T)
  | 0, iter, _, _, _ => .error (.didNotConverge (iter - 1))
  | fuel + 1, iter, lower, vLower, upper =>
    let mid := lower + (upper - lower) * (1 / 2)
    let fmid := f mid
    if !Fns.isFinite fmid then .error .nonFinite
    else if Fns.abs fmid ≤ ftol then .ok ⟨mid, fmid, iter, .residualTolerance⟩
    else if upper - lower ≤ xtol * (1 + Fns.abs mid) then .ok ⟨mid, fmid, iter, .bracketWidth⟩
    else if sameSign fmid vLower then bisectLoop f xtol ftol fuel (iter + 1) mid fmid upper
    else bisectLoop f xtol ftol fuel (iter + 1) lower vLower mid

/-- `Bisection::solve`, `bisection.rs:86-156`.  The closure `f` is a function of the scalar. -/
def bisectionSolve (xtol ftol : T) (maxIterations : ℕ) (f : T → T) (a b : T) :
    Except SolveError (RootReport T) :=
  let va := f a
  let vb := f b
  if !Fns.isFinite va || !Fns.isFinite vb then .error .nonFinite
  else if va == 0 then .ok ⟨a, va, 0, .residualTolerance⟩
  else if vb == 0 then .ok ⟨b, vb, 0, .residualTolerance⟩
  else if sameSign va vb then .error .invalidBracket
  else if a ≤ b then bisectLoop f xtol ftol maxIterations 1 a va b
  else bisectLoop f xtol ftol maxIterations 1 b vb a

end bisection

section brent
variable [Zero T] [One T] [NatCast T] [Add T] [Sub T] [Mul T] [Div T] [LT T] [DecidableLT T] [LE T]
  [DecidableLE T] [BEq T] [Fns T]

/-- `inverse_quadratic_interpolation`, `brent.rs:233-245`. -/
def inverseQuadratic (a fa b fb c fc : T) : T :=
  a * fb * fc / ((fa - fb) * (fa - fc)) + b * fa * fc / ((fb - fa) * (fb - fc)) +
    c * fa * fb / ((fc - fa) * (fc - fb))

/-- The local variables of `Brent::solve`, `brent.rs:112-123`. -/
structure BrentState (T : Type) where
  a : T
  fa : T
  b : T
  fb : T
  c : T
  fc : T
  prevStep : T
  mflag : Bool

/-- The swap of `brent.rs:115-118` and `197-200`. -/
def brentSwap (s : BrentState T) : BrentState T :=
  if Fns.abs s.fa < Fns.abs s.fb then { s with a := s.b, fa := s.fb, b := s.a, fb := s.fa } else s

/-- The convergence test of `brent.rs:126-145` and `203-221`. -/
def brentTest (xtol ftol : T) (iter : ℕ) (s : BrentState T) : Option (RootReport T) :=
  let tol := xtol * (1 + Fns.abs s.b)
  let midpoint := (s.a - s.b) * (1 / 2)
  if Fns.abs s.fb ≤ ftol then some ⟨s.b, s.fb, iter, .residualTolerance⟩
  else if Fns.abs midpoint ≤ tol ∨ Fns.abs (s.b - s.a) ≤ tol then
    some ⟨s.b, s.fb, iter, .bracketWidth⟩
  else none

/-- The trial point and the new flag, `brent.rs:147-178`. -/
def brentTrial (xtol : T) (s : BrentState T) : T × Bool :=
  let tol := xtol * (1 + Fns.abs s.b)
  let trial :=
    if s.fa != s.fc && s.fb != s.fc then inverseQuadratic s.a s.fa s.b s.fb s.c s.fc
    else s.b - s.fb * (s.b - s.a) / (s.fb - s.fa)
  let bound1 := s.a * (1 / 2) * (1 / 2) * 3 + s.b * (1 / 2) * (1 / 2)
  let minB := if bound1 ≤ s.b then bound1 else s.b
  let maxB := if bound1 ≤ s.b then s.b else bound1
  let condition1 := decide (trial < minB) || decide (maxB < trial)
  let condition2 := s.mflag && decide (Fns.abs (s.b - s.c) * (1 / 2) ≤ Fns.abs (trial - s.b))
  let condition3 := !s.mflag &&
    decide (Fns.abs (s.c - s.prevStep) * (1 / 2) ≤ Fns.abs (trial - s.b))
  let condition4 := s.mflag && decide (Fns.abs (s.b - s.c) < tol)
  let condition5 := !s.mflag && decide (Fns.abs (s.c - s.prevStep) < tol)
  if !Fns.isFinite trial || condition1 || condition2 || condition3 || condition4 || condition5 then
    (s.a * (1 / 2) + s.b * (1 / 2), true)
  else (trial, false)

/-- The state after a trial, `brent.rs:185-200`. -/
def brentUpdate (s : BrentState T) (trial fTrial : T) (mflag : Bool) : BrentState T :=
  let s : BrentState T := { s with prevStep := s.c, c := s.b, fc := s.fb, mflag := mflag }
  let s := if sameSign s.fa fTrial then { s with a := trial, fa := fTrial }
    else { s with b := trial, fb := fTrial }
  brentSwap s

/-- The loop of `Brent::solve`, `brent.rs:125-222`. -/
def brentLoop (f : T → T) (xtol ftol : T) : (fuel iter : ℕ) → BrentState T →
    Except SolveError (RootReport T)
  | 0, iter, _ => .error (.didNotConverge (iter - 1))
  | fuel + 1, iter, s =>
    match brentTest xtol ftol (iter - 1) s with
    | some r => .ok r
    | none =>
      let t := brentTrial xtol s
      let ft := f t.1
      if !Fns.isFinite ft then .error .nonFinite
      else
        let s := brentUpdate s t.1 ft t.2
        match brentTest xtol ftol iter s with
        | some r => .ok r
        | none => brentLoop f xtol ftol fuel (iter + 1) s

/-- `Brent::solve`, `brent.rs:85-227`. -/
def brentSolve (xtol ftol : T) (maxIterations : ℕ) (f : T → T) (a b : T) :
    Except SolveError (RootReport T) :=
  let fa := f a
  let fb := f b
  if !Fns.isFinite fa || !Fns.isFinite fb then .error .nonFinite
  else if fa == 0 then .ok ⟨a, fa, 0, .residualTolerance⟩
  else if fb == 0 then .ok ⟨b, fb, 0, .residualTolerance⟩
  else if sameSign fa fb then .error .invalidBracket
  else
    let s := brentSwap ⟨a, fa, b, fb, a, fa, b - a, true⟩
    brentLoop f xtol ftol maxIterations 1
      { s with c := s.a, fc := s.fa, prevStep := s.b - s.a }

end brent

section newton
variable [Zero T] [One T] [NatCast T] [Add T] [Sub T] [Mul T] [Div T] [LT T] [DecidableLT T] [LE T]
  [DecidableLE T] [BEq T] [Fns T]

/-- The inner loop of `Newton::solve`, `newton.rs:160-179`; `left` is `MAX_BACKTRACK - tries`. -/
def newtonBacktrack (f : T → T) (backtracking : Bool) (x residual step : T) :
    (left : ℕ) → (alpha : T) → Except SolveError (T × T)
  | left, alpha =>
    let candidate := x - alpha * step
    let trial := f candidate
    if !backtracking then
      if !Fns.isFinite trial then .error .nonFinite else .ok (candidate, trial)
    else if (Fns.isFinite trial && decide (Fns.abs trial < Fns.abs residual)) || left == 0 then
      if !Fns.isFinite trial then .error .nonFinite else .ok (candidate, trial)
    else
      match left with
      | 0 => .error .nonFinite  -- not reached: `left == 0` was handled above
      | left + 1 => newtonBacktrack f backtracking x residual step left (alpha * (1 / 2))

/-- The loop of `Newton::solve`, `newton.rs:138-193`.  The derivator is a function that may fail. -/
def newtonLoop (f : T → T) (deriv : T → Except SolveError T) (xtol ftol : T) (backtracking : Bool) :
    (fuel iter : ℕ) → (x residual : T) → Except SolveError (RootReport T)
  | 0, iter, _, _ => .error (.didNotConverge (iter - 1))
  | fuel + 1, iter, x, residual =>
    if Fns.abs residual ≤ ftol then .ok ⟨x, residual, iter, .residualTolerance⟩
    else
      match deriv x with
      | .error e => .error e
      | .ok derivative =>
        if !Fns.isFinite derivative then .error .nonFinite
        else if derivative == 0 then .error .singular
        else
          match newtonBacktrack f backtracking x residual (residual / derivative) 20 1 with
          | .error e => .error e
          | .ok (xNew, residualNew) =>
            if Fns.abs (xNew - x) ≤ xtol * (1 + Fns.abs xNew) then
              .ok ⟨xNew, residualNew, iter, .stepTolerance⟩
            else newtonLoop f deriv xtol ftol backtracking fuel (iter + 1) xNew residualNew

/-- `Newton::solve`, `newton.rs:124-198`. -/
def newtonSolve (xtol ftol : T) (maxIterations : ℕ) (backtracking : Bool) (f : T → T)
    (deriv : T → Except SolveError T) (x₀ : T) : Except SolveError (RootReport T) :=
  let residual := f x₀
  if !Fns.isFinite residual then .error .nonFinite
  else newtonLoop f deriv xtol ftol backtracking maxIterations 1 x₀ residual

end newton
end Multicalc
