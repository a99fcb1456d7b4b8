import Verif.Model.LinearAlgebra

/-!
# Lyapunov and Riccati equations, linear-quadratic feedback

Model of `crates/multicalc/src/linear_algebra/{lyapunov,riccati}.rs` and
`crates/multicalc/src/control/lqr.rs`.
-/

namespace Multicalc

variable {T : Type} {n m : ℕ}

section
variable [Zero T] [One T] [NatCast T] [Add T] [Sub T] [Mul T] [Div T] [Neg T] [LT T] [DecidableLT T]
  [LE T] [DecidableLE T] [BEq T] [Max T] [Min T] [Fns T]

/-- The passes of `solve_discrete_lyapunov` (`lyapunov.rs:60-90`): `remaining` passes are left.  The
averaging loop (`lyapunov.rs:65-71`) is `symmetrized`. -/
def lyapunovLoop : ℕ → Matrix (Fin n) (Fin n) T → Matrix (Fin n) (Fin n) T →
    Except LinalgError (Matrix (Fin n) (Fin n) T)
  | 0, _, _ => .error .didNotConverge
  | remaining + 1, total, power =>
    let increment := mmul (mmul (mtranspose power) total) power
    let total := symmetrized (madd total increment)
    let incrementSize := frobeniusNorm increment
    let totalSize := frobeniusNorm total
    if !mIsFinite total || !Fns.isFinite incrementSize || !Fns.isFinite totalSize then
      .error .didNotConverge
    else if incrementSize ≤ epsilonX30 * max totalSize 1 then .ok total
    else lyapunovLoop remaining total (mmul power power)

/-- `solve_discrete_lyapunov` (`lyapunov.rs:46-91`). -/
def solveLyapunov (a stateCost : Matrix (Fin n) (Fin n) T) :
    Except LinalgError (Matrix (Fin n) (Fin n) T) :=
  if !mIsFinite a || !mIsFinite stateCost then .error .nonFinite
  else if !isSymmetric stateCost then .error .notSymmetric
  else lyapunovLoop 64 stateCost a

/-- The passes of `solve_discrete_riccati` (`riccati.rs:74-107`); the result is `cost`.  Running out
of passes leaves the loop with the last `cost`. -/
def riccatiLoop (largest : T) : ℕ → Matrix (Fin n) (Fin n) T → Matrix (Fin n) (Fin n) T →
    Matrix (Fin n) (Fin n) T → Except LinalgError (Matrix (Fin n) (Fin n) T)
  | 0, _, cost, _ => .ok cost
  | remaining + 1, state, cost, reach =>
    match minverse largest (madd (midentity n) (mmul reach cost)) with
    | .error e => .error e
    | .ok coupling =>
      let folded := mmul coupling state
      let costIncrement := mmul (mmul (mtranspose state) cost) folded
      let reachIncrement := mmul (mmul state (mmul coupling reach)) (mtranspose state)
      let state' := mmul state folded
      let cost' := symmetrized (madd cost costIncrement)
      let reach' := symmetrized (madd reach reachIncrement)
      let incrementSize := frobeniusNorm costIncrement
      let costSize := frobeniusNorm cost'
      if !mIsFinite cost' || !mIsFinite reach' || !mIsFinite state' || !Fns.isFinite incrementSize
          || !Fns.isFinite costSize then .error .didNotConverge
      else if incrementSize ≤ epsilonX30 * max costSize 1 then .ok cost'
      else riccatiLoop largest remaining state' cost' reach'

/-- What is left over when the answer is put back into the equation (`riccati.rs:110-115`). -/
def riccatiResidual (a : Matrix (Fin n) (Fin n) T) (b : Matrix (Fin n) (Fin m) T)
    (stateCost cost : Matrix (Fin n) (Fin n) T) (factor : Matrix (Fin m) (Fin m) T) :
    Matrix (Fin n) (Fin n) T :=
  let couplingTerm := mmul (mmul (mtranspose b) cost) a
  let correction := mmul (mtranspose couplingTerm) (choleskySolveMatrix factor couplingTerm)
  madd (msub (msub (mmul (mmul (mtranspose a) cost) a) cost) correction) stateCost

/-- `solve_discrete_riccati` (`riccati.rs:52-127`). -/
def solveRiccati (largest : T) (a : Matrix (Fin n) (Fin n) T) (b : Matrix (Fin n) (Fin m) T)
    (stateCost : Matrix (Fin n) (Fin n) T) (inputCost : Matrix (Fin m) (Fin m) T) :
    Except LinalgError (Matrix (Fin n) (Fin n) T) :=
  if !mIsFinite a || !mIsFinite b || !mIsFinite stateCost || !mIsFinite inputCost then
    .error .nonFinite
  else if !isSymmetric stateCost || !isSymmetric inputCost then .error .notSymmetric
  else match cholesky inputCost with
  | .error e => .error e
  | .ok inputFactor =>
    match riccatiLoop largest 64 a stateCost (mmul b (choleskySolveMatrix inputFactor (mtranspose b))) with
    | .error e => .error e
    | .ok cost =>
      match cholesky (madd inputCost (mmul (mmul (mtranspose b) cost) b)) with
      | .error e => .error e
      | .ok factor =>
        let residual := riccatiResidual a b stateCost cost factor
        let allowed := Fns.sqrt Fns.epsilon * max (frobeniusNorm cost) 1
        if !mIsFinite residual || decide (allowed < frobeniusNorm residual) then
          .error .didNotConverge
        else .ok cost

/-- `Lqr` (`lqr.rs:43-48`). -/
structure Lqr (n m : ℕ) (T : Type) where
  gain : Matrix (Fin m) (Fin n) T
  closedLoop : Matrix (Fin n) (Fin n) T
  costToGo : Matrix (Fin n) (Fin n) T
  stateCost : Matrix (Fin n) (Fin n) T

/-- `Lqr::new` (`lqr.rs:69-91`). -/
def Lqr.new (largest : T) (a : Matrix (Fin n) (Fin n) T) (b : Matrix (Fin n) (Fin m) T)
    (stateCost : Matrix (Fin n) (Fin n) T) (inputCost : Matrix (Fin m) (Fin m) T) :
    Except LinalgError (Lqr n m T) :=
  match solveRiccati largest a b stateCost inputCost with
  | .error e => .error e
  | .ok cost =>
    let inputWeight := madd inputCost (mmul (mmul (mtranspose b) cost) b)
    let coupling := mmul (mmul (mtranspose b) cost) a
    match cholesky inputWeight with
    | .error e => .error e
    | .ok factor =>
      let gain := choleskySolveMatrix factor coupling
      .ok ⟨gain, msub a (mmul b gain), cost, stateCost⟩

/-- `Lqr::control` (`lqr.rs:114-116`). -/
def Lqr.control (l : Lqr n m T) (state : Fin n → T) : Fin m → T := vneg (mmulVec l.gain state)

/-- `Lqr::control_tracking` (`lqr.rs:124-131`). -/
def Lqr.controlTracking (l : Lqr n m T) (state reference : Fin n → T) (feedforward : Fin m → T) :
    Fin m → T := vsub feedforward (mmulVec l.gain (vsub state reference))

/-- `Lqr::certify_stability` (`lqr.rs:150-155`). -/
def Lqr.certifyStability (l : Lqr n m T) : Except LinalgError (Matrix (Fin n) (Fin n) T) :=
  match solveLyapunov l.closedLoop l.stateCost with
  | .error e => .error e
  | .ok certificate =>
    match cholesky certificate with
    | .error e => .error e
    | .ok _ => .ok certificate

end

end Multicalc
