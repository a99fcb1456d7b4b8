import Verif.Model.Optimization
import Verif.Model.RootFinding

/-!
# Newton's method for square systems

Model of `crates/multicalc/src/root_finding/newton_system.rs`.  The function and its Jacobian are arguments.
-/

namespace Multicalc

variable {T : Type} [Zero T] [One T] [NatCast T] [Add T] [Sub T] [Neg T] [Mul T] [Div T] [LT T] [LE T] [BEq T]
  [DecidableLT T] [DecidableLE T] [Max T] [Min T] [Fns T] {n : ℕ}

/-- `RootReportN`, `root_finding/mod.rs:52-61`. -/
structure RootReportN (n : ℕ) (T : Type) where
  root : Fin n → T
  residualNorm : T
  iterations : ℕ
  termination : RootTermination

/-- `NewtonSystem`, `newton_system.rs:46-52`, without the derivator. -/
structure NewtonSystem (T : Type) where
  xtol : T
  ftol : T
  maxIterations : ℕ
  backtracking : Bool

/-- `NewtonSystem::from_derivator`, `newton_system.rs:77-86`. -/
def NewtonSystem.default : NewtonSystem T :=
  let tol := ((30 : ℕ) : T) * Fns.epsilon
  ⟨tol, tol, 100, false⟩

namespace NewtonSystem

/-- The inner loop of `solve`, `newton_system.rs:167-194`: the factor and the point taken, or nothing when the
function is not finite there.  `left` is `MAX_BACKTRACK - tries`. -/
def lineSearch (minPositive largest : T) (backtracking : Bool) (f : (Fin n → T) → Fin n → T) (x step : Fin n → T)
    (fnorm : T) : ℕ → T → Option (T × (Fin n → T))
  | left, alpha =>
    let candidate : Fin n → T := fun k => x k + alpha * step k
    let trial := f candidate
    let finite := allFinite trial
    if !backtracking then if finite then some (alpha, candidate) else none
    else if finite && decide (arrayNorm minPositive largest trial < fnorm) then some (alpha, candidate)
    else
      match left with
      | 0 => if finite then some (alpha, candidate) else none
      | left + 1 => lineSearch minPositive largest backtracking f x step fnorm left (alpha * (1 / ((2 : ℕ) : T)))

/-- The loop of `solve`, `newton_system.rs:145-214`: `left` passes are left and `iter` is the loop variable. -/
def loop (minPositive largest : T) (s : NewtonSystem T) (f : (Fin n → T) → Fin n → T)
    (jacobian : (Fin n → T) → Except MinimizeError (Matrix (Fin n) (Fin n) T)) :
    (left iter : ℕ) → (x residual : Fin n → T) → (fnorm : T) → Except MinimizeError (RootReportN n T)
  | 0, _, _, _, _ => .error (.didNotConverge s.maxIterations)
  | left + 1, iter, x, residual, fnorm =>
    if fnorm ≤ s.ftol then .ok ⟨x, fnorm, iter, .residualTolerance⟩
    else
      match jacobian x with
      | .error e => .error e
      | .ok j =>
        if !matrixFinite j then .error .nonFinite
        else
          match msolve largest j fun i => -residual i with
          | .error e => .error (.linalg e)
          | .ok step =>
            match lineSearch minPositive largest s.backtracking f x step fnorm 20 1 with
            | none => .error .nonFinite
            | some (alpha, xNew) =>
              let stepNorm := alpha * arrayNorm minPositive largest step
              let xnorm := arrayNorm minPositive largest xNew
              let residual := f xNew
              let fnorm := arrayNorm minPositive largest residual
              if stepNorm ≤ s.xtol * (1 + xnorm) then .ok ⟨xNew, fnorm, iter, .stepTolerance⟩
              else loop minPositive largest s f jacobian left (iter + 1) xNew residual fnorm

/-- `NewtonSystem::solve`, `newton_system.rs:124-215`. -/
def solve (minPositive largest : T) (s : NewtonSystem T) (f : (Fin n → T) → Fin n → T)
    (jacobian : (Fin n → T) → Except MinimizeError (Matrix (Fin n) (Fin n) T)) (initialGuess : Fin n → T) :
    Except MinimizeError (RootReportN n T) :=
  let residual := f initialGuess
  if !allFinite residual then .error .nonFinite
  else
    let fnorm := arrayNorm minPositive largest residual
    loop minPositive largest s f jacobian s.maxIterations 1 initialGuess residual fnorm

end NewtonSystem
end Multicalc
