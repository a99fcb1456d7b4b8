import Verif.Model.Autodiff
import Verif.Model.LinearAlgebra
import Verif.Model.Summation
import Verif.Model.Spatial

/-!
# Linear and quadratic approximation

`crates/multicalc/src/approximation`.  The differentiator is given by its first and second partial
derivatives at the expansion point.
-/

namespace Multicalc

/-- The five numbers of `compute_metrics` (`approximation/mod.rs:33`). -/
structure ApproxMetrics (T : Type) where
  meanAbsoluteError : T
  meanSquaredError : T
  rootMeanSquaredError : T
  rSquared : T
  adjustedRSquared : T

/-- `LinearApproximation` (`linear_approximation.rs:11-16`). -/
structure LinearApprox (n : ℕ) (T : Type) where
  point : Fin n → T
  value : T
  gradient : Fin n → T
  summation : SummationMethod

/-- `QuadraticApproximation` (`quadratic_approximation.rs:12-18`). -/
structure QuadraticApprox (n : ℕ) (T : Type) where
  point : Fin n → T
  value : T
  gradient : Fin n → T
  hessian : Fin n → Fin n → T
  summation : SummationMethod

section
variable {T : Type} [Zero T] [One T] [NatCast T] [Add T] [Sub T] [Mul T] [Div T] [LE T]
  [DecidableLE T] [BEq T] [Fns T] {n : ℕ}

/-- `compute_metrics` (`approximation/mod.rs:27-77`). -/
def computeMetrics (predict original : (Fin n → T) → T) (points : List (Fin n → T))
    (numPredictors : ℕ) (summation : SummationMethod) : ApproxMetrics T :=
  let count : T := ((points.length : ℕ) : T)
  let meanY := accSum summation (points.map original) / count
  let sumAbs := accSum summation (points.map fun p => Fns.abs (predict p - original p))
  let ssRes := accSum summation
    (points.map fun p => (predict p - original p) * (predict p - original p))
  let ssTot := accSum summation (points.map fun p => (original p - meanY) * (original p - meanY))
  let mse := ssRes / count
  let rSquared := if ssTot == 0 then Fns.nan else 1 - ssRes / ssTot
  let denominator := count - ((numPredictors : ℕ) : T) - 1
  ⟨sumAbs / count, mse, Fns.sqrt mse, rSquared,
    if denominator ≤ 0 then Fns.nan else 1 - (1 - rSquared) * (count - 1) / denominator⟩

/-- `LinearApproximation::predict` (`linear_approximation.rs:37-40`). -/
def LinearApprox.predict (a : LinearApprox n T) (x : Fin n → T) : T :=
  a.value + vdot a.gradient (vsub x a.point)

/-- `LinearApproximation::intercept` (`linear_approximation.rs:57-63`). -/
def LinearApprox.intercept (a : LinearApprox n T) : T :=
  (List.finRange n).foldl (fun acc i => acc - a.gradient i * a.point i) a.value

/-- `LinearApproximation::prediction_metrics` (`linear_approximation.rs:74-94`). -/
def LinearApprox.metrics (a : LinearApprox n T) (points : List (Fin n → T))
    (original : (Fin n → T) → T) : ApproxMetrics T :=
  computeMetrics a.predict original points n a.summation

/-- The gradient loop (`linear_approximation.rs:174-179`, `quadratic_approximation.rs:174-179`). -/
def approxGradient (partial1 : Fin n → Except DiffError T) : Except DiffError (Fin n → T) :=
  (List.finRange n).foldlM (fun g i => do
    let d ← partial1 i
    pure (Function.update g i d)) fun _ => 0

/-- `LinearApproximator::approximate` (`linear_approximation.rs:167-187`). -/
def linearApproximate (summation : SummationMethod) (function : (Fin n → T) → T)
    (partial1 : Fin n → Except DiffError T) (point : Fin n → T) :
    Except DiffError (LinearApprox n T) := do
  let gradient ← approxGradient partial1
  pure ⟨point, function point, gradient, summation⟩

/-- `QuadraticApproximation::predict` (`quadratic_approximation.rs:40-44`). -/
def QuadraticApprox.predict (a : QuadraticApprox n T) (x : Fin n → T) : T :=
  let dx := vsub x a.point
  a.value + vdot a.gradient dx + half * vdot (mmulVec a.hessian dx) dx

/-- `QuadraticApproximation::prediction_metrics` (`quadratic_approximation.rs:73-93`). -/
def QuadraticApprox.metrics (a : QuadraticApprox n T) (points : List (Fin n → T))
    (original : (Fin n → T) → T) : ApproxMetrics T :=
  computeMetrics a.predict original points (n + n * (n + 1) / 2) a.summation

/-- `QuadraticApproximator::approximate` (`quadratic_approximation.rs:167-203`); the Hessian loop is the
one of `Hessian::evaluate`. -/
def quadraticApproximate (summation : SummationMethod) (function : (Fin n → T) → T)
    (partial1 : Fin n → Except DiffError T) (partial2 : Fin n → Fin n → Except DiffError T)
    (point : Fin n → T) : Except DiffError (QuadraticApprox n T) := do
  let gradient ← approxGradient partial1
  let hessian ← hessianEvaluate partial2
  pure ⟨point, function point, gradient, hessian, summation⟩

end

end Multicalc
