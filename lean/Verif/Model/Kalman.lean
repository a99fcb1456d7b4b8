import Verif.Model.LinearAlgebra
import Verif.Model.Ode
import Verif.Model.Autodiff

/-!
# Kalman filters

Models `crates/multicalc/src/estimation/{kalman_filter,extended_kalman_filter}.rs`.  A call that changes the filter
and may fail returns the filter as the call leaves it, together with its verdict.
-/

namespace Multicalc

/-- `EstimationError`, `error.rs:150-164`. -/
inductive EstimationError where
  | notPositiveDefinite
  | nonFinite
  | diff (e : DiffError)
  | weightsDegenerate
  | invalidTuning
  | stateIndexOutOfRange

/-- `CovarianceUpdate`, `kalman_filter.rs:20-29`. -/
inductive CovarianceUpdate where
  | joseph
  | naive

/-- `KalmanFilter`, `kalman_filter.rs:101-112`. -/
structure KalmanFilter (n m : ℕ) (T : Type) where
  state : Fin n → T
  covariance : Matrix (Fin n) (Fin n) T
  stateTransition : Matrix (Fin n) (Fin n) T
  measurementModel : Matrix (Fin m) (Fin n) T
  processNoise : Matrix (Fin n) (Fin n) T
  measurementNoise : Matrix (Fin m) (Fin m) T
  innovation : Fin m → T
  innovationCovariance : Matrix (Fin m) (Fin m) T
  covarianceUpdate : CovarianceUpdate

section
variable {T : Type} [Zero T] [One T] [Add T] [Sub T] [Mul T] [Div T] [LE T] [DecidableLE T] [Fns T] {n m : ℕ}

/-- `F·P·Fᵀ + Q`, `kalman_filter.rs:238-242` and `extended_kalman_filter.rs:258-259`. -/
def predictedCovariance (F P Q : Matrix (Fin n) (Fin n) T) : Matrix (Fin n) (Fin n) T :=
  madd (mmul (mmul F P) (mtranspose F)) Q

/-- The innovation covariance, `kalman_filter.rs:261-263` and `extended_kalman_filter.rs:350-352`. -/
def innovationCov (H : Matrix (Fin m) (Fin n) T) (P : Matrix (Fin n) (Fin n) T) (R : Matrix (Fin m) (Fin m) T) :
    Matrix (Fin m) (Fin m) T :=
  madd (mmul (mmul H P) (mtranspose H)) R

/-- The gain, `kalman_filter.rs:271-277` and `extended_kalman_filter.rs:360-366`. -/
def kalmanGain (H : Matrix (Fin m) (Fin n) T) (P : Matrix (Fin n) (Fin n) T) (lower : Matrix (Fin m) (Fin m) T) :
    Matrix (Fin n) (Fin m) T :=
  mtranspose (choleskySolveMatrix lower (mmul H (mtranspose P)))

/-- The new covariance, `kalman_filter.rs:281-289` and `extended_kalman_filter.rs:370-378`. -/
def updatedCovariance (form : CovarianceUpdate) (H : Matrix (Fin m) (Fin n) T) (P : Matrix (Fin n) (Fin n) T)
    (R : Matrix (Fin m) (Fin m) T) (K : Matrix (Fin n) (Fin m) T) : Matrix (Fin n) (Fin n) T :=
  let residual := msub (midentity n) (mmul K H)
  match form with
  | .joseph => madd (mmul (mmul residual P) (mtranspose residual)) (mmul (mmul K R) (mtranspose K))
  | .naive => mmul residual P

namespace KalmanFilter

/-- `KalmanFilter::new`, `kalman_filter.rs:121-149`. -/
def new (state : Fin n → T) (covariance F : Matrix (Fin n) (Fin n) T) (H : Matrix (Fin m) (Fin n) T)
    (Q : Matrix (Fin n) (Fin n) T) (R : Matrix (Fin m) (Fin m) T) : KalmanFilter n m T :=
  ⟨state, covariance, F, H, Q, R, fun _ => 0, fun _ _ => 0, .joseph⟩

/-- `KalmanFilter::predict`, `kalman_filter.rs:222-225`. -/
def predict (f : KalmanFilter n m T) : KalmanFilter n m T :=
  { f with state := mmulVec f.stateTransition f.state
           covariance := predictedCovariance f.stateTransition f.covariance f.processNoise }

/-- `KalmanFilter::predict_with_control`, `kalman_filter.rs:229-236`. -/
def predictWithControl {c : ℕ} (f : KalmanFilter n m T) (controlModel : Matrix (Fin n) (Fin c) T)
    (controlInput : Fin c → T) : KalmanFilter n m T :=
  { f with state := vadd (mmulVec f.stateTransition f.state) (mmulVec controlModel controlInput)
           covariance := predictedCovariance f.stateTransition f.covariance f.processNoise }

/-- `KalmanFilter::update`, `kalman_filter.rs:252-292`. -/
def update (f : KalmanFilter n m T) (measurement : Fin m → T) : KalmanFilter n m T × Except EstimationError Unit :=
  if !vIsFinite measurement then (f, .error .nonFinite)
  else
    let f := { f with
      innovation := vsub measurement (mmulVec f.measurementModel f.state)
      innovationCovariance := innovationCov f.measurementModel f.covariance f.measurementNoise }
    if !mIsFinite f.innovationCovariance then (f, .error .nonFinite)
    else
      match cholesky f.innovationCovariance with
      | .error _ => (f, .error .notPositiveDefinite)
      | .ok lower =>
        let gain := kalmanGain f.measurementModel f.covariance lower
        ({ f with
            state := vadd f.state (mmulVec gain f.innovation)
            covariance := updatedCovariance f.covarianceUpdate f.measurementModel f.covariance
              f.measurementNoise gain }, .ok ())

/-- `normalized_innovation_squared`, `kalman_filter.rs:320-327` and `extended_kalman_filter.rs:409-416`. -/
def normalizedInnovationSquared (f : KalmanFilter n m T) : Except EstimationError T :=
  match cholesky f.innovationCovariance with
  | .error _ => .error .notPositiveDefinite
  | .ok lower => .ok (vdot f.innovation (choleskySolve lower f.innovation))

end KalmanFilter

/-- `ExtendedKalmanFilter`, `extended_kalman_filter.rs:94-109`; the differentiator is a parameter of the calls. -/
structure ExtendedKalmanFilter (n m : ℕ) (T : Type) where
  state : Fin n → T
  covariance : Matrix (Fin n) (Fin n) T
  processNoise : Matrix (Fin n) (Fin n) T
  measurementNoise : Matrix (Fin m) (Fin m) T
  innovation : Fin m → T
  innovationCovariance : Matrix (Fin m) (Fin m) T
  covarianceUpdate : CovarianceUpdate

namespace ExtendedKalmanFilter

/-- `from_derivator`, `extended_kalman_filter.rs:142-171`. -/
def fromDerivator (state : Fin n → T) (covariance Q : Matrix (Fin n) (Fin n) T) (R : Matrix (Fin m) (Fin m) T) :
    ExtendedKalmanFilter n m T :=
  ⟨state, covariance, Q, R, fun _ => 0, fun _ _ => 0, .joseph⟩

/-- `ExtendedKalmanFilter::predict`, `extended_kalman_filter.rs:242-261`; `jacobian` is
`Jacobian::from_derivator(..).evaluate(process_model, ·)`. -/
def predict (f : ExtendedKalmanFilter n m T) (process : (Fin n → T) → Fin n → T)
    (jacobian : (Fin n → T) → Except DiffError (Matrix (Fin n) (Fin n) T)) :
    ExtendedKalmanFilter n m T × Except EstimationError Unit :=
  match jacobian f.state with
  | .error e => (f, .error (.diff e))
  | .ok F =>
    let propagated := process f.state
    if !vIsFinite propagated || !mIsFinite F then (f, .error .nonFinite)
    else ({ f with state := propagated
                   covariance := predictedCovariance F f.covariance f.processNoise }, .ok ())

/-- `ExtendedKalmanFilter::update_with_residual`, `extended_kalman_filter.rs:334-381`. -/
def updateWithResidual (f : ExtendedKalmanFilter n m T)
    (jacobian : (Fin n → T) → Except DiffError (Matrix (Fin m) (Fin n) T)) (residual : Fin m → T) :
    ExtendedKalmanFilter n m T × Except EstimationError Unit :=
  if !vIsFinite residual then (f, .error .nonFinite)
  else
    match jacobian f.state with
    | .error e => (f, .error (.diff e))
    | .ok H =>
      let f := { f with
        innovation := residual
        innovationCovariance := innovationCov H f.covariance f.measurementNoise }
      if !mIsFinite f.innovationCovariance then (f, .error .nonFinite)
      else
        match cholesky f.innovationCovariance with
        | .error _ => (f, .error .notPositiveDefinite)
        | .ok lower =>
          let gain := kalmanGain H f.covariance lower
          ({ f with
              state := vadd f.state (mmulVec gain f.innovation)
              covariance := updatedCovariance f.covarianceUpdate H f.covariance f.measurementNoise gain }, .ok ())

/-- `ExtendedKalmanFilter::update`, `extended_kalman_filter.rs:273-286`. -/
def update (f : ExtendedKalmanFilter n m T) (measurementModel : (Fin n → T) → Fin m → T)
    (jacobian : (Fin n → T) → Except DiffError (Matrix (Fin m) (Fin n) T)) (measurement : Fin m → T) :
    ExtendedKalmanFilter n m T × Except EstimationError Unit :=
  if !vIsFinite measurement then (f, .error .nonFinite)
  else f.updateWithResidual jacobian (vsub measurement (measurementModel f.state))

end ExtendedKalmanFilter
end
end Multicalc
