import Verif.Model.Kalman
import Verif.Model.Spatial
import Verif.Model.Eigen
import Verif.Model.Autodiff

/-!
# The error-state Kalman filter

Models `crates/multicalc/src/estimation/error_state_kalman_filter.rs`.  A call that changes the filter and may fail
returns the filter as the call leaves it, together with its verdict.
-/

namespace Multicalc

/-- `NominalState`, `error_state_kalman_filter.rs:45-56`; `new` (`:73-87`) is the constructor. -/
@[ext] structure NominalState (T : Type) where
  position : Fin 3 → T
  velocity : Fin 3 → T
  orientation : SO3 T
  gyroscopeBias : Fin 3 → T
  accelerometerBias : Fin 3 → T

/-- `ImuNoise`, `error_state_kalman_filter.rs:348-357`. -/
structure ImuNoise (T : Type) where
  gyroscopeNoiseDensity : T
  accelerometerNoiseDensity : T
  gyroscopeBiasRandomWalk : T
  accelerometerBiasRandomWalk : T

/-- A measurement model (`NominalStateFn`, `error_state_kalman_filter.rs:330-333`): its `eval` at the two scalar types the
filter calls it with. -/
structure NominalStateFn (m : ℕ) (T : Type) where
  eval : NominalState T → Fin m → T
  evalDual : NominalState (Dual T) → Fin m → Dual T

/-- `ErrorStateKalmanFilter`, `error_state_kalman_filter.rs:441-450`. -/
structure ErrorStateKalmanFilter (m : ℕ) (T : Type) where
  nominalState : NominalState T
  covariance : Matrix (Fin 15) (Fin 15) T
  imuNoise : ImuNoise T
  measurementNoise : Matrix (Fin m) (Fin m) T
  gravity : Fin 3 → T
  innovation : Fin m → T
  innovationCovariance : Matrix (Fin m) (Fin m) T
  covarianceUpdate : CovarianceUpdate

section
variable {T : Type} [Zero T] [One T] [NatCast T] [Add T] [Sub T] [Mul T] [Div T] [Neg T] [LT T]
  [DecidableLT T] [LE T] [DecidableLE T] [BEq T] [Max T] [Fns T] {m : ℕ}

namespace NominalState

/-- `at_rest`, `error_state_kalman_filter.rs:94-102`. -/
def atRest (orientation : SO3 T) : NominalState T :=
  ⟨fun _ => 0, fun _ => 0, orientation, fun _ => 0, fun _ => 0⟩

/-- `plus_error`, `error_state_kalman_filter.rs:157-171`. -/
def plusError (s : NominalState T) (error : Fin 15 → T) : NominalState T where
  position := vadd s.position ![error 0, error 1, error 2]
  velocity := vadd s.velocity ![error 3, error 4, error 5]
  orientation := s.orientation.compose (SO3.exp ![error 6, error 7, error 8])
  gyroscopeBias := vadd s.gyroscopeBias ![error 9, error 10, error 11]
  accelerometerBias := vadd s.accelerometerBias ![error 12, error 13, error 14]

/-- `error_from`, `error_state_kalman_filter.rs:202-225`. -/
def errorFrom (s reference : NominalState T) : Fin 15 → T :=
  let positionError := vsub s.position reference.position
  let velocityError := vsub s.velocity reference.velocity
  let rotationError := (reference.orientation.inverse.compose s.orientation).log
  let gyroscopeBiasError := vsub s.gyroscopeBias reference.gyroscopeBias
  let accelerometerBiasError := vsub s.accelerometerBias reference.accelerometerBias
  ![positionError 0, positionError 1, positionError 2, velocityError 0, velocityError 1, velocityError 2,
    rotationError 0, rotationError 1, rotationError 2, gyroscopeBiasError 0, gyroscopeBiasError 1,
    gyroscopeBiasError 2, accelerometerBiasError 0, accelerometerBiasError 1, accelerometerBiasError 2]

/-- `propagated`, `error_state_kalman_filter.rs:254-273`. -/
def propagated (s : NominalState T) (gyroscopeReading accelerometerReading : Fin 3 → T) (timestep : T)
    (gravity : Fin 3 → T) : NominalState T :=
  let turnRate := vsub gyroscopeReading s.gyroscopeBias
  let properPush := vsub accelerometerReading s.accelerometerBias
  let worldPush := vadd (s.orientation.act properPush) gravity
  { position := vadd (vadd s.position (vscale s.velocity timestep)) (vscale worldPush (timestep * timestep * half))
    velocity := vadd s.velocity (vscale worldPush timestep)
    orientation := s.orientation.compose (SO3.exp (vscale turnRate timestep))
    gyroscopeBias := s.gyroscopeBias
    accelerometerBias := s.accelerometerBias }

/-- `lifted_to_dual`, `error_state_kalman_filter.rs:281-302`; `SO3::from_quaternion` normalizes. -/
def liftedToDual (s : NominalState T) : NominalState (Dual T) :=
  let liftVector := fun (v : Fin 3 → T) => ![Dual.constant (v 0), Dual.constant (v 1), Dual.constant (v 2)]
  let q := s.orientation.quaternion
  { position := liftVector s.position
    velocity := liftVector s.velocity
    orientation := SO3.fromQuaternion ⟨Dual.constant q.w, Dual.constant q.x, Dual.constant q.y, Dual.constant q.z⟩
    gyroscopeBias := liftVector s.gyroscopeBias
    accelerometerBias := liftVector s.accelerometerBias }

/-- `is_finite`, `error_state_kalman_filter.rs:306-316`. -/
def isFinite (s : NominalState T) : Bool :=
  let q := s.orientation.quaternion
  vIsFinite s.position && vIsFinite s.velocity && vIsFinite s.gyroscopeBias && vIsFinite s.accelerometerBias &&
    Fns.isFinite q.w && Fns.isFinite q.x && Fns.isFinite q.y && Fns.isFinite q.z

end NominalState

/-- `write_block`, `error_state_kalman_filter.rs:923-934`. -/
def writeBlock (target : Matrix (Fin 15) (Fin 15) T) (topRow leftColumn : ℕ) (block : Matrix (Fin 3) (Fin 3) T) :
    Matrix (Fin 15) (Fin 15) T := fun i j =>
  if h : (topRow ≤ i.val ∧ i.val < topRow + 3) ∧ (leftColumn ≤ j.val ∧ j.val < leftColumn + 3) then
    block ⟨i.val - topRow, by omega⟩ ⟨j.val - leftColumn, by omega⟩
  else target i j

/-- One addition of `propagate_covariance`'s loop, `error_state_kalman_filter.rs:612-617`: `amount` onto the three
diagonal entries starting at `start`. -/
def addDiagonal (target : Matrix (Fin 15) (Fin 15) T) (start : ℕ) (amount : T) : Matrix (Fin 15) (Fin 15) T :=
  fun i j => if i = j ∧ start ≤ i.val ∧ i.val < start + 3 then target i j + amount else target i j

namespace ErrorStateKalmanFilter

/-- `new`, `error_state_kalman_filter.rs:461-483`; `with_covariance_update`, `with_gravity` and the setters
(`:487-515`) assign fields. -/
def new (state : NominalState T) (covariance : Matrix (Fin 15) (Fin 15) T) (noise : ImuNoise T)
    (measurementNoise : Matrix (Fin m) (Fin m) T) : ErrorStateKalmanFilter m T :=
  ⟨state, covariance, noise, measurementNoise, ![0, 0, Fns.lit (-981 / 100)], fun _ => 0, fun _ _ => 0, .joseph⟩

/-- `error_state_transition`, `error_state_kalman_filter.rs:568-593`. -/
def errorStateTransition (f : ErrorStateKalmanFilter m T) (gyroscopeReading accelerometerReading : Fin 3 → T)
    (timestep : T) : Matrix (Fin 15) (Fin 15) T :=
  let turnRate := vsub gyroscopeReading f.nominalState.gyroscopeBias
  let properPush := vsub accelerometerReading f.nominalState.accelerometerBias
  let rotation := f.nominalState.orientation.toMatrix
  let pushSensitivity := mneg (mscale (mmul rotation (skew3 properPush)) timestep)
  let biasSensitivity := mneg (mscale rotation timestep)
  let turnTransfer := (SO3.exp (vscale (vneg turnRate) timestep)).toMatrix
  writeBlock (writeBlock (writeBlock (writeBlock (writeBlock (midentity 15)
    0 3 (mscale (midentity 3) timestep)) 3 6 pushSensitivity) 3 12 biasSensitivity) 6 6 turnTransfer)
    6 9 (mscale (midentity 3) (-timestep))

/-- `propagate_covariance`, `error_state_kalman_filter.rs:596-620`.  The loop adds to each of the twelve diagonal entries
once; the additions touch different entries, so their order does not matter. -/
def propagateCovariance (f : ErrorStateKalmanFilter m T) (transition : Matrix (Fin 15) (Fin 15) T) (timestep : T) :
    Matrix (Fin 15) (Fin 15) T :=
  let carried := mmul (mmul transition f.covariance) (mtranspose transition)
  let velocityNoise := f.imuNoise.accelerometerNoiseDensity * timestep
  let rotationNoise := f.imuNoise.gyroscopeNoiseDensity * timestep
  let gyroscopeWalk := f.imuNoise.gyroscopeBiasRandomWalk
  let accelerometerWalk := f.imuNoise.accelerometerBiasRandomWalk
  symmetrized (addDiagonal (addDiagonal (addDiagonal (addDiagonal carried
    3 (velocityNoise * velocityNoise)) 6 (rotationNoise * rotationNoise))
    9 (gyroscopeWalk * gyroscopeWalk * timestep)) 12 (accelerometerWalk * accelerometerWalk * timestep))

/-- `predict`, `error_state_kalman_filter.rs:524-556`. -/
def predict (f : ErrorStateKalmanFilter m T) (gyroscopeReading accelerometerReading : Fin 3 → T) (timestep : T) :
    ErrorStateKalmanFilter m T × Except EstimationError Unit :=
  if !vIsFinite gyroscopeReading || !vIsFinite accelerometerReading || !Fns.isFinite timestep then
    (f, .error .nonFinite)
  else
    let transition := f.errorStateTransition gyroscopeReading accelerometerReading timestep
    let propagated := f.nominalState.propagated gyroscopeReading accelerometerReading timestep f.gravity
    if !propagated.isFinite || !mIsFinite transition then (f, .error .nonFinite)
    else
      let f := { f with nominalState := propagated, covariance := f.propagateCovariance transition timestep }
      if !mIsFinite f.covariance then (f, .error .nonFinite) else (f, .ok ())

/-- `measurement_jacobian`, `error_state_kalman_filter.rs:799-817`. -/
def measurementJacobian {w : ℕ} (f : ErrorStateKalmanFilter m T) (model : NominalStateFn w T) :
    Matrix (Fin w) (Fin 15) T :=
  let lifted := f.nominalState.liftedToDual
  fun row column =>
    (model.evalDual (lifted.plusError fun i =>
      if i = column then Dual.variable' 0 else Dual.constant 0) row).deriv

/-- `inject_error_and_reset`, `error_state_kalman_filter.rs:828-837`. -/
def injectErrorAndReset (f : ErrorStateKalmanFilter m T) (error : Fin 15 → T) : ErrorStateKalmanFilter m T :=
  let rotationError : Fin 3 → T := ![error 6, error 7, error 8]
  let rotationBlock := msub (midentity 3) (mscale (skew3 rotationError) half)
  let reset := writeBlock (midentity 15) 6 6 rotationBlock
  { f with
    nominalState := f.nominalState.plusError error
    covariance := mmul (mmul reset f.covariance) (mtranspose reset) }

/-- `fold_in`, `error_state_kalman_filter.rs:745-794`. -/
def foldIn {w : ℕ} (f : ErrorStateKalmanFilter m T) (model : NominalStateFn w T) (residual : Fin w → T)
    (measurementNoise : Matrix (Fin w) (Fin w) T) :
    ErrorStateKalmanFilter m T × Except EstimationError (Matrix (Fin w) (Fin w) T) :=
  if !vIsFinite residual then (f, .error .nonFinite)
  else
    let H := f.measurementJacobian model
    if !mIsFinite H then (f, .error .nonFinite)
    else
      let S := innovationCov H f.covariance measurementNoise
      if !mIsFinite S then (f, .error .nonFinite)
      else
        match cholesky S with
        | .error _ => (f, .error .notPositiveDefinite)
        | .ok lower =>
          let gain := kalmanGain H f.covariance lower
          let error := mmulVec gain residual
          let f := { f with covariance := updatedCovariance f.covarianceUpdate H f.covariance measurementNoise gain }
          let f := f.injectErrorAndReset error
          ({ f with covariance := symmetrized f.covariance }, .ok S)

/-- `update_with_residual`, `error_state_kalman_filter.rs:703-716`. -/
def updateWithResidual (f : ErrorStateKalmanFilter m T) (model : NominalStateFn m T) (residual : Fin m → T) :
    ErrorStateKalmanFilter m T × Except EstimationError Unit :=
  match f.foldIn model residual f.measurementNoise with
  | (f, .error e) => (f, .error e)
  | (f, .ok S) => ({ f with innovation := residual, innovationCovariance := S }, .ok ())

/-- `update`, `error_state_kalman_filter.rs:634-647`. -/
def update (f : ErrorStateKalmanFilter m T) (model : NominalStateFn m T) (measurement : Fin m → T) :
    ErrorStateKalmanFilter m T × Except EstimationError Unit :=
  if !vIsFinite measurement then (f, .error .nonFinite)
  else f.updateWithResidual model (vsub measurement (model.eval f.nominalState))

/-- `update_other`, `error_state_kalman_filter.rs:728-741`. -/
def updateOther {w : ℕ} (f : ErrorStateKalmanFilter m T) (model : NominalStateFn w T) (residual : Fin w → T)
    (measurementNoise : Matrix (Fin w) (Fin w) T) : ErrorStateKalmanFilter m T × Except EstimationError Unit :=
  match f.foldIn model residual measurementNoise with
  | (f, .error e) => (f, .error e)
  | (f, .ok _) => (f, .ok ())

/-- `condition_covariance`, `error_state_kalman_filter.rs:851-860`. -/
def conditionCovariance (f : ErrorStateKalmanFilter m T) (minimumEigenvalue : T) :
    ErrorStateKalmanFilter m T × Except EstimationError Unit :=
  match symmetricEigen (symmetrized f.covariance) with
  | .error _ => (f, .error .nonFinite)
  | .ok directions => ({ f with covariance := directions.clamped minimumEigenvalue }, .ok ())

/-- `normalized_innovation_squared`, `error_state_kalman_filter.rs:889-896`. -/
def normalizedInnovationSquared (f : ErrorStateKalmanFilter m T) : Except EstimationError T :=
  match cholesky f.innovationCovariance with
  | .error _ => .error .notPositiveDefinite
  | .ok lower => .ok (vdot f.innovation (choleskySolve lower f.innovation))

/-- `normalized_estimation_error_squared`, `error_state_kalman_filter.rs:908-919`. -/
def normalizedEstimationErrorSquared (f : ErrorStateKalmanFilter m T) (trueState : NominalState T) :
    Except EstimationError T :=
  let error := trueState.errorFrom f.nominalState
  match cholesky f.covariance with
  | .error _ => .error .notPositiveDefinite
  | .ok lower => .ok (vdot error (choleskySolve lower error))

end ErrorStateKalmanFilter
end
end Multicalc
