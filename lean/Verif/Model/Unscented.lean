import Verif.Model.Kalman

/-!
# The unscented Kalman filter

Models `crates/multicalc/src/estimation/unscented_kalman_filter.rs`.  A model function is a function on vectors, as
`VectorFn::eval` makes it.  A call that changes the filter and may fail returns the filter as the call leaves it,
together with its verdict.
-/

namespace Multicalc

/-- `UnscentedKalmanFilter`, `unscented_kalman_filter.rs:71-90`. -/
structure UnscentedKalmanFilter (n m : ℕ) (T : Type) where
  state : Fin n → T
  covariance : Matrix (Fin n) (Fin n) T
  processNoise : Matrix (Fin n) (Fin n) T
  measurementNoise : Matrix (Fin m) (Fin m) T
  innovation : Fin m → T
  innovationCovariance : Matrix (Fin m) (Fin m) T
  propagatedCentre : Fin n → T
  propagatedPlus : Matrix (Fin n) (Fin n) T
  propagatedMinus : Matrix (Fin n) (Fin n) T
  alpha : T
  beta : T
  kappa : T
  regularization : T

section
variable {T : Type} [Zero T] [One T] [NatCast T] [Add T] [Sub T] [Mul T] [Div T] [LT T] [DecidableLT T] [LE T]
  [DecidableLE T] [Fns T] {n m r c : ℕ}

/-- `add_weighted_outer_product`, `unscented_kalman_filter.rs:638-645`. -/
def addWeightedOuterProduct (matrix : Matrix (Fin r) (Fin c) T) (weight : T) (left : Fin r → T) (right : Fin c → T) :
    Matrix (Fin r) (Fin c) T :=
  madd matrix fun row column => weight * left row * right column

/-- `Vector::from_fn(|row| matrix[(row, column)])`, as at `unscented_kalman_filter.rs:292`. -/
def columnOf (matrix : Matrix (Fin r) (Fin c) T) (column : Fin c) : Fin r → T := fun row => matrix row column

/-- The weighted average of a centre point and pairs either side of it, `unscented_kalman_filter.rs:314-319` and
`383-388`. -/
def sigmaMean (centreMean side : T) (centre : Fin r → T) (plus minus : Matrix (Fin r) (Fin c) T) : Fin r → T :=
  (List.finRange c).foldl
    (fun mean column => vadd mean (vscale (vadd (columnOf plus column) (columnOf minus column)) side))
    (vscale centre centreMean)

/-- The weighted sum of the products of two families of deviations, on top of a starting matrix,
`unscented_kalman_filter.rs:323-334` (where both families are the state's) and `420-456` (the readings with
themselves, and the state with the readings). -/
def sigmaSpread {k : ℕ} (start : Matrix (Fin r) (Fin c) T) (centreCovariance side : T)
    (leftCentre : Fin r → T) (leftPlus leftMinus : Matrix (Fin r) (Fin k) T) (leftMean : Fin r → T)
    (rightCentre : Fin c → T) (rightPlus rightMinus : Matrix (Fin c) (Fin k) T) (rightMean : Fin c → T) :
    Matrix (Fin r) (Fin c) T :=
  (List.finRange k).foldl
    (fun acc column =>
      addWeightedOuterProduct
        (addWeightedOuterProduct acc side (vsub (columnOf leftPlus column) leftMean)
          (vsub (columnOf rightPlus column) rightMean))
        side (vsub (columnOf leftMinus column) leftMean) (vsub (columnOf rightMinus column) rightMean))
    (addWeightedOuterProduct start centreCovariance (vsub leftCentre leftMean) (vsub rightCentre rightMean))

namespace UnscentedKalmanFilter

/-- `UnscentedKalmanFilter::new`, `unscented_kalman_filter.rs:101-135`.  The two dimensions are not zero, which the
constructor asserts at compile time. -/
def new (initialState : Fin n → T) (initialCovariance processNoise : Matrix (Fin n) (Fin n) T)
    (measurementNoise : Matrix (Fin m) (Fin m) T) : UnscentedKalmanFilter n m T where
  state := initialState
  covariance := initialCovariance
  processNoise := processNoise
  measurementNoise := measurementNoise
  innovation := fun _ => 0
  innovationCovariance := fun _ _ => 0
  propagatedCentre := initialState
  propagatedPlus := fun row _ => initialState row
  propagatedMinus := fun row _ => initialState row
  alpha := Fns.lit (1 / 1000)
  beta := ((2 : ℕ) : T)
  kappa := 0
  regularization := 0

/-- `UnscentedKalmanFilter::with_scaling`, `unscented_kalman_filter.rs:173-186`. -/
def withScaling (f : UnscentedKalmanFilter n m T) (alpha beta kappa : T) :
    Except EstimationError (UnscentedKalmanFilter n m T) :=
  if !Fns.isFinite alpha || !Fns.isFinite beta || !Fns.isFinite kappa then .error .invalidTuning
  else
    let spread := alpha * alpha * ((n : T) + kappa)
    if !Fns.isFinite spread || decide (spread ≤ 0) then .error .invalidTuning
    else .ok { f with alpha := alpha, beta := beta, kappa := kappa }

/-- `UnscentedKalmanFilter::with_regularization`, `unscented_kalman_filter.rs:196-202`. -/
def withRegularization (f : UnscentedKalmanFilter n m T) (regularization : T) :
    Except EstimationError (UnscentedKalmanFilter n m T) :=
  if !Fns.isFinite regularization || decide (regularization < 0) then .error .invalidTuning
  else .ok { f with regularization := regularization }

/-- `UnscentedKalmanFilter::set_state`, `unscented_kalman_filter.rs:208-210`. -/
def setState (f : UnscentedKalmanFilter n m T) (state : Fin n → T) : UnscentedKalmanFilter n m T :=
  { f with state := state }

/-- `spread_factor`, `unscented_kalman_filter.rs:231-233`. -/
def spreadFactor (f : UnscentedKalmanFilter n m T) : T := f.alpha * f.alpha * ((n : T) + f.kappa)

/-- The first of `weights`, `unscented_kalman_filter.rs:240`. -/
def centreMean (f : UnscentedKalmanFilter n m T) : T := (f.spreadFactor - (n : T)) / f.spreadFactor

/-- The second of `weights`, `unscented_kalman_filter.rs:241`. -/
def centreCovariance (f : UnscentedKalmanFilter n m T) : T := f.centreMean + (1 - f.alpha * f.alpha + f.beta)

/-- The third of `weights`, `unscented_kalman_filter.rs:242`. -/
def side (f : UnscentedKalmanFilter n m T) : T := 1 / (((2 : ℕ) : T) * f.spreadFactor)

/-- `offset_directions`, `unscented_kalman_filter.rs:249-262`. -/
def offsetDirections (f : UnscentedKalmanFilter n m T) : Except EstimationError (Matrix (Fin n) (Fin n) T) :=
  let scaled := madd (mscale f.covariance f.spreadFactor) (mscale (midentity n) f.regularization)
  if !mIsFinite scaled then .error .nonFinite
  else
    match cholesky scaled with
    | .error _ => .error .notPositiveDefinite
    | .ok lower => .ok lower

/-- The points pushed through the model and kept for the next update, `unscented_kalman_filter.rs:288-304`. -/
def propagate (f : UnscentedKalmanFilter n m T) (processModel : (Fin n → T) → Fin n → T)
    (directions : Matrix (Fin n) (Fin n) T) : UnscentedKalmanFilter n m T :=
  { f with
    propagatedCentre := processModel f.state
    propagatedPlus := fun row column => processModel (vadd f.state (columnOf directions column)) row
    propagatedMinus := fun row column => processModel (vsub f.state (columnOf directions column)) row }

/-- The weighted average of the kept points, `unscented_kalman_filter.rs:314-319`. -/
def predictedMean (f : UnscentedKalmanFilter n m T) : Fin n → T :=
  sigmaMean f.centreMean f.side f.propagatedCentre f.propagatedPlus f.propagatedMinus

/-- The spread of the kept points about their average with the process noise,
`unscented_kalman_filter.rs:323-334`. -/
def predictedSpread (f : UnscentedKalmanFilter n m T) : Matrix (Fin n) (Fin n) T :=
  sigmaSpread f.processNoise f.centreCovariance f.side
    f.propagatedCentre f.propagatedPlus f.propagatedMinus f.predictedMean
    f.propagatedCentre f.propagatedPlus f.propagatedMinus f.predictedMean

/-- `UnscentedKalmanFilter::predict`, `unscented_kalman_filter.rs:275-345`. -/
def predict (f : UnscentedKalmanFilter n m T) (processModel : (Fin n → T) → Fin n → T) :
    UnscentedKalmanFilter n m T × Except EstimationError Unit :=
  match f.offsetDirections with
  | .error e => (f, .error e)
  | .ok directions =>
    let f := f.propagate processModel directions
    if !vIsFinite f.propagatedCentre || !mIsFinite f.propagatedPlus || !mIsFinite f.propagatedMinus then
      (f, .error .nonFinite)
    else if !vIsFinite f.predictedMean || !mIsFinite f.predictedSpread then (f, .error .nonFinite)
    else ({ f with state := f.predictedMean, covariance := symmetrized f.predictedSpread }, .ok ())

/-- `measurement_sigma_points`, `unscented_kalman_filter.rs:349-399`. -/
def measurementSigmaPoints (f : UnscentedKalmanFilter n m T) (measurementModel : (Fin n → T) → Fin m → T) :
    Except EstimationError
      ((Fin m → T) × Matrix (Fin m) (Fin n) T × Matrix (Fin m) (Fin n) T × (Fin m → T)) :=
  let centre := measurementModel f.propagatedCentre
  let plusSide : Matrix (Fin m) (Fin n) T := fun row column => measurementModel (columnOf f.propagatedPlus column) row
  let minusSide : Matrix (Fin m) (Fin n) T :=
    fun row column => measurementModel (columnOf f.propagatedMinus column) row
  let mean := sigmaMean f.centreMean f.side centre plusSide minusSide
  if !vIsFinite centre || !mIsFinite plusSide || !mIsFinite minusSide || !vIsFinite mean then .error .nonFinite
  else .ok (centre, plusSide, minusSide, mean)

/-- The innovation covariance before and after averaging its halves, `unscented_kalman_filter.rs:414-459`. -/
def innovationSpread (f : UnscentedKalmanFilter n m T) (centre : Fin m → T)
    (plusSide minusSide : Matrix (Fin m) (Fin n) T) (predicted : Fin m → T) : Matrix (Fin m) (Fin m) T :=
  symmetrized (sigmaSpread f.measurementNoise f.centreCovariance f.side
    centre plusSide minusSide predicted centre plusSide minusSide predicted)

/-- The cross covariance of the state and the reading, `unscented_kalman_filter.rs:414-456`. -/
def crossSpread (f : UnscentedKalmanFilter n m T) (centre : Fin m → T)
    (plusSide minusSide : Matrix (Fin m) (Fin n) T) (predicted : Fin m → T) : Matrix (Fin n) (Fin m) T :=
  sigmaSpread (fun _ _ => 0) f.centreCovariance f.side
    f.propagatedCentre f.propagatedPlus f.propagatedMinus f.state centre plusSide minusSide predicted

/-- `fold_in`, `unscented_kalman_filter.rs:403-485`. -/
def foldIn (f : UnscentedKalmanFilter n m T) (centre : Fin m → T) (plusSide minusSide : Matrix (Fin m) (Fin n) T)
    (predicted residual : Fin m → T) : UnscentedKalmanFilter n m T × Except EstimationError Unit :=
  let innovationCovariance := f.innovationSpread centre plusSide minusSide predicted
  let crossCovariance := f.crossSpread centre plusSide minusSide predicted
  if !mIsFinite innovationCovariance || !mIsFinite crossCovariance then (f, .error .nonFinite)
  else
    match cholesky innovationCovariance with
    | .error _ => (f, .error .notPositiveDefinite)
    | .ok lower =>
      let gain := mtranspose (choleskySolveMatrix lower (mtranspose crossCovariance))
      ({ f with
          innovation := residual
          innovationCovariance := innovationCovariance
          state := vadd f.state (mmulVec gain residual)
          covariance := symmetrized
            (msub f.covariance (mmul (mmul gain innovationCovariance) (mtranspose gain))) }, .ok ())

/-- `UnscentedKalmanFilter::update`, `unscented_kalman_filter.rs:500-520`. -/
def update (f : UnscentedKalmanFilter n m T) (measurementModel : (Fin n → T) → Fin m → T) (measurement : Fin m → T) :
    UnscentedKalmanFilter n m T × Except EstimationError Unit :=
  if !vIsFinite measurement then (f, .error .nonFinite)
  else
    match f.measurementSigmaPoints measurementModel with
    | .error e => (f, .error e)
    | .ok (centre, plusSide, minusSide, predicted) =>
      f.foldIn centre plusSide minusSide predicted (vsub measurement predicted)

/-- `UnscentedKalmanFilter::update_with_residual`, `unscented_kalman_filter.rs:584-598`. -/
def updateWithResidual (f : UnscentedKalmanFilter n m T) (measurementModel : (Fin n → T) → Fin m → T)
    (residual : Fin m → T) : UnscentedKalmanFilter n m T × Except EstimationError Unit :=
  if !vIsFinite residual then (f, .error .nonFinite)
  else
    match f.measurementSigmaPoints measurementModel with
    | .error e => (f, .error e)
    | .ok (centre, plusSide, minusSide, predicted) =>
      f.foldIn centre plusSide minusSide predicted residual

/-- `UnscentedKalmanFilter::normalized_innovation_squared`, `unscented_kalman_filter.rs:626-633`. -/
def normalizedInnovationSquared (f : UnscentedKalmanFilter n m T) : Except EstimationError T :=
  match cholesky f.innovationCovariance with
  | .error _ => .error .notPositiveDefinite
  | .ok lower => .ok (vdot f.innovation (choleskySolve lower f.innovation))

end UnscentedKalmanFilter
end
end Multicalc
