import Verif.Model.Qr

/-!
# Nonlinear least squares

Model of `crates/multicalc/src/optimization/`.  The residual function and its Jacobian are arguments.  Both solvers
also return, in order, every point at which they evaluated the residuals themselves.
-/

namespace Multicalc

variable {T : Type} [Zero T] [One T] [NatCast T] [Add T] [Sub T] [Neg T] [Mul T] [Div T] [LT T] [LE T] [BEq T]
  [DecidableLT T] [DecidableLE T] [Fns T] {m n : ℕ}

/-- The variants of `SolveError` these solvers return, `error.rs:77-91`. -/
inductive MinimizeError where
  | didNotConverge (iters : ℕ)
  | nonFinite
  | linalg (e : LinalgError)
  | diff
  deriving DecidableEq

/-- `TerminationReason`, `optimization/mod.rs:28-36`. -/
inductive TerminationReason where
  | ftol
  | xtol
  | gtol
  deriving DecidableEq

/-- `MinimizationReport`, `optimization/mod.rs:41-50`. -/
structure MinimizationReport (n : ℕ) (T : Type) where
  solution : Fin n → T
  objectiveFunction : T
  evaluations : ℕ
  termination : TerminationReason

/-- `report`, `optimization/mod.rs:59-71`. -/
def report (solution : Fin n → T) (residualNorm : T) (evaluations : ℕ) (termination : TerminationReason) :
    MinimizationReport n T :=
  ⟨solution, 1 / ((2 : ℕ) : T) * residualNorm * residualNorm, evaluations, termination⟩

/-- `is_finite`, `optimization/mod.rs:54-56`. -/
def allFinite (values : Fin m → T) : Bool := (List.finRange m).all fun i => Fns.isFinite (values i)

/-- `Matrix::is_finite`, as used at `gauss_newton.rs:153` and `levenberg_marquardt.rs:168`. -/
def matrixFinite (a : Matrix (Fin m) (Fin n) T) : Bool :=
  (List.finRange m).all fun i => (List.finRange n).all fun j => Fns.isFinite (a i j)

/-- `enorm` of an array. -/
def arrayNorm (minPositive largest : T) (v : Fin m → T) : T := enorm minPositive largest ((List.finRange m).map v)

/-! ### Gauss-Newton -/

/-- `GaussNewton`, `gauss_newton.rs:42-49`, without the derivator. -/
structure GaussNewton (T : Type) where
  ftol : T
  xtol : T
  gtol : T
  patience : ℕ
  backtracking : Bool

/-- `GaussNewton::from_derivator`, `gauss_newton.rs:74-84`. -/
def GaussNewton.default : GaussNewton T :=
  let tol := ((30 : ℕ) : T) * Fns.epsilon
  ⟨tol, tol, tol, 100, false⟩

namespace GaussNewton

/-- The largest scaled gradient component, `gauss_newton.rs:164-171`. -/
def gradientNorm (j : Matrix (Fin m) (Fin n) T) (residuals : Fin m → T) (columnNorms : Fin n → T) (fnorm : T) : T :=
  let gradient := mmulVec (mtranspose j) residuals
  (List.finRange n).foldl (fun gnorm col =>
    if columnNorms col != 0 then qrMax gnorm (Fns.abs (gradient col / (fnorm * columnNorms col))) else gnorm) 0

/-- The line search, `gauss_newton.rs:182-210`: the points tried and, unless the residuals were not finite, the
factor and the point taken.  `left` is `MAX_BACKTRACK - tries`. -/
def lineSearch (minPositive largest : T) (backtracking : Bool) (f : (Fin n → T) → Fin m → T) (x step : Fin n → T)
    (fnorm : T) : ℕ → T → List (Fin n → T) × Option (T × (Fin n → T))
  | left, alpha =>
    let candidate : Fin n → T := fun k => x k - alpha * step k
    let trial := f candidate
    let finite := allFinite trial
    if !backtracking then ([candidate], if finite then some (alpha, candidate) else none)
    else if finite && decide (arrayNorm minPositive largest trial < fnorm) then ([candidate], some (alpha, candidate))
    else
      match left with
      | 0 => ([candidate], if finite then some (alpha, candidate) else none)
      | left + 1 =>
        let rest := lineSearch minPositive largest backtracking f x step fnorm left (alpha * (1 / ((2 : ℕ) : T)))
        (candidate :: rest.1, rest.2)

/-- The loop of `minimize`, `gauss_newton.rs:151-226`, with `patience` passes left. -/
def loop (minPositive largest : T) (g : GaussNewton T) (f : (Fin n → T) → Fin m → T)
    (jacobian : (Fin n → T) → Except MinimizeError (Matrix (Fin m) (Fin n) T)) :
    ℕ → (Fin n → T) → ℕ → List (Fin n → T) × Except MinimizeError (MinimizationReport n T)
  | 0, _, evaluations => ([], .error (.didNotConverge evaluations))
  | left + 1, x, evaluations =>
    let residuals := f x
    let fnorm := arrayNorm minPositive largest residuals
    match jacobian x with
    | .error e => ([], .error e)
    | .ok j =>
      if !matrixFinite j then ([], .error .nonFinite)
      else
        match PivotedQr.decompose minPositive largest j with
        | .error e => ([], .error (.linalg e))
        | .ok qr =>
          if fnorm == 0 then ([], .ok (report x fnorm evaluations .gtol))
          else if gradientNorm j residuals qr.columnNorms fnorm ≤ g.gtol then
            ([], .ok (report x fnorm evaluations .gtol))
          else
            match qr.solveLeastSquares residuals with
            | .error e => ([], .error (.linalg e))
            | .ok step =>
              match lineSearch minPositive largest g.backtracking f x step fnorm 20 1 with
              | (tried, none) => (tried, .error .nonFinite)
              | (tried, some (alpha, xNew)) =>
                let evaluations := evaluations + tried.length
                let stepNorm := alpha * arrayNorm minPositive largest step
                let fnormNew := arrayNorm minPositive largest (f xNew)
                if stepNorm ≤ g.xtol * arrayNorm minPositive largest xNew then
                  (tried, .ok (report xNew fnormNew evaluations .xtol))
                else if Fns.abs (fnorm - fnormNew) ≤ g.ftol * fnorm then
                  (tried, .ok (report xNew fnormNew evaluations .ftol))
                else
                  let rest := loop minPositive largest g f jacobian left xNew evaluations
                  (tried ++ rest.1, rest.2)

/-- `GaussNewton::minimize`, `gauss_newton.rs:129-229`. -/
def minimize (minPositive largest : T) (g : GaussNewton T) (f : (Fin n → T) → Fin m → T)
    (jacobian : (Fin n → T) → Except MinimizeError (Matrix (Fin m) (Fin n) T)) (initialGuess : Fin n → T) :
    List (Fin n → T) × Except MinimizeError (MinimizationReport n T) :=
  if !allFinite (f initialGuess) then ([initialGuess], .error .nonFinite)
  else
    let rest := loop minPositive largest g f jacobian g.patience initialGuess 1
    (initialGuess :: rest.1, rest.2)

end GaussNewton

/-! ### The trust region -/

/-- What the search for the damping carries from pass to pass, `trust_region.rs:88-103`. -/
structure LambdaState (n : ℕ) (T : Type) where
  par : T
  parl : T
  paru : T
  boundaryErr : T
  step : Fin n → T

/-- One entry after another of the triangular solve of `trust_region.rs:56-63`. -/
def forwardSubstitute (triangular : Matrix (Fin n) (Fin n) T) (w : Fin n → T) (j : Fin n) : Fin n → T :=
  let sum := sumOver ((List.finRange n).filter fun i => i < j) fun i => triangular i j * w i
  Function.update w j ((w j - sum) / triangular j j)

/-- The lower bound, `trust_region.rs:49-66`. -/
def lambdaLower (minPositive largest : T) (d : DampedLeastSquares n T) (diag gaussNewton : Fin n → T)
    (delta dxnorm boundaryErr : T) : T :=
  if d.isNonSingular then
    let w := (List.finRange n).foldl (forwardSubstitute d.triangular) fun j =>
      diag (d.permutation j) * (diag (d.permutation j) * gaussNewton (d.permutation j) / dxnorm)
    let temp := arrayNorm minPositive largest w
    boundaryErr / delta / temp / temp
  else 0

/-- The scaled gradient norm, `trust_region.rs:69-76`. -/
def lambdaGradient (minPositive largest : T) (d : DampedLeastSquares n T) (diag : Fin n → T) : T :=
  arrayNorm minPositive largest fun j =>
    sumOver ((List.finRange n).filter fun i => i ≤ j) (fun i => d.triangular i j * d.qtb i) / diag (d.permutation j)

/-- The search, `trust_region.rs:89-132`: `left` passes after this one. -/
def lambdaLoop (minPositive largest : T) (d : DampedLeastSquares n T) (diag : Fin n → T) (delta : T) :
    ℕ → LambdaState n T → T × (Fin n → T)
  | left, s =>
    let tenth : T := Fns.lit (1 / 10)
    let par := if s.par == 0 then qrMax minPositive (Fns.lit (1 / 1000) * s.paru) else s.par
    let sqrtPar := Fns.sqrt par
    let solved := d.solveWithDiagonal fun j => sqrtPar * diag j
    let step := solved.1
    let scaledStep : Fin n → T := fun j => diag j * step j
    let dxnorm := arrayNorm minPositive largest scaledStep
    let boundaryErr := dxnorm - delta
    if Fns.abs boundaryErr ≤ tenth * delta then (par, step)
    else if s.parl == 0 && decide (boundaryErr ≤ s.boundaryErr) && decide (s.boundaryErr < 0) then (par, step)
    else
      match left with
      | 0 => (par, step)
      | left + 1 =>
        let temp := arrayNorm minPositive largest (solved.2.solve fun j =>
          diag (d.permutation j) * (scaledStep (d.permutation j) / dxnorm))
        if temp == 0 then (par, step)
        else
          let parc := boundaryErr / delta / temp / temp
          let parl := if 0 < boundaryErr then qrMax s.parl par else s.parl
          let paru := if 0 < boundaryErr then s.paru else qrMin s.paru par
          lambdaLoop minPositive largest d diag delta left ⟨qrMax parl (par + parc), parl, paru, boundaryErr, step⟩

/-- `determine_lambda_and_parameter_update`, `trust_region.rs:21-135`. -/
def determineLambda (minPositive largest : T) (d : DampedLeastSquares n T) (diag : Fin n → T) (delta initialLambda : T) :
    T × (Fin n → T) :=
  let tenth : T := Fns.lit (1 / 10)
  let gaussNewton := d.solveWithZeroDiagonal.1
  let dxnorm := arrayNorm minPositive largest fun j => diag j * gaussNewton j
  let boundaryErr := dxnorm - delta
  if boundaryErr ≤ tenth * delta then (0, gaussNewton)
  else
    let parl := lambdaLower minPositive largest d diag gaussNewton delta dxnorm boundaryErr
    let gnorm := lambdaGradient minPositive largest d diag
    let paru := if gnorm / delta == 0 then minPositive / qrMin delta tenth else gnorm / delta
    let clamped := qrMin (qrMax initialLambda parl) paru
    let par := if clamped == 0 then gnorm / dxnorm else clamped
    lambdaLoop minPositive largest d diag delta 9 ⟨par, parl, paru, boundaryErr, gaussNewton⟩

/-! ### Levenberg-Marquardt -/

/-- `LevenbergMarquardt`, `levenberg_marquardt.rs:38-46`, without the derivator. -/
structure LevenbergMarquardt (T : Type) where
  ftol : T
  xtol : T
  gtol : T
  stepbound : T
  patience : ℕ
  scaleDiag : Bool

/-- `LevenbergMarquardt::from_derivator`, `levenberg_marquardt.rs:71-82`. -/
def LevenbergMarquardt.default : LevenbergMarquardt T :=
  let tol := ((30 : ℕ) : T) * Fns.epsilon
  ⟨tol, tol, tol, ((100 : ℕ) : T), 100, true⟩

/-- What `minimize` carries from trial to trial, `levenberg_marquardt.rs:152-164`; the residuals and their norm are
those of `x`. -/
structure LmState (n : ℕ) (T : Type) where
  x : Fin n → T
  diag : Fin n → T
  delta : T
  xnorm : T
  par : T
  first : Bool

/-- What one trial of a step comes to: a failure, a verdict, or the state to go on from and whether the step was
taken. -/
inductive LmOutcome (n : ℕ) (T : Type) where
  | nonFinite
  | stop (s : LmState n T) (reason : TerminationReason)
  | go (s : LmState n T) (accepted : Bool)

namespace LevenbergMarquardt

/-- The share of the predicted reduction that was had, `levenberg_marquardt.rs:220-236`: actual reduction, predicted
reduction, directional derivative and ratio. -/
def reductions (fnorm fnorm1 aStep par pnorm : T) : T × T × T × T :=
  let tenth : T := Fns.lit (1 / 10)
  let actred := if tenth * fnorm1 < fnorm then 1 - fnorm1 / fnorm * (fnorm1 / fnorm) else -1
  let temp1 := aStep / fnorm
  let temp2 := Fns.sqrt par * pnorm / fnorm
  let prered := temp1 * temp1 + temp2 * temp2 / (1 / ((2 : ℕ) : T))
  let dirder := -(temp1 * temp1 + temp2 * temp2)
  (actred, prered, dirder, if prered != 0 then actred / prered else 0)

/-- The new radius and damping, `levenberg_marquardt.rs:239-258`. -/
def resize (fnorm fnorm1 actred dirder ratio delta par pnorm : T) : T × T :=
  let tenth : T := Fns.lit (1 / 10)
  let half : T := 1 / ((2 : ℕ) : T)
  if ratio ≤ Fns.lit (1 / 4) then
    let temp :=
      if 0 ≤ actred then half
      else
        let denom := dirder + half * actred
        if denom != 0 then half * dirder / denom else half
    let temp := if fnorm ≤ tenth * fnorm1 ∨ temp < tenth then tenth else temp
    (temp * qrMin delta (pnorm / tenth), par / temp)
  else if par == 0 || decide (Fns.lit (3 / 4) ≤ ratio) then (pnorm / half, half * par)
  else (delta, par)

/-- One trial, `levenberg_marquardt.rs:201-279`: the point tried, and what came of it. -/
def trial (minPositive largest : T) (g : LevenbergMarquardt T) (f : (Fin n → T) → Fin m → T)
    (d : DampedLeastSquares n T) (s : LmState n T) : (Fin n → T) × LmOutcome n T :=
  let fnorm := arrayNorm minPositive largest (f s.x)
  let update := determineLambda minPositive largest d s.diag s.delta s.par
  let par := update.1
  let step := update.2
  let pnorm := arrayNorm minPositive largest fun j => s.diag j * step j
  let delta := if s.first then qrMin s.delta pnorm else s.delta
  let xNew : Fin n → T := fun j => s.x j - step j
  if !allFinite (f xNew) then (xNew, .nonFinite)
  else
    let fnorm1 := arrayNorm minPositive largest (f xNew)
    let r := reductions fnorm fnorm1 (d.aXNorm minPositive largest step) par pnorm
    let actred := r.1
    let prered := r.2.1
    let ratio := r.2.2.2
    let size := resize fnorm fnorm1 actred r.2.2.1 ratio delta par pnorm
    let accepted : Bool := decide (Fns.lit (1 / 10000) ≤ ratio)
    let x := if accepted then xNew else s.x
    let xnorm := if accepted then arrayNorm minPositive largest fun j => s.diag j * xNew j else s.xnorm
    let next : LmState n T := ⟨x, s.diag, size.1, xnorm, size.2, false⟩
    if Fns.abs actred ≤ g.ftol ∧ prered ≤ g.ftol ∧ 1 / ((2 : ℕ) : T) * ratio ≤ 1 then (xNew, .stop next .ftol)
    else if size.1 ≤ g.xtol * xnorm then (xNew, .stop next .xtol)
    else (xNew, .go next accepted)

/-- The retries within one pass, `levenberg_marquardt.rs:200-280`, with so many left: the points tried and either the
end or the state for the next pass. -/
def trials (minPositive largest : T) (g : LevenbergMarquardt T) (f : (Fin n → T) → Fin m → T)
    (d : DampedLeastSquares n T) : ℕ → LmState n T → List (Fin n → T) × LmOutcome n T
  | 0, s => ([], .go s false)
  | left + 1, s =>
    match trial minPositive largest g f d s with
    | (xNew, .go next accepted) =>
      if accepted then ([xNew], .go next true)
      else
        let rest := trials minPositive largest g f d left next
        (xNew :: rest.1, rest.2)
    | (xNew, outcome) => ([xNew], outcome)

/-- The scales and the first radius, `levenberg_marquardt.rs:173-186`. -/
def prepare (minPositive largest : T) (g : LevenbergMarquardt T) (columnNorms : Fin n → T) (s : LmState n T) : LmState n T :=
  if s.first then
    let diag : Fin n → T := fun j => if columnNorms j == 0 then 1 else columnNorms j
    let xnorm := arrayNorm minPositive largest fun j => diag j * s.x j
    let delta := g.stepbound * xnorm
    { s with diag := diag, xnorm := xnorm, delta := if delta == 0 then g.stepbound else delta }
  else s

/-- The growing of the scales, `levenberg_marquardt.rs:194-198`. -/
def rescale (g : LevenbergMarquardt T) (columnNorms : Fin n → T) (s : LmState n T) : LmState n T :=
  if g.scaleDiag then { s with diag := fun j => qrMax (s.diag j) (columnNorms j) } else s

/-- The loop of `minimize`, `levenberg_marquardt.rs:166-281`, with so many passes left. -/
def loop (minPositive largest : T) (g : LevenbergMarquardt T) (f : (Fin n → T) → Fin m → T)
    (jacobian : (Fin n → T) → Except MinimizeError (Matrix (Fin m) (Fin n) T)) :
    ℕ → LmState n T → ℕ → List (Fin n → T) × Except MinimizeError (MinimizationReport n T)
  | 0, _, evaluations => ([], .error (.didNotConverge evaluations))
  | left + 1, s, evaluations =>
    let fnorm := arrayNorm minPositive largest (f s.x)
    match jacobian s.x with
    | .error e => ([], .error e)
    | .ok j =>
      if !matrixFinite j then ([], .error .nonFinite)
      else
        match PivotedQr.decompose minPositive largest j with
        | .error e => ([], .error (.linalg e))
        | .ok qr =>
          let d := qr.intoDamped (f s.x)
          let s := prepare minPositive largest g d.columnNorms s
          if d.maxAtbScaled fnorm ≤ g.gtol then ([], .ok (report s.x fnorm evaluations .gtol))
          else
            match trials minPositive largest g f d 100 (rescale g d.columnNorms s) with
            | (tried, .nonFinite) => (tried, .error .nonFinite)
            | (tried, .stop s reason) =>
              (tried, .ok (report s.x (arrayNorm minPositive largest (f s.x)) (evaluations + tried.length) reason))
            | (tried, .go s _) =>
              let rest := loop minPositive largest g f jacobian left s (evaluations + tried.length)
              (tried ++ rest.1, rest.2)

/-- `LevenbergMarquardt::minimize`, `levenberg_marquardt.rs:133-284`. -/
def minimize (minPositive largest : T) (g : LevenbergMarquardt T) (f : (Fin n → T) → Fin m → T)
    (jacobian : (Fin n → T) → Except MinimizeError (Matrix (Fin m) (Fin n) T)) (initialGuess : Fin n → T) :
    List (Fin n → T) × Except MinimizeError (MinimizationReport n T) :=
  if !allFinite (f initialGuess) then ([initialGuess], .error .nonFinite)
  else
    let rest := loop minPositive largest g f jacobian g.patience ⟨initialGuess, fun _ => 0, 0, 0, 0, true⟩ 1
    (initialGuess :: rest.1, rest.2)

end LevenbergMarquardt
end Multicalc
