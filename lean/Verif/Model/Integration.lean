import Verif.Model.Ode
import Verif.Model.Summation

/-!
# Numerical integration

Models `crates/multicalc/src/numerical_integration/`.
An integrand is a function; the closures of the library only overwrite one slot of a scratch point,
so they are pure.  `panicked` stands for the arithmetic underflow of `level - 1` when no limit at all
is given.
-/

namespace Multicalc

section
variable {T : Type} [Zero T] [One T] [NatCast T] [Add T] [Sub T] [Mul T] [Div T] [LT T]
  [DecidableLT T] [BEq T] [Fns T]

/-- `enum Domain`, `integrator.rs:6-11`. -/
inductive Domain (T : Type) where
  | finite (a b : T)
  | lowerToInf (a : T)
  | upperToInf (b : T)
  | bothInf

/-- An `IntegrateError`, or the panic of a call without limits. -/
inductive IntegrateFailure where
  | error (e : IntegrateError)
  | panicked
deriving DecidableEq

/-- `classify`, `integrator.rs:17-29`. -/
def classify (limit : T × T) : Except IntegrateFailure (Domain T) :=
  let a := limit.1
  let b := limit.2
  if Fns.isNan a || Fns.isNan b then .error (.error .limitsIllDefined)
  else
    match Fns.isFinite a, Fns.isFinite b with
    | true, true => if a < b then .ok (.finite a b) else .error (.error .limitsIllDefined)
    | true, false => if 0 < b then .ok (.lowerToInf a) else .error (.error .limitsIllDefined)
    | false, true => if a < 0 then .ok (.upperToInf b) else .error (.error .limitsIllDefined)
    | false, false => if a < 0 ∧ 0 < b then .ok .bothInf else .error (.error .limitsIllDefined)

/-- `is_finite`, `integrator.rs:35-41`. -/
def finiteSample (sample : T) : Except IntegrateFailure T :=
  if Fns.isFinite sample then .ok sample else .error (.error .nonFinite)

/-- `t_bounds`, `integrator.rs:48-55`. -/
def tBounds : Domain T → T × T
  | .finite a b => (a, b)
  | .lowerToInf _ => (0, 1 - Fns.epsilon)
  | .upperToInf _ => (0, 1 - Fns.epsilon)
  | .bothInf => (Fns.epsilon, 1 - Fns.epsilon)

/-- `map_sample`, `integrator.rs:60-83`. -/
def mapSample (domain : Domain T) (sample : T) : T × T :=
  match domain with
  | .finite _ _ => (sample, 1)
  | .lowerToInf a =>
    let oneMinusT := 1 - sample
    (a + sample / oneMinusT, 1 / (oneMinusT * oneMinusT))
  | .upperToInf b =>
    let oneMinusT := 1 - sample
    (b - sample / oneMinusT, 1 / (oneMinusT * oneMinusT))
  | .bothInf =>
    let angle := Fns.pi * (sample - Fns.lit (1 / 2))
    let cosAngle := Fns.cos angle
    (Fns.tan angle, Fns.pi / (cosAngle * cosAngle))

/-- `enum IterativeMethod`, `mode.rs:3-10`. -/
inductive IterativeMethod | booles | simpsons | trapezoidal
deriving DecidableEq

/-- `struct IterativeConfig`, `iterative_integration.rs:14-21`. -/
structure IterativeConfig where
  totalIterations : ℕ
  method : IterativeMethod
  summation : SummationMethod

/-- `u64::next_multiple_of`. -/
def nextMultipleOf (n k : ℕ) : ℕ := if n % k = 0 then n else n + (k - n % k)

/-- `IterativeConfig::default`, `iterative_integration.rs:23-32`, with
`DEFAULT_TOTAL_ITERATIONS`, `:10`. -/
def IterativeConfig.default : IterativeConfig := ⟨120, .booles, .pairwise⟩

/-- `IterativeConfig::from_parameters`, `iterative_integration.rs:43-58`. -/
def IterativeConfig.fromParameters (totalIterations : ℕ) (method : IterativeMethod) :
    IterativeConfig :=
  let total :=
    if totalIterations ≤ 12000 then
      match method with
      | .booles => nextMultipleOf totalIterations 4
      | .simpsons => nextMultipleOf totalIterations 3
      | .trapezoidal => totalIterations
    else totalIterations
  ⟨total, method, .pairwise⟩

/-- `with_kahan_summation`, `iterative_integration.rs:214-218`. -/
def IterativeConfig.withKahan (c : IterativeConfig) : IterativeConfig :=
  { c with summation := .kahan }

/-- `IterativeConfig::check_for_errors`, `iterative_integration.rs:63-76`. -/
def IterativeConfig.check (c : IterativeConfig) (limits : List (T × T)) :
    Except IntegrateFailure Unit :=
  if c.totalIterations = 0 then .error (.error .iterationsZero)
  else limits.forM fun limit => do
    let _ ← classify limit
    return ()

/-- The loop the three rules share, `iterative_integration.rs:112-123`, `:145-154`, `:176-179`: the
weighted interior samples, `next` giving the multiplier of the following round. -/
def ruleWalk (integrand : T → Except IntegrateFailure T) (next : ℕ → T) (delta : T) :
    ℕ → ℕ → T → T → Except IntegrateFailure (List T)
  | 0, _, _, _ => .ok []
  | remaining + 1, iter, point, multiplier => do
    let value ← integrand (point + delta)
    let rest ← ruleWalk integrand next delta remaining (iter + 1) (point + delta) (next iter)
    return multiplier * value :: rest

/-- The multiplier update of Boole's rule, `iterative_integration.rs:116-122`. -/
def boolesNext (iter : ℕ) : T :=
  if (iter + 2) % 2 ≠ 0 then Fns.lit 32
  else if (iter + 2) % 4 = 0 then Fns.lit 14
  else Fns.lit 12

/-- `booles`, `iterative_integration.rs:98-128`. -/
def booles (iterations : ℕ) (lower upper : T) (integrand : T → Except IntegrateFailure T)
    (summation : SummationMethod) : Except IntegrateFailure T := do
  let delta := (upper - lower) / (iterations : T)
  let first ← integrand lower
  let middle ← ruleWalk integrand boolesNext delta (iterations - 1) 0 lower (Fns.lit 32)
  let last ← integrand upper
  let total := accSum summation (Fns.lit 7 * first :: (middle ++ [Fns.lit 7 * last]))
  return ((2 : ℕ) : T) * delta * total / Fns.lit 45

/-- The multiplier update of Simpson's 3/8 rule, `iterative_integration.rs:149-153`. -/
def simpsonsNext (iter : ℕ) : T := if (iter + 2) % 3 = 0 then ((2 : ℕ) : T) else Fns.lit 3

/-- `simpsons`, `iterative_integration.rs:131-159`. -/
def simpsons (iterations : ℕ) (lower upper : T) (integrand : T → Except IntegrateFailure T)
    (summation : SummationMethod) : Except IntegrateFailure T := do
  let delta := (upper - lower) / (iterations : T)
  let first ← integrand lower
  let middle ← ruleWalk integrand simpsonsNext delta (iterations - 1) 0 lower (Fns.lit 3)
  let last ← integrand upper
  let total := accSum summation (first :: (middle ++ [last]))
  return Fns.lit 3 * delta * total / Fns.lit 8

/-- `trapezoidal`, `iterative_integration.rs:162-183`. -/
def trapezoidal (iterations : ℕ) (lower upper : T) (integrand : T → Except IntegrateFailure T)
    (summation : SummationMethod) : Except IntegrateFailure T := do
  let delta := (upper - lower) / (iterations : T)
  let first ← integrand lower
  let middle ← ruleWalk integrand (fun _ => ((2 : ℕ) : T)) delta (iterations - 1) 0 lower
    ((2 : ℕ) : T)
  let last ← integrand upper
  let total := accSum summation (first :: (middle ++ [last]))
  return Fns.lit (1 / 2) * delta * total

/-- `integrate_rule`, `iterative_integration.rs:82-95`. -/
def integrateRule (c : IterativeConfig) (lower upper : T)
    (integrand : T → Except IntegrateFailure T) : Except IntegrateFailure T :=
  match c.method with
  | .booles => booles c.totalIterations lower upper integrand c.summation
  | .simpsons => simpsons c.totalIterations lower upper integrand c.summation
  | .trapezoidal => trapezoidal c.totalIterations lower upper integrand c.summation

/-- `IterativeSingle::integrate` by level, `iterative_integration.rs:227-281`.  The list holds the
limits with the outermost (the `level`-th) first. -/
def iterativeSingleLevel (c : IterativeConfig) (func : T → T) :
    List (T × T) → Except IntegrateFailure T
  | [] => .error .panicked
  | [limit] => do
    let domain ← classify limit
    match domain with
    | .finite a b => integrateRule c a b fun x => finiteSample (func x)
    | _ =>
      let bounds := tBounds domain
      integrateRule c bounds.1 bounds.2 fun sample =>
        let xj := mapSample domain sample
        finiteSample (func xj.1 * xj.2)
  | limit :: inners@(_ :: _) => do
    let domain ← classify limit
    let inner ← iterativeSingleLevel c func inners
    match domain with
    | .finite a b => integrateRule c a b fun _ => finiteSample inner
    | _ =>
      let bounds := tBounds domain
      integrateRule c bounds.1 bounds.2 fun sample =>
        finiteSample (inner * (mapSample domain sample).2)

/-- `IterativeSingle::integrate` (trait), `iterative_integration.rs:327-334`. -/
def iterativeSingle (c : IterativeConfig) (func : T → T) (limits : List (T × T)) :
    Except IntegrateFailure T := do
  c.check limits
  iterativeSingleLevel c func limits.reverse

/-- `integral`, `numerical_integration/mod.rs:61-66`. -/
def integral' (func : T → T) (limit : T × T) : Except IntegrateFailure T :=
  iterativeSingle .default func [limit]

/-- `IterativeMulti::integrate` by level, `iterative_integration.rs:376-469`.  The list holds the
variable and limit of each level, the outermost first. -/
def iterativeMultiLevel {n : ℕ} (c : IterativeConfig) (func : (Fin n → T) → T) :
    List (Fin n × (T × T)) → (Fin n → T) → Except IntegrateFailure T
  | [], _ => .error .panicked
  | [(var, limit)], point => do
    let domain ← classify limit
    match domain with
    | .finite a b =>
      integrateRule c a b fun x => finiteSample (func (Function.update point var x))
    | _ =>
      let bounds := tBounds domain
      integrateRule c bounds.1 bounds.2 fun sample =>
        let xj := mapSample domain sample
        finiteSample (func (Function.update point var xj.1) * xj.2)
  | (var, limit) :: inners@(_ :: _), point => do
    let domain ← classify limit
    match domain with
    | .finite a b =>
      integrateRule c a b fun x => iterativeMultiLevel c func inners (Function.update point var x)
    | _ =>
      let bounds := tBounds domain
      integrateRule c bounds.1 bounds.2 fun sample => do
        let xj := mapSample domain sample
        let inner ← iterativeMultiLevel c func inners (Function.update point var xj.1)
        finiteSample (inner * xj.2)

/-- The index check of the multi-variable integrators, `iterative_integration.rs:517-521`,
`gaussian_integration.rs:386-390`. -/
def checkIndices {n : ℕ} : List (ℕ × (T × T)) →
    Except IntegrateFailure (List (Fin n × (T × T)))
  | [] => .ok []
  | (idx, limit) :: rest =>
    if h : idx < n then do
      let more ← checkIndices rest
      return (⟨idx, h⟩, limit) :: more
    else .error (.error .indexOutOfRange)

/-- `IterativeMulti::integrate` (trait), `iterative_integration.rs:505-530`; `idx_to_integrate` and
`integration_limits` are zipped. -/
def iterativeMulti {n : ℕ} (c : IterativeConfig) (func : (Fin n → T) → T)
    (limits : List (ℕ × (T × T))) (point : Fin n → T) : Except IntegrateFailure T := do
  c.check (limits.map Prod.snd)
  let levels ← checkIndices limits
  iterativeMultiLevel c func levels.reverse point

/-! ## Gaussian quadrature -/

/-- `enum GaussianQuadratureMethod`, `mode.rs:15-22`. -/
inductive GaussianMethod | legendre | hermite | laguerre
deriving DecidableEq

/-- The limit test of `GaussianConfig::check_limits`, `gaussian_integration.rs:57-67`. -/
def gaussianLimitOk (m : GaussianMethod) (limit : T × T) : Bool :=
  match m with
  | .legendre => Fns.isFinite limit.1 && Fns.isFinite limit.2 && decide (limit.1 < limit.2)
  | .hermite => limit.1 == Fns.negInfinity && limit.2 == Fns.infinity
  | .laguerre => limit.1 == 0 && limit.2 == Fns.infinity

/-- `GaussianConfig::check_limits`, `gaussian_integration.rs:52-75`. -/
def gaussianCheckLimits (m : GaussianMethod) : List (T × T) → Except IntegrateFailure Unit
  | [] => .ok ()
  | limit :: rest =>
    if gaussianLimitOk m limit then gaussianCheckLimits m rest
    else .error (.error .limitsIllDefined)

/-- `nodes`, `gaussian_tables/mod.rs:28-44`, with `MAX_ORDER`, `:15`; `tables m` is the array of
tables of a family, entry `order` holding `(weight, abscissa)` pairs. -/
def gaussianNodes (tables : GaussianMethod → ℕ → List (ℚ × ℚ)) (m : GaussianMethod) (order : ℕ) :
    Except IntegrateFailure (List (ℚ × ℚ)) :=
  if order = 0 ∨ 30 < order then .error (.error .quadratureOrderOutOfRange)
  else .ok (tables m order)

/-- The weighted sum over a table that all four Gaussian loops compute,
`gaussian_integration.rs:126-129`, `:151-154`. -/
def gaussianSum (table : List (ℚ × ℚ)) (sample : T → Except IntegrateFailure T) :
    Except IntegrateFailure T :=
  table.foldlM (fun ans wx => do
    let v ← sample (Fns.lit wx.2)
    return ans + Fns.lit wx.1 * v) 0

/-- `GaussianSingle::integrate_legendre`, `gaussian_integration.rs:113-139`; limits outermost
first. -/
def gaussLegendreSingle (table : List (ℚ × ℚ)) (func : T → T) :
    List (T × T) → Except IntegrateFailure T
  | [] => .error .panicked
  | [(a, b)] => do
    let half := (b - a) * Fns.lit (1 / 2)
    let mid := (b + a) * Fns.lit (1 / 2)
    let ans ← gaussianSum table fun x => finiteSample (func (half * x + mid))
    return half * ans
  | (a, b) :: inners@(_ :: _) => do
    let half := (b - a) * Fns.lit (1 / 2)
    let inner ← gaussLegendreSingle table func inners
    let ans ← gaussianSum table fun _ => .ok inner
    return half * ans

/-- `GaussianSingle::integrate_canonical`, `gaussian_integration.rs:144-164`, by number of
integrations. -/
def gaussCanonicalSingle (table : List (ℚ × ℚ)) (func : T → T) : ℕ → Except IntegrateFailure T
  | 0 => .error .panicked
  | 1 => gaussianSum table fun x => finiteSample (func x)
  | level + 2 => do
    let inner ← gaussCanonicalSingle table func (level + 1)
    gaussianSum table fun _ => .ok inner

/-- `GaussianSingle::integrate`, `gaussian_integration.rs:202-216`. -/
def gaussianSingle (tables : GaussianMethod → ℕ → List (ℚ × ℚ)) (m : GaussianMethod) (order : ℕ)
    (func : T → T) (limits : List (T × T)) : Except IntegrateFailure T := do
  let table ← gaussianNodes tables m order
  gaussianCheckLimits m limits
  match m with
  | .legendre => gaussLegendreSingle table func limits.reverse
  | _ => gaussCanonicalSingle table func limits.length

/-- `GaussianMulti::integrate_legendre`, `gaussian_integration.rs:253-296`. -/
def gaussLegendreMulti {n : ℕ} (table : List (ℚ × ℚ)) (func : (Fin n → T) → T) :
    List (Fin n × (T × T)) → (Fin n → T) → Except IntegrateFailure T
  | [], _ => .error .panicked
  | [(var, (a, b))], point => do
    let half := (b - a) * Fns.lit (1 / 2)
    let mid := (b + a) * Fns.lit (1 / 2)
    let ans ← gaussianSum table fun x =>
      finiteSample (func (Function.update point var (half * x + mid)))
    return half * ans
  | (var, (a, b)) :: inners@(_ :: _), point => do
    let half := (b - a) * Fns.lit (1 / 2)
    let mid := (b + a) * Fns.lit (1 / 2)
    let ans ← gaussianSum table fun x =>
      gaussLegendreMulti table func inners (Function.update point var (half * x + mid))
    return half * ans

/-- `GaussianMulti::integrate_canonical`, `gaussian_integration.rs:301-332`. -/
def gaussCanonicalMulti {n : ℕ} (table : List (ℚ × ℚ)) (func : (Fin n → T) → T) :
    List (Fin n) → (Fin n → T) → Except IntegrateFailure T
  | [], _ => .error .panicked
  | [var], point =>
    gaussianSum table fun x => finiteSample (func (Function.update point var x))
  | var :: inners@(_ :: _), point =>
    gaussianSum table fun x =>
      gaussCanonicalMulti table func inners (Function.update point var x)

/-- `GaussianMulti::integrate`, `gaussian_integration.rs:373-403`. -/
def gaussianMulti {n : ℕ} (tables : GaussianMethod → ℕ → List (ℚ × ℚ)) (m : GaussianMethod)
    (order : ℕ) (func : (Fin n → T) → T) (limits : List (ℕ × (T × T))) (point : Fin n → T) :
    Except IntegrateFailure T := do
  let table ← gaussianNodes tables m order
  gaussianCheckLimits m (limits.map Prod.snd)
  let levels ← checkIndices limits
  match m with
  | .legendre => gaussLegendreMulti table func levels.reverse point
  | _ => gaussCanonicalMulti table func (levels.reverse.map Prod.fst) point

end

end Multicalc
