import Verif.Model.Ode
import Verif.Model.Autodiff

/-!
# Vector fields: line and flux integrals, curl and divergence

Models `crates/multicalc/src/vector_field/`.
-/

namespace Multicalc

section
variable {T : Type} [Zero T] [NatCast T] [Add T] [Sub T] [Mul T] [Div T] [LT T] [DecidableLT T]

/-- The loop of `get_partial`, `line_integral.rs:45-57`: `parameter` and the accumulator. -/
def lineLoop {n : ℕ} (field : (Fin n → T) → T) (curve : T → Fin n → T) (idx : Fin n) (delta : T) :
    ℕ → T → T → T
  | 0, _, ans => ans
  | remaining + 1, parameter, ans =>
    let left := curve parameter
    let right := curve (parameter + delta)
    lineLoop field curve idx delta remaining (parameter + delta)
      (ans + (right idx - left idx) * (field left + field right) / ((2 : ℕ) : T))

/-- `get_partial`, `line_integral.rs:20-60`; `curve t` is `curve_point(transformations, t)`, `:7-16`.
Simplified: the left end of a step is evaluated again instead of being carried over from the step
before, which gives the same value. -/
def linePartial {n : ℕ} (field : (Fin n → T) → Fin n → T) (curve : T → Fin n → T) (limit : T × T)
    (totalIterations : ℕ) (idx : Fin n) : Except IntegrateError T :=
  if totalIterations = 0 then .error .iterationsZero
  else if limit.1 < limit.2 then
    let delta := (limit.2 - limit.1) / (totalIterations : T)
    .ok (lineLoop (fun q => field q idx) curve idx delta totalIterations limit.1 0)
  else .error .limitsIllDefined

/-- `line_integral_2d_custom`, `line_integral.rs:112-131`. -/
def lineIntegral2 (field : (Fin 2 → T) → Fin 2 → T) (curve : T → Fin 2 → T) (limit : T × T)
    (totalIterations : ℕ) : Except IntegrateError T := do
  let a ← linePartial field curve limit totalIterations 0
  let b ← linePartial field curve limit totalIterations 1
  return a + b

/-- `line_integral_3d_custom`, `line_integral.rs:183-208`. -/
def lineIntegral3 (field : (Fin 3 → T) → Fin 3 → T) (curve : T → Fin 3 → T) (limit : T × T)
    (totalIterations : ℕ) : Except IntegrateError T := do
  let a ← linePartial field curve limit totalIterations 0
  let b ← linePartial field curve limit totalIterations 1
  let c ← linePartial field curve limit totalIterations 2
  return a + b + c

/-- `flux_integral_2d_custom`, `flux_integral.rs:56-75`. -/
def fluxIntegral2 (field : (Fin 2 → T) → Fin 2 → T) (curve : T → Fin 2 → T) (limit : T × T)
    (totalIterations : ℕ) : Except IntegrateError T := do
  let a ← linePartial field curve limit totalIterations 0
  let b ← linePartial field curve limit totalIterations 1
  return a - b

/-- `flux_integral_3d_custom`, `flux_integral.rs:94-119`. -/
def fluxIntegral3 (field : (Fin 3 → T) → Fin 3 → T) (curve : T → Fin 3 → T) (limit : T × T)
    (totalIterations : ℕ) : Except IntegrateError T := do
  let a ← linePartial field curve limit totalIterations 0
  let b ← linePartial field curve limit totalIterations 1
  let c ← linePartial field curve limit totalIterations 2
  return a - b - c

/-- `curl_3d`, `curl.rs:35-54`; `partials k i` is the differentiator's first partial derivative of
component `k` with respect to variable `i` at the point. -/
def curl3 (partials : Fin 3 → ℕ → Except DiffError T) : Except DiffError (Fin 3 → T) := do
  let zy ← partials 2 1
  let yz ← partials 1 2
  let xz ← partials 0 2
  let zx ← partials 2 0
  let yx ← partials 1 0
  let xy ← partials 0 1
  return ![zy - yz, xz - zx, yx - xy]

/-- `curl_2d`, `curl.rs:83-93`. -/
def curl2 (partials : Fin 2 → ℕ → Except DiffError T) : Except DiffError T := do
  let yx ← partials 1 0
  let xy ← partials 0 1
  return yx - xy

/-- `divergence_3d`, `divergence.rs:34-47`. -/
def divergence3 (partials : Fin 3 → ℕ → Except DiffError T) : Except DiffError T := do
  let xx ← partials 0 0
  let yy ← partials 1 1
  let zz ← partials 2 2
  return xx + yy + zz

/-- `divergence_2d`, `divergence.rs:76-87`. -/
def divergence2 (partials : Fin 2 → ℕ → Except DiffError T) : Except DiffError T := do
  let xx ← partials 0 0
  let yy ← partials 1 1
  return xx + yy

end

end Multicalc
