import Verif.Model.Autodiff

/-!
# Default steps of finite differences, and the free functions that differentiate

Model of `numerical_derivative/mode.rs:39-56`, `finite_difference.rs:36-48` and
`numerical_derivative/mod.rs:45-97`.
-/

namespace Multicalc

section
variable {T : Type} [Fns T]

/-- `FiniteDifferenceMode::default_step_size` (`numerical_derivative/mode.rs:39-44`). -/
def DiffMode.defaultStepSize : DiffMode → T
  | .forward | .backward => Fns.sqrt Fns.epsilon
  | .central => Fns.cbrt Fns.epsilon

/-- `DEFAULT_STEP_SIZE` (`numerical_derivative/mode.rs:51`). -/
def defaultStepConstant : ℚ := 6055454452393343 / 10 ^ 21

/-- `FiniteDifferenceConfig::default` (`finite_difference.rs:37-44`); the multiplier is
`DEFAULT_STEP_SIZE_MULTIPLIER` (`mode.rs:53`). -/
def FdConfig.default : FdConfig T :=
  ⟨DiffMode.defaultStepSize .central, .central, Fns.lit 10⟩

end

section
variable {T : Type} [Zero T] [One T] [NatCast T] [Add T] [Sub T] [Mul T] [Div T] [Neg T] [LT T]
  [DecidableLT T] [LE T] [DecidableLE T] [BEq T] [Fns T] [More T]

/-- The free function `derivative` (`numerical_derivative/mod.rs:45-47`). -/
def freeDerivative (func : Expr 1) (point : T) : T := (func.eval fun _ => Dual.variable' point).deriv

/-- The free function `second_derivative` (`numerical_derivative/mod.rs:64-66`). -/
def freeSecondDerivative (func : Expr 1) (point : T) : T :=
  (func.eval fun _ => HyperDual.variable' point).eps1eps2

/-- The free function `partial` (`numerical_derivative/mod.rs:91-97`). -/
def freePartial {n : ℕ} (func : Expr n) (variableIndex : ℕ) (point : Fin n → T) : Except DiffError T :=
  autoDiffMulti func [variableIndex] point

end

end Multicalc
