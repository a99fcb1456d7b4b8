import Verif.Model.Scalar
import Mathlib.Algebra.Group.Pi.Basic
import Mathlib.Data.Matrix.Basic

/-!
# Forward-mode automatic differentiation and finite differences

Models `crates/multicalc/src/scalar/{dual,hyper_dual,jet}.rs` and
`crates/multicalc/src/numerical_derivative/{autodiff,finite_difference,hessian,jacobian}.rs`.

The Rust scalar types are structures over an arbitrary scalar `T`; their trait implementations are
Lean instances, so `Dual (HyperDual T)` is again a scalar, as in the library.

A user's function (`ScalarFn`, `ScalarFnN`: a value whose `eval` is generic over `Numeric`) is a
term of `Expr n`: every straight-line or branching program over the primitive operations unfolds to
one.  The provided methods of `Numeric` that the autodiff types do not override (`asin`, `powi`,
`hypot`, `max`, `signum`, ...) are themselves programs over these primitives.
-/

namespace Multicalc

/-- The remaining primitive operations, which the autodiff types override:
`log2` `numeric.rs:148`, `log10` `numeric.rs:158`. -/
class More (T : Type) where
  log2 : T → T
  log10 : T → T

noncomputable instance : More ℝ where
  log2 x := Real.log x / Real.log 2
  log10 x := Real.log x / Real.log 10

/-! ## Dual numbers -/

/-- `scalar/dual.rs:17-23`. -/
@[ext] structure Dual (T : Type) where
  value : T
  deriv : T

namespace Dual
section
variable {T : Type}

/-- `dual.rs:36-41` -/
def constant [Zero T] (value : T) : Dual T := ⟨value, 0⟩

/-- `dual.rs:46-51` -/
def variable' [One T] (value : T) : Dual T := ⟨value, 1⟩

/-- `dual.rs:158-161` -/
instance [Zero T] : Zero (Dual T) := ⟨constant 0⟩
/-- `dual.rs:162-165` -/
instance [Zero T] [One T] : One (Dual T) := ⟨constant 1⟩
/-- `from_usize`, `dual.rs:242-244`; the constants `TWO`, `THREE`, `TEN`, ... `dual.rs:166-189` -/
instance [Zero T] [NatCast T] : NatCast (Dual T) := ⟨fun n => constant n⟩
/-- `dual.rs:54-63` -/
instance [Add T] : Add (Dual T) := ⟨fun a b => ⟨a.value + b.value, a.deriv + b.deriv⟩⟩
/-- `dual.rs:65-74` -/
instance [Sub T] : Sub (Dual T) := ⟨fun a b => ⟨a.value - b.value, a.deriv - b.deriv⟩⟩
/-- `dual.rs:76-86` -/
instance [Add T] [Mul T] : Mul (Dual T) :=
  ⟨fun a b => ⟨a.value * b.value, a.value * b.deriv + a.deriv * b.value⟩⟩
/-- `dual.rs:88-99` -/
instance [Sub T] [Mul T] [Div T] : Div (Dual T) :=
  ⟨fun a b => ⟨a.value / b.value,
    (a.deriv * b.value - a.value * b.deriv) / (b.value * b.value)⟩⟩
/-- `dual.rs:101-110` -/
instance [Neg T] : Neg (Dual T) := ⟨fun a => ⟨-a.value, -a.deriv⟩⟩
/-- comparison by value, `dual.rs:150-155` -/
instance [LT T] : LT (Dual T) := ⟨fun a b => a.value < b.value⟩
instance [LT T] [DecidableLT T] : DecidableLT (Dual T) :=
  fun a b => inferInstanceAs (Decidable (a.value < b.value))
/-- `dual.rs:150-155` -/
instance [LE T] : LE (Dual T) := ⟨fun a b => a.value ≤ b.value⟩
instance [LE T] [DecidableLE T] : DecidableLE (Dual T) :=
  fun a b => inferInstanceAs (Decidable (a.value ≤ b.value))
/-- equality by value, `dual.rs:143-148` -/
instance [BEq T] : BEq (Dual T) := ⟨fun a b => a.value == b.value⟩

variable [Zero T] [One T] [NatCast T] [Add T] [Sub T] [Mul T] [Div T] [Neg T] [LT T]
  [DecidableLT T] [Fns T]

/-- `impl Numeric for Dual`, `dual.rs:157-443`. -/
instance : Fns (Dual T) where
  lit q := constant (Fns.lit q)
  abs a := ⟨Fns.abs a.value, if a.value < 0 then -a.deriv else a.deriv⟩
  sqrt a :=
    let root := Fns.sqrt a.value
    ⟨root, a.deriv / (((2 : ℕ) : T) * root)⟩
  cbrt a :=
    let root := Fns.cbrt a.value
    ⟨root, a.deriv / (((3 : ℕ) : T) * root * root)⟩
  sin a := ⟨Fns.sin a.value, Fns.cos a.value * a.deriv⟩
  cos a := ⟨Fns.cos a.value, -(Fns.sin a.value) * a.deriv⟩
  tan a :=
    let t := Fns.tan a.value
    ⟨t, (1 + t * t) * a.deriv⟩
  exp a :=
    let e := Fns.exp a.value
    ⟨e, e * a.deriv⟩
  log a := ⟨Fns.log a.value, a.deriv / a.value⟩
  expm1 a := ⟨Fns.expm1 a.value, Fns.exp a.value * a.deriv⟩
  ln1p a := ⟨Fns.ln1p a.value, a.deriv / (a.value + 1)⟩
  atan2 a b :=
    let denom := a.value * a.value + b.value * b.value
    ⟨Fns.atan2 a.value b.value, (b.value * a.deriv - a.value * b.deriv) / denom⟩
  copysign a s :=
    ⟨Fns.copysign a.value s.value,
      if decide (a.value < 0) = decide (s.value < 0) then a.deriv else -a.deriv⟩
  floor a := ⟨Fns.floor a.value, 0⟩
  ceil a := ⟨Fns.ceil a.value, 0⟩
  round a := ⟨Fns.round a.value, 0⟩
  trunc a := ⟨Fns.trunc a.value, 0⟩
  isNan a := Fns.isNan a.value
  isFinite a := Fns.isFinite a.value
  isInfinite a := Fns.isInfinite a.value
  pi := constant Fns.pi
  epsilon := constant Fns.epsilon
  nan := constant Fns.nan
  infinity := constant Fns.infinity
  negInfinity := constant Fns.negInfinity

/-- `clamp` of a dual number to constants of the inner type, `dual.rs:411-425`. -/
def clamp (a : Dual T) (min max : T) : Dual T :=
  if a.value < min then ⟨min, 0⟩ else if max < a.value then ⟨max, 0⟩ else a

/-- `log2` `dual.rs:334-339`, `log10` `dual.rs:342-347`. -/
instance [More T] : More (Dual T) where
  log2 a := ⟨More.log2 a.value, a.deriv / a.value / Fns.log ((2 : ℕ) : T)⟩
  log10 a := ⟨More.log10 a.value, a.deriv / a.value / Fns.log ((10 : ℕ) : T)⟩

end
end Dual

/-! ## Hyper-dual numbers -/

/-- `scalar/hyper_dual.rs:19-29`. -/
@[ext] structure HyperDual (T : Type) where
  real : T
  eps1 : T
  eps2 : T
  eps1eps2 : T

namespace HyperDual
section
variable {T : Type}

/-- `hyper_dual.rs:47-54` -/
def constant [Zero T] (real : T) : HyperDual T := ⟨real, 0, 0, 0⟩

/-- `hyper_dual.rs:61-68` -/
def variable' [Zero T] [One T] (real : T) : HyperDual T := ⟨real, 1, 1, 0⟩

/-- `hyper_dual.rs:76-83` -/
def chain [Add T] [Mul T] (a : HyperDual T) (val deriv1 deriv2 : T) : HyperDual T :=
  ⟨val, deriv1 * a.eps1, deriv1 * a.eps2, deriv1 * a.eps1eps2 + deriv2 * a.eps1 * a.eps2⟩

/-- `hyper_dual.rs:88-91` -/
def recip [One T] [NatCast T] [Add T] [Mul T] [Div T] [Neg T] (a : HyperDual T) : HyperDual T :=
  let inv := 1 / a.real
  a.chain inv (-(inv * inv)) (((2 : ℕ) : T) * inv * inv * inv)

/-- `hyper_dual.rs:207-212` -/
instance [Zero T] : Zero (HyperDual T) := ⟨constant 0⟩
/-- `hyper_dual.rs:213-218` -/
instance [Zero T] [One T] : One (HyperDual T) := ⟨constant 1⟩
/-- `hyper_dual.rs:327-329` -/
instance [Zero T] [NatCast T] : NatCast (HyperDual T) := ⟨fun n => constant n⟩
/-- `hyper_dual.rs:94-105` -/
instance [Add T] : Add (HyperDual T) :=
  ⟨fun a b => ⟨a.real + b.real, a.eps1 + b.eps1, a.eps2 + b.eps2, a.eps1eps2 + b.eps1eps2⟩⟩
/-- `hyper_dual.rs:107-118` -/
instance [Sub T] : Sub (HyperDual T) :=
  ⟨fun a b => ⟨a.real - b.real, a.eps1 - b.eps1, a.eps2 - b.eps2, a.eps1eps2 - b.eps1eps2⟩⟩
/-- `hyper_dual.rs:120-136` -/
instance [Add T] [Mul T] : Mul (HyperDual T) :=
  ⟨fun a b => ⟨a.real * b.real, a.real * b.eps1 + a.eps1 * b.real,
    a.real * b.eps2 + a.eps2 * b.real,
    a.real * b.eps1eps2 + a.eps1 * b.eps2 + a.eps2 * b.eps1 + a.eps1eps2 * b.real⟩⟩
/-- division is multiplication by the reciprocal, `hyper_dual.rs:138-146` -/
instance [One T] [NatCast T] [Add T] [Mul T] [Div T] [Neg T] : Div (HyperDual T) :=
  ⟨fun a b => a * b.recip⟩
/-- `hyper_dual.rs:148-159` -/
instance [Neg T] : Neg (HyperDual T) := ⟨fun a => ⟨-a.real, -a.eps1, -a.eps2, -a.eps1eps2⟩⟩
/-- comparison by the real part, `hyper_dual.rs:199-204` -/
instance [LT T] : LT (HyperDual T) := ⟨fun a b => a.real < b.real⟩
instance [LT T] [DecidableLT T] : DecidableLT (HyperDual T) :=
  fun a b => inferInstanceAs (Decidable (a.real < b.real))
/-- `hyper_dual.rs:199-204` -/
instance [LE T] : LE (HyperDual T) := ⟨fun a b => a.real ≤ b.real⟩
instance [LE T] [DecidableLE T] : DecidableLE (HyperDual T) :=
  fun a b => inferInstanceAs (Decidable (a.real ≤ b.real))
/-- `hyper_dual.rs:192-197` -/
instance [BEq T] : BEq (HyperDual T) := ⟨fun a b => a.real == b.real⟩

variable [Zero T] [One T] [NatCast T] [Add T] [Sub T] [Mul T] [Div T] [Neg T] [LT T]
  [DecidableLT T] [Fns T]

/-- `atan2`, `hyper_dual.rs:421-441`. -/
def atan2 (y x : HyperDual T) : HyperDual T :=
  let r_sq := x.real * x.real + y.real * y.real
  let r_fourth := r_sq * r_sq
  let f_y := x.real / r_sq
  let f_x := -y.real / r_sq
  let f_yy := -(((2 : ℕ) : T) * x.real * y.real) / r_fourth
  let f_xx := (((2 : ℕ) : T) * x.real * y.real) / r_fourth
  let f_xy := (y.real * y.real - x.real * x.real) / r_fourth
  ⟨Fns.atan2 y.real x.real,
    f_y * y.eps1 + f_x * x.eps1,
    f_y * y.eps2 + f_x * x.eps2,
    f_y * y.eps1eps2 + f_x * x.eps1eps2 + f_yy * y.eps1 * y.eps2 + f_xx * x.eps1 * x.eps2
      + f_xy * (y.eps1 * x.eps2 + y.eps2 * x.eps1)⟩

/-- `impl Numeric for HyperDual`, `hyper_dual.rs:206-538`. -/
instance : Fns (HyperDual T) where
  lit q := constant (Fns.lit q)
  abs a := a.chain (Fns.abs a.real) (if a.real < 0 then -1 else 1) 0
  sqrt a :=
    let root := Fns.sqrt a.real
    let deriv1 := 1 / (((2 : ℕ) : T) * root)
    let deriv2 := -(deriv1 / (((2 : ℕ) : T) * a.real))
    a.chain root deriv1 deriv2
  cbrt a :=
    let root := Fns.cbrt a.real
    let deriv1 := 1 / (((3 : ℕ) : T) * root * root)
    let deriv2 := -(((2 : ℕ) : T) * deriv1 * deriv1 / root)
    a.chain root deriv1 deriv2
  sin a := a.chain (Fns.sin a.real) (Fns.cos a.real) (-(Fns.sin a.real))
  cos a := a.chain (Fns.cos a.real) (-(Fns.sin a.real)) (-(Fns.cos a.real))
  tan a :=
    let t := Fns.tan a.real
    let sec2 := 1 + t * t
    a.chain t sec2 (((2 : ℕ) : T) * t * sec2)
  exp a :=
    let e := Fns.exp a.real
    a.chain e e e
  log a := a.chain (Fns.log a.real) (1 / a.real) (-(1 / (a.real * a.real)))
  expm1 a := a.chain (Fns.expm1 a.real) (Fns.exp a.real) (Fns.exp a.real)
  ln1p a :=
    let xp1 := a.real + 1
    a.chain (Fns.ln1p a.real) (1 / xp1) (-(1 / (xp1 * xp1)))
  atan2 := atan2
  copysign a s :=
    a.chain (Fns.copysign a.real s.real)
      (if decide (a.real < 0) = decide (s.real < 0) then 1 else -1) 0
  floor a := ⟨Fns.floor a.real, 0, 0, 0⟩
  ceil a := ⟨Fns.ceil a.real, 0, 0, 0⟩
  round a := ⟨Fns.round a.real, 0, 0, 0⟩
  trunc a := ⟨Fns.trunc a.real, 0, 0, 0⟩
  isNan a := Fns.isNan a.real
  isFinite a := Fns.isFinite a.real
  isInfinite a := Fns.isInfinite a.real
  pi := constant Fns.pi
  epsilon := constant Fns.epsilon
  nan := constant Fns.nan
  infinity := constant Fns.infinity
  negInfinity := constant Fns.negInfinity

/-- `hyper_dual.rs:502-520`. -/
def clamp (a : HyperDual T) (min max : T) : HyperDual T :=
  if a.real < min then ⟨min, 0, 0, 0⟩ else if max < a.real then ⟨max, 0, 0, 0⟩ else a

/-- `log2` `hyper_dual.rs:396-403`, `log10` `hyper_dual.rs:406-413`. -/
instance [More T] : More (HyperDual T) where
  log2 a :=
    let ln2 := Fns.log ((2 : ℕ) : T)
    a.chain (More.log2 a.real) (1 / a.real / ln2) (-(1 / (a.real * a.real)) / ln2)
  log10 a :=
    let ln10 := Fns.log ((10 : ℕ) : T)
    a.chain (More.log10 a.real) (1 / a.real / ln10) (-(1 / (a.real * a.real)) / ln10)

end
end HyperDual

/-! ## Jets -/

/-- `scalar/jet.rs:18-22`. -/
@[ext] structure Jet (T : Type) (N : ℕ) where
  coeffs : Fin N → T

/-- `for i in lo..hi { acc += f(i) }`. -/
def accLoop {T : Type} [Add T] (lo hi : ℕ) (f : ℕ → T) (acc : T) : T :=
  (List.range' lo (hi - lo)).foldl (fun acc i => acc + f i) acc

/-- `for i in lo..hi { acc -= f(i) }`. -/
def decLoop {T : Type} [Sub T] (lo hi : ℕ) (f : ℕ → T) (acc : T) : T :=
  (List.range' lo (hi - lo)).foldl (fun acc i => acc - f i) acc

/-- `for k in lo..hi { out[k] = step(k, &out) }` on an array `out`, indexed by `ℕ`. -/
def fillLoop {T : Type} (lo hi : ℕ) (step : ℕ → (ℕ → T) → T) (out : ℕ → T) : ℕ → T :=
  (List.range' lo (hi - lo)).foldl (fun out k => Function.update out k (step k out)) out

namespace Jet
section
variable {T : Type} {N : ℕ}

/-- `self.coeffs[k]`; the index is always in range where this is used (otherwise `0`). -/
def get [Zero T] (a : Jet T N) (k : ℕ) : T := if h : k < N then a.coeffs ⟨k, h⟩ else 0

/-- A finished array `out: [T; N]`. -/
def ofFn (out : ℕ → T) : Jet T N := ⟨fun k => out k⟩

/-- `jet.rs:35-39` -/
def constant [Zero T] (value : T) : Jet T N := ofFn (Function.update (fun _ => 0) 0 value)

/-- `jet.rs:45-51` -/
def variable' [Zero T] [One T] (value : T) : Jet T N :=
  ofFn (Function.update (Function.update (fun _ => 0) 0 value) 1 1)

/-- `jet.rs:70-76` -/
def derivative [Zero T] [One T] [NatCast T] [Mul T] (a : Jet T N) (k : ℕ) : T :=
  ((List.range' 2 (k + 1 - 2)).foldl (fun factorial (i : ℕ) => factorial * (i : T)) 1) * a.get k

/-- `jet.rs:217` -/
instance [Zero T] : Zero (Jet T N) := ⟨constant 0⟩
/-- `jet.rs:218` -/
instance [Zero T] [One T] : One (Jet T N) := ⟨constant 1⟩
/-- `jet.rs:247-249` -/
instance [Zero T] [NatCast T] : NatCast (Jet T N) := ⟨fun n => constant n⟩
/-- `jet.rs:79-87` -/
instance [Zero T] [Add T] : Add (Jet T N) := ⟨fun a b => ofFn fun k => a.get k + b.get k⟩
/-- `jet.rs:89-97` -/
instance [Zero T] [Sub T] : Sub (Jet T N) := ⟨fun a b => ofFn fun k => a.get k - b.get k⟩
/-- `jet.rs:99-114` -/
instance [Zero T] [Add T] [Mul T] : Mul (Jet T N) :=
  ⟨fun a b => ofFn fun k => accLoop 0 (k + 1) (fun i => a.get i * b.get (k - i)) 0⟩
/-- `jet.rs:116-133` -/
instance [Zero T] [Sub T] [Mul T] [Div T] : Div (Jet T N) :=
  ⟨fun a b => ofFn <| fillLoop 0 N
    (fun k quot => decLoop 0 k (fun i => quot i * b.get (k - i)) (a.get k) / b.get 0)
    (fun _ => 0)⟩
/-- `jet.rs:135-143` -/
instance [Zero T] [Neg T] : Neg (Jet T N) := ⟨fun a => ofFn fun k => -a.get k⟩
/-- comparison by the value, `jet.rs:183-188` -/
instance [Zero T] [LT T] : LT (Jet T N) := ⟨fun a b => a.get 0 < b.get 0⟩
instance [Zero T] [LT T] [DecidableLT T] : DecidableLT (Jet T N) :=
  fun a b => inferInstanceAs (Decidable (a.get 0 < b.get 0))
/-- `jet.rs:183-188` -/
instance [Zero T] [LE T] : LE (Jet T N) := ⟨fun a b => a.get 0 ≤ b.get 0⟩
instance [Zero T] [LE T] [DecidableLE T] : DecidableLE (Jet T N) :=
  fun a b => inferInstanceAs (Decidable (a.get 0 ≤ b.get 0))
/-- `jet.rs:176-181` -/
instance [Zero T] [BEq T] : BEq (Jet T N) := ⟨fun a b => a.get 0 == b.get 0⟩

variable [Zero T] [One T] [NatCast T] [Add T] [Sub T] [Mul T] [Div T] [Neg T] [LT T]
  [DecidableLT T] [Fns T]

/-- The loop of `sin_cos`, `jet.rs:200-211`: both arrays are filled together. -/
def sinCosLoop (a : Jet T N) (hi : ℕ) (st : (ℕ → T) × (ℕ → T)) : (ℕ → T) × (ℕ → T) :=
  (List.range' 1 (hi - 1)).foldl (fun st k =>
    let sinAcc := accLoop 1 (k + 1) (fun i => (i : T) * a.get i * st.2 (k - i)) 0
    let cosAcc := accLoop 1 (k + 1) (fun i => (i : T) * a.get i * st.1 (k - i)) 0
    (Function.update st.1 k (sinAcc / (k : T)), Function.update st.2 k (-(cosAcc / (k : T))))) st

/-- `jet.rs:194-213` -/
def sinCos (a : Jet T N) : Jet T N × Jet T N :=
  let st := sinCosLoop a N
    (Function.update (fun _ => 0) 0 (Fns.sin (a.get 0)),
      Function.update (fun _ => 0) 0 (Fns.cos (a.get 0)))
  (ofFn st.1, ofFn st.2)

/-- The array filled by `exp`, `jet.rs:339-351`. -/
def expArray (a : Jet T N) : ℕ → T :=
  fillLoop 1 N
    (fun k out => accLoop 1 (k + 1) (fun i => (i : T) * a.get i * out (k - i)) 0 / (k : T))
    (Function.update (fun _ => 0) 0 (Fns.exp (a.get 0)))

/-- The common loop of `log` (`jet.rs:363-375`) and `ln_1p` (`jet.rs:379-392`), which differ in the
first coefficient and the divisor. -/
def logArray (a : Jet T N) (first divisor : T) : ℕ → T :=
  fillLoop 1 N
    (fun k out =>
      (a.get k - accLoop 1 k (fun j => (j : T) * out j * a.get (k - j)) 0 / (k : T)) / divisor)
    (Function.update (fun _ => 0) 0 first)

/-- The loop of `cbrt`, `jet.rs:301-316`: `out` and `w` are filled together. -/
def cbrtLoop (a : Jet T N) (threeU0Sq : T) (hi : ℕ) (st : (ℕ → T) × (ℕ → T)) :
    (ℕ → T) × (ℕ → T) :=
  (List.range' 1 (hi - 1)).foldl (fun st k =>
    let powerSum := accLoop 1 k (fun term => st.1 term * st.1 (k - term)) 0
    let acc := accLoop 1 k (fun i => st.1 i * st.2 (k - i)) (st.1 0 * powerSum)
    let outK := (a.get k - acc) / threeU0Sq
    (Function.update st.1 k outK,
      Function.update st.2 k (powerSum + ((2 : ℕ) : T) * st.1 0 * outK))) st

/-- The array filled by `cbrt`, `jet.rs:292-319`. -/
def cbrtArray (a : Jet T N) : ℕ → T :=
  let u0 := Fns.cbrt (a.get 0)
  let w0 := u0 * u0
  (cbrtLoop a (w0 + ((2 : ℕ) : T) * w0) N
    (Function.update (fun _ => 0) 0 u0, Function.update (fun _ => 0) 0 w0)).1

/-- The array filled by `sqrt`, `jet.rs:267-279`. -/
def sqrtArray (a : Jet T N) : ℕ → T :=
  fillLoop 1 N
    (fun k out =>
      (a.get k - accLoop 1 k (fun i => out i * out (k - i)) 0) / (((2 : ℕ) : T) * out 0))
    (Function.update (fun _ => 0) 0 (Fns.sqrt (a.get 0)))

/-- The array filled by `atan2`, `jet.rs:418-437`. -/
def atan2Array (y x : Jet T N) : ℕ → T :=
  let w := x * x + y * y
  fillLoop 1 N
    (fun k out =>
      let acc := accLoop 0 k
        (fun i => ((k - i : ℕ) : T) * (x.get i * y.get (k - i) - y.get i * x.get (k - i))) 0
      let acc := decLoop 1 k (fun i => w.get i * ((k - i : ℕ) : T) * out (k - i)) acc
      acc / ((k : T) * w.get 0))
    (Function.update (fun _ => 0) 0 (Fns.atan2 (y.get 0) (x.get 0)))

/-- `impl Numeric for Jet`, `jet.rs:216-511`. -/
instance : Fns (Jet T N) where
  lit q := constant (Fns.lit q)
  abs a :=
    let sign : T := if a.get 0 < 0 then -1 else 1
    ofFn fun k => sign * a.get k
  sqrt a := ofFn (sqrtArray a)
  cbrt a := ofFn (cbrtArray a)
  sin a := (sinCos a).1
  cos a := (sinCos a).2
  tan a := (sinCos a).1 / (sinCos a).2
  exp a := ofFn (expArray a)
  log a := ofFn (logArray a (Fns.log (a.get 0)) (a.get 0))
  expm1 a := ofFn (Function.update (expArray a) 0 (Fns.expm1 (a.get 0)))
  ln1p a := ofFn (logArray a (Fns.ln1p (a.get 0)) (a.get 0 + 1))
  atan2 y x := ofFn (atan2Array y x)
  copysign a s :=
    let signScale : T := if decide (a.get 0 < 0) = decide (s.get 0 < 0) then 1 else -1
    ofFn (Function.update (fun k => signScale * a.get k) 0 (Fns.copysign (a.get 0) (s.get 0)))
  floor a := constant (Fns.floor (a.get 0))
  ceil a := constant (Fns.ceil (a.get 0))
  round a := constant (Fns.round (a.get 0))
  trunc a := constant (Fns.trunc (a.get 0))
  isNan a := Fns.isNan (a.get 0)
  isFinite a := Fns.isFinite (a.get 0)
  isInfinite a := Fns.isInfinite (a.get 0)
  pi := constant Fns.pi
  epsilon := constant Fns.epsilon
  nan := constant Fns.nan
  infinity := constant Fns.infinity
  negInfinity := constant Fns.negInfinity

/-- `jet.rs:483-491` -/
def clamp (a : Jet T N) (min max : T) : Jet T N :=
  if a.get 0 < min then constant min else if max < a.get 0 then constant max else a

/-- `log2` `jet.rs:395-402`, `log10` `jet.rs:405-412`. -/
instance [More T] : More (Jet T N) where
  log2 a := ofFn fun k => logArray a (Fns.log (a.get 0)) (a.get 0) k / Fns.log ((2 : ℕ) : T)
  log10 a := ofFn fun k => logArray a (Fns.log (a.get 0)) (a.get 0) k / Fns.log ((10 : ℕ) : T)

end
end Jet

/-! ## Programs -/

/-- Unary primitives of `trait Numeric`. -/
inductive UnOp
  | neg | abs | sqrt | cbrt | sin | cos | tan | exp | expm1 | log | ln1p | log2 | log10
  | floor | ceil | round | trunc
  | clamp (lo hi : ℚ)

/-- Binary primitives of `trait Numeric`. -/
inductive BinOp
  | add | sub | mul | div | atan2 | copysign

/-- The comparisons a program may branch on: `<`, `<=`, `==`. -/
inductive Cmp
  | lt | le | eq

/-- A user's function of `n` scalar arguments, generic over `Numeric`
(`scalar/function.rs`: `ScalarFn`, `ScalarFnN`, one component of a `VectorFn`). -/
inductive Expr (n : ℕ)
  | var (i : Fin n)
  /-- `from_f64` -/
  | lit (q : ℚ)
  /-- `from_usize` -/
  | nat (k : ℕ)
  | pi
  | un (op : UnOp) (a : Expr n)
  | bin (op : BinOp) (a b : Expr n)
  /-- `if a cmp b { t } else { e }` -/
  | ite (c : Cmp) (a b t e : Expr n)

section
variable {T : Type} [Zero T] [One T] [NatCast T] [Add T] [Sub T] [Mul T] [Div T] [Neg T] [LT T]
  [DecidableLT T] [LE T] [DecidableLE T] [BEq T] [Fns T] [More T]

omit [Zero T] [One T] [NatCast T] [Add T] [Sub T] [Mul T] [Div T] [Neg T] [LE T] [DecidableLE T]
  [BEq T] [More T] in
/-- `clamp` to a pair of constants, given as literals: `numeric.rs:224`.  At every autodiff type
this is the overriding method (`dual_clamp` etc. in `Props/AutodiffValue`).  Simplified: on a plain
float the library's `clamp` panics when `min > max` (see `sclamp`); when `min <= max` it computes
this. -/
def clampLit (x : T) (lo hi : ℚ) : T :=
  if x < Fns.lit lo then Fns.lit lo else if Fns.lit hi < x then Fns.lit hi else x

def UnOp.eval : UnOp → T → T
  | neg => fun x => -x
  | abs => Fns.abs
  | sqrt => Fns.sqrt
  | cbrt => Fns.cbrt
  | sin => Fns.sin
  | cos => Fns.cos
  | tan => Fns.tan
  | exp => Fns.exp
  | expm1 => Fns.expm1
  | log => Fns.log
  | ln1p => Fns.ln1p
  | log2 => More.log2
  | log10 => More.log10
  | floor => Fns.floor
  | ceil => Fns.ceil
  | round => Fns.round
  | trunc => Fns.trunc
  | clamp lo hi => fun x => clampLit x lo hi

def BinOp.eval : BinOp → T → T → T
  | add => fun x y => x + y
  | sub => fun x y => x - y
  | mul => fun x y => x * y
  | div => fun x y => x / y
  | atan2 => Fns.atan2
  | copysign => Fns.copysign

def Cmp.eval : Cmp → T → T → Bool
  | lt => fun x y => decide (x < y)
  | le => fun x y => decide (x ≤ y)
  | eq => fun x y => x == y

/-- Running a program on a scalar type: `func.eval`. -/
def Expr.eval {n : ℕ} (x : Fin n → T) : Expr n → T
  | var i => x i
  | lit q => Fns.lit q
  | nat k => (k : T)
  | pi => Fns.pi
  | un op a => op.eval (a.eval x)
  | bin op a b => op.eval (a.eval x) (b.eval x)
  | ite c a b t e => if c.eval (a.eval x) (b.eval x) then t.eval x else e.eval x

end

/-! ## Differentiators -/

/-- `error.rs`, `DiffError`, the variants used here. -/
inductive DiffError
  | orderZero | orderUnsupported | indexOutOfRange | stepSizeZero | invalidStepSize
  | emptyFunctionSet
  deriving DecidableEq

section
variable {T : Type} [Zero T] [One T] [NatCast T] [Add T] [Sub T] [Mul T] [Div T] [Neg T] [LT T]
  [DecidableLT T] [LE T] [DecidableLE T] [BEq T] [Fns T] [More T]

/-- `AutoDiffSingle::differentiate`, `autodiff.rs:65-75`; `MAX_ORDER` is `6` (`autodiff.rs:14`). -/
def autoDiffSingle (order : ℕ) (func : Expr 1) (point : T) : Except DiffError T :=
  if order = 0 then .error .orderZero
  else if order = 1 then .ok (func.eval (fun _ => Dual.variable' point)).deriv
  else if order = 2 then .ok (func.eval (fun _ => HyperDual.variable' point)).eps1eps2
  else if order ≤ 6 then
    .ok ((func.eval (fun _ => (Jet.variable' point : Jet T 7))).derivative order)
  else .error .orderUnsupported

/-- The seeds of a first partial derivative, `autodiff.rs:160-162`. -/
def dualSeed {n : ℕ} (point : Fin n → T) (i : ℕ) : Fin n → Dual T :=
  fun k => if k.1 = i then Dual.variable' (point k) else Dual.constant (point k)

/-- The seeds of a second partial derivative, `autodiff.rs:168-173`. -/
def hyperSeed {n : ℕ} (point : Fin n → T) (i j : ℕ) : Fin n → HyperDual T :=
  fun k => ⟨point k, if k.1 = i then 1 else 0, if k.1 = j then 1 else 0, 0⟩

/-- The seeds of a third partial derivative, `autodiff.rs:182-190`. -/
def tripleSeed {n : ℕ} (point : Fin n → T) (i j k : ℕ) : Fin n → Dual (HyperDual T) :=
  fun m => ⟨⟨point m, if m.1 = i then 1 else 0, if m.1 = j then 1 else 0, 0⟩,
    ⟨if m.1 = k then 1 else 0, 0, 0, 0⟩⟩

/-- `AutoDiffMulti::differentiate`, `autodiff.rs:142-195`. -/
def autoDiffMulti {n : ℕ} (func : Expr n) (idx : List ℕ) (point : Fin n → T) :
    Except DiffError T :=
  if idx.length = 0 then .error .orderZero
  else if idx.any (fun i => decide (n ≤ i)) then .error .indexOutOfRange
  else
    match idx with
    | [i] => .ok (func.eval (dualSeed point i)).deriv
    | [i, j] => .ok (func.eval (hyperSeed point i j)).eps1eps2
    | [i, j, k] => .ok (func.eval (tripleSeed point i j k)).deriv.eps1eps2
    | _ => .error .orderUnsupported

/-- `AutoDiffMulti::jacobian_column`, `autodiff.rs:200-219`; a `VectorFn` is `m` programs. -/
def autoDiffColumn {n m : ℕ} (func : Fin m → Expr n) (col : ℕ) (point : Fin n → T) :
    Except DiffError (Fin m → T) :=
  if n ≤ col then .error .indexOutOfRange
  else .ok fun row => ((func row).eval (dualSeed point col)).deriv

omit [One T] [NatCast T] [Add T] [Sub T] [Mul T] [Div T] [Neg T] [LT T]
  [DecidableLT T] [LE T] [DecidableLE T] [BEq T] [Fns T] [More T] in
/-- `Jacobian::evaluate`, `jacobian.rs:73-98`, for any differentiator, given by its
`jacobian_column` at the point.  `evaluate_on_heap` (`jacobian.rs:115-143`) collects the same
columns. -/
def jacobianEvaluate {n m : ℕ} (column : ℕ → Except DiffError (Fin m → T)) :
    Except DiffError (Matrix (Fin m) (Fin n) T) :=
  if m = 0 then .error .emptyFunctionSet
  else
    (List.finRange n).foldlM (fun (result : Matrix (Fin m) (Fin n) T) (c : Fin n) => do
      let col ← column c
      pure (fun i j => if j = c then col i else result i j)) (fun _ _ => 0)

/-- One pass of the inner loop of `Hessian::evaluate`, `hessian.rs:81-90`. -/
def hessianStep {n : ℕ} (partial2 : Fin n → Fin n → Except DiffError T)
    (result : Fin n → Fin n → T) (rc : Fin n × Fin n) : Except DiffError (Fin n → Fin n → T) :=
  if Fns.isNan (result rc.1 rc.2) then do
    let value ← partial2 rc.1 rc.2
    let result : Fin n → Fin n → T :=
      fun i j => if i = rc.1 ∧ j = rc.2 then value else result i j
    pure fun i j => if i = rc.2 ∧ j = rc.1 then value else result i j
  else pure result

/-- `Hessian::evaluate`, `hessian.rs:71-95`, for any differentiator, given by its
`second_partial_derivative` at the point. -/
def hessianEvaluate {n : ℕ} (partial2 : Fin n → Fin n → Except DiffError T) :
    Except DiffError (Fin n → Fin n → T) :=
  ((List.finRange n).flatMap fun r => (List.finRange n).map fun c => (r, c)).foldlM
    (hessianStep partial2) (fun _ _ => Fns.nan)

end

/-! ## Finite differences -/

/-- `numerical_derivative/mode.rs`, `FiniteDifferenceMode`. -/
inductive DiffMode
  | forward | backward | central

/-- `finite_difference.rs:25-34`. -/
structure FdConfig (T : Type) where
  stepSize : T
  method : DiffMode
  multiplier : T

section
variable {T : Type} [Zero T] [One T] [NatCast T] [Add T] [Sub T] [Mul T] [Div T] [Neg T] [LT T]
  [DecidableLT T] [BEq T] [Fns T]

/-- `finite_difference.rs:16-22`. -/
def fdOffsets : DiffMode → T × T × T
  | .forward => (0, 1, 1)
  | .backward => (-1, 0, 1)
  | .central => (-1, 1, ((2 : ℕ) : T))

/-- `FiniteDifferenceConfig::check_step_size`, `finite_difference.rs:60-68`. -/
def FdConfig.check (c : FdConfig T) : Except DiffError Unit :=
  if c.stepSize == 0 then .error .stepSizeZero
  else if !(Fns.isFinite c.stepSize) || decide (c.stepSize < 0) then .error .invalidStepSize
  else .ok ()

/-- `FiniteDifferenceSingle::diff`, `finite_difference.rs:96-109`; the order is the argument plus
one (order zero is rejected before the call). -/
def fdDiff (c : FdConfig T) (f : T → T) : ℕ → T → T → T
  | 0, point, step =>
    let o : T × T × T := fdOffsets c.method
    (f (point + o.2.1 * step) - f (point + o.1 * step)) / (o.2.2 * step)
  | k + 1, point, step =>
    let o : T × T × T := fdOffsets c.method
    let next := c.multiplier * step
    (fdDiff c f k (point + o.2.1 * step) next - fdDiff c f k (point + o.1 * step) next)
      / (o.2.2 * step)

/-- `FiniteDifferenceSingle::differentiate`, `finite_difference.rs:115-121`. -/
def fdSingle (c : FdConfig T) (order : ℕ) (f : T → T) (point : T) : Except DiffError T :=
  if order = 0 then .error .orderZero
  else do
    c.check
    pure (fdDiff c f (order - 1) point c.stepSize)

/-- `FiniteDifferenceMulti::diff`, `finite_difference.rs:149-173`; the list holds
`idx_to_differentiate[0..order]` reversed, so its head is `idx_to_differentiate[order - 1]`. -/
def fdDiffMulti {n : ℕ} (c : FdConfig T) (f : (Fin n → T) → T) :
    List (Fin n) → (Fin n → T) → T → T
  | [], point, _ => f point
  | [var], point, step =>
    let o : T × T × T := fdOffsets c.method
    let lowPoint := Function.update point var (point var + o.1 * step)
    let highPoint := Function.update point var (point var + o.2.1 * step)
    (f highPoint - f lowPoint) / (o.2.2 * step)
  | var :: v :: rest, point, step =>
    let o : T × T × T := fdOffsets c.method
    let lowPoint := Function.update point var (point var + o.1 * step)
    let highPoint := Function.update point var (point var + o.2.1 * step)
    let next := c.multiplier * step
    (fdDiffMulti c f (v :: rest) highPoint next - fdDiffMulti c f (v :: rest) lowPoint next)
      / (o.2.2 * step)

/-- `FiniteDifferenceMulti::differentiate`, `finite_difference.rs:179-201`. -/
def fdMulti {n : ℕ} (c : FdConfig T) (f : (Fin n → T) → T) (idx : List ℕ) (point : Fin n → T) :
    Except DiffError T :=
  if idx.length = 0 then .error .orderZero
  else do
    c.check
    if idx.any (fun i => decide (n ≤ i)) then .error .indexOutOfRange
    else
      let vars : List (Fin n) := idx.filterMap fun i => if h : i < n then some ⟨i, h⟩ else none
      pure (fdDiffMulti c f vars.reverse point c.stepSize)

/-- `FiniteDifferenceMulti::jacobian_column`, `finite_difference.rs:206-235`. -/
def fdColumn {n m : ℕ} (c : FdConfig T) (f : (Fin n → T) → Fin m → T) (col : ℕ)
    (point : Fin n → T) : Except DiffError (Fin m → T) := do
  c.check
  if h : col < n then
    let o : T × T × T := fdOffsets c.method
    let v : Fin n := ⟨col, h⟩
    let lowPoint := Function.update point v (point v + o.1 * c.stepSize)
    let highPoint := Function.update point v (point v + o.2.1 * c.stepSize)
    pure fun row => (f highPoint row - f lowPoint row) / (o.2.2 * c.stepSize)
  else .error .indexOutOfRange

end
end Multicalc
