import Mathlib.Analysis.SpecialFunctions.Trigonometric.Basic
import Mathlib.Analysis.SpecialFunctions.Complex.Arg
import Mathlib.Analysis.SpecialFunctions.Log.Basic
import Mathlib.Analysis.SpecialFunctions.Pow.Real

/-!
# The scalar interface

Models `crates/multicalc/src/scalar/numeric.rs`.

Arithmetic and comparison come from the ordinary Lean classes (`Add T`, `LT T`, ...), so that at
`ℝ` they are Mathlib's.  Everything else a scalar offers is collected in `Fns`.
No law is attached to any of these classes: a theorem that only assumes them holds for `f32`/`f64`
with rounding, NaN and infinities.
-/

namespace Multicalc

/-- The non-arithmetic operations of a scalar.
Models `scalar/numeric.rs:11-441` (`trait Numeric`).
Simplified: `from_f64` is only used by the library on decimal literals, here `lit` takes the
literal as a rational; `from_u64`/`from_usize` are the `NatCast` instance. -/
class Fns (T : Type) where
  /-- `from_f64` on a literal, `numeric.rs:81` -/
  lit : ℚ → T
  /-- `numeric.rs:88` -/
  abs : T → T
  /-- `numeric.rs:90` -/
  sqrt : T → T
  /-- `numeric.rs:99` -/
  cbrt : T → T
  /-- `numeric.rs:101` -/
  sin : T → T
  /-- `numeric.rs:103` -/
  cos : T → T
  /-- `numeric.rs:105` -/
  tan : T → T
  /-- `numeric.rs:107` -/
  exp : T → T
  /-- `numeric.rs:109` -/
  log : T → T
  /-- `numeric.rs:122` -/
  expm1 : T → T
  /-- `numeric.rs:137` -/
  ln1p : T → T
  /-- `y.atan2(x)`, `numeric.rs:173` -/
  atan2 : T → T → T
  /-- `numeric.rs:176` -/
  copysign : T → T → T
  /-- `numeric.rs:182` -/
  floor : T → T
  /-- `numeric.rs:195` -/
  ceil : T → T
  /-- round half away from zero, `numeric.rs:201,544` -/
  round : T → T
  /-- `numeric.rs:214` -/
  trunc : T → T
  /-- `numeric.rs:436` -/
  isNan : T → Bool
  /-- `numeric.rs:438` -/
  isFinite : T → Bool
  /-- `numeric.rs:440` -/
  isInfinite : T → Bool
  /-- `numeric.rs:45` -/
  pi : T
  /-- `numeric.rs:49` -/
  epsilon : T
  /-- `numeric.rs:55` -/
  nan : T
  /-- `numeric.rs:57` -/
  infinity : T
  /-- `numeric.rs:59` -/
  negInfinity : T

/-- Round half away from zero on the reals (`libm::round`, used at `numeric.rs:544-546`). -/
noncomputable def roundHalfAway (x : ℝ) : ℝ :=
  if x < 0 then -((⌊-x + 1 / 2⌋ : ℤ) : ℝ) else ((⌊x + 1 / 2⌋ : ℤ) : ℝ)

/-- Real cube root, odd extension (`libm::cbrt`, `numeric.rs:487-489`). -/
noncomputable def realCbrt (x : ℝ) : ℝ :=
  if x < 0 then -((-x) ^ ((1 : ℝ) / 3)) else x ^ ((1 : ℝ) / 3)

/-- The scalar interface at exact real arithmetic.  Every value is finite.
The `epsilon` is the one of `f64` (`2^-52`), `numeric.rs:454`.
Simplified: `nan` and the infinities have no real counterpart and are given the junk value `0`;
no theorem about `ℝ` may rely on them (theorems about special values use `XR`). -/
noncomputable instance : Fns ℝ where
  lit q := (q : ℝ)
  abs x := |x|
  sqrt := Real.sqrt
  cbrt := realCbrt
  sin := Real.sin
  cos := Real.cos
  tan := Real.tan
  exp := Real.exp
  log := Real.log
  expm1 x := Real.exp x - 1
  ln1p x := Real.log (1 + x)
  atan2 y x := Complex.arg ⟨x, y⟩
  copysign x s := if s < 0 then -|x| else |x|
  floor x := ((⌊x⌋ : ℤ) : ℝ)
  ceil x := ((⌈x⌉ : ℤ) : ℝ)
  round := roundHalfAway
  trunc x := if x < 0 then ((⌈x⌉ : ℤ) : ℝ) else ((⌊x⌋ : ℤ) : ℝ)
  isNan _ := false
  isFinite _ := true
  isInfinite _ := false
  pi := Real.pi
  epsilon := 1 / 2 ^ 52
  nan := 0
  infinity := 0
  negInfinity := 0

section
variable {T : Type}

/-- `Numeric::max` default, `numeric.rs:253-255`.  For `f64` the code uses `libm::fmax`
(`numeric.rs:556`), which agrees when neither argument is NaN (up to the sign of zero); models of
code that calls `max`/`min` on a scalar use the classes `Max T`/`Min T`, so that at `XR` they are
`fmax`/`fmin`. -/
def smax [LT T] [DecidableLT T] (a b : T) : T := if b < a then a else b

/-- `Numeric::min` default, `numeric.rs:263-265`.  See `smax`. -/
def smin [LT T] [DecidableLT T] (a b : T) : T := if a < b then a else b

/-- `Numeric::clamp` of `f64`, `numeric.rs:552-554`, i.e. `core`'s `f64::clamp`:
`if x < min {x = min} if x > max {x = max} x`.  `core` asserts `min <= max`; the panic is `none`. -/
def sclamp [LT T] [DecidableLT T] [LE T] [DecidableLE T] (x lo hi : T) : Option T :=
  if lo ≤ hi then
    let x := if x < lo then lo else x
    some (if hi < x then hi else x)
  else none

/-- `Numeric::signum` default, `numeric.rs:237-245`. -/
def signum [Zero T] [One T] [Neg T] [LT T] [DecidableLT T] (x : T) : T :=
  if x < 0 then -1 else if 0 < x then 1 else 0

/-- `Numeric::wrap_to_pi`, `numeric.rs:284-286`; `TWO_PI` is `PI * 2`, `numeric.rs:453`. -/
def wrapToPi [NatCast T] [Sub T] [Mul T] [Div T] [Fns T] (x : T) : T :=
  x - (Fns.pi * 2) * Fns.round (x / (Fns.pi * 2))

/-- `Numeric::hypot` default, `numeric.rs:354-364`. -/
def hypot [Zero T] [One T] [Add T] [Mul T] [Div T] [LT T] [DecidableLT T] [BEq T] [Fns T]
    (x y : T) : T :=
  let a := Fns.abs x
  let b := Fns.abs y
  let p := if b < a then (a, b) else (b, a)
  if p.1 == 0 then 0
  else
    let ratio := p.2 / p.1
    p.1 * Fns.sqrt (1 + ratio * ratio)

/-- The loop of `Numeric::powi`, `numeric.rs:396-404`: state is `(exponent, base, acc)`. -/
def powiLoop [Mul T] (exponent : Nat) (base acc : T) : T :=
  if _h : exponent = 0 then acc
  else
    let acc := if exponent % 2 = 1 then acc * base else acc
    let e := exponent / 2
    let base := if e > 0 then base * base else base
    powiLoop e base acc
termination_by exponent
decreasing_by omega

/-- `Numeric::powi`, `numeric.rs:391-407`; the exponent is an `i32`, here any integer. -/
def powi [One T] [Mul T] [Div T] (x : T) (n : Int) : T :=
  let acc := powiLoop n.natAbs x 1
  if n < 0 then 1 / acc else acc

/-- `Numeric::safe_div`, `numeric.rs:419-433`. -/
def safeDiv [Zero T] [Div T] [LT T] [DecidableLT T] [BEq T] [Fns T] (x y : T) : T :=
  if y == 0 then
    if Fns.isNan x then Fns.nan
    else if x < 0 then Fns.negInfinity
    else if 0 < x then Fns.infinity
    else Fns.nan
  else x / y

/-- `Numeric::asin` default, `numeric.rs:324-326`. -/
def asin [One T] [Sub T] [Mul T] [Fns T] (x : T) : T := Fns.atan2 x (Fns.sqrt (1 - x * x))

/-- `Numeric::acos` default, `numeric.rs:330-332`. -/
def acos [One T] [Sub T] [Mul T] [Fns T] (x : T) : T := Fns.atan2 (Fns.sqrt (1 - x * x)) x

/-- `Numeric::atan` default, `numeric.rs:318-320`. -/
def atan [One T] [Fns T] (x : T) : T := Fns.atan2 x 1

end
end Multicalc
