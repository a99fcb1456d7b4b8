import Verif.Model.Scalar

/-!
# Extended reals: the scalar with special values

`XR` is `ℝ` with `+∞`, `-∞` and NaN and the IEEE-754 rules for them.  It is the model of an `f64`
used for claims about special values (`scalar/numeric.rs:443-625`, `impl Numeric for f64`).
Simplified: there is no rounding and no overflow, and zero has no sign (it behaves as `+0`), so
`1 / 0` is `+∞`.
-/

namespace Multicalc

/-- A real, an infinity, or NaN. -/
inductive XR where
  | fin (x : ℝ)
  | pinf
  | ninf
  | nan

namespace XR
open Classical

noncomputable instance : Zero XR := ⟨fin 0⟩
noncomputable instance : One XR := ⟨fin 1⟩
noncomputable instance : NatCast XR := ⟨fun n => fin n⟩

/-- IEEE addition. -/
noncomputable def add : XR → XR → XR
  | nan, _ => nan
  | _, nan => nan
  | fin a, fin b => fin (a + b)
  | pinf, ninf => nan
  | ninf, pinf => nan
  | pinf, _ => pinf
  | _, pinf => pinf
  | ninf, _ => ninf
  | _, ninf => ninf

/-- IEEE negation. -/
noncomputable def neg : XR → XR
  | nan => nan
  | fin a => fin (-a)
  | pinf => ninf
  | ninf => pinf

/-- Infinity with the sign of a real factor; `∞ * 0` is NaN. -/
noncomputable def infTimes (x : ℝ) : XR := if x = 0 then nan else if 0 < x then pinf else ninf

/-- IEEE multiplication. -/
noncomputable def mul : XR → XR → XR
  | nan, _ => nan
  | _, nan => nan
  | fin a, fin b => fin (a * b)
  | pinf, pinf => pinf
  | ninf, ninf => pinf
  | pinf, ninf => ninf
  | ninf, pinf => ninf
  | pinf, fin b => infTimes b
  | fin a, pinf => infTimes a
  | ninf, fin b => infTimes (-b)
  | fin a, ninf => infTimes (-a)

/-- IEEE division, zero counting as `+0`. -/
noncomputable def div : XR → XR → XR
  | nan, _ => nan
  | _, nan => nan
  | fin a, fin b => if b = 0 then infTimes a else fin (a / b)
  | fin _, _ => fin 0
  | pinf, fin b => if b < 0 then ninf else pinf
  | ninf, fin b => if b < 0 then pinf else ninf
  | _, _ => nan

noncomputable instance : Add XR := ⟨add⟩
noncomputable instance : Neg XR := ⟨neg⟩
noncomputable instance : Sub XR := ⟨fun a b => add a (neg b)⟩
noncomputable instance : Mul XR := ⟨mul⟩
noncomputable instance : Div XR := ⟨div⟩

/-- IEEE `<`: false as soon as one side is NaN. -/
def lt : XR → XR → Prop
  | fin a, fin b => a < b
  | fin _, pinf => True
  | ninf, fin _ => True
  | ninf, pinf => True
  | _, _ => False

/-- IEEE `<=`. -/
def le : XR → XR → Prop
  | nan, _ => False
  | _, nan => False
  | fin a, fin b => a ≤ b
  | ninf, _ => True
  | _, pinf => True
  | _, _ => False

/-- IEEE `==`. -/
noncomputable def beq : XR → XR → Bool
  | fin a, fin b => decide (a = b)
  | pinf, pinf => true
  | ninf, ninf => true
  | _, _ => false

instance : LT XR := ⟨lt⟩
instance : LE XR := ⟨le⟩
noncomputable instance : DecidableLT XR := fun a b => propDecidable (lt a b)
noncomputable instance : DecidableLE XR := fun a b => propDecidable (le a b)
noncomputable instance : BEq XR := ⟨beq⟩

/-- `libm::fmax`, `numeric.rs:556-558`: a NaN argument is ignored. -/
noncomputable def fmax : XR → XR → XR
  | nan, b => b
  | a, nan => a
  | a, b => if a < b then b else a

/-- `libm::fmin`, `numeric.rs:560-562`: a NaN argument is ignored. -/
noncomputable def fmin : XR → XR → XR
  | nan, b => b
  | a, nan => a
  | a, b => if b < a then b else a

noncomputable instance : Max XR := ⟨fmax⟩
noncomputable instance : Min XR := ⟨fmin⟩

/-- Lifts a function that is NaN on infinities. -/
noncomputable def lift (f : ℝ → ℝ) : XR → XR
  | fin a => fin (f a)
  | _ => nan

/-- Lifts a function that fixes the infinities (`floor` and the like). -/
noncomputable def liftInf (f : ℝ → ℝ) : XR → XR
  | fin a => fin (f a)
  | a => a

/-- `libm::atan2` with the IEEE values at infinity. -/
noncomputable def atan2 : XR → XR → XR
  | nan, _ => nan
  | _, nan => nan
  | fin y, fin x => fin (Complex.arg ⟨x, y⟩)
  | fin _, pinf => fin 0
  | fin y, ninf => fin (if y < 0 then -Real.pi else Real.pi)
  | pinf, fin _ => fin (Real.pi / 2)
  | ninf, fin _ => fin (-(Real.pi / 2))
  | pinf, pinf => fin (Real.pi / 4)
  | ninf, pinf => fin (-(Real.pi / 4))
  | pinf, ninf => fin (3 * Real.pi / 4)
  | ninf, ninf => fin (-(3 * Real.pi / 4))

/-- `copysign`: NaN signs are taken positive. -/
noncomputable def copysign (a s : XR) : XR :=
  let m : XR := match a with
    | fin x => fin |x|
    | ninf => pinf
    | a => a
  if s < 0 then neg m else m

/-- `impl Numeric for f64`, `numeric.rs:443-625`, at `XR`. -/
noncomputable instance : Fns XR where
  lit q := fin q
  abs := fun
    | fin a => fin |a|
    | ninf => pinf
    | a => a
  sqrt := fun
    | fin a => if a < 0 then nan else fin (Real.sqrt a)
    | pinf => pinf
    | _ => nan
  cbrt := liftInf realCbrt
  sin := lift Real.sin
  cos := lift Real.cos
  tan := lift Real.tan
  exp := fun
    | fin a => fin (Real.exp a)
    | ninf => fin 0
    | a => a
  log := fun
    | fin a => if a < 0 then nan else if a = 0 then ninf else fin (Real.log a)
    | pinf => pinf
    | _ => nan
  expm1 := fun
    | fin a => fin (Real.exp a - 1)
    | ninf => fin (-1)
    | a => a
  ln1p := fun
    | fin a => if a < -1 then nan else if a = -1 then ninf else fin (Real.log (1 + a))
    | pinf => pinf
    | _ => nan
  atan2 := atan2
  copysign := copysign
  floor := liftInf fun x => ((⌊x⌋ : ℤ) : ℝ)
  ceil := liftInf fun x => ((⌈x⌉ : ℤ) : ℝ)
  round := liftInf roundHalfAway
  trunc := liftInf fun x => if x < 0 then ((⌈x⌉ : ℤ) : ℝ) else ((⌊x⌋ : ℤ) : ℝ)
  isNan := fun
    | nan => true
    | _ => false
  isFinite := fun
    | fin _ => true
    | _ => false
  isInfinite := fun
    | pinf => true
    | ninf => true
    | _ => false
  pi := fin Real.pi
  epsilon := fin (1 / 2 ^ 52)
  nan := nan
  infinity := pinf
  negInfinity := ninf

/-! Evaluation rules. -/

@[simp] theorem zero_def : (0 : XR) = fin 0 := rfl
@[simp] theorem one_def : (1 : XR) = fin 1 := rfl
@[simp] theorem natCast_def (n : ℕ) : (n : XR) = fin n := rfl
@[simp] theorem ofNat_def (n : ℕ) [n.AtLeastTwo] : (OfNat.ofNat n : XR) = fin (OfNat.ofNat n) := rfl
@[simp] theorem fin_add (a b : ℝ) : fin a + fin b = fin (a + b) := rfl
@[simp] theorem fin_sub (a b : ℝ) : fin a - fin b = fin (a - b) := by
  show add (fin a) (neg (fin b)) = _
  simp [add, neg, sub_eq_add_neg]
@[simp] theorem fin_mul (a b : ℝ) : fin a * fin b = fin (a * b) := rfl
@[simp] theorem fin_neg (a : ℝ) : -fin a = fin (-a) := rfl
theorem fin_div (a b : ℝ) (h : b ≠ 0) : fin a / fin b = fin (a / b) := by
  show div (fin a) (fin b) = _
  simp [div, h]
@[simp] theorem nan_add (a : XR) : nan + a = nan := by show add nan a = nan; cases a <;> rfl
@[simp] theorem add_nan (a : XR) : a + nan = nan := by show add a nan = nan; cases a <;> rfl
@[simp] theorem nan_sub (a : XR) : nan - a = nan := by
  show add nan (neg a) = nan; cases a <;> rfl
@[simp] theorem sub_nan (a : XR) : a - nan = nan := by show add a nan = nan; cases a <;> rfl
@[simp] theorem nan_mul (a : XR) : nan * a = nan := by show mul nan a = nan; cases a <;> rfl
@[simp] theorem mul_nan (a : XR) : a * nan = nan := by show mul a nan = nan; cases a <;> rfl
@[simp] theorem nan_div (a : XR) : nan / a = nan := by show div nan a = nan; cases a <;> rfl
@[simp] theorem div_nan (a : XR) : a / nan = nan := by show div a nan = nan; cases a <;> rfl
@[simp] theorem neg_nan : -nan = nan := rfl
@[simp] theorem fin_lt (a b : ℝ) : (fin a < fin b) ↔ a < b := Iff.rfl
@[simp] theorem fin_le (a b : ℝ) : (fin a ≤ fin b) ↔ a ≤ b := Iff.rfl
@[simp] theorem not_nan_lt (a : XR) : ¬ nan < a := by cases a <;> exact id
@[simp] theorem not_lt_nan (a : XR) : ¬ a < nan := by cases a <;> exact id
@[simp] theorem not_nan_le (a : XR) : ¬ nan ≤ a := by cases a <;> exact id
@[simp] theorem not_le_nan (a : XR) : ¬ a ≤ nan := by cases a <;> exact id
@[simp] theorem fin_lt_pinf (a : ℝ) : fin a < pinf := trivial
@[simp] theorem ninf_lt_fin (a : ℝ) : ninf < fin a := trivial
@[simp] theorem not_pinf_lt (a : XR) : ¬ pinf < a := by cases a <;> exact id
@[simp] theorem not_lt_ninf (a : XR) : ¬ a < ninf := by cases a <;> exact id
@[simp] theorem fin_beq (a b : ℝ) : (fin a == fin b) = decide (a = b) := rfl
@[simp] theorem nan_max (a : XR) : max nan a = a := by show fmax nan a = a; cases a <;> rfl
@[simp] theorem max_nan (a : XR) : max a nan = a := by show fmax a nan = a; cases a <;> rfl
@[simp] theorem nan_min (a : XR) : min nan a = a := by show fmin nan a = a; cases a <;> rfl
@[simp] theorem min_nan (a : XR) : min a nan = a := by show fmin a nan = a; cases a <;> rfl
@[simp] theorem fin_max (a b : ℝ) : max (fin a) (fin b) = fin (max a b) := by
  show fmax (fin a) (fin b) = _
  simp only [fmax, fin_lt]
  split
  · next h => rw [max_eq_right h.le]
  · next h => rw [max_eq_left (not_lt.mp h)]
@[simp] theorem fin_min (a b : ℝ) : min (fin a) (fin b) = fin (min a b) := by
  show fmin (fin a) (fin b) = _
  simp only [fmin, fin_lt]
  split
  · next h => rw [min_eq_right h.le]
  · next h => rw [min_eq_left (not_lt.mp h)]

theorem le_of_not_lt {a b : XR} (ha : a ≠ nan) (hb : b ≠ nan) (h : ¬ b < a) : a ≤ b := by
  cases a with
  | nan => exact absurd rfl ha
  | fin a =>
    cases b with
    | nan => exact absurd rfl hb
    | fin b => exact (fin_le a b).mpr (not_lt.mp fun hc => h ((fin_lt b a).mpr hc))
    | pinf => trivial
    | ninf => exact absurd trivial h
  | pinf =>
    cases b with
    | nan => exact absurd rfl hb
    | fin b => exact absurd trivial h
    | pinf => trivial
    | ninf => exact absurd trivial h
  | ninf =>
    cases b with
    | nan => exact absurd rfl hb
    | fin b => trivial
    | pinf => trivial
    | ninf => trivial

theorem lt_le {a b : XR} (h : a < b) : a ≤ b := by
  cases a <;> cases b <;> first | exact (fin_le _ _).mpr (le_of_lt ((fin_lt _ _).mp h)) | trivial

theorem max_of_ne {a b : XR} (ha : a ≠ nan) (hb : b ≠ nan) : max a b = if a < b then b else a := by
  show fmax a b = _
  cases a <;> cases b <;> first | rfl | exact absurd rfl ha | exact absurd rfl hb

theorem min_of_ne {a b : XR} (ha : a ≠ nan) (hb : b ≠ nan) : min a b = if b < a then b else a := by
  show fmin a b = _
  cases a <;> cases b <;> first | rfl | exact absurd rfl ha | exact absurd rfl hb

theorem not_lt_self (a : XR) : ¬ a < a := by
  cases a with
  | fin a => exact lt_irrefl a
  | _ => exact id

end XR
end Multicalc
