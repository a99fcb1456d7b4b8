import Verif.Model.Autodiff
import Mathlib.Analysis.Calculus.Deriv.Pow
import Mathlib.Analysis.Calculus.Deriv.Inv
import Mathlib.Analysis.Calculus.Deriv.Abs
import Mathlib.Analysis.SpecialFunctions.Complex.Log
import Mathlib.Analysis.Calculus.ContDiff.Operations
import Mathlib.Analysis.SpecialFunctions.Sqrt
import Mathlib.Analysis.SpecialFunctions.Log.Deriv
import Mathlib.Analysis.SpecialFunctions.ExpDeriv
import Mathlib.Analysis.SpecialFunctions.Trigonometric.Deriv
import Mathlib.Analysis.SpecialFunctions.Trigonometric.ArctanDeriv
import Mathlib.Analysis.SpecialFunctions.Pow.Deriv
import Mathlib.Analysis.SpecialFunctions.Complex.LogDeriv
import Mathlib.Tactic

/-!
# Where the primitive operations are differentiable, and their derivatives
-/

open Filter Topology

namespace Multicalc

/-- The points at which a unary primitive, as a real function, is smooth. -/
def UnOp.SmoothAt : UnOp → ℝ → Prop
  | neg, _ | sin, _ | cos, _ | exp, _ | expm1, _ => True
  | abs, x | cbrt, x => x ≠ 0
  | sqrt, x | log, x | log2, x | log10, x => 0 < x
  | ln1p, x => 0 < 1 + x
  | tan, x => Real.cos x ≠ 0
  | floor, x | ceil, x => ∀ n : ℤ, x ≠ n
  | round, x => ∀ n : ℤ, x ≠ n + 1 / 2
  | trunc, x => ∀ n : ℤ, x = n → n = 0
  | clamp lo hi, x => x ≠ lo ∧ x ≠ hi

/-- The points at which a binary primitive is smooth. -/
def BinOp.SmoothAt : BinOp → ℝ → ℝ → Prop
  | add, _, _ | sub, _, _ | mul, _, _ => True
  | div, _, y => y ≠ 0
  | atan2, y, x => 0 < x ∨ y ≠ 0
  | copysign, x, s => x ≠ 0 ∧ s ≠ 0

/-- A program is smooth at a point when every operation it performs there is, and no comparison it
makes there is a tie. -/
def Expr.SmoothAt {n : ℕ} (x : Fin n → ℝ) : Expr n → Prop
  | var _ | lit _ | nat _ | pi => True
  | un op a => a.SmoothAt x ∧ op.SmoothAt (a.eval x)
  | bin op a b => a.SmoothAt x ∧ b.SmoothAt x ∧ op.SmoothAt (a.eval x) (b.eval x)
  | ite c a b t e => a.SmoothAt x ∧ b.SmoothAt x ∧ a.eval x ≠ b.eval x ∧
      (if c.eval (a.eval x) (b.eval x) then t.SmoothAt x else e.SmoothAt x)

/-- First derivative of a unary primitive. -/
noncomputable def UnOp.d1 : UnOp → ℝ → ℝ
  | neg, _ => -1
  | abs, x => if x < 0 then -1 else 1
  | sqrt, x => 1 / (2 * Real.sqrt x)
  | cbrt, x => 1 / (3 * realCbrt x ^ 2)
  | sin, x => Real.cos x
  | cos, x => -Real.sin x
  | tan, x => 1 + Real.tan x ^ 2
  | exp, x | expm1, x => Real.exp x
  | log, x => 1 / x
  | ln1p, x => 1 / (1 + x)
  | log2, x => 1 / x / Real.log 2
  | log10, x => 1 / x / Real.log 10
  | floor, _ | ceil, _ | round, _ | trunc, _ => 0
  | clamp lo hi, x => if x < lo then 0 else if hi < x then 0 else 1

/-- Second derivative of a unary primitive. -/
noncomputable def UnOp.d2 : UnOp → ℝ → ℝ
  | neg, _ | abs, _ => 0
  | sqrt, x => -(1 / (4 * x * Real.sqrt x))
  | cbrt, x => -(2 / (9 * realCbrt x ^ 5))
  | sin, x => -Real.sin x
  | cos, x => -Real.cos x
  | tan, x => 2 * Real.tan x * (1 + Real.tan x ^ 2)
  | exp, x | expm1, x => Real.exp x
  | log, x => -(1 / x ^ 2)
  | ln1p, x => -(1 / (1 + x) ^ 2)
  | log2, x => -(1 / x ^ 2) / Real.log 2
  | log10, x => -(1 / x ^ 2) / Real.log 10
  | floor, _ | ceil, _ | round, _ | trunc, _ | clamp _ _, _ => 0

/-- Third derivative of a unary primitive. -/
noncomputable def UnOp.d3 : UnOp → ℝ → ℝ
  | neg, _ | abs, _ => 0
  | sqrt, x => 3 / (8 * x ^ 2 * Real.sqrt x)
  | cbrt, x => 10 / (27 * realCbrt x ^ 8)
  | sin, x => -Real.cos x
  | cos, x => Real.sin x
  | tan, x => (2 + 6 * Real.tan x ^ 2) * (1 + Real.tan x ^ 2)
  | exp, x | expm1, x => Real.exp x
  | log, x => 2 / x ^ 3
  | ln1p, x => 2 / (1 + x) ^ 3
  | log2, x => 2 / x ^ 3 / Real.log 2
  | log10, x => 2 / x ^ 3 / Real.log 10
  | floor, _ | ceil, _ | round, _ | trunc, _ | clamp _ _, _ => 0

/-! ### The cube root -/

theorem realCbrt_cube (x : ℝ) : realCbrt x ^ 3 = x := by
  unfold realCbrt
  have key : ∀ y : ℝ, 0 ≤ y → (y ^ ((1 : ℝ) / 3)) ^ 3 = y := by
    intro y hy
    rw [← Real.rpow_natCast, ← Real.rpow_mul hy]
    norm_num
  split_ifs with h
  · rw [Odd.neg_pow (by decide), key _ (by linarith), neg_neg]
  · exact key x (not_lt.mp h)

theorem realCbrt_ne {x : ℝ} (hx : x ≠ 0) : realCbrt x ≠ 0 := by
  intro h
  apply hx
  rw [← realCbrt_cube x, h]
  norm_num

theorem hasDerivAt_realCbrt {x : ℝ} (hx : x ≠ 0) :
    HasDerivAt realCbrt (1 / (3 * realCbrt x ^ 2)) x := by
  have hpos : ∀ y : ℝ, 0 < y →
      HasDerivAt (fun y : ℝ => y ^ ((1 : ℝ) / 3)) (1 / (3 * (y ^ ((1 : ℝ) / 3)) ^ 2)) y := by
    intro y hy
    refine (Real.hasDerivAt_rpow_const (p := 1 / 3) (Or.inl hy.ne')).congr_deriv ?_
    rw [← Real.rpow_natCast, ← Real.rpow_mul hy.le, one_div (3 * _), mul_inv, ← Real.rpow_neg hy.le]
    norm_num
  rcases lt_or_gt_of_ne hx with h | h
  · have hev : realCbrt =ᶠ[𝓝 x] fun y => -((-y) ^ ((1 : ℝ) / 3)) := by
      filter_upwards [eventually_lt_nhds h] with y hy
      unfold realCbrt
      rw [if_pos hy]
    have h1 := ((hpos (-x) (by linarith)).comp x (hasDerivAt_neg x)).neg
    refine HasDerivAt.congr_of_eventuallyEq (h1.congr_deriv ?_) hev
    have : realCbrt x = -((-x) ^ ((1 : ℝ) / 3)) := by unfold realCbrt; rw [if_pos h]
    rw [this]
    ring
  · have hev : realCbrt =ᶠ[𝓝 x] fun y => y ^ ((1 : ℝ) / 3) := by
      filter_upwards [eventually_gt_nhds h] with y hy
      unfold realCbrt
      rw [if_neg (not_lt.mpr (le_of_lt hy))]
    refine HasDerivAt.congr_of_eventuallyEq ((hpos x h).congr_deriv ?_) hev
    have : realCbrt x = x ^ ((1 : ℝ) / 3) := by
      unfold realCbrt; rw [if_neg (not_lt.mpr h.le)]
    rw [this]

/-! ### Locally constant operations -/

theorem floor_eventually {x : ℝ} (h : ∀ n : ℤ, x ≠ n) : ∀ᶠ y in 𝓝 x, ⌊y⌋ = ⌊x⌋ := by
  have h1 : (⌊x⌋ : ℝ) < x := lt_of_le_of_ne (Int.floor_le x) (h _).symm
  filter_upwards [Ioo_mem_nhds h1 (Int.lt_floor_add_one x)] with y hy
  rw [Int.floor_eq_iff]
  exact ⟨hy.1.le, hy.2⟩

theorem ceil_eventually {x : ℝ} (h : ∀ n : ℤ, x ≠ n) : ∀ᶠ y in 𝓝 x, ⌈y⌉ = ⌈x⌉ := by
  have h1 : x < (⌈x⌉ : ℝ) := lt_of_le_of_ne (Int.le_ceil x) (h _)
  have h2 : (⌈x⌉ : ℝ) - 1 < x := by linarith [Int.ceil_lt_add_one x]
  filter_upwards [Ioo_mem_nhds h2 h1] with y hy
  rw [Int.ceil_eq_iff]
  exact ⟨hy.1, hy.2.le⟩

/-- A smooth rounding operation is constant nearby. -/
theorem UnOp.locally_constant {x : ℝ} :
    (UnOp.floor.SmoothAt x → ∀ᶠ y in 𝓝 x, UnOp.floor.eval y = UnOp.floor.eval x) ∧
    (UnOp.ceil.SmoothAt x → ∀ᶠ y in 𝓝 x, UnOp.ceil.eval y = UnOp.ceil.eval x) ∧
    (UnOp.round.SmoothAt x → ∀ᶠ y in 𝓝 x, UnOp.round.eval y = UnOp.round.eval x) ∧
    (UnOp.trunc.SmoothAt x → ∀ᶠ y in 𝓝 x, UnOp.trunc.eval y = UnOp.trunc.eval x) := by
  refine ⟨fun h => ?_, fun h => ?_, fun h => ?_, fun h => ?_⟩
  · filter_upwards [floor_eventually h] with y hy
    show ((⌊y⌋ : ℤ) : ℝ) = ((⌊x⌋ : ℤ) : ℝ)
    rw [hy]
  · filter_upwards [ceil_eventually h] with y hy
    show ((⌈y⌉ : ℤ) : ℝ) = ((⌈x⌉ : ℤ) : ℝ)
    rw [hy]
  · show ∀ᶠ y in 𝓝 x, roundHalfAway y = roundHalfAway x
    rcases lt_trichotomy x 0 with hx | hx | hx
    · have h1 : ∀ n : ℤ, -x + 1 / 2 ≠ n := by
        intro n hn
        apply h (-n)
        push_cast
        linarith
      have h2 : Tendsto (fun y : ℝ => -y + 1 / 2) (𝓝 x) (𝓝 (-x + 1 / 2)) := by
        have : Continuous (fun y : ℝ => -y + 1 / 2) := by fun_prop
        exact this.tendsto x
      filter_upwards [h2.eventually (floor_eventually h1), eventually_lt_nhds hx] with y hy hy0
      unfold roundHalfAway
      rw [if_pos hx, if_pos hy0, hy]
    · subst hx
      have : roundHalfAway 0 = 0 := by unfold roundHalfAway; norm_num
      rw [this]
      filter_upwards [Ioo_mem_nhds (show (-1 / 2 : ℝ) < 0 by norm_num)
        (show (0 : ℝ) < 1 / 2 by norm_num)] with y hy
      unfold roundHalfAway
      split_ifs with h0
      · have : ⌊-y + 1 / 2⌋ = 0 := by
          rw [Int.floor_eq_iff]; push_cast; constructor <;> linarith [hy.1, hy.2]
        rw [this]; simp
      · have : ⌊y + 1 / 2⌋ = 0 := by
          rw [Int.floor_eq_iff]; push_cast; constructor <;> linarith [hy.1, hy.2]
        rw [this]; simp
    · have h1 : ∀ n : ℤ, x + 1 / 2 ≠ n := by
        intro n hn
        apply h (n - 1)
        push_cast
        linarith
      have h2 : Tendsto (fun y : ℝ => y + 1 / 2) (𝓝 x) (𝓝 (x + 1 / 2)) := by
        have : Continuous (fun y : ℝ => y + 1 / 2) := by fun_prop
        exact this.tendsto x
      filter_upwards [h2.eventually (floor_eventually h1), eventually_gt_nhds hx] with y hy hy0
      unfold roundHalfAway
      rw [if_neg (not_lt.mpr hx.le), if_neg (not_lt.mpr (le_of_lt hy0)), hy]
  · show ∀ᶠ y in 𝓝 x, (if y < 0 then ((⌈y⌉ : ℤ) : ℝ) else ((⌊y⌋ : ℤ) : ℝ)) =
      if x < 0 then ((⌈x⌉ : ℤ) : ℝ) else ((⌊x⌋ : ℤ) : ℝ)
    rcases lt_trichotomy x 0 with hx | hx | hx
    · have h1 : ∀ n : ℤ, x ≠ n := by
        intro n hn
        have := h n hn
        rw [this] at hn
        simp at hn
        linarith
      filter_upwards [ceil_eventually h1, eventually_lt_nhds hx] with y hy hy0
      rw [if_pos hx, if_pos hy0, hy]
    · subst hx
      filter_upwards [Ioo_mem_nhds (show (-1 : ℝ) < 0 by norm_num)
        (show (0 : ℝ) < 1 by norm_num)] with y hy
      simp only [lt_irrefl, if_false, Int.floor_zero, Int.cast_zero]
      split_ifs with h0
      · have : ⌈y⌉ = 0 := by
          rw [Int.ceil_eq_iff]; push_cast; constructor <;> linarith [hy.1, hy.2]
        rw [this]; simp
      · have : ⌊y⌋ = 0 := by
          rw [Int.floor_eq_iff]; push_cast; constructor <;> linarith [hy.1, hy.2]
        rw [this]; simp
    · have h1 : ∀ n : ℤ, x ≠ n := by
        intro n hn
        have := h n hn
        rw [this] at hn
        simp at hn
        linarith
      filter_upwards [floor_eventually h1, eventually_gt_nhds hx] with y hy hy0
      rw [if_neg (not_lt.mpr hx.le), if_neg (not_lt.mpr (le_of_lt hy0)), hy]

/-! ### The derivatives of the unary primitives -/

theorem hasDerivAt_of_const {f : ℝ → ℝ} {x : ℝ} (h : ∀ᶠ y in 𝓝 x, f y = f x) :
    HasDerivAt f 0 x :=
  (hasDerivAt_const x (f x)).congr_of_eventuallyEq h

theorem UnOp.eval_clamp (lo hi : ℚ) (x : ℝ) :
    (UnOp.clamp lo hi).eval x = if x < lo then (lo : ℝ) else if (hi : ℝ) < x then hi else x := rfl

theorem UnOp.hasDerivAt (op : UnOp) {x : ℝ} (h : op.SmoothAt x) :
    HasDerivAt op.eval (op.d1 x) x := by
  cases op with
  | neg => exact hasDerivAt_neg x
  | abs =>
    show HasDerivAt (fun x : ℝ => |x|) (if x < 0 then -1 else 1) x
    rcases lt_or_gt_of_ne (show x ≠ 0 from h) with h | h
    · rw [if_pos h]; exact hasDerivAt_abs_neg h
    · rw [if_neg (not_lt.mpr h.le)]; exact hasDerivAt_abs_pos h
  | sqrt => exact Real.hasDerivAt_sqrt (ne_of_gt h)
  | cbrt => exact hasDerivAt_realCbrt h
  | sin => exact Real.hasDerivAt_sin x
  | cos => exact Real.hasDerivAt_cos x
  | tan =>
    refine (Real.hasDerivAt_tan h).congr_deriv ?_
    show _ = 1 + Real.tan x ^ 2
    rw [Real.tan_eq_sin_div_cos]
    have hc : Real.cos x ≠ 0 := h
    field_simp
    linarith [Real.sin_sq_add_cos_sq x]
  | exp => exact Real.hasDerivAt_exp x
  | expm1 => exact (Real.hasDerivAt_exp x).sub_const 1
  | log => exact (Real.hasDerivAt_log (ne_of_gt h)).congr_deriv (one_div x).symm
  | ln1p =>
    have h1 : HasDerivAt (fun x : ℝ => 1 + x) 1 x := (hasDerivAt_id x).const_add 1
    exact h1.log (ne_of_gt h)
  | log2 => exact ((Real.hasDerivAt_log (ne_of_gt h)).congr_deriv (one_div x).symm).div_const _
  | log10 => exact ((Real.hasDerivAt_log (ne_of_gt h)).congr_deriv (one_div x).symm).div_const _
  | floor => exact hasDerivAt_of_const (UnOp.locally_constant.1 h)
  | ceil => exact hasDerivAt_of_const (UnOp.locally_constant.2.1 h)
  | round => exact hasDerivAt_of_const (UnOp.locally_constant.2.2.1 h)
  | trunc => exact hasDerivAt_of_const (UnOp.locally_constant.2.2.2 h)
  | clamp lo hi =>
    obtain ⟨h1, h2⟩ : x ≠ lo ∧ x ≠ hi := h
    show HasDerivAt _ (if x < lo then 0 else if (hi : ℝ) < x then 0 else 1) x
    split_ifs with ha hb
    · apply hasDerivAt_of_const
      filter_upwards [eventually_lt_nhds ha] with y hy
      rw [UnOp.eval_clamp, UnOp.eval_clamp, if_pos ha, if_pos hy]
    · have ha' := lt_of_le_of_ne (not_lt.mp ha) h1.symm
      apply hasDerivAt_of_const
      filter_upwards [eventually_gt_nhds ha', eventually_gt_nhds hb] with y hy hy'
      rw [UnOp.eval_clamp, UnOp.eval_clamp, if_neg ha, if_pos hb, if_neg (not_lt.mpr (le_of_lt hy)),
        if_pos hy']
    · have ha' := lt_of_le_of_ne (not_lt.mp ha) h1.symm
      have hb' := lt_of_le_of_ne (not_lt.mp hb) h2
      refine (hasDerivAt_id x).congr_of_eventuallyEq ?_
      filter_upwards [eventually_gt_nhds ha', eventually_lt_nhds hb'] with y hy hy'
      rw [UnOp.eval_clamp, if_neg (not_lt.mpr (le_of_lt hy)), if_neg (not_lt.mpr (le_of_lt hy'))]
      rfl

theorem UnOp.hasDerivAt_d1 (op : UnOp) {x : ℝ} (h : op.SmoothAt x) :
    HasDerivAt op.d1 (op.d2 x) x := by
  cases op with
  | neg => exact hasDerivAt_const x _
  | abs =>
    apply hasDerivAt_of_const
    show ∀ᶠ y in 𝓝 x, (if y < 0 then (-1 : ℝ) else 1) = if x < 0 then -1 else 1
    rcases lt_or_gt_of_ne (show x ≠ 0 from h) with h | h
    · filter_upwards [eventually_lt_nhds h] with y hy
      rw [if_pos h, if_pos hy]
    · filter_upwards [eventually_gt_nhds h] with y hy
      rw [if_neg (not_lt.mpr h.le), if_neg (not_lt.mpr (le_of_lt hy))]
  | sqrt =>
    have hx : 0 < x := h
    have hs := Real.sqrt_pos.mpr hx
    have h1 := ((Real.hasDerivAt_sqrt hx.ne').const_mul 2).inv (by positivity)
    refine HasDerivAt.congr_of_eventuallyEq (h1.congr_deriv ?_)
      (Eventually.of_forall fun y => one_div _)
    show _ = -(1 / (4 * x * Real.sqrt x))
    have hsq := Real.sq_sqrt hx.le
    generalize Real.sqrt x = s at hs hsq ⊢
    rw [← hsq]
    field_simp
    norm_num
    try ring
  | cbrt =>
    have hx : x ≠ 0 := h
    have hs := realCbrt_ne hx
    have h1 := (((hasDerivAt_realCbrt hx).pow 2).const_mul 3).inv
      (mul_ne_zero (by norm_num) (pow_ne_zero 2 hs))
    refine HasDerivAt.congr_of_eventuallyEq (h1.congr_deriv ?_)
      (Eventually.of_forall fun y => one_div _)
    show _ = -(2 / (9 * realCbrt x ^ 5))
    simp only [Pi.pow_apply]
    field_simp
    norm_num
    try ring
  | sin => exact Real.hasDerivAt_cos x
  | cos => exact (Real.hasDerivAt_sin x).neg
  | tan =>
    have h1 := (((UnOp.hasDerivAt .tan h).pow 2).const_add 1)
    refine h1.congr_deriv ?_
    show _ * Real.tan x ^ _ * (1 + Real.tan x ^ 2) = 2 * Real.tan x * (1 + Real.tan x ^ 2)
    norm_num
  | exp => exact Real.hasDerivAt_exp x
  | expm1 => exact Real.hasDerivAt_exp x
  | log =>
    have hx : x ≠ 0 := ne_of_gt h
    refine HasDerivAt.congr_of_eventuallyEq ((hasDerivAt_inv hx).congr_deriv ?_)
      (Eventually.of_forall fun y => one_div _)
    show _ = -(1 / x ^ 2)
    rw [one_div]
  | ln1p =>
    have hx : 1 + x ≠ 0 := ne_of_gt h
    have h1 : HasDerivAt (fun x : ℝ => 1 + x) 1 x := (hasDerivAt_id x).const_add 1
    refine HasDerivAt.congr_of_eventuallyEq ((h1.inv hx).congr_deriv ?_)
      (Eventually.of_forall fun y => one_div _)
    show _ = -(1 / (1 + x) ^ 2)
    rw [neg_div]
  | log2 =>
    have hx : x ≠ 0 := ne_of_gt h
    refine HasDerivAt.div_const (c := fun y => 1 / y) ?_ _
    refine HasDerivAt.congr_of_eventuallyEq ((hasDerivAt_inv hx).congr_deriv ?_)
      (Eventually.of_forall fun y => one_div _)
    rw [one_div]
  | log10 =>
    have hx : x ≠ 0 := ne_of_gt h
    refine HasDerivAt.div_const (c := fun y => 1 / y) ?_ _
    refine HasDerivAt.congr_of_eventuallyEq ((hasDerivAt_inv hx).congr_deriv ?_)
      (Eventually.of_forall fun y => one_div _)
    rw [one_div]
  | floor => exact hasDerivAt_const x _
  | ceil => exact hasDerivAt_const x _
  | round => exact hasDerivAt_const x _
  | trunc => exact hasDerivAt_const x _
  | clamp lo hi =>
    obtain ⟨h1, h2⟩ : x ≠ lo ∧ x ≠ hi := h
    apply hasDerivAt_of_const
    show ∀ᶠ y in 𝓝 x, (if y < (lo : ℝ) then (0 : ℝ) else if (hi : ℝ) < y then 0 else 1) =
      if x < lo then (0 : ℝ) else if (hi : ℝ) < x then 0 else 1
    rcases lt_or_gt_of_ne h1 with ha | ha
    · filter_upwards [eventually_lt_nhds ha] with y hy
      rw [if_pos ha, if_pos hy]
    · rcases lt_or_gt_of_ne h2 with hb | hb
      · filter_upwards [eventually_gt_nhds ha, eventually_lt_nhds hb] with y hy hy'
        rw [if_neg (not_lt.mpr ha.le), if_neg (not_lt.mpr (le_of_lt hy)),
          if_neg (not_lt.mpr hb.le), if_neg (not_lt.mpr (le_of_lt hy'))]
      · filter_upwards [eventually_gt_nhds ha, eventually_gt_nhds hb] with y hy hy'
        rw [if_neg (not_lt.mpr ha.le), if_neg (not_lt.mpr (le_of_lt hy)), if_pos hb, if_pos hy']

theorem UnOp.hasDerivAt_d2 (op : UnOp) {x : ℝ} (h : op.SmoothAt x) :
    HasDerivAt op.d2 (op.d3 x) x := by
  cases op with
  | sqrt =>
    have hx : 0 < x := h
    have hs := Real.sqrt_pos.mpr hx
    have h1 := ((((hasDerivAt_id x).const_mul 4).mul (Real.hasDerivAt_sqrt hx.ne')).inv
      (by simp only [Pi.mul_apply, id]; positivity)).neg
    refine HasDerivAt.congr_of_eventuallyEq (h1.congr_deriv ?_)
      (Eventually.of_forall fun y => by simp [UnOp.d2, mul_assoc])
    show _ = 3 / (8 * x ^ 2 * Real.sqrt x)
    simp only [Pi.mul_apply, id]
    have hsq := Real.sq_sqrt hx.le
    generalize Real.sqrt x = s at hs hsq ⊢
    subst hsq
    field_simp
    ring
  | cbrt =>
    have hx : x ≠ 0 := h
    have hs := realCbrt_ne hx
    have h1 := (((((hasDerivAt_realCbrt hx).pow 5).const_mul 9).inv
      (mul_ne_zero (by norm_num) (pow_ne_zero 5 hs))).const_mul
      2).neg
    refine HasDerivAt.congr_of_eventuallyEq (h1.congr_deriv ?_)
      (Eventually.of_forall fun y => by simp [UnOp.d2, div_eq_mul_inv])
    show _ = 10 / (27 * realCbrt x ^ 8)
    simp only [Pi.pow_apply]
    field_simp
    norm_num
    try ring
  | sin => exact (Real.hasDerivAt_sin x).neg
  | cos => exact (Real.hasDerivAt_cos x).neg.congr_deriv (neg_neg _)
  | tan =>
    have ht := UnOp.hasDerivAt .tan h
    have h1 := (ht.const_mul 2).mul ((ht.pow 2).const_add 1)
    refine h1.congr_deriv ?_
    show 2 * (1 + Real.tan x ^ 2) * (1 + Real.tan x ^ 2) + 2 * Real.tan x *
      (_ * Real.tan x ^ _ * (1 + Real.tan x ^ 2)) = (2 + 6 * Real.tan x ^ 2) * (1 + Real.tan x ^ 2)
    norm_num
    ring
  | exp => exact Real.hasDerivAt_exp x
  | expm1 => exact Real.hasDerivAt_exp x
  | log =>
    have hx : x ≠ 0 := ne_of_gt h
    refine HasDerivAt.congr_of_eventuallyEq
      ((((hasDerivAt_pow 2 x).inv (pow_ne_zero 2 hx)).neg).congr_deriv ?_)
      (Eventually.of_forall fun y => by simp [UnOp.d2])
    show _ = 2 / x ^ 3
    field_simp
    norm_num
    try ring
  | ln1p =>
    have hx : 1 + x ≠ 0 := ne_of_gt h
    have h1 : HasDerivAt (fun x : ℝ => 1 + x) 1 x := (hasDerivAt_id x).const_add 1
    refine HasDerivAt.congr_of_eventuallyEq
      ((((h1.pow 2).inv (pow_ne_zero 2 hx)).neg).congr_deriv ?_)
      (Eventually.of_forall fun y => by simp [UnOp.d2])
    show _ = 2 / (1 + x) ^ 3
    simp only [Pi.pow_apply]
    field_simp
    norm_num
    try ring
  | log2 =>
    have hx : x ≠ 0 := ne_of_gt h
    refine HasDerivAt.div_const (c := fun y => -(1 / y ^ 2)) ?_ _
    refine HasDerivAt.congr_of_eventuallyEq
      ((((hasDerivAt_pow 2 x).inv (pow_ne_zero 2 hx)).neg).congr_deriv ?_)
      (Eventually.of_forall fun y => by simp)
    field_simp
    norm_num
    try ring
  | log10 =>
    have hx : x ≠ 0 := ne_of_gt h
    refine HasDerivAt.div_const (c := fun y => -(1 / y ^ 2)) ?_ _
    refine HasDerivAt.congr_of_eventuallyEq
      ((((hasDerivAt_pow 2 x).inv (pow_ne_zero 2 hx)).neg).congr_deriv ?_)
      (Eventually.of_forall fun y => by simp)
    field_simp
    norm_num
    try ring
  | _ => exact hasDerivAt_const x _

/-! ### Smoothness is open, and smooth programs are smooth functions -/

theorem UnOp.smoothAt_eventually (op : UnOp) {x : ℝ} (h : op.SmoothAt x) :
    ∀ᶠ y in 𝓝 x, op.SmoothAt y := by
  have hint : (∀ n : ℤ, x ≠ n) → ∀ᶠ y : ℝ in 𝓝 x, ∀ n : ℤ, y ≠ n := by
    intro h
    have h1 : (⌊x⌋ : ℝ) < x := lt_of_le_of_ne (Int.floor_le x) (h _).symm
    filter_upwards [Ioo_mem_nhds h1 (Int.lt_floor_add_one x)] with y hy n hn
    subst hn
    have h2 : ⌊x⌋ < n := by exact_mod_cast hy.1
    have h3 : n < ⌊x⌋ + 1 := by exact_mod_cast hy.2
    omega
  cases op with
  | neg => exact Eventually.of_forall fun _ => trivial
  | sin => exact Eventually.of_forall fun _ => trivial
  | cos => exact Eventually.of_forall fun _ => trivial
  | exp => exact Eventually.of_forall fun _ => trivial
  | expm1 => exact Eventually.of_forall fun _ => trivial
  | abs => exact eventually_ne_nhds h
  | cbrt => exact eventually_ne_nhds h
  | sqrt => exact eventually_gt_nhds h
  | log => exact eventually_gt_nhds h
  | log2 => exact eventually_gt_nhds h
  | log10 => exact eventually_gt_nhds h
  | ln1p =>
    have : Continuous (fun y : ℝ => 1 + y) := by fun_prop
    exact (this.tendsto x).eventually (eventually_gt_nhds h)
  | tan => exact (Real.continuous_cos.tendsto x).eventually (eventually_ne_nhds h)
  | floor => exact hint h
  | ceil => exact hint h
  | round =>
    have h1 : ∀ n : ℤ, x - 1 / 2 ≠ n := fun n hn => h n (by linarith)
    have h2 : (⌊x - 1 / 2⌋ : ℝ) < x - 1 / 2 := lt_of_le_of_ne (Int.floor_le _) (h1 _).symm
    have h3 := Int.lt_floor_add_one (x - 1 / 2)
    filter_upwards [eventually_gt_nhds (show (⌊x - 1 / 2⌋ : ℝ) + 1 / 2 < x by linarith),
      eventually_lt_nhds (show x < (⌊x - 1 / 2⌋ : ℝ) + 1 + 1 / 2 by linarith)] with y ha hb n hn
    subst hn
    have h4 : ⌊x - 1 / 2⌋ < n := by
      have : (⌊x - 1 / 2⌋ : ℝ) < n := by linarith
      exact_mod_cast this
    have h5 : n < ⌊x - 1 / 2⌋ + 1 := by
      have : (n : ℝ) < ⌊x - 1 / 2⌋ + 1 := by linarith
      exact_mod_cast this
    omega
  | trunc =>
    by_cases hx : x = 0
    · subst hx
      filter_upwards [eventually_gt_nhds (show (-1 : ℝ) < 0 by norm_num),
        eventually_lt_nhds (show (0 : ℝ) < 1 by norm_num)] with y ha hb n hn
      subst hn
      have h4 : -1 < n := by exact_mod_cast ha
      have h5 : n < 1 := by exact_mod_cast hb
      omega
    · have h1 : ∀ n : ℤ, x ≠ n := by
        intro n hn
        have := h n hn
        subst this
        exact hx (by simpa using hn)
      filter_upwards [hint h1] with y hy n hn
      exact absurd hn (hy n)
  | clamp lo hi => exact (eventually_ne_nhds h.1).and (eventually_ne_nhds h.2)

theorem contDiffAt_abs' {x : ℝ} (h : x ≠ 0) {m : WithTop ℕ∞} :
    ContDiffAt ℝ m (fun x : ℝ => |x|) x := by
  rcases lt_or_gt_of_ne h with h | h
  · refine contDiffAt_id.neg.congr_of_eventuallyEq ?_
    filter_upwards [eventually_lt_nhds h] with y hy
    exact abs_of_neg hy
  · refine contDiffAt_id.congr_of_eventuallyEq ?_
    filter_upwards [eventually_gt_nhds h] with y hy
    exact abs_of_pos hy

theorem UnOp.contDiffAt (op : UnOp) {x : ℝ} (h : op.SmoothAt x) {m : WithTop ℕ∞} :
    ContDiffAt ℝ m op.eval x := by
  cases op with
  | neg => exact contDiffAt_id.neg
  | abs => exact contDiffAt_abs' h
  | sqrt => exact Real.contDiffAt_sqrt (ne_of_gt h)
  | cbrt =>
    show ContDiffAt ℝ m realCbrt x
    have hpos : ∀ y : ℝ, 0 < y → ContDiffAt ℝ m (fun y : ℝ => y ^ ((1 : ℝ) / 3)) y :=
      fun y hy => Real.contDiffAt_rpow_const_of_ne hy.ne'
    rcases lt_or_gt_of_ne (show x ≠ 0 from h) with h | h
    · have hev : realCbrt =ᶠ[𝓝 x] fun y => -((-y) ^ ((1 : ℝ) / 3)) := by
        filter_upwards [eventually_lt_nhds h] with y hy
        unfold realCbrt
        rw [if_pos hy]
      refine ContDiffAt.congr_of_eventuallyEq ?_ hev
      exact ((hpos (-x) (by linarith)).comp x contDiffAt_id.neg).neg
    · have hev : realCbrt =ᶠ[𝓝 x] fun y => y ^ ((1 : ℝ) / 3) := by
        filter_upwards [eventually_gt_nhds h] with y hy
        unfold realCbrt
        rw [if_neg (not_lt.mpr (le_of_lt hy))]
      exact (hpos x h).congr_of_eventuallyEq hev
  | sin => exact Real.contDiff_sin.contDiffAt
  | cos => exact Real.contDiff_cos.contDiffAt
  | tan => exact Real.contDiffAt_tan.mpr h
  | exp => exact Real.contDiff_exp.contDiffAt
  | expm1 => exact Real.contDiff_exp.contDiffAt.sub contDiffAt_const
  | log => exact Real.contDiffAt_log.mpr (ne_of_gt h)
  | ln1p => exact (contDiffAt_const.add contDiffAt_id).log (ne_of_gt h)
  | log2 => exact (Real.contDiffAt_log.mpr (ne_of_gt h)).div_const _
  | log10 => exact (Real.contDiffAt_log.mpr (ne_of_gt h)).div_const _
  | floor => exact contDiffAt_const.congr_of_eventuallyEq (UnOp.locally_constant.1 h)
  | ceil => exact contDiffAt_const.congr_of_eventuallyEq (UnOp.locally_constant.2.1 h)
  | round => exact contDiffAt_const.congr_of_eventuallyEq (UnOp.locally_constant.2.2.1 h)
  | trunc => exact contDiffAt_const.congr_of_eventuallyEq (UnOp.locally_constant.2.2.2 h)
  | clamp lo hi =>
    obtain ⟨h1, h2⟩ : x ≠ lo ∧ x ≠ hi := h
    rcases lt_or_gt_of_ne h1 with ha | ha
    · refine contDiffAt_const.congr_of_eventuallyEq (f := fun _ => (lo : ℝ)) ?_
      filter_upwards [eventually_lt_nhds ha] with y hy
      rw [UnOp.eval_clamp, if_pos hy]
    · rcases lt_or_gt_of_ne h2 with hb | hb
      · refine contDiffAt_id.congr_of_eventuallyEq ?_
        filter_upwards [eventually_gt_nhds ha, eventually_lt_nhds hb] with y hy hy'
        rw [UnOp.eval_clamp, if_neg (not_lt.mpr hy.le), if_neg (not_lt.mpr hy'.le)]
        rfl
      · refine contDiffAt_const.congr_of_eventuallyEq (f := fun _ => (hi : ℝ)) ?_
        filter_upwards [eventually_gt_nhds ha, eventually_gt_nhds hb] with y hy hy'
        rw [UnOp.eval_clamp, if_neg (not_lt.mpr hy.le), if_pos hy']

theorem mem_slit {x y : ℝ} (h : 0 < x ∨ y ≠ 0) : (⟨x, y⟩ : ℂ) ∈ Complex.slitPlane := h

theorem BinOp.contDiffAt (op : BinOp) {p : ℝ × ℝ} (h : op.SmoothAt p.1 p.2) {m : WithTop ℕ∞} :
    ContDiffAt ℝ m (fun q : ℝ × ℝ => op.eval q.1 q.2) p := by
  cases op with
  | add => exact contDiffAt_fst.add contDiffAt_snd
  | sub => exact contDiffAt_fst.sub contDiffAt_snd
  | mul => exact contDiffAt_fst.mul contDiffAt_snd
  | div => exact contDiffAt_fst.div contDiffAt_snd h
  | atan2 =>
    show ContDiffAt ℝ m (fun q : ℝ × ℝ => Complex.arg ⟨q.2, q.1⟩) p
    have h1 : ContDiffAt ℝ m (fun q : ℝ × ℝ => (⟨q.2, q.1⟩ : ℂ)) p := by
      have : (fun q : ℝ × ℝ => (⟨q.2, q.1⟩ : ℂ)) =
          fun q => Complex.ofRealCLM q.2 + Complex.ofRealCLM q.1 * Complex.I := by
        funext q
        apply Complex.ext <;> simp
      rw [this]
      exact (Complex.ofRealCLM.contDiff.contDiffAt.comp p contDiffAt_snd).add
        ((Complex.ofRealCLM.contDiff.contDiffAt.comp p contDiffAt_fst).mul contDiffAt_const)
    have h2 : ContDiffAt ℝ m Complex.log (⟨p.2, p.1⟩ : ℂ) :=
      (Complex.contDiffAt_log (mem_slit h)).restrict_scalars ℝ
    have h3 := Complex.imCLM.contDiff.contDiffAt.comp p (h2.comp p h1)
    refine h3.congr_of_eventuallyEq (Eventually.of_forall fun q => ?_)
    simp [Complex.log_im]
  | copysign =>
    obtain ⟨h1, h2⟩ : p.1 ≠ 0 ∧ p.2 ≠ 0 := h
    have habs : ContDiffAt ℝ m (fun q : ℝ × ℝ => |q.1|) p :=
      ContDiffAt.comp (g := fun x : ℝ => |x|) p (contDiffAt_abs' h1) contDiffAt_fst
    have hc : Tendsto (fun q : ℝ × ℝ => q.2) (𝓝 p) (𝓝 p.2) := continuous_snd.tendsto p
    rcases lt_or_gt_of_ne h2 with hs | hs
    · refine habs.neg.congr_of_eventuallyEq ?_
      filter_upwards [hc.eventually (eventually_lt_nhds hs)] with q hq
      show (if q.2 < 0 then -|q.1| else |q.1|) = -|q.1|
      rw [if_pos hq]
    · refine habs.congr_of_eventuallyEq ?_
      filter_upwards [hc.eventually (eventually_gt_nhds hs)] with q hq
      show (if q.2 < 0 then -|q.1| else |q.1|) = |q.1|
      rw [if_neg (not_lt.mpr hq.le)]

theorem BinOp.smoothAt_eventually (op : BinOp) {p : ℝ × ℝ} (h : op.SmoothAt p.1 p.2) :
    ∀ᶠ q in 𝓝 p, op.SmoothAt q.1 q.2 := by
  have h1 : Tendsto (fun q : ℝ × ℝ => q.1) (𝓝 p) (𝓝 p.1) := continuous_fst.tendsto p
  have h2 : Tendsto (fun q : ℝ × ℝ => q.2) (𝓝 p) (𝓝 p.2) := continuous_snd.tendsto p
  cases op with
  | add => exact Eventually.of_forall fun _ => trivial
  | sub => exact Eventually.of_forall fun _ => trivial
  | mul => exact Eventually.of_forall fun _ => trivial
  | div => exact h2.eventually (eventually_ne_nhds h)
  | atan2 =>
    rcases h with h | h
    · exact (h2.eventually (eventually_gt_nhds h)).mono fun _ => Or.inl
    · exact (h1.eventually (eventually_ne_nhds h)).mono fun _ => Or.inr
  | copysign =>
    exact (h1.eventually (eventually_ne_nhds h.1)).and (h2.eventually (eventually_ne_nhds h.2))

/-- Away from a tie a comparison has the same outcome nearby. -/
theorem Cmp.eval_eventually (c : Cmp) {p : ℝ × ℝ} (h : p.1 ≠ p.2) :
    ∀ᶠ q in 𝓝 p, q.1 ≠ q.2 ∧ c.eval q.1 q.2 = c.eval p.1 p.2 := by
  have hc : Continuous fun q : ℝ × ℝ => q.1 - q.2 := by fun_prop
  rcases lt_or_gt_of_ne h with hlt | hgt
  · filter_upwards [(hc.tendsto p).eventually (eventually_lt_nhds (sub_neg.mpr hlt))] with q hq
    have hq : q.1 < q.2 := sub_neg.mp hq
    refine ⟨hq.ne, ?_⟩
    cases c
    · simp [Cmp.eval, hq, hlt]
    · simp [Cmp.eval, hq.le, hlt.le]
    · simp [Cmp.eval, hq.ne, hlt.ne]
  · filter_upwards [(hc.tendsto p).eventually (eventually_gt_nhds (sub_pos.mpr hgt))] with q hq
    have hq : q.2 < q.1 := sub_pos.mp hq
    refine ⟨hq.ne', ?_⟩
    cases c
    · simp [Cmp.eval, not_lt.mpr hq.le, not_lt.mpr (le_of_lt hgt)]
    · simp [Cmp.eval, not_le.mpr hq, not_le.mpr (show p.2 < p.1 from hgt)]
    · simp [Cmp.eval, hq.ne', (show p.2 < p.1 from hgt).ne']

/-- A program smooth at a point is a smooth function there, and smooth nearby. -/
theorem Expr.smooth {n : ℕ} (e : Expr n) {x : Fin n → ℝ} (h : e.SmoothAt x) :
    (∀ m : WithTop ℕ∞, ContDiffAt ℝ m (fun y : Fin n → ℝ => e.eval y) x) ∧
      ∀ᶠ y in 𝓝 x, e.SmoothAt y := by
  induction e with
  | var i => exact ⟨fun m => contDiffAt_apply ℝ ℝ i x, Eventually.of_forall fun _ => trivial⟩
  | lit q => exact ⟨fun m => contDiffAt_const, Eventually.of_forall fun _ => trivial⟩
  | nat k => exact ⟨fun m => contDiffAt_const, Eventually.of_forall fun _ => trivial⟩
  | pi => exact ⟨fun m => contDiffAt_const, Eventually.of_forall fun _ => trivial⟩
  | un op a ih =>
    obtain ⟨ha, hop⟩ := h
    obtain ⟨ih1, ih2⟩ := ih ha
    refine ⟨fun m => (op.contDiffAt hop).comp x (ih1 m), ?_⟩
    exact ih2.and ((ih1 0).continuousAt.tendsto.eventually (op.smoothAt_eventually hop))
  | bin op a b iha ihb =>
    obtain ⟨ha, hb, hop⟩ := h
    obtain ⟨ih1, ih2⟩ := iha ha
    obtain ⟨ih3, ih4⟩ := ihb hb
    have hp : ∀ m : WithTop ℕ∞, ContDiffAt ℝ m (fun y : Fin n → ℝ => (a.eval y, b.eval y)) x :=
      fun m => (ih1 m).prodMk (ih3 m)
    refine ⟨fun m => ContDiffAt.comp (g := fun q : ℝ × ℝ => op.eval q.1 q.2) x
      (op.contDiffAt (p := (a.eval x, b.eval x)) hop) (hp m), ?_⟩
    exact ih2.and (ih4.and ((hp 0).continuousAt.tendsto.eventually (op.smoothAt_eventually
      (p := (a.eval x, b.eval x)) hop)))
  | ite c a b t e iha ihb iht ihe =>
    obtain ⟨ha, hb, hne, hte⟩ := h
    obtain ⟨ih1, ih2⟩ := iha ha
    obtain ⟨ih3, ih4⟩ := ihb hb
    have hp : ContDiffAt ℝ 0 (fun y : Fin n → ℝ => (a.eval y, b.eval y)) x :=
      (ih1 0).prodMk (ih3 0)
    have hc := hp.continuousAt.tendsto.eventually
      (c.eval_eventually (p := (a.eval x, b.eval x)) hne)
    by_cases hcx : c.eval (a.eval x) (b.eval x) = true
    · rw [if_pos hcx] at hte
      obtain ⟨ih5, ih6⟩ := iht hte
      refine ⟨fun m => (ih5 m).congr_of_eventuallyEq ?_, ?_⟩
      · filter_upwards [hc] with y hy
        simp only [Expr.eval]
        rw [if_pos (hy.2.trans hcx)]
      · filter_upwards [hc, ih2, ih4, ih6] with y h1 h2 h3 h4
        refine ⟨h2, h3, h1.1, ?_⟩
        rw [if_pos (h1.2.trans hcx)]
        exact h4
    · rw [if_neg hcx] at hte
      obtain ⟨ih5, ih6⟩ := ihe hte
      refine ⟨fun m => (ih5 m).congr_of_eventuallyEq ?_, ?_⟩
      · filter_upwards [hc] with y hy
        simp only [Expr.eval]
        rw [if_neg (fun h => hcx (hy.2.symm.trans h))]
      · filter_upwards [hc, ih2, ih4, ih6] with y h1 h2 h3 h4
        refine ⟨h2, h3, h1.1, ?_⟩
        rw [if_neg (fun h => hcx (h1.2.symm.trans h))]
        exact h4

end Multicalc
