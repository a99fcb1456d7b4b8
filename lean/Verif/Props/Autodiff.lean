import Verif.Lemmas.Autodiff
import Verif.Props.AutodiffValue
import Mathlib.Tactic

/-!
# Dual and hyper-dual numbers compute derivatives
-/

open Filter Topology

namespace Multicalc

/-! ### First derivatives -/

/-- A unary operation on a dual number is the chain rule. -/
theorem UnOp.dual (op : UnOp) (x v : ℝ) :
    op.eval (⟨x, v⟩ : Dual ℝ) = ⟨op.eval x, op.d1 x * v⟩ := by
  cases op with
  | neg => exact Dual.ext rfl (show -v = -1 * v by ring)
  | abs =>
    refine Dual.ext rfl (show (if x < 0 then -v else v) = (if x < 0 then -1 else 1) * v from ?_)
    split_ifs <;> ring
  | sqrt =>
    refine Dual.ext rfl (show v / (((2 : ℕ) : ℝ) * √x) = 1 / (2 * √x) * v from ?_)
    push_cast; ring
  | cbrt =>
    refine Dual.ext rfl (show v / (((3 : ℕ) : ℝ) * realCbrt x * realCbrt x)
      = 1 / (3 * realCbrt x ^ 2) * v from ?_)
    push_cast; ring
  | sin => rfl
  | cos => rfl
  | tan =>
    exact Dual.ext rfl (show (1 + Real.tan x * Real.tan x) * v = (1 + Real.tan x ^ 2) * v by ring)
  | exp => rfl
  | expm1 => rfl
  | log => exact Dual.ext rfl (show v / x = 1 / x * v by ring)
  | ln1p => exact Dual.ext rfl (show v / (x + 1) = 1 / (1 + x) * v by ring)
  | log2 =>
    refine Dual.ext rfl (show v / x / Real.log ((2 : ℕ) : ℝ) = 1 / x / Real.log 2 * v from ?_)
    push_cast; ring
  | log10 =>
    refine Dual.ext rfl (show v / x / Real.log ((10 : ℕ) : ℝ) = 1 / x / Real.log 10 * v from ?_)
    push_cast; ring
  | floor => exact Dual.ext rfl (show (0 : ℝ) = 0 * v by ring)
  | ceil => exact Dual.ext rfl (show (0 : ℝ) = 0 * v by ring)
  | round => exact Dual.ext rfl (show (0 : ℝ) = 0 * v by ring)
  | trunc => exact Dual.ext rfl (show (0 : ℝ) = 0 * v by ring)
  | clamp lo hi =>
    show clampLit (⟨x, v⟩ : Dual ℝ) lo hi = _
    rw [← dual_clamp]
    show (if x < lo then (⟨lo, 0⟩ : Dual ℝ) else if (hi : ℝ) < x then ⟨hi, 0⟩ else ⟨x, v⟩)
      = ⟨if x < lo then lo else if (hi : ℝ) < x then hi else x,
        (if x < lo then 0 else if (hi : ℝ) < x then 0 else 1) * v⟩
    split_ifs <;> simp

theorem hasDerivAt_atan2 {y x : ℝ → ℝ} {y' x' t : ℝ} (hy : HasDerivAt y y' t)
    (hx : HasDerivAt x x' t) (h : 0 < x t ∨ y t ≠ 0) :
    HasDerivAt (fun s => Complex.arg ⟨x s, y s⟩)
      ((x t * y' - y t * x') / (y t * y t + x t * x t)) t := by
  have h1 : HasDerivAt (fun s => (⟨x s, y s⟩ : ℂ)) ⟨x', y'⟩ t := by
    have h := (hx.ofReal_comp).add ((hy.ofReal_comp).mul_const Complex.I)
    refine HasDerivAt.congr_of_eventuallyEq (h.congr_deriv ?_) (Eventually.of_forall fun s => ?_)
    · apply Complex.ext <;> simp
    · apply Complex.ext <;> simp
  have h2 := h1.clog_real (mem_slit h)
  have h3 := Complex.imCLM.hasFDerivAt.comp_hasDerivAt t h2
  refine HasDerivAt.congr_of_eventuallyEq (h3.congr_deriv ?_) (Eventually.of_forall fun s => ?_)
  · have hpos : y t * y t + x t * x t ≠ 0 := by
      rcases h with h | h
      · have := mul_pos h h
        have := mul_self_nonneg (y t)
        linarith
      · have := mul_self_pos.mpr h
        have := mul_self_nonneg (x t)
        linarith
    rw [Complex.imCLM_apply, Complex.div_im]
    simp only [Complex.normSq_mk]
    have hpos' : x t * x t + y t * y t ≠ 0 := by rwa [add_comm]
    field_simp
    ring
  · simp [Complex.log_im]

theorem hasDerivAt_copysign {a b : ℝ → ℝ} {a' b' t : ℝ} (ha : HasDerivAt a a' t)
    (hb : HasDerivAt b b' t) (h : a t ≠ 0 ∧ b t ≠ 0) :
    HasDerivAt (fun s => (Fns.copysign (a s) (b s) : ℝ))
      ((if decide (a t < 0) = decide (b t < 0) then 1 else -1) * a') t := by
  obtain ⟨h1, h2⟩ := h
  have hca := ha.continuousAt.tendsto
  have hcb := hb.continuousAt.tendsto
  have hev : ∀ s, (Fns.copysign (a s) (b s) : ℝ) = if b s < 0 then -|a s| else |a s| :=
    fun s => rfl
  rcases lt_or_gt_of_ne h1 with h1 | h1 <;> rcases lt_or_gt_of_ne h2 with h2 | h2
  · rw [if_pos (by simp [h1, h2])]
    refine (ha.congr_deriv (one_mul a').symm).congr_of_eventuallyEq ?_
    filter_upwards [hca.eventually (eventually_lt_nhds h1),
      hcb.eventually (eventually_lt_nhds h2)] with s hs1 hs2
    rw [hev, if_pos hs2, abs_of_neg hs1, neg_neg]
  · rw [if_neg (by simp [h1, not_lt.mpr (le_of_lt h2)])]
    refine (ha.neg.congr_deriv (neg_one_mul a').symm).congr_of_eventuallyEq ?_
    filter_upwards [hca.eventually (eventually_lt_nhds h1),
      hcb.eventually (eventually_gt_nhds h2)] with s hs1 hs2
    rw [hev, if_neg (not_lt.mpr hs2.le), abs_of_neg hs1]
    rfl
  · rw [if_neg (by simp [h2, not_lt.mpr (le_of_lt h1)])]
    refine (ha.neg.congr_deriv (neg_one_mul a').symm).congr_of_eventuallyEq ?_
    filter_upwards [hca.eventually (eventually_gt_nhds h1),
      hcb.eventually (eventually_lt_nhds h2)] with s hs1 hs2
    rw [hev, if_pos hs2, abs_of_pos hs1]
    rfl
  · rw [if_pos (by simp [not_lt.mpr (le_of_lt h1), not_lt.mpr (le_of_lt h2)])]
    refine (ha.congr_deriv (one_mul a').symm).congr_of_eventuallyEq ?_
    filter_upwards [hca.eventually (eventually_gt_nhds h1),
      hcb.eventually (eventually_gt_nhds h2)] with s hs1 hs2
    rw [hev, if_neg (not_lt.mpr hs2.le), abs_of_pos hs1]

/-- A binary operation on dual numbers is the chain rule. -/
theorem BinOp.dual (op : BinOp) {a b : ℝ → ℝ} {a' b' t : ℝ} (ha : HasDerivAt a a' t)
    (hb : HasDerivAt b b' t) (h : op.SmoothAt (a t) (b t)) :
    HasDerivAt (fun s => op.eval (a s) (b s))
      (op.eval (⟨a t, a'⟩ : Dual ℝ) ⟨b t, b'⟩).deriv t := by
  cases op with
  | add => exact ha.add hb
  | sub => exact ha.sub hb
  | mul => exact (ha.mul hb).congr_deriv (add_comm _ _)
  | div =>
    refine (ha.div hb h).congr_deriv ?_
    rw [sq]
    rfl
  | atan2 => exact hasDerivAt_atan2 ha hb h
  | copysign =>
    refine (hasDerivAt_copysign ha hb h).congr_deriv ?_
    show _ = if decide (a t < 0) = decide (b t < 0) then a' else -a'
    split_ifs <;> ring

/-- Along any differentiable curve of inputs, running a program on the duals (value, velocity)
returns the value and the velocity of the output. -/
theorem Expr.dual_hasDerivAt {n : ℕ} (e : Expr n) {c : ℝ → Fin n → ℝ} {c' : Fin n → ℝ} {t : ℝ}
    (hc : ∀ i, HasDerivAt (fun s => c s i) (c' i) t) (h : e.SmoothAt (c t)) :
    HasDerivAt (fun s => e.eval (c s))
      (e.eval (fun i => (⟨c t i, c' i⟩ : Dual ℝ))).deriv t := by
  have hval : ∀ e : Expr n, (e.eval (fun i => (⟨c t i, c' i⟩ : Dual ℝ))).value = e.eval (c t) :=
    fun e => dual_value e _
  have heta : ∀ e : Expr n, e.eval (fun i => (⟨c t i, c' i⟩ : Dual ℝ)) =
      ⟨e.eval (c t), (e.eval (fun i => (⟨c t i, c' i⟩ : Dual ℝ))).deriv⟩ :=
    fun e => Dual.ext (hval e) rfl
  induction e with
  | var i => exact hc i
  | lit q => exact hasDerivAt_const t _
  | nat k => exact hasDerivAt_const t _
  | pi => exact hasDerivAt_const t _
  | un op a ih =>
    have h1 := (op.hasDerivAt h.2).comp t (ih h.1)
    refine h1.congr_deriv ?_
    conv_rhs => rw [Expr.eval, heta a, UnOp.dual]
  | bin op a b iha ihb =>
    have h1 := op.dual (iha h.1) (ihb h.2.1) h.2.2
    refine h1.congr_deriv ?_
    conv_rhs => rw [Expr.eval, heta a, heta b]
  | ite o a b u v iha ihb ihu ihv =>
    obtain ⟨ha, hb, hne, huv⟩ := h
    have hp : ContinuousAt (fun s => (a.eval (c s), b.eval (c s))) t :=
      (iha ha).continuousAt.prodMk (ihb hb).continuousAt
    have hev := hp.tendsto.eventually (o.eval_eventually (p := (a.eval (c t), b.eval (c t))) hne)
    have hcd : o.eval (a.eval (fun i => (⟨c t i, c' i⟩ : Dual ℝ)))
        (b.eval (fun i => (⟨c t i, c' i⟩ : Dual ℝ))) = o.eval (a.eval (c t)) (b.eval (c t)) := by
      rw [heta a, heta b]
      cases o <;> rfl
    by_cases hcx : o.eval (a.eval (c t)) (b.eval (c t)) = true
    · rw [if_pos hcx] at huv
      refine ((ihu huv).congr_deriv ?_).congr_of_eventuallyEq ?_
      · conv_rhs => rw [Expr.eval, hcd, if_pos hcx]
      · filter_upwards [hev] with s hs
        simp only [Expr.eval]
        rw [if_pos (hs.2.trans hcx)]
    · rw [if_neg hcx] at huv
      refine ((ihv huv).congr_deriv ?_).congr_of_eventuallyEq ?_
      · conv_rhs => rw [Expr.eval, hcd, if_neg hcx]
      · filter_upwards [hev] with s hs
        simp only [Expr.eval]
        rw [if_neg (fun h => hcx (hs.2.symm.trans h))]

/-! ### Second derivatives -/

/-- A unary operation on a hyper-dual number is the second-order chain rule. -/
theorem UnOp.hyper (op : UnOp) (h : HyperDual ℝ) :
    op.eval h = h.chain (op.eval h.real) (op.d1 h.real) (op.d2 h.real) := by
  cases op with
  | neg =>
    ext
    · rfl
    · show -h.eps1 = -1 * h.eps1; ring
    · show -h.eps2 = -1 * h.eps2; ring
    · show -h.eps1eps2 = -1 * h.eps1eps2 + 0 * h.eps1 * h.eps2; ring
  | abs => rfl
  | sqrt =>
    show h.chain (√h.real) (1 / (((2 : ℕ) : ℝ) * √h.real))
      (-(1 / (((2 : ℕ) : ℝ) * √h.real) / (((2 : ℕ) : ℝ) * h.real))) =
      h.chain (√h.real) (1 / (2 * √h.real)) (-(1 / (4 * h.real * √h.real)))
    congr 1
    push_cast
    ring
  | cbrt =>
    show h.chain (realCbrt h.real) (1 / (((3 : ℕ) : ℝ) * realCbrt h.real * realCbrt h.real))
      (-(((2 : ℕ) : ℝ) * (1 / (((3 : ℕ) : ℝ) * realCbrt h.real * realCbrt h.real)) *
        (1 / (((3 : ℕ) : ℝ) * realCbrt h.real * realCbrt h.real)) / realCbrt h.real)) =
      h.chain (realCbrt h.real) (1 / (3 * realCbrt h.real ^ 2)) (-(2 / (9 * realCbrt h.real ^ 5)))
    congr 1
    · push_cast
      ring
    · push_cast
      ring
  | sin => rfl
  | cos => rfl
  | tan =>
    show h.chain (Real.tan h.real) (1 + Real.tan h.real * Real.tan h.real)
      (((2 : ℕ) : ℝ) * Real.tan h.real * (1 + Real.tan h.real * Real.tan h.real)) =
      h.chain (Real.tan h.real) (1 + Real.tan h.real ^ 2)
        (2 * Real.tan h.real * (1 + Real.tan h.real ^ 2))
    congr 1
    · ring
    · push_cast
      ring
  | exp => rfl
  | expm1 => rfl
  | log =>
    show h.chain (Real.log h.real) (1 / h.real) (-(1 / (h.real * h.real))) =
      h.chain (Real.log h.real) (1 / h.real) (-(1 / h.real ^ 2))
    rw [sq]
  | ln1p =>
    show h.chain (Real.log (1 + h.real)) (1 / (h.real + 1)) (-(1 / ((h.real + 1) * (h.real + 1)))) =
      h.chain (Real.log (1 + h.real)) (1 / (1 + h.real)) (-(1 / (1 + h.real) ^ 2))
    rw [sq, add_comm h.real 1]
  | log2 =>
    show h.chain _ (1 / h.real / Real.log ((2 : ℕ) : ℝ))
        (-(1 / (h.real * h.real)) / Real.log ((2 : ℕ) : ℝ)) =
      h.chain _ (1 / h.real / Real.log 2) (-(1 / h.real ^ 2) / Real.log 2)
    rw [sq]
    push_cast
    rfl
  | log10 =>
    show h.chain _ (1 / h.real / Real.log ((10 : ℕ) : ℝ))
        (-(1 / (h.real * h.real)) / Real.log ((10 : ℕ) : ℝ)) =
      h.chain _ (1 / h.real / Real.log 10) (-(1 / h.real ^ 2) / Real.log 10)
    rw [sq]
    push_cast
    rfl
  | clamp lo hi =>
    show clampLit h lo hi = _
    rw [← hyperDual_clamp]
    show (if h.real < lo then (⟨lo, 0, 0, 0⟩ : HyperDual ℝ)
        else if (hi : ℝ) < h.real then ⟨hi, 0, 0, 0⟩ else h)
      = h.chain (if h.real < lo then lo else if (hi : ℝ) < h.real then hi else h.real)
        (if h.real < lo then 0 else if (hi : ℝ) < h.real then 0 else 1) 0
    split_ifs <;> simp [HyperDual.chain]
  | floor => ext <;> simp [UnOp.eval, HyperDual.chain, UnOp.d1, UnOp.d2, Fns.floor]
  | ceil => ext <;> simp [UnOp.eval, HyperDual.chain, UnOp.d1, UnOp.d2, Fns.ceil]
  | round => ext <;> simp [UnOp.eval, HyperDual.chain, UnOp.d1, UnOp.d2, Fns.round]
  | trunc => ext <;> simp [UnOp.eval, HyperDual.chain, UnOp.d1, UnOp.d2, Fns.trunc]

/-- A curve of dual numbers with the given value, and derivative (componentwise) along it. -/
def TanDual (c : ℝ → Dual ℝ) (h : HyperDual ℝ) (t : ℝ) : Prop :=
  c t = ⟨h.real, h.eps2⟩ ∧ HasDerivAt (fun s => (c s).value) h.eps1 t ∧
    HasDerivAt (fun s => (c s).deriv) h.eps1eps2 t

theorem UnOp.tanDual (op : UnOp) {c : ℝ → Dual ℝ} {h : HyperDual ℝ} {t : ℝ} (hc : TanDual c h t)
    (hs : op.SmoothAt h.real) : TanDual (fun s => op.eval (c s)) (op.eval h) t := by
  obtain ⟨h0, h1, h2⟩ := hc
  have hv : (c t).value = h.real := by rw [h0]
  have hd : (c t).deriv = h.eps2 := by rw [h0]
  have hs' : op.SmoothAt ((c t).value) := by rwa [hv]
  have hop : ∀ s, op.eval (c s) = ⟨op.eval (c s).value, op.d1 (c s).value * (c s).deriv⟩ :=
    fun s => op.dual (c s).value (c s).deriv
  refine ⟨?_, ?_, ?_⟩
  · beta_reduce
    rw [h0, op.dual, op.hyper]
    rfl
  · simp only [hop]
    rw [op.hyper]
    refine ((op.hasDerivAt hs').comp t h1).congr_deriv ?_
    rw [hv]; rfl
  · simp only [hop]
    rw [op.hyper]
    refine (((op.hasDerivAt_d1 hs').comp t h1).mul h2).congr_deriv ?_
    simp only [Function.comp_apply, hv, hd, HyperDual.chain]
    ring

theorem BinOp.tanDual (op : BinOp) {c₁ c₂ : ℝ → Dual ℝ} {a b : HyperDual ℝ} {t : ℝ}
    (hc₁ : TanDual c₁ a t) (hc₂ : TanDual c₂ b t) (hs : op.SmoothAt a.real b.real) :
    TanDual (fun s => op.eval (c₁ s) (c₂ s)) (op.eval a b) t := by
  obtain ⟨a0, a1, a2⟩ := hc₁
  obtain ⟨b0, b1, b2⟩ := hc₂
  have av : (c₁ t).value = a.real := by rw [a0]
  have ad : (c₁ t).deriv = a.eps2 := by rw [a0]
  have bv : (c₂ t).value = b.real := by rw [b0]
  have bd : (c₂ t).deriv = b.eps2 := by rw [b0]
  cases op with
  | add => exact ⟨Dual.ext (by beta_reduce; rw [a0, b0]; rfl) (by beta_reduce; rw [a0, b0]; rfl), a1.add b1, a2.add b2⟩
  | sub => exact ⟨Dual.ext (by beta_reduce; rw [a0, b0]; rfl) (by beta_reduce; rw [a0, b0]; rfl), a1.sub b1, a2.sub b2⟩
  | mul =>
    refine ⟨Dual.ext (by beta_reduce; rw [a0, b0]; rfl) (by beta_reduce; rw [a0, b0]; rfl), ?_, ?_⟩
    · refine (a1.mul b1).congr_deriv ?_
      rw [av, bv]
      show _ = a.real * b.eps1 + a.eps1 * b.real
      ring
    · refine ((a1.mul b2).add (a2.mul b1)).congr_deriv ?_
      rw [av, bv, ad, bd]
      show _ = a.real * b.eps1eps2 + a.eps1 * b.eps2 + a.eps2 * b.eps1 + a.eps1eps2 * b.real
      ring
  | div =>
    have hb : b.real ≠ 0 := hs
    have hb' : (c₂ t).value ≠ 0 := by rwa [bv]
    have e1 : BinOp.div.eval a b = a * b.recip := rfl
    have e2 : b.recip = ⟨1 / b.real, -(1 / b.real * (1 / b.real)) * b.eps1,
      -(1 / b.real * (1 / b.real)) * b.eps2, -(1 / b.real * (1 / b.real)) * b.eps1eps2 +
        (((2 : ℕ) : ℝ) * (1 / b.real) * (1 / b.real) * (1 / b.real)) * b.eps1 * b.eps2⟩ := rfl
    refine ⟨?_, ?_, ?_⟩
    · beta_reduce
      rw [a0, b0, e1, e2]
      refine Dual.ext ?_ ?_
      · show a.real / b.real = a.real * (1 / b.real)
        ring
      · show (a.eps2 * b.real - a.real * b.eps2) / (b.real * b.real) =
          a.real * (-(1 / b.real * (1 / b.real)) * b.eps2) + a.eps2 * (1 / b.real)
        field_simp
        ring
    · refine (a1.div b1 hb').congr_deriv ?_
      rw [av, bv, e1, e2]
      show _ = a.real * (-(1 / b.real * (1 / b.real)) * b.eps1) + a.eps1 * (1 / b.real)
      field_simp
      ring
    · have := ((a2.mul b1).sub (a1.mul b2)).div (b1.mul b1) (mul_ne_zero hb' hb')
      refine this.congr_deriv ?_
      simp only [Pi.sub_apply, Pi.mul_apply]
      rw [av, bv, ad, bd, e1, e2]
      show _ = a.real * (-(1 / b.real * (1 / b.real)) * b.eps1eps2 +
        (((2 : ℕ) : ℝ) * (1 / b.real) * (1 / b.real) * (1 / b.real)) * b.eps1 * b.eps2) +
        a.eps1 * (-(1 / b.real * (1 / b.real)) * b.eps2) +
        a.eps2 * (-(1 / b.real * (1 / b.real)) * b.eps1) + a.eps1eps2 * (1 / b.real)
      push_cast
      field_simp
      ring
  | atan2 =>
    have hs0 : 0 < b.real ∨ a.real ≠ 0 := hs
    have hr : a.real * a.real + b.real * b.real ≠ 0 := by
      rcases hs0 with h | h
      · have := mul_pos h h
        have := mul_self_nonneg a.real
        linarith
      · have := mul_self_pos.mpr h
        have := mul_self_nonneg b.real
        linarith
    have hr' : b.real * b.real + a.real * a.real ≠ 0 := by rwa [add_comm]
    have hr2 : b.real ^ 2 + a.real ^ 2 ≠ 0 := by simpa only [sq] using hr'
    have hr3 : a.real ^ 2 + b.real ^ 2 ≠ 0 := by simpa only [sq] using hr
    have hs' : 0 < (c₂ t).value ∨ (c₁ t).value ≠ 0 := by rwa [av, bv]
    refine ⟨?_, ?_, ?_⟩
    · beta_reduce
      rw [a0, b0]
      refine Dual.ext rfl ?_
      show (b.real * a.eps2 - a.real * b.eps2) / (a.real * a.real + b.real * b.real) =
        b.real / (b.real * b.real + a.real * a.real) * a.eps2 +
          -a.real / (b.real * b.real + a.real * a.real) * b.eps2
      rw [add_comm (a.real * a.real)]
      ring
    · refine (hasDerivAt_atan2 a1 b1 hs').congr_deriv ?_
      rw [av, bv]
      show _ = b.real / (b.real * b.real + a.real * a.real) * a.eps1 +
          -a.real / (b.real * b.real + a.real * a.real) * b.eps1
      rw [add_comm (a.real * a.real)]
      ring
    · have hr'' : (c₁ t).value * (c₁ t).value + (c₂ t).value * (c₂ t).value ≠ 0 := by
        rwa [av, bv]
      have := ((b1.mul a2).sub (a1.mul b2)).div ((a1.mul a1).add (b1.mul b1)) hr''
      refine this.congr_deriv ?_
      simp only [Pi.sub_apply, Pi.mul_apply, Pi.add_apply]
      rw [av, bv, ad, bd]
      show _ = b.real / (b.real * b.real + a.real * a.real) * a.eps1eps2 +
        -a.real / (b.real * b.real + a.real * a.real) * b.eps1eps2 +
        -(((2 : ℕ) : ℝ) * b.real * a.real) / ((b.real * b.real + a.real * a.real) *
          (b.real * b.real + a.real * a.real)) * a.eps1 * a.eps2 +
        (((2 : ℕ) : ℝ) * b.real * a.real) / ((b.real * b.real + a.real * a.real) *
          (b.real * b.real + a.real * a.real)) * b.eps1 * b.eps2 +
        (a.real * a.real - b.real * b.real) / ((b.real * b.real + a.real * a.real) *
          (b.real * b.real + a.real * a.real)) * (a.eps1 * b.eps2 + a.eps2 * b.eps1)
      rw [add_comm (a.real * a.real)]
      push_cast
      field_simp
      ring
  | copysign =>
    have hs' : (c₁ t).value ≠ 0 ∧ (c₂ t).value ≠ 0 := by rw [av, bv]; exact hs
    have key : ∀ x y v : ℝ, (if decide (x < 0) = decide (y < 0) then v else -v) =
        (if decide (x < 0) = decide (y < 0) then 1 else -1) * v := by
      intro x y v; split_ifs <;> ring
    refine ⟨?_, ?_, ?_⟩
    · beta_reduce
      rw [a0, b0]
      refine Dual.ext rfl ?_
      exact key a.real b.real a.eps2
    · refine (hasDerivAt_copysign a1 b1 hs').congr_deriv ?_
      rw [av, bv]
      rfl
    · show HasDerivAt (fun s => if decide ((c₁ s).value < 0) = decide ((c₂ s).value < 0)
        then (c₁ s).deriv else -(c₁ s).deriv) _ t
      have hev : ∀ᶠ s in 𝓝 t, (decide ((c₁ s).value < 0) = decide ((c₂ s).value < 0)) =
          (decide ((c₁ t).value < 0) = decide ((c₂ t).value < 0)) := by
        have hp : ContinuousAt (fun s => ((c₁ s).value, (0 : ℝ))) t :=
          a1.continuousAt.prodMk continuousAt_const
        have hq : ContinuousAt (fun s => ((c₂ s).value, (0 : ℝ))) t :=
          b1.continuousAt.prodMk continuousAt_const
        filter_upwards [hp.tendsto.eventually (Cmp.lt.eval_eventually hs'.1),
          hq.tendsto.eventually (Cmp.lt.eval_eventually hs'.2)] with s h1 h2
        have h1 : decide ((c₁ s).value < 0) = decide ((c₁ t).value < 0) := h1.2
        have h2 : decide ((c₂ s).value < 0) = decide ((c₂ t).value < 0) := h2.2
        rw [h1, h2]
      have e1 : (BinOp.copysign.eval a b).eps1eps2 =
          (if decide (a.real < 0) = decide (b.real < 0) then 1 else -1) * a.eps1eps2
            + 0 * a.eps1 * a.eps2 := rfl
      rw [e1]
      refine ((a2.const_mul (if decide (a.real < 0) = decide (b.real < 0) then (1 : ℝ) else -1)
        ).congr_deriv (by ring)).congr_of_eventuallyEq ?_
      filter_upwards [hev] with s hs
      simp only [hs, av, bv]
      exact key _ _ _

/-- Along any differentiable curve of dual inputs, running a program on hyper-duals gives the
velocity of the dual output. -/
theorem Expr.tanDual {n : ℕ} (e : Expr n) {c : ℝ → Fin n → Dual ℝ} {h : Fin n → HyperDual ℝ}
    {t : ℝ} (hc : ∀ i, TanDual (fun s => c s i) (h i) t) (hs : e.SmoothAt (fun i => (h i).real)) :
    TanDual (fun s => e.eval (c s)) (e.eval h) t := by
  have hval : ∀ e : Expr n, (e.eval h).real = e.eval (fun i => (h i).real) :=
    fun e => hyperDual_value_partial real_jet_laws.1 e h
  have hcst : ∀ x : ℝ, TanDual (fun _ => Dual.constant x) (HyperDual.constant x) t := fun x =>
    ⟨rfl, hasDerivAt_const t _, hasDerivAt_const t _⟩
  induction e with
  | var i => exact hc i
  | lit q => exact hcst _
  | nat k => exact hcst _
  | pi => exact hcst _
  | un op a ih => exact op.tanDual (ih hs.1) (by rw [hval]; exact hs.2)
  | bin op a b iha ihb =>
    exact op.tanDual (iha hs.1) (ihb hs.2.1) (by rw [hval, hval]; exact hs.2.2)
  | ite o a b u v iha ihb ihu ihv =>
    obtain ⟨ha, hb, hne, huv⟩ := hs
    have ta := iha ha
    have tb := ihb hb
    have hp : ContinuousAt (fun s => ((a.eval (c s)).value, (b.eval (c s)).value)) t :=
      ta.2.1.continuousAt.prodMk tb.2.1.continuousAt
    have hat : (a.eval (c t)).value = a.eval (fun i => (h i).real) := (congrArg Dual.value ta.1).trans (hval a)
    have hbt : (b.eval (c t)).value = b.eval (fun i => (h i).real) := (congrArg Dual.value tb.1).trans (hval b)
    have hev := hp.tendsto.eventually
      (o.eval_eventually (p := ((a.eval (c t)).value, (b.eval (c t)).value))
        (by rw [hat, hbt]; exact hne))
    have hco : ∀ x y : Dual ℝ, o.eval x y = o.eval x.value y.value := by
      intro x y; cases o <;> rfl
    have hch : o.eval (a.eval h) (b.eval h) =
        o.eval (a.eval fun i => (h i).real) (b.eval fun i => (h i).real) := by
      rw [← hval, ← hval]; cases o <;> rfl
    have congr : ∀ {f g : ℝ → Dual ℝ} {k : HyperDual ℝ}, TanDual f k t → g =ᶠ[𝓝 t] f →
        TanDual g k t := by
      intro f g k hf hfg
      refine ⟨hfg.self_of_nhds.trans hf.1, hf.2.1.congr_of_eventuallyEq ?_,
        hf.2.2.congr_of_eventuallyEq ?_⟩
      · filter_upwards [hfg] with s hs; rw [hs]
      · filter_upwards [hfg] with s hs; rw [hs]
    by_cases hcx : o.eval (a.eval fun i => (h i).real) (b.eval fun i => (h i).real) = true
    · rw [if_pos hcx] at huv
      have e1 : (Expr.ite o a b u v).eval h = u.eval h := by
        simp only [Expr.eval]; rw [hch, if_pos hcx]
      rw [e1]
      refine congr (ihu huv) ?_
      filter_upwards [hev] with s hs
      simp only [Expr.eval]
      rw [hco, if_pos (hs.2.trans (by rw [hat, hbt]; exact hcx))]
    · rw [if_neg hcx] at huv
      have e1 : (Expr.ite o a b u v).eval h = v.eval h := by
        simp only [Expr.eval]; rw [hch, if_neg hcx]
      rw [e1]
      refine congr (ihv huv) ?_
      filter_upwards [hev] with s hs
      simp only [Expr.eval]
      rw [hco, if_neg (fun hh => hcx (by rw [← hh, ← hat, ← hbt]; exact hs.2.symm))]

/-! ### Third derivatives -/

namespace HyperDual

theorem chain_self (h : HyperDual ℝ) : h.chain h.real 1 0 = h := by
  ext <;> simp [chain]

theorem chain_const (h : HyperDual ℝ) (c : ℝ) : h.chain c 0 0 = constant c := by
  ext <;> simp [chain, constant]

theorem mul_def (a b : HyperDual ℝ) : a * b = ⟨a.real * b.real, a.real * b.eps1 + a.eps1 * b.real,
    a.real * b.eps2 + a.eps2 * b.real,
    a.real * b.eps1eps2 + a.eps1 * b.eps2 + a.eps2 * b.eps1 + a.eps1eps2 * b.real⟩ := rfl

theorem add_def (a b : HyperDual ℝ) :
    a + b = ⟨a.real + b.real, a.eps1 + b.eps1, a.eps2 + b.eps2, a.eps1eps2 + b.eps1eps2⟩ := rfl

theorem sub_def (a b : HyperDual ℝ) :
    a - b = ⟨a.real - b.real, a.eps1 - b.eps1, a.eps2 - b.eps2, a.eps1eps2 - b.eps1eps2⟩ := rfl

theorem neg_def (a : HyperDual ℝ) : -a = ⟨-a.real, -a.eps1, -a.eps2, -a.eps1eps2⟩ := rfl

theorem div_def (a b : HyperDual ℝ) : a / b = a * b.recip := rfl

theorem recip_def (b : HyperDual ℝ) : b.recip = ⟨1 / b.real, -(1 / b.real * (1 / b.real)) * b.eps1,
      -(1 / b.real * (1 / b.real)) * b.eps2, -(1 / b.real * (1 / b.real)) * b.eps1eps2 +
        (((2 : ℕ) : ℝ) * (1 / b.real) * (1 / b.real) * (1 / b.real)) * b.eps1 * b.eps2⟩ := rfl

theorem natCast_def (k : ℕ) : ((k : ℕ) : HyperDual ℝ) = constant (k : ℝ) := rfl

theorem one_def : (1 : HyperDual ℝ) = constant 1 := rfl

theorem chain_mul (h : HyperDual ℝ) (p0 p1 p2 q0 q1 q2 : ℝ) :
    h.chain p0 p1 p2 * h.chain q0 q1 q2 =
      h.chain (p0 * q0) (p0 * q1 + p1 * q0) (p0 * q2 + 2 * p1 * q1 + p2 * q0) := by
  rw [mul_def]
  ext <;> simp only [chain] <;> ring

theorem chain_add (h : HyperDual ℝ) (p0 p1 p2 q0 q1 q2 : ℝ) :
    h.chain p0 p1 p2 + h.chain q0 q1 q2 = h.chain (p0 + q0) (p1 + q1) (p2 + q2) := by
  rw [add_def]
  ext <;> simp only [chain] <;> ring

theorem chain_neg (h : HyperDual ℝ) (p0 p1 p2 : ℝ) :
    -h.chain p0 p1 p2 = h.chain (-p0) (-p1) (-p2) := by
  rw [neg_def]
  ext <;> simp only [chain] <;> ring

theorem chain_recip (h : HyperDual ℝ) (p0 p1 p2 : ℝ) :
    (h.chain p0 p1 p2).recip =
      h.chain (1 / p0) (-(p1 / p0 ^ 2)) (2 * p1 ^ 2 / p0 ^ 3 - p2 / p0 ^ 2) := by
  rw [recip_def]
  ext <;> simp only [chain] <;> (try push_cast) <;> ring

theorem mul_comm' (a b : HyperDual ℝ) : a * b = b * a := by
  rw [mul_def, mul_def]
  ext <;> ring

theorem mul_assoc' (a b c : HyperDual ℝ) : a * b * c = a * (b * c) := by
  simp only [mul_def]
  ext <;> ring

end HyperDual

open HyperDual in
/-- A unary operation on a dual number over hyper-dual numbers. -/
theorem UnOp.triple (op : UnOp) (h k : HyperDual ℝ) (hs : op.SmoothAt h.real) :
    op.eval (⟨h, k⟩ : Dual (HyperDual ℝ)) =
      ⟨op.eval h, h.chain (op.d1 h.real) (op.d2 h.real) (op.d3 h.real) * k⟩ := by
  have hc : ∀ c : ℝ, constant c = h.chain c 0 0 := fun c => (chain_const h c).symm
  have hdist : ∀ p0 p1 p2 : ℝ, k / h.chain p0 p1 p2 =
      h.chain (1 / p0) (-(p1 / p0 ^ 2)) (2 * p1 ^ 2 / p0 ^ 3 - p2 / p0 ^ 2) * k := by
    intro p0 p1 p2
    rw [div_def, chain_recip, mul_comm']
  cases op with
  | neg =>
    refine Dual.ext rfl ?_
    show -k = h.chain (-1) 0 0 * k
    rw [neg_def, mul_def]
    ext <;> simp only [chain] <;> ring
  | abs =>
    refine Dual.ext rfl ?_
    show (if h.real < 0 then -k else k) = h.chain (if h.real < 0 then -1 else 1) 0 0 * k
    rw [mul_def]
    split_ifs
    · rw [neg_def]; ext <;> simp only [chain] <;> ring
    · ext <;> simp only [chain] <;> ring
  | sqrt =>
    refine Dual.ext rfl ?_
    have hx : 0 < h.real := hs
    have hr := Real.sqrt_pos.mpr hx
    have hsq := Real.sq_sqrt hx.le
    show k / (((2 : ℕ) : HyperDual ℝ) * UnOp.sqrt.eval h) = _
    rw [UnOp.hyper, natCast_def, hc, chain_mul, hdist]
    simp only [UnOp.d1, UnOp.d2, UnOp.d3]
    have e0 : UnOp.sqrt.eval h.real = √h.real := rfl
    rw [e0]
    generalize √h.real = r at hr hsq
    rw [← hsq]
    congr 2
    · push_cast; field_simp; norm_num
    · push_cast; field_simp; ring
  | cbrt =>
    refine Dual.ext rfl ?_
    have hx : h.real ≠ 0 := hs
    have hr := realCbrt_ne hx
    show k / (((3 : ℕ) : HyperDual ℝ) * UnOp.cbrt.eval h * UnOp.cbrt.eval h) = _
    rw [UnOp.hyper, natCast_def, hc, chain_mul, chain_mul, hdist]
    simp only [UnOp.d1, UnOp.d2, UnOp.d3]
    have e0 : UnOp.cbrt.eval h.real = realCbrt h.real := rfl
    rw [e0]
    generalize realCbrt h.real = r at hr
    congr 2
    · push_cast; ring
    · push_cast; field_simp; ring
    · push_cast; field_simp; ring
  | sin => rfl
  | cos =>
    refine Dual.ext rfl ?_
    show -(UnOp.sin.eval h) * k = _
    rw [UnOp.hyper, chain_neg]
    simp only [UnOp.d1, UnOp.d2, UnOp.d3, neg_neg]
    rfl
  | tan =>
    refine Dual.ext rfl ?_
    show (1 + UnOp.tan.eval h * UnOp.tan.eval h) * k = _
    rw [UnOp.hyper, one_def, hc, chain_mul, chain_add]
    simp only [UnOp.d1, UnOp.d2, UnOp.d3]
    have e0 : UnOp.tan.eval h.real = Real.tan h.real := rfl
    rw [e0]
    congr 2 <;> ring
  | exp => rfl
  | expm1 =>
    refine Dual.ext rfl ?_
    show UnOp.exp.eval h * k = _
    rw [UnOp.hyper]
    rfl
  | log =>
    refine Dual.ext rfl ?_
    have hx : h.real ≠ 0 := ne_of_gt hs
    show k / h = _
    conv_lhs => rw [← chain_self h, hdist]
    simp only [UnOp.d1, UnOp.d2, UnOp.d3]
    congr 2
    ring
  | ln1p =>
    refine Dual.ext rfl ?_
    show k / (h + 1) = _
    conv_lhs => rw [← chain_self h, one_def]
    rw [hc, chain_self]
    conv_lhs => rw [← chain_self h]
    rw [chain_self]
    conv_lhs =>
      arg 2
      arg 1
      rw [← chain_self h]
    rw [chain_add, hdist]
    simp only [UnOp.d1, UnOp.d2, UnOp.d3]
    congr 2 <;> ring
  | log2 =>
    refine Dual.ext rfl ?_
    show k / h / UnOp.log.eval ((2 : ℕ) : HyperDual ℝ) = _
    have h2 : UnOp.log.eval ((2 : ℕ) : HyperDual ℝ) = h.chain (Real.log 2) 0 0 := by
      rw [UnOp.hyper, chain_const, natCast_def]
      ext <;> simp [chain, constant, UnOp.eval, Fns.log]
    have hl : Real.log 2 ≠ 0 := (Real.log_pos (by norm_num)).ne'
    rw [h2]
    conv_lhs =>
      arg 1
      rw [← chain_self h, hdist]
    rw [div_def, chain_recip, mul_comm', ← mul_assoc', chain_mul]
    simp only [UnOp.d1, UnOp.d2, UnOp.d3]
    congr 2 <;> ring
  | log10 =>
    refine Dual.ext rfl ?_
    show k / h / UnOp.log.eval ((10 : ℕ) : HyperDual ℝ) = _
    have h2 : UnOp.log.eval ((10 : ℕ) : HyperDual ℝ) = h.chain (Real.log 10) 0 0 := by
      rw [UnOp.hyper, chain_const, natCast_def]
      ext <;> simp [chain, constant, UnOp.eval, Fns.log]
    have hl : Real.log 10 ≠ 0 := (Real.log_pos (by norm_num)).ne'
    rw [h2]
    conv_lhs =>
      arg 1
      rw [← chain_self h, hdist]
    rw [div_def, chain_recip, mul_comm', ← mul_assoc', chain_mul]
    simp only [UnOp.d1, UnOp.d2, UnOp.d3]
    congr 2 <;> ring
  | floor =>
    refine Dual.ext rfl ?_
    show (0 : HyperDual ℝ) = h.chain 0 0 0 * k
    rw [mul_def]
    ext <;> simp [chain] <;> rfl
  | ceil =>
    refine Dual.ext rfl ?_
    show (0 : HyperDual ℝ) = h.chain 0 0 0 * k
    rw [mul_def]
    ext <;> simp [chain] <;> rfl
  | round =>
    refine Dual.ext rfl ?_
    show (0 : HyperDual ℝ) = h.chain 0 0 0 * k
    rw [mul_def]
    ext <;> simp [chain] <;> rfl
  | trunc =>
    refine Dual.ext rfl ?_
    show (0 : HyperDual ℝ) = h.chain 0 0 0 * k
    rw [mul_def]
    ext <;> simp [chain] <;> rfl
  | clamp lo hi =>
    show clampLit (⟨h, k⟩ : Dual (HyperDual ℝ)) lo hi = ⟨clampLit h lo hi, _⟩
    unfold clampLit
    show (if h.real < lo then (⟨constant (lo : ℝ), 0⟩ : Dual (HyperDual ℝ))
      else if (hi : ℝ) < h.real then ⟨constant (hi : ℝ), 0⟩ else ⟨h, k⟩) =
      ⟨if h.real < lo then constant (lo : ℝ) else if (hi : ℝ) < h.real then constant (hi : ℝ)
        else h, h.chain (if h.real < lo then 0 else if (hi : ℝ) < h.real then 0 else 1) 0 0 * k⟩
    rw [mul_def]
    split_ifs <;> refine Dual.ext rfl ?_ <;> ext <;> simp [chain] <;> rfl

/-- A curve of hyper-dual numbers with the given value and derivative. -/
def TanHyper (c : ℝ → HyperDual ℝ) (d : Dual (HyperDual ℝ)) (t : ℝ) : Prop :=
  c t = d.value ∧ HasDerivAt (fun s => (c s).real) d.deriv.real t ∧
    HasDerivAt (fun s => (c s).eps1) d.deriv.eps1 t ∧
    HasDerivAt (fun s => (c s).eps2) d.deriv.eps2 t ∧
    HasDerivAt (fun s => (c s).eps1eps2) d.deriv.eps1eps2 t

/-- The derivative along a curve of a chain of three successive derivatives. -/
theorem tanHyper_chain {f0 f1 f2 f3 : ℝ → ℝ} {c : ℝ → HyperDual ℝ} {d : Dual (HyperDual ℝ)} {t : ℝ}
    (hc : TanHyper c d t) (h0 : HasDerivAt f0 (f1 d.value.real) d.value.real)
    (h1 : HasDerivAt f1 (f2 d.value.real) d.value.real)
    (h2 : HasDerivAt f2 (f3 d.value.real) d.value.real) :
    TanHyper (fun s => (c s).chain (f0 (c s).real) (f1 (c s).real) (f2 (c s).real))
      ⟨d.value.chain (f0 d.value.real) (f1 d.value.real) (f2 d.value.real),
        d.value.chain (f1 d.value.real) (f2 d.value.real) (f3 d.value.real) * d.deriv⟩ t := by
  obtain ⟨c0, c1, c2, c3, c4⟩ := hc
  have hr : (c t).real = d.value.real := by rw [c0]
  rw [← hr] at h0 h1 h2
  refine ⟨by beta_reduce; rw [c0], ?_, ?_, ?_, ?_⟩
  · refine (h0.comp t c1).congr_deriv ?_
    rw [hr]; rfl
  · refine ((h1.comp t c1).mul c2).congr_deriv ?_
    simp only [Function.comp_apply, c0, HyperDual.mul_def, HyperDual.chain]
    ring
  · refine ((h1.comp t c1).mul c3).congr_deriv ?_
    simp only [Function.comp_apply, c0, HyperDual.mul_def, HyperDual.chain]
    ring
  · refine (((h1.comp t c1).mul c4).add (((h2.comp t c1).mul c2).mul c3)).congr_deriv ?_
    simp only [Pi.mul_apply, Function.comp_apply, c0, HyperDual.mul_def, HyperDual.chain]
    ring

theorem UnOp.tanHyper (op : UnOp) {c : ℝ → HyperDual ℝ} {d : Dual (HyperDual ℝ)} {t : ℝ}
    (hc : TanHyper c d t) (hs : op.SmoothAt d.value.real) :
    TanHyper (fun s => op.eval (c s)) (op.eval d) t := by
  have h := tanHyper_chain hc (op.hasDerivAt hs) (op.hasDerivAt_d1 hs) (op.hasDerivAt_d2 hs)
  have e1 : op.eval d = ⟨op.eval d.value, _⟩ := op.triple d.value d.deriv hs
  rw [e1]
  have e2 : (fun s => op.eval (c s)) =
      fun s => (c s).chain (op.eval (c s).real) (op.d1 (c s).real) (op.d2 (c s).real) := by
    funext s; exact op.hyper (c s)
  rw [e2, op.hyper d.value]
  exact h

theorem TanHyper.mul {c₁ c₂ : ℝ → HyperDual ℝ} {a b : Dual (HyperDual ℝ)} {t : ℝ}
    (h₁ : TanHyper c₁ a t) (h₂ : TanHyper c₂ b t) :
    TanHyper (fun s => c₁ s * c₂ s) (a * b) t := by
  obtain ⟨a0, a1, a2, a3, a4⟩ := h₁
  obtain ⟨b0, b1, b2, b3, b4⟩ := h₂
  have e : a * b = ⟨a.value * b.value, a.value * b.deriv + a.deriv * b.value⟩ := rfl
  rw [e]
  refine ⟨by beta_reduce; rw [a0, b0], ?_, ?_, ?_, ?_⟩
  · refine (a1.mul b1).congr_deriv ?_
    simp only [a0, b0, HyperDual.mul_def, HyperDual.add_def]
    ring
  · refine ((a1.mul b2).add (a2.mul b1)).congr_deriv ?_
    simp only [a0, b0, HyperDual.mul_def, HyperDual.add_def]
    ring
  · refine ((a1.mul b3).add (a3.mul b1)).congr_deriv ?_
    simp only [a0, b0, HyperDual.mul_def, HyperDual.add_def]
    ring
  · refine ((((a1.mul b4).add (a2.mul b3)).add (a3.mul b2)).add (a4.mul b1)).congr_deriv ?_
    simp only [a0, b0, HyperDual.mul_def, HyperDual.add_def]
    ring

open HyperDual in
theorem TanHyper.div {c₁ c₂ : ℝ → HyperDual ℝ} {a b : Dual (HyperDual ℝ)} {t : ℝ}
    (h₁ : TanHyper c₁ a t) (h₂ : TanHyper c₂ b t) (hb : b.value.real ≠ 0) :
    TanHyper (fun s => c₁ s / c₂ s) (a / b) t := by
  have hr : TanHyper (fun s => (c₂ s).recip)
      ⟨b.value.recip, b.value.chain (-(1 / b.value.real * (1 / b.value.real)))
        (((2 : ℕ) : ℝ) * (1 / b.value.real) * (1 / b.value.real) * (1 / b.value.real))
        (-(6 / b.value.real ^ 4)) * b.deriv⟩ t := by
    refine tanHyper_chain (f0 := fun x => 1 / x) (f1 := fun x => -(1 / x * (1 / x)))
      (f2 := fun x => ((2 : ℕ) : ℝ) * (1 / x) * (1 / x) * (1 / x)) (f3 := fun x => -(6 / x ^ 4))
      h₂ ?_ ?_ ?_
    · refine HasDerivAt.congr_of_eventuallyEq ((hasDerivAt_inv hb).congr_deriv ?_)
        (Eventually.of_forall fun y => one_div y)
      ring
    · refine HasDerivAt.congr_of_eventuallyEq
        ((((hasDerivAt_pow 2 b.value.real).inv (pow_ne_zero 2 hb)).neg).congr_deriv ?_)
        (Eventually.of_forall fun y => by simp [sq])
      push_cast
      field_simp
    · refine HasDerivAt.congr_of_eventuallyEq
        ((((hasDerivAt_pow 3 b.value.real).inv (pow_ne_zero 3 hb)).const_mul 2).congr_deriv ?_)
        (Eventually.of_forall fun y => by simp [pow_succ]; ring)
      field_simp
      norm_num
      try ring
  have h := h₁.mul hr
  have e : a / b = a * ⟨b.value.recip, b.value.chain (-(1 / b.value.real * (1 / b.value.real)))
        (((2 : ℕ) : ℝ) * (1 / b.value.real) * (1 / b.value.real) * (1 / b.value.real))
        (-(6 / b.value.real ^ 4)) * b.deriv⟩ := by
    refine Dual.ext rfl ?_
    show (a.deriv * b.value - a.value * b.deriv) / (b.value * b.value) =
      a.value * (b.value.chain (-(1 / b.value.real * (1 / b.value.real)))
        (((2 : ℕ) : ℝ) * (1 / b.value.real) * (1 / b.value.real) * (1 / b.value.real))
        (-(6 / b.value.real ^ 4)) * b.deriv) + a.deriv * b.value.recip
    simp only [div_def, recip_def, mul_def, add_def, sub_def, chain]
    push_cast
    ext <;> field_simp <;> ring
  rw [e]
  exact h

open HyperDual in
theorem TanHyper.atan2 {c₁ c₂ : ℝ → HyperDual ℝ} {a b : Dual (HyperDual ℝ)} {t : ℝ}
    (h₁ : TanHyper c₁ a t) (h₂ : TanHyper c₂ b t) (hs : 0 < b.value.real ∨ a.value.real ≠ 0) :
    TanHyper (fun s => Fns.atan2 (c₁ s) (c₂ s)) (Fns.atan2 a b) t := by
  obtain ⟨a0, a1, a2, a3, a4⟩ := h₁
  obtain ⟨b0, b1, b2, b3, b4⟩ := h₂
  have hr : b.value.real * b.value.real + a.value.real * a.value.real ≠ 0 := by
    rcases hs with h | h
    · have := mul_pos h h
      have := mul_self_nonneg a.value.real
      linarith
    · have := mul_self_pos.mpr h
      have := mul_self_nonneg b.value.real
      linarith
  have hr2 : b.value.real ^ 2 + a.value.real ^ 2 ≠ 0 := by simpa only [sq] using hr
  have hr3 : a.value.real ^ 2 + b.value.real ^ 2 ≠ 0 := by rwa [add_comm]
  have hr' : (c₂ t).real * (c₂ t).real + (c₁ t).real * (c₁ t).real ≠ 0 := by rwa [a0, b0]
  -- the denominators
  have hR : HasDerivAt (fun s => (c₂ s).real * (c₂ s).real + (c₁ s).real * (c₁ s).real)
      (2 * (b.value.real * b.deriv.real + a.value.real * a.deriv.real)) t := by
    refine ((b1.mul b1).add (a1.mul a1)).congr_deriv ?_
    rw [a0, b0]; ring
  have hR2 := hR.mul hR
  have hfy := b1.div hR hr'
  have hfx := a1.neg.div hR hr'
  have hxy := ((b1.const_mul ((2 : ℕ) : ℝ)).mul a1)
  have hfyy := hxy.neg.div hR2 (mul_ne_zero hr' hr')
  have hfxx := hxy.div hR2 (mul_ne_zero hr' hr')
  have hfxy := ((a1.mul a1).sub (b1.mul b1)).div hR2 (mul_ne_zero hr' hr')
  have ev : (Fns.atan2 a b : Dual (HyperDual ℝ)) = ⟨Fns.atan2 a.value b.value,
    (b.value * a.deriv - a.value * b.deriv) / (a.value * a.value + b.value * b.value)⟩ := rfl
  rw [ev]
  refine ⟨by beta_reduce; rw [a0, b0], ?_, ?_, ?_, ?_⟩
  · have hs' : 0 < (c₂ t).real ∨ (c₁ t).real ≠ 0 := by rwa [a0, b0]
    refine (hasDerivAt_atan2 a1 b1 hs').congr_deriv ?_
    simp only [a0, b0, div_def, recip_def, mul_def, add_def, sub_def]
    ring
  · refine ((hfy.mul a2).add (hfx.mul b2)).congr_deriv ?_
    simp only [Pi.div_apply, Pi.mul_apply, Pi.neg_apply, Pi.sub_apply, a0, b0, div_def, recip_def,
      mul_def, add_def, sub_def]
    push_cast
    field_simp
    ring
  · refine ((hfy.mul a3).add (hfx.mul b3)).congr_deriv ?_
    simp only [Pi.div_apply, Pi.mul_apply, Pi.neg_apply, Pi.sub_apply, a0, b0, div_def, recip_def,
      mul_def, add_def, sub_def]
    push_cast
    field_simp
    ring
  · refine (((((hfy.mul a4).add (hfx.mul b4)).add ((hfyy.mul a2).mul a3)).add
      ((hfxx.mul b2).mul b3)).add (hfxy.mul ((a2.mul b3).add (a3.mul b2)))).congr_deriv ?_
    simp only [Pi.div_apply, Pi.mul_apply, Pi.neg_apply, Pi.sub_apply, Pi.add_apply, a0, b0,
      div_def, recip_def, mul_def, add_def, sub_def]
    push_cast
    field_simp
    ring

theorem TanHyper.copysign {c₁ c₂ : ℝ → HyperDual ℝ} {a b : Dual (HyperDual ℝ)} {t : ℝ}
    (h₁ : TanHyper c₁ a t) (h₂ : TanHyper c₂ b t) (hs : a.value.real ≠ 0 ∧ b.value.real ≠ 0) :
    TanHyper (fun s => Fns.copysign (c₁ s) (c₂ s)) (Fns.copysign a b) t := by
  obtain ⟨a0, a1, a2, a3, a4⟩ := h₁
  obtain ⟨b0, b1, b2, b3, b4⟩ := h₂
  have hs' : (c₁ t).real ≠ 0 ∧ (c₂ t).real ≠ 0 := by rw [a0, b0]; exact hs
  have hev : ∀ᶠ s in 𝓝 t, (decide ((c₁ s).real < 0) = decide ((c₂ s).real < 0)) =
      (decide (a.value.real < 0) = decide (b.value.real < 0)) := by
    have hp : ContinuousAt (fun s => ((c₁ s).real, (0 : ℝ))) t :=
      a1.continuousAt.prodMk continuousAt_const
    have hq : ContinuousAt (fun s => ((c₂ s).real, (0 : ℝ))) t :=
      b1.continuousAt.prodMk continuousAt_const
    filter_upwards [hp.tendsto.eventually (Cmp.lt.eval_eventually hs'.1),
      hq.tendsto.eventually (Cmp.lt.eval_eventually hs'.2)] with s h1 h2
    have h1 : decide ((c₁ s).real < 0) = decide ((c₁ t).real < 0) := h1.2
    have h2 : decide ((c₂ s).real < 0) = decide ((c₂ t).real < 0) := h2.2
    rw [h1, h2, a0, b0]
  have e0 : ∀ x y : HyperDual ℝ, Fns.copysign x y = x.chain (Fns.copysign x.real y.real)
      (if decide (x.real < 0) = decide (y.real < 0) then 1 else -1) 0 := fun _ _ => rfl
  have e1 : (Fns.copysign a b : Dual (HyperDual ℝ)) = ⟨Fns.copysign a.value b.value,
      if decide (a.value.real < 0) = decide (b.value.real < 0) then a.deriv else -a.deriv⟩ := rfl
  rw [e1]
  refine ⟨by beta_reduce; rw [a0, b0], ?_, ?_, ?_, ?_⟩
  · refine (hasDerivAt_copysign a1 b1 hs').congr_deriv ?_
    rw [a0, b0]
    split_ifs
    · exact one_mul _
    · exact neg_one_mul _
  · by_cases hc : decide (a.value.real < 0) = decide (b.value.real < 0)
    · rw [if_pos hc]
      refine a2.congr_of_eventuallyEq ?_
      filter_upwards [hev] with s hs
      rw [e0, if_pos (hs.mpr hc)]
      exact one_mul _
    · rw [if_neg hc]
      refine a2.neg.congr_of_eventuallyEq ?_
      filter_upwards [hev] with s hs
      rw [e0, if_neg (fun h => hc (hs.mp h))]
      exact neg_one_mul _
  · by_cases hc : decide (a.value.real < 0) = decide (b.value.real < 0)
    · rw [if_pos hc]
      refine a3.congr_of_eventuallyEq ?_
      filter_upwards [hev] with s hs
      rw [e0, if_pos (hs.mpr hc)]
      exact one_mul _
    · rw [if_neg hc]
      refine a3.neg.congr_of_eventuallyEq ?_
      filter_upwards [hev] with s hs
      rw [e0, if_neg (fun h => hc (hs.mp h))]
      exact neg_one_mul _
  · by_cases hc : decide (a.value.real < 0) = decide (b.value.real < 0)
    · rw [if_pos hc]
      refine a4.congr_of_eventuallyEq ?_
      filter_upwards [hev] with s hs
      rw [e0, if_pos (hs.mpr hc)]
      show 1 * _ + 0 * _ * _ = _
      ring
    · rw [if_neg hc]
      refine a4.neg.congr_of_eventuallyEq ?_
      filter_upwards [hev] with s hs
      rw [e0, if_neg (fun h => hc (hs.mp h))]
      show -1 * _ + 0 * _ * _ = -_
      ring

/-- Along any differentiable curve of hyper-dual inputs, running a program on the nested type gives
the velocity of the hyper-dual output. -/
theorem Expr.tanHyper {n : ℕ} (e : Expr n) {c : ℝ → Fin n → HyperDual ℝ}
    {d : Fin n → Dual (HyperDual ℝ)} {t : ℝ} (hc : ∀ i, TanHyper (fun s => c s i) (d i) t)
    (hs : e.SmoothAt (fun i => (d i).value.real)) :
    TanHyper (fun s => e.eval (c s)) (e.eval d) t := by
  have hval : ∀ e : Expr n, (e.eval d).value.real = e.eval (fun i => (d i).value.real) := by
    intro e
    rw [dual_value]
    exact hyperDual_value_partial real_jet_laws.1 e _
  have hcst : ∀ x : ℝ, TanHyper (fun _ => HyperDual.constant x)
      (Dual.constant (HyperDual.constant x)) t := fun x =>
    ⟨rfl, hasDerivAt_const t _, hasDerivAt_const t _, hasDerivAt_const t _, hasDerivAt_const t _⟩
  induction e with
  | var i => exact hc i
  | lit q => exact hcst _
  | nat k => exact hcst _
  | pi => exact hcst _
  | un op a ih => exact op.tanHyper (ih hs.1) (by rw [hval]; exact hs.2)
  | bin op a b iha ihb =>
    have ta := iha hs.1
    have tb := ihb hs.2.1
    have hsm : op.SmoothAt (a.eval d).value.real (b.eval d).value.real := by
      rw [hval, hval]; exact hs.2.2
    cases op with
    | add =>
      obtain ⟨a0, a1, a2, a3, a4⟩ := ta
      obtain ⟨b0, b1, b2, b3, b4⟩ := tb
      refine ⟨?_, a1.add b1, a2.add b2, a3.add b3, a4.add b4⟩
      beta_reduce at a0 b0 ⊢
      simp only [Expr.eval]
      rw [a0, b0]; rfl
    | sub =>
      obtain ⟨a0, a1, a2, a3, a4⟩ := ta
      obtain ⟨b0, b1, b2, b3, b4⟩ := tb
      refine ⟨?_, a1.sub b1, a2.sub b2, a3.sub b3, a4.sub b4⟩
      beta_reduce at a0 b0 ⊢
      simp only [Expr.eval]
      rw [a0, b0]; rfl
    | mul => exact ta.mul tb
    | div => exact ta.div tb hsm
    | atan2 => exact ta.atan2 tb hsm
    | copysign => exact ta.copysign tb hsm
  | ite o a b u v iha ihb ihu ihv =>
    obtain ⟨ha, hb, hne, huv⟩ := hs
    have ta := iha ha
    have tb := ihb hb
    have hp : ContinuousAt (fun s => ((a.eval (c s)).real, (b.eval (c s)).real)) t :=
      ta.2.1.continuousAt.prodMk tb.2.1.continuousAt
    have hat : (a.eval (c t)).real = a.eval (fun i => (d i).value.real) :=
      (congrArg HyperDual.real ta.1).trans (hval a)
    have hbt : (b.eval (c t)).real = b.eval (fun i => (d i).value.real) :=
      (congrArg HyperDual.real tb.1).trans (hval b)
    have hev := hp.tendsto.eventually
      (o.eval_eventually (p := ((a.eval (c t)).real, (b.eval (c t)).real))
        (by rw [hat, hbt]; exact hne))
    have hco : ∀ x y : HyperDual ℝ, o.eval x y = o.eval x.real y.real := by
      intro x y; cases o <;> rfl
    have hch : o.eval (a.eval d) (b.eval d) =
        o.eval (a.eval fun i => (d i).value.real) (b.eval fun i => (d i).value.real) := by
      rw [← hval, ← hval]; cases o <;> rfl
    have congr : ∀ {f g : ℝ → HyperDual ℝ} {k : Dual (HyperDual ℝ)}, TanHyper f k t →
        g =ᶠ[𝓝 t] f → TanHyper g k t := by
      intro f g k hf hfg
      refine ⟨hfg.self_of_nhds.trans hf.1, hf.2.1.congr_of_eventuallyEq ?_,
        hf.2.2.1.congr_of_eventuallyEq ?_, hf.2.2.2.1.congr_of_eventuallyEq ?_,
        hf.2.2.2.2.congr_of_eventuallyEq ?_⟩
      all_goals filter_upwards [hfg] with s hs; rw [hs]
    by_cases hcx : o.eval (a.eval fun i => (d i).value.real) (b.eval fun i => (d i).value.real)
        = true
    · rw [if_pos hcx] at huv
      have e1 : (Expr.ite o a b u v).eval d = u.eval d := by
        simp only [Expr.eval]; rw [hch, if_pos hcx]
      rw [e1]
      refine congr (ihu huv) ?_
      filter_upwards [hev] with s hs
      simp only [Expr.eval]
      rw [hco, if_pos (hs.2.trans (by rw [hat, hbt]; exact hcx))]
    · rw [if_neg hcx] at huv
      have e1 : (Expr.ite o a b u v).eval d = v.eval d := by
        simp only [Expr.eval]; rw [hch, if_neg hcx]
      rw [e1]
      refine congr (ihv huv) ?_
      filter_upwards [hev] with s hs
      simp only [Expr.eval]
      rw [hco, if_neg (fun hh => hcx (by rw [← hh, ← hat, ← hbt]; exact hs.2.symm))]

end Multicalc
