import Verif.Model.Autodiff
import Mathlib.Tactic
import Mathlib.Data.Int.Log

/-!
# The value part of an autodiff computation
-/

namespace Multicalc

section
variable {T : Type} [Zero T] [One T] [NatCast T] [Add T] [Sub T] [Mul T] [Div T] [Neg T] [LT T]
  [DecidableLT T] [LE T] [DecidableLE T] [BEq T] [Fns T] [More T]

omit [LE T] [DecidableLE T] [BEq T] [More T] in
/-- C12. `clamp` of a dual number to literal bounds is the generic clamp of a program. -/
theorem dual_clamp (a : Dual T) (lo hi : ℚ) :
    a.clamp (Fns.lit lo) (Fns.lit hi) = clampLit a lo hi := rfl

omit [LE T] [DecidableLE T] [BEq T] [More T] in
/-- C12. The same for hyper-dual numbers. -/
theorem hyperDual_clamp (a : HyperDual T) (lo hi : ℚ) :
    a.clamp (Fns.lit lo) (Fns.lit hi) = clampLit a lo hi := rfl

/-- C12. A program run on dual numbers over any scalar (rounding, NaN and all) takes the same
branches and returns the same value as the plain program: whatever derivatives are seeded. -/
theorem dual_value {n : ℕ} (e : Expr n) (x : Fin n → Dual T) :
    (e.eval x).value = e.eval (fun i => (x i).value) := by
  induction e with
  | var i => rfl
  | lit q => rfl
  | nat k => rfl
  | pi => rfl
  | un op a ih =>
    simp only [Expr.eval, ← ih]
    generalize Expr.eval x a = v
    cases op <;> try rfl
    rename_i lo hi
    show (clampLit v lo hi).value = clampLit v.value lo hi
    rw [← dual_clamp]
    unfold Dual.clamp clampLit
    split_ifs <;> rfl
  | bin op a b iha ihb =>
    simp only [Expr.eval, ← iha, ← ihb]
    cases op <;> rfl
  | ite c a b t e iha ihb iht ihe =>
    simp only [Expr.eval, ← iha, ← ihb, ← iht, ← ihe]
    have : ∀ u v : Dual T, c.eval u v = c.eval u.value v.value := by
      intro u v; cases c <;> rfl
    rw [this]
    split_ifs <;> rfl

/-- C12. On hyper-dual numbers the value part is the plain value provided multiplying by a
reciprocal is dividing, which the division of the type relies on. -/
theorem hyperDual_value_partial (hdiv : ∀ x y : T, x * (1 / y) = x / y) {n : ℕ} (e : Expr n)
    (x : Fin n → HyperDual T) :
    (e.eval x).real = e.eval (fun i => (x i).real) := by
  induction e with
  | var i => rfl
  | lit q => rfl
  | nat k => rfl
  | pi => rfl
  | un op a ih =>
    simp only [Expr.eval, ← ih]
    generalize Expr.eval x a = v
    cases op <;> try rfl
    rename_i lo hi
    show (clampLit v lo hi).real = clampLit v.real lo hi
    rw [← hyperDual_clamp]
    unfold HyperDual.clamp clampLit
    split_ifs <;> rfl
  | bin op a b iha ihb =>
    simp only [Expr.eval, ← iha, ← ihb]
    cases op <;> first | rfl | exact hdiv _ _
  | ite c a b t e iha ihb iht ihe =>
    simp only [Expr.eval, ← iha, ← ihb, ← iht, ← ihe]
    have : ∀ u v : HyperDual T, c.eval u v = c.eval u.real v.real := by
      intro u v; cases c <;> rfl
    rw [this]
    split_ifs <;> rfl

/-! ### Jets -/

omit [One T] [NatCast T] [Add T] [Sub T] [Mul T] [Div T] [Neg T] [LT T] [DecidableLT T] [LE T]
  [DecidableLE T] [BEq T] [Fns T] [More T] in
theorem jet_get_ofFn {N : ℕ} (out : ℕ → T) {k : ℕ} (hk : k < N) :
    (Jet.ofFn out : Jet T N).get k = out k := by
  simp [Jet.get, Jet.ofFn, hk]

omit [Zero T] [One T] [NatCast T] [Add T] [Sub T] [Mul T] [Div T] [Neg T] [LT T] [DecidableLT T]
  [LE T] [DecidableLE T] [BEq T] [Fns T] [More T] in
theorem foldl_update_below (l : List ℕ) (step : ℕ → (ℕ → T) → T) (out : ℕ → T) (m : ℕ)
    (h : ∀ k ∈ l, k ≠ m) :
    (l.foldl (fun out k => Function.update out k (step k out)) out) m = out m := by
  induction l generalizing out with
  | nil => rfl
  | cons k l ih =>
    rw [List.foldl_cons, ih _ (fun j hj => h j (List.mem_cons_of_mem _ hj)),
      Function.update_of_ne (h k List.mem_cons_self).symm]

omit [Zero T] [One T] [NatCast T] [Add T] [Sub T] [Mul T] [Div T] [Neg T] [LT T] [DecidableLT T]
  [LE T] [DecidableLE T] [BEq T] [Fns T] [More T] in
theorem fillLoop_zero (N : ℕ) (step : ℕ → (ℕ → T) → T) (out : ℕ → T) :
    fillLoop 1 N step out 0 = out 0 :=
  foldl_update_below _ _ _ _ fun k hk => by
    have := (List.mem_range'_1.mp hk).1; omega

omit [LT T] [DecidableLT T] [LE T] [DecidableLE T] [BEq T] [Fns T] [More T] in
theorem sinCosLoop_zero {N : ℕ} (a : Jet T N) (hi : ℕ) (st : (ℕ → T) × (ℕ → T)) :
    (Jet.sinCosLoop a hi st).1 0 = st.1 0 ∧ (Jet.sinCosLoop a hi st).2 0 = st.2 0 := by
  unfold Jet.sinCosLoop
  have : ∀ l : List ℕ, (∀ k ∈ l, k ≠ 0) → ∀ st : (ℕ → T) × (ℕ → T),
      let r := l.foldl (fun (st : (ℕ → T) × (ℕ → T)) k =>
        let sinAcc := accLoop 1 (k + 1) (fun i => (i : T) * a.get i * st.2 (k - i)) 0
        let cosAcc := accLoop 1 (k + 1) (fun i => (i : T) * a.get i * st.1 (k - i)) 0
        (Function.update st.1 k (sinAcc / (k : T)),
          Function.update st.2 k (-(cosAcc / (k : T))))) st
      r.1 0 = st.1 0 ∧ r.2 0 = st.2 0 := by
    intro l
    induction l with
    | nil => intro _ st; exact ⟨rfl, rfl⟩
    | cons k l ih =>
      intro h st
      have hk := (h k List.mem_cons_self).symm
      have := ih (fun j hj => h j (List.mem_cons_of_mem _ hj))
      simp only [List.foldl_cons]
      refine ⟨(this _).1.trans ?_, (this _).2.trans ?_⟩ <;>
        simp [Function.update_of_ne hk]
  exact this _ (fun k hk => by have := (List.mem_range'_1.mp hk).1; omega) st

omit [One T] [LT T] [DecidableLT T] [LE T] [DecidableLE T] [BEq T] [Fns T] [More T] [Neg T] in
theorem cbrtLoop_zero {N : ℕ} (a : Jet T N) (w : T) (hi : ℕ) (st : (ℕ → T) × (ℕ → T)) :
    (Jet.cbrtLoop a w hi st).1 0 = st.1 0 := by
  unfold Jet.cbrtLoop
  have : ∀ l : List ℕ, (∀ k ∈ l, k ≠ 0) → ∀ st : (ℕ → T) × (ℕ → T),
      (l.foldl (fun (st : (ℕ → T) × (ℕ → T)) k =>
        let powerSum := accLoop 1 k (fun term => st.1 term * st.1 (k - term)) 0
        let acc := accLoop 1 k (fun i => st.1 i * st.2 (k - i)) (st.1 0 * powerSum)
        let outK := (a.get k - acc) / w
        (Function.update st.1 k outK,
          Function.update st.2 k (powerSum + ((2 : ℕ) : T) * st.1 0 * outK))) st).1 0
        = st.1 0 := by
    intro l
    induction l with
    | nil => intro _ st; rfl
    | cons k l ih =>
      intro h st
      have hk := (h k List.mem_cons_self).symm
      simp only [List.foldl_cons]
      refine (ih (fun j hj => h j (List.mem_cons_of_mem _ hj)) _).trans ?_
      simp [Function.update_of_ne hk]
  exact this _ (fun k hk => by have := (List.mem_range'_1.mp hk).1; omega) st

omit [LE T] [DecidableLE T] [BEq T] [More T] in
/-- C12. The same for jets. -/
theorem jet_clamp {N : ℕ} [NeZero N] (a : Jet T N) (lo hi : ℚ) :
    a.clamp (Fns.lit lo) (Fns.lit hi) = clampLit a lo hi := by
  have h0 : 0 < N := Nat.pos_of_ne_zero (NeZero.ne N)
  have hl : ∀ q : ℚ, (Fns.lit q : Jet T N).get 0 = Fns.lit q := fun q => by
    show (Jet.constant (Fns.lit q) : Jet T N).get 0 = _
    rw [Jet.constant, jet_get_ofFn _ h0, Function.update_self]
  unfold Jet.clamp clampLit
  have h1 : (a < Fns.lit lo) = (a.get 0 < Fns.lit lo) := by
    show (a.get 0 < (Fns.lit lo : Jet T N).get 0) = _
    rw [hl]
  have h2 : (Fns.lit hi < a) = (Fns.lit hi < a.get 0) := by
    show ((Fns.lit hi : Jet T N).get 0 < a.get 0) = _
    rw [hl]
  simp only [h1, h2]
  rfl

/-- C12. On jets of any length the value part is the plain value provided adding to zero, `|x|` as
a signed product, `tan` as a quotient and the logarithms to base 2 and 10 as quotients are exact,
which the jet operations rely on. -/
theorem jet_value_partial (hzero : ∀ x : T, 0 + x = x)
    (habs : ∀ x : T, (if x < 0 then -1 else 1) * x = Fns.abs x)
    (htan : ∀ x : T, Fns.sin x / Fns.cos x = Fns.tan x)
    (hlog2 : ∀ x : T, Fns.log x / Fns.log ((2 : ℕ) : T) = More.log2 x)
    (hlog10 : ∀ x : T, Fns.log x / Fns.log ((10 : ℕ) : T) = More.log10 x)
    {N : ℕ} [NeZero N] {n : ℕ} (e : Expr n) (x : Fin n → Jet T N) :
    (e.eval x).get 0 = e.eval (fun i => (x i).get 0) := by
  have h0 : 0 < N := Nat.pos_of_ne_zero (NeZero.ne N)
  have hconst : ∀ q : T, (Jet.constant q : Jet T N).get 0 = q := fun q => by
    rw [Jet.constant, jet_get_ofFn _ h0, Function.update_self]
  have hdiv : ∀ a b : Jet T N, (a / b).get 0 = a.get 0 / b.get 0 := by
    intro a b
    refine (jet_get_ofFn _ h0).trans ?_
    obtain ⟨m, rfl⟩ : ∃ m, N = m + 1 := ⟨N - 1, by omega⟩
    show fillLoop 0 (m + 1) _ _ 0 = _
    unfold fillLoop
    rw [show m + 1 - 0 = m + 1 from rfl, List.range'_succ, List.foldl_cons,
      foldl_update_below _ _ _ _ (fun k hk => by have := (List.mem_range'_1.mp hk).1; omega),
      Function.update_self]
    rfl
  have hsc : ∀ a : Jet T N, (Jet.sinCos a).1.get 0 = Fns.sin (a.get 0) ∧
      (Jet.sinCos a).2.get 0 = Fns.cos (a.get 0) := by
    intro a
    unfold Jet.sinCos
    dsimp only
    rw [jet_get_ofFn _ h0, jet_get_ofFn _ h0, (sinCosLoop_zero _ _ _).1, (sinCosLoop_zero _ _ _).2]
    dsimp only
    rw [Function.update_self, Function.update_self]
    exact ⟨rfl, rfl⟩
  induction e with
  | var i => rfl
  | lit q => exact hconst _
  | nat k => exact hconst _
  | pi => exact hconst _
  | un op a ih =>
    simp only [Expr.eval, ← ih]
    generalize Expr.eval x a = v
    cases op with
    | neg => exact jet_get_ofFn (fun k => -v.get k) h0
    | abs =>
      refine (jet_get_ofFn (fun k => (if v.get 0 < 0 then -1 else 1) * v.get k) h0).trans ?_
      exact habs _
    | sqrt => exact (jet_get_ofFn _ h0).trans ((fillLoop_zero _ _ _).trans (Function.update_self ..))
    | cbrt =>
      refine (jet_get_ofFn _ h0).trans ((cbrtLoop_zero _ _ _ _).trans ?_)
      exact Function.update_self (0 : ℕ) (Fns.cbrt (v.get 0)) (fun _ => (0 : T))
    | sin => exact (hsc v).1
    | cos => exact (hsc v).2
    | tan =>
      show ((Jet.sinCos v).1 / (Jet.sinCos v).2).get 0 = _
      rw [hdiv, (hsc v).1, (hsc v).2]
      exact htan _
    | exp => exact (jet_get_ofFn _ h0).trans ((fillLoop_zero _ _ _).trans (Function.update_self ..))
    | expm1 => exact (jet_get_ofFn _ h0).trans (Function.update_self ..)
    | log => exact (jet_get_ofFn _ h0).trans ((fillLoop_zero _ _ _).trans (Function.update_self ..))
    | ln1p => exact (jet_get_ofFn _ h0).trans ((fillLoop_zero _ _ _).trans (Function.update_self ..))
    | log2 =>
      refine (jet_get_ofFn (fun k => Jet.logArray v (Fns.log (v.get 0)) (v.get 0) k /
        Fns.log ((2 : ℕ) : T)) h0).trans ?_
      rw [show Jet.logArray v (Fns.log (v.get 0)) (v.get 0) 0 = Fns.log (v.get 0) from
        (fillLoop_zero _ _ _).trans (Function.update_self ..)]
      exact hlog2 _
    | log10 =>
      refine (jet_get_ofFn (fun k => Jet.logArray v (Fns.log (v.get 0)) (v.get 0) k /
        Fns.log ((10 : ℕ) : T)) h0).trans ?_
      rw [show Jet.logArray v (Fns.log (v.get 0)) (v.get 0) 0 = Fns.log (v.get 0) from
        (fillLoop_zero _ _ _).trans (Function.update_self ..)]
      exact hlog10 _
    | floor => exact hconst _
    | ceil => exact hconst _
    | round => exact hconst _
    | trunc => exact hconst _
    | clamp lo hi =>
      show (clampLit v lo hi).get 0 = clampLit (v.get 0) lo hi
      rw [← jet_clamp]
      unfold Jet.clamp clampLit
      split_ifs <;> first | rfl | exact hconst _
  | bin op a b iha ihb =>
    simp only [Expr.eval, ← iha, ← ihb]
    cases op with
    | add => exact jet_get_ofFn (fun k => (Expr.eval x a).get k + (Expr.eval x b).get k) h0
    | sub => exact jet_get_ofFn (fun k => (Expr.eval x a).get k - (Expr.eval x b).get k) h0
    | mul =>
      refine (jet_get_ofFn (fun k => accLoop 0 (k + 1)
        (fun i => (Expr.eval x a).get i * (Expr.eval x b).get (k - i)) 0) h0).trans ?_
      exact hzero _
    | div => exact hdiv _ _
    | atan2 => exact (jet_get_ofFn _ h0).trans ((fillLoop_zero _ _ _).trans (Function.update_self ..))
    | copysign => exact (jet_get_ofFn _ h0).trans (Function.update_self ..)
  | ite c a b t e iha ihb iht ihe =>
    simp only [Expr.eval, ← iha, ← ihb, ← iht, ← ihe]
    have : ∀ u v : Jet T N, c.eval u v = c.eval (u.get 0) (v.get 0) := by
      intro u v; cases c <;> rfl
    rw [this]
    split_ifs <;> rfl

end

/-- All the provisos hold in exact arithmetic. -/
theorem real_jet_laws :
    (∀ x y : ℝ, x * (1 / y) = x / y) ∧ (∀ x : ℝ, 0 + x = x) ∧
    (∀ x : ℝ, (if x < 0 then -1 else 1) * x = Fns.abs x) ∧
    (∀ x : ℝ, Fns.sin x / Fns.cos x = Fns.tan x) ∧
    (∀ x : ℝ, Fns.log x / Fns.log ((2 : ℕ) : ℝ) = More.log2 x) ∧
    (∀ x : ℝ, Fns.log x / Fns.log ((10 : ℕ) : ℝ) = More.log10 x) := by
  refine ⟨fun x y => by rw [mul_one_div], fun x => zero_add x, fun x => ?_, fun x => ?_,
    fun x => ?_, fun x => ?_⟩
  · show _ = |x|
    split_ifs with h
    · rw [abs_of_neg h]; ring
    · rw [abs_of_nonneg (not_lt.mp h)]; ring
  · exact (Real.tan_eq_sin_div_cos x).symm
  · show Real.log x / Real.log ((2 : ℕ) : ℝ) = Real.log x / Real.log 2
    norm_num
  · show Real.log x / Real.log ((10 : ℕ) : ℝ) = Real.log x / Real.log 10
    norm_num

/-- C12. In exact arithmetic the three autodiff types run the plain program. -/
theorem autodiff_value_real {n : ℕ} (e : Expr n) :
    (∀ x : Fin n → Dual ℝ, (e.eval x).value = e.eval (fun i => (x i).value)) ∧
    (∀ x : Fin n → HyperDual ℝ, (e.eval x).real = e.eval (fun i => (x i).real)) ∧
    (∀ (N : ℕ) [NeZero N] (x : Fin n → Jet ℝ N),
      (e.eval x).get 0 = e.eval (fun i => (x i).get 0)) :=
  ⟨dual_value e, hyperDual_value_partial real_jet_laws.1 e, fun N _ x =>
    jet_value_partial real_jet_laws.2.1 real_jet_laws.2.2.1 real_jet_laws.2.2.2.1
      real_jet_laws.2.2.2.2.1 real_jet_laws.2.2.2.2.2 e x⟩

/-! ### Rounded arithmetic -/

/-- Round to the nearest integer, ties to even. -/
def roundEven (y : ℚ) : ℤ :=
  if y - ⌊y⌋ < 1 / 2 then ⌊y⌋
  else if 1 / 2 < y - ⌊y⌋ then ⌊y⌋ + 1
  else if ⌊y⌋ % 2 = 0 then ⌊y⌋ else ⌊y⌋ + 1

/-- Round to 53 significant bits, ties to even: IEEE binary64 without overflow and underflow. -/
def round53 (q : ℚ) : ℚ :=
  if q = 0 then 0
  else (roundEven (q * 2 ^ (52 - Int.log 2 |q|)) : ℚ) / 2 ^ (52 - Int.log 2 |q|)

/-- A binary64 number, as the rational it denotes. -/
structure F53 where
  val : ℚ

namespace F53
instance : Zero F53 := ⟨⟨0⟩⟩
instance : One F53 := ⟨⟨1⟩⟩
instance : NatCast F53 := ⟨fun n => ⟨round53 n⟩⟩
instance : Add F53 := ⟨fun a b => ⟨round53 (a.val + b.val)⟩⟩
instance : Sub F53 := ⟨fun a b => ⟨round53 (a.val - b.val)⟩⟩
instance : Mul F53 := ⟨fun a b => ⟨round53 (a.val * b.val)⟩⟩
instance : Div F53 := ⟨fun a b => ⟨round53 (a.val / b.val)⟩⟩
instance : Neg F53 := ⟨fun a => ⟨-a.val⟩⟩
instance : LT F53 := ⟨fun a b => a.val < b.val⟩
instance : DecidableLT F53 := fun a b => inferInstanceAs (Decidable (a.val < b.val))
instance : LE F53 := ⟨fun a b => a.val ≤ b.val⟩
instance : DecidableLE F53 := fun a b => inferInstanceAs (Decidable (a.val ≤ b.val))
instance : BEq F53 := ⟨fun a b => a.val == b.val⟩
end F53

theorem round53_of {q : ℚ} (e : ℤ) (m : ℤ) (hq : q ≠ 0) (hlo : (2 : ℚ) ^ e ≤ |q|)
    (hhi : |q| < 2 ^ (e + 1)) (hm : |q * 2 ^ (52 - e) - m| < 1 / 2) :
    round53 q = m / 2 ^ (52 - e) := by
  have hlog : Int.log 2 |q| = e := by
    apply le_antisymm
    · have := (Int.lt_zpow_iff_log_lt (b := 2) (by norm_num) (abs_pos.mpr hq)
        (x := e + 1)).mp (by exact_mod_cast hhi)
      omega
    · exact (Int.zpow_le_iff_le_log (b := 2) (by norm_num) (abs_pos.mpr hq)).mp
        (by exact_mod_cast hlo)
  unfold round53
  rw [if_neg hq, hlog]
  congr 2
  obtain ⟨h1, h2⟩ := abs_lt.mp hm
  generalize q * 2 ^ (52 - e) = y at h1 h2
  unfold roundEven
  have hf : ⌊y⌋ = m ∨ ⌊y⌋ = m - 1 := by
    by_cases h : (m : ℚ) ≤ y
    · left; rw [Int.floor_eq_iff]; constructor <;> linarith
    · right; rw [Int.floor_eq_iff]; push_cast; constructor <;> linarith
  rcases hf with hf | hf
  · rw [hf, if_pos (by linarith)]
  · rw [hf]
    push_cast
    rw [if_neg (by linarith), if_pos (by linarith)]
    ring

/-- C12 (finding). With binary64 rounding a hyper-dual computation can take a different branch from
the plain one: `49 / 49` is `1` on plain numbers, but a hyper-dual number multiplies by the rounded
reciprocal and gets less than `1`, whatever derivatives are seeded.  So the program
`if x / x < 1 { .. } else { .. }` at `x = 49` runs its `else` branch on `f64` and on
`Dual`, and its `then` branch on `HyperDual`. -/
theorem hyperDual_branch_differs (d1 d2 d12 d : F53) :
    ¬ ((⟨49⟩ : F53) / ⟨49⟩ < 1) ∧
    ¬ ((⟨⟨49⟩, d⟩ : Dual F53) / ⟨⟨49⟩, d⟩ < 1) ∧
    (⟨⟨49⟩, d1, d2, d12⟩ : HyperDual F53) / ⟨⟨49⟩, d1, d2, d12⟩ < 1 := by
  have h1 : round53 ((49 : ℚ) / 49) = 1 := by
    rw [round53_of 0 (2 ^ 52)] <;> norm_num
  have h2 : round53 ((1 : ℚ) / 49) = (5882252574524729 : ℤ) / 2 ^ (52 - (-6) : ℤ) := by
    apply round53_of <;> norm_num [abs_lt]
  have h3 : round53 ((49 : ℚ) * ((5882252574524729 : ℤ) / 2 ^ (52 - (-6) : ℤ)))
      = ((2 ^ 53 - 1 : ℤ)) / 2 ^ (52 - (-1) : ℤ) := by
    apply round53_of <;> norm_num [abs_lt]
  refine ⟨?_, ?_, ?_⟩
  · show ¬ (round53 ((49 : ℚ) / 49) < 1)
    rw [h1]; norm_num
  · show ¬ (round53 ((49 : ℚ) / 49) < 1)
    rw [h1]; norm_num
  · show round53 ((49 : ℚ) * round53 ((1 : ℚ) / 49)) < 1
    rw [h2, h3]; norm_num

/-- A branching program on which the theorems above apply non-trivially: `if x / 2 < y { x } else
{ sin y }`. -/
example : ((Expr.ite .lt (.bin .div (.var 0) (.nat 2)) (.var 1) (.var 0)
      (.un .sin (.var 1)) : Expr 2).eval ![(⟨3, 1⟩ : Dual ℝ), ⟨2, 0⟩]).value = 3 := by
  rw [dual_value]
  simp only [Expr.eval, BinOp.eval, UnOp.eval, Cmp.eval]
  norm_num

end Multicalc
