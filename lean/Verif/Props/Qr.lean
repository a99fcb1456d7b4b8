import Verif.Model.Qr
import Verif.Props.LinearAlgebra
import Mathlib.Tactic

/-!
# Column-pivoted QR and damped least squares (C96, C97)
-/

namespace Multicalc

open Matrix

variable {m n : ℕ}

/-! ### The norm -/

/-- What `enorm` has summed so far, split into its three bands. -/
structure EnormState.Sums (s : EnormState ℝ) (total rd : ℝ) (count : ℕ) : Prop where
  total : s.smallMax ^ 2 * s.smallSum + s.midSum + s.largeMax ^ 2 * s.largeSum = total
  small : s.smallMax ^ 2 * s.smallSum ≤ count * rd ^ 2
  smallSum : 0 ≤ s.smallSum
  midSum : 0 ≤ s.midSum
  largeSum : 0 ≤ s.largeSum
  smallMax : 0 ≤ s.smallMax
  largeMax : 0 ≤ s.largeMax
  smallZero : s.smallMax = 0 → s.smallSum = 0
  largeZero : s.largeMax = 0 → s.largeSum = 0

theorem enormStep_sums (rd ag : ℝ) (hrd : 0 ≤ rd) (s : EnormState ℝ) (total : ℝ) (count : ℕ) (v : ℝ)
    (h : s.Sums total rd count) : (enormStep rd ag s v).Sums (total + v ^ 2) rd (count + 1) := by
  obtain ⟨h1, h2, h3, h4, h5, h6, h7, h8, h9⟩ := h
  have hv : v ^ 2 = |v| ^ 2 := (sq_abs v).symm
  have hav := abs_nonneg v
  have hr2 : 0 ≤ rd ^ 2 := sq_nonneg _
  rw [hv]
  unfold enormStep
  simp only [real_abs]
  split_ifs with c1 c2 c3 c4 c5
  · exact ⟨by dsimp only; rw [← h1]; ring, by dsimp only; push_cast; linarith, h3, by dsimp only; positivity, h5, h6, h7, h8, h9⟩
  · have ha : 0 < |v| := lt_of_le_of_lt hrd c2
    refine ⟨?_, by dsimp only; push_cast; linarith, h3, h4, ?_, h6, hav, h8, fun h => absurd h ha.ne'⟩
    · dsimp only
      rw [← h1]
      field_simp
      ring
    · dsimp only
      have : 0 ≤ s.largeSum * (s.largeMax / |v|) * (s.largeMax / |v|) := by
        rw [mul_assoc]; exact mul_nonneg h5 (mul_self_nonneg _)
      linarith
  · have ha : 0 < s.largeMax := lt_of_lt_of_le (lt_of_le_of_lt hrd c2) (not_lt.1 c3)
    refine ⟨?_, by dsimp only; push_cast; linarith, h3, h4, ?_, h6, h7, h8, fun h => absurd h ha.ne'⟩
    · dsimp only
      rw [← h1]
      field_simp
      ring
    · dsimp only
      have := mul_self_nonneg (|v| / s.largeMax)
      linarith
  · have ha : 0 < |v| := lt_of_le_of_ne hav (fun h => (bne_iff_ne.1 c4) h.symm)
    have e : |v| ^ 2 * (1 + s.smallSum * (s.smallMax / |v|) * (s.smallMax / |v|)) = |v| ^ 2 + s.smallMax ^ 2 * s.smallSum := by
      field_simp
    refine ⟨?_, ?_, ?_, h4, h5, hav, h7, fun h => absurd h ha.ne', h9⟩
    · dsimp only
      rw [← h1, e]
      ring
    · dsimp only
      rw [e]
      push_cast
      have := pow_le_pow_left₀ hav (not_lt.1 c2) 2
      linarith
    · dsimp only
      have : 0 ≤ s.smallSum * (s.smallMax / |v|) * (s.smallMax / |v|) := by
        rw [mul_assoc]; exact mul_nonneg h3 (mul_self_nonneg _)
      linarith
  · have hv0 : |v| ≠ 0 := by simpa using c4
    have ha : 0 < s.smallMax := lt_of_lt_of_le (lt_of_le_of_ne hav hv0.symm) (not_lt.1 c5)
    have e : s.smallMax ^ 2 * (s.smallSum + |v| / s.smallMax * (|v| / s.smallMax)) = |v| ^ 2 + s.smallMax ^ 2 * s.smallSum := by
      field_simp
      ring
    refine ⟨?_, ?_, ?_, h4, h5, h6, h7, fun h => absurd h ha.ne', h9⟩
    · dsimp only
      rw [← h1, e]
      ring
    · dsimp only
      rw [e]
      push_cast
      have := pow_le_pow_left₀ hav (not_lt.1 c2) 2
      linarith
    · dsimp only
      have := mul_self_nonneg (|v| / s.smallMax)
      linarith
  · have hv0 : |v| = 0 := by simpa using c4
    rw [hv0]
    exact ⟨by rw [← h1]; ring, by push_cast; linarith, h3, h4, h5, h6, h7, h8, h9⟩

theorem enorm_sums (rd ag : ℝ) (hrd : 0 ≤ rd) (l : List ℝ) (s : EnormState ℝ) (total : ℝ) (count : ℕ)
    (h : s.Sums total rd count) :
    (l.foldl (enormStep rd ag) s).Sums (total + (l.map (· ^ 2)).sum) rd (count + l.length) := by
  induction l generalizing s total count with
  | nil => simpa using h
  | cons v l ih =>
    have := ih _ _ _ (enormStep_sums rd ag hrd s total count v h)
    simp only [List.foldl_cons, List.map_cons, List.sum_cons, List.length_cons]
    rw [show total + (v ^ 2 + (l.map (· ^ 2)).sum) = total + v ^ 2 + (l.map (· ^ 2)).sum by ring,
      show count + (l.length + 1) = count + 1 + l.length by ring]
    exact this

theorem enormFinish_sq (s : EnormState ℝ) (total rd : ℝ) (count : ℕ) (h : s.Sums total rd count) :
    0 ≤ enormFinish s ∧ enormFinish s ^ 2 ≤ total ∧ total ≤ enormFinish s ^ 2 + count * rd ^ 2 ∧
      (s.largeSum = 0 → enormFinish s ^ 2 = total) := by
  obtain ⟨h1, h2, h3, h4, h5, h6, h7, h8, h9⟩ := h
  have hsm : 0 ≤ s.smallMax ^ 2 * s.smallSum := mul_nonneg (sq_nonneg _) h3
  have hc : 0 ≤ (count : ℝ) * rd ^ 2 := mul_nonneg (Nat.cast_nonneg _) (sq_nonneg _)
  have fin : ∀ e : ℝ, 0 ≤ e → e ^ 2 = total → 0 ≤ e ∧ e ^ 2 ≤ total ∧ total ≤ e ^ 2 + count * rd ^ 2 ∧
      (s.largeSum = 0 → e ^ 2 = total) := fun e h0 h => ⟨h0, h.le, by linarith, fun _ => h⟩
  unfold enormFinish
  simp only [real_sqrt]
  split_ifs with c1 c2 c3
  · have hL : s.largeSum ≠ 0 := by simpa using c1
    have hM : s.largeMax ≠ 0 := fun h => hL (h9 h)
    have e : (s.largeMax * √(s.largeSum + s.midSum / s.largeMax / s.largeMax)) ^ 2
        = s.midSum + s.largeMax ^ 2 * s.largeSum := by
      have : 0 ≤ s.midSum / s.largeMax / s.largeMax := div_nonneg (div_nonneg h4 h7) h7
      rw [mul_pow, Real.sq_sqrt (by linarith)]
      field_simp
      ring
    rw [e]
    exact ⟨mul_nonneg h7 (Real.sqrt_nonneg _), by linarith, by linarith, fun h => absurd h hL⟩
  · have hL : s.largeSum = 0 := by simpa using c1
    have hM : s.midSum ≠ 0 := by simpa using c2
    refine fin _ (Real.sqrt_nonneg _) ?_
    rw [Real.sq_sqrt (by positivity), ← h1, hL]
    field_simp
    ring
  · have hL : s.largeSum = 0 := by simpa using c1
    have hM : s.midSum ≠ 0 := by simpa using c2
    have hs : 0 < s.smallMax := lt_of_le_of_lt h4 (not_le.1 c3)
    refine fin _ (Real.sqrt_nonneg _) ?_
    rw [Real.sq_sqrt (by positivity), ← h1, hL]
    field_simp
    ring
  · have hL : s.largeSum = 0 := by simpa using c1
    have hM : s.midSum = 0 := by simpa using c2
    refine fin _ (mul_nonneg h6 (Real.sqrt_nonneg _)) ?_
    rw [mul_pow, Real.sq_sqrt h3, ← h1, hL, hM]
    ring

theorem enorm_noLarge (rd ag : ℝ) (l : List ℝ) (hl : ∀ v ∈ l, |v| < ag) (s : EnormState ℝ) (h : s.largeSum = 0) :
    (l.foldl (enormStep rd ag) s).largeSum = 0 := by
  induction l generalizing s with
  | nil => exact h
  | cons v l ih =>
    refine ih (fun w hw => hl w (List.mem_cons_of_mem _ hw)) _ ?_
    have hv := hl v (List.mem_cons_self)
    unfold enormStep
    simp only [real_abs]
    by_cases c : rd < |v|
    · simp [c, hv, h]
    · simp [c]
      split_ifs <;> exact h

/-- C96. The scaled norm is the Euclidean norm: exactly so when the values are small enough for their squares to be
summed directly, and otherwise up to the values below the underflow threshold, which it may leave out. -/
theorem enorm_spec (minPositive largest : ℝ) (l : List ℝ) :
    0 ≤ enorm minPositive largest l
    ∧ enorm minPositive largest l ≤ √((l.map (· ^ 2)).sum)
    ∧ (l.map (· ^ 2)).sum ≤ enorm minPositive largest l ^ 2 + l.length * max minPositive 0
    ∧ ((∀ v ∈ l, |v| < √largest / l.length) → enorm minPositive largest l = √((l.map (· ^ 2)).sum)) := by
  have h0 : (⟨0, 0, 0, 0, 0⟩ : EnormState ℝ).Sums 0 (√minPositive) 0 := by
    constructor <;> simp
  have h := enorm_sums (√minPositive) (√largest / l.length) (Real.sqrt_nonneg _) l _ 0 0 h0
  have hf := enormFinish_sq _ _ _ _ h
  rw [zero_add, zero_add] at hf
  have e : enorm minPositive largest l = enormFinish (l.foldl (enormStep (√minPositive) (√largest / l.length))
    ⟨0, 0, 0, 0, 0⟩) := rfl
  rw [← e] at hf
  have hsq : √minPositive ^ 2 = max minPositive 0 := by
    rcases le_total 0 minPositive with h | h
    · rw [Real.sq_sqrt h, max_eq_left h]
    · rw [Real.sqrt_eq_zero_of_nonpos h, max_eq_right h]; norm_num
  rw [hsq] at hf
  refine ⟨hf.1, Real.le_sqrt_of_sq_le hf.2.1, hf.2.2.1, fun hl => ?_⟩
  have := hf.2.2.2 (enorm_noLarge _ _ l hl _ rfl)
  rw [← this, Real.sqrt_sq hf.1]

/-- Values on both sides of the underflow threshold, with room above. -/
example : ∀ v ∈ [(3 : ℝ), -4, 1 / 10], |v| < √(10 ^ 6) / ([(3 : ℝ), -4, 1 / 10].length) := by
  have : √((10 : ℝ) ^ 6) = 1000 := by
    rw [show (10 : ℝ) ^ 6 = 1000 ^ 2 by norm_num, Real.sqrt_sq (by norm_num)]
  rw [this]
  intro v hv
  simp only [List.mem_cons, List.not_mem_nil, or_false] at hv
  rcases hv with rfl | rfl | rfl <;> norm_num [abs_of_pos, abs_of_neg]

/-! ### Sums over ranges -/

theorem sumOver_eq {ι : Type} (l : List ι) (f : ι → ℝ) : sumOver l f = (l.map f).sum := by
  unfold sumOver
  suffices H : ∀ a, l.foldl (fun acc i => acc + f i) a = a + (l.map f).sum by simpa using H 0
  induction l with
  | nil => simp
  | cons i l ih => intro a; simp [ih, add_assoc]

theorem sum_filter_finRange (p : Fin n → Bool) (f : Fin n → ℝ) :
    (((List.finRange n).filter p).map f).sum = ∑ i, if p i then f i else 0 := by
  rw [← List.sum_ofFn, List.ofFn_eq_map]
  induction (List.finRange n) with
  | nil => simp
  | cons i l ih => by_cases h : p i <;> simp [h, ih]

theorem sumOver_from (first : ℕ) (f : Fin n → ℝ) :
    sumOver (indicesFrom n first) f = ∑ i : Fin n, if first ≤ i.val then f i else 0 := by
  rw [sumOver_eq, indicesFrom, sum_filter_finRange]
  simp

theorem mem_indicesFrom {first : ℕ} {i : Fin n} : i ∈ indicesFrom n first ↔ first ≤ i.val := by
  simp [indicesFrom]

theorem indicesFrom_length (first : ℕ) : (indicesFrom n first).length ≤ n := by
  have := List.length_filter_le (fun i : Fin n => decide (first ≤ i.val)) (List.finRange n)
  simpa [indicesFrom] using this

/-- The norm of the tail of a column. -/
theorem enorm_tail (minPositive largest : ℝ) (first : ℕ) (a : Fin m → ℝ) (bound : ℝ) (hb : bound * m < √largest)
    (ha : ∑ i, a i ^ 2 ≤ bound ^ 2) (hb0 : 0 ≤ bound) :
    enorm minPositive largest ((indicesFrom m first).map a) = √(∑ i : Fin m, if first ≤ i.val then a i ^ 2 else 0) := by
  rw [(enorm_spec minPositive largest _).2.2.2]
  · congr 1
    rw [List.map_map, indicesFrom, sum_filter_finRange]
    simp
  · intro v hv
    obtain ⟨i, hi, rfl⟩ := List.mem_map.1 hv
    have hlen : 0 < ((indicesFrom m first).map a).length := by
      rw [List.length_map]; exact List.length_pos_of_mem hi
    have hle : ((((indicesFrom m first).map a).length : ℕ) : ℝ) ≤ m := by
      rw [List.length_map]; exact_mod_cast indicesFrom_length first
    rw [lt_div_iff₀ (by exact_mod_cast hlen)]
    have hai : |a i| ≤ bound := by
      apply abs_le_of_sq_le_sq _ hb0
      exact (Finset.single_le_sum (f := fun i => a i ^ 2) (fun i _ => sq_nonneg _) (Finset.mem_univ i)).trans ha
    calc |a i| * _ ≤ bound * m := mul_le_mul hai hle (Nat.cast_nonneg _) hb0
      _ < _ := hb

/-! ### One reflection -/

/-- The vector a reflection uses: zero above the pivot row. -/
def houseVec (v : Fin m → ℝ) (p : Fin m) : Fin m → ℝ := fun i => if p ≤ i then v i else 0

/-- The matrix of a reflection. -/
noncomputable def houseMat (v : Fin m → ℝ) (p : Fin m) : Matrix (Fin m) (Fin m) ℝ :=
  1 - (1 / v p) • vecMulVec (houseVec v p) (houseVec v p)

theorem reflect_eq (v : Fin m → ℝ) (p : Fin m) (b : Fin m → ℝ) : reflect v p b = houseMat v p *ᵥ b := by
  have hd : houseVec v p ⬝ᵥ b = ∑ i : Fin m, if p.val ≤ i.val then v i * b i else 0 := by
    rw [dotProduct]
    refine Finset.sum_congr rfl fun i _ => ?_
    simp only [houseVec, Fin.le_def]
    split_ifs <;> simp
  funext i
  simp only [reflect]
  rw [sumOver_from, ← hd]
  rw [houseMat, sub_mulVec, one_mulVec, smul_mulVec, vecMulVec_mulVec]
  simp only [Pi.sub_apply, Pi.smul_apply, smul_eq_mul, MulOpposite.smul_eq_mul_unop, MulOpposite.unop_op, houseVec]
  split_ifs
  · ring
  · ring

theorem houseMat_symm (v : Fin m → ℝ) (p : Fin m) : (houseMat v p)ᵀ = houseMat v p := by
  rw [houseMat, transpose_sub, transpose_one, transpose_smul, transpose_vecMulVec]

theorem houseMat_sq (v : Fin m → ℝ) (p : Fin m) (hp : v p ≠ 0) (h : houseVec v p ⬝ᵥ houseVec v p = 2 * v p) :
    houseMat v p * houseMat v p = 1 := by
  have : vecMulVec (houseVec v p) (houseVec v p) * vecMulVec (houseVec v p) (houseVec v p)
      = (2 * v p) • vecMulVec (houseVec v p) (houseVec v p) := by
    rw [vecMulVec_mul_vecMulVec, h, vecMulVec_smul]
  rw [houseMat, sub_mul, mul_sub, mul_sub, one_mul, mul_one, one_mul, smul_mul_smul_comm, this, smul_smul]
  have e : 1 / v p * (1 / v p) * (2 * v p) = 2 * (1 / v p) := by field_simp
  rw [e]
  module

/-- Above the pivot row a reflection changes nothing, and it keeps the length of every tail that starts no lower. -/
theorem reflect_tail (v : Fin m → ℝ) (p : Fin m) (hp : v p ≠ 0) (h : houseVec v p ⬝ᵥ houseVec v p = 2 * v p)
    (b : Fin m → ℝ) (c : ℕ) (hc : c ≤ p.val) :
    ∑ i : Fin m, (if c ≤ i.val then reflect v p b i ^ 2 else 0) = ∑ i : Fin m, if c ≤ i.val then b i ^ 2 else 0 := by
  have tot : ∑ i, reflect v p b i ^ 2 = ∑ i, b i ^ 2 := by
    have : reflect v p b ⬝ᵥ reflect v p b = b ⬝ᵥ b := by
      rw [reflect_eq, dotProduct_mulVec, ← mulVec_transpose, houseMat_symm, mulVec_mulVec, houseMat_sq v p hp h, one_mulVec]
    simpa [dotProduct, sq] using this
  have split : ∀ g : Fin m → ℝ, ∑ i : Fin m, (if c ≤ i.val then g i ^ 2 else 0)
      = ∑ i, g i ^ 2 - ∑ i : Fin m, if c ≤ i.val then 0 else g i ^ 2 := by
    intro g
    rw [← Finset.sum_sub_distrib]
    exact Finset.sum_congr rfl fun i _ => by split_ifs <;> simp
  rw [split, split b, tot]
  congr 1
  refine Finset.sum_congr rfl fun i _ => ?_
  split_ifs with h1
  · rfl
  · have : ¬(p ≤ i) := fun h2 => h1 (hc.trans h2)
    simp [reflect, this]

theorem reflect_above (v : Fin m → ℝ) (p : Fin m) (b : Fin m → ℝ) (hb : ∀ i, p ≤ i → b i = 0) : reflect v p b = b := by
  have : sumOver (indicesFrom m p.val) (fun i => v i * b i) = 0 := by
    rw [sumOver_from]
    exact Finset.sum_eq_zero fun i _ => by
      split_ifs with h
      · rw [hb i h, mul_zero]
      · rfl
  funext i
  simp only [reflect, this]
  split_ifs <;> simp

/-- The vector `decompose` builds from a column: it reflects that column onto the pivot row. -/
theorem house_column (a : Fin m → ℝ) (p : Fin m) (norm : ℝ) (hn : norm ≠ 0) (hn0 : 0 ≤ norm)
    (hsq : norm ^ 2 = ∑ i : Fin m, if p.val ≤ i.val then a i ^ 2 else 0) (s : ℝ)
    (hs : s = if a p < 0 then -norm else norm) (v : Fin m → ℝ)
    (hv : v = fun i => if p ≤ i then (if i = p then a i / s + 1 else a i / s) else a i) :
    0 < v p ∧ houseVec v p ⬝ᵥ houseVec v p = 2 * v p ∧
      reflect v p a = fun i => if i.val < p.val then a i else if i = p then -s else 0 := by
  have hs0 : s ≠ 0 := by rw [hs]; split_ifs <;> simpa using hn
  have hs2 : s ^ 2 = norm ^ 2 := by rw [hs]; split_ifs <;> ring
  have hvp : v p = a p / s + 1 := by rw [hv]; simp
  have hpos : 0 ≤ a p / s := by
    rw [hs]
    split_ifs with h
    · exact div_nonneg_of_nonpos h.le (by linarith)
    · exact div_nonneg (not_lt.1 h) hn0
  have hvp0 : 0 < v p := by rw [hvp]; linarith
  have hsum : ∀ g : Fin m → ℝ, ∑ i : Fin m, (if p.val ≤ i.val then a i * g i else 0)
      = ∑ i : Fin m, if p.val ≤ i.val then a i * g i else 0 := fun _ => rfl
  -- the two sums, each the sum of squares over `s` plus the extra term at the pivot
  have h1 : houseVec v p ⬝ᵥ houseVec v p = 2 * v p := by
    have : ∀ i : Fin m, houseVec v p i * houseVec v p i = (if p.val ≤ i.val then a i ^ 2 else 0) / s ^ 2
        + if i = p then 2 * (a p / s) + 1 else 0 := by
      intro i
      simp only [houseVec, hv, Fin.le_def]
      by_cases h : i = p
      · subst h
        simp
        field_simp
        ring
      · by_cases h2 : p.val ≤ i.val
        · simp only [h, h2, if_true, if_false]
          field_simp
          ring
        · simp [h, h2]
    rw [dotProduct, Finset.sum_congr rfl fun i _ => this i, Finset.sum_add_distrib, ← Finset.sum_div, ← hsq, hs2,
      div_self (pow_ne_zero 2 hn), hvp]
    simp
    ring
  have h2 : sumOver (indicesFrom m p.val) (fun i => v i * a i) = s * v p := by
    rw [sumOver_from]
    have : ∀ i : Fin m, (if p.val ≤ i.val then v i * a i else 0) = (if p.val ≤ i.val then a i ^ 2 else 0) / s
        + if i = p then a p else 0 := by
      intro i
      simp only [hv, Fin.le_def]
      by_cases h : i = p
      · subst h
        simp
        field_simp
      · by_cases h2 : p.val ≤ i.val
        · simp only [h, h2, if_true, if_false]
          field_simp
          ring
        · simp [h, h2]
    rw [Finset.sum_congr rfl fun i _ => this i, Finset.sum_add_distrib, ← Finset.sum_div, ← hsq, ← hs2, hvp]
    simp
    field_simp
    ring
  refine ⟨hvp0, h1, ?_⟩
  funext i
  simp only [reflect, h2]
  rw [mul_div_cancel_right₀ _ hvp0.ne']
  by_cases h : i = p
  · subst h
    simp [hv]
    field_simp
    ring
  · by_cases h3 : p ≤ i
    · have : ¬(i.val < p.val) := not_lt.2 h3
      simp only [h3, h, this, if_true, if_false, hv]
      field_simp
      ring
    · have : i.val < p.val := not_le.1 h3
      simp [h3, this]

/-! ### The stored reflectors -/

namespace PivotedQr

/-- The matrix of one stored reflector. -/
noncomputable def houseAt (q : PivotedQr m n ℝ) (c : Fin n) : Matrix (Fin m) (Fin m) ℝ :=
  if q.packed (Fin.castLE q.tall c) c = 0 then 1 else houseMat (fun i => q.packed i c) (Fin.castLE q.tall c)

theorem applyReflector_eq (q : PivotedQr m n ℝ) (b : Fin m → ℝ) (c : Fin n) :
    q.applyReflector b c = q.houseAt c *ᵥ b := by
  unfold applyReflector houseAt
  by_cases h : q.packed (Fin.castLE q.tall c) c = 0
  · simp [h]
  · simp [h, reflect_eq]

/-- The product of the reflectors of a list, first one applied first. -/
noncomputable def product (q : PivotedQr m n ℝ) (l : List (Fin n)) : Matrix (Fin m) (Fin m) ℝ :=
  l.foldl (fun Q c => q.houseAt c * Q) 1

theorem foldl_house (q : PivotedQr m n ℝ) (l : List (Fin n)) (Q : Matrix (Fin m) (Fin m) ℝ) :
    l.foldl (fun Q c => q.houseAt c * Q) Q = q.product l * Q := by
  unfold product
  induction l generalizing Q with
  | nil => simp
  | cons c l ih => rw [List.foldl_cons, List.foldl_cons, ih, ih (q.houseAt c * 1)]; simp [Matrix.mul_assoc]

theorem product_cons (q : PivotedQr m n ℝ) (c : Fin n) (l : List (Fin n)) :
    q.product (c :: l) = q.product l * q.houseAt c := by
  rw [product, List.foldl_cons, foldl_house, mul_one]

theorem product_append (q : PivotedQr m n ℝ) (l k : List (Fin n)) :
    q.product (l ++ k) = q.product k * q.product l := by
  rw [product, List.foldl_append, foldl_house]; rfl

theorem foldl_apply (q : PivotedQr m n ℝ) (l : List (Fin n)) (b : Fin m → ℝ) :
    l.foldl q.applyReflector b = q.product l *ᵥ b := by
  induction l generalizing b with
  | nil => simp [product]
  | cons c l ih => rw [List.foldl_cons, ih, applyReflector_eq, product_cons, mulVec_mulVec]

theorem product_congr (q r : PivotedQr m n ℝ) (l : List (Fin n)) (h : ∀ c ∈ l, q.houseAt c = r.houseAt c) :
    q.product l = r.product l := by
  induction l with
  | nil => rfl
  | cons c l ih =>
    rw [product_cons, product_cons, ih fun c hc => h c (List.mem_cons_of_mem _ hc), h c List.mem_cons_self]

/-- A stored column is either empty or a reflector. -/
def Sound (q : PivotedQr m n ℝ) (c : Fin n) : Prop :=
  q.packed (Fin.castLE q.tall c) c = 0 ∨ (q.packed (Fin.castLE q.tall c) c ≠ 0 ∧
    houseVec (fun i => q.packed i c) (Fin.castLE q.tall c) ⬝ᵥ houseVec (fun i => q.packed i c) (Fin.castLE q.tall c)
      = 2 * q.packed (Fin.castLE q.tall c) c)

theorem houseAt_symm (q : PivotedQr m n ℝ) (c : Fin n) : (q.houseAt c)ᵀ = q.houseAt c := by
  unfold houseAt
  split_ifs
  · simp
  · exact houseMat_symm _ _

theorem houseAt_sq (q : PivotedQr m n ℝ) (c : Fin n) (h : q.Sound c) : q.houseAt c * q.houseAt c = 1 := by
  unfold houseAt
  rcases h with h | ⟨h, h2⟩
  · simp [h]
  · rw [if_neg h]
    exact houseMat_sq _ _ h h2

theorem product_reverse (q : PivotedQr m n ℝ) (l : List (Fin n)) : q.product l.reverse = (q.product l)ᵀ := by
  induction l with
  | nil => simp [product]
  | cons c l ih =>
    rw [List.reverse_cons, product_append, product_cons, product_cons, transpose_mul, ih, houseAt_symm]
    simp [product]

theorem product_orthogonal (q : PivotedQr m n ℝ) (l : List (Fin n)) (h : ∀ c ∈ l, q.Sound c) :
    (q.product l)ᵀ * q.product l = 1 := by
  induction l with
  | nil => simp [product]
  | cons c l ih =>
    rw [product_cons, transpose_mul, Matrix.mul_assoc, ← Matrix.mul_assoc (q.product l)ᵀ,
      ih fun c hc => h c (List.mem_cons_of_mem _ hc), one_mul, houseAt_symm, houseAt_sq q c (h c List.mem_cons_self)]

end PivotedQr

/-! ### The factorisation -/

/-- The sum of squares from a row down. -/
def tailSq (j : ℕ) (a : Fin m → ℝ) : ℝ := ∑ i : Fin m, if j ≤ i.val then a i ^ 2 else 0

theorem tailSq_nonneg (j : ℕ) (a : Fin m → ℝ) : 0 ≤ tailSq j a :=
  Finset.sum_nonneg fun i _ => by split_ifs <;> positivity

theorem tailSq_zero {j : ℕ} {a : Fin m → ℝ} (h : tailSq j a = 0) (i : Fin m) (hi : j ≤ i.val) : a i = 0 := by
  have := (Finset.sum_eq_zero_iff_of_nonneg (fun i _ => by split_ifs <;> positivity)).1 h i (Finset.mem_univ i)
  simpa [hi] using this

theorem tailSq_succ (p : Fin m) (a : Fin m → ℝ) : tailSq p.val a = a p ^ 2 + tailSq (p.val + 1) a := by
  unfold tailSq
  have : ∀ i : Fin m, (if p.val ≤ i.val then a i ^ 2 else 0)
      = (if i = p then a p ^ 2 else 0) + if p.val + 1 ≤ i.val then a i ^ 2 else 0 := by
    intro i
    by_cases h : i = p
    · subst h; simp
    · have h' : i.val ≠ p.val := fun h2 => h (Fin.ext h2)
      by_cases h2 : p.val ≤ i.val
      · have : p.val + 1 ≤ i.val := by omega
        simp [h, h2, this]
      · have : ¬(p.val + 1 ≤ i.val) := by omega
        simp [h, h2, this]
  rw [Finset.sum_congr rfl fun i _ => this i, Finset.sum_add_distrib]
  simp

theorem mem_take_finRange {j : ℕ} {c : Fin n} (h : c ∈ (List.finRange n).take j) : c.val < j := by
  obtain ⟨i, hi, rfl⟩ := List.mem_take_iff_getElem.1 h
  simp at hi ⊢
  omega

namespace QrState

/-- A state seen as a finished factorisation, to name its reflectors. -/
def view (s : QrState m n ℝ) (tall : n ≤ m) : PivotedQr m n ℝ := ⟨s.packed, s.rDiag, fun _ => 0, s.permutation, tall⟩

/-- What is left of the matrix when so many columns are done. -/
def reduced (s : QrState m n ℝ) (j : ℕ) : Matrix (Fin m) (Fin n) ℝ := fun i c =>
  if c.val < j then (if i.val < c.val then s.packed i c else if i.val = c.val then s.rDiag c else 0) else s.packed i c

/-- What holds after each column. -/
structure Inv (A : Matrix (Fin m) (Fin n) ℝ) (tall : n ≤ m) (s : QrState m n ℝ) (j : ℕ) : Prop where
  perm : Function.Bijective s.permutation
  sound : ∀ c : Fin n, c.val < j → (s.view tall).Sound c
  fact : (s.view tall).product ((List.finRange n).take j) * A.submatrix id s.permutation = s.reduced j
  order : ∀ c k : Fin n, c.val < j → c ≤ k → tailSq c.val (fun i => s.reduced j i k) ≤ s.rDiag c ^ 2

theorem Inv.bound {A : Matrix (Fin m) (Fin n) ℝ} {tall : n ≤ m} {s : QrState m n ℝ} {j : ℕ} (h : s.Inv A tall j)
    {bound : ℝ} (hA : ∀ c, ∑ i, A i c ^ 2 ≤ bound ^ 2) (k : Fin n) (hk : j ≤ k.val) :
    ∑ i, s.packed i k ^ 2 ≤ bound ^ 2 := by
  have ho := PivotedQr.product_orthogonal (s.view tall) ((List.finRange n).take j)
    fun c hc => h.sound c (mem_take_finRange hc)
  have e : (s.reduced j)ᵀ * s.reduced j = (A.submatrix id s.permutation)ᵀ * A.submatrix id s.permutation := by
    have key : ∀ (Q : Matrix (Fin m) (Fin m) ℝ) (B : Matrix (Fin m) (Fin n) ℝ), Qᵀ * Q = 1 → (Q * B)ᵀ * (Q * B) = Bᵀ * B := by
      intro Q B hQ
      rw [transpose_mul, Matrix.mul_assoc, ← Matrix.mul_assoc Qᵀ, hQ, Matrix.one_mul]
    rw [← h.fact, key _ _ ho]
  have ek := congrFun (congrFun e k) k
  simp only [mul_apply, transpose_apply, submatrix_apply, id, reduced, not_lt.2 hk, if_false] at ek
  simp only [sq] at hA ⊢
  rw [ek]
  exact hA _

theorem pivotColumn_spec (r : Fin n → ℝ) (j : Fin n) :
    j ≤ pivotColumn r j ∧ ∀ k, j ≤ k → r k ≤ r (pivotColumn r j) := by
  unfold pivotColumn
  suffices H : ∀ (l : List (Fin n)) (a : Fin n), (∀ k ∈ l, j ≤ k) → j ≤ a →
      j ≤ l.foldl (fun kmax k => if r kmax < r k then k else kmax) a ∧
      r a ≤ r (l.foldl (fun kmax k => if r kmax < r k then k else kmax) a) ∧
      ∀ k ∈ l, r k ≤ r (l.foldl (fun kmax k => if r kmax < r k then k else kmax) a) by
    obtain ⟨h1, h2, h3⟩ := H (indicesFrom n j.val) j (fun k hk => mem_indicesFrom.1 hk) le_rfl
    exact ⟨h1, fun k hk => h3 k (mem_indicesFrom.2 hk)⟩
  intro l
  induction l with
  | nil => intro a _ ha; exact ⟨ha, le_rfl, by simp⟩
  | cons k l ih =>
    intro a hl ha
    simp only [List.foldl_cons]
    have hk := hl k List.mem_cons_self
    by_cases h : r a < r k
    · rw [if_pos h]
      obtain ⟨h1, h2, h3⟩ := ih k (fun k hk => hl k (List.mem_cons_of_mem _ hk)) hk
      refine ⟨h1, h.le.trans h2, fun x hx => ?_⟩
      rcases List.mem_cons.1 hx with rfl | hx
      · exact h2
      · exact h3 x hx
    · rw [if_neg h]
      obtain ⟨h1, h2, h3⟩ := ih a (fun k hk => hl k (List.mem_cons_of_mem _ hk)) ha
      refine ⟨h1, h2, fun x hx => ?_⟩
      rcases List.mem_cons.1 hx with rfl | hx
      · exact (not_lt.1 h).trans h2
      · exact h3 x hx

theorem swap_lt {j k c : Fin n} (hk : j ≤ k) (hc : c < j) : Equiv.swap j k c = c :=
  Equiv.swap_apply_of_ne_of_ne hc.ne (hc.trans_le hk).ne

theorem swap_ge {j k c : Fin n} (hk : j ≤ k) (hc : j ≤ c) : j ≤ Equiv.swap j k c := by
  by_cases h1 : c = j
  · subst h1; rwa [Equiv.swap_apply_left]
  · by_cases h2 : c = k
    · subst h2; rw [Equiv.swap_apply_right]
    · rwa [Equiv.swap_apply_of_ne_of_ne h1 h2]

/-- After the exchange the longest tail is in place and everything else still holds. -/
theorem Inv.swap {A : Matrix (Fin m) (Fin n) ℝ} {tall : n ≤ m} {s : QrState m n ℝ} (j : Fin n)
    (h : s.Inv A tall j.val) (hn : ∀ k, j ≤ k → s.rDiag k = √(tailSq j.val fun i => s.packed i k)) :
    (swapColumns s j (pivotColumn s.rDiag j)).Inv A tall j.val
    ∧ (∀ k, j < k → (swapColumns s j (pivotColumn s.rDiag j)).rDiag k
        = √(tailSq j.val fun i => (swapColumns s j (pivotColumn s.rDiag j)).packed i k))
    ∧ ∀ k, j ≤ k → tailSq j.val (fun i => (swapColumns s j (pivotColumn s.rDiag j)).packed i k)
        ≤ tailSq j.val fun i => (swapColumns s j (pivotColumn s.rDiag j)).packed i j := by
  obtain ⟨p1, p2⟩ := pivotColumn_spec s.rDiag j
  have hmax : ∀ k, j ≤ k → tailSq j.val (fun i => s.packed i k)
      ≤ tailSq j.val fun i => s.packed i (pivotColumn s.rDiag j) := by
    intro k hk
    have := p2 k hk
    rw [hn k hk, hn _ p1] at this
    exact (Real.sqrt_le_sqrt_iff (tailSq_nonneg _ _)).1 this
  generalize pivotColumn s.rDiag j = k at *
  unfold swapColumns
  by_cases hkj : k = j
  · subst hkj
    simp only [ne_eq, not_true_eq_false, if_false]
    exact ⟨h, fun k hk => hn k hk.le, hmax⟩
  · simp only [ne_eq, hkj, not_false_eq_true, if_true]
    have hred : ∀ i c, (QrState.mk (fun row col => s.packed row (Equiv.swap j k col)) (Function.update s.rDiag k (s.rDiag j))
        (Function.update s.referenceNorm k (s.referenceNorm j)) fun col => s.permutation (Equiv.swap j k col)).reduced j.val i c
        = s.reduced j.val i (Equiv.swap j k c) := by
      intro i c
      unfold reduced
      by_cases hc : c < j
      · have hck : c ≠ k := (hc.trans_le p1).ne
        simp only [swap_lt p1 hc, Function.update_of_ne hck]
      · have h1 : ¬(c.val < j.val) := hc
        have h2 : ¬((Equiv.swap j k c).val < j.val) := not_lt.2 (swap_ge p1 (not_lt.1 hc))
        simp only [h1, h2, if_false]
    refine ⟨⟨?_, ?_, ?_, ?_⟩, ?_, ?_⟩
    · exact h.perm.comp (Equiv.bijective _)
    · intro c hc
      have := h.sound c hc
      simpa only [PivotedQr.Sound, view, swap_lt p1 hc] using this
    · have hp : ∀ c ∈ (List.finRange n).take j.val, ((QrState.mk (fun row col => s.packed row (Equiv.swap j k col))
          (Function.update s.rDiag k (s.rDiag j)) (Function.update s.referenceNorm k (s.referenceNorm j))
          fun col => s.permutation (Equiv.swap j k col)).view tall).houseAt c = (s.view tall).houseAt c := by
        intro c hc
        have hc : c < j := mem_take_finRange hc
        simp only [PivotedQr.houseAt, view, swap_lt p1 hc]
        rfl
      rw [PivotedQr.product_congr _ _ _ hp]
      ext i c
      rw [hred, ← h.fact]
      simp [mul_apply]
    · intro c x hc hx
      simp only [hred]
      have hck : c ≠ k := ne_of_lt (lt_of_lt_of_le hc p1)
      rw [Function.update_of_ne hck]
      refine h.order c _ hc ?_
      by_cases hxj : x < j
      · rwa [swap_lt p1 hxj]
      · exact le_trans (le_of_lt hc) (swap_ge p1 (not_lt.1 hxj))
    · intro x hx
      try dsimp only
      by_cases hxk : x = k
      · subst hxk
        rw [Function.update_self, hn j le_rfl, Equiv.swap_apply_right]
      · rw [Function.update_of_ne hxk, Equiv.swap_apply_of_ne_of_ne hx.ne' hxk, hn x hx.le]
    · intro x hx
      try dsimp only
      rw [Equiv.swap_apply_left]
      exact hmax _ (swap_ge p1 hx)

/-- The running norm stays the norm of the rest of the column. -/
theorem downdate_spec (minPositive largest : ℝ) (col : Fin m → ℝ) (p : Fin m) (r ref : ℝ) (bound : ℝ)
    (hb : bound * m < √largest) (hb0 : 0 ≤ bound) (hcol : ∑ i, col i ^ 2 ≤ bound ^ 2) (hr : r = √(tailSq p.val col)) :
    (downdate minPositive largest col p r ref).1 = √(tailSq (p.val + 1) col) := by
  have hs := tailSq_succ p col
  have hpos := tailSq_nonneg (p.val + 1) col
  unfold downdate
  by_cases h : r = 0
  · have h0 : tailSq p.val col = 0 := by
      rw [h] at hr
      exact (Real.sqrt_eq_zero (tailSq_nonneg _ _)).1 hr.symm
    have : tailSq (p.val + 1) col = 0 := by nlinarith [sq_nonneg (col p)]
    simp [h, this]
  · simp only [bne_iff_ne, ne_eq, h, not_false_eq_true, if_true]
    split_ifs
    · exact enorm_tail minPositive largest (p.val + 1) col bound hb hcol hb0
    · simp only [real_sqrt]
      have hr0 : 0 < r := lt_of_le_of_ne (by rw [hr]; exact Real.sqrt_nonneg _) (Ne.symm h)
      have hr2 : r ^ 2 = tailSq p.val col := by rw [hr, Real.sq_sqrt (tailSq_nonneg _ _)]
      have e : (1 : ℝ) - col p / r * (col p / r) = tailSq (p.val + 1) col / r ^ 2 := by
        field_simp
        linarith
      have hq : qrMax (0 : ℝ) (1 - col p / r * (col p / r)) = tailSq (p.val + 1) col / r ^ 2 := by
        unfold qrMax
        rw [e]
        split_ifs with h1
        · rfl
        · exact le_antisymm (div_nonneg hpos (sq_nonneg _)) (not_lt.1 h1)
      rw [hq, Real.sqrt_div hpos, Real.sqrt_sq hr0.le]
      field_simp

theorem qrStep_inv (minPositive largest : ℝ) {A : Matrix (Fin m) (Fin n) ℝ} {tall : n ≤ m} {s₀ : QrState m n ℝ} (j : Fin n)
    (bound : ℝ) (hb : bound * m < √largest) (hb0 : 0 ≤ bound) (hA : ∀ c, ∑ i, A i c ^ 2 ≤ bound ^ 2)
    (h₀ : s₀.Inv A tall j.val) (hn₀ : ∀ k, j ≤ k → s₀.rDiag k = √(tailSq j.val fun i => s₀.packed i k)) :
    (qrStep minPositive largest tall s₀ j).Inv A tall (j.val + 1)
    ∧ ∀ k, j < k → (qrStep minPositive largest tall s₀ j).rDiag k
        = √(tailSq (j.val + 1) fun i => (qrStep minPositive largest tall s₀ j).packed i k) := by
  obtain ⟨h, hn, hmax⟩ := h₀.swap j hn₀
  unfold qrStep
  generalize swapColumns s₀ j (pivotColumn s₀.rDiag j) = s at *
  dsimp only
  have htail := enorm_tail minPositive largest j.val (fun i => s.packed i j) bound hb (h.bound hA j le_rfl) hb0
  rw [htail]
  have htake : (List.finRange n).take (j.val + 1) = (List.finRange n).take j.val ++ [j] := by
    rw [List.take_succ_eq_append_getElem (by simp)]
    simp
  have hrow : (Fin.castLE tall j).val = j.val := rfl
  by_cases hz : √(∑ i : Fin m, if j.val ≤ i.val then s.packed i j ^ 2 else 0) = 0
  · rw [hz]
    simp only [BEq.rfl, if_true, neg_zero]
    have hz' : tailSq j.val (fun i => s.packed i j) = 0 := (Real.sqrt_eq_zero (tailSq_nonneg _ _)).1 hz
    have hall : ∀ k, j ≤ k → ∀ i : Fin m, j.val ≤ i.val → s.packed i k = 0 := fun k hk i hi =>
      tailSq_zero (le_antisymm ((hmax k hk).trans hz'.le) (tailSq_nonneg _ _)) i hi
    have hred : (QrState.mk s.packed (Function.update s.rDiag j 0) s.referenceNorm s.permutation).reduced (j.val + 1)
        = s.reduced j.val := by
      ext i c
      unfold reduced
      rcases lt_trichotomy c j with hc | rfl | hc
      · have h1 : c.val < j.val + 1 := by have : c.val < j.val := hc; omega
        have h2 : c.val < j.val := hc
        simp only [h1, h2, if_true, Function.update_of_ne hc.ne]
      · simp only [Nat.lt_succ_self, if_true, lt_irrefl, if_false, Function.update_self]
        split_ifs with h1 h2
        · rfl
        · exact (hall c le_rfl i h2.ge).symm
        · exact (hall c le_rfl i (not_lt.1 h1)).symm
      · have h1 : ¬(c.val < j.val + 1) := by have : j.val < c.val := hc; omega
        have h2 : ¬(c.val < j.val) := by have : j.val < c.val := hc; omega
        simp only [h1, h2, if_false]
    have hpiv : s.packed (Fin.castLE tall j) j = 0 := hall j le_rfl _ le_rfl
    refine ⟨⟨h.perm, ?_, ?_, ?_⟩, ?_⟩
    · intro c hc
      by_cases hcj : c = j
      · subst hcj; exact Or.inl hpiv
      · have : c.val ≠ j.val := fun h => hcj (Fin.ext h)
        exact h.sound c (by omega)
    · rw [hred, ← h.fact, htake, PivotedQr.product_append]
      have : ((QrState.mk s.packed (Function.update s.rDiag j 0) s.referenceNorm s.permutation).view tall).houseAt j = 1 := by
        unfold PivotedQr.houseAt
        exact if_pos hpiv
      rw [PivotedQr.product_cons, this]
      rw [show ∀ q : PivotedQr m n ℝ, q.product [] = 1 from fun _ => rfl, Matrix.one_mul, Matrix.one_mul]
      exact congrArg (· * A.submatrix id s.permutation)
        (PivotedQr.product_congr _ (s.view tall) ((List.finRange n).take j.val) (fun c _ => rfl))
    · intro c k hc hck
      rw [hred]
      by_cases hcj : c = j
      · subst hcj
        try dsimp only
        rw [Function.update_self]
        have : tailSq c.val (fun i => s.reduced c.val i k) = 0 := by
          unfold tailSq
          refine Finset.sum_eq_zero fun i _ => ?_
          split_ifs with hi
          · have h1 : ¬(k.val < c.val) := not_lt.2 hck
            simp only [reduced, h1, if_false, hall k hck i hi]
            norm_num
          · rfl
        rw [this]
        norm_num
      · have : c.val ≠ j.val := fun h => hcj (Fin.ext h)
        try dsimp only
        rw [Function.update_of_ne hcj]
        exact h.order c k (by omega) hck
    · intro k hk
      try dsimp only
      rw [Function.update_of_ne hk.ne', hn k hk]
      have h1 : tailSq j.val (fun i => s.packed i k) = 0 :=
        le_antisymm ((hmax k hk.le).trans hz'.le) (tailSq_nonneg _ _)
      have h2 := tailSq_succ (Fin.castLE tall j) fun i => s.packed i k
      rw [hrow] at h2
      have : tailSq (j.val + 1) (fun i => s.packed i k) = 0 :=
        le_antisymm (by nlinarith [sq_nonneg (s.packed (Fin.castLE tall j) k)]) (tailSq_nonneg _ _)
      rw [h1, this]
  · rw [if_neg (by simpa using hz)]
    set norm := √(∑ i : Fin m, if j.val ≤ i.val then s.packed i j ^ 2 else 0) with hnorm
    set row := Fin.castLE tall j with hrowdef
    set aj := (if s.packed row j < 0 then -norm else norm) with haj
    set v : Fin m → ℝ := fun i => if row ≤ i then (if i = row then s.packed i j / aj + 1 else s.packed i j / aj)
      else s.packed i j with hv
    have hnsq : norm ^ 2 = ∑ i : Fin m, if row.val ≤ i.val then s.packed i j ^ 2 else 0 :=
      Real.sq_sqrt (tailSq_nonneg j.val fun i => s.packed i j)
    obtain ⟨hv0, hvv, hcol⟩ := house_column (fun i => s.packed i j) row norm hz (Real.sqrt_nonneg _) hnsq aj haj v hv
    set s' : QrState m n ℝ := QrState.mk
      (fun i k => if k = j then v i else if j < k then reflect v row (fun i => s.packed i k) i else s.packed i k)
      (fun k => if k = j then -aj else if j < k then (downdate minPositive largest (reflect v row fun i => s.packed i k) row
        (s.rDiag k) (s.referenceNorm k)).1 else s.rDiag k)
      (fun k => if j < k then (downdate minPositive largest (reflect v row fun i => s.packed i k) row
        (s.rDiag k) (s.referenceNorm k)).2 else s.referenceNorm k) s.permutation with hs'
    have haj2 : aj ^ 2 = tailSq j.val fun i => s.packed i j := by
      have : aj ^ 2 = norm ^ 2 := by rw [haj]; split_ifs <;> ring
      rw [this, hnsq]
      rfl
    have hpj : (fun i => s'.packed i j) = v := by funext i; simp [hs']
    have hplt : ∀ c, c < j → (fun i => s'.packed i c) = fun i => s.packed i c := by
      intro c hc; funext i; simp [hs', hc.ne, not_lt.2 hc.le]
    have hpgt : ∀ c, j < c → (fun i => s'.packed i c) = reflect v row fun i => s.packed i c := by
      intro c hc; funext i; simp [hs', hc.ne', hc]
    have hhouse : (s'.view tall).houseAt j = houseMat v row := by
      unfold PivotedQr.houseAt
      have : (s'.view tall).packed row j ≠ 0 := by
        have : (s'.view tall).packed row j = v row := congrFun hpj row
        rw [this]; exact hv0.ne'
      rw [if_neg this]
      exact congrArg (fun w => houseMat w row) hpj
    have hhouselt : ∀ c, c < j → (s'.view tall).houseAt c = (s.view tall).houseAt c := by
      intro c hc
      have e1 : (fun i => (s'.view tall).packed i c) = fun i => (s.view tall).packed i c := hplt c hc
      have e2 : ∀ i, (s'.view tall).packed i c = (s.view tall).packed i c := congrFun e1
      unfold PivotedQr.houseAt
      rw [e1, e2]
    have hred : ∀ c, (fun i => s'.reduced (j.val + 1) i c) = reflect v row fun i => s.reduced j.val i c := by
      intro c
      rcases lt_trichotomy c j with hc | rfl | hc
      · have hcv : c.val < j.val := hc
        rw [reflect_above]
        · funext i
          have h1 : c.val < j.val + 1 := by omega
          have e1 := congrFun (hplt c hc) i
          have e2 : s'.rDiag c = s.rDiag c := by simp [hs', hc.ne, not_lt.2 hc.le]
          simp only [reduced, h1, hcv, if_true]
          rw [e2]
          try dsimp only at e1
          rw [e1]
        · intro i hi
          have h1 : ¬(i.val < c.val) := by have : j.val ≤ i.val := hi; omega
          have h2 : ¬(i.val = c.val) := by have : j.val ≤ i.val := hi; omega
          simp only [reduced, hcv, if_true, h1, h2, if_false]
      · have e : (fun i => s.reduced c.val i c) = fun i => s.packed i c := by
          funext i; simp [reduced]
        rw [e, hcol]
        funext i
        have e2 : s'.rDiag c = -aj := by simp [hs']
        have e1 := congrFun hpj i
        try dsimp only at e1
        simp only [reduced, Nat.lt_succ_self, if_true]
        rw [e2, e1]
        by_cases h1 : i.val < c.val
        · have : ¬(row ≤ i) := not_le.2 h1
          have h1' : i.val < row.val := h1
          simp only [h1, h1', if_true, hv, this, if_false]
        · have h1' : ¬(i.val < row.val) := h1
          simp only [h1, h1', if_false]
          by_cases h2 : i.val = c.val
          · have : i = row := Fin.ext h2
            rw [if_pos h2, if_pos this]
          · have : i ≠ row := fun h => h2 (congrArg Fin.val h)
            simp only [h2, this, if_false]
      · have hcv : j.val < c.val := hc
        have h1 : ¬(c.val < j.val + 1) := by omega
        have h2 : ¬(c.val < j.val) := by omega
        have e : (fun i => s.reduced j.val i c) = fun i => s.packed i c := by
          funext i; simp only [reduced, h2, if_false]
        rw [e, ← hpgt c hc]
        funext i
        simp only [reduced, h1, if_false]
    have htailpres : ∀ (b : Fin m → ℝ) (c : ℕ), c ≤ j.val → tailSq c (reflect v row b) = tailSq c b := fun b c hc =>
      reflect_tail v row hv0.ne' hvv b c hc
    refine ⟨⟨h.perm, ?_, ?_, ?_⟩, ?_⟩
    · intro c hc
      by_cases hcj : c = j
      · subst hcj
        have e : ∀ i, (s'.view tall).packed i c = v i := congrFun hpj
        refine Or.inr ⟨?_, ?_⟩
        · rw [e]; exact hv0.ne'
        · simp only [e]; exact hvv
      · have hlt : c < j := by
          have : c.val ≠ j.val := fun h => hcj (Fin.ext h)
          exact Fin.lt_def.2 (by omega)
        have e : ∀ i, (s'.view tall).packed i c = (s.view tall).packed i c := congrFun (hplt c hlt)
        have := h.sound c hlt
        simp only [PivotedQr.Sound] at this ⊢
        simp only [e]
        exact this
    · rw [htake, PivotedQr.product_append, PivotedQr.product_cons, hhouse]
      rw [PivotedQr.product_congr _ (s.view tall) ((List.finRange n).take j.val)
        (fun c hc => hhouselt c (Fin.lt_def.2 (mem_take_finRange hc)))]
      rw [show (s'.view tall).product [] = 1 from rfl, one_mul, Matrix.mul_assoc, show s'.permutation = s.permutation from rfl,
        h.fact]
      ext i c
      have := congrFun (hred c) i
      rw [reflect_eq] at this
      rw [show s'.reduced (j.val + 1) i c = _ from this]
      rfl
    · intro c k hc hck
      rw [hred k]
      by_cases hcj : c = j
      · subst hcj
        rw [htailpres _ _ le_rfl]
        have e2 : s'.rDiag c = -aj := by simp [hs']
        have e : (fun i => s.reduced c.val i k) = fun i => s.packed i k := by
          funext i
          have : ¬(k.val < c.val) := not_lt.2 hck
          simp only [reduced, this, if_false]
        rw [e2, neg_sq, haj2, e]
        exact hmax k hck
      · have hlt : c < j := by
          have : c.val ≠ j.val := fun h => hcj (Fin.ext h)
          exact Fin.lt_def.2 (by omega)
        have e2 : s'.rDiag c = s.rDiag c := by simp [hs', hlt.ne, not_lt.2 hlt.le]
        rw [htailpres _ _ (Fin.le_def.1 hlt.le), e2]
        exact h.order c k hlt hck
    · intro k hk
      rw [hpgt k hk]
      have e : s'.rDiag k = (downdate minPositive largest (reflect v row fun i => s.packed i k) row
        (s.rDiag k) (s.referenceNorm k)).1 := by simp [hs', hk.ne', hk]
      rw [e]
      refine downdate_spec minPositive largest _ row _ _ bound hb hb0 ?_ ?_
      · have h0 := reflect_tail v row hv0.ne' hvv (fun i => s.packed i k) 0 (Nat.zero_le _)
        simp only [Nat.zero_le, if_true] at h0
        rw [h0]
        exact h.bound hA k (Fin.le_def.1 hk.le)
      · rw [hn k hk]
        exact congrArg Real.sqrt (htailpres _ _ le_rfl).symm

end QrState

end Multicalc
