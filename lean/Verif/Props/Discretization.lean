import Mathlib.LinearAlgebra.Matrix.Rank
import Verif.Props.Expm
import Mathlib.MeasureTheory.Integral.IntervalIntegral.FundThmCalculus

/-!
# Discretization of continuous-time systems
-/

namespace Multicalc

open NormedSpace Matrix

variable {n m : ℕ}

/-! ### Blocks -/

section Blocks

/-- The embedding of the first `n` coordinates. -/
def leftCols (n m : ℕ) : Matrix (Fin (n + m)) (Fin n) ℝ := (1 : Matrix _ _ ℝ).submatrix id (Fin.castAdd m)

/-- The projection to the last `m` coordinates. -/
def lowRows (n m : ℕ) : Matrix (Fin m) (Fin (n + m)) ℝ := (1 : Matrix _ _ ℝ).submatrix (Fin.natAdd n) id

/-- The four blocks. -/
def tl (x : Matrix (Fin (n + m)) (Fin (n + m)) ℝ) : Matrix (Fin n) (Fin n) ℝ :=
  x.submatrix (Fin.castAdd m) (Fin.castAdd m)
/-- Top right. -/
def tr (x : Matrix (Fin (n + m)) (Fin (n + m)) ℝ) : Matrix (Fin n) (Fin m) ℝ :=
  x.submatrix (Fin.castAdd m) (Fin.natAdd n)
/-- Bottom left. -/
def bl (x : Matrix (Fin (n + m)) (Fin (n + m)) ℝ) : Matrix (Fin m) (Fin n) ℝ :=
  x.submatrix (Fin.natAdd n) (Fin.castAdd m)
/-- Bottom right. -/
def br (x : Matrix (Fin (n + m)) (Fin (n + m)) ℝ) : Matrix (Fin m) (Fin m) ℝ :=
  x.submatrix (Fin.natAdd n) (Fin.natAdd n)

theorem tl_mul (x y : Matrix (Fin (n + m)) (Fin (n + m)) ℝ) : tl (x * y) = tl x * tl y + tr x * bl y := by
  ext i j; simp [tl, tr, bl, Matrix.mul_apply, Fin.sum_univ_add]
theorem tr_mul (x y : Matrix (Fin (n + m)) (Fin (n + m)) ℝ) : tr (x * y) = tl x * tr y + tr x * br y := by
  ext i j; simp [tl, tr, br, Matrix.mul_apply, Fin.sum_univ_add]
theorem bl_mul (x y : Matrix (Fin (n + m)) (Fin (n + m)) ℝ) : bl (x * y) = bl x * tl y + br x * bl y := by
  ext i j; simp [tl, br, bl, Matrix.mul_apply, Fin.sum_univ_add]
theorem br_mul (x y : Matrix (Fin (n + m)) (Fin (n + m)) ℝ) : br (x * y) = bl x * tr y + br x * br y := by
  ext i j; simp [br, tr, bl, Matrix.mul_apply, Fin.sum_univ_add]

theorem block_ext {x y : Matrix (Fin (n + m)) (Fin (n + m)) ℝ} (h1 : tl x = tl y) (h2 : tr x = tr y)
    (h3 : bl x = bl y) (h4 : br x = br y) : x = y := by
  ext i j
  refine Fin.addCases (fun i => ?_) (fun i => ?_) i <;> refine Fin.addCases (fun j => ?_) (fun j => ?_) j
  · exact congrFun (congrFun h1 i) j
  · exact congrFun (congrFun h2 i) j
  · exact congrFun (congrFun h3 i) j
  · exact congrFun (congrFun h4 i) j

theorem tl_one : tl (1 : Matrix (Fin (n + m)) (Fin (n + m)) ℝ) = 1 := by
  ext i j; simp [tl, Matrix.one_apply]
theorem tr_one : tr (1 : Matrix (Fin (n + m)) (Fin (n + m)) ℝ) = 0 := by
  ext i j
  have : Fin.castAdd m i ≠ Fin.natAdd n j := by intro h; have := congrArg Fin.val h; simp at this; omega
  simp [tr, Matrix.one_apply, this]
theorem bl_one : bl (1 : Matrix (Fin (n + m)) (Fin (n + m)) ℝ) = 0 := by
  ext i j
  have : Fin.natAdd n i ≠ Fin.castAdd m j := by intro h; have := congrArg Fin.val h; simp at this; omega
  simp [bl, Matrix.one_apply, this]
theorem br_one : br (1 : Matrix (Fin (n + m)) (Fin (n + m)) ℝ) = 1 := by
  ext i j; simp [br, Matrix.one_apply]

theorem mul_leftCols (x : Matrix (Fin (n + m)) (Fin (n + m)) ℝ) :
    x * leftCols n m = x.submatrix id (Fin.castAdd m) := by
  ext i j; simp [leftCols, Matrix.mul_apply, Matrix.one_apply]
theorem lowRows_mul (x : Matrix (Fin (n + m)) (Fin (n + m)) ℝ) :
    lowRows n m * x = x.submatrix (Fin.natAdd n) id := by
  ext i j; simp [lowRows, Matrix.mul_apply, Matrix.one_apply]

/-- Block upper triangular, seen through the embedding. -/
theorem leftCols_iff (x : Matrix (Fin (n + m)) (Fin (n + m)) ℝ) (z : Matrix (Fin n) (Fin n) ℝ) :
    x * leftCols n m = leftCols n m * z ↔ tl x = z ∧ bl x = 0 := by
  have h1 : ∀ i j, (leftCols n m * z) (Fin.castAdd m i) j = z i j := by
    intro i j; simp [leftCols, Matrix.mul_apply, Matrix.one_apply]
  have h2 : ∀ i j, (leftCols n m * z) (Fin.natAdd n i) j = 0 := by
    intro i j
    rw [Matrix.mul_apply]
    refine Finset.sum_eq_zero fun k _ => ?_
    have : Fin.natAdd n i ≠ Fin.castAdd m k := by intro h; have := congrArg Fin.val h; simp at this; omega
    simp [leftCols, Matrix.one_apply, this]
  rw [mul_leftCols]
  constructor
  · intro h
    constructor
    · ext i j; rw [← h1 i j, ← h]; rfl
    · ext i j
      have := h2 i j
      rw [← h] at this
      exact this
  · rintro ⟨rfl, h⟩
    ext i j
    refine Fin.addCases (fun i => ?_) (fun i => ?_) i
    · rw [h1]; rfl
    · rw [h2]; exact congrFun (congrFun h i) j

theorem lowRows_iff (x : Matrix (Fin (n + m)) (Fin (n + m)) ℝ) (z : Matrix (Fin m) (Fin m) ℝ) :
    z * lowRows n m = lowRows n m * x ↔ br x = z ∧ bl x = 0 := by
  have h1 : ∀ i j, (z * lowRows n m) i (Fin.natAdd n j) = z i j := by
    intro i j; simp [lowRows, Matrix.mul_apply, Matrix.one_apply]
  have h2 : ∀ i j, (z * lowRows n m) i (Fin.castAdd m j) = 0 := by
    intro i j
    rw [Matrix.mul_apply]
    refine Finset.sum_eq_zero fun k _ => ?_
    have : Fin.natAdd n k ≠ Fin.castAdd m j := by intro h; have := congrArg Fin.val h; simp at this; omega
    simp [lowRows, Matrix.one_apply, this]
  rw [lowRows_mul]
  constructor
  · intro h
    constructor
    · ext i j; rw [← h1 i j, h]; rfl
    · ext i j
      have := h2 i j
      rw [h] at this
      exact this
  · rintro ⟨rfl, h⟩
    ext i j
    refine Fin.addCases (fun j => ?_) (fun j => ?_) j
    · rw [h2]; exact (congrFun (congrFun h i) j).symm
    · rw [h1]; rfl

theorem block_exp {x : Matrix (Fin (n + m)) (Fin (n + m)) ℝ} (h : bl x = 0) :
    tl (exp x) = exp (tl x) ∧ bl (exp x) = 0 ∧ br (exp x) = exp (br x) := by
  have h1 := (leftCols_iff (exp x) (exp (tl x))).1 (exp_intertwine ((leftCols_iff x _).2 ⟨rfl, h⟩))
  have h2 := (lowRows_iff (exp x) (exp (br x))).1 (exp_intertwine ((lowRows_iff x _).2 ⟨rfl, h⟩))
  exact ⟨h1.1, h1.2, h2.1⟩

theorem pow_intertwine {a : Matrix (Fin n) (Fin n) ℝ} {b : Matrix (Fin m) (Fin m) ℝ}
    {p : Matrix (Fin n) (Fin m) ℝ} (h : a * p = p * b) (k : ℕ) : a ^ k * p = p * b ^ k := by
  induction k with
  | zero => simp
  | succ k ih => rw [pow_succ, pow_succ, Matrix.mul_assoc, h, ← Matrix.mul_assoc, ih, Matrix.mul_assoc]

theorem pade_intertwine {a : Matrix (Fin n) (Fin n) ℝ} {b : Matrix (Fin m) (Fin m) ℝ}
    {p : Matrix (Fin n) (Fin m) ℝ} (h : a * p = p * b) :
    padeNum a * p = p * padeNum b ∧ padeDen a * p = p * padeDen b := by
  constructor
  · simp only [padeNum, Matrix.sum_mul, Matrix.mul_sum, Matrix.smul_mul, Matrix.mul_smul, pow_intertwine h]
  · simp only [padeDen, Matrix.sum_mul, Matrix.mul_sum, Matrix.smul_mul, Matrix.mul_smul, pow_intertwine h]

theorem solution_intertwine {a r : Matrix (Fin n) (Fin n) ℝ} {b q : Matrix (Fin m) (Fin m) ℝ}
    {p : Matrix (Fin n) (Fin m) ℝ} (ha : ColumnSums a (1 / 2)) (h : a * p = p * b)
    (hr : padeDen a * r = padeNum a) (hq : padeDen b * q = padeNum b) : r * p = p * q := by
  obtain ⟨x, -, hx, e, -⟩ := pade_solution ha hr
  obtain ⟨h1, h2⟩ := pade_intertwine h
  have h3 : padeDen a * (p * q) = padeNum a * p := by
    rw [← Matrix.mul_assoc, h2, Matrix.mul_assoc, hq, h1]
  calc r * p = x * (padeNum a * p) := by rw [e, Matrix.mul_assoc]
    _ = x * padeDen a * (p * q) := by rw [← h3, Matrix.mul_assoc]
    _ = p * q := by rw [hx, Matrix.one_mul]

theorem columnSums_tl {x : Matrix (Fin (n + m)) (Fin (n + m)) ℝ} {ν : ℝ} (h : ColumnSums x ν) :
    ColumnSums (tl x) ν ∧ ColumnSums (tr x) ν ∧ ColumnSums (br x) ν := by
  refine ⟨fun j => ?_, fun j => ?_, fun j => ?_⟩
  · have := h (Fin.castAdd m j)
    rw [Fin.sum_univ_add] at this
    exact (le_add_of_nonneg_right (Finset.sum_nonneg fun i _ => abs_nonneg _)).trans this
  · have := h (Fin.natAdd n j)
    rw [Fin.sum_univ_add] at this
    exact (le_add_of_nonneg_right (Finset.sum_nonneg fun i _ => abs_nonneg _)).trans this
  · have := h (Fin.natAdd n j)
    rw [Fin.sum_univ_add] at this
    exact (le_add_of_nonneg_left (Finset.sum_nonneg fun i _ => abs_nonneg _)).trans this

theorem pade_solvable {a : Matrix (Fin n) (Fin n) ℝ} (ha : ColumnSums a (1 / 2)) :
    ∃ q, padeDen a * q = padeNum a := by
  obtain ⟨x, hx, -, -⟩ := padeDen_inverse_bound ha
  exact ⟨x * padeNum a, by rw [← mul_assoc, hx, one_mul]⟩

/-- The blocks of `expm` of a block upper triangular matrix. -/
theorem expm_block (largest : ℝ) (hl : 1 ≤ largest) (hn : n + m ≤ 2 ^ 50)
    (x : Matrix (Fin (n + m)) (Fin (n + m)) ℝ) (hx : bl x = 0) :
    ∃ (s : ℕ) (E : Matrix (Fin (n + m)) (Fin (n + m)) ℝ) (q : Matrix (Fin n) (Fin n) ℝ)
      (q' : Matrix (Fin m) (Fin m) ℝ),
      (∀ fuel, s ≤ fuel → expm largest fuel x = some (.ok E)) ∧ bl E = 0 ∧ tl E = q ^ 2 ^ s ∧ br E = q' ^ 2 ^ s ∧
      padeDen ((1 / 2 : ℝ) ^ s • tl x) * q = padeNum ((1 / 2 : ℝ) ^ s • tl x) ∧
      padeDen ((1 / 2 : ℝ) ^ s • br x) * q' = padeNum ((1 / 2 : ℝ) ^ s • br x) ∧
      (∀ ν, 0 ≤ ν → ColumnSums x ν → (2 : ℝ) ^ s ≤ max 1 (4 * ν)) := by
  obtain ⟨s, r, hrun, hca, hr, hν, -⟩ := expm_run largest hl hn x
  obtain ⟨c1, -, c2⟩ := columnSums_tl hca
  have e1 : tl ((1 / 2 : ℝ) ^ s • x) = (1 / 2 : ℝ) ^ s • tl x := rfl
  have e2 : br ((1 / 2 : ℝ) ^ s • x) = (1 / 2 : ℝ) ^ s • br x := rfl
  have e3 : bl ((1 / 2 : ℝ) ^ s • x) = 0 := by
    have : bl ((1 / 2 : ℝ) ^ s • x) = (1 / 2 : ℝ) ^ s • bl x := rfl
    rw [this, hx, smul_zero]
  rw [e1] at c1
  rw [e2] at c2
  obtain ⟨q, hq⟩ := pade_solvable c1
  obtain ⟨q', hq'⟩ := pade_solvable c2
  have i1 := pow_intertwine (solution_intertwine hca ((leftCols_iff _ _).2 ⟨e1, e3⟩) hr hq) (2 ^ s)
  have i2 := pow_intertwine (solution_intertwine c2 ((lowRows_iff _ _).2 ⟨e2, e3⟩) hq' hr) (2 ^ s)
  exact ⟨s, r ^ 2 ^ s, q, q', hrun, ((leftCols_iff _ _).1 i1).2, ((leftCols_iff _ _).1 i1).1,
    ((lowRows_iff _ _).1 i2).1, hq, hq', hν⟩

theorem padeNum_zero : padeNum (0 : Matrix (Fin n) (Fin n) ℝ) = 1 := by
  rw [padeNum, Finset.sum_eq_single 0]
  · simp [padeC]
  · intro k _ hk; simp [hk]
  · simp

end Blocks

/-! ### Zero-order hold -/

theorem zohAugmented_blocks (A : Matrix (Fin n) (Fin n) ℝ) (B : Matrix (Fin n) (Fin m) ℝ) (t : ℝ) :
    tl (zohAugmented A B t) = t • A ∧ tr (zohAugmented A B t) = t • B ∧ bl (zohAugmented A B t) = 0 ∧
    br (zohAugmented A B t) = 0 := by
  refine ⟨?_, ?_, ?_, ?_⟩ <;> ext i j <;> simp [tl, tr, bl, br, zohAugmented, mul_comm]

theorem zohAugmented_smul (A : Matrix (Fin n) (Fin n) ℝ) (B : Matrix (Fin n) (Fin m) ℝ) (t : ℝ) :
    zohAugmented A B t = t • zohAugmented A B 1 := by
  obtain ⟨h1, h2, h3, h4⟩ := zohAugmented_blocks A B t
  obtain ⟨g1, g2, g3, g4⟩ := zohAugmented_blocks A B 1
  have k : ∀ x : Matrix (Fin (n + m)) (Fin (n + m)) ℝ, tl (t • x) = t • tl x ∧ tr (t • x) = t • tr x ∧
    bl (t • x) = t • bl x ∧ br (t • x) = t • br x := fun x => ⟨rfl, rfl, rfl, rfl⟩
  obtain ⟨k1, k2, k3, k4⟩ := k (zohAugmented A B 1)
  refine block_ext ?_ ?_ ?_ ?_
  · rw [k1, h1, g1, one_smul]
  · rw [k2, h2, g2, one_smul]
  · rw [k3, h3, g3, smul_zero]
  · rw [k4, h4, g4, smul_zero]

theorem continuous_exp_entry (A : Matrix (Fin n) (Fin n) ℝ) (i j : Fin n) :
    Continuous fun τ : ℝ => exp (τ • A) i j :=
  continuous_iff_continuousAt.2 fun τ => (hasDerivAt_exp_matrix A τ i j).continuousAt

/-- The exponential of the augmented matrix. -/
theorem exp_zohAugmented (A : Matrix (Fin n) (Fin n) ℝ) (B : Matrix (Fin n) (Fin m) ℝ) (t : ℝ) :
    tl (exp (zohAugmented A B t)) = exp (t • A) ∧ bl (exp (zohAugmented A B t)) = 0 ∧
    br (exp (zohAugmented A B t)) = 1 ∧
    ∀ i j, tr (exp (zohAugmented A B t)) i j = ∫ τ in (0 : ℝ)..t, (exp (τ • A) * B) i j := by
  obtain ⟨g1, g2, g3, g4⟩ := zohAugmented_blocks A B 1
  have hblock : ∀ τ : ℝ, tl (exp (τ • zohAugmented A B 1)) = exp (τ • A) ∧ bl (exp (τ • zohAugmented A B 1)) = 0 ∧
      br (exp (τ • zohAugmented A B 1)) = 1 := by
    intro τ
    rw [← zohAugmented_smul]
    obtain ⟨h1, h2, h3, h4⟩ := zohAugmented_blocks A B τ
    obtain ⟨e1, e2, e3⟩ := block_exp h3
    exact ⟨by rw [e1, h1], e2, by rw [e3, h4, exp_zero]⟩
  rw [zohAugmented_smul]
  refine ⟨(hblock t).1, (hblock t).2.1, (hblock t).2.2, fun i j => ?_⟩
  have hd : ∀ τ : ℝ, HasDerivAt (fun τ : ℝ => tr (exp (τ • zohAugmented A B 1)) i j)
      ((exp (τ • A) * B) i j) τ := by
    intro τ
    have h := hasDerivAt_exp_matrix (zohAugmented A B 1) τ (Fin.castAdd m i) (Fin.natAdd n j)
    have e : (exp (τ • zohAugmented A B 1) * zohAugmented A B 1) (Fin.castAdd m i) (Fin.natAdd n j) =
        (exp (τ • A) * B) i j := by
      have := tr_mul (exp (τ • zohAugmented A B 1)) (zohAugmented A B 1)
      rw [(hblock τ).1, g2, g4, one_smul, Matrix.mul_zero, add_zero] at this
      exact congrFun (congrFun this i) j
    rw [e] at h
    exact h
  have hc : Continuous fun τ : ℝ => (exp (τ • A) * B) i j := by
    simp only [Matrix.mul_apply]
    exact continuous_finsetSum _ fun k _ => (continuous_exp_entry A i k).mul continuous_const
  rw [intervalIntegral.integral_eq_sub_of_hasDerivAt (fun τ _ => hd τ) (hc.intervalIntegrable _ _)]
  have h0 : tr (exp ((0 : ℝ) • zohAugmented A B 1)) i j = 0 := by
    rw [zero_smul, exp_zero, tr_one]; rfl
  rw [h0, sub_zero]

theorem zoh_of_expm (largest : ℝ) (fuel : ℕ) (A : Matrix (Fin n) (Fin n) ℝ) (B : Matrix (Fin n) (Fin m) ℝ) (t : ℝ)
    (ht : 0 ≤ t) (E : Matrix (Fin (n + m)) (Fin (n + m)) ℝ)
    (h : expm largest fuel (zohAugmented A B t) = some (.ok E)) :
    zoh largest fuel A B t = some (.ok (tl E, tr E)) := by
  unfold zoh
  rw [if_neg (by simp [Fns.isFinite, ht]), h]
  rfl

theorem columnSums_zohAugmented {A : Matrix (Fin n) (Fin n) ℝ} {B : Matrix (Fin n) (Fin m) ℝ} {t ν : ℝ}
    (hA : ∀ j, ∑ i, |A i j * t| ≤ ν) (hB : ∀ j, ∑ i, |B i j * t| ≤ ν) : ColumnSums (zohAugmented A B t) ν := by
  intro j
  refine Fin.addCases (fun j => ?_) (fun j => ?_) j
  · rw [Fin.sum_univ_add]; simpa [zohAugmented] using hA j
  · rw [Fin.sum_univ_add]; simpa [zohAugmented] using hB j

/-- C79. What `zoh` returns, for every system and every nonnegative time step, in exact arithmetic: the transition
matrix is `exp (A t) (1 + e₁)` and the input matrix is the integral of `exp (A τ) B` over the step plus
`exp (A t) e₂`, where the column sums of `e₁` and `e₂` are at most `exp (max 1 (4 ν) / 2⁵³) - 1` for any bound `ν` on
the column sums of `A t` and `B t`. -/
theorem zoh_accuracy (largest : ℝ) (hl : 1 ≤ largest) (hn : n + m ≤ 2 ^ 50) (A : Matrix (Fin n) (Fin n) ℝ)
    (B : Matrix (Fin n) (Fin m) ℝ) (t : ℝ) (ht : 0 ≤ t) :
    ∃ (N : ℕ) (F : Matrix (Fin n) (Fin n) ℝ) (G : Matrix (Fin n) (Fin m) ℝ) (e₁ : Matrix (Fin n) (Fin n) ℝ)
      (e₂ : Matrix (Fin n) (Fin m) ℝ),
      (∀ fuel, N ≤ fuel → zoh largest fuel A B t = some (.ok (F, G))) ∧
      F = exp (t • A) * (1 + e₁) ∧
      (∀ i j, G i j = (∫ τ in (0 : ℝ)..t, (exp (τ • A) * B) i j) + (exp (t • A) * e₂) i j) ∧
      ∀ ν, 0 ≤ ν → (∀ j, ∑ i, |A i j * t| ≤ ν) → (∀ j, ∑ i, |B i j * t| ≤ ν) →
        (∀ j, ∑ i, |e₁ i j| ≤ Real.exp (max 1 (4 * ν) / 2 ^ 53) - 1) ∧
        ∀ j, ∑ i, |e₂ i j| ≤ Real.exp (max 1 (4 * ν) / 2 ^ 53) - 1 := by
  obtain ⟨h1, h2, h3, h4⟩ := zohAugmented_blocks A B t
  obtain ⟨x1, x2, x3, x4⟩ := exp_zohAugmented A B t
  obtain ⟨N, E, f, hrun, hE, -, hf⟩ := expm_accuracy largest hl hn (zohAugmented A B t)
  obtain ⟨s, E', q, q', hrun', b1, -, b3, -, b5, -⟩ := expm_block largest hl hn (zohAugmented A B t) h3
  obtain rfl : E' = E := by
    have g1 := hrun (max N s) (le_max_left _ _)
    rw [hrun' (max N s) (le_max_right _ _)] at g1
    simpa using g1
  have b3' : br E' = 1 := by
    rw [h4, smul_zero, padeNum_zero, padeDen_eq, neg_zero, padeNum_zero, one_mul] at b5
    rw [b3, b5, one_pow]
  have hf' : 1 + f = exp (-zohAugmented A B t) * E' := by
    rw [hE, ← mul_assoc, (exp_mul_exp_neg _).2, one_mul]
  have hneg : -zohAugmented A B t = zohAugmented A B (-t) := by
    rw [zohAugmented_smul A B (-t), zohAugmented_smul A B t, neg_smul]
  obtain ⟨y1, y2, y3, -⟩ := exp_zohAugmented A B (-t)
  rw [← hneg] at y1 y2 y3
  have addb : ∀ (x y : Matrix (Fin (n + m)) (Fin (n + m)) ℝ), tl (x + y) = tl x + tl y ∧ tr (x + y) = tr x + tr y ∧
      bl (x + y) = bl x + bl y ∧ br (x + y) = br x + br y := fun x y => ⟨rfl, rfl, rfl, rfl⟩
  obtain ⟨a1, a2, a3, a4⟩ := addb 1 f
  have fbl : bl f = 0 := by
    have := congrArg bl hf'
    rw [a3, bl_one, zero_add, bl_mul, y2, b1, Matrix.zero_mul, Matrix.mul_zero, add_zero] at this
    exact this
  have fbr : br f = 0 := by
    have := congrArg br hf'
    rw [a4, br_one, br_mul, y2, y3, b3', Matrix.zero_mul, zero_add, one_mul] at this
    simpa using this
  refine ⟨N, tl E', tr E', tl f, tr f, fun fuel hfuel => zoh_of_expm largest fuel A B t ht E' (hrun fuel hfuel),
    ?_, ?_, ?_⟩
  · rw [hE, tl_mul, x1, a1, a3, tl_one, bl_one, fbl, add_zero, Matrix.mul_zero, add_zero]
  · intro i j
    rw [hE, tr_mul, x1, a2, a4, tr_one, br_one, fbr, zero_add, add_zero, Matrix.mul_one, Matrix.add_apply, x4]
    ring
  · intro ν hν hA hB
    have hx := columnSums_zohAugmented hA hB
    obtain ⟨c1, c2, -⟩ := columnSums_tl (x := f) (hf ν hν hx)
    exact ⟨c1, c2⟩

theorem zohAugmented_pow (A : Matrix (Fin n) (Fin n) ℝ) (B : Matrix (Fin n) (Fin m) ℝ) (t : ℝ) (k : ℕ) :
    tl (zohAugmented A B t ^ (k + 1)) = (t • A) ^ (k + 1) ∧ tr (zohAugmented A B t ^ (k + 1)) = (t • A) ^ k * t • B ∧
    bl (zohAugmented A B t ^ (k + 1)) = 0 ∧ br (zohAugmented A B t ^ (k + 1)) = 0 := by
  obtain ⟨h1, h2, h3, h4⟩ := zohAugmented_blocks A B t
  induction k with
  | zero => simp only [zero_add, pow_one, pow_zero, Matrix.one_mul]; exact ⟨h1, h2, h3, h4⟩
  | succ k ih =>
    obtain ⟨i1, i2, i3, i4⟩ := ih
    rw [pow_succ _ (k + 1), tl_mul, tr_mul, bl_mul, br_mul, i1, i2, i3, i4, h1, h2, h3, h4]
    refine ⟨?_, ?_, ?_, ?_⟩
    · rw [Matrix.mul_zero, add_zero, ← pow_succ]
    · rw [Matrix.mul_zero, add_zero]
    · simp
    · simp

theorem zohAugmented_nilpotent (A : Matrix (Fin n) (Fin n) ℝ) (B : Matrix (Fin n) (Fin m) ℝ) (t : ℝ)
    (hA : A ^ 12 = 0) : zohAugmented A B t ^ 13 = 0 := by
  obtain ⟨h1, h2, h3, h4⟩ := zohAugmented_pow A B t 12
  refine block_ext ?_ ?_ ?_ ?_
  · rw [h1, pow_succ, smul_pow, hA]; simp; rfl
  · rw [h2, smul_pow, hA]; simp; rfl
  · rw [h3]; rfl
  · rw [h4]; rfl

/-- C79. For integrator chains, and every other system whose twelfth power vanishes, `zoh` is exact: it returns
`exp (A t)` and the integral of `exp (A τ) B`. -/
theorem zoh_nilpotent (largest : ℝ) (hl : 1 ≤ largest) (hn : n + m ≤ 2 ^ 50) (A : Matrix (Fin n) (Fin n) ℝ)
    (B : Matrix (Fin n) (Fin m) ℝ) (hA : A ^ 12 = 0) (t : ℝ) (ht : 0 ≤ t) :
    ∃ (N : ℕ) (G : Matrix (Fin n) (Fin m) ℝ), (∀ fuel, N ≤ fuel → zoh largest fuel A B t = some (.ok (exp (t • A), G))) ∧
      ∀ i j, G i j = ∫ τ in (0 : ℝ)..t, (exp (τ • A) * B) i j := by
  obtain ⟨N, hN⟩ := expm_nilpotent largest hl hn _ (zohAugmented_nilpotent A B t hA)
  obtain ⟨x1, x2, x3, x4⟩ := exp_zohAugmented A B t
  refine ⟨N, tr (exp (zohAugmented A B t)), fun fuel hf => ?_, x4⟩
  rw [zoh_of_expm largest fuel A B t ht _ (hN fuel hf), x1]

/-- C79. The hold itself: for such systems the returned matrices carry the state to where the differential equation
takes it.  There is a curve through the initial state with derivative `A x + B u` under the constant input `u`, and
its value at the end of the step is `F x₀ + G u`. -/
theorem zoh_hold (largest : ℝ) (hl : 1 ≤ largest) (hn : n + m ≤ 2 ^ 50) (A : Matrix (Fin n) (Fin n) ℝ)
    (B : Matrix (Fin n) (Fin m) ℝ) (hA : A ^ 12 = 0) (t : ℝ) (ht : 0 ≤ t) (x₀ : Fin n → ℝ) (u : Fin m → ℝ) :
    ∃ (N : ℕ) (F : Matrix (Fin n) (Fin n) ℝ) (G : Matrix (Fin n) (Fin m) ℝ) (x : ℝ → Fin n → ℝ),
      (∀ fuel, N ≤ fuel → zoh largest fuel A B t = some (.ok (F, G))) ∧ x 0 = x₀ ∧
      (∀ τ i, HasDerivAt (fun τ => x τ i) ((A *ᵥ x τ + B *ᵥ u) i) τ) ∧ x t = F *ᵥ x₀ + G *ᵥ u := by
  obtain ⟨N, hN⟩ := expm_nilpotent largest hl hn _ (zohAugmented_nilpotent A B t hA)
  refine ⟨N, tl (exp (zohAugmented A B t)), tr (exp (zohAugmented A B t)),
    fun τ => tl (exp (τ • zohAugmented A B 1)) *ᵥ x₀ + tr (exp (τ • zohAugmented A B 1)) *ᵥ u,
    fun fuel hf => zoh_of_expm largest fuel A B t ht _ (hN fuel hf), ?_, ?_, ?_⟩
  · simp only [zero_smul, exp_zero, tl_one, tr_one, Matrix.one_mulVec, Matrix.zero_mulVec, add_zero]
  · intro τ i
    obtain ⟨g1, g2, g3, g4⟩ := zohAugmented_blocks A B 1
    set X := zohAugmented A B 1 with hX
    have hc : exp (τ • X) * X = X * exp (τ • X) :=
      (((Commute.refl X).smul_left τ).exp_left).eq
    obtain ⟨y1, y2, y3, -⟩ := exp_zohAugmented A B τ
    rw [zohAugmented_smul, ← hX] at y1 y2 y3
    have htl : ∀ j, HasDerivAt (fun τ : ℝ => tl (exp (τ • X)) i j) ((A * tl (exp (τ • X))) i j) τ := by
      intro j
      have h := hasDerivAt_exp_matrix X τ (Fin.castAdd m i) (Fin.castAdd m j)
      rw [hc] at h
      have e := tl_mul X (exp (τ • X))
      rw [g1, one_smul, y2, Matrix.mul_zero, add_zero] at e
      have e' : (X * exp (τ • X)) (Fin.castAdd m i) (Fin.castAdd m j) = (A * tl (exp (τ • X))) i j :=
        congrFun (congrFun e i) j
      rw [e'] at h
      exact h
    have htr : ∀ j, HasDerivAt (fun τ : ℝ => tr (exp (τ • X)) i j) ((A * tr (exp (τ • X)) + B) i j) τ := by
      intro j
      have h := hasDerivAt_exp_matrix X τ (Fin.castAdd m i) (Fin.natAdd n j)
      rw [hc] at h
      have e := tr_mul X (exp (τ • X))
      rw [g1, g2, one_smul, one_smul, y3, Matrix.mul_one] at e
      have e' : (X * exp (τ • X)) (Fin.castAdd m i) (Fin.natAdd n j) = (A * tr (exp (τ • X)) + B) i j :=
        congrFun (congrFun e i) j
      rw [e'] at h
      exact h
    have h1 := HasDerivAt.fun_sum (u := Finset.univ) fun j _ => (htl j).mul_const (x₀ j)
    have h2 := HasDerivAt.fun_sum (u := Finset.univ) fun j _ => (htr j).mul_const (u j)
    have h3 := h1.add h2
    have e : (A *ᵥ (tl (exp (τ • X)) *ᵥ x₀ + tr (exp (τ • X)) *ᵥ u) + B *ᵥ u) i =
        ∑ j, (A * tl (exp (τ • X))) i j * x₀ j + ∑ j, (A * tr (exp (τ • X)) + B) i j * u j := by
      rw [Matrix.mulVec_add, Matrix.mulVec_mulVec, Matrix.mulVec_mulVec, add_assoc, ← Matrix.add_mulVec]
      rfl
    rw [e]
    exact h3
  · rw [zohAugmented_smul A B t]

/-- C79. The semigroup law, exactly, for the same systems: a step of `s` followed by a step of `t` is one step of
`s + t`, for the transition matrix and for the input matrix.  Missing: in general the law only holds up to the error of
`zoh_accuracy`, see `zoh_semigroup_fails`. -/
theorem zoh_semigroup_partial (largest : ℝ) (hl : 1 ≤ largest) (hn : n + m ≤ 2 ^ 50) (A : Matrix (Fin n) (Fin n) ℝ)
    (B : Matrix (Fin n) (Fin m) ℝ) (hA : A ^ 12 = 0) (s t : ℝ) (hs : 0 ≤ s) (ht : 0 ≤ t) :
    ∃ (N : ℕ) (F F' F'' : Matrix (Fin n) (Fin n) ℝ) (G G' G'' : Matrix (Fin n) (Fin m) ℝ),
      (∀ fuel, N ≤ fuel → zoh largest fuel A B s = some (.ok (F, G))) ∧
      (∀ fuel, N ≤ fuel → zoh largest fuel A B t = some (.ok (F', G'))) ∧
      (∀ fuel, N ≤ fuel → zoh largest fuel A B (s + t) = some (.ok (F'', G''))) ∧
      F'' = F' * F ∧ G'' = F' * G + G' := by
  obtain ⟨N, hN⟩ := expm_nilpotent largest hl hn _ (zohAugmented_nilpotent A B s hA)
  obtain ⟨N', hN'⟩ := expm_nilpotent largest hl hn _ (zohAugmented_nilpotent A B t hA)
  obtain ⟨N'', hN''⟩ := expm_nilpotent largest hl hn _ (zohAugmented_nilpotent A B (s + t) hA)
  obtain ⟨x1, x2, x3, -⟩ := exp_zohAugmented A B s
  have hadd : exp (zohAugmented A B (s + t)) = exp (zohAugmented A B t) * exp (zohAugmented A B s) := by
    rw [← Matrix.exp_add_of_commute]
    · rw [zohAugmented_smul A B (s + t), zohAugmented_smul A B s, zohAugmented_smul A B t, ← add_smul, add_comm s t]
    · rw [zohAugmented_smul A B s, zohAugmented_smul A B t]
      exact ((Commute.refl _).smul_left _).smul_right _
  refine ⟨max N (max N' N''), _, _, _, _, _, _,
    fun fuel hf => zoh_of_expm largest fuel A B s hs _ (hN fuel ((le_max_left _ _).trans hf)),
    fun fuel hf => zoh_of_expm largest fuel A B t ht _ (hN' fuel (((le_max_left _ _).trans (le_max_right _ _)).trans hf)),
    fun fuel hf => zoh_of_expm largest fuel A B (s + t) (by linarith) _
      (hN'' fuel (((le_max_right _ _).trans (le_max_right _ _)).trans hf)), ?_, ?_⟩
  · rw [hadd, tl_mul, x2, Matrix.mul_zero, add_zero]
  · rw [hadd, tr_mul, x3, Matrix.mul_one]

/-- A double integrator. -/
example : (!![0, 1; 0, 0] : Matrix (Fin 2) (Fin 2) ℝ) ^ 12 = 0 := by
  have : (!![0, 1; 0, 0] : Matrix (Fin 2) (Fin 2) ℝ) ^ 2 = 0 := by
    ext i j
    fin_cases i <;> fin_cases j <;> norm_num [pow_two, Matrix.mul_apply, Fin.sum_univ_two]
  rw [show 12 = 2 + 10 by norm_num, pow_add, this, zero_mul]

theorem pade_scalar (t : ℝ) :
    padeNum (t • (1 : Matrix (Fin 1) (Fin 1) ℝ)) = (∑ k ∈ Finset.range 7, padeC k * t ^ k) • 1 ∧
    padeDen (t • (1 : Matrix (Fin 1) (Fin 1) ℝ)) = (∑ k ∈ Finset.range 7, (-1) ^ k * padeC k * t ^ k) • 1 := by
  constructor
  · simp only [padeNum, smul_pow, one_pow, smul_smul, ← Finset.sum_smul]
  · simp only [padeDen, smul_pow, one_pow, smul_smul, ← Finset.sum_smul]

/-- The transition of `ẋ = x` over a short step. -/
theorem zoh_scalar (t : ℝ) (ht : 0 ≤ t) (ht' : t ≤ 3 / 10) : ∃ (N : ℕ) (ρ : ℝ) (G : Matrix (Fin 1) (Fin 1) ℝ),
    (∀ fuel, N ≤ fuel → zoh 1 fuel (1 : Matrix (Fin 1) (Fin 1) ℝ) (0 : Matrix (Fin 1) (Fin 1) ℝ) t =
      some (.ok (ρ • 1, G))) ∧
    (∑ k ∈ Finset.range 7, (-1) ^ k * padeC k * t ^ k) * ρ = ∑ k ∈ Finset.range 7, padeC k * t ^ k := by
  obtain ⟨h1, h2, h3, h4⟩ := zohAugmented_blocks (1 : Matrix (Fin 1) (Fin 1) ℝ) (0 : Matrix (Fin 1) (Fin 1) ℝ) t
  obtain ⟨s, E, q, q', hrun, -, b2, -, b4, -, b6⟩ := expm_block 1 le_rfl (by norm_num)
    (zohAugmented (1 : Matrix (Fin 1) (Fin 1) ℝ) (0 : Matrix (Fin 1) (Fin 1) ℝ) t) h3
  have hs : s = 0 := by
    have hν := b6 (3 / 10) (by norm_num) (columnSums_zohAugmented (fun j => by
      obtain rfl : j = 0 := Subsingleton.elim _ _
      simpa [abs_of_nonneg ht] using ht') (fun j => by simp; norm_num))
    by_contra h
    have h2 : (2 : ℝ) ^ 1 ≤ 2 ^ s := pow_le_pow_right₀ (by norm_num) (Nat.one_le_iff_ne_zero.2 h)
    norm_num at hν h2
    linarith
  subst hs
  rw [pow_zero, one_smul, h1, (pade_scalar t).1, (pade_scalar t).2] at b4
  refine ⟨0, q 0 0, tr E, fun fuel hf => ?_, ?_⟩
  · have e : tl E = q 0 0 • 1 := by
      rw [b2, pow_zero, pow_one]
      ext i j
      obtain rfl : i = 0 := Subsingleton.elim _ _
      obtain rfl : j = 0 := Subsingleton.elim _ _
      simp
    rw [zoh_of_expm 1 fuel _ _ t ht E (hrun fuel hf), e]
  · have := congrFun (congrFun b4 0) 0
    simpa [Matrix.mul_apply] using this

/-- C79 (finding). The semigroup law does not hold exactly for every system: for `ẋ = x`, two steps of lengths `0.1`
and `0.2` are not the step of length `0.3`, since each is a rational approximation of the exponential. -/
theorem zoh_semigroup_fails : ∃ (N : ℕ) (F F' F'' G G' G'' : Matrix (Fin 1) (Fin 1) ℝ),
    (∀ fuel, N ≤ fuel → zoh 1 fuel (1 : Matrix (Fin 1) (Fin 1) ℝ) (0 : Matrix (Fin 1) (Fin 1) ℝ) (1 / 10) =
      some (.ok (F, G))) ∧
    (∀ fuel, N ≤ fuel → zoh 1 fuel (1 : Matrix (Fin 1) (Fin 1) ℝ) (0 : Matrix (Fin 1) (Fin 1) ℝ) (1 / 5) =
      some (.ok (F', G'))) ∧
    (∀ fuel, N ≤ fuel → zoh 1 fuel (1 : Matrix (Fin 1) (Fin 1) ℝ) (0 : Matrix (Fin 1) (Fin 1) ℝ) (1 / 10 + 1 / 5) =
      some (.ok (F'', G''))) ∧
    F'' ≠ F' * F := by
  obtain ⟨N, ρ, G, h, e⟩ := zoh_scalar (1 / 10) (by norm_num) (by norm_num)
  obtain ⟨N', ρ', G', h', e'⟩ := zoh_scalar (1 / 5) (by norm_num) (by norm_num)
  obtain ⟨N'', ρ'', G'', h'', e''⟩ := zoh_scalar (1 / 10 + 1 / 5) (by norm_num) (by norm_num)
  refine ⟨max N (max N' N''), _, _, _, _, _, _, fun fuel hf => h fuel ((le_max_left _ _).trans hf),
    fun fuel hf => h' fuel (((le_max_left _ _).trans (le_max_right _ _)).trans hf),
    fun fuel hf => h'' fuel (((le_max_right _ _).trans (le_max_right _ _)).trans hf), ?_⟩
  intro hF
  have h0 := congrFun (congrFun hF 0) 0
  simp only [Matrix.smul_mul, Matrix.mul_smul, Matrix.smul_apply, Matrix.one_mul, Matrix.one_apply_eq, smul_eq_mul,
    mul_one] at h0
  simp only [Finset.sum_range_succ, Finset.sum_range_zero, padeC] at e e' e''
  norm_num at e e' e''
  rw [mul_comm, ← eq_div_iff (by norm_num)] at e e' e''
  rw [e, e', e''] at h0
  norm_num at h0

/-! ### Van Loan -/

theorem vanLoanAugmented_blocks (A Q : Matrix (Fin n) (Fin n) ℝ) (t : ℝ) :
    tl (vanLoanAugmented A Q t) = t • -A ∧ tr (vanLoanAugmented A Q t) = t • Q ∧ bl (vanLoanAugmented A Q t) = 0 ∧
    br (vanLoanAugmented A Q t) = t • Aᵀ := by
  refine ⟨?_, ?_, ?_, ?_⟩ <;> ext i j <;> simp [tl, tr, bl, br, vanLoanAugmented, mul_comm, -Fin.natAdd_eq_addNat]

theorem vanLoanAugmented_smul (A Q : Matrix (Fin n) (Fin n) ℝ) (t : ℝ) :
    vanLoanAugmented A Q t = t • vanLoanAugmented A Q 1 := by
  obtain ⟨h1, h2, h3, h4⟩ := vanLoanAugmented_blocks A Q t
  obtain ⟨g1, g2, g3, g4⟩ := vanLoanAugmented_blocks A Q 1
  have k : ∀ x : Matrix (Fin (n + n)) (Fin (n + n)) ℝ, tl (t • x) = t • tl x ∧ tr (t • x) = t • tr x ∧
    bl (t • x) = t • bl x ∧ br (t • x) = t • br x := fun x => ⟨rfl, rfl, rfl, rfl⟩
  obtain ⟨k1, k2, k3, k4⟩ := k (vanLoanAugmented A Q 1)
  refine block_ext ?_ ?_ ?_ ?_
  · rw [k1, h1, g1, one_smul]
  · rw [k2, h2, g2, one_smul]
  · rw [k3, h3, g3, smul_zero]
  · rw [k4, h4, g4, one_smul]

/-- The exponential of the augmented matrix: the noise accumulated over a step. -/
theorem exp_vanLoanAugmented (A Q : Matrix (Fin n) (Fin n) ℝ) (t : ℝ) :
    tl (exp (vanLoanAugmented A Q t)) = exp (t • -A) ∧ bl (exp (vanLoanAugmented A Q t)) = 0 ∧
    br (exp (vanLoanAugmented A Q t)) = exp (t • Aᵀ) ∧
    ∀ i j, (exp (t • A) * tr (exp (vanLoanAugmented A Q t))) i j =
      ∫ τ in (0 : ℝ)..t, (exp (τ • A) * Q * exp (τ • Aᵀ)) i j := by
  obtain ⟨g1, g2, g3, g4⟩ := vanLoanAugmented_blocks A Q 1
  rw [one_smul] at g1 g2 g4
  have hblock : ∀ τ : ℝ, tl (exp (τ • vanLoanAugmented A Q 1)) = exp (τ • -A) ∧
      bl (exp (τ • vanLoanAugmented A Q 1)) = 0 ∧ br (exp (τ • vanLoanAugmented A Q 1)) = exp (τ • Aᵀ) := by
    intro τ
    rw [← vanLoanAugmented_smul]
    obtain ⟨h1, h2, h3, h4⟩ := vanLoanAugmented_blocks A Q τ
    obtain ⟨e1, e2, e3⟩ := block_exp h3
    exact ⟨by rw [e1, h1], e2, by rw [e3, h4]⟩
  rw [vanLoanAugmented_smul]
  refine ⟨(hblock t).1, (hblock t).2.1, (hblock t).2.2, fun i j => ?_⟩
  set X := vanLoanAugmented A Q 1 with hX
  have hW : ∀ (τ : ℝ) k, HasDerivAt (fun τ : ℝ => tr (exp (τ • X)) k j)
      ((-A * tr (exp (τ • X)) + Q * exp (τ • Aᵀ)) k j) τ := by
    intro τ k
    have h := hasDerivAt_exp_matrix X τ (Fin.castAdd n k) (Fin.natAdd n j)
    have hc : exp (τ • X) * X = X * exp (τ • X) := (((Commute.refl X).smul_left τ).exp_left).eq
    rw [hc] at h
    have e := tr_mul X (exp (τ • X))
    rw [g1, g2, (hblock τ).2.2] at e
    have e' : (X * exp (τ • X)) (Fin.castAdd n k) (Fin.natAdd n j) =
        (-A * tr (exp (τ • X)) + Q * exp (τ • Aᵀ)) k j := congrFun (congrFun e k) j
    rw [e'] at h
    exact h
  have hd : ∀ τ : ℝ, HasDerivAt (fun τ : ℝ => (exp (τ • A) * tr (exp (τ • X))) i j)
      ((exp (τ • A) * Q * exp (τ • Aᵀ)) i j) τ := by
    intro τ
    have h := HasDerivAt.fun_sum (u := Finset.univ) fun k _ => (hasDerivAt_exp_matrix A τ i k).mul (hW τ k)
    have e : ∑ k, ((exp (τ • A) * A) i k * tr (exp (τ • X)) k j +
        exp (τ • A) i k * (-A * tr (exp (τ • X)) + Q * exp (τ • Aᵀ)) k j) =
        (exp (τ • A) * Q * exp (τ • Aᵀ)) i j := by
      have e1 : exp (τ • A) * A * tr (exp (τ • X)) + exp (τ • A) * (-A * tr (exp (τ • X)) + Q * exp (τ • Aᵀ)) =
          exp (τ • A) * Q * exp (τ • Aᵀ) := by noncomm_ring
      rw [← e1, Matrix.add_apply, Matrix.mul_apply, Matrix.mul_apply, ← Finset.sum_add_distrib]
    rw [e] at h
    exact h
  have hc : Continuous fun τ : ℝ => (exp (τ • A) * Q * exp (τ • Aᵀ)) i j := by
    simp only [Matrix.mul_apply]
    exact continuous_finsetSum _ fun k _ => (continuous_finsetSum _ fun l _ =>
      (continuous_exp_entry A i l).mul continuous_const).mul (continuous_exp_entry Aᵀ k j)
  rw [intervalIntegral.integral_eq_sub_of_hasDerivAt (fun τ _ => hd τ) (hc.intervalIntegrable _ _)]
  have h0 : (exp ((0 : ℝ) • A) * tr (exp ((0 : ℝ) • X))) i j = 0 := by
    rw [zero_smul, zero_smul, exp_zero, exp_zero, tr_one]; simp
  rw [h0, sub_zero]

theorem vanLoan_of_expm (largest : ℝ) (fuel : ℕ) (A Q : Matrix (Fin n) (Fin n) ℝ) (t : ℝ)
    (ht : 0 ≤ t) (E : Matrix (Fin (n + n)) (Fin (n + n)) ℝ)
    (h : expm largest fuel (vanLoanAugmented A Q t) = some (.ok E)) :
    vanLoan largest fuel A Q t = some (.ok ((br E)ᵀ, (br E)ᵀ * tr E)) := by
  unfold vanLoan
  rw [if_neg (by simp [Fns.isFinite, ht]), h]
  rw [← mmul_eq]
  rfl

theorem columnSums_vanLoanAugmented {A Q : Matrix (Fin n) (Fin n) ℝ} {t ν : ℝ}
    (hA : ∀ j, ∑ i, |A i j * t| ≤ ν) (hQ : ∀ j, ∑ i, |Q i j * t| + ∑ i, |A j i * t| ≤ ν) :
    ColumnSums (vanLoanAugmented A Q t) ν := by
  intro j
  refine Fin.addCases (fun j => ?_) (fun j => ?_) j
  · rw [Fin.sum_univ_add]; simpa [vanLoanAugmented, -Fin.natAdd_eq_addNat] using hA j
  · rw [Fin.sum_univ_add]; simpa [vanLoanAugmented, -Fin.natAdd_eq_addNat] using hQ j

/-- C79. What `van_loan` returns, for every system and every nonnegative time step, in exact arithmetic.  With `P` the
integral of `exp (A τ) Q exp (Aᵀ τ)` over the step, the transition matrix is `(1 + e₂)ᵀ exp (A t)` and the noise
covariance is `(1 + e₂)ᵀ (e₁ + P (1 + e₂))`, where the column sums of `e₁` and `e₂` are at most
`exp (max 1 (4 ν) / 2⁵³) - 1` for any bound `ν` on the column sums of the augmented matrix. -/
theorem van_loan_accuracy (largest : ℝ) (hl : 1 ≤ largest) (hn : n + n ≤ 2 ^ 50) (A Q : Matrix (Fin n) (Fin n) ℝ)
    (t : ℝ) (ht : 0 ≤ t) :
    ∃ (N : ℕ) (F D e₁ e₂ P : Matrix (Fin n) (Fin n) ℝ),
      (∀ fuel, N ≤ fuel → vanLoan largest fuel A Q t = some (.ok (F, D))) ∧
      (∀ i j, P i j = ∫ τ in (0 : ℝ)..t, (exp (τ • A) * Q * exp (τ • Aᵀ)) i j) ∧
      F = (1 + e₂)ᵀ * exp (t • A) ∧ D = (1 + e₂)ᵀ * (e₁ + P * (1 + e₂)) ∧
      ∀ ν, 0 ≤ ν → (∀ j, ∑ i, |A i j * t| ≤ ν) → (∀ j, ∑ i, |Q i j * t| + ∑ i, |A j i * t| ≤ ν) →
        (∀ j, ∑ i, |e₁ i j| ≤ Real.exp (max 1 (4 * ν) / 2 ^ 53) - 1) ∧
        ∀ j, ∑ i, |e₂ i j| ≤ Real.exp (max 1 (4 * ν) / 2 ^ 53) - 1 := by
  obtain ⟨h1, h2, h3, h4⟩ := vanLoanAugmented_blocks A Q t
  obtain ⟨x1, x2, x3, x4⟩ := exp_vanLoanAugmented A Q t
  obtain ⟨N, E, f, hrun, hE, -, hf⟩ := expm_accuracy largest hl hn (vanLoanAugmented A Q t)
  obtain ⟨s, E', q, q', hrun', b1, -⟩ := expm_block largest hl hn (vanLoanAugmented A Q t) h3
  obtain rfl : E' = E := by
    have g1 := hrun (max N s) (le_max_left _ _)
    rw [hrun' (max N s) (le_max_right _ _)] at g1
    simpa using g1
  have hf' : 1 + f = exp (-vanLoanAugmented A Q t) * E' := by
    rw [hE, ← mul_assoc, (exp_mul_exp_neg _).2, one_mul]
  have hneg : -vanLoanAugmented A Q t = vanLoanAugmented A Q (-t) := by
    rw [vanLoanAugmented_smul A Q (-t), vanLoanAugmented_smul A Q t, neg_smul]
  obtain ⟨-, y2, -, -⟩ := exp_vanLoanAugmented A Q (-t)
  rw [← hneg] at y2
  have addb : ∀ (x y : Matrix (Fin (n + n)) (Fin (n + n)) ℝ), tl (x + y) = tl x + tl y ∧ tr (x + y) = tr x + tr y ∧
      bl (x + y) = bl x + bl y ∧ br (x + y) = br x + br y := fun x y => ⟨rfl, rfl, rfl, rfl⟩
  obtain ⟨a1, a2, a3, a4⟩ := addb 1 f
  have fbl : bl f = 0 := by
    have := congrArg bl hf'
    rw [a3, bl_one, zero_add, bl_mul, y2, b1, Matrix.zero_mul, Matrix.mul_zero, add_zero] at this
    exact this
  have hbr : br E' = exp (t • Aᵀ) * (1 + br f) := by
    rw [hE, br_mul, x2, x3, a4, br_one, Matrix.zero_mul, zero_add]
  have htr : tr E' = exp (t • -A) * tr f + tr (exp (vanLoanAugmented A Q t)) * (1 + br f) := by
    rw [hE, tr_mul, x1, a2, a4, tr_one, br_one, zero_add]
  have hF : (br E')ᵀ = (1 + br f)ᵀ * exp (t • A) := by
    rw [hbr, Matrix.transpose_mul, ← Matrix.exp_transpose, Matrix.transpose_smul, Matrix.transpose_transpose]
  refine ⟨N, _, _, tr f, br f, exp (t • A) * tr (exp (vanLoanAugmented A Q t)),
    fun fuel hfuel => vanLoan_of_expm largest fuel A Q t ht E' (hrun fuel hfuel), x4, hF, ?_, ?_⟩
  · rw [hF, htr, Matrix.mul_assoc, Matrix.mul_add, ← Matrix.mul_assoc (exp (t • A)) (exp (t • -A)), smul_neg,
      (exp_mul_exp_neg _).1, Matrix.one_mul, Matrix.mul_assoc (exp (t • A))]
  · intro ν hν hA hQ
    obtain ⟨-, c1, c2⟩ := columnSums_tl (x := f) (hf ν hν (columnSums_vanLoanAugmented hA hQ))
    exact ⟨c1, c2⟩

/-- C79. The covariance returned by `van_loan` is exactly symmetric, for every system, every symmetric noise and every
nonnegative time step. -/
theorem van_loan_symmetric (largest : ℝ) (hl : 1 ≤ largest) (hn : n + n ≤ 2 ^ 50) (A Q : Matrix (Fin n) (Fin n) ℝ)
    (hQ : Q.IsSymm) (t : ℝ) (ht : 0 ≤ t) :
    ∃ (N : ℕ) (F D : Matrix (Fin n) (Fin n) ℝ), (∀ fuel, N ≤ fuel → vanLoan largest fuel A Q t = some (.ok (F, D))) ∧
      D.IsSymm := by
  obtain ⟨h1, h2, h3, h4⟩ := vanLoanAugmented_blocks A Q t
  obtain ⟨s, r, hrun, hca, hr, -, -⟩ := expm_run largest hl hn (vanLoanAugmented A Q t)
  refine ⟨s, _, _, fun fuel hf => vanLoan_of_expm largest fuel A Q t ht _ (hrun fuel hf), ?_⟩
  obtain ⟨J, j1, j2, j3, j4⟩ : ∃ J : Matrix (Fin (n + n)) (Fin (n + n)) ℝ, tl J = 0 ∧ tr J = 1 ∧ bl J = -1 ∧ br J = 0 := by
    refine ⟨Matrix.of fun i j => Fin.addCases (fun i => Fin.addCases (fun _ => 0) (fun j => (1 : Matrix _ _ ℝ) i j) j)
      (fun i => Fin.addCases (fun j => (-1 : Matrix _ _ ℝ) i j) (fun _ => 0) j) i, ?_, ?_, ?_, ?_⟩ <;> ext i j <;>
      simp [tl, tr, bl, br, -Fin.natAdd_eq_addNat]
  have tb : ∀ x : Matrix (Fin (n + n)) (Fin (n + n)) ℝ, tl xᵀ = (tl x)ᵀ ∧ tr xᵀ = (bl x)ᵀ ∧ bl xᵀ = (tr x)ᵀ ∧
    br xᵀ = (br x)ᵀ := fun x => ⟨rfl, rfl, rfl, rfl⟩
  have nb : ∀ x : Matrix (Fin (n + n)) (Fin (n + n)) ℝ, tl (-x) = -tl x ∧ tr (-x) = -tr x ∧ bl (-x) = -bl x ∧
    br (-x) = -br x := fun x => ⟨rfl, rfl, rfl, rfl⟩
  have hham : -(vanLoanAugmented A Q t)ᵀ * J = J * vanLoanAugmented A Q t := by
    obtain ⟨t1, t2, t3, t4⟩ := tb (vanLoanAugmented A Q t)
    obtain ⟨n1, n2, n3, n4⟩ := nb (vanLoanAugmented A Q t)ᵀ
    refine block_ext ?_ ?_ ?_ ?_
    · rw [tl_mul, tl_mul, n1, n2, t1, t2, h1, h3, j1, j2, j3]; simp
    · rw [tr_mul, tr_mul, n1, n2, t1, t2, h1, h2, h3, h4, j1, j2, j4]; simp
    · rw [bl_mul, bl_mul, n3, n4, t3, t4, h1, h2, h3, h4, j1, j3, j4]; simp
    · rw [br_mul, br_mul, n3, n4, t3, t4, h2, h4, j2, j3, j4]
      simp [hQ.eq]
  set a := (1 / 2 : ℝ) ^ s • vanLoanAugmented A Q t with ha
  have hja : -aᵀ * J = J * a := by
    rw [ha, Matrix.transpose_smul, ← smul_neg, Matrix.smul_mul, hham, Matrix.mul_smul]
  obtain ⟨p1, p2⟩ := pade_intertwine hja
  rw [padeNum_eq, neg_neg, padeDen_transpose] at p1
  rw [padeDen_eq, neg_neg, padeNum_transpose] at p2
  obtain ⟨x, hx, hx', e1, e2, -⟩ := pade_solution hca hr
  have hsym : rᵀ * J * r = J := by
    calc rᵀ * J * r = xᵀ * ((padeNum a)ᵀ * J) * r := by rw [e2, Matrix.transpose_mul]; noncomm_ring
      _ = xᵀ * J * (padeDen a * r) := by rw [p2]; noncomm_ring
      _ = xᵀ * ((padeDen a)ᵀ * J) := by rw [hr, p1]; noncomm_ring
      _ = J := by rw [← mul_assoc, ← Matrix.transpose_mul, hx, Matrix.transpose_one, one_mul]
  have hpow : ∀ k, (r ^ k)ᵀ * J * r ^ k = J := by
    intro k
    induction k with
    | zero => simp
    | succ k ih =>
      calc (r ^ (k + 1))ᵀ * J * r ^ (k + 1) = (r ^ k)ᵀ * (rᵀ * J * r) * r ^ k := by
            conv_lhs => rw [pow_succ' r k, Matrix.transpose_mul]
            noncomm_ring
        _ = J := by rw [hsym, ih]
  have hfin := congrArg br (hpow (2 ^ s))
  generalize r ^ 2 ^ s = E at hfin
  obtain ⟨-, -, t3, t4⟩ := tb E
  rw [mul_assoc, br_mul, tr_mul, br_mul, t3, t4, j1, j2, j3, j4] at hfin
  simp only [Matrix.zero_mul, Matrix.one_mul, zero_add, add_zero, Matrix.neg_mul, Matrix.mul_neg] at hfin
  rw [Matrix.IsSymm, Matrix.transpose_mul, Matrix.transpose_transpose]
  exact sub_eq_zero.1 (by rw [sub_eq_add_neg]; exact hfin)

theorem vanLoanAugmented_nilpotent (A Q : Matrix (Fin n) (Fin n) ℝ) (t : ℝ) (hA : A ^ 6 = 0) :
    vanLoanAugmented A Q t ^ 13 = 0 := by
  obtain ⟨h1, h2, h3, h4⟩ := vanLoanAugmented_blocks A Q t
  have hk : ∀ k, tl (vanLoanAugmented A Q t ^ k) = (t • -A) ^ k ∧ bl (vanLoanAugmented A Q t ^ k) = 0 ∧
      br (vanLoanAugmented A Q t ^ k) = (t • Aᵀ) ^ k := by
    intro k
    have i1 := (leftCols_iff _ _).1 (pow_intertwine ((leftCols_iff _ _).2 ⟨h1, h3⟩) k)
    have i2 := (lowRows_iff _ _).1 (pow_intertwine ((lowRows_iff _ _).2 ⟨h4, h3⟩) k)
    exact ⟨i1.1, i1.2, i2.1⟩
  have z1 : tl (vanLoanAugmented A Q t ^ 6) = 0 := by
    rw [(hk 6).1, smul_pow, neg_pow, hA]; simp
  have z2 : br (vanLoanAugmented A Q t ^ 6) = 0 := by
    rw [(hk 6).2.2, smul_pow, ← Matrix.transpose_pow, hA]; simp
  have h12 : vanLoanAugmented A Q t ^ (6 + 6) = 0 := by
    rw [pow_add]
    refine block_ext ?_ ?_ ?_ ?_
    · rw [tl_mul, z1, (hk 6).2.1]; simp; rfl
    · rw [tr_mul, z1, z2]; simp; rfl
    · rw [bl_mul, z2, (hk 6).2.1]; simp; rfl
    · rw [br_mul, z2, (hk 6).2.1]; simp; rfl
  rw [show 13 = (6 + 6) + 1 by norm_num, pow_succ, h12, zero_mul]

/-- C79. For integrator chains of up to six states, and every other system whose sixth power vanishes, `van_loan` is
exact: it returns `exp (A t)` and the integral of `exp (A τ) Q exp (Aᵀ τ)`.  If the noise is positive semidefinite, so
is the covariance returned. -/
theorem van_loan_nilpotent (largest : ℝ) (hl : 1 ≤ largest) (hn : n + n ≤ 2 ^ 50) (A Q : Matrix (Fin n) (Fin n) ℝ)
    (hA : A ^ 6 = 0) (t : ℝ) (ht : 0 ≤ t) :
    ∃ (N : ℕ) (D : Matrix (Fin n) (Fin n) ℝ),
      (∀ fuel, N ≤ fuel → vanLoan largest fuel A Q t = some (.ok (exp (t • A), D))) ∧
      (∀ i j, D i j = ∫ τ in (0 : ℝ)..t, (exp (τ • A) * Q * exp (τ • Aᵀ)) i j) ∧
      ((∀ v, 0 ≤ v ⬝ᵥ Q *ᵥ v) → ∀ v, 0 ≤ v ⬝ᵥ D *ᵥ v) := by
  obtain ⟨N, hN⟩ := expm_nilpotent largest hl hn _ (vanLoanAugmented_nilpotent A Q t hA)
  obtain ⟨x1, x2, x3, x4⟩ := exp_vanLoanAugmented A Q t
  have hF : (br (exp (vanLoanAugmented A Q t)))ᵀ = exp (t • A) := by
    rw [x3, ← Matrix.exp_transpose, Matrix.transpose_smul, Matrix.transpose_transpose]
  refine ⟨N, exp (t • A) * tr (exp (vanLoanAugmented A Q t)), fun fuel hf => ?_, x4, ?_⟩
  · rw [vanLoan_of_expm largest fuel A Q t ht _ (hN fuel hf), hF]
  · intro hQ v
    have hc : ∀ i j, Continuous fun τ : ℝ => (exp (τ • A) * Q * exp (τ • Aᵀ)) i j := by
      intro i j
      simp only [Matrix.mul_apply]
      exact continuous_finsetSum _ fun k _ => (continuous_finsetSum _ fun l _ =>
        (continuous_exp_entry A i l).mul continuous_const).mul (continuous_exp_entry Aᵀ k j)
    have e : v ⬝ᵥ (exp (t • A) * tr (exp (vanLoanAugmented A Q t))) *ᵥ v =
        ∫ τ in (0 : ℝ)..t, v ⬝ᵥ (exp (τ • A) * Q * exp (τ • Aᵀ)) *ᵥ v := by
      simp only [dotProduct, Matrix.mulVec, x4]
      rw [intervalIntegral.integral_finsetSum]
      · refine Finset.sum_congr rfl fun i _ => ?_
        rw [intervalIntegral.integral_const_mul, intervalIntegral.integral_finsetSum]
        · congr 1
          refine Finset.sum_congr rfl fun j _ => ?_
          rw [intervalIntegral.integral_mul_const]
        · intro j _
          exact ((hc i j).mul continuous_const).intervalIntegrable _ _
      · intro i _
        exact (continuous_const.mul (continuous_finsetSum _ fun j _ => (hc i j).mul continuous_const)).intervalIntegrable _ _
    rw [e]
    refine intervalIntegral.integral_nonneg ht fun τ _ => ?_
    have := hQ (exp (τ • Aᵀ) *ᵥ v)
    rw [← Matrix.mulVec_mulVec, ← Matrix.mulVec_mulVec, Matrix.dotProduct_mulVec, ← Matrix.mulVec_transpose,
      ← Matrix.exp_transpose, Matrix.transpose_smul]
    exact this

/-- A chain of six integrators. -/
example : (Matrix.of fun i j : Fin 6 => if (i : ℕ) + 1 = j then (1 : ℝ) else 0) ^ 6 = 0 := by
  set S : Matrix (Fin 6) (Fin 6) ℝ := Matrix.of fun i j : Fin 6 => if (i : ℕ) + 1 = j then (1 : ℝ) else 0 with hS
  have h : ∀ (k : ℕ) (i j : Fin 6), (j : ℕ) < (i : ℕ) + k → (S ^ k) i j = 0 := by
    intro k
    induction k with
    | zero => intro i j h; rw [pow_zero, Matrix.one_apply_ne]; intro e; subst e; omega
    | succ k ih =>
      intro i j h
      rw [pow_succ, Matrix.mul_apply]
      refine Finset.sum_eq_zero fun l _ => ?_
      by_cases hl : (l : ℕ) < i + k
      · rw [ih i l hl, zero_mul]
      · have : ¬ (l : ℕ) + 1 = j := by omega
        simp [hS, this]
  ext i j
  exact h 6 i j (by omega)

/-! ### Time steps and the piecewise constant model -/

theorem expm_not_timestep {T : Type} [Zero T] [One T] [NatCast T] [Add T] [Sub T] [Mul T] [Div T] [Neg T] [LT T]
    [DecidableLT T] [LE T] [DecidableLE T] [BEq T] [Max T] [Min T] [Fns T] (largest : T) (fuel : ℕ)
    (A : Matrix (Fin n) (Fin n) T) : expm largest fuel A ≠ some (.error .invalidTimestep) := by
  have hstep : ∀ (s : LuState n T) k, luStep s k ≠ .error .invalidTimestep := by
    intro s k h
    unfold luStep at h
    dsimp only at h
    split at h <;> simp at h
  have hloop : ∀ (l : List (Fin n)) (s : LuState n T), luLoop l s ≠ .error .invalidTimestep := by
    intro l
    induction l with
    | nil => intro s h; simp [luLoop] at h
    | cons k l ih =>
      intro s h
      rw [luLoop] at h
      split at h
      next e he => simp only [Except.error.injEq] at h; subst h; exact hstep _ _ he
      · exact ih _ h
  have hlu : ∀ m : Matrix (Fin n) (Fin n) T, luDecompose largest m ≠ .error .invalidTimestep := by
    intro m h
    unfold luDecompose at h
    split at h
    next e he => simp only [Except.error.injEq] at h; subst h; exact hloop _ _ he
    · split at h <;> simp at h
  intro h
  unfold expm at h
  split at h
  · split at h
    · simp at h
    · dsimp only at h
      split at h
      next e he => simp only [Option.some.injEq, Except.error.injEq] at h; subst h; exact hlu _ he
      · split at h <;> simp at h
  · simp at h

/-- C79. For every scalar type, `zoh` and `van_loan` report `InvalidTimestep` exactly when the time step is negative
or not finite. -/
theorem timestep_refused {T : Type} [Zero T] [One T] [NatCast T] [Add T] [Sub T] [Mul T] [Div T] [Neg T] [LT T]
    [DecidableLT T] [LE T] [DecidableLE T] [BEq T] [Max T] [Min T] [Fns T] (largest : T) (fuel : ℕ)
    (A Q : Matrix (Fin n) (Fin n) T) (B : Matrix (Fin n) (Fin m) T) (t : T) :
    (zoh largest fuel A B t = some (.error .invalidTimestep) ↔ Fns.isFinite t = false ∨ t < 0) ∧
    (vanLoan largest fuel A Q t = some (.error .invalidTimestep) ↔ Fns.isFinite t = false ∨ t < 0) := by
  constructor
  · unfold zoh
    by_cases h : Fns.isFinite t = false ∨ t < 0
    · simp [h]
    · have h' : ¬ ((!Fns.isFinite t) = true ∨ t < 0) := by simpa using h
      rw [if_neg h']
      have := expm_not_timestep largest fuel (zohAugmented A B t)
      split
      · simp [h]
      next e he =>
        simp only [h, iff_false]
        intro h2
        simp only [Option.some.injEq, Except.error.injEq] at h2
        subst h2
        exact this he
      · simp [h]
  · unfold vanLoan
    by_cases h : Fns.isFinite t = false ∨ t < 0
    · simp [h]
    · have h' : ¬ ((!Fns.isFinite t) = true ∨ t < 0) := by simpa using h
      rw [if_neg h']
      have := expm_not_timestep largest fuel (vanLoanAugmented A Q t)
      split
      · simp [h]
      next e he =>
        simp only [h, iff_false]
        intro h2
        simp only [Option.some.injEq, Except.error.injEq] at h2
        subst h2
        exact this he
      · simp [h]

/-- An infinite time step over the extended reals, and a negative one over the reals. -/
example : Fns.isFinite XR.pinf = false ∧ (-1 : ℝ) < 0 := ⟨by simp [Fns.isFinite], by norm_num⟩

/-- The response of a chain of integrators to a constant input over a step: the last `dim` of `t³/6, t²/2, t, 1`,
except that two states stop at `t`. -/
noncomputable def noiseGain (dim : ℕ) (t : ℝ) : Fin dim → ℝ := fun i =>
  match dim, (i : ℕ) with
  | 2, 0 => t ^ 2 / 2
  | 2, 1 => t
  | 3, 0 => t ^ 2 / 2
  | 3, 1 => t
  | 3, 2 => 1
  | 4, 0 => t ^ 3 / 6
  | 4, 1 => t ^ 2 / 2
  | 4, 2 => t
  | 4, 3 => 1
  | _, _ => 0

/-- C79. `q_discrete_white_noise` is the covariance of one random input held over the step: for two, three and four
states it is `variance · g gᵀ` with `g = (t²/2, t)`, `(t²/2, t, 1)` and `(t³/6, t²/2, t, 1)`.  So it is symmetric, of
rank at most one, and positive semidefinite for a nonnegative variance, whatever the time step. -/
theorem white_noise_rank_one (dim : ℕ) (hdim : dim = 2 ∨ dim = 3 ∨ dim = 4) (t variance : ℝ) :
    (∀ i j, qDiscreteWhiteNoise dim t variance i j = variance * noiseGain dim t i * noiseGain dim t j) ∧
    Matrix.IsSymm (qDiscreteWhiteNoise dim t variance) ∧ Matrix.rank (qDiscreteWhiteNoise dim t variance) ≤ 1 ∧
    ∀ v, v ⬝ᵥ qDiscreteWhiteNoise dim t variance *ᵥ v = variance * (noiseGain dim t ⬝ᵥ v) ^ 2 := by
  have key : ∀ i j, qDiscreteWhiteNoise dim t variance i j = variance * noiseGain dim t i * noiseGain dim t j := by
    intro i j
    rcases hdim with rfl | rfl | rfl <;> fin_cases i <;> fin_cases j <;>
      simp [qDiscreteWhiteNoise, noiseGain, Fns.lit] <;> ring
  have hvec : qDiscreteWhiteNoise dim t variance =
      Matrix.vecMulVec (fun i => variance * noiseGain dim t i) (noiseGain dim t) := by
    ext i j; rw [key, Matrix.vecMulVec_apply]
  refine ⟨key, ?_, ?_, fun v => ?_⟩
  · ext i j; rw [Matrix.transpose_apply, key, key]; ring
  · rw [hvec]; exact Matrix.rank_vecMulVec_le _ _
  · simp only [dotProduct, Matrix.mulVec, key]
    rw [sq, Finset.sum_mul_sum, Finset.mul_sum]
    refine Finset.sum_congr rfl fun i _ => ?_
    rw [Finset.mul_sum, Finset.mul_sum]
    refine Finset.sum_congr rfl fun j _ => ?_
    ring

/-- The entries for three states. -/
example (t : ℝ) : qDiscreteWhiteNoise 3 t 2 0 1 = t ^ 3 := by
  rw [(white_noise_rank_one 3 (by norm_num) t 2).1]
  simp [noiseGain]
  ring

end Multicalc
