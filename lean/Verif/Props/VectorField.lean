import Verif.Model.VectorField
import Verif.Props.Derivatives
import Mathlib.Tactic
import Mathlib.MeasureTheory.Integral.IntervalIntegral.FundThmCalculus
import Mathlib.MeasureTheory.Integral.IntervalIntegral.Basic

/-!
# Line and flux integrals, curl and divergence
-/

namespace Multicalc

open MeasureTheory Filter
open scoped Topology

section Line

/-- What one step of the loop adds. -/
theorem lineLoop_add {n : ℕ} (field : (Fin n → ℝ) → ℝ) (curve : ℝ → Fin n → ℝ) (idx : Fin n)
    (delta : ℝ) (k : ℕ) (p ans : ℝ) :
    lineLoop field curve idx delta k p ans = ans + ∑ j ∈ Finset.range k,
      (curve (p + (j + 1) * delta) idx - curve (p + j * delta) idx) *
        (field (curve (p + j * delta)) + field (curve (p + (j + 1) * delta))) / 2 := by
  induction k generalizing p ans with
  | zero => simp [lineLoop]
  | succ k ih =>
    rw [lineLoop, ih, Finset.sum_range_succ']
    have h1 : ∀ j : ℕ, p + delta + ((j : ℝ) + 1) * delta = p + (((j + 1 : ℕ) : ℝ) + 1) * delta := by
      intro j; push_cast; ring
    have h2 : ∀ j : ℕ, p + delta + (j : ℝ) * delta = p + ((j + 1 : ℕ) : ℝ) * delta := by
      intro j; push_cast; ring
    simp only [h1, h2]
    push_cast
    rw [show p + 0 * delta = p by ring, show p + (0 + 1) * delta = p + delta by ring]
    ring

theorem linePartial_ok {n : ℕ} (field : (Fin n → ℝ) → Fin n → ℝ) (curve : ℝ → Fin n → ℝ)
    {a b : ℝ} (hab : a < b) {N : ℕ} (hN : 0 < N) (idx : Fin n) :
    linePartial field curve (a, b) N idx = .ok (∑ j ∈ Finset.range N,
      (curve (a + (j + 1) * ((b - a) / N)) idx - curve (a + j * ((b - a) / N)) idx) *
        (field (curve (a + j * ((b - a) / N))) idx
          + field (curve (a + (j + 1) * ((b - a) / N))) idx) / 2) := by
  unfold linePartial
  rw [if_neg hN.ne', if_pos hab]
  simp only [lineLoop_add, zero_add]

theorem last_node {a b : ℝ} {N : ℕ} (hN : 0 < N) : a + (N : ℝ) * ((b - a) / N) = b := by
  have : (N : ℝ) ≠ 0 := by positivity
  field_simp; ring

/-- If over one chord the summed contributions of the components are the change of a potential, then
the whole sum is its change over the curve. -/
theorem line_telescope {n : ℕ} (field : (Fin n → ℝ) → Fin n → ℝ) (φ : (Fin n → ℝ) → ℝ)
    (h : ∀ x y, ∑ i, (y i - x i) * (field x i + field y i) / 2 = φ y - φ x)
    (curve : ℝ → Fin n → ℝ) (a d : ℝ) (N : ℕ) :
    ∑ i, ∑ j ∈ Finset.range N,
      (curve (a + (j + 1) * d) i - curve (a + j * d) i) *
        (field (curve (a + j * d)) i + field (curve (a + (j + 1) * d)) i) / 2
      = φ (curve (a + N * d)) - φ (curve a) := by
  rw [Finset.sum_comm]
  simp only [h]
  have := Finset.sum_range_sub (fun j : ℕ => φ (curve (a + j * d))) N
  simp only [Nat.cast_add, Nat.cast_one, Nat.cast_zero, zero_mul, add_zero] at this
  exact this

/-- The affine field `A x + b` with symmetric `A`: the gradient of `½ xᵀAx + b·x`. -/
theorem quadratic_chord {n : ℕ} (A : Fin n → Fin n → ℝ) (hA : ∀ i j, A i j = A j i) (b x y : Fin n → ℝ) :
    ∑ i, (y i - x i) * (((∑ j, A i j * x j) + b i) + ((∑ j, A i j * y j) + b i)) / 2 =
      ((∑ i, ∑ j, A i j * y i * y j) / 2 + ∑ i, b i * y i)
        - ((∑ i, ∑ j, A i j * x i * x j) / 2 + ∑ i, b i * x i) := by
  have hcross : ∑ i, y i * ∑ j, A i j * x j = ∑ i, x i * ∑ j, A i j * y j := by
    simp only [Finset.mul_sum]
    rw [Finset.sum_comm]
    refine Finset.sum_congr rfl fun i _ => Finset.sum_congr rfl fun j _ => ?_
    rw [hA i j]; ring
  have hq : ∀ z : Fin n → ℝ, ∑ i, ∑ j, A i j * z i * z j = ∑ i, z i * ∑ j, A i j * z j := by
    intro z
    refine Finset.sum_congr rfl fun i _ => ?_
    rw [Finset.mul_sum]
    exact Finset.sum_congr rfl fun j _ => by ring
  rw [hq, hq]
  have hexp : ∀ i, (y i - x i) * (((∑ j, A i j * x j) + b i) + ((∑ j, A i j * y j) + b i)) / 2 =
      (y i * ∑ j, A i j * y j) / 2 - (x i * ∑ j, A i j * x j) / 2
        + ((y i * ∑ j, A i j * x j) / 2 - (x i * ∑ j, A i j * y j) / 2)
        + (b i * y i - b i * x i) := by intro i; ring
  simp only [hexp, Finset.sum_add_distrib, Finset.sum_sub_distrib, ← Finset.sum_div, hcross]
  ring

/-- C76. For the gradient field of any quadratic `½ xᵀAx + b·x`, along any curve with any number of
steps, the line integral in two dimensions is the difference of the potential at the two ends. -/
theorem line_integral_quadratic_2d (A : Fin 2 → Fin 2 → ℝ) (hA : ∀ i j, A i j = A j i)
    (v : Fin 2 → ℝ) (curve : ℝ → Fin 2 → ℝ) (a b : ℝ) (hab : a < b) (N : ℕ) (hN : 0 < N) :
    let φ : (Fin 2 → ℝ) → ℝ := fun x => (∑ i, ∑ j, A i j * x i * x j) / 2 + ∑ i, v i * x i
    lineIntegral2 (fun x i => (∑ j, A i j * x j) + v i) curve (a, b) N =
      .ok (φ (curve b) - φ (curve a)) := by
  intro φ
  have ht := line_telescope (fun x i => (∑ j, A i j * x j) + v i) φ
    (fun x y => quadratic_chord A hA v x y) curve a ((b - a) / N) N
  rw [last_node hN, Fin.sum_univ_two] at ht
  unfold lineIntegral2
  rw [linePartial_ok _ _ hab hN, linePartial_ok _ _ hab hN]
  exact congrArg Except.ok ht

/-- C76. The same in three dimensions. -/
theorem line_integral_quadratic_3d (A : Fin 3 → Fin 3 → ℝ) (hA : ∀ i j, A i j = A j i)
    (v : Fin 3 → ℝ) (curve : ℝ → Fin 3 → ℝ) (a b : ℝ) (hab : a < b) (N : ℕ) (hN : 0 < N) :
    let φ : (Fin 3 → ℝ) → ℝ := fun x => (∑ i, ∑ j, A i j * x i * x j) / 2 + ∑ i, v i * x i
    lineIntegral3 (fun x i => (∑ j, A i j * x j) + v i) curve (a, b) N =
      .ok (φ (curve b) - φ (curve a)) := by
  intro φ
  have ht := line_telescope (fun x i => (∑ j, A i j * x j) + v i) φ
    (fun x y => quadratic_chord A hA v x y) curve a ((b - a) / N) N
  rw [last_node hN, Fin.sum_univ_three] at ht
  unfold lineIntegral3
  rw [linePartial_ok _ _ hab hN, linePartial_ok _ _ hab hN, linePartial_ok _ _ hab hN]
  exact congrArg Except.ok ht

example : (∀ i j, (!![2, 1; 1, -3] : Fin 2 → Fin 2 → ℝ) i j = !![2, 1; 1, -3] j i) ∧ (0 : ℝ) < 1 := by
  refine ⟨fun i j => ?_, by norm_num⟩
  fin_cases i <;> fin_cases j <;> rfl

theorem linePartial_const {n : ℕ} (v : Fin n → ℝ) (curve : ℝ → Fin n → ℝ) {a b : ℝ} (hab : a < b)
    {N : ℕ} (hN : 0 < N) (idx : Fin n) :
    linePartial (fun _ => v) curve (a, b) N idx = .ok (v idx * (curve b idx - curve a idx)) := by
  rw [linePartial_ok _ _ hab hN]
  refine congrArg Except.ok ?_
  have h := Finset.sum_range_sub (fun j : ℕ => v idx * curve (a + j * ((b - a) / N)) idx) N
  simp only [Nat.cast_add, Nat.cast_one, Nat.cast_zero, zero_mul, add_zero, last_node hN] at h
  rw [mul_sub, ← h]
  exact Finset.sum_congr rfl fun j _ => by ring

/-- C76. A constant field gives its dot product with the displacement, whatever the curve does in
between and however many steps are taken. -/
theorem line_integral_constant (curve2 : ℝ → Fin 2 → ℝ) (curve3 : ℝ → Fin 3 → ℝ) (v : Fin 2 → ℝ)
    (w : Fin 3 → ℝ) (a b : ℝ) (hab : a < b) (N : ℕ) (hN : 0 < N) :
    lineIntegral2 (fun _ => v) curve2 (a, b) N = .ok (∑ i, v i * (curve2 b i - curve2 a i)) ∧
      lineIntegral3 (fun _ => w) curve3 (a, b) N = .ok (∑ i, w i * (curve3 b i - curve3 a i)) := by
  constructor
  · simp only [lineIntegral2, linePartial_const _ _ hab hN, Fin.sum_univ_two]; rfl
  · simp only [lineIntegral3, linePartial_const _ _ hab hN, Fin.sum_univ_three]; rfl

/-- C76. Traversing the curve backwards negates the line integral, for every field, curve and number
of steps. -/
theorem line_integral_reverse (f2 : (Fin 2 → ℝ) → Fin 2 → ℝ) (c2 : ℝ → Fin 2 → ℝ)
    (f3 : (Fin 3 → ℝ) → Fin 3 → ℝ) (c3 : ℝ → Fin 3 → ℝ) (a b : ℝ) (hab : a < b) (N : ℕ)
    (hN : 0 < N) :
    (∃ v, lineIntegral2 f2 c2 (a, b) N = .ok v ∧
      lineIntegral2 f2 (fun t => c2 (a + b - t)) (a, b) N = .ok (-v)) ∧
    ∃ v, lineIntegral3 f3 c3 (a, b) N = .ok v ∧
      lineIntegral3 f3 (fun t => c3 (a + b - t)) (a, b) N = .ok (-v) := by
  have key : ∀ {n : ℕ} (f : (Fin n → ℝ) → Fin n → ℝ) (c : ℝ → Fin n → ℝ) (i : Fin n),
      ∃ v, linePartial f c (a, b) N i = .ok v ∧
        linePartial f (fun t => c (a + b - t)) (a, b) N i = .ok (-v) := by
    intro n f c i
    refine ⟨_, linePartial_ok f c hab hN i, ?_⟩
    rw [linePartial_ok _ _ hab hN, ← Finset.sum_range_reflect, ← Finset.sum_neg_distrib]
    refine congrArg Except.ok (Finset.sum_congr rfl fun j hj => ?_)
    have hj' : j + 1 ≤ N := Finset.mem_range.1 hj
    have hNr : (N : ℝ) ≠ 0 := by positivity
    have hc : ((N - 1 - j : ℕ) : ℝ) = N - 1 - j := by
      rw [Nat.sub_sub, Nat.cast_sub (by omega)]; push_cast; ring
    have e1 : a + b - (a + ((N - 1 - j : ℕ) + 1) * ((b - a) / N)) = a + j * ((b - a) / N) := by
      rw [hc]; field_simp; ring
    have e2 : a + b - (a + ((N - 1 - j : ℕ) : ℝ) * ((b - a) / N)) = a + (j + 1) * ((b - a) / N) := by
      rw [hc]; field_simp; ring
    simp only [e1, e2]
    ring
  constructor
  · obtain ⟨v0, p0, q0⟩ := key f2 c2 0
    obtain ⟨v1, p1, q1⟩ := key f2 c2 1
    refine ⟨v0 + v1, by unfold lineIntegral2; rw [p0, p1]; rfl, ?_⟩
    unfold lineIntegral2
    rw [q0, q1, neg_add]; rfl
  · obtain ⟨v0, p0, q0⟩ := key f3 c3 0
    obtain ⟨v1, p1, q1⟩ := key f3 c3 1
    obtain ⟨v2, p2, q2⟩ := key f3 c3 2
    refine ⟨v0 + v1 + v2, by unfold lineIntegral3; rw [p0, p1, p2]; rfl, ?_⟩
    unfold lineIntegral3
    rw [q0, q1, q2, neg_add, neg_add]; rfl

/-- C76. The errors, in any arithmetic: a zero count is reported first, then limits that are not in
strictly increasing order (equal, reversed or NaN), by all four integrals. -/
theorem line_errors {T : Type} [Zero T] [NatCast T] [Add T] [Sub T] [Mul T] [Div T] [LT T]
    [DecidableLT T] (f2 : (Fin 2 → T) → Fin 2 → T) (c2 : T → Fin 2 → T)
    (f3 : (Fin 3 → T) → Fin 3 → T) (c3 : T → Fin 3 → T) (limit : T × T) (N : ℕ) :
    (N = 0 → lineIntegral2 f2 c2 limit N = .error .iterationsZero ∧
      lineIntegral3 f3 c3 limit N = .error .iterationsZero ∧
      fluxIntegral2 f2 c2 limit N = .error .iterationsZero ∧
      fluxIntegral3 f3 c3 limit N = .error .iterationsZero) ∧
    (N ≠ 0 → ¬ limit.1 < limit.2 → lineIntegral2 f2 c2 limit N = .error .limitsIllDefined ∧
      lineIntegral3 f3 c3 limit N = .error .limitsIllDefined ∧
      fluxIntegral2 f2 c2 limit N = .error .limitsIllDefined ∧
      fluxIntegral3 f3 c3 limit N = .error .limitsIllDefined) ∧
    (N ≠ 0 → limit.1 < limit.2 → (∃ v, lineIntegral2 f2 c2 limit N = .ok v) ∧
      (∃ v, lineIntegral3 f3 c3 limit N = .ok v) ∧ (∃ v, fluxIntegral2 f2 c2 limit N = .ok v) ∧
      ∃ v, fluxIntegral3 f3 c3 limit N = .ok v) := by
  refine ⟨fun h => ?_, fun h h' => ?_, fun h h' => ?_⟩
  · refine ⟨?_, ?_, ?_, ?_⟩ <;>
      simp only [lineIntegral2, lineIntegral3, fluxIntegral2, fluxIntegral3, linePartial, if_pos h] <;>
      rfl
  · refine ⟨?_, ?_, ?_, ?_⟩ <;>
      simp only [lineIntegral2, lineIntegral3, fluxIntegral2, fluxIntegral3, linePartial, if_neg h,
        if_neg h'] <;> rfl
  · refine ⟨?_, ?_, ?_, ?_⟩ <;>
      simp only [lineIntegral2, lineIntegral3, fluxIntegral2, fluxIntegral3, linePartial, if_neg h,
        if_pos h'] <;> exact ⟨_, rfl⟩

/-- One chord against the integral over it. -/
theorem chord_error (g x x' : ℝ → ℝ) (L M u d : ℝ) (hd : 0 ≤ d) (hL : 0 ≤ L)
    (hx : ∀ t ∈ Set.Icc u (u + d), HasDerivAt x (x' t) t)
    (hx' : ContinuousOn x' (Set.Icc u (u + d))) (hg : ContinuousOn g (Set.Icc u (u + d)))
    (hM : ∀ t ∈ Set.Icc u (u + d), |x' t| ≤ M)
    (hLip : ∀ s ∈ Set.Icc u (u + d), ∀ t ∈ Set.Icc u (u + d), |g s - g t| ≤ L * |s - t|) :
    |(x (u + d) - x u) * (g u + g (u + d)) / 2 - ∫ t in u..(u + d), g t * x' t| ≤ L * M * d ^ 2 := by
  have hud : u ≤ u + d := by linarith
  have hI : Set.uIcc u (u + d) = Set.Icc u (u + d) := Set.uIcc_of_le hud
  have hix' : IntervalIntegrable x' volume u (u + d) :=
    ContinuousOn.intervalIntegrable (by rwa [hI])
  have hig : IntervalIntegrable (fun t => g t * x' t) volume u (u + d) :=
    ContinuousOn.intervalIntegrable (by rw [hI]; exact hg.mul hx')
  have hftc : ∫ t in u..(u + d), x' t = x (u + d) - x u :=
    intervalIntegral.integral_eq_sub_of_hasDerivAt (by rwa [hI]) hix'
  have hdiff : (x (u + d) - x u) * (g u + g (u + d)) / 2 - ∫ t in u..(u + d), g t * x' t =
      ∫ t in u..(u + d), ((g u + g (u + d)) / 2 - g t) * x' t := by
    simp only [sub_mul]
    rw [intervalIntegral.integral_sub (hix'.const_mul _) hig, intervalIntegral.integral_const_mul,
      hftc]
    ring
  rw [hdiff]
  have hb := intervalIntegral.norm_integral_le_of_norm_le_const (a := u) (b := u + d)
    (C := L * d * M) (f := fun t => ((g u + g (u + d)) / 2 - g t) * x' t) (by
      intro t ht
      rw [Set.uIoc_of_le hud] at ht
      have htI : t ∈ Set.Icc u (u + d) := ⟨ht.1.le, ht.2⟩
      have h1 := hLip u ⟨le_refl _, hud⟩ t htI
      have h2 := hLip (u + d) ⟨hud, le_refl _⟩ t htI
      have h3 : |u - t| ≤ d := by rw [abs_le]; constructor <;> linarith [ht.1, ht.2]
      have h4 : |u + d - t| ≤ d := by rw [abs_le]; constructor <;> linarith [ht.1, ht.2]
      have h5 : |(g u + g (u + d)) / 2 - g t| ≤ L * d := by
        have : (g u + g (u + d)) / 2 - g t = ((g u - g t) + (g (u + d) - g t)) / 2 := by ring
        rw [this, abs_div, abs_two]
        have := abs_add_le (g u - g t) (g (u + d) - g t)
        have := mul_le_mul_of_nonneg_left h3 hL
        have := mul_le_mul_of_nonneg_left h4 hL
        linarith
      rw [norm_mul, Real.norm_eq_abs, Real.norm_eq_abs]
      exact mul_le_mul h5 (hM t htI) (abs_nonneg _) (by positivity))
  rw [Real.norm_eq_abs, show u + d - u = d by ring, abs_of_nonneg hd] at hb
  calc _ ≤ _ := hb
    _ = L * M * d ^ 2 := by ring

/-- One component of the line integral against the true integral. -/
theorem linePartial_error {n : ℕ} (field : (Fin n → ℝ) → Fin n → ℝ) (curve curve' : ℝ → Fin n → ℝ)
    (a b : ℝ) (hab : a < b) (N : ℕ) (hN : 0 < N) (i : Fin n) (L M : ℝ) (hL : 0 ≤ L)
    (hx : ∀ t ∈ Set.Icc a b, HasDerivAt (fun t => curve t i) (curve' t i) t)
    (hx' : ContinuousOn (fun t => curve' t i) (Set.Icc a b))
    (hM : ∀ t ∈ Set.Icc a b, |curve' t i| ≤ M)
    (hLip : ∀ s ∈ Set.Icc a b, ∀ t ∈ Set.Icc a b,
      |field (curve s) i - field (curve t) i| ≤ L * |s - t|) :
    ∃ v, linePartial field curve (a, b) N i = .ok v ∧
      |v - ∫ t in a..b, field (curve t) i * curve' t i| ≤ L * M * (b - a) ^ 2 / N := by
  refine ⟨_, linePartial_ok field curve hab hN i, ?_⟩
  have hNr : (0 : ℝ) < N := by exact_mod_cast hN
  set d := (b - a) / N with hd
  have hd0 : 0 ≤ d := by rw [hd]; exact div_nonneg (by linarith) hNr.le
  have hNd : (N : ℝ) * d = b - a := by rw [hd]; field_simp
  have hg : ContinuousOn (fun t => field (curve t) i) (Set.Icc a b) := by
    have : LipschitzOnWith (Real.toNNReal L) (fun t => field (curve t) i) (Set.Icc a b) := by
      refine LipschitzOnWith.of_dist_le_mul fun s hs t ht => ?_
      rw [Real.dist_eq, Real.dist_eq, Real.coe_toNNReal L hL]
      exact hLip s hs t ht
    exact this.continuousOn
  have hnode : ∀ j : ℕ, j ≤ N → a ≤ a + j * d ∧ a + j * d ≤ b := by
    intro j hj
    have hj' : (j : ℝ) ≤ N := by exact_mod_cast hj
    constructor
    · have : 0 ≤ (j : ℝ) * d := by positivity
      linarith
    · have := mul_le_mul_of_nonneg_right hj' hd0
      linarith
  have hsub : ∀ j : ℕ, j < N → Set.Icc (a + j * d) (a + j * d + d) ⊆ Set.Icc a b := by
    intro j hj t ht
    have h1 := (hnode j hj.le).1
    have h2 := (hnode (j + 1) hj).2
    push_cast at h2
    exact ⟨by linarith [ht.1], by nlinarith [ht.2]⟩
  have hgi : ContinuousOn (fun t => field (curve t) i * curve' t i) (Set.Icc a b) := hg.mul hx'
  have hsplit : ∀ k : ℕ, k ≤ N → ∫ t in a..(a + k * d), field (curve t) i * curve' t i =
      ∑ j ∈ Finset.range k, ∫ t in (a + j * d)..(a + j * d + d), field (curve t) i * curve' t i := by
    intro k hk
    induction k with
    | zero => simp
    | succ k ih =>
      rw [Finset.sum_range_succ, ← ih (by omega)]
      have e : a + ((k + 1 : ℕ) : ℝ) * d = a + k * d + d := by push_cast; ring
      rw [e]
      refine (intervalIntegral.integral_add_adjacent_intervals ?_ ?_).symm
      · refine ContinuousOn.intervalIntegrable (hgi.mono ?_)
        rw [Set.uIcc_of_le (hnode k (by omega)).1]
        exact Set.Icc_subset_Icc le_rfl (hnode k (by omega)).2
      · refine ContinuousOn.intervalIntegrable (hgi.mono ?_)
        rw [Set.uIcc_of_le (by linarith)]
        exact hsub k (by omega)
  have hlast : a + (N : ℝ) * d = b := by linarith
  have htot := hsplit N le_rfl
  rw [hlast] at htot
  rw [htot, ← Finset.sum_sub_distrib]
  have hstep : ∀ j ∈ Finset.range N,
      |(curve (a + (j + 1) * d) i - curve (a + j * d) i) *
        (field (curve (a + j * d)) i + field (curve (a + (j + 1) * d)) i) / 2
        - ∫ t in (a + j * d)..(a + j * d + d), field (curve t) i * curve' t i| ≤ L * M * d ^ 2 := by
    intro j hj
    have hs := hsub j (Finset.mem_range.1 hj)
    have e : a + ((j : ℝ) + 1) * d = a + j * d + d := by ring
    rw [e]
    exact chord_error (fun t => field (curve t) i) (fun t => curve t i) (fun t => curve' t i) L M
      (a + j * d) d hd0 hL (fun t ht => hx t (hs ht)) (hx'.mono hs) (hg.mono hs)
      (fun t ht => hM t (hs ht)) (fun s hs' t ht => hLip s (hs hs') t (hs ht))
  calc _ ≤ ∑ j ∈ Finset.range N, L * M * d ^ 2 :=
        (Finset.abs_sum_le_sum_abs _ _).trans (Finset.sum_le_sum hstep)
    _ = L * M * (b - a) ^ 2 / N := by
        rw [Finset.sum_const, Finset.card_range, nsmul_eq_mul, hd]
        field_simp

/-- C76. For any continuously differentiable plane curve and any field that is Lipschitz along it, the
computed line integral with `N` steps is within `2 L M (b-a)² / N` of `∫ F(c(t)) · c'(t) dt`, so it
converges as the count grows. -/
theorem line_integral_error_2d (field : (Fin 2 → ℝ) → Fin 2 → ℝ) (curve curve' : ℝ → Fin 2 → ℝ)
    (a b : ℝ) (hab : a < b) (N : ℕ) (hN : 0 < N) (L M : ℝ) (hL : 0 ≤ L)
    (hx : ∀ i, ∀ t ∈ Set.Icc a b, HasDerivAt (fun t => curve t i) (curve' t i) t)
    (hx' : ∀ i, ContinuousOn (fun t => curve' t i) (Set.Icc a b))
    (hM : ∀ i, ∀ t ∈ Set.Icc a b, |curve' t i| ≤ M)
    (hLip : ∀ i, ∀ s ∈ Set.Icc a b, ∀ t ∈ Set.Icc a b,
      |field (curve s) i - field (curve t) i| ≤ L * |s - t|) :
    ∃ v, lineIntegral2 field curve (a, b) N = .ok v ∧
      |v - ∑ i, ∫ t in a..b, field (curve t) i * curve' t i| ≤ 2 * (L * M * (b - a) ^ 2 / N) := by
  obtain ⟨v0, h0, e0⟩ := linePartial_error field curve curve' a b hab N hN 0 L M hL (hx 0) (hx' 0)
    (hM 0) (hLip 0)
  obtain ⟨v1, h1, e1⟩ := linePartial_error field curve curve' a b hab N hN 1 L M hL (hx 1) (hx' 1)
    (hM 1) (hLip 1)
  refine ⟨v0 + v1, by unfold lineIntegral2; rw [h0, h1]; rfl, ?_⟩
  rw [Fin.sum_univ_two, add_sub_add_comm]
  exact (abs_add_le _ _).trans (by linarith)

/-- C76. The same in space, within `3 L M (b-a)² / N`. -/
theorem line_integral_error_3d (field : (Fin 3 → ℝ) → Fin 3 → ℝ) (curve curve' : ℝ → Fin 3 → ℝ)
    (a b : ℝ) (hab : a < b) (N : ℕ) (hN : 0 < N) (L M : ℝ) (hL : 0 ≤ L)
    (hx : ∀ i, ∀ t ∈ Set.Icc a b, HasDerivAt (fun t => curve t i) (curve' t i) t)
    (hx' : ∀ i, ContinuousOn (fun t => curve' t i) (Set.Icc a b))
    (hM : ∀ i, ∀ t ∈ Set.Icc a b, |curve' t i| ≤ M)
    (hLip : ∀ i, ∀ s ∈ Set.Icc a b, ∀ t ∈ Set.Icc a b,
      |field (curve s) i - field (curve t) i| ≤ L * |s - t|) :
    ∃ v, lineIntegral3 field curve (a, b) N = .ok v ∧
      |v - ∑ i, ∫ t in a..b, field (curve t) i * curve' t i| ≤ 3 * (L * M * (b - a) ^ 2 / N) := by
  obtain ⟨v0, h0, e0⟩ := linePartial_error field curve curve' a b hab N hN 0 L M hL (hx 0) (hx' 0)
    (hM 0) (hLip 0)
  obtain ⟨v1, h1, e1⟩ := linePartial_error field curve curve' a b hab N hN 1 L M hL (hx 1) (hx' 1)
    (hM 1) (hLip 1)
  obtain ⟨v2, h2, e2⟩ := linePartial_error field curve curve' a b hab N hN 2 L M hL (hx 2) (hx' 2)
    (hM 2) (hLip 2)
  refine ⟨v0 + v1 + v2, by unfold lineIntegral3; rw [h0, h1, h2]; rfl, ?_⟩
  rw [Fin.sum_univ_three, add_sub_add_comm, add_sub_add_comm]
  refine (abs_add_le _ _).trans ?_
  have := abs_add_le (v0 - ∫ t in a..b, field (curve t) 0 * curve' t 0)
    (v1 - ∫ t in a..b, field (curve t) 1 * curve' t 1)
  linarith

/-- The hypotheses hold for the field `(y, -x)` along the unit circle. -/
example : (∀ i, ∀ t ∈ Set.Icc (0 : ℝ) 1, HasDerivAt (fun t => (![Real.cos t, Real.sin t] : Fin 2 → ℝ) i)
      ((![-Real.sin t, Real.cos t] : Fin 2 → ℝ) i) t) ∧
    (∀ i, ∀ t ∈ Set.Icc (0 : ℝ) 1, |(![-Real.sin t, Real.cos t] : Fin 2 → ℝ) i| ≤ 1) := by
  constructor
  · intro i t _
    fin_cases i
    · exact Real.hasDerivAt_cos t
    · exact Real.hasDerivAt_sin t
  · intro i t _
    fin_cases i
    · simpa using Real.abs_sin_le_one t
    · simpa using Real.abs_cos_le_one t

/-- C76. What the flux functions compute, for every field and curve: the line integral of the field
with all components but the first negated.  This is all of the flux claim that holds; see
`flux_is_not_flux`. -/
theorem flux_integral_partial (f2 : (Fin 2 → ℝ) → Fin 2 → ℝ) (c2 : ℝ → Fin 2 → ℝ)
    (f3 : (Fin 3 → ℝ) → Fin 3 → ℝ) (c3 : ℝ → Fin 3 → ℝ) (limit : ℝ × ℝ) (N : ℕ) :
    fluxIntegral2 f2 c2 limit N = lineIntegral2 (fun x => ![f2 x 0, -f2 x 1]) c2 limit N ∧
      fluxIntegral3 f3 c3 limit N =
        lineIntegral3 (fun x => ![f3 x 0, -f3 x 1, -f3 x 2]) c3 limit N := by
  have hloop : ∀ {n : ℕ} (g : (Fin n → ℝ) → ℝ) (c : ℝ → Fin n → ℝ) (i : Fin n) (d : ℝ) (k : ℕ) (p : ℝ),
      lineLoop (fun x => -g x) c i d k p 0 = -lineLoop g c i d k p 0 := by
    intro n g c i d k p
    rw [lineLoop_add, lineLoop_add, zero_add, zero_add, ← Finset.sum_neg_distrib]
    exact Finset.sum_congr rfl fun j _ => by ring
  constructor
  · unfold fluxIntegral2 lineIntegral2 linePartial
    split_ifs
    · rfl
    · simp only [Matrix.cons_val_zero, Matrix.cons_val_one, hloop, sub_eq_add_neg]; rfl
    · rfl
  · unfold fluxIntegral3 lineIntegral3 linePartial
    split_ifs
    · rfl
    · simp only [Matrix.cons_val_zero, Matrix.cons_val_one, Matrix.cons_val, hloop, sub_eq_add_neg]
      rfl
    · rfl

/-- C76 (finding). `flux_integral_2d` is not the flux across the curve.  For every constant field
`(P, Q)` and every curve the flux `∫ P dy - Q dx` is `P Δy - Q Δx`, but the function returns
`P Δx - Q Δy`.  For instance the field `(1, 0)` crosses the segment from `(0, 0)` to `(0, 1)` with
flux one, and the function returns zero, whatever the number of steps. -/
theorem flux_is_not_flux :
    (∀ (v : Fin 2 → ℝ) (curve : ℝ → Fin 2 → ℝ) (a b : ℝ) (N : ℕ), a < b → 0 < N →
      fluxIntegral2 (fun _ => v) curve (a, b) N =
        .ok (v 0 * (curve b 0 - curve a 0) - v 1 * (curve b 1 - curve a 1))) ∧
    (∀ N : ℕ, 0 < N → fluxIntegral2 (fun _ => ![1, 0]) (fun t : ℝ => ![0, t]) (0, 1) N = .ok 0) ∧
    (∫ t in (0 : ℝ)..1, ((![1, 0] : Fin 2 → ℝ) 0 * deriv (fun t : ℝ => (![0, t] : Fin 2 → ℝ) 1) t
        - (![1, 0] : Fin 2 → ℝ) 1 * deriv (fun t : ℝ => (![0, t] : Fin 2 → ℝ) 0) t)) = 1 := by
  have h1 : ∀ (v : Fin 2 → ℝ) (curve : ℝ → Fin 2 → ℝ) (a b : ℝ) (N : ℕ), a < b → 0 < N →
      fluxIntegral2 (fun _ => v) curve (a, b) N =
        .ok (v 0 * (curve b 0 - curve a 0) - v 1 * (curve b 1 - curve a 1)) := by
    intro v curve a b N hab hN
    simp only [fluxIntegral2, linePartial_const _ _ hab hN]; rfl
  refine ⟨h1, fun N hN => ?_, ?_⟩
  · refine (h1 ![1, 0] (fun t => ![0, t]) 0 1 N (by norm_num) hN).trans ?_
    simp
  · simp

end Line

/-! ## Curl and divergence -/

section Curl

/-- A program whose value near `x` is the derivative of `g` in direction `i` at each point has the
derivative of that as its own partial derivative. -/
theorem Expr.partial_unique {n : ℕ} (f : Expr n) (x : Fin n → ℝ) (hf : f.SmoothAt x) (j : Fin n)
    (g : (Fin n → ℝ) → ℝ) (d : ℝ) (heq : ∀ᶠ y in 𝓝 x, f.eval y = g y)
    (hg : HasDerivAt (fun s => g (Function.update x j s)) d (x j)) :
    autoDiffMulti f [j.1] x = .ok d := by
  obtain ⟨d', h1, h2⟩ := autoDiffMulti_one f j x hf
  have hc : Tendsto (fun s : ℝ => Function.update x j s) (𝓝 (x j)) (𝓝 x) := by
    have := (continuous_update' x j).tendsto (x j)
    rwa [Function.update_eq_self] at this
  have he : (fun s => f.eval (Function.update x j s)) =ᶠ[𝓝 (x j)]
      fun s => g (Function.update x j s) := hc.eventually heq
  have h3 : HasDerivAt (fun s => f.eval (Function.update x j s)) d (x j) :=
    hg.congr_of_eventuallyEq he
  rw [h1, h2.unique h3]

/-- C77. With the automatic differentiator, the curl and divergence of any smooth field are made of
its partial derivatives in the order of the definition. -/
theorem curl_divergence_spec (f : Fin 3 → Expr 3) (x : Fin 3 → ℝ) (h : ∀ k, (f k).SmoothAt x)
    (g : Fin 2 → Expr 2) (y : Fin 2 → ℝ) (h' : ∀ k, (g k).SmoothAt y) :
    ∃ (D : Fin 3 → Fin 3 → ℝ) (E : Fin 2 → Fin 2 → ℝ),
      (∀ k i, HasDerivAt (fun s => (f k).eval (Function.update x i s)) (D k i) (x i)) ∧
      (∀ k i, HasDerivAt (fun s => (g k).eval (Function.update y i s)) (E k i) (y i)) ∧
      curl3 (fun k i => autoDiffMulti (f k) [i] x) =
        .ok ![D 2 1 - D 1 2, D 0 2 - D 2 0, D 1 0 - D 0 1] ∧
      divergence3 (fun k i => autoDiffMulti (f k) [i] x) = .ok (D 0 0 + D 1 1 + D 2 2) ∧
      curl2 (fun k i => autoDiffMulti (g k) [i] y) = .ok (E 1 0 - E 0 1) ∧
      divergence2 (fun k i => autoDiffMulti (g k) [i] y) = .ok (E 0 0 + E 1 1) := by
  have hD := fun k i => autoDiffMulti_one (f k) i x (h k)
  have hE := fun k i => autoDiffMulti_one (g k) i y (h' k)
  choose D hD1 hD2 using hD
  choose E hE1 hE2 using hE
  refine ⟨D, E, hD2, hE2, ?_, ?_, ?_, ?_⟩
  · have e := fun k (i : Fin 3) => hD1 k i
    have a0 := e 2 1; have a1 := e 1 2; have a2 := e 0 2; have a3 := e 2 0
    have a4 := e 1 0; have a5 := e 0 1
    simp only [Fin.val_zero, Fin.val_one, Fin.val_two] at a0 a1 a2 a3 a4 a5
    simp only [curl3, a0, a1, a2, a3, a4, a5]; rfl
  · have a0 := hD1 0 0; have a1 := hD1 1 1; have a2 := hD1 2 2
    simp only [Fin.val_zero, Fin.val_one, Fin.val_two] at a0 a1 a2
    simp only [divergence3, a0, a1, a2]; rfl
  · have a0 := hE1 1 0; have a1 := hE1 0 1
    simp only [Fin.val_zero, Fin.val_one] at a0 a1
    simp only [curl2, a0, a1]; rfl
  · have a0 := hE1 0 0; have a1 := hE1 1 1
    simp only [Fin.val_zero, Fin.val_one] at a0 a1
    simp only [divergence2, a0, a1]; rfl

/-- C77. Curl of a gradient: for every smooth program `e` and every field whose components equal the
partial derivatives of `e` near the point, the computed curl is exactly zero, in space and in the
plane. -/
theorem curl_gradient (e : Expr 3) (f : Fin 3 → Expr 3) (x : Fin 3 → ℝ) (he : e.SmoothAt x)
    (hf : ∀ k, (f k).SmoothAt x) (hgrad : ∀ k, IsPartialNear (fun y => e.eval y) k (f k).eval x)
    (e2 : Expr 2) (f2 : Fin 2 → Expr 2) (x2 : Fin 2 → ℝ) (he2 : e2.SmoothAt x2)
    (hf2 : ∀ k, (f2 k).SmoothAt x2)
    (hgrad2 : ∀ k, IsPartialNear (fun y => e2.eval y) k (f2 k).eval x2) :
    curl3 (fun k i => autoDiffMulti (f k) [i] x) = .ok ![0, 0, 0] ∧
      curl2 (fun k i => autoDiffMulti (f2 k) [i] x2) = .ok 0 := by
  have key : ∀ {n : ℕ} (e : Expr n) (f : Fin n → Expr n) (x : Fin n → ℝ) (_ : e.SmoothAt x)
      (_ : ∀ k, (f k).SmoothAt x) (_ : ∀ k, IsPartialNear (fun y => e.eval y) k (f k).eval x)
      (k i : Fin n), autoDiffMulti (f k) [i.1] x = .ok (e.eval (hyperSeed x i k)).eps1eps2 := by
    intro n e f x he hf hgrad k i
    refine Expr.partial_unique (f k) x (hf k) i (fun y => (e.eval (dualSeed y k)).deriv) _ ?_
      (e.partial_two i k he)
    filter_upwards [hgrad k, e.partial_one_near k he] with y h1 h2
    exact h1.unique h2
  have symm : ∀ {n : ℕ} (e : Expr n) (x : Fin n → ℝ) (i k : Fin n),
      (e.eval (hyperSeed x i k)).eps1eps2 = (e.eval (hyperSeed x k i)).eps1eps2 := by
    intro n e x i k
    have h := autoDiffMulti_symm e i.1 k.1 x
    unfold autoDiffMulti at h
    have hi := not_le.2 i.2
    have hk := not_le.2 k.2
    simpa [hi, hk] using h
  constructor
  · have e' := key e f x he hf hgrad
    have a0 := e' 2 1; have a1 := e' 1 2; have a2 := e' 0 2; have a3 := e' 2 0
    have a4 := e' 1 0; have a5 := e' 0 1
    simp only [Fin.val_zero, Fin.val_one, Fin.val_two] at a0 a1 a2 a3 a4 a5
    have s1 := symm e x 2 1; have s2 := symm e x 0 2; have s3 := symm e x 1 0
    simp only [Fin.val_zero, Fin.val_one, Fin.val_two] at s1 s2 s3
    simp only [curl3, a0, a1, a2, a3, a4, a5, s1, s2, s3]
    refine congrArg Except.ok ?_
    simp
  · have e' := key e2 f2 x2 he2 hf2 hgrad2
    have a0 := e' 1 0; have a1 := e' 0 1
    have s1 := symm e2 x2 1 0
    simp only [Fin.val_zero, Fin.val_one] at a0 a1 s1
    simp only [curl2, a0, a1, s1]
    refine congrArg Except.ok ?_
    simp

/-- C77. Divergence of a curl: for every smooth field `V` and every field `W` that equals the computed
curl of `V` near the point, the computed divergence of `W` is exactly zero. -/
theorem divergence_curl (V W : Fin 3 → Expr 3) (x : Fin 3 → ℝ) (hV : ∀ k, (V k).SmoothAt x)
    (hW : ∀ k, (W k).SmoothAt x)
    (hcurl : ∀ᶠ y in 𝓝 x, curl3 (fun k i => autoDiffMulti (V k) [i] y) =
      .ok fun k => (W k).eval y) :
    divergence3 (fun k i => autoDiffMulti (W k) [i] x) = .ok 0 := by
  have hval : ∀ y : Fin 3 → ℝ, curl3 (fun k i => autoDiffMulti (V k) [i] y) =
      .ok ![((V 2).eval (dualSeed y 1)).deriv - ((V 1).eval (dualSeed y 2)).deriv,
        ((V 0).eval (dualSeed y 2)).deriv - ((V 2).eval (dualSeed y 0)).deriv,
        ((V 1).eval (dualSeed y 0)).deriv - ((V 0).eval (dualSeed y 1)).deriv] := fun y => rfl
  have symm : ∀ (e : Expr 3) (i k : Fin 3),
      (e.eval (hyperSeed x i k)).eps1eps2 = (e.eval (hyperSeed x k i)).eps1eps2 := by
    intro e i k
    have h := autoDiffMulti_symm e i.1 k.1 x
    unfold autoDiffMulti at h
    have hi := not_le.2 i.2
    have hk := not_le.2 k.2
    simpa [hi, hk] using h
  have h0 := Expr.partial_unique (W 0) x (hW 0) 0 (fun y =>
    ((V 2).eval (dualSeed y (1 : Fin 3))).deriv - ((V 1).eval (dualSeed y (2 : Fin 3))).deriv) _
    (by filter_upwards [hcurl] with y hy
        rw [hval] at hy
        exact (congrFun (Except.ok.inj hy) 0).symm)
    (((V 2).partial_two 0 1 (hV 2)).sub ((V 1).partial_two 0 2 (hV 1)))
  have h1 := Expr.partial_unique (W 1) x (hW 1) 1 (fun y =>
    ((V 0).eval (dualSeed y (2 : Fin 3))).deriv - ((V 2).eval (dualSeed y (0 : Fin 3))).deriv) _
    (by filter_upwards [hcurl] with y hy
        rw [hval] at hy
        exact (congrFun (Except.ok.inj hy) 1).symm)
    (((V 0).partial_two 1 2 (hV 0)).sub ((V 2).partial_two 1 0 (hV 2)))
  have h2 := Expr.partial_unique (W 2) x (hW 2) 2 (fun y =>
    ((V 1).eval (dualSeed y (0 : Fin 3))).deriv - ((V 0).eval (dualSeed y (1 : Fin 3))).deriv) _
    (by filter_upwards [hcurl] with y hy
        rw [hval] at hy
        exact (congrFun (Except.ok.inj hy) 2).symm)
    (((V 1).partial_two 2 0 (hV 1)).sub ((V 0).partial_two 2 1 (hV 0)))
  have s1 := symm (V 2) 0 1
  have s2 := symm (V 1) 0 2
  have s3 := symm (V 0) 1 2
  simp only [Fin.val_zero, Fin.val_one, Fin.val_two] at h0 h1 h2 s1 s2 s3
  simp only [divergence3, h0, h1, h2, s1, s2, s3]
  refine congrArg Except.ok ?_
  ring

/-- A field to which the last two theorems apply: `(x1 x2, x0 x2, x0 x1)` is the gradient of
`x0 x1 x2`, at every point. -/
example (x : Fin 3 → ℝ) :
    (∀ k, IsPartialNear (fun y => (Expr.bin .mul (.bin .mul (.var 0) (.var 1)) (.var 2) : Expr 3).eval y)
      k ((![.bin .mul (.var 1) (.var 2), .bin .mul (.var 0) (.var 2), .bin .mul (.var 0) (.var 1)] :
        Fin 3 → Expr 3) k).eval x) := by
  intro k
  refine Eventually.of_forall fun y => ?_
  fin_cases k
  · have := (((hasDerivAt_id (y 0)).mul_const (y 1)).mul_const (y 2))
    simp only [Expr.eval, BinOp.eval]
    refine HasDerivAt.congr_of_eventuallyEq (this.congr_deriv ?_) (Eventually.of_forall fun s => ?_)
    · simp [Expr.eval, BinOp.eval]
    · simp [Function.update]
  · have := (((hasDerivAt_id (y 1)).const_mul (y 0)).mul_const (y 2))
    simp only [Expr.eval, BinOp.eval]
    refine HasDerivAt.congr_of_eventuallyEq (this.congr_deriv ?_) (Eventually.of_forall fun s => ?_)
    · simp [Expr.eval, BinOp.eval]
    · simp [Function.update]
  · have := (((hasDerivAt_id (y 2)).const_mul (y 0 * y 1)))
    simp only [Expr.eval, BinOp.eval]
    refine HasDerivAt.congr_of_eventuallyEq (this.congr_deriv ?_) (Eventually.of_forall fun s => ?_)
    · simp [Expr.eval, BinOp.eval]
    · simp [Function.update]

end Curl

end Multicalc
