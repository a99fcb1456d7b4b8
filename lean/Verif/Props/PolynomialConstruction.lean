import Verif.Model.PolynomialConstruction
import Verif.Props.Polynomial
import Verif.Props.PolynomialRoots
import Mathlib.Analysis.SpecialFunctions.Trigonometric.Chebyshev.Basic

/-!
# Building polynomials (C71)
-/

namespace Multicalc
namespace Poly

open Polynomial

/-! ### One more root -/

section Field
variable {K : Type} [Field K]

theorem multiplyInRootLoop_length (root : K) (carried : K) (count : ℕ) (l : List K) :
    (multiplyInRootLoop root carried count l).length = l.length := by
  induction l generalizing carried count with
  | nil => cases count <;> rfl
  | cons a l ih => cases count <;> simp [multiplyInRootLoop, ih]

theorem ofCoeffs_multiplyInRootLoop (root carried : K) (count : ℕ) (l : List K)
    (hlen : count ≤ l.length) (hdeg : ∀ k, count ≤ k + 1 → l.getD k 0 = 0) (hpos : 0 < count) :
    ofCoeffs (multiplyInRootLoop root carried count l) =
      C carried + (X - C root) * ofCoeffs l := by
  induction l generalizing carried count with
  | nil => simp at hlen; omega
  | cons a l ih =>
    obtain ⟨n, rfl⟩ : ∃ n, count = n + 1 := ⟨count - 1, by omega⟩
    rw [multiplyInRootLoop]
    rcases Nat.eq_zero_or_pos n with rfl | hn
    · have hz : ∀ k, (a :: l).getD k 0 = 0 := fun k => hdeg k (by omega)
      have h0 : ofCoeffs (a :: l) = 0 := by
        ext k; rw [coeff_ofCoeffs, hz]; simp
      have ha : a = 0 := hz 0
      have hl : ofCoeffs l = 0 := by
        ext k; rw [coeff_ofCoeffs]; simpa using hz (k + 1)
      have hm : multiplyInRootLoop root a 0 l = l := by cases l <;> rfl
      rw [hm, h0, ofCoeffs, hl, ha]; simp
    · have := ih a n (by simpa using hlen) (fun k hk => by simpa using hdeg (k + 1) (by omega)) hn
      simp only [ofCoeffs, this, map_sub, map_mul]
      ring

theorem multiplyInRoot_spec (l : List K) (d : ℕ) (root : K) (hlen : d < l.length)
    (hdeg : ∀ k, d ≤ k → l.getD k 0 = 0) :
    (multiplyInRoot l d root).length = l.length ∧
    ofCoeffs (multiplyInRoot l d root) = (X - C root) * ofCoeffs l := by
  refine ⟨multiplyInRootLoop_length _ _ _ _, ?_⟩
  rw [multiplyInRoot, ofCoeffs_multiplyInRootLoop root 0 (d + 1) l hlen
    (fun k hk => hdeg k (by omega)) (Nat.succ_pos _)]
  simp

/-- A product by `X - C root` raises the degree bound by one. -/
theorem getD_zero_of_degree {l : List K} {d : ℕ} (h : ofCoeffs l = 0 ∨ (ofCoeffs l).natDegree < d) :
    ∀ k, d ≤ k → l.getD k 0 = 0 := by
  intro k hk
  rw [← coeff_ofCoeffs]
  rcases h with h | h
  · rw [h]; simp
  · exact coeff_eq_zero_of_natDegree_lt (by omega)

theorem fromRootsLoop_spec (roots : List K) : ∀ (index : ℕ) (l : List K) (P : K[X]),
    ofCoeffs l = P → P.natDegree ≤ index → index + roots.length < l.length →
    (fromRootsLoop index roots l).length = l.length ∧
    ofCoeffs (fromRootsLoop index roots l) = P * (roots.map fun r => X - C r).prod := by
  induction roots with
  | nil => intro index l P h _ _; exact ⟨rfl, by simp [fromRootsLoop, h]⟩
  | cons r rs ih =>
    intro index l P h hd hlen
    rw [List.length_cons] at hlen
    obtain ⟨h1, h2⟩ := multiplyInRoot_spec l (index + 1) r (by omega)
      (getD_zero_of_degree (.inr (by rw [h]; omega)))
    have h3 := ih (index + 1) (multiplyInRoot l (index + 1) r) ((X - C r) * P) (by rw [h2, h])
      ((natDegree_mul_le).trans (by rw [natDegree_X_sub_C]; omega)) (by rw [h1]; omega)
    rw [fromRootsLoop]
    refine ⟨h3.1.trans h1, ?_⟩
    rw [h3.2]; simp; ring

end Field

/-- C71. `from_roots` gives the product of `x - r` over the given roots, so its roots are exactly
those with their multiplicities, whatever the room; too many roots are refused. -/
theorem fromRoots_spec (count : ℕ) (roots : List ℝ) :
    if roots.length < count then
      ∃ p, fromRoots count roots = .ok p ∧ p.length = count ∧
        (∀ x, evaluate p x = (roots.map fun r => x - r).prod) ∧
        (ofCoeffs p).roots = (roots : Multiset ℝ)
    else fromRoots count roots = .error .degreeOverflow := by
  have hfin : (roots.any fun root => !Fns.isFinite root) = false := by
    rw [List.any_eq_false]; intro x _; simp [Fns.isFinite]
  split
  · next h =>
    obtain ⟨n, rfl⟩ : ∃ n, count = n + 1 := ⟨count - 1, by omega⟩
    have hz : (zeros (T := ℝ) (n + 1)) = 0 :: zeros n := rfl
    have hone : ofCoeffs ((1 : ℝ) :: zeros n) = 1 := by simp [ofCoeffs, ofCoeffs_zeros]
    obtain ⟨h1, h2⟩ := fromRootsLoop_spec roots 0 (1 :: zeros n) 1 hone (by simp)
      (by simp [zeros]; omega)
    refine ⟨fromRootsLoop 0 roots (1 :: zeros n), ?_, ?_, ?_, ?_⟩
    · simp only [fromRoots, hfin, Bool.false_eq_true, if_false, hz]
      rw [if_neg (by omega)]
    · rw [h1]; simp [zeros]
    · intro x
      rw [evaluate_eq_eval, h2, one_mul, eval_list_prod, List.map_map]
      congr 1
      apply List.map_congr_left
      intro r _; simp
    · rw [h2, one_mul, ← Multiset.prod_coe, ← Multiset.map_coe, roots_multiset_prod_X_sub_C]
  · next h =>
    simp only [fromRoots, hfin, Bool.false_eq_true, if_false]
    rw [if_pos (by omega)]

example : ∃ p, fromRoots 4 [(1 : ℝ), 1, -3] = .ok p ∧ evaluate p 2 = 5 := by
  have := fromRoots_spec 4 [(1 : ℝ), 1, -3]
  rw [if_pos (by decide)] at this
  obtain ⟨p, h1, -, h2, -⟩ := this
  exact ⟨p, h1, by rw [h2]; norm_num⟩

/-! ### Newton's divided differences -/

section Newton
variable {K : Type} [Field K]

/-- Divided difference of order `k` starting at index `i`. -/
def dd (n v : ℕ → K) : ℕ → ℕ → K
  | 0, i => v i
  | k + 1, i => (dd n v k (i + 1) - dd n v k i) / (n (i + (k + 1)) - n i)

/-- `∏_{j < k} (x - n (i + j))`. -/
def nodeProd (n : ℕ → K) (x : K) (i k : ℕ) : K := ∏ j ∈ Finset.range k, (x - n (i + j))

/-- Newton's form over the nodes `i, …, i + k`. -/
def newton (n v : ℕ → K) (x : K) (i k : ℕ) : K :=
  ∑ m ∈ Finset.range (k + 1), dd n v m i * nodeProd n x i m

theorem nodeProd_shift (n : ℕ → K) (x : K) (i k : ℕ) :
    nodeProd n x i (k + 1) = (x - n i) * nodeProd n x (i + 1) k := by
  rw [nodeProd, Finset.prod_range_succ', mul_comm, nodeProd]
  congr 1
  apply Finset.prod_congr rfl
  intro j _
  rw [show i + (j + 1) = i + 1 + j by ring]

theorem newton_succ (n v : ℕ → K) (x : K) (i k : ℕ) :
    newton n v x i (k + 1) = newton n v x i k + dd n v (k + 1) i * nodeProd n x i (k + 1) := by
  rw [newton, Finset.sum_range_succ, ← newton]

theorem newton_right (n v : ℕ → K) (x : K) (k : ℕ) : ∀ i,
    (∀ a b, i ≤ a → a < b → b ≤ i + (k + 1) → n b - n a ≠ 0) →
    newton n v x i (k + 1) =
      newton n v x (i + 1) k + dd n v (k + 1) i * nodeProd n x (i + 1) (k + 1) := by
  induction k with
  | zero =>
    intro i h
    have h1 := h i (i + 1) le_rfl (by omega) le_rfl
    simp only [newton_succ, newton, nodeProd, dd, Finset.sum_range_succ, Finset.prod_range_succ,
      Finset.sum_range_zero, Finset.prod_range_zero, add_zero, zero_add]
    have h2 : (v (i + 1) - v i) / (n (i + 1) - n i) * (n (i + 1) - n i) = v (i + 1) - v i :=
      div_mul_cancel₀ _ h1
    linear_combination h2
  | succ k ih =>
    intro i h
    have h1 := h i (i + (k + 2)) le_rfl (by omega) le_rfl
    rw [newton_succ, ih i (fun a b ha hab hb => h a b ha hab (by omega)), newton_succ,
      nodeProd_shift n x i (k + 1)]
    have h2 : dd n v (k + 2) i * (n (i + (k + 2)) - n i) = dd n v (k + 1) (i + 1) - dd n v (k + 1) i := by
      rw [dd]; exact div_mul_cancel₀ _ h1
    have h3 : nodeProd n x (i + 1) (k + 2) =
        nodeProd n x (i + 1) (k + 1) * (x - n (i + (k + 2))) := by
      rw [nodeProd, Finset.prod_range_succ, ← nodeProd, show i + 1 + (k + 1) = i + (k + 2) by ring]
    rw [h3]
    linear_combination (nodeProd n x (i + 1) (k + 1)) * h2

theorem newton_interpolates (n v : ℕ → K) (k : ℕ) : ∀ i,
    (∀ a b, i ≤ a → a < b → b ≤ i + k → n b - n a ≠ 0) →
    ∀ j, i ≤ j → j ≤ i + k → newton n v (n j) i k = v j := by
  induction k with
  | zero =>
    intro i _ j h1 h2
    obtain rfl : j = i := by omega
    simp [newton, nodeProd, dd]
  | succ k ih =>
    intro i h j h1 h2
    rcases Nat.lt_or_ge j (i + (k + 1)) with hj | hj
    · rw [newton_succ, ih i (fun a b ha hab hb => h a b ha hab (by omega)) j h1 (by omega)]
      have : nodeProd n (n j) i (k + 1) = 0 := by
        apply Finset.prod_eq_zero (Finset.mem_range.mpr (show j - i < k + 1 by omega))
        rw [show i + (j - i) = j by omega, sub_self]
      rw [this]; ring
    · obtain rfl : j = i + (k + 1) := by omega
      rw [newton_right n v _ k i h,
        ih (i + 1) (fun a b ha hab hb => h a b (by omega) hab (by omega)) _ (by omega) (by omega)]
      have : nodeProd n (n (i + (k + 1))) (i + 1) (k + 1) = 0 := by
        apply Finset.prod_eq_zero (Finset.mem_range.mpr (Nat.lt_succ_self k))
        rw [show i + 1 + k = i + (k + 1) by ring, sub_self]
      rw [this]; ring

variable [BEq K] [LawfulBEq K]

/-- The table loop computes the divided differences, or reports two equal nodes. -/
theorem bendLoop_spec (count : ℕ) (n v : ℕ → K) : ∀ (passes order : ℕ) (table : ℕ → K),
    order + passes = count → 1 ≤ order →
    (∀ i, i < count - (order - 1) → table i = dd n v (order - 1) i) →
    ((∃ a b, a < b ∧ b < count ∧ order ≤ b - a ∧ n b = n a) ∧
      bendLoop count n passes order table = .error .duplicateNode) ∨
    ((∀ a b, a < b → b < count → order ≤ b - a → n b ≠ n a) ∧
      bendLoop count n passes order table =
        .ok ((List.range passes).map fun k => dd n v (order + k) 0)) := by
  intro passes
  induction passes with
  | zero =>
    intro order table h1 h2 _
    right
    exact ⟨fun a b h3 h4 h5 => by omega, rfl⟩
  | succ passes ih =>
    intro order table h1 h2 ht
    rw [bendLoop, bendPass]
    by_cases hz : ((List.range (count - order)).any fun index => n (index + order) - n index == 0)
        = true
    · left
      rw [if_pos hz]
      refine ⟨?_, rfl⟩
      obtain ⟨i, hi, h3⟩ := List.any_eq_true.mp hz
      have hi := List.mem_range.mp hi
      exact ⟨i, i + order, by omega, by omega, by omega, sub_eq_zero.mp (eq_of_beq h3)⟩
    · rw [if_neg hz]
      have hne : ∀ i, i < count - order → n (i + order) - n i ≠ 0 := by
        intro i hi h0
        exact hz (List.any_eq_true.mpr ⟨i, List.mem_range.mpr hi, by simp [h0]⟩)
      dsimp only
      rcases ih (order + 1) (fun index => if index < count - order then
          (table (index + 1) - table index) / (n (index + order) - n index) else table index)
          (by omega) (by omega) (by
            intro i hi
            simp only [Nat.add_sub_cancel] at hi ⊢
            rw [if_pos hi, ht i (by omega), ht (i + 1) (by omega)]
            obtain ⟨o, rfl⟩ : ∃ o, order = o + 1 := ⟨order - 1, by omega⟩
            simp only [Nat.add_sub_cancel]
            rfl) with ⟨⟨a, b, h3, h4, h5, h6⟩, h7⟩ | ⟨h6, h7⟩
      · left
        rw [h7]
        exact ⟨⟨a, b, h3, h4, by omega, h6⟩, rfl⟩
      · right
        rw [h7]
        refine ⟨?_, ?_⟩
        · intro a b h3 h4 h5
          rcases Nat.lt_or_ge order (b - a) with h8 | h8
          · exact h6 a b h3 h4 (by omega)
          · have h9 := hne a (by omega)
            rw [show a + order = b by omega] at h9
            exact fun h => h9 (sub_eq_zero.mpr h)
        · dsimp only
          rw [List.range_succ_eq_map, List.map_cons, List.map_map]
          congr 1
          congr 1
          · rw [if_pos (by omega), ht 0 (by omega), ht (0 + 1) (by omega)]
            obtain ⟨o, rfl⟩ : ∃ o, order = o + 1 := ⟨order - 1, by omega⟩
            simp only [Nat.add_sub_cancel, add_zero]
            rfl
          · apply List.map_congr_left
            intro k _
            simp only [Function.comp, Nat.succ_eq_add_one]
            rw [show order + 1 + k = order + (k + 1) by ring]

omit [BEq K] [LawfulBEq K] in
/-- The folding loop evaluates Newton's form. -/
theorem foldBends_spec (count : ℕ) (n : ℕ → K) (bends : List K) :
    ∀ (step : ℕ) (l : List K), l.length = count → step < count →
    (ofCoeffs l).natDegree + step < count →
    (foldBends count n bends step l).length = count ∧
    ∀ x, (ofCoeffs (foldBends count n bends step l)).eval x =
      ∑ m ∈ Finset.range step, bends.getD m 0 * nodeProd n x 0 m +
        nodeProd n x 0 step * (ofCoeffs l).eval x := by
  intro step
  induction step with
  | zero =>
    intro l h1 h2 h3
    refine ⟨h1, fun x => ?_⟩
    simp [foldBends, nodeProd]
  | succ step ih =>
    intro l h1 h2 h3
    obtain ⟨h4, h5⟩ := multiplyInRoot_spec l (count - 1 - step) (n step) (by omega)
      (getD_zero_of_degree (.inr (by omega)))
    rw [foldBends]
    obtain ⟨a, l', hl⟩ : ∃ a l', multiplyInRoot l (count - 1 - step) (n step) = a :: l' := by
      cases hm : multiplyInRoot l (count - 1 - step) (n step) with
      | nil => rw [hm] at h4; simp at h4; omega
      | cons a l' => exact ⟨a, l', rfl⟩
    rw [hl] at h4 h5 ⊢
    dsimp only [List.modifyHead]
    have h6 : ofCoeffs ((a + bends.getD step 0) :: l') =
        C (bends.getD step 0) + (X - C (n step)) * ofCoeffs l := by
      rw [← h5]; simp only [ofCoeffs, map_add]; ring
    obtain ⟨h7, h8⟩ := ih ((a + bends.getD step 0) :: l') (by simpa using h4.trans h1) (by omega) (by
      rw [h6]
      have e1 : ((X - C (n step)) * ofCoeffs l).natDegree ≤ (ofCoeffs l).natDegree + 1 :=
        natDegree_mul_le.trans (by rw [natDegree_X_sub_C]; omega)
      have e2 := natDegree_add_le (C (bends.getD step 0)) ((X - C (n step)) * ofCoeffs l)
      rw [natDegree_C] at e2
      omega)
    refine ⟨h7, fun x => ?_⟩
    rw [h8, h6, Finset.sum_range_succ]
    have : nodeProd n x 0 (step + 1) = nodeProd n x 0 step * (x - n step) := by
      rw [nodeProd, Finset.prod_range_succ, ← nodeProd, zero_add]
    rw [this]
    simp only [eval_add, eval_mul, eval_sub, eval_X, eval_C]
    ring

end Newton

theorem sampleRange_spec (a : ℝ) (l : List ℝ) :
    ((∀ b ∈ l, b = a) ∧ sampleRange (a :: l) = .error .duplicateNode) ∨
    ∃ centre halfWidth, sampleRange (a :: l) = .ok (centre, halfWidth) ∧ 0 < halfWidth ∧
      ∀ b ∈ a :: l, |b - centre| ≤ halfWidth := by
  have hmin : ∀ (l : List ℝ) (z : ℝ), l.foldl min z ≤ z ∧ ∀ b ∈ l, l.foldl min z ≤ b := by
    intro l
    induction l with
    | nil => intro z; simp
    | cons c l ih =>
      intro z
      obtain ⟨h1, h2⟩ := ih (min z c)
      refine ⟨h1.trans (min_le_left _ _), fun b hb => ?_⟩
      rcases List.mem_cons.mp hb with rfl | hb
      · exact h1.trans (min_le_right _ _)
      · exact h2 b hb
  have hmax : ∀ (l : List ℝ) (z : ℝ), z ≤ l.foldl max z ∧ ∀ b ∈ l, b ≤ l.foldl max z := by
    intro l
    induction l with
    | nil => intro z; simp
    | cons c l ih =>
      intro z
      obtain ⟨h1, h2⟩ := ih (max z c)
      refine ⟨(le_max_left _ _).trans h1, fun b hb => ?_⟩
      rcases List.mem_cons.mp hb with rfl | hb
      · exact (le_max_right _ _).trans h1
      · exact h2 b hb
  obtain ⟨h1, h2⟩ := hmin (a :: l) a
  obtain ⟨h3, h4⟩ := hmax (a :: l) a
  simp only [sampleRange]
  generalize (a :: l).foldl min a = s at *
  generalize (a :: l).foldl max a = g at *
  push_cast
  by_cases h : (g - s) * (1 / 2 : ℝ) = 0
  · left
    have hgs : g = s := by linarith
    refine ⟨fun b hb => ?_, by simp [hgs]⟩
    have e1 := h2 b (List.mem_cons_of_mem _ hb)
    have e2 := h4 b (List.mem_cons_of_mem _ hb)
    subst hgs
    linarith [le_antisymm h1 h3]
  · right
    refine ⟨(s + g) * (1 / 2), (g - s) * (1 / 2), ?_, ?_, ?_⟩
    · rw [if_neg (by simpa using h)]
    · rcases lt_or_eq_of_le (h1.trans h3) with h5 | h5
      · linarith
      · exact absurd (by rw [h5]; ring) h
    · intro b hb
      have e1 := h2 b hb
      have e2 := h4 b hb
      rw [abs_le]; constructor <;> linarith

/-- C71. `from_points` passes through every given point when the positions are distinct, and
otherwise reports the duplicate; for any number of points.  The result has no more coefficients than
points, so it is the interpolating polynomial. -/
theorem fromPoints_spec (nodes values : List ℝ) (hlen : nodes.length = values.length) :
    (nodes.Nodup → ∃ p, fromPoints nodes values = .ok p ∧ p.length = values.length ∧
      ∀ k, k < values.length → evaluate p (nodes.getD k 0) = values.getD k 0) ∧
    (¬ nodes.Nodup → fromPoints nodes values = .error .duplicateNode) := by
  have hfin : ((nodes ++ values).any fun v => !Fns.isFinite v) = false := by
    rw [List.any_eq_false]; intro x _; simp [Fns.isFinite]
  rcases Nat.lt_or_ge 1 values.length with hcount | hcount
  swap
  · -- zero or one point
    have hnd : nodes.Nodup := by
      match nodes, hlen with
      | [], _ => exact List.nodup_nil
      | [a], _ => exact List.nodup_singleton a
      | a :: b :: l, h => simp at h; omega
    refine ⟨fun _ => ⟨values, ?_, rfl, ?_⟩, fun h => absurd hnd h⟩
    · simp only [fromPoints, hfin, Bool.false_eq_true, if_false, if_pos hcount]
    · intro k hk
      match values, hcount with
      | [], _ => simp at hk
      | [v], _ =>
        have : k = 0 := by simpa using hk
        subst this
        simp [evaluate]
      | a :: b :: l, h => simp at h
  · obtain ⟨a, l, rfl⟩ : ∃ a l, nodes = a :: l := by
      cases nodes with
      | nil => simp at hlen; omega
      | cons a l => exact ⟨a, l, rfl⟩
    have hrun := fun c hw (h : sampleRange (a :: l) = .ok (c, hw)) =>
      (show fromPoints (a :: l) values = match bendLoop values.length
          (fun index => ((a :: l).getD index 0 - c) / hw) (values.length - 1) 1
          (fun index => values.getD index 0) with
        | .error e => .error e
        | .ok later => .ok (shiftArgument (scaleArgument (foldBends values.length
            (fun index => ((a :: l).getD index 0 - c) / hw) (values.getD 0 0 :: later)
            (values.length - 1) ((zeros (T := ℝ) values.length).modifyHead
              fun _ => (values.getD 0 0 :: later).getLastD 0)) (1 / hw)) (-c)) by
        simp only [fromPoints, hfin, Bool.false_eq_true, if_false, if_neg (not_le.mpr hcount), h]
        split <;> rename_i h9 <;> simp only [h9])
    have hnodup : (∀ i j, i < j → j < values.length → (a :: l).getD j 0 ≠ (a :: l).getD i 0) ↔
        (a :: l).Nodup := by
      rw [List.nodup_iff_pairwise_ne, List.pairwise_iff_getElem]
      constructor
      · intro h i j hi hj hij
        have := h i j hij (by omega)
        rw [List.getD_eq_getElem?_getD, List.getD_eq_getElem?_getD, List.getElem?_eq_getElem hi,
          List.getElem?_eq_getElem hj] at this
        exact fun e => this (by simpa using e.symm)
      · intro h i j hij hj e
        rw [← hlen] at hj
        rw [List.getD_eq_getElem?_getD, List.getD_eq_getElem?_getD,
          List.getElem?_eq_getElem (hij.trans hj), List.getElem?_eq_getElem hj] at e
        exact h i j (hij.trans hj) hj hij (by simpa using e.symm)
    rcases sampleRange_spec a l with ⟨hall, hs⟩ | ⟨c, hw, hs, hpos, -⟩
    · have hdup : ¬ (a :: l).Nodup := by
        intro h
        cases l with
        | nil => simp at hlen; omega
        | cons b l =>
          have := hall b List.mem_cons_self
          subst this
          simp at h
      refine ⟨fun h => absurd h hdup, fun _ => ?_⟩
      simp only [fromPoints, hfin, Bool.false_eq_true, if_false, if_neg (not_le.mpr hcount), hs]
    · rw [hrun c hw hs]
      set N : ℕ → ℝ := fun index => ((a :: l).getD index 0 - c) / hw with hN
      set v : ℕ → ℝ := fun index => values.getD index 0 with hv
      have hNe : ∀ i j, N i = N j ↔ (a :: l).getD i 0 = (a :: l).getD j 0 := by
        intro i j
        simp only [hN, div_left_inj' hpos.ne', sub_left_inj]
      rcases bendLoop_spec values.length N v (values.length - 1) 1 v (by omega) le_rfl
        (fun i _ => rfl) with ⟨⟨i, j, h1, h2, -, h4⟩, h5⟩ | ⟨h4, h5⟩
      · refine ⟨fun hnd => ?_, fun _ => by rw [h5]⟩
        exact absurd ((hNe _ _).mp h4) (hnodup.mpr hnd i j h1 h2)
      · refine ⟨fun _ => ?_, fun hnd => ?_⟩
        swap
        · exfalso
          exact hnd (hnodup.mp fun i j h1 h2 e =>
            h4 i j h1 h2 (by omega) ((hNe _ _).mpr e))
        · rw [h5]
          set bends : List ℝ := values.getD 0 0 :: (List.range (values.length - 1)).map
            (fun k => dd N v (1 + k) 0) with hb
          have hbe : bends = (List.range values.length).map fun k => dd N v k 0 := by
            rw [hb]
            obtain ⟨m, hm⟩ : ∃ m, values.length = m + 1 := ⟨values.length - 1, by omega⟩
            rw [hm, Nat.add_sub_cancel, List.range_succ_eq_map, List.map_cons, List.map_map]
            congr 1
            apply List.map_congr_left
            intro k _
            simp only [Function.comp, Nat.succ_eq_add_one]
            rw [add_comm]
          have hbd : ∀ m, m < values.length → bends.getD m 0 = dd N v m 0 := by
            intro m hm
            rw [hbe, List.getD_eq_getElem?_getD, List.getElem?_map, List.getElem?_range hm]
            rfl
          have hlast : bends.getLastD 0 = dd N v (values.length - 1) 0 := by
            rw [← hbd _ (by omega), List.getLastD_eq_getLast?, List.getD_eq_getElem?_getD,
              List.getLast?_eq_getElem?]
            congr 2
            rw [hbe]; simp
          obtain ⟨m, hm⟩ : ∃ m, values.length = m + 1 := ⟨values.length - 1, by omega⟩
          have hz : (zeros (T := ℝ) values.length).modifyHead (fun _ => bends.getLastD 0) =
              dd N v (values.length - 1) 0 :: zeros (values.length - 1) := by
            rw [hlast, hm]; rfl
          have hstart : ofCoeffs (dd N v (values.length - 1) 0 :: zeros (values.length - 1)) =
              C (dd N v (values.length - 1) 0) := by
            simp [ofCoeffs, ofCoeffs_zeros]
          obtain ⟨h6, h7⟩ := foldBends_spec values.length N bends (values.length - 1)
            (dd N v (values.length - 1) 0 :: zeros (values.length - 1))
            (by simp [zeros]; omega) (by omega) (by rw [hstart, natDegree_C]; omega)
          dsimp only
          rw [← hb, hz]
          refine ⟨_, rfl, ?_, ?_⟩
          · rw [(ofCoeffs_shiftArgument _ _).1]
            have : ∀ (f s : ℝ) (q : List ℝ), (scaleArgumentLoop f s q).length = q.length := by
              intro f s q
              induction q generalizing s with
              | nil => rfl
              | cons b q ih => simp [scaleArgumentLoop, ih]
            rw [scaleArgument, this, h6]
          · intro k hk
            rw [((polynomial_substitutions _ _ _).1).1,
              (polynomial_substitutions _ (1 / hw) ((a :: l).getD k 0 + -c)).2.1, evaluate_eq_eval]
            have hx : 1 / hw * ((a :: l).getD k 0 + -c) = N k := by
              simp only [hN]; field_simp; ring
            rw [hx, h7, hstart, eval_C]
            have hint := newton_interpolates N v (values.length - 1) 0 (by
              intro i j _ h1 h2 e
              exact h4 i j h1 (by omega) (by omega) (sub_eq_zero.mp e)) k (Nat.zero_le _) (by omega)
            change _ = v k
            rw [← hint, newton, Finset.sum_range_succ, mul_comm (nodeProd _ _ _ _)]
            congr 1
            apply Finset.sum_congr rfl
            intro m hm'
            rw [hbd m (by have := Finset.mem_range.mp hm'; omega)]

example : ([0, 1, 3, 7] : List ℝ).Nodup ∧
    ([0, 1, 3, 7] : List ℝ).length = ([1, 2, 5, -4] : List ℝ).length := by
  refine ⟨?_, rfl⟩
  norm_num

/-! ### Chebyshev nodes and endpoint data -/

/-- C71. The Chebyshev nodes lie strictly inside the range, in increasing order, and are the points
where the Chebyshev polynomial of that degree vanishes: with `x = centre + halfWidth * cos a`,
`cos (count * a) = 0`. -/
theorem chebyshevNodes_spec (count : ℕ) {lower upper : ℝ} (h : lower < upper) :
    (chebyshevNodes count lower upper).length = count ∧
    (chebyshevNodes count lower upper).Pairwise (· < ·) ∧
    ∀ x ∈ chebyshevNodes count lower upper, lower < x ∧ x < upper ∧
      ((Polynomial.Chebyshev.T ℝ count).eval ((2 * x - (lower + upper)) / (upper - lower)) = 0) := by
  have hpi := Real.pi_pos
  set ang : ℕ → ℝ := fun i => (2 * ((count - 1 - i : ℕ) : ℝ) + 1) * Real.pi / (2 * count) with hang
  have hang0 : ∀ i, i < count → 0 < ang i ∧ ang i < Real.pi := by
    intro i hi
    have hc : (0 : ℝ) < count := by exact_mod_cast (by omega : 0 < count)
    have h1 : ((count - 1 - i : ℕ) : ℝ) + 1 ≤ count := by
      have : (count - 1 - i) + 1 ≤ count := by omega
      exact_mod_cast this
    have h2 : (0 : ℝ) ≤ ((count - 1 - i : ℕ) : ℝ) := Nat.cast_nonneg _
    constructor
    · simp only [hang]; positivity
    · simp only [hang]
      rw [div_lt_iff₀ (by positivity)]
      nlinarith
  have hdec : ∀ i j, i < j → j < count → ang j < ang i := by
    intro i j hij hj
    have hc : (0 : ℝ) < count := by exact_mod_cast (by omega : 0 < count)
    have h1 : ((count - 1 - j : ℕ) : ℝ) < ((count - 1 - i : ℕ) : ℝ) := by
      exact_mod_cast (by omega : count - 1 - j < count - 1 - i)
    simp only [hang]
    apply div_lt_div_of_pos_right _ (by positivity)
    nlinarith
  have hlist : chebyshevNodes count lower upper = (List.range count).map fun i =>
      (lower + upper) * (1 / 2) + (upper - lower) * (1 / 2) * Real.cos (ang i) := by
    simp only [chebyshevNodes, Fns.pi, Fns.cos, hang]
    push_cast
    rfl
  rw [hlist]
  refine ⟨by simp, ?_, ?_⟩
  · rw [List.pairwise_map]
    refine List.pairwise_iff_getElem.mpr ?_
    intro i j hi hj hij
    rw [List.length_range] at hi hj
    rw [List.getElem_range, List.getElem_range]
    have h1 := hdec i j hij hj
    have h2 := Real.strictAntiOn_cos ⟨(hang0 j hj).1.le, (hang0 j hj).2.le⟩
      ⟨(hang0 i hi).1.le, (hang0 i hi).2.le⟩ h1
    nlinarith
  · intro x hx
    obtain ⟨i, hi, rfl⟩ := List.mem_map.mp hx
    have hi := List.mem_range.mp hi
    obtain ⟨h1, h2⟩ := hang0 i hi
    have hc1 : Real.cos (ang i) < 1 := by
      have := Real.strictAntiOn_cos ⟨le_rfl, hpi.le⟩ ⟨h1.le, h2.le⟩ h1
      simpa using this
    have hc2 : -1 < Real.cos (ang i) := by
      have := Real.strictAntiOn_cos ⟨h1.le, h2.le⟩ ⟨hpi.le, le_rfl⟩ h2
      simpa using this
    refine ⟨by nlinarith, by nlinarith, ?_⟩
    have e : (2 * ((lower + upper) * (1 / 2) + (upper - lower) * (1 / 2) * Real.cos (ang i))
        - (lower + upper)) / (upper - lower) = Real.cos (ang i) := by
      have : upper - lower ≠ 0 := by linarith
      field_simp
      ring
    rw [e]
    have hT := Polynomial.Chebyshev.T_real_cos (ang i) (count : ℤ)
    rw [hT]
    have hc : (count : ℝ) ≠ 0 := by
      have : 0 < count := by omega
      positivity
    have : ((count : ℤ) : ℝ) * ang i = ((count - 1 - i : ℕ) : ℝ) * Real.pi + Real.pi / 2 := by
      simp only [hang]; push_cast; field_simp
    rw [this, Real.cos_add_pi_div_two, Real.sin_nat_mul_pi, neg_zero]

example : (chebyshevNodes 5 (-1 : ℝ) 2).length = 5 := (chebyshevNodes_spec 5 (by norm_num)).1

/-- C71. The cubic built from endpoint data has the requested values and slopes at both ends, the
slopes being measured against the outer parameter (`span` long); a span that is not positive is
refused. -/
theorem fromEndpointSlopes_spec (startValue startSlope endValue endSlope span : ℝ) :
    if 0 < span then
      ∃ p, fromEndpointSlopes startValue startSlope endValue endSlope span = .ok p ∧
        p.length = 4 ∧ evaluate p 0 = startValue ∧ evaluate p 1 = endValue ∧
        HasDerivAt (fun t => evaluate p (t / span)) startSlope 0 ∧
        HasDerivAt (fun t => evaluate p (t / span)) endSlope span
    else fromEndpointSlopes startValue startSlope endValue endSlope span
      = .error .spanNotPositive := by
  have hfin : ([startValue, startSlope, endValue, endSlope, span].any fun v => !Fns.isFinite v)
      = false := by
    rw [List.any_eq_false]; intro x _; simp [Fns.isFinite]
  split
  · next h =>
    have hne : span ≠ 0 := h.ne'
    set c := -3 * startValue - 2 * (startSlope * span) + 3 * endValue - endSlope * span with hc
    set d := 2 * startValue + startSlope * span - 2 * endValue + endSlope * span with hd
    have hrun : fromEndpointSlopes startValue startSlope endValue endSlope span =
        .ok [startValue, startSlope * span, c, d] := by
      simp only [fromEndpointSlopes, hfin, Bool.false_eq_true, if_false, if_neg (not_le.mpr h)]
      push_cast
      rfl
    have hval : ∀ x, evaluate [startValue, startSlope * span, c, d] x =
        startValue + startSlope * span * x + c * x ^ 2 + d * x ^ 3 := by
      intro x; simp [evaluate]; ring
    have hder : ∀ t, HasDerivAt (fun t => evaluate [startValue, startSlope * span, c, d] (t / span))
        ((startSlope * span + 2 * c * (t / span) + 3 * d * (t / span) ^ 2) / span) t := by
      intro t
      simp only [hval]
      have h1 : HasDerivAt (fun t : ℝ => t / span) (1 / span) t := (hasDerivAt_id t).div_const span
      have h2 := (((h1.const_mul (startSlope * span)).const_add startValue).add
        ((h1.pow 2).const_mul c)).add ((h1.pow 3).const_mul d)
      refine HasDerivAt.congr_deriv (f := fun t : ℝ => startValue + startSlope * span * (t / span)
        + c * (t / span) ^ 2 + d * (t / span) ^ 3) h2 ?_
      push_cast; ring
    refine ⟨_, hrun, rfl, ?_, ?_, ?_, ?_⟩
    · rw [hval]; ring
    · rw [hval, hc, hd]; ring
    · have := hder 0
      convert this using 1
      field_simp; ring
    · have := hder span
      convert this using 1
      rw [hc, hd]; field_simp; ring
  · next h =>
    simp only [fromEndpointSlopes, hfin, Bool.false_eq_true, if_false, if_pos (not_lt.mp h)]

example : ∃ p, fromEndpointSlopes (1 : ℝ) 2 3 (-1) 5 = .ok p ∧ evaluate p 1 = 3 := by
  have := fromEndpointSlopes_spec 1 2 3 (-1) 5
  rw [if_pos (by norm_num)] at this
  obtain ⟨p, h1, -, -, h2, -⟩ := this
  exact ⟨p, h1, h2⟩

end Poly
end Multicalc
