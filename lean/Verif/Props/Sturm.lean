import Verif.Lemmas.Sturm
import Verif.Props.PolynomialRoots
import Mathlib.Analysis.Polynomial.CauchyBound

/-!
# Counting and isolating real roots (C70)
-/

namespace Multicalc
namespace Poly

open Polynomial

open Classical in
/-- The distinct real roots of `P` in `(a, b]`. -/
noncomputable def rootsBetween (P : ℝ[X]) (a b : ℝ) : Finset ℝ :=
  P.roots.toFinset.filter fun r => a < r ∧ r ≤ b

/-- `x` is a repeated root of `P`. -/
def RepeatedRoot (P : ℝ[X]) (x : ℝ) : Prop :=
  P.eval x = 0 ∧ (Polynomial.derivative P).eval x = 0

open Classical in
theorem countUpTo_sub (Z : Finset ℝ) {a b : ℝ} (hab : a ≤ b) :
    countUpTo Z b = countUpTo Z a + (Z.filter fun r => a < r ∧ r ≤ b).card := by
  unfold countUpTo
  rw [← Finset.card_union_of_disjoint]
  · congr 1
    ext r
    simp only [Finset.mem_union, Finset.mem_filter]
    constructor
    · rintro ⟨h1, h2⟩
      rcases le_or_gt r a with h | h
      · exact .inl ⟨h1, h⟩
      · exact .inr ⟨h1, h, h2⟩
    · rintro (⟨h1, h2⟩ | ⟨h1, h2, h3⟩)
      · exact ⟨h1, h2.trans hab⟩
      · exact ⟨h1, h3⟩
  · rw [Finset.disjoint_left]
    intro r h1 h2
    simp only [Finset.mem_filter] at h1 h2
    exact absurd h1.2 (not_le.mpr h2.2.1)

theorem countBetween_eq {chain : List (List ℝ)} {V : ℝ → ℕ} {P : ℝ[X]}
    (hV : ∀ x, ¬ RepeatedRoot P x → signChanges chain x = V x)
    (hconst : ∀ a b, V a + countUpTo P.roots.toFinset a = V b + countUpTo P.roots.toFinset b)
    {a b : ℝ} (hab : a ≤ b) (ha : ¬ RepeatedRoot P a) (hb : ¬ RepeatedRoot P b) :
    countBetween chain a b = (rootsBetween P a b).card := by
  classical
  rw [countBetween, hV a ha, hV b hb]
  have h1 := hconst a b
  have h2 := countUpTo_sub P.roots.toFinset hab
  have h3 : (rootsBetween P a b).card =
      (P.roots.toFinset.filter fun r => a < r ∧ r ≤ b).card := by
    unfold rootsBetween; congr
  rw [h3]
  have h4 : ∀ x, countUpTo P.roots.toFinset x =
      @countUpTo P.roots.toFinset x (fun r => Classical.propDecidable _) := by
    intro x; unfold countUpTo; congr
  simp only [h4] at h1 h2
  omega

/-- C70. `count_real_roots` is the number of distinct real roots in `(lower, upper]`, for every
polynomial that is not constant and every range whose two ends are not repeated roots.  Missing from
the full claim: an end point that is a repeated root, where the answer is wrong
(`sturm_repeated_lower`, `sturm_repeated_upper`), and constant polynomials
(`sturm_constant_panics`). -/
theorem sturm_count_partial (p : List ℝ) (hdeg : 1 ≤ (ofCoeffs p).natDegree) {a b : ℝ}
    (hab : a ≤ b) (ha : ¬ RepeatedRoot (ofCoeffs p) a) (hb : ¬ RepeatedRoot (ofCoeffs p) b) :
    countRealRoots p a b = .ok (some (rootsBetween (ofCoeffs p) a b).card) := by
  classical
  obtain ⟨chain, h1, -, V, h2, -, h4⟩ := chain_counts p hdeg
  simp only [countRealRoots, h1]
  rw [countBetween_eq (P := ofCoeffs p) h2 (fun a b => by convert h4 a b) hab ha hb]

/-- C70 (finding). When `lower` is a repeated root the count is zero whatever `upper` is. -/
theorem sturm_repeated_lower (p : List ℝ) (hdeg : 1 ≤ (ofCoeffs p).natDegree) (a b : ℝ)
    (ha : RepeatedRoot (ofCoeffs p) a) : countRealRoots p a b = .ok (some 0) := by
  obtain ⟨chain, h1, -, V, -, h3, -⟩ := chain_counts p hdeg
  simp only [countRealRoots, h1, countBetween, h3 a ha.1 ha.2, Nat.zero_sub]

/-- `(x - 2)²(x - 3)`. -/
noncomputable def doubledTwo : List ℝ := [-12, 16, -7, 1]

theorem doubledTwo_poly : ofCoeffs doubledTwo = (X - C 2) ^ 2 * (X - C 3) := by
  apply Polynomial.funext
  intro x
  simp [doubledTwo]
  ring

theorem doubledTwo_natDegree : (ofCoeffs doubledTwo).natDegree = 3 := by
  rw [doubledTwo_poly, natDegree_mul (pow_ne_zero _ (X_sub_C_ne_zero _)) (X_sub_C_ne_zero _),
    natDegree_pow, natDegree_X_sub_C, natDegree_X_sub_C]

theorem doubledTwo_mem (x : ℝ) (a b : ℝ) :
    x ∈ rootsBetween (ofCoeffs doubledTwo) a b ↔ (x = 2 ∨ x = 3) ∧ a < x ∧ x ≤ b := by
  have h0 : ofCoeffs doubledTwo ≠ 0 := by
    intro h; have := doubledTwo_natDegree; rw [h] at this; simp at this
  rw [rootsBetween, Finset.mem_filter, Multiset.mem_toFinset, mem_roots h0, IsRoot.def,
    doubledTwo_poly]
  simp [sub_eq_zero]

theorem doubledTwo_repeated (x : ℝ) : RepeatedRoot (ofCoeffs doubledTwo) x ↔ x = 2 := by
  have hd : (Polynomial.derivative (ofCoeffs doubledTwo)).eval x = (x - 2) * (3 * x - 8) := by
    rw [doubledTwo_poly]
    simp [derivative_mul, derivative_pow]
    ring
  rw [RepeatedRoot, hd, doubledTwo_poly]
  simp only [eval_mul, eval_pow, eval_sub, eval_X, eval_C]
  constructor
  · rintro ⟨h1, h2⟩
    rcases mul_eq_zero.mp h2 with h | h
    · linarith
    · exfalso
      have hx : x = 8 / 3 := by linarith
      rw [hx] at h1; norm_num at h1
  · rintro rfl; norm_num

/-- C70 (finding). The witness for the lower end: `(2, 5]` holds the root 3, yet the count is zero. -/
theorem sturm_repeated_lower_witness :
    countRealRoots doubledTwo 2 5 = .ok (some 0) ∧
      (rootsBetween (ofCoeffs doubledTwo) 2 5).card = 1 := by
  refine ⟨sturm_repeated_lower _ (by rw [doubledTwo_natDegree]; norm_num) _ _
    ((doubledTwo_repeated 2).mpr rfl), ?_⟩
  rw [Finset.card_eq_one]
  refine ⟨3, ?_⟩
  ext x
  rw [doubledTwo_mem, Finset.mem_singleton]
  constructor
  · rintro ⟨rfl | rfl, h1, -⟩
    · exact absurd h1 (lt_irrefl _)
    · rfl
  · rintro rfl; norm_num

/-- C70 (finding). When `upper` is a repeated root the count can be too large: `(-5, 2]` holds one
distinct root of `(x - 2)²(x - 3)`, and the count is at least two. -/
theorem sturm_repeated_upper :
    (rootsBetween (ofCoeffs doubledTwo) (-5) 2).card = 1 ∧
      ∃ n, 2 ≤ n ∧ countRealRoots doubledTwo (-5) 2 = .ok (some n) := by
  refine ⟨?_, ?_⟩
  · rw [Finset.card_eq_one]
    refine ⟨2, ?_⟩
    ext x
    rw [doubledTwo_mem, Finset.mem_singleton]
    constructor
    · rintro ⟨rfl | rfl, -, h2⟩
      · rfl
      · norm_num at h2
    · rintro rfl; norm_num
  · obtain ⟨chain, h1, -, V, h2, h3, h4⟩ := chain_counts doubledTwo
      (by rw [doubledTwo_natDegree]; norm_num)
    refine ⟨signChanges chain (-5), ?_, ?_⟩
    · have hcount := countBetween_eq (P := ofCoeffs doubledTwo) h2 (fun a b => by convert h4 a b)
        (a := -5) (b := 5) (by norm_num)
        (by rw [doubledTwo_repeated]; norm_num) (by rw [doubledTwo_repeated]; norm_num)
      have hc : (rootsBetween (ofCoeffs doubledTwo) (-5) 5).card = 2 := by
        have : rootsBetween (ofCoeffs doubledTwo) (-5) 5 = {2, 3} := by
          ext x
          rw [doubledTwo_mem, Finset.mem_insert, Finset.mem_singleton]
          constructor
          · exact fun h => h.1
          · rintro (rfl | rfl) <;> norm_num
        rw [this, Finset.card_pair (by norm_num)]
      rw [hc, countBetween] at hcount
      omega
    · have := (doubledTwo_repeated 2).mpr rfl
      simp only [countRealRoots, h1, countBetween, h3 2 this.1 this.2, Nat.sub_zero]

/-- C70 (finding). For a nonzero constant held in two or more coefficients the code computes
`length - 2` with `length = 1`: with overflow checks on it panics (`none`). -/
theorem sturm_constant_panics (c : ℝ) (hc : c ≠ 0) (n : ℕ) (a b : ℝ) :
    countRealRoots (c :: 0 :: zeros n) a b = .ok none := by
  have hd : degree (c :: 0 :: zeros n : List ℝ) = some 0 := by
    have hz : ∀ n, degree (zeros n : List ℝ) = none := by
      intro n
      rcases degree_eq (zeros n : List ℝ) with ⟨h, -⟩ | ⟨h, -⟩
      · exact h
      · exact absurd (ofCoeffs_zeros n) h
    simp [degree, hz, hc]
  simp [countRealRoots, rootCountingChain, isFinite_real, hd]

example : countRealRoots [(7 : ℝ), 0] 0 1 = .ok none := sturm_constant_panics 7 (by norm_num) 0 0 1

example : countRealRoots doubledTwo (-5) 5 =
    .ok (some (rootsBetween (ofCoeffs doubledTwo) (-5) 5).card) :=
  sturm_count_partial _ (by rw [doubledTwo_natDegree]; norm_num) (by norm_num)
    (by rw [doubledTwo_repeated]; norm_num) (by rw [doubledTwo_repeated]; norm_num)

/-! ### Isolation -/

/-- `x²(x - 1)`. -/
noncomputable def doubledZero : List ℝ := [0, 0, -1, 1]

theorem doubledZero_poly : ofCoeffs doubledZero = X ^ 2 * (X - C 1) := by
  apply Polynomial.funext
  intro x
  simp [doubledZero]
  ring

theorem doubledZero_natDegree : (ofCoeffs doubledZero).natDegree = 3 := by
  rw [doubledZero_poly, natDegree_mul (pow_ne_zero _ X_ne_zero) (X_sub_C_ne_zero _),
    natDegree_pow, natDegree_X, natDegree_X_sub_C]

theorem doubledZero_mem (x : ℝ) (a b : ℝ) :
    x ∈ rootsBetween (ofCoeffs doubledZero) a b ↔ (x = 0 ∨ x = 1) ∧ a < x ∧ x ≤ b := by
  have h0 : ofCoeffs doubledZero ≠ 0 := by
    intro h; have := doubledZero_natDegree; rw [h] at this; simp at this
  rw [rootsBetween, Finset.mem_filter, Multiset.mem_toFinset, mem_roots h0, IsRoot.def,
    doubledZero_poly]
  simp [sub_eq_zero]

theorem doubledZero_repeated (x : ℝ) : RepeatedRoot (ofCoeffs doubledZero) x ↔ x = 0 := by
  have hd : (Polynomial.derivative (ofCoeffs doubledZero)).eval x = x * (3 * x - 2) := by
    rw [doubledZero_poly]
    simp [derivative_mul, derivative_pow]
    ring
  rw [RepeatedRoot, hd, doubledZero_poly]
  simp only [eval_mul, eval_pow, eval_sub, eval_X, eval_C]
  constructor
  · rintro ⟨h1, h2⟩
    rcases mul_eq_zero.mp h2 with h | h
    · exact h
    · exfalso
      have hx : x = 2 / 3 := by linarith
      rw [hx] at h1; norm_num at h1
  · rintro rfl; norm_num

/-- C70 (finding). `real_roots_in` on `x²(x - 1)` over `(-4, 4]` fails with `DidNotConverge` for
every tolerance and every budget: the first midpoint is the repeated root, after which the left half
is split for ever. -/
theorem realRootsIn_never_converges (tolerance : ℝ) (ht : 0 < tolerance) (budget : ℕ) :
    realRootsIn doubledZero (-4) 4 tolerance budget = .error (.didNotConverge budget) := by
  obtain ⟨chain, h1, -, V, h2, h3, h4⟩ := chain_counts doubledZero
    (by rw [doubledZero_natDegree]; norm_num)
  have hcnt : ∀ a b : ℝ, a ≤ b → a ≠ 0 → b ≠ 0 → countBetween chain a b =
      (rootsBetween (ofCoeffs doubledZero) a b).card := fun a b hab ha hb =>
    countBetween_eq (P := ofCoeffs doubledZero) h2 (fun a b => by convert h4 a b) hab
      (by rw [doubledZero_repeated]; exact ha) (by rw [doubledZero_repeated]; exact hb)
  have hz : signChanges chain 0 = 0 :=
    h3 0 ((doubledZero_repeated 0).mpr rfl).1 ((doubledZero_repeated 0).mpr rfl).2
  have htwo : ∀ c : ℝ, c < 0 → 2 ≤ signChanges chain c := by
    intro c hc
    have h := hcnt c 4 (by linarith) hc.ne (by norm_num)
    have : rootsBetween (ofCoeffs doubledZero) c 4 = {0, 1} := by
      ext x
      rw [doubledZero_mem, Finset.mem_insert, Finset.mem_singleton]
      constructor
      · exact fun h => h.1
      · rintro (rfl | rfl)
        · norm_num; exact hc
        · norm_num; linarith
    rw [this, Finset.card_pair (by norm_num), countBetween] at h
    omega
  have hleft : ∀ c : ℝ, c < 0 → 2 ≤ countBetween chain c 0 := by
    intro c hc
    rw [countBetween, hz, Nat.sub_zero]; exact htwo c hc
  have hright : ∀ b : ℝ, countBetween chain 0 b = 0 := by
    intro b; rw [countBetween, hz, Nat.zero_sub]
  have hloop : ∀ (remaining : ℕ) (c : ℝ), c < 0 →
      separate chain tolerance 4 remaining [(c, 0)] [] = none := by
    intro remaining
    induction remaining with
    | zero =>
      intro c hc
      rw [separate]
      have := hleft c hc
      rw [if_neg (by omega)]
    | succ r ih =>
      intro c hc
      rw [separate]
      have h5 := hleft c hc
      rw [if_neg (by omega)]
      have hm : (c + 0) * (1 / ((2 : ℕ) : ℝ)) = c / 2 := by push_cast; ring
      simp only [hm]
      have h6 : countBetween chain c (c / 2) = 0 := by
        rw [hcnt c (c / 2) (by linarith) hc.ne (by linarith), Finset.card_eq_zero]
        ext x
        rw [doubledZero_mem]
        simp only [Finset.notMem_empty, iff_false]
        rintro ⟨rfl | rfl, h7, h8⟩ <;> linarith
      have h7 := hleft (c / 2) (by linarith)
      rw [h6, if_neg (lt_irrefl 0), if_pos (by omega)]
      have h8 : addRange 4 ([] : List (ℝ × ℝ)) (c / 2, 0) = [(c / 2, 0)] := by simp [addRange]
      rw [h8]
      exact ih (c / 2) (by linarith)
  have hfin : ∀ x : ℝ, Fns.isFinite x = true := fun _ => rfl
  simp only [realRootsIn, hfin, Bool.not_true, Bool.or_self, Bool.false_eq_true, if_false, h1]
  rw [if_neg (not_le.mpr ht), if_neg (by norm_num)]
  have hall : countBetween chain (-4) 4 = 2 := by
    rw [hcnt (-4) 4 (by norm_num) (by norm_num) (by norm_num)]
    have : rootsBetween (ofCoeffs doubledZero) (-4) 4 = {0, 1} := by
      ext x
      rw [doubledZero_mem, Finset.mem_insert, Finset.mem_singleton]
      constructor
      · exact fun h => h.1
      · rintro (rfl | rfl) <;> norm_num
    rw [this, Finset.card_pair (by norm_num)]
  have hlen : doubledZero.length = 4 := rfl
  have hadd : addRange 4 ([] : List (ℝ × ℝ)) (-4, 4) = [(-4, 4)] := by simp [addRange]
  simp only [hall, hlen, Nat.ofNat_pos, if_true, hadd]
  have hsep : separate chain tolerance 4 budget [(-4, 4)] [] = none := by
    cases budget with
    | zero => rw [separate, if_neg (by omega)]
    | succ r =>
      rw [separate, if_neg (by omega)]
      have hm : ((-4 : ℝ) + 4) * (1 / ((2 : ℕ) : ℝ)) = 0 := by norm_num
      simp only [hm, hright, lt_irrefl, if_false]
      rw [if_pos (by have := hleft (-4) (by norm_num); omega)]
      have h8 : addRange 4 ([] : List (ℝ × ℝ)) (-4, 0) = [(-4, 0)] := by simp [addRange]
      rw [h8]
      exact hloop r (-4) (by norm_num)
  rw [hsep]

/-- The points that repeated halving of `[lower, upper]` can reach. -/
def HalvingPoint (lower upper x : ℝ) : Prop :=
  ∃ k n : ℕ, k ≤ 2 ^ n ∧ x = lower + k / 2 ^ n * (upper - lower)

theorem HalvingPoint.lower (a b : ℝ) : HalvingPoint a b a := ⟨0, 0, by norm_num, by norm_num⟩

theorem HalvingPoint.upper (a b : ℝ) : HalvingPoint a b b := ⟨1, 0, by norm_num, by norm_num⟩

theorem HalvingPoint.mid {a b x y : ℝ} (hx : HalvingPoint a b x) (hy : HalvingPoint a b y) :
    HalvingPoint a b ((x + y) * (1 / ((2 : ℕ) : ℝ))) := by
  obtain ⟨k, n, hk, rfl⟩ := hx
  obtain ⟨l, m, hl, rfl⟩ := hy
  refine ⟨k * 2 ^ m + l * 2 ^ n, n + m + 1, ?_, ?_⟩
  · calc k * 2 ^ m + l * 2 ^ n ≤ 2 ^ n * 2 ^ m + 2 ^ m * 2 ^ n := by gcongr
      _ = 2 ^ (n + m + 1) := by ring
  · push_cast
    have h1 : (2 : ℝ) ^ n ≠ 0 := by positivity
    have h2 : (2 : ℝ) ^ m ≠ 0 := by positivity
    field_simp
    ring

theorem rootsBetween_split (P : ℝ[X]) {a m b : ℝ} (h1 : a ≤ m) (h2 : m ≤ b) :
    (rootsBetween P a b).val = (rootsBetween P a m).val + (rootsBetween P m b).val := by
  classical
  have hd : Disjoint (rootsBetween P a m) (rootsBetween P m b) := by
    rw [Finset.disjoint_left]
    intro r h3 h4
    simp only [rootsBetween, Finset.mem_filter] at h3 h4
    exact absurd h3.2.2 (not_le.mpr h4.2.1)
  have : rootsBetween P a b = (rootsBetween P a m).disjUnion (rootsBetween P m b) hd := by
    ext r
    simp only [rootsBetween, Finset.mem_disjUnion, Finset.mem_filter]
    constructor
    · rintro ⟨h3, h4, h5⟩
      rcases le_or_gt r m with h | h
      · exact .inl ⟨h3, h4, h⟩
      · exact .inr ⟨h3, h, h5⟩
    · rintro (⟨h3, h4, h5⟩ | ⟨h3, h4, h5⟩)
      · exact ⟨h3, h4, h5.trans h2⟩
      · exact ⟨h3, h1.trans_lt h4, h5⟩
  rw [this, Finset.disjUnion_val]

theorem rootsBetween_card_split (P : ℝ[X]) {a m b : ℝ} (h1 : a ≤ m) (h2 : m ≤ b) :
    (rootsBetween P a b).card = (rootsBetween P a m).card + (rootsBetween P m b).card := by
  have := congrArg Multiset.card (rootsBetween_split P h1 h2)
  rw [Multiset.card_add] at this
  exact this

theorem mem_rootsBetween_range {P : ℝ[X]} {a b r : ℝ} (h : r ∈ rootsBetween P a b) :
    a < r ∧ r ≤ b := by
  classical
  exact (Finset.mem_filter.mp h).2

section
variable {P : ℝ[X]} {chain : List (List ℝ)} {lower upper tolerance : ℝ}

theorem mid_bounds {low high : ℝ} (h : low ≤ high) :
    low ≤ (low + high) * (1 / ((2 : ℕ) : ℝ)) ∧ (low + high) * (1 / ((2 : ℕ) : ℝ)) ≤ high := by
  push_cast; constructor <;> linarith

theorem closeIn_spec
    (hcnt : ∀ a b, HalvingPoint lower upper a → HalvingPoint lower upper b → a ≤ b →
      countBetween chain a b = (rootsBetween P a b).card) :
    ∀ (remaining : ℕ) (low high : ℝ), HalvingPoint lower upper low →
      HalvingPoint lower upper high → low ≤ high → (rootsBetween P low high).card = 1 →
      (∀ v left, closeIn chain tolerance remaining low high = some (v, left) →
        ∃ r, (rootsBetween P low high).val = {r} ∧ |v - r| ≤ tolerance / 2) ∧
      (∀ (W : ℝ) (k K : ℕ), high - low = W / 2 ^ k → W / 2 ^ K ≤ tolerance → 0 ≤ W →
        K - k ≤ remaining → ∃ v left, closeIn chain tolerance remaining low high = some (v, left) ∧
          remaining ≤ left + (K - k)) := by
  intro remaining
  have hdone : ∀ low high : ℝ, low ≤ high → (rootsBetween P low high).card = 1 →
      high - low ≤ tolerance → ∃ r, (rootsBetween P low high).val = {r} ∧
        |(low + high) * (1 / ((2 : ℕ) : ℝ)) - r| ≤ tolerance / 2 := by
    intro low high hle h1 hw
    obtain ⟨r, hr⟩ := Finset.card_eq_one.mp h1
    have hr2 : r ∈ rootsBetween P low high := by rw [hr]; simp
    have := mem_rootsBetween_range hr2
    refine ⟨r, by rw [hr]; rfl, ?_⟩
    rw [abs_le]; push_cast; constructor <;> linarith
  have hk : ∀ (W : ℝ) (k K : ℕ), W / 2 ^ K ≤ tolerance → 0 ≤ W → tolerance < W / 2 ^ k → k < K := by
    intro W k K h1 h2 h3
    by_contra hcon
    have : W / 2 ^ k ≤ W / 2 ^ K :=
      div_le_div_of_nonneg_left h2 (by positivity) (pow_le_pow_right₀ (by norm_num) (not_lt.mp hcon))
    linarith
  induction remaining with
  | zero =>
    intro low high hl hh hle h1
    constructor
    · intro v left h
      rw [closeIn] at h
      split at h
      · cases h
      · next hw =>
        cases h
        exact hdone low high hle h1 (not_lt.mp hw)
    · intro W k K hw htol hW hrem
      rw [closeIn]
      by_cases hlt : tolerance < high - low
      · have := hk W k K htol hW (hw ▸ hlt); omega
      · rw [if_neg hlt]; exact ⟨_, _, rfl, by omega⟩
  | succ n ih =>
    intro low high hl hh hle h1
    obtain ⟨hm1, hm2⟩ := mid_bounds hle
    have hmid := hl.mid hh
    have hsplit := rootsBetween_split P hm1 hm2
    have hcard := rootsBetween_card_split P hm1 hm2
    have hA := ih low _ hl hmid hm1
    have hB := ih _ high hmid hh hm2
    have hc := hcnt low _ hl hmid hm1
    constructor
    · intro v left h
      rw [closeIn] at h
      split at h
      · dsimp only at h
        rw [hc] at h
        split at h
        · next hone =>
          obtain ⟨r, h2, h3⟩ := (hA hone).1 v left h
          have : (rootsBetween P ((low + high) * (1 / ((2 : ℕ) : ℝ))) high).card = 0 := by omega
          rw [Finset.card_eq_zero] at this
          exact ⟨r, by rw [hsplit, h2, this]; rfl, h3⟩
        · next hone =>
          have h0 : (rootsBetween P low ((low + high) * (1 / ((2 : ℕ) : ℝ)))).card = 0 := by omega
          obtain ⟨r, h2, h3⟩ := (hB (by omega)).1 v left h
          rw [Finset.card_eq_zero] at h0
          exact ⟨r, by rw [hsplit, h2, h0]; simp, h3⟩
      · next hw =>
        cases h
        exact hdone low high hle h1 (not_lt.mp hw)
    · intro W k K hw htol hW hrem
      rw [closeIn]
      by_cases hlt : tolerance < high - low
      · have hkK := hk W k K htol hW (hw ▸ hlt)
        rw [if_pos hlt]
        dsimp only
        rw [hc]
        have e1 : (low + high) * (1 / ((2 : ℕ) : ℝ)) - low = W / 2 ^ (k + 1) := by
          have : W / 2 ^ (k + 1) = (high - low) / 2 := by rw [hw, pow_succ]; field_simp
          rw [this]; push_cast; ring
        have e2 : high - (low + high) * (1 / ((2 : ℕ) : ℝ)) = W / 2 ^ (k + 1) := by
          have : W / 2 ^ (k + 1) = (high - low) / 2 := by rw [hw, pow_succ]; field_simp
          rw [this]; push_cast; ring
        split
        · next hone =>
          obtain ⟨v, left, h2, h3⟩ := (hA hone).2 W (k + 1) K e1 htol hW (by omega)
          exact ⟨v, left, h2, by omega⟩
        · next hone =>
          obtain ⟨v, left, h2, h3⟩ := (hB (by omega)).2 W (k + 1) K e2 htol hW (by omega)
          exact ⟨v, left, h2, by omega⟩
      · rw [if_neg hlt]; exact ⟨_, _, rfl, by omega⟩

/-- A pending range with the number of halvings that made it. -/
abbrev Pending := (ℝ × ℝ) × ℕ

/-- The roots in the pending ranges. -/
noncomputable def pendingRoots (P : ℝ[X]) (l : List Pending) : Multiset ℝ :=
  (l.map fun q => (rootsBetween P q.1.1 q.1.2).val).sum

/-- Halvings still needed when every range may be halved down to depth `K`. -/
noncomputable def pendingCost (P : ℝ[X]) (K : ℕ) (l : List Pending) : ℕ :=
  (l.map fun q => (rootsBetween P q.1.1 q.1.2).card * (K - q.2)).sum

/-- What holds of a pending range. -/
structure PendingOk (P : ℝ[X]) (lower upper : ℝ) (q : Pending) : Prop where
  low : HalvingPoint lower upper q.1.1
  high : HalvingPoint lower upper q.1.2
  le : q.1.1 ≤ q.1.2
  width : q.1.2 - q.1.1 = (upper - lower) / 2 ^ q.2
  some : 1 ≤ (rootsBetween P q.1.1 q.1.2).card

theorem length_le_pendingRoots {l : List Pending} (h : ∀ q ∈ l, PendingOk P lower upper q) :
    l.length ≤ Multiset.card (pendingRoots P l) := by
  induction l with
  | nil => simp
  | cons q l ih =>
    have h1 := ih fun q hq => h q (List.mem_cons_of_mem _ hq)
    have h2 := (h q List.mem_cons_self).some
    simp only [pendingRoots, List.map_cons, List.sum_cons, Multiset.card_add, List.length_cons]
      at h1 ⊢
    change 1 ≤ Multiset.card (rootsBetween P q.1.1 q.1.2).val at h2
    omega

theorem separate_spec (capacity : ℕ) (hle : lower ≤ upper)
    (hcnt : ∀ a b, HalvingPoint lower upper a → HalvingPoint lower upper b → a ≤ b →
      countBetween chain a b = (rootsBetween P a b).card) :
    ∀ (remaining : ℕ) (l : List Pending) (roots : List ℝ),
      (∀ q ∈ l, PendingOk P lower upper q) →
      roots.length + Multiset.card (pendingRoots P l) ≤ capacity →
      (∀ out, separate chain tolerance capacity remaining (l.map Prod.fst) roots = some out →
        ∃ vs : List ℝ, out = roots ++ vs ∧
          Multiset.Rel (fun v r => |v - r| ≤ tolerance / 2) (vs : Multiset ℝ) (pendingRoots P l)) ∧
      (∀ K : ℕ, (upper - lower) / 2 ^ K ≤ tolerance →
        (∀ r ∈ pendingRoots P l, ∀ s ∈ pendingRoots P l, r < s → (upper - lower) / 2 ^ K ≤ s - r) →
        pendingCost P K l ≤ remaining →
        separate chain tolerance capacity remaining (l.map Prod.fst) roots ≠ none) := by
  intro remaining
  induction remaining using Nat.strong_induction_on with
  | _ remaining ihr =>
  intro l
  induction l with
  | nil =>
    intro roots _ _
    refine ⟨?_, ?_⟩
    · intro out h
      rw [List.map_nil, separate] at h
      cases h
      exact ⟨[], by simp, by simp [pendingRoots]⟩
    · intro K _ _ _
      rw [List.map_nil, separate]; simp
  | cons q l ihl =>
    intro roots hok hcap
    obtain ⟨⟨low, high⟩, k⟩ := q
    have hq := hok _ List.mem_cons_self
    have hrest : ∀ q ∈ l, PendingOk P lower upper q := fun q hq => hok q (List.mem_cons_of_mem _ hq)
    obtain ⟨hl, hh, hlh, hw, hsome⟩ := hq
    dsimp only at hl hh hlh hw hsome
    have hpr : pendingRoots P (((low, high), k) :: l) =
        (rootsBetween P low high).val + pendingRoots P l := by
      simp [pendingRoots]
    have hpc : ∀ K, pendingCost P K (((low, high), k) :: l) =
        (rootsBetween P low high).card * (K - k) + pendingCost P K l := by
      intro K; simp [pendingCost]
    rw [hpr, Multiset.card_add] at hcap
    change roots.length + ((rootsBetween P low high).card + _) ≤ capacity at hcap
    have hll := length_le_pendingRoots hrest
    have hc0 := hcnt low high hl hh hlh
    simp only [List.map_cons, hpr, hpc]
    rw [separate.eq_def]
    dsimp only
    rw [hc0]
    by_cases hone : (rootsBetween P low high).card = 1
    · rw [if_pos hone]
      have hclose := closeIn_spec (tolerance := tolerance) hcnt remaining low high hl hh hlh hone
      have hpush : ∀ v : ℝ, pushRoot capacity roots v = roots ++ [v] := by
        intro v; rw [pushRoot, if_pos (by omega)]
      have hnext : ∀ v left, left ≤ remaining → _ := fun v left (hle' : left ≤ remaining) =>
        (show (∀ out, separate chain tolerance capacity left (l.map Prod.fst) (roots ++ [v])
            = some out → ∃ vs : List ℝ, out = roots ++ [v] ++ vs ∧
              Multiset.Rel (fun v r => |v - r| ≤ tolerance / 2) (vs : Multiset ℝ)
                (pendingRoots P l)) ∧
          (∀ K : ℕ, (upper - lower) / 2 ^ K ≤ tolerance →
            (∀ r ∈ pendingRoots P l, ∀ s ∈ pendingRoots P l, r < s →
              (upper - lower) / 2 ^ K ≤ s - r) →
            pendingCost P K l ≤ left →
            separate chain tolerance capacity left (l.map Prod.fst) (roots ++ [v]) ≠ none) from by
          have hcap' : (roots ++ [v]).length + Multiset.card (pendingRoots P l) ≤ capacity := by
            rw [List.length_append, List.length_singleton]; omega
          rcases Nat.lt_or_eq_of_le hle' with h | h
          · exact ihr left h l _ hrest hcap'
          · subst h; exact ihl _ hrest hcap')
      constructor
      · intro out hout
        split at hout
        · cases hout
        · next v left hcl =>
          rw [hpush] at hout
          obtain ⟨vs, h1, h2⟩ := (hnext v left (closeIn_remaining _ _ _ _ _ _ _ hcl)).1 out hout
          obtain ⟨r, h3, h4⟩ := hclose.1 v left hcl
          refine ⟨v :: vs, by simp [h1], ?_⟩
          rw [h3, ← Multiset.cons_coe, Multiset.singleton_add]
          exact Multiset.Rel.cons h4 h2
      · intro K htol hsep hcost
        rw [hone, one_mul] at hcost
        obtain ⟨v, left, h1, h2⟩ := hclose.2 (upper - lower) k K hw htol (by linarith) (by omega)
        split
        · next hcl => rw [h1] at hcl; cases hcl
        · next v' left' hcl =>
          rw [h1] at hcl
          cases hcl
          rw [hpush]
          refine (hnext v left (by exact closeIn_remaining _ _ _ _ _ _ _ h1)).2 K htol ?_ (by omega)
          intro r hr s hs
          exact hsep r (Multiset.mem_add.mpr (.inr hr)) s (Multiset.mem_add.mpr (.inr hs))
    · rw [if_neg hone]
      cases remaining with
      | zero =>
        refine ⟨fun out h => by simp at h, ?_⟩
        intro K htol hsep hcost
        exfalso
        obtain ⟨r, hr, s, hs, hrs⟩ := Finset.one_lt_card.mp
          (show 1 < (rootsBetween P low high).card by omega)
        have hKk : K - k = 0 := by
          rcases Nat.eq_zero_or_pos (K - k) with h | h
          · exact h
          · have : 0 < (rootsBetween P low high).card * (K - k) := Nat.mul_pos (by omega) h
            omega
        have hpow : (upper - lower) / 2 ^ k ≤ (upper - lower) / 2 ^ K :=
          div_le_div_of_nonneg_left (by linarith) (by positivity)
            (pow_le_pow_right₀ (by norm_num) (by omega))
        have hr' := mem_rootsBetween_range hr
        have hs' := mem_rootsBetween_range hs
        rcases lt_or_gt_of_ne hrs with h | h
        · have := hsep r (Multiset.mem_add.mpr (.inl hr)) s (Multiset.mem_add.mpr (.inl hs)) h
          linarith
        · have := hsep s (Multiset.mem_add.mpr (.inl hs)) r (Multiset.mem_add.mpr (.inl hr)) h
          linarith
      | succ n =>
        dsimp only
        obtain ⟨hm1, hm2⟩ := mid_bounds hlh
        have hmid := hl.mid hh
        have e1 : (low + high) * (1 / ((2 : ℕ) : ℝ)) - low = (upper - lower) / 2 ^ (k + 1) := by
          have : (upper - lower) / 2 ^ (k + 1) = (high - low) / 2 := by
            rw [hw, pow_succ]; field_simp
          rw [this]; push_cast; ring
        have e2 : high - (low + high) * (1 / ((2 : ℕ) : ℝ)) = (upper - lower) / 2 ^ (k + 1) := by
          have : (upper - lower) / 2 ^ (k + 1) = (high - low) / 2 := by
            rw [hw, pow_succ]; field_simp
          rw [this]; push_cast; ring
        generalize hmdef : (low + high) * (1 / ((2 : ℕ) : ℝ)) = m at hm1 hm2 hmid e1 e2 ⊢
        have hsplit := rootsBetween_split P hm1 hm2
        have hcard := rootsBetween_card_split P hm1 hm2
        rw [hcnt low m hl hmid hm1, hcnt m high hmid hh hm2]
        set A : Pending := ((low, m), k + 1) with hA
        set B : Pending := ((m, high), k + 1) with hB
        have hAok : 0 < (rootsBetween P low m).card → PendingOk P lower upper A :=
          fun h => ⟨hl, hmid, hm1, e1, h⟩
        have hBok : 0 < (rootsBetween P m high).card → PendingOk P lower upper B :=
          fun h => ⟨hmid, hh, hm2, e2, h⟩
        -- the new stack, with depths
        obtain ⟨l', hmap, hok', hroots', hcost'⟩ : ∃ l' : List Pending,
            (if 0 < (rootsBetween P m high).card then
              addRange capacity (if 0 < (rootsBetween P low m).card then
                addRange capacity (l.map Prod.fst) (low, m) else l.map Prod.fst) (m, high)
              else (if 0 < (rootsBetween P low m).card then
                addRange capacity (l.map Prod.fst) (low, m) else l.map Prod.fst))
              = l'.map Prod.fst ∧ (∀ q ∈ l', PendingOk P lower upper q) ∧
            pendingRoots P l' = (rootsBetween P low high).val + pendingRoots P l ∧
            ∀ K, pendingCost P K l' = (rootsBetween P low high).card * (K - (k + 1))
              + pendingCost P K l := by
          by_cases ha : 0 < (rootsBetween P low m).card <;>
            by_cases hb : 0 < (rootsBetween P m high).card
          · refine ⟨B :: A :: l, ?_, ?_, ?_, ?_⟩
            · have hadd : addRange capacity (l.map Prod.fst) (low, m) = (low, m) :: l.map Prod.fst := by
                rw [addRange, if_pos (by rw [List.length_map]; omega)]
              rw [if_pos ha, if_pos hb, hadd, addRange,
                if_pos (by rw [List.length_cons, List.length_map]; omega)]
              simp [hA, hB]
            · intro q hq
              rcases List.mem_cons.mp hq with rfl | hq
              · exact hBok hb
              · rcases List.mem_cons.mp hq with rfl | hq
                · exact hAok ha
                · exact hrest q hq
            · rw [hsplit]; simp only [pendingRoots, List.map_cons, List.sum_cons, hA, hB]
              abel
            · intro K; rw [hcard]; simp only [pendingCost, List.map_cons, List.sum_cons, hA, hB]
              ring
          · have hb0 : (rootsBetween P m high).card = 0 := by omega
            refine ⟨A :: l, ?_, ?_, ?_, ?_⟩
            · rw [if_pos ha, if_neg hb, addRange, if_pos (by rw [List.length_map]; omega)]
              simp [hA]
            · intro q hq
              rcases List.mem_cons.mp hq with rfl | hq
              · exact hAok ha
              · exact hrest q hq
            · rw [hsplit, Finset.card_eq_zero.mp hb0]
              simp [pendingRoots, hA]
            · intro K; rw [hcard, hb0]; simp [pendingCost, hA]
          · have ha0 : (rootsBetween P low m).card = 0 := by omega
            refine ⟨B :: l, ?_, ?_, ?_, ?_⟩
            · rw [if_neg ha, if_pos hb, addRange, if_pos (by rw [List.length_map]; omega)]
              simp [hB]
            · intro q hq
              rcases List.mem_cons.mp hq with rfl | hq
              · exact hBok hb
              · exact hrest q hq
            · rw [hsplit, Finset.card_eq_zero.mp ha0]
              simp [pendingRoots, hB]
            · intro K; rw [hcard, ha0]; simp [pendingCost, hB]
          · omega
        rw [hmap, ← hroots']
        have := ihr n (Nat.lt_succ_self n) l' roots hok' (by
          rw [hroots', Multiset.card_add]; exact hcap)
        refine ⟨this.1, ?_⟩
        intro K htol hsep hcost
        refine this.2 K htol hsep ?_
        rw [hcost']
        rcases Nat.lt_or_ge k K with hkK | hkK
        · have : (rootsBetween P low high).card * (K - k) =
              (rootsBetween P low high).card * (K - (k + 1)) + (rootsBetween P low high).card := by
            rw [show K - k = (K - (k + 1)) + 1 by omega, Nat.mul_succ]
          omega
        · exfalso
          obtain ⟨r, hr, s, hs, hrs⟩ := Finset.one_lt_card.mp
            (show 1 < (rootsBetween P low high).card by omega)
          have hpow : (upper - lower) / 2 ^ k ≤ (upper - lower) / 2 ^ K :=
            div_le_div_of_nonneg_left (by linarith) (by positivity)
              (pow_le_pow_right₀ (by norm_num) hkK)
          have hr' := mem_rootsBetween_range hr
          have hs' := mem_rootsBetween_range hs
          rw [hroots'] at hsep
          rcases lt_or_gt_of_ne hrs with h | h
          · have := hsep r (Multiset.mem_add.mpr (.inl hr)) s (Multiset.mem_add.mpr (.inl hs)) h
            linarith
          · have := hsep s (Multiset.mem_add.mpr (.inl hs)) r (Multiset.mem_add.mpr (.inl hr)) h
            linarith

end

/-- C70. `real_roots_in` finds exactly the distinct roots in `(lower, upper]`, each within half the
tolerance, in ascending order, or reports `DidNotConverge`; a budget of (number of roots) × `K`
always suffices when `2^K` pieces of the range are no wider than the tolerance and than every gap
between two roots.  Missing from the full claim: repeated roots that coincide with an end point or a
bisection point (`realRootsIn_never_converges`). -/
theorem realRootsIn_partial (p : List ℝ) (hdeg : 1 ≤ (ofCoeffs p).natDegree)
    {lower upper tolerance : ℝ} (hle : lower ≤ upper) (ht : 0 < tolerance) (budget : ℕ)
    (hsimple : ∀ x, HalvingPoint lower upper x → ¬ RepeatedRoot (ofCoeffs p) x) :
    ((∃ found : List ℝ, realRootsIn p lower upper tolerance budget = .ok (some found) ∧
        found.Pairwise (· ≤ ·) ∧
        Multiset.Rel (fun v r => |v - r| ≤ tolerance / 2) (found : Multiset ℝ)
          (rootsBetween (ofCoeffs p) lower upper).val) ∨
      realRootsIn p lower upper tolerance budget = .error (.didNotConverge budget)) ∧
    ∀ K : ℕ, (upper - lower) / 2 ^ K ≤ tolerance →
      (∀ r ∈ rootsBetween (ofCoeffs p) lower upper, ∀ s ∈ rootsBetween (ofCoeffs p) lower upper,
        r < s → (upper - lower) / 2 ^ K ≤ s - r) →
      (rootsBetween (ofCoeffs p) lower upper).card * K ≤ budget →
      realRootsIn p lower upper tolerance budget ≠ .error (.didNotConverge budget) := by
  classical
  obtain ⟨chain, h1, -, V, h2, -, h4⟩ := chain_counts p hdeg
  have hcnt : ∀ a b, HalvingPoint lower upper a → HalvingPoint lower upper b → a ≤ b →
      countBetween chain a b = (rootsBetween (ofCoeffs p) a b).card := fun a b ha hb hab =>
    countBetween_eq (P := ofCoeffs p) h2 (fun a b => by convert h4 a b) hab
      (hsimple a ha) (hsimple b hb)
  have hlen : (rootsBetween (ofCoeffs p) lower upper).card ≤ p.length := by
    have ha : (rootsBetween (ofCoeffs p) lower upper).card ≤ (ofCoeffs p).natDegree := by
      calc _ ≤ (ofCoeffs p).roots.toFinset.card := Finset.card_filter_le _ _
        _ ≤ Multiset.card (ofCoeffs p).roots := Multiset.toFinset_card_le _
        _ ≤ _ := card_roots' _
    have hb := degree_ofCoeffs_lt p
    have hc : (ofCoeffs p).natDegree < p.length := by
      have h0 : ofCoeffs p ≠ 0 := by intro h; rw [h] at hdeg; simp at hdeg
      exact (natDegree_lt_iff_degree_lt h0).mpr hb
    omega
  have hfin : ∀ x : ℝ, Fns.isFinite x = true := fun _ => rfl
  have hrun : realRootsIn p lower upper tolerance budget =
      match separate chain tolerance p.length budget
        (if 0 < (rootsBetween (ofCoeffs p) lower upper).card
          then addRange p.length [] (lower, upper) else []) [] with
      | none => .error (.didNotConverge budget)
      | some roots => .ok (some (sortAscending roots)) := by
    simp only [realRootsIn, hfin, Bool.not_true, Bool.or_self, Bool.false_eq_true, if_false, h1]
    rw [if_neg (not_le.mpr ht), if_neg (not_lt.mpr hle),
      hcnt lower upper (.lower _ _) (.upper _ _) hle]
    cases separate chain tolerance p.length budget
        (if 0 < (rootsBetween (ofCoeffs p) lower upper).card
          then addRange p.length [] (lower, upper) else []) [] <;> rfl
  obtain ⟨l, hl1, hl2, hl3, hl4⟩ : ∃ l : List Pending,
      (if 0 < (rootsBetween (ofCoeffs p) lower upper).card
          then addRange p.length [] (lower, upper) else []) = l.map Prod.fst ∧
      (∀ q ∈ l, PendingOk (ofCoeffs p) lower upper q) ∧
      pendingRoots (ofCoeffs p) l = (rootsBetween (ofCoeffs p) lower upper).val ∧
      ∀ K, pendingCost (ofCoeffs p) K l = (rootsBetween (ofCoeffs p) lower upper).card * K := by
    by_cases hpos : 0 < (rootsBetween (ofCoeffs p) lower upper).card
    · refine ⟨[((lower, upper), 0)], ?_, ?_, ?_, ?_⟩
      · rw [if_pos hpos, addRange, if_pos (by rw [List.length_nil]; omega)]; rfl
      · intro q hq
        rw [List.mem_singleton.mp hq]
        exact ⟨.lower _ _, .upper _ _, hle, by simp, hpos⟩
      · simp [pendingRoots]
      · intro K; simp [pendingCost]
    · have h0 : (rootsBetween (ofCoeffs p) lower upper).card = 0 := by omega
      refine ⟨[], by rw [if_neg hpos]; rfl, by simp, ?_, ?_⟩
      · rw [Finset.card_eq_zero.mp h0]; simp [pendingRoots]
      · intro K; rw [h0]; simp [pendingCost]
  have key := separate_spec (tolerance := tolerance) p.length hle hcnt budget l [] hl2
    (by rw [hl3, List.length_nil, zero_add]; exact hlen)
  rw [hrun, hl1]
  constructor
  · cases hs : separate chain tolerance p.length budget (l.map Prod.fst) [] with
    | none => right; rfl
    | some out =>
      left
      obtain ⟨vs, h5, h6⟩ := key.1 out hs
      rw [List.nil_append] at h5
      refine ⟨_, rfl, (sortAscending_spec out).1, ?_⟩
      rw [sortAscending_coe, h5, ← hl3]
      exact h6
  · intro K h5 h6 h7
    have := key.2 K h5 (by rw [hl3]; exact h6) (by rw [hl4]; exact h7)
    cases hs : separate chain tolerance p.length budget (l.map Prod.fst) [] with
    | none => exact absurd hs this
    | some out => simp

/-- C70. A worked case for `realRootsIn_partial`: `x - 1` on `(-2, 3]` has no repeated root, one
root, and a budget of ten suffices for a tolerance of one hundredth. -/
example : ∃ found : List ℝ, realRootsIn [(-1 : ℝ), 1] (-2) 3 (1 / 100) 10 = .ok (some found) ∧
    found.Pairwise (· ≤ ·) ∧ Multiset.Rel (fun v r => |v - r| ≤ 1 / 100 / 2) (found : Multiset ℝ)
      (rootsBetween (ofCoeffs [(-1 : ℝ), 1]) (-2) 3).val := by
  have hp : ofCoeffs [(-1 : ℝ), 1] = X - C 1 := by
    apply Polynomial.funext; intro x; simp; ring
  have hd : (ofCoeffs [(-1 : ℝ), 1]).natDegree = 1 := by rw [hp, natDegree_X_sub_C]
  have hr : rootsBetween (ofCoeffs [(-1 : ℝ), 1]) (-2) 3 = {1} := by
    classical
    ext x
    rw [rootsBetween, Finset.mem_filter, hp, roots_X_sub_C]
    simp only [Multiset.toFinset_singleton, Finset.mem_singleton]
    constructor
    · exact fun h => h.1
    · rintro rfl; norm_num
  have h := realRootsIn_partial [(-1 : ℝ), 1] (by rw [hd]) (lower := -2) (upper := 3)
    (tolerance := 1 / 100) (by norm_num) (by norm_num) 10 (by
      intro x _ h
      have := h.2
      rw [hp] at this
      simp at this)
  rcases h.1 with h1 | h1
  · exact h1
  · refine absurd h1 (h.2 9 (by norm_num) ?_ ?_)
    · intro r h2 s h3 h4
      rw [hr, Finset.mem_singleton] at h2 h3
      rw [h2, h3] at h4; exact absurd h4 (lt_irrefl _)
    · rw [hr]; simp

theorem foldl_max_ge (h : ℝ) : ∀ (l : List ℝ) (acc : ℝ),
    acc ≤ l.foldl (fun largest c => max largest (Fns.abs (c / h))) acc ∧
    ∀ c ∈ l, |c / h| ≤ l.foldl (fun largest c => max largest (Fns.abs (c / h))) acc := by
  intro l
  induction l with
  | nil => intro acc; exact ⟨le_rfl, by simp⟩
  | cons a l ih =>
    intro acc
    have := ih (max acc (Fns.abs (a / h)))
    refine ⟨(le_max_left _ _).trans this.1, ?_⟩
    intro c hc
    rcases List.mem_cons.mp hc with rfl | hc
    · exact (le_max_right _ _).trans this.1
    · exact this.2 c hc

/-- C70. Every real root lies strictly within the bound that `cauchy_root_bound` returns, so a
search over `(-bound, bound]` misses none; it fails only on the zero polynomial. -/
theorem cauchyRootBound_spec (p : List ℝ) :
    (ofCoeffs p = 0 ∧ cauchyRootBound p = .error .leadingCoefficientZero) ∨
    ∃ bound, cauchyRootBound p = .ok bound ∧ 1 ≤ bound ∧
      ∀ x, (ofCoeffs p).eval x = 0 → |x| < bound := by
  have hfin : isFinite p = true := isFinite_real p
  rcases degree_eq p with ⟨h1, h2⟩ | ⟨h1, h2⟩
  · left
    refine ⟨h2, ?_⟩
    simp only [cauchyRootBound, hfin, Bool.not_true, Bool.false_eq_true, if_false, h1]
  · right
    have hlt : (ofCoeffs p).natDegree < p.length :=
      (natDegree_lt_iff_degree_lt h1).mpr (degree_ofCoeffs_lt p)
    have hco : ∀ k (hk : k < p.length), p[k] = (ofCoeffs p).coeff k := by
      intro k hk
      rw [coeff_ofCoeffs, List.getD_eq_getElem?_getD, List.getElem?_eq_getElem hk, Option.getD_some]
    refine ⟨1 + (p.take (ofCoeffs p).natDegree).foldl
        (fun largest c => max largest (Fns.abs (c / (ofCoeffs p).leadingCoeff))) 0, ?_, ?_, ?_⟩
    · simp only [cauchyRootBound, hfin, Bool.not_true, Bool.false_eq_true, if_false, h2]
      rw [List.getElem?_eq_getElem hlt, hco]
      rfl
    · have := (foldl_max_ge (ofCoeffs p).leadingCoeff (p.take (ofCoeffs p).natDegree) 0).1
      linarith
    · intro x hx
      have hb := IsRoot.norm_lt_cauchyBound h1 (show IsRoot (ofCoeffs p) x from hx)
      rw [← NNReal.coe_lt_coe, coe_nnnorm, Real.norm_eq_abs] at hb
      refine hb.trans_le ?_
      obtain ⟨h3, h4⟩ := foldl_max_ge (ofCoeffs p).leadingCoeff (p.take (ofCoeffs p).natDegree) 0
      rw [cauchyBound, NNReal.coe_add, NNReal.coe_one, add_comm, NNReal.coe_div, coe_nnnorm]
      gcongr
      generalize (p.take (ofCoeffs p).natDegree).foldl
        (fun largest c => max largest (Fns.abs (c / (ofCoeffs p).leadingCoeff))) 0 = M at h3 h4 ⊢
      have hlead : 0 < ‖(ofCoeffs p).leadingCoeff‖ := norm_pos_iff.mpr (leadingCoeff_ne_zero.mpr h1)
      rw [div_le_iff₀ hlead]
      lift M to NNReal using h3
      have : (Finset.sup (Finset.range (ofCoeffs p).natDegree) fun k => ‖(ofCoeffs p).coeff k‖₊) ≤
          (M * ‖(ofCoeffs p).leadingCoeff‖₊ : NNReal) := by
        apply Finset.sup_le
        intro k hk
        have hk := Finset.mem_range.mp hk
        rw [← NNReal.coe_le_coe, NNReal.coe_mul]
        simp only [coe_nnnorm]
        rw [← div_le_iff₀ hlead, ← norm_div]
        refine h4 _ ?_
        rw [← hco k (by omega)]
        exact List.mem_take_iff_getElem.mpr ⟨k, by omega, rfl⟩
      exact_mod_cast this

example : ∃ bound, cauchyRootBound [(-6 : ℝ), 1, 1] = .ok bound ∧ |(2 : ℝ)| < bound := by
  rcases cauchyRootBound_spec [(-6 : ℝ), 1, 1] with ⟨h, -⟩ | ⟨b, h1, -, h2⟩
  · have := congrArg (Polynomial.eval 0) h; simp at this
  · exact ⟨b, h1, h2 2 (by simp; norm_num)⟩

end Poly
end Multicalc
