import Verif.Model.PolynomialFit
import Verif.Props.PolynomialConstruction
import Verif.Props.LeastSquares
import Verif.Props.Jets
import Mathlib.Analysis.Calculus.Deriv.Polynomial

/-!
# What a least-squares fit and a jet's polynomial are (C115)
-/

namespace Multicalc
namespace Poly

open Polynomial Matrix

theorem raisedTo_eq (t : ℝ) (k : ℕ) : raisedTo t k = t ^ k := by
  induction k with
  | zero => rfl
  | succ k ih => rw [raisedTo, ih, pow_succ]

theorem eval_of_degree_lt {n : ℕ} (q : ℝ[X]) (h : q.degree < n) (t : ℝ) : q.eval t = ∑ c : Fin n, t ^ (c : ℕ) * q.coeff c := by
  rw [Fin.sum_univ_eq_sum_range (fun c => t ^ c * q.coeff c) n]
  rcases eq_or_ne q 0 with rfl | h0
  · simp
  · rw [eval_eq_sum_range' ((natDegree_lt_iff_degree_lt h0).2 h)]
    exact Finset.sum_congr rfl fun i _ => mul_comm _ _

theorem degree_comp_linear {n : ℕ} (q : ℝ[X]) (h : q.degree < n) (a b : ℝ) : (q.comp (C a * X + C b)).degree < n := by
  rcases eq_or_ne q 0 with rfl | h0
  · simpa using h
  · have h1 := (natDegree_lt_iff_degree_lt h0).2 h
    refine lt_of_le_of_lt degree_le_natDegree ?_
    have h2 : (q.comp (C a * X + C b)).natDegree ≤ q.natDegree := by
      rw [natDegree_comp]
      exact (Nat.mul_le_mul_left _ (natDegree_linear_le (a := a) (b := b))).trans (by simp)
    exact_mod_cast h2.trans_lt h1

theorem scaleArgument_length (f : ℝ) (q : List ℝ) : (scaleArgument q f).length = q.length := by
  have : ∀ (f s : ℝ) (q : List ℝ), (scaleArgumentLoop f s q).length = q.length := by
    intro f s q
    induction q generalizing s with
    | nil => rfl
    | cons b q ih => simp [scaleArgumentLoop, ih]
  rw [scaleArgument, this]

theorem evaluate_ofFn {n : ℕ} (x : Fin n → ℝ) (t : ℝ) : evaluate (List.ofFn x) t = ∑ c : Fin n, t ^ (c : ℕ) * x c := by
  rw [evaluate_eq_eval, eval_of_degree_lt (n := n) _ (by simpa using degree_ofCoeffs_lt (List.ofFn x))]
  refine Finset.sum_congr rfl fun c _ => ?_
  rw [coeff_ofCoeffs]
  simp

/-- The two ends of the range are nodes, unless there is only one position. -/
theorem sampleRange_attained {nodes : List ℝ} {centre halfWidth : ℝ} (h : sampleRange nodes = .ok (centre, halfWidth)) :
    0 < halfWidth ∧ (∀ b ∈ nodes, |b - centre| ≤ halfWidth) ∧ centre - halfWidth ∈ nodes ∧ centre + halfWidth ∈ nodes := by
  cases nodes with
  | nil => cases h
  | cons a l =>
    rcases sampleRange_spec a l with ⟨-, h1⟩ | ⟨c, w, h1, h2, h3⟩
    · rw [h1] at h; cases h
    · rw [h1] at h
      have e := Except.ok.inj h
      have e1 : c = centre := congrArg Prod.fst e
      have e2 : w = halfWidth := congrArg Prod.snd e
      subst e1 e2
      refine ⟨h2, h3, ?_⟩
      have hmin : ∀ (l : List ℝ) (z : ℝ), l.foldl min z = z ∨ l.foldl min z ∈ l := by
        intro l
        induction l with
        | nil => intro z; exact Or.inl rfl
        | cons b l ih =>
          intro z
          rcases ih (min z b) with h | h
          · rw [List.foldl_cons, h]
            rcases min_choice z b with h | h
            · exact Or.inl h
            · right; rw [h]; exact List.mem_cons_self
          · exact Or.inr (List.mem_cons_of_mem _ h)
      have hmax : ∀ (l : List ℝ) (z : ℝ), l.foldl max z = z ∨ l.foldl max z ∈ l := by
        intro l
        induction l with
        | nil => intro z; exact Or.inl rfl
        | cons b l ih =>
          intro z
          rcases ih (max z b) with h | h
          · rw [List.foldl_cons, h]
            rcases max_choice z b with h | h
            · exact Or.inl h
            · right; rw [h]; exact List.mem_cons_self
          · exact Or.inr (List.mem_cons_of_mem _ h)
      have m1 : (a :: l).foldl min a ∈ a :: l := by
        rcases hmin (a :: l) a with h | h
        · rw [h]; exact List.mem_cons_self
        · exact h
      have m2 : (a :: l).foldl max a ∈ a :: l := by
        rcases hmax (a :: l) a with h | h
        · rw [h]; exact List.mem_cons_self
        · exact h
      simp only [sampleRange] at h1
      generalize (a :: l).foldl min a = s at *
      generalize (a :: l).foldl max a = g at *
      split at h1
      · cases h1
      · have e := Except.ok.inj h1
        have e1 := congrArg Prod.fst e
        have e2 := congrArg Prod.snd e
        simp only at e1 e2
        push_cast at e1 e2
        rw [← e1, ← e2]
        exact ⟨by convert m1 using 1; ring, by convert m2 using 1; ring⟩

theorem design_bounded {m n : ℕ} (nodes : Fin m → ℝ) {centre halfWidth : ℝ} (hw : 0 < halfWidth)
    (h : ∀ i, |nodes i - centre| ≤ halfWidth) (i : Fin m) (c : Fin n) : designMatrix n nodes centre halfWidth i c ^ 2 ≤ 1 := by
  rw [designMatrix, raisedTo_eq, sq_le_one_iff_abs_le_one, abs_pow]
  refine pow_le_one₀ (abs_nonneg _) ?_
  rw [abs_div, abs_of_pos hw, div_le_one hw]
  exact h i

theorem design_norms {m n : ℕ} (nodes : Fin m → ℝ) {centre halfWidth : ℝ} (hw : 0 < halfWidth)
    (h : ∀ i, |nodes i - centre| ≤ halfWidth) {largest : ℝ} (hl : (m : ℝ) ^ 3 < largest) (c : Fin n) :
    √(∑ i, designMatrix n nodes centre halfWidth i c ^ 2) * m < √largest := by
  have h1 : ∑ i, designMatrix n nodes centre halfWidth i c ^ 2 ≤ m := by
    refine (Finset.sum_le_sum fun i _ => design_bounded nodes hw h i c).trans ?_
    simp
  refine Real.lt_sqrt_of_sq_lt (lt_of_le_of_lt ?_ hl)
  rw [mul_pow, Real.sq_sqrt (Finset.sum_nonneg fun i _ => sq_nonneg _)]
  calc _ ≤ (m : ℝ) * (m : ℝ) ^ 2 := mul_le_mul_of_nonneg_right h1 (sq_nonneg _)
    _ = _ := by ring

/-- The sum of squared misses. -/
def misses {m : ℕ} (nodes values : Fin m → ℝ) (f : ℝ → ℝ) : ℝ := ∑ i, (f (nodes i) - values i) ^ 2

theorem real_all_finite (l : List ℝ) : (l.any fun v => !Fns.isFinite v) = false := by
  rw [List.any_eq_false]; intro x _; simp [Fns.isFinite]

theorem solveDesign_cases {m n : ℕ} (tall : n ≤ m) (minPositive largest : ℝ) (hl : 0 < largest) (A : Matrix (Fin m) (Fin n) ℝ)
    (hA : ∀ c, √(∑ i, A i c ^ 2) * m < √largest) (b : Fin m → ℝ) :
    ∃ q, PivotedQr.decompose minPositive largest A = .ok q ∧
      ((solveDesign minPositive largest A b = .error .linalg ∧ q.solveLeastSquares b = .error .singular)
        ∨ ∃ x, solveDesign minPositive largest A b = .ok x ∧ q.solveLeastSquares b = .ok x) := by
  obtain ⟨q, hq, -⟩ := (qr_factorises minPositive largest hl A hA).2 tall
  refine ⟨q, hq, ?_⟩
  unfold solveDesign
  rw [hq]
  have h := (least_squares_correct minPositive largest hl A hA q hq b).1
  cases hs : q.solveLeastSquares b with
  | error e => left; simp [hs, (h e hs).1]
  | ok x => right; exact ⟨x, by simp [hs], rfl⟩

/-- C115. `fit_least_squares` refuses fewer points than coefficients and points that all share one position.  Any other
call either reports that the equations cannot be solved or returns as many coefficients as asked, and then no polynomial
of that size has a smaller sum of squared misses, and no other has one as small. -/
theorem fit_least_squares {m : ℕ} (n : ℕ) (minPositive largest : ℝ) (hl : (m : ℝ) ^ 3 < largest) (nodes values : Fin m → ℝ) :
    (m < n → fitLeastSquares n minPositive largest nodes values = .error .tooFewSamples)
    ∧ (n ≤ m → m = 0 → fitLeastSquares n minPositive largest nodes values = .error .empty)
    ∧ (n ≤ m → 0 < m → (∀ i j, nodes i = nodes j) →
      fitLeastSquares n minPositive largest nodes values = .error .duplicateNode)
    ∧ (n ≤ m → (∃ i j, nodes i ≠ nodes j) →
      fitLeastSquares n minPositive largest nodes values = .error .linalg
      ∨ ∃ p, fitLeastSquares n minPositive largest nodes values = .ok p ∧ p.length = n
        ∧ ∀ q : ℝ[X], q.degree < n →
          misses nodes values (evaluate p) ≤ misses nodes values (q.eval ·)
          ∧ (misses nodes values (q.eval ·) ≤ misses nodes values (evaluate p) → q = ofCoeffs p)) := by
  have hl0 : 0 < largest := lt_of_le_of_lt (by positivity) hl
  have hunf : n ≤ m → fitLeastSquares n minPositive largest nodes values = match sampleRange (List.ofFn nodes) with
      | .error e => .error e
      | .ok (centre, halfWidth) =>
        match solveDesign minPositive largest (designMatrix n nodes centre halfWidth) values with
        | .error e => .error e
        | .ok solved => .ok (shiftArgument (scaleArgument (List.ofFn solved) (1 / halfWidth)) (-centre)) := by
    intro h
    rw [fitLeastSquares, if_neg (by omega), real_all_finite, if_neg (by simp)]
    rcases sampleRange (List.ofFn nodes) with e | ⟨c, w⟩
    · rfl
    · cases hd : solveDesign minPositive largest (designMatrix n nodes c w) values <;> simp [hd]
  refine ⟨fun h => by rw [fitLeastSquares, if_pos h], fun h h0 => ?_, fun h h0 heq => ?_, fun h hne => ?_⟩
  · subst h0
    rw [hunf h, List.ofFn_zero]
    rfl
  · rw [hunf h]
    obtain ⟨m, rfl⟩ : ∃ k, m = k + 1 := ⟨m - 1, by omega⟩
    have : sampleRange (List.ofFn nodes) = .error .duplicateNode := by
      rw [List.ofFn_succ]
      rcases sampleRange_spec (nodes 0) (List.ofFn fun i : Fin m => nodes i.succ) with ⟨-, h1⟩ | ⟨c, w, h1, h2, h3⟩
      · exact h1
      · obtain ⟨h4, -, h5, h6⟩ := sampleRange_attained h1
        rw [← List.ofFn_succ (f := nodes), List.mem_ofFn] at h5 h6
        obtain ⟨i, hi⟩ := h5
        obtain ⟨j, hj⟩ := h6
        have := heq i j
        rw [hi, hj] at this
        linarith
    rw [this]
  · rw [hunf h]
    cases hr : sampleRange (List.ofFn nodes) with
    | error e =>
      exfalso
      obtain ⟨i, j, hij⟩ := hne
      obtain ⟨m, rfl⟩ : ∃ k, m = k + 1 := ⟨m - 1, by have := i.pos; omega⟩
      rw [List.ofFn_succ] at hr
      rcases sampleRange_spec (nodes 0) (List.ofFn fun i : Fin m => nodes i.succ) with ⟨h1, -⟩ | ⟨c, w, h1, -⟩
      · have : ∀ i, nodes i = nodes 0 := by
          intro i
          refine Fin.cases rfl (fun i => ?_) i
          exact h1 _ (List.mem_ofFn.2 ⟨i, rfl⟩)
        exact hij ((this i).trans (this j).symm)
      · rw [h1] at hr; cases hr
    | ok cw =>
      obtain ⟨centre, w⟩ := cw
      obtain ⟨hw, hb, -⟩ := sampleRange_attained hr
      have hb' : ∀ i, |nodes i - centre| ≤ w := fun i => hb _ (List.mem_ofFn.2 ⟨i, rfl⟩)
      have hA := design_norms (n := n) nodes hw hb' hl
      obtain ⟨qr, hq, hs⟩ := solveDesign_cases h minPositive largest hl0 _ hA values
      rcases hs with ⟨hs, -⟩ | ⟨x, hs, hx⟩
      · left; simp [hs]
      right
      have hbest := ((least_squares_correct minPositive largest hl0 _ hA qr hq values).2 x hx).2.2
      refine ⟨shiftArgument (scaleArgument (List.ofFn x) (1 / w)) (-centre), by simp [hs], by rw [(ofCoeffs_shiftArgument _ _).1, scaleArgument_length, List.length_ofFn], fun q hdeg => ?_⟩
      have hp : ∀ z, evaluate (shiftArgument (scaleArgument (List.ofFn x) (1 / w)) (-centre)) z =
          ∑ c : Fin n, ((z - centre) / w) ^ (c : ℕ) * x c := by
        intro z
        rw [((polynomial_substitutions _ _ _).1).1, (polynomial_substitutions _ (1 / w) (z + -centre)).2.1, evaluate_ofFn]
        have : 1 / w * (z + -centre) = (z - centre) / w := by field_simp; ring
        rw [this]
      set Q := q.comp (C w * X + C centre) with hQ
      have hQe : ∀ z, q.eval z = ∑ c : Fin n, ((z - centre) / w) ^ (c : ℕ) * Q.coeff c := by
        intro z
        rw [← eval_of_degree_lt Q (degree_comp_linear q hdeg w centre), hQ, eval_comp]
        congr 1
        simp
        field_simp
        ring
      have hm : ∀ y : Fin n → ℝ, (designMatrix n nodes centre w *ᵥ y - values) ⬝ᵥ (designMatrix n nodes centre w *ᵥ y - values)
          = misses nodes values fun z => ∑ c : Fin n, ((z - centre) / w) ^ (c : ℕ) * y c := by
        intro y
        unfold misses dotProduct
        refine Finset.sum_congr rfl fun i _ => ?_
        simp only [Pi.sub_apply, mulVec, dotProduct, designMatrix, raisedTo_eq]
        ring
      have h1 := hbest fun c => Q.coeff c
      rw [hm, hm, ← funext hp, ← funext hQe] at h1
      refine ⟨h1.1, fun hle => ?_⟩
      have hy := h1.2 hle
      apply Polynomial.funext
      intro z
      rw [← evaluate_eq_eval, hp, hQe, ← hy]

/-- C115. Fewer distinct positions than coefficients leave the polynomial undetermined, and the fit then always says
that it cannot solve the equations; it never returns one of the many best polynomials. -/
theorem fit_undetermined {m : ℕ} (n : ℕ) (minPositive largest : ℝ) (hl : (m : ℝ) ^ 3 < largest) (nodes values : Fin m → ℝ)
    (hn : n ≤ m) (hne : ∃ i j, nodes i ≠ nodes j) (hfew : (Finset.univ.image nodes).card < n) :
    fitLeastSquares n minPositive largest nodes values = .error .linalg := by
  rcases (fit_least_squares n minPositive largest hl nodes values).2.2.2 hn hne with h | ⟨p, -, hlen, h⟩
  · exact h
  · exfalso
    set z : ℝ[X] := ∏ a ∈ Finset.univ.image nodes, (X - C a) with hz
    have hz0 : z ≠ 0 := Finset.prod_ne_zero_iff.2 fun a _ => X_sub_C_ne_zero a
    have hzdeg : z.degree < n := by
      rw [hz, degree_prod]
      simpa using hfew
    have hzero : ∀ i, z.eval (nodes i) = 0 := by
      intro i
      rw [hz, eval_prod]
      exact Finset.prod_eq_zero (Finset.mem_image_of_mem nodes (Finset.mem_univ i)) (by simp)
    have := (h (ofCoeffs p + z) (lt_of_le_of_lt (degree_add_le _ _)
      (max_lt (by simpa [hlen] using degree_ofCoeffs_lt p) hzdeg))).2 (le_of_eq (by
        unfold misses
        exact Finset.sum_congr rfl fun i _ => by beta_reduce; rw [eval_add, hzero, add_zero, evaluate_eq_eval]))
    exact hz0 (by simpa using this)

/-- C115. A straight line is always found: two coefficients, any points that do not all share one position, and no more
than 2^35 of them. -/
theorem fit_line_succeeds {m : ℕ} (minPositive largest : ℝ) (hl : (m : ℝ) ^ 3 < largest) (hm : m ^ 3 < 2 ^ 105)
    (nodes values : Fin m → ℝ) (hne : ∃ i j, nodes i ≠ nodes j) :
    ∃ p, fitLeastSquares 2 minPositive largest nodes values = .ok p := by
  have hl0 : 0 < largest := lt_of_le_of_lt (by positivity) hl
  have h2 : 2 ≤ m := by
    obtain ⟨i, j, hij⟩ := hne
    by_contra hlt
    have := i.isLt
    have := j.isLt
    exact hij (congrArg nodes (Fin.ext (by omega)))
  have hcases := (fit_least_squares 2 minPositive largest hl nodes values).2.2.2 h2 hne
  rcases hcases with hbad | ⟨p, hp, -⟩
  swap
  · exact ⟨p, hp⟩
  exfalso
  rw [fitLeastSquares, if_neg (by omega), real_all_finite, if_neg (by simp)] at hbad
  cases hr : sampleRange (List.ofFn nodes) with
  | error e =>
    rw [hr] at hbad
    have he : e = .linalg := by simpa using hbad
    subst he
    obtain ⟨m, rfl⟩ : ∃ k, m = k + 1 := ⟨m - 1, by omega⟩
    rw [List.ofFn_succ] at hr
    rcases sampleRange_spec (nodes 0) (List.ofFn fun i : Fin m => nodes i.succ) with ⟨-, h1⟩ | ⟨c, w, h1, -⟩ <;>
      · rw [h1] at hr; cases hr
  | ok cw =>
    obtain ⟨centre, w⟩ := cw
    obtain ⟨hw, hb, hlo, hhi⟩ := sampleRange_attained hr
    have hb' : ∀ i, |nodes i - centre| ≤ w := fun i => hb _ (List.mem_ofFn.2 ⟨i, rfl⟩)
    have hA := design_norms (n := 2) nodes hw hb' hl
    obtain ⟨qr, hq, hs⟩ := solveDesign_cases h2 minPositive largest hl0 _ hA values
    rcases hs with ⟨-, hs⟩ | ⟨x, hs, -⟩
    swap
    · rw [hr] at hbad; simp [hs] at hbad
    obtain ⟨-, r, hr'⟩ := (least_squares_correct minPositive largest hl0 _ hA qr hq values).1 _ hs
    obtain ⟨qr', hq', hperm, hfac, horth, htri, -, hdec, -⟩ := (qr_factorises minPositive largest hl0 _ hA).2 h2
    rw [hq] at hq'
    obtain rfl := Except.ok.inj hq'
    set A := designMatrix 2 nodes centre w with hAdef
    set R := qr.triangular with hR
    have hgram : Rᵀ * R = (A.submatrix id qr.permutation)ᵀ * A.submatrix id qr.permutation := by
      rw [← hfac, transpose_mul, Matrix.mul_assoc, ← Matrix.mul_assoc _ _ R, horth, Matrix.one_mul]
    have g : ∀ a b, ∑ k, R k a * R k b = ∑ i, A i (qr.permutation a) * A i (qr.permutation b) := by
      intro a b
      have := congrFun (congrFun hgram a) b
      simpa [Matrix.mul_apply] using this
    have g00 := g 0 0
    have g01 := g 0 1
    have g11 := g 1 1
    simp only [Fin.sum_univ_two, htri 1 0 (by decide), zero_mul, add_zero] at g00 g01 g11
    set t : Fin m → ℝ := fun i => (nodes i - centre) / w with ht
    have hA0 : ∀ i, A i 0 = 1 := fun i => rfl
    have hA1 : ∀ i, A i 1 = t i := fun i => by
      show raisedTo _ 1 = _
      rw [raisedTo_eq, pow_one]
    have hdet : (R 0 0 * R 1 1) ^ 2 = m * ∑ i, t i ^ 2 - (∑ i, t i) ^ 2 := by
      have e : (R 0 0 * R 1 1) ^ 2 = (R 0 0 * R 0 0) * (R 0 1 * R 0 1 + R 1 1 * R 1 1) - (R 0 0 * R 0 1) ^ 2 := by ring
      rw [e, g00, g01, g11]
      have hp : (qr.permutation 0 = 0 ∧ qr.permutation 1 = 1) ∨ (qr.permutation 0 = 1 ∧ qr.permutation 1 = 0) := by
        have hinj : qr.permutation 0 ≠ qr.permutation 1 := fun h => absurd (hperm.1 h) (by decide)
        have key : ∀ a b : Fin 2, a ≠ b → (a = 0 ∧ b = 1) ∨ (a = 1 ∧ b = 0) := by decide
        exact key _ _ hinj
      rcases hp with ⟨p0, p1⟩ | ⟨p0, p1⟩
      · simp only [p0, p1, hA0, hA1, one_mul, Finset.sum_const, Finset.card_univ, Fintype.card_fin, nsmul_eq_mul, mul_one, sq]
      · simp only [p0, p1, hA0, hA1, one_mul, Finset.sum_const, Finset.card_univ, Fintype.card_fin, nsmul_eq_mul, mul_one, sq]
        ring
    have hmpos : (2 : ℝ) ≤ m := by exact_mod_cast h2
    have hspread : 2 * (m : ℝ) ≤ m * ∑ i, t i ^ 2 - (∑ i, t i) ^ 2 := by
      obtain ⟨a, ha⟩ := List.mem_ofFn.1 hlo
      obtain ⟨b, hb⟩ := List.mem_ofFn.1 hhi
      have hab : a ≠ b := by
        rintro rfl
        rw [ha] at hb
        linarith
      have hta : t a = -1 := by
        show (nodes a - centre) / w = -1
        rw [ha]; field_simp; ring
      have htb : t b = 1 := by
        show (nodes b - centre) / w = 1
        rw [hb]; field_simp; ring
      set μ := (∑ i, t i) / m with hμ
      have h1 : ∑ i, (t i - μ) ^ 2 = ∑ i, t i ^ 2 - (∑ i, t i) ^ 2 / m := by
        have : ∀ i, (t i - μ) ^ 2 = t i ^ 2 - 2 * μ * t i + μ ^ 2 := fun i => by ring
        simp only [this, Finset.sum_add_distrib, Finset.sum_sub_distrib, ← Finset.mul_sum, Finset.sum_const, Finset.card_univ,
          Fintype.card_fin, nsmul_eq_mul]
        rw [hμ]
        field_simp
        ring
      have h2 : (t a - μ) ^ 2 + (t b - μ) ^ 2 ≤ ∑ i, (t i - μ) ^ 2 := by
        rw [← Finset.sum_pair (f := fun i => (t i - μ) ^ 2) hab]
        exact Finset.sum_le_sum_of_subset_of_nonneg (Finset.subset_univ _) fun _ _ _ => sq_nonneg _
      rw [hta, htb] at h2
      have h3 : 2 ≤ ∑ i, (t i - μ) ^ 2 := by nlinarith [sq_nonneg μ]
      rw [h1] at h3
      have h4 := mul_le_mul_of_nonneg_left h3 (show (0 : ℝ) ≤ m by linarith)
      rw [mul_sub, mul_div_cancel₀ _ (by linarith)] at h4
      linarith
    have hR0 : R 0 0 ^ 2 ≤ m := by
      rw [sq, g00]
      refine (Finset.sum_le_sum fun i _ => ?_).trans (b := ∑ _i : Fin m, (1 : ℝ)) (by simp)
      rw [← sq]
      exact design_bounded nodes hw hb' i _
    have hmax : max m 2 = m := by omega
    rw [hmax] at hr'
    have hm' : (m : ℝ) ^ 3 < 2 ^ 105 := by exact_mod_cast hm
    have hle : |R 1 1| ≤ 1 / 2 ^ 52 * m * |R 0 0| := by
      fin_cases r
      · refine le_trans (hdec 0 1 (by decide)) hr'
      · exact hr'
    have hsq : R 1 1 ^ 2 ≤ (1 / 2 ^ 52 * m) ^ 2 * R 0 0 ^ 2 := by
      have := pow_le_pow_left₀ (abs_nonneg _) hle 2
      rwa [mul_pow, sq_abs, sq_abs] at this
    have hfin : (R 0 0 * R 1 1) ^ 2 ≤ (1 / 2 ^ 52 * m) ^ 2 * (m : ℝ) ^ 2 := by
      rw [mul_pow]
      calc R 0 0 ^ 2 * R 1 1 ^ 2 ≤ R 0 0 ^ 2 * ((1 / 2 ^ 52 * m) ^ 2 * R 0 0 ^ 2) := mul_le_mul_of_nonneg_left hsq (sq_nonneg _)
        _ = (1 / 2 ^ 52 * m) ^ 2 * (R 0 0 ^ 2) ^ 2 := by ring
        _ ≤ _ := by
          refine mul_le_mul_of_nonneg_left ?_ (sq_nonneg _)
          exact pow_le_pow_left₀ (sq_nonneg _) hR0 2
    rw [hdet] at hfin
    have h5 : 2 * (m : ℝ) ≤ m * (m ^ 3 / 2 ^ 104) := by
      refine (hspread.trans hfin).trans (le_of_eq ?_)
      rw [mul_pow, div_pow, one_pow, ← pow_mul]
      ring
    have h6 : (2 : ℝ) ≤ m ^ 3 / 2 ^ 104 := le_of_mul_le_mul_left (by linarith) (show (0 : ℝ) < m by linarith)
    rw [le_div_iff₀ (by positivity)] at h6
    linarith [show (2 : ℝ) * 2 ^ 104 = 2 ^ 105 by norm_num]

/-- Five points, not all at one position. -/
example : ∃ i j, (![0, 1, 2, 3, 4] : Fin 5 → ℝ) i ≠ ![0, 1, 2, 3, 4] j ∧ (((5 : ℕ) : ℝ)) ^ 3 < 2 ^ 1023 ∧ 5 ^ 3 < 2 ^ 105 :=
  ⟨0, 1, by simp, by
    refine lt_of_lt_of_le (b := 2 ^ 7) (by norm_num) (pow_le_pow_right₀ (by norm_num) (by norm_num)), by norm_num⟩

/-- Three points at two positions: fewer than three. -/
example : (Finset.univ.image (![0, 1, 1] : Fin 3 → ℝ)).card < 3 := by
  refine lt_of_le_of_lt (Finset.card_le_card (t := {0, 1}) ?_) (lt_of_le_of_lt Finset.card_le_two (by norm_num))
  intro x hx
  obtain ⟨i, -, rfl⟩ := Finset.mem_image.1 hx
  fin_cases i <;> simp

/-- C115. `from_jet` refuses a jet with more coefficients than fit, and otherwise copies the coefficients and fills the
rest with zeros. -/
theorem from_jet_copies {T : Type} [Zero T] {N : ℕ} (count : ℕ) (jet : Jet T N) :
    (count < N → fromJet count jet = .error .degreeOverflow)
    ∧ (N ≤ count → ∃ p, fromJet count jet = .ok p ∧ p.length = count ∧ ∀ k, p.getD k 0 = jet.get k) := by
  refine ⟨fun h => by rw [fromJet, if_pos h], fun h => ⟨_, by rw [fromJet, if_neg (by omega)], by simp; omega, fun k => ?_⟩⟩
  unfold Jet.get
  rw [List.getD_eq_getElem?_getD, List.getElem?_append]
  split
  · rename_i hk
    rw [dif_pos (by simpa using hk)]
    simp at hk
    simp [hk]
  · rename_i hk
    rw [dif_neg (by simpa using hk), List.getElem?_replicate]
    split <;> rfl

theorem iteratedDeriv_eval (q : ℝ[X]) (k : ℕ) : iteratedDeriv k (fun y => q.eval y) = fun y => (Polynomial.derivative^[k] q).eval y := by
  induction k with
  | zero => simp
  | succ k ih =>
    rw [iteratedDeriv_succ, ih, Function.iterate_succ_apply']
    funext y
    exact Polynomial.deriv _

/-- C115. The polynomial read off the jet of a program at `x` has the program's value and derivatives at `x` as its own
at zero, to the jet's order, and no higher terms; shifted by `-x` it has them at `x`. -/
theorem from_jet_taylor (e : Expr 1) (x : ℝ) (N count : ℕ) (hN : N ≤ count) (h : e.SmoothAt fun _ => x) :
    ∃ p, fromJet count (e.eval fun _ => (Jet.variable' x : Jet ℝ N)) = .ok p
      ∧ (∀ k < N, iteratedDeriv k (evaluate p) 0 = iteratedDeriv k (fun s => e.eval fun _ => s) x)
      ∧ (∀ k < N, iteratedDeriv k (evaluate (shiftArgument p (-x))) x = iteratedDeriv k (fun s => e.eval fun _ => s) x)
      ∧ (ofCoeffs p).degree < N := by
  obtain ⟨p, hp, -, hc⟩ := (from_jet_copies count (e.eval fun _ => (Jet.variable' x : Jet ℝ N))).2 hN
  have hd : ∀ k < N, iteratedDeriv k (evaluate p) 0 = iteratedDeriv k (fun s => e.eval fun _ => s) x := by
    intro k hk
    have e1 : evaluate p = fun y => (ofCoeffs p).eval y := funext fun y => evaluate_eq_eval p y
    rw [e1, iteratedDeriv_eval]
    beta_reduce
    rw [← Polynomial.coeff_zero_eq_eval_zero, coeff_iterate_derivative, coeff_ofCoeffs, zero_add, hc,
      (jet_taylor e x N k hk h).1, Nat.descFactorial_self, nsmul_eq_mul]
    have : (k.factorial : ℝ) ≠ 0 := by exact_mod_cast k.factorial_ne_zero
    field_simp
  refine ⟨p, hp, hd, fun k hk => ?_, ?_⟩
  · rw [← hd k hk]
    have e1 : evaluate (shiftArgument p (-x)) = fun y => evaluate p (y + -x) :=
      funext fun y => ((polynomial_substitutions p (-x) y).1).1
    rw [e1, iteratedDeriv_comp_add_const]
    beta_reduce
    rw [add_neg_cancel]
  · rw [degree_lt_iff_coeff_zero]
    intro k hk
    rw [coeff_ofCoeffs, hc, Jet.get, dif_neg (by exact_mod_cast not_lt.2 hk)]

/-- The series of `exp` at 1, in a polynomial with room to spare. -/
example : (Expr.un .exp (.var 0) : Expr 1).SmoothAt (fun _ => (1 : ℝ)) ∧ 3 ≤ 5 := ⟨⟨trivial, trivial⟩, by norm_num⟩

end Poly
end Multicalc
