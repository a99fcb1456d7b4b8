import Verif.Model.Discretization
import Verif.Model.XR
import Verif.Lemmas.MatrixExp
import Verif.Props.LinearAlgebra
import Verif.Props.Kalman

/-!
# The matrix exponential
-/

namespace Multicalc

open NormedSpace Matrix

variable {n : ℕ}

/-! ### When a factorization succeeds -/

theorem maxAbs_le {r c : ℕ} (m : Matrix (Fin r) (Fin c) ℝ) {b : ℝ} (hb : 0 ≤ b) (h : ∀ i j, |m i j| ≤ b) :
    maxAbs m ≤ b := by
  have hin : ∀ (i : Fin r) (l : List (Fin c)) (x : ℝ), x ≤ b →
      l.foldl (fun best j => max best (Fns.abs (m i j))) x ≤ b := by
    intro i l
    induction l with
    | nil => intro x hx; exact hx
    | cons j l ih => intro x hx; exact ih _ (max_le hx (h i j))
  have hout : ∀ (l : List (Fin r)) (x : ℝ), x ≤ b → l.foldl (fun best i =>
      (List.finRange c).foldl (fun best j => max best (Fns.abs (m i j))) best) x ≤ b := by
    intro l
    induction l with
    | nil => intro x hx; exact hx
    | cons i l ih => intro x hx; exact ih _ (hin _ _ _ hx)
  exact hout _ _ hb

theorem luStep_rows {k : Fin n} {s s' : LuState n ℝ} (h : luStep s k = .ok s') :
    (∀ i j, i < k → s'.a i j = s.a i j) ∧ s'.smallestPivot = min s.smallestPivot |s'.a k k| := by
  obtain ⟨h1, h2, h3⟩ := pivotSearch_spec s.a k
  unfold luStep at h
  generalize pivotSearch s.a k = bp at h1 h2 h3 h
  obtain ⟨best, pivot⟩ := bp
  simp only at h1 h2 h3 h
  split at h
  · simp at h
  · simp only [Except.ok.injEq] at h
    subst h
    by_cases hp : pivot = k
    · subst hp
      simp only [if_true]
      refine ⟨fun i j hi => ?_, ?_⟩
      · simp only [eliminate, if_neg hi.asymm]
      · simp only [eliminate, if_neg (lt_irrefl _), h2]
    · simp only [if_neg hp]
      refine ⟨fun i j hi => ?_, ?_⟩
      · simp only [eliminate, if_neg hi.asymm]
        rw [Equiv.swap_apply_of_ne_of_ne hi.ne (hi.trans_le h1).ne]
      · simp only [eliminate, if_neg (lt_irrefl _), Equiv.swap_apply_left, h2]

theorem luLoop_smallest (b : ℝ) :
    ∀ (post pre : List (Fin n)) (s s' : LuState n ℝ), List.finRange n = pre ++ post →
      luLoop post s = .ok s' → (∀ i : Fin n, pre.length ≤ (i : ℕ) → b < |s'.a i i|) → b < s.smallestPivot →
      b < s'.smallestPivot ∧ ∀ (i : Fin n) j, (i : ℕ) < pre.length → s'.a i j = s.a i j := by
  intro post
  induction post with
  | nil =>
    intro pre s s' _ h _ hb
    simp only [luLoop, Except.ok.injEq] at h
    subst h
    exact ⟨hb, fun _ _ _ => rfl⟩
  | cons k post ih =>
    intro pre s s' hl h hd hb
    have hk := (finRange_split hl).1
    rw [luLoop] at h
    split at h
    · simp at h
    next t ht =>
      obtain ⟨r1, r2⟩ := luStep_rows ht
      have hl' : List.finRange n = (pre ++ [k]) ++ post := by rw [hl]; simp
      have hlen : (pre ++ [k]).length = k + 1 := by rw [List.length_append, ← hk]; rfl
      have rows : ∀ (post' pre' : List (Fin n)) (u u' : LuState n ℝ), List.finRange n = pre' ++ post' →
          luLoop post' u = .ok u' → ∀ (i : Fin n) j, (i : ℕ) < pre'.length → u'.a i j = u.a i j := by
        intro post'
        induction post' with
        | nil =>
          intro pre' u u' _ hu
          simp only [luLoop, Except.ok.injEq] at hu
          subst hu
          exact fun _ _ _ => rfl
        | cons q post' ih' =>
          intro pre' u u' hl2 hu i j hi
          have hq := (finRange_split hl2).1
          rw [luLoop] at hu
          split at hu
          · simp at hu
          next v hv =>
            rw [ih' (pre' ++ [q]) v u' (by rw [hl2]; simp) hu i j (by simp; omega)]
            exact (luStep_rows hv).1 i j (by rw [Fin.lt_def]; omega)
      have hrow : s'.a k k = t.a k k := rows post (pre ++ [k]) t s' hl' h k k (by rw [hlen]; omega)
      have hbk : b < |t.a k k| := by rw [← hrow]; exact hd k (by omega)
      obtain ⟨g1, g2⟩ := ih (pre ++ [k]) t s' hl' h (fun i hi => hd i (by rw [hlen] at hi; omega))
        (by rw [r2]; exact lt_min hb hbk)
      refine ⟨g1, fun i j hi => ?_⟩
      rw [g2 i j (by rw [hlen]; omega), r1 i j (by rw [Fin.lt_def]; omega)]

/-- C39. When a factorization succeeds: if the matrix has an inverse whose row sums stay below the reciprocal of
machine epsilon times the largest entry, `lu_decompose` returns factors.  So `IllConditioned` is only reported for
matrices whose condition number is at least `2⁵²`. -/
theorem lu_accepts (largest : ℝ) (A X : Matrix (Fin n) (Fin n) ℝ) (hX : mmul A X = midentity n)
    (hl : (1 / 2 ^ 52 : ℝ) * maxAbs A < largest)
    (hrow : ∀ i, (1 / 2 ^ 52 : ℝ) * maxAbs A * ∑ j, |X i j| < 1) :
    ∃ s, luDecompose largest A = .ok s := by
  rw [mmul_eq, midentity_eq] at hX
  have hXA : X * A = 1 := mul_eq_one_comm.1 hX
  rcases factorLu_spec largest A with ⟨-, h0⟩ | ⟨s, σ, hs, inv⟩
  · have := congrArg Matrix.det hX
    rw [Matrix.det_mul, h0, zero_mul, Matrix.det_one] at this
    exact absurd this (by norm_num)
  · obtain ⟨hf, -, -, hne⟩ := luInvariant_factors inv
    set Z : Matrix (Fin n) (Fin n) ℝ := X.submatrix id σ * s.lower with hZ
    have hZU : Z * s.upper = 1 := by
      rw [hZ, Matrix.mul_assoc, hf, Matrix.submatrix_mul_equiv, hXA, Matrix.submatrix_id_id]
    have hUZ : s.upper * Z = 1 := mul_eq_one_comm.1 hZU
    have htri : s.upper.BlockTriangular id := by
      intro i j hij
      have : j < i := hij
      simp [LuState.upper, this]
    have hZtri : Z.BlockTriangular id := by
      have : Z = s.upper⁻¹ := (Matrix.inv_eq_right_inv hUZ).symm
      have inst : Invertible s.upper := ⟨Z, hZU, hUZ⟩
      rw [this]
      exact Matrix.blockTriangular_inv_of_blockTriangular htri
    have hdiag : ∀ k, s.a k k * Z k k = 1 := by
      intro k
      have h1 := congrFun (congrFun hUZ k) k
      rw [Matrix.mul_apply, Matrix.one_apply_eq, Finset.sum_eq_single k] at h1
      · simpa [LuState.upper] using h1
      · intro j _ hj
        rcases lt_or_gt_of_ne hj with h | h
        · rw [htri (show id j < id k from h), zero_mul]
        · rw [hZtri (show id k < id j from h), mul_zero]
      · simp
    have hbound : ∀ k, |Z k k| ≤ ∑ j, |X k j| := by
      intro k
      rw [hZ, Matrix.mul_apply]
      refine (Finset.abs_sum_le_sum_abs _ _).trans ?_
      calc ∑ p, |X.submatrix id σ k p * s.lower p k| ≤ ∑ p, |X k (σ p)| := by
            refine Finset.sum_le_sum fun p _ => ?_
            rw [abs_mul]
            refine mul_le_of_le_one_right (abs_nonneg _) ?_
            simp only [LuState.lower]
            split_ifs with h4 h5
            · simp
            · exact inv.bound p k k.2 h5
            · simp
        _ = ∑ j, |X k j| := Equiv.sum_comp σ fun j => |X k j|
    have hpiv : ∀ k, (1 / 2 ^ 52 : ℝ) * maxAbs A < |s.a k k| := by
      intro k
      have h1 : |s.a k k| * |Z k k| = 1 := by rw [← abs_mul, hdiag, abs_one]
      have h2 : 0 < |s.a k k| := abs_pos.2 (hne k)
      have h3 := hrow k
      by_contra h4
      rw [not_lt] at h4
      have h5 : |s.a k k| * |Z k k| ≤ (1 / 2 ^ 52 : ℝ) * maxAbs A * ∑ j, |X k j| :=
        mul_le_mul h4 (hbound k) (abs_nonneg _) (h2.le.trans h4)
      linarith
    have hsmall := (luLoop_smallest ((1 / 2 ^ 52 : ℝ) * maxAbs A) (List.finRange n) [] _ s (by simp) hs
      (fun i _ => hpiv i) hl).1
    refine ⟨s, ?_⟩
    unfold luDecompose
    rw [hs]
    dsimp only
    rw [if_neg]
    rw [not_le]
    exact hsmall

/-- A matrix with entries 2, 1, 1, 1 and its inverse. -/
example : ∃ s, luDecompose (10 ^ 30) (!![2, 1; 1, 1] : Matrix (Fin 2) (Fin 2) ℝ) = .ok s := by
  have hm : maxAbs (!![2, 1; 1, 1] : Matrix (Fin 2) (Fin 2) ℝ) ≤ 2 := by
    apply maxAbs_le _ (by norm_num)
    intro i j
    fin_cases i <;> fin_cases j <;> norm_num
  have h0 := maxAbs_nonneg (!![2, 1; 1, 1] : Matrix (Fin 2) (Fin 2) ℝ)
  refine lu_accepts _ _ !![1, -1; -1, 2] ?_ ?_ ?_
  · rw [mmul_eq, midentity_eq]
    ext i j
    fin_cases i <;> fin_cases j <;> norm_num [Matrix.mul_apply, Fin.sum_univ_two]
  · refine lt_of_le_of_lt (b := (2 : ℝ)) ?_ (by norm_num)
    norm_num at hm ⊢
    linarith
  · intro i
    fin_cases i <;> norm_num [Fin.sum_univ_two] <;> linarith

/-! ### The pieces of `expm` over the reals -/

theorem oneNorm_spec (a : Matrix (Fin n) (Fin n) ℝ) :
    0 ≤ oneNorm a ∧ ColumnSums a (oneNorm a) ∧ ∀ ν, 0 ≤ ν → ColumnSums a ν → oneNorm a ≤ ν := by
  have hcol : ∀ j, (sumLoop n fun i => Fns.abs (a i j)) = ∑ i, |a i j| := fun j => by
    rw [sumLoop_eq]; rfl
  have key : ∀ (l : List (Fin n)) (x : ℝ),
      let y := l.foldl (fun nrm j =>
        let col := sumLoop n fun i => Fns.abs (a i j)
        if nrm < col then col else nrm) x
      x ≤ y ∧ (∀ j ∈ l, ∑ i, |a i j| ≤ y) ∧ ∀ ν, x ≤ ν → (∀ j ∈ l, ∑ i, |a i j| ≤ ν) → y ≤ ν := by
    intro l
    induction l with
    | nil => intro x; simp
    | cons j l ih =>
      intro x
      simp only [List.foldl_cons, hcol]
      simp only [hcol] at ih
      by_cases h : x < ∑ i, |a i j|
      · rw [if_pos h]
        obtain ⟨g1, g2, g3⟩ := ih (∑ i, |a i j|)
        refine ⟨h.le.trans g1, ?_, ?_⟩
        · intro j' hj'
          rcases List.mem_cons.1 hj' with rfl | hj'
          · exact g1
          · exact g2 j' hj'
        · intro ν _ hν
          exact g3 ν (hν j (by simp)) fun j' hj' => hν j' (by simp [hj'])
      · rw [if_neg h]
        obtain ⟨g1, g2, g3⟩ := ih x
        refine ⟨g1, ?_, ?_⟩
        · intro j' hj'
          rcases List.mem_cons.1 hj' with rfl | hj'
          · exact (not_lt.1 h).trans g1
          · exact g2 j' hj'
        · intro ν hx hν
          exact g3 ν hx fun j' hj' => hν j' (by simp [hj'])
  obtain ⟨h1, h2, h3⟩ := key (List.finRange n) 0
  exact ⟨h1, fun j => h2 j (List.mem_finRange j), fun ν h0 hν => h3 ν h0 fun j _ => hν j⟩

theorem halveLoop_run (d : ℕ) : ∀ (fuel : ℕ) (x : ℝ) (k : ℕ), d ≤ fuel → (∀ e < d, 1 / 2 < x * (1 / 2) ^ e) →
    x * (1 / 2) ^ d ≤ 1 / 2 → halveLoop fuel x k = some (k + d) := by
  induction d with
  | zero =>
    intro fuel x k _ _ hx
    have h : ¬ (1 / ((2 : ℕ) : ℝ) < x) := by push_cast; simpa using hx
    cases fuel <;> rw [halveLoop, if_neg h] <;> rfl
  | succ d ih =>
    intro fuel x k hf hlt hx
    obtain ⟨fuel, rfl⟩ : ∃ f, fuel = f + 1 := ⟨fuel - 1, by omega⟩
    have h : 1 / ((2 : ℕ) : ℝ) < x := by push_cast; simpa using hlt 0 (by omega)
    rw [halveLoop, if_pos h, ih fuel _ (k + 1) (by omega)]
    · congr 1; omega
    · intro e he
      have := hlt (e + 1) (by omega)
      rw [pow_succ'] at this
      push_cast
      linarith
    · rw [pow_succ'] at hx
      push_cast
      linarith

theorem halveLoop_spec (x : ℝ) (hx : 0 ≤ x) : ∃ d : ℕ, (∀ fuel, d ≤ fuel → halveLoop fuel x 0 = some d) ∧
    x * (1 / 2) ^ d ≤ 1 / 2 ∧ (2 : ℝ) ^ d ≤ max 1 (4 * x) := by
  have hex : ∃ d : ℕ, x * (1 / 2) ^ d ≤ 1 / 2 := by
    obtain ⟨d, hd⟩ := pow_unbounded_of_one_lt (2 * x) (show (1 : ℝ) < 2 by norm_num)
    refine ⟨d, ?_⟩
    rw [one_div, inv_pow, ← div_eq_mul_inv, div_le_iff₀ (by positivity)]
    linarith
  classical
  refine ⟨Nat.find hex, fun fuel hf => ?_, Nat.find_spec hex, ?_⟩
  · rw [halveLoop_run (Nat.find hex) fuel x 0 hf (fun e he => not_le.1 (Nat.find_min hex he)) (Nat.find_spec hex),
      zero_add]
  · rcases Nat.eq_zero_or_pos (Nat.find hex) with h | h
    · rw [h, pow_zero]; exact le_max_left _ _
    · have := not_le.1 (Nat.find_min hex (Nat.sub_lt h one_pos))
      obtain ⟨e, he⟩ : ∃ e, Nat.find hex = e + 1 := ⟨Nat.find hex - 1, by omega⟩
      rw [he] at this ⊢
      rw [Nat.add_sub_cancel, one_div, inv_pow, ← div_eq_mul_inv, lt_div_iff₀ (by positivity)] at this
      refine le_trans ?_ (le_max_right _ _)
      rw [pow_succ]
      linarith

theorem padeCoef_real (k : ℕ) (hk : k < 7) : (padeCoef k : ℝ) = padeC k := by
  have h0 : (padeCoef 0 : ℝ) = 1 := rfl
  have hs : ∀ k, (padeCoef (k + 1) : ℝ) = padeCoef k *
      (((6 - ((k + 1 : ℕ) : ℚ) + 1) / (((k + 1 : ℕ) : ℚ) * (12 - ((k + 1 : ℕ) : ℚ) + 1)) : ℚ) : ℝ) := fun k => rfl
  interval_cases k <;> norm_num [hs, h0, padeC]

theorem padeLoop_real (a : Matrix (Fin n) (Fin n) ℝ) :
    (padeLoop a).2.1 = padeNum a ∧ (padeLoop a).2.2 = padeDen a := by
  have hsc : ∀ (m : Matrix (Fin n) (Fin n) ℝ) (c : ℝ), mscale m c = c • m := fun m c => by
    ext i j; simp [mscale, mul_comm]
  have hz : (fun _ _ => 0 : Matrix (Fin n) (Fin n) ℝ) = 0 := rfl
  have hr : List.range 7 = [0, 1, 2, 3, 4, 5, 6] := rfl
  unfold padeLoop
  rw [hr]
  simp only [List.foldl_cons, List.foldl_nil, mmul_eq, midentity_eq, hsc, madd_eq, hz, padeNum, padeDen,
    Finset.sum_range_succ, Finset.sum_range_zero, padeCoef_real _ (show 0 < 7 by norm_num),
    padeCoef_real _ (show 1 < 7 by norm_num), padeCoef_real _ (show 2 < 7 by norm_num),
    padeCoef_real _ (show 3 < 7 by norm_num), padeCoef_real _ (show 4 < 7 by norm_num),
    padeCoef_real _ (show 5 < 7 by norm_num), padeCoef_real _ (show 6 < 7 by norm_num)]
  norm_num [pow_succ]
  exact zero_add _

theorem square_loop (s : ℕ) (r : Matrix (Fin n) (Fin n) ℝ) :
    (List.range s).foldl (fun r _ => mmul r r) r = r ^ 2 ^ s := by
  induction s with
  | zero => simp
  | succ s ih => rw [List.range_succ, List.foldl_append, ih]; simp [mmul_eq, pow_succ, pow_mul, ← pow_add]

/-- What `expm` computes over the reals: a power of the solution of the Padé equation at a scaled matrix. -/
theorem expm_run (largest : ℝ) (hl : 1 ≤ largest) (hn : n ≤ 2 ^ 50) (A : Matrix (Fin n) (Fin n) ℝ) :
    ∃ (s : ℕ) (r : Matrix (Fin n) (Fin n) ℝ),
      (∀ fuel, s ≤ fuel → expm largest fuel A = some (.ok (r ^ 2 ^ s))) ∧
      ColumnSums ((1 / 2 : ℝ) ^ s • A) (1 / 2) ∧
      padeDen ((1 / 2 : ℝ) ^ s • A) * r = padeNum ((1 / 2 : ℝ) ^ s • A) ∧
      (∀ ν, 0 ≤ ν → ColumnSums A ν → (2 : ℝ) ^ s ≤ max 1 (4 * ν)) ∧
      (∀ fuel, s ≤ fuel → halveLoop fuel (oneNorm A) 0 = some s) := by
  obtain ⟨h0, hcs, hmin⟩ := oneNorm_spec A
  obtain ⟨s, hs1, hs2, hs3⟩ := halveLoop_spec (oneNorm A) h0
  set a := (1 / 2 : ℝ) ^ s • A with ha
  have hca : ColumnSums a (1 / 2) := by
    intro j
    have : ∑ i, |a i j| = (1 / 2) ^ s * ∑ i, |A i j| := by
      rw [Finset.mul_sum]
      refine Finset.sum_congr rfl fun i _ => ?_
      rw [ha, Matrix.smul_apply, smul_eq_mul, abs_mul, abs_of_nonneg (by positivity)]
    rw [this]
    calc (1 / 2 : ℝ) ^ s * ∑ i, |A i j| ≤ (1 / 2) ^ s * oneNorm A :=
          mul_le_mul_of_nonneg_left (hcs j) (by positivity)
      _ ≤ 1 / 2 := by rw [mul_comm]; exact hs2
  obtain ⟨x, hx, hxc, hdc⟩ := padeDen_inverse_bound hca
  have hmax : maxAbs (padeDen a) ≤ 9 / 7 := by
    refine maxAbs_le _ (by norm_num) fun i j => ?_
    exact (Finset.single_le_sum (f := fun i => |padeDen a i j|) (fun i _ => abs_nonneg _) (Finset.mem_univ i)).trans
      (hdc j)
  have hmax0 := maxAbs_nonneg (padeDen a)
  obtain ⟨f, hf⟩ := lu_accepts largest (padeDen a) x (by rw [mmul_eq, midentity_eq]; exact hx)
    (by norm_num at hmax ⊢; linarith) (fun i => by
      have h1 : ∑ j, |x i j| ≤ 2 ^ 50 * (7 / 5) := by
        calc ∑ j, |x i j| ≤ ∑ _j : Fin n, (7 / 5 : ℝ) := by
              refine Finset.sum_le_sum fun j _ => ?_
              exact (Finset.single_le_sum (f := fun i => |x i j|) (fun i _ => abs_nonneg _)
                (Finset.mem_univ i)).trans (hxc j)
          _ = n * (7 / 5) := by simp
          _ ≤ 2 ^ 50 * (7 / 5) := by
              have : (n : ℝ) ≤ 2 ^ 50 := by exact_mod_cast hn
              linarith
      have h2 : 0 ≤ ∑ j, |x i j| := Finset.sum_nonneg fun j _ => abs_nonneg _
      calc (1 / 2 ^ 52 : ℝ) * maxAbs (padeDen a) * ∑ j, |x i j|
          ≤ (1 / 2 ^ 52 : ℝ) * (9 / 7) * (2 ^ 50 * (7 / 5)) := by gcongr
        _ < 1 := by norm_num)
  have hfin : ∀ m : Matrix (Fin n) (Fin n) ℝ, mIsFinite m = true := fun m => by
    simp [mIsFinite, Fns.isFinite]
  refine ⟨s, f.solveMatrix (padeNum a), fun fuel hfuel => ?_, hca, ?_, ?_, hs1⟩
  · unfold expm
    rw [if_pos (hfin _), hs1 fuel hfuel]
    have hmsc : mscale A (powi (1 / ((2 : ℕ) : ℝ)) (s : ℤ)) = a := by
      rw [powi_eq_zpow, ha]
      ext i j
      simp [mscale, mul_comm]
    simp only [hmsc, (padeLoop_real a).1, (padeLoop_real a).2, hf, hfin, if_true, square_loop]
  · have := (lu_solves (k := n) largest _ f hf).2.1 (padeNum a)
    rwa [mmul_eq] at this
  · intro ν hν hA
    refine hs3.trans (max_le_max le_rfl ?_)
    linarith [hmin ν hν hA]

/-- The inverse of the denominator and the commutation rules of a solution of the Padé equation. -/
theorem pade_solution {a r : Matrix (Fin n) (Fin n) ℝ} (h : ColumnSums a (1 / 2))
    (hr : padeDen a * r = padeNum a) : ∃ x, padeDen a * x = 1 ∧ x * padeDen a = 1 ∧ r = x * padeNum a ∧
      r = padeNum a * x ∧ ∀ c, Commute a c → Commute r c := by
  obtain ⟨x, hx, -, -⟩ := padeDen_inverse_bound h
  have hx' : x * padeDen a = 1 := mul_eq_one_comm.1 hx
  have e : r = x * padeNum a := by rw [← hr, ← mul_assoc, hx', one_mul]
  have cx : ∀ c, Commute a c → Commute x c := by
    intro c hc
    have hd := padeDen_commute hc
    calc x * c = x * (c * (padeDen a * x)) := by rw [hx, mul_one]
      _ = x * ((c * padeDen a) * x) := by rw [mul_assoc]
      _ = x * ((padeDen a * c) * x) := by rw [hd.eq]
      _ = (x * padeDen a) * (c * x) := by noncomm_ring
      _ = c * x := by rw [hx', one_mul]
  have c1 : Commute a (padeNum a) := (padeNum_commute (Commute.refl a)).symm
  refine ⟨x, hx, hx', e, ?_, fun c hc => ?_⟩
  · rw [e, (cx _ c1).eq]
  · rw [e]; exact (cx c hc).mul_left (padeNum_commute hc)

theorem exp_scaled (A : Matrix (Fin n) (Fin n) ℝ) (s : ℕ) :
    exp ((1 / 2 : ℝ) ^ s • A) ^ 2 ^ s = exp A := by
  rw [← Matrix.exp_nsmul]
  congr 1
  rw [← Nat.cast_smul_eq_nsmul ℝ, smul_smul]
  push_cast
  rw [← mul_pow]
  norm_num

theorem exp_mul_exp_neg (A : Matrix (Fin n) (Fin n) ℝ) : exp A * exp (-A) = 1 ∧ exp (-A) * exp A = 1 := by
  have h : exp A * exp (-A) = 1 := by
    rw [← Matrix.exp_add_of_commute _ _ (Commute.refl A).neg_right, add_neg_cancel, exp_zero]
  exact ⟨h, mul_eq_one_comm.1 h⟩

/-! ### What `expm` returns -/

/-- C100. The accuracy of `expm` in exact arithmetic.  On every real matrix it returns, and what it returns is the
matrix exponential up to a relative error: the result is `exp A * (1 + F)`, where `F` commutes with `A` and its column
sums are at most `exp (max 1 (4 ν) / 2⁵³) - 1` for any bound `ν` on the column sums of `A`. -/
theorem expm_accuracy (largest : ℝ) (hl : 1 ≤ largest) (hn : n ≤ 2 ^ 50) (A : Matrix (Fin n) (Fin n) ℝ) :
    ∃ (N : ℕ) (E F : Matrix (Fin n) (Fin n) ℝ), (∀ fuel, N ≤ fuel → expm largest fuel A = some (.ok E)) ∧
      E = exp A * (1 + F) ∧ Commute A F ∧
      ∀ ν, 0 ≤ ν → (∀ j, ∑ i, |A i j| ≤ ν) → ∀ j, ∑ i, |F i j| ≤ Real.exp (max 1 (4 * ν) / 2 ^ 53) - 1 := by
  obtain ⟨s, r, hrun, hca, hr, hs, -⟩ := expm_run largest hl hn A
  set a := (1 / 2 : ℝ) ^ s • A with ha
  obtain ⟨x, -, -, -, -, hcomm⟩ := pade_solution hca hr
  have hAa : Commute A a := (Commute.refl A).smul_right _
  set e := r * exp (-a) - 1 with he
  have hre : r = (1 + e) * exp a := by
    rw [he, add_sub_cancel, mul_assoc, (exp_mul_exp_neg a).2, mul_one]
  have cAr : Commute A r := (hcomm A hAa.symm).symm
  have cAe : Commute A e := by
    rw [he]
    exact (cAr.mul_right (hAa.neg_right.exp_right)).sub_right (Commute.one_right A)
  have cexp : Commute (1 + e) (exp a) := by
    refine Commute.exp_right ?_
    exact (Commute.one_left a).add_left (cAe.smul_left _).symm
  have hpow : r ^ 2 ^ s = exp A * (1 + ((1 + e) ^ 2 ^ s - 1)) := by
    have h1 : 1 + ((1 + e) ^ 2 ^ s - 1) = (1 + e) ^ 2 ^ s := add_sub_cancel _ _
    rw [h1, hre, cexp.mul_pow, ha, exp_scaled]
    exact ((((Commute.one_right A).add_right cAe).pow_right _).exp_left).eq.symm
  refine ⟨s, r ^ 2 ^ s, (1 + e) ^ 2 ^ s - 1, hrun, hpow, ?_, ?_⟩
  · exact (((Commute.one_right A).add_right cAe).pow_right _).sub_right (Commute.one_right A)
  · intro ν hν hA j
    refine (columnSums_pow (by positivity) (pade_relative_matrix hca hr) (2 ^ s) j).trans ?_
    have h1 : (1 + 1 / 2 ^ 53 : ℝ) ^ 2 ^ s ≤ Real.exp (max 1 (4 * ν) / 2 ^ 53) := by
      calc (1 + 1 / 2 ^ 53 : ℝ) ^ 2 ^ s ≤ Real.exp (1 / 2 ^ 53) ^ 2 ^ s := by
            gcongr
            have := Real.add_one_le_exp (1 / 2 ^ 53)
            linarith
        _ = Real.exp ((2 : ℝ) ^ s * (1 / 2 ^ 53)) := by rw [← Real.exp_nat_mul]; push_cast; rfl
        _ ≤ Real.exp (max 1 (4 * ν) / 2 ^ 53) := by
            apply Real.exp_le_exp.2
            rw [mul_one_div]
            gcongr
            exact hs ν hν hA
    linarith

/-- C100. On nilpotent matrices, the dynamics of integrator chains, `expm` is exact: if `A ^ 13 = 0` then the result
is the exponential. -/
theorem expm_nilpotent (largest : ℝ) (hl : 1 ≤ largest) (hn : n ≤ 2 ^ 50) (A : Matrix (Fin n) (Fin n) ℝ)
    (hA : A ^ 13 = 0) : ∃ N, ∀ fuel, N ≤ fuel → expm largest fuel A = some (.ok (exp A)) := by
  obtain ⟨s, r, hrun, hca, hr, -, -⟩ := expm_run largest hl hn A
  obtain ⟨x, hx, hx', -, -, -⟩ := pade_solution hca hr
  have hp : padeDen ((1 / 2 : ℝ) ^ s • A) * exp ((1 / 2 : ℝ) ^ s • A) = padeNum ((1 / 2 : ℝ) ^ s • A) :=
    pade_exact_matrix (by rw [smul_pow, hA, smul_zero])
  have : r = exp ((1 / 2 : ℝ) ^ s • A) := by
    have h := congrArg (x * ·) (hr.trans hp.symm)
    simpa only [← mul_assoc, hx', one_mul] using h
  refine ⟨s, fun fuel hf => ?_⟩
  rw [hrun fuel hf, this, exp_scaled]

/-- The zero matrix: the exponential is the identity. -/
example : ∃ N, ∀ fuel, N ≤ fuel → expm (10 ^ 30) fuel (0 : Matrix (Fin 3) (Fin 3) ℝ) = some (.ok 1) := by
  have := expm_nilpotent (10 ^ 30) (by norm_num) (by norm_num) (0 : Matrix (Fin 3) (Fin 3) ℝ) (by norm_num)
  rwa [exp_zero] at this

/-- A nilpotent matrix that is not zero. -/
example : (!![0, 7; 0, 0] : Matrix (Fin 2) (Fin 2) ℝ) ^ 13 = 0 := by
  have : (!![0, 7; 0, 0] : Matrix (Fin 2) (Fin 2) ℝ) ^ 2 = 0 := by
    ext i j
    fin_cases i <;> fin_cases j <;> norm_num [pow_two, Matrix.mul_apply, Fin.sum_univ_two]
  rw [show 13 = 2 + 11 by norm_num, pow_add, this, zero_mul]

/-- C100. Negating the argument inverts the result, exactly: `expm A * expm (-A) = 1` on every real matrix, so the
result is never singular. -/
theorem expm_inverse (largest : ℝ) (hl : 1 ≤ largest) (hn : n ≤ 2 ^ 50) (A : Matrix (Fin n) (Fin n) ℝ) :
    ∃ (N : ℕ) (E E' : Matrix (Fin n) (Fin n) ℝ), (∀ fuel, N ≤ fuel → expm largest fuel A = some (.ok E)) ∧
      (∀ fuel, N ≤ fuel → expm largest fuel (-A) = some (.ok E')) ∧ E * E' = 1 ∧ E' * E = 1 := by
  obtain ⟨s, r, hrun, hca, hr, -, hs⟩ := expm_run largest hl hn A
  obtain ⟨s', r', hrun', hca', hr', -, hs'⟩ := expm_run largest hl hn (-A)
  have hnorm : oneNorm (-A) = oneNorm A := by
    have : ∀ i j, Fns.abs ((-A) i j) = Fns.abs (A i j) := fun i j => by
      simp [real_abs]
    simp only [oneNorm, this]
  have hss : s' = s := by
    have h1 := hs (max s s') (le_max_left _ _)
    have h2 := hs' (max s s') (le_max_right _ _)
    rw [hnorm, h1] at h2
    exact (Option.some.inj h2).symm
  subst hss
  rw [smul_neg] at hca' hr'
  generalize (1 / 2 : ℝ) ^ s' • A = a at hca hr hca' hr'
  obtain ⟨x, hx, hx', e1, e2, -⟩ := pade_solution hca hr
  obtain ⟨y, hy, hy', f1, f2, -⟩ := pade_solution hca' hr'
  rw [padeDen_eq, neg_neg] at hy hy'
  rw [← padeDen_eq] at f1 f2
  have hrr : r * r' = 1 := by
    calc r * r' = x * (padeNum a * y) * padeDen a := by rw [e1, f1]; noncomm_ring
      _ = 1 := by rw [hy, mul_one, hx']
  have hrr' : r' * r = 1 := mul_eq_one_comm.1 hrr
  refine ⟨s', r ^ 2 ^ s', r' ^ 2 ^ s', hrun, hrun', ?_, ?_⟩
  · have c : Commute r r' := by rw [Commute, SemiconjBy, hrr, hrr']
    rw [← c.mul_pow, hrr, one_pow]
  · have c : Commute r' r := by rw [Commute, SemiconjBy, hrr, hrr']
    rw [← c.mul_pow, hrr', one_pow]

/-- C100. For every scalar type: a matrix with an entry that is not finite is refused with `NonFinite`, and every
entry of a result that is returned is finite. -/
theorem expm_finite {T : Type} [Zero T] [One T] [NatCast T] [Add T] [Sub T] [Mul T] [Div T] [Neg T] [LT T]
    [DecidableLT T] [LE T] [DecidableLE T] [BEq T] [Max T] [Min T] [Fns T] (largest : T) (fuel : ℕ)
    (A : Matrix (Fin n) (Fin n) T) :
    (∀ i j, Fns.isFinite (A i j) = false → expm largest fuel A = some (.error .nonFinite)) ∧
    ∀ E, expm largest fuel A = some (.ok E) → ∀ i j, Fns.isFinite (E i j) = true := by
  have hall : ∀ m : Matrix (Fin n) (Fin n) T, mIsFinite m = true ↔ ∀ i j, Fns.isFinite (m i j) = true := fun m => by
    simp [mIsFinite]
  constructor
  · intro i j h
    unfold expm
    rw [if_neg]
    intro h'
    rw [(hall A).1 h' i j] at h
    exact Bool.noConfusion h
  · intro E h
    unfold expm at h
    split at h
    · split at h
      · simp at h
      · dsimp only at h
        split at h
        · simp at h
        · split at h
          next hf =>
            simp only [Option.some.injEq, Except.ok.injEq] at h
            subst h
            exact (hall _).1 hf
          · simp at h
    · simp at h

/-- A matrix over the extended reals with an infinite entry. -/
example : expm XR.pinf 5 (fun i j => if i = j then XR.pinf else 0 : Matrix (Fin 2) (Fin 2) XR) =
    some (.error .nonFinite) :=
  (expm_finite XR.pinf 5 _).1 0 0 (by simp [Fns.isFinite])

/-! ### Overflow -/

/-- Extended reals where sums, differences, products and quotients of magnitude `2¹⁰²⁴` or more become infinite, as
in `f64`; still without rounding. -/
def OverflowXR : Type := XR

namespace OverflowXR
open Classical

/-- The least magnitude that overflows. -/
noncomputable def bound : ℝ := 2 ^ 1024

theorem one_lt_bound : 1 < bound := one_lt_pow₀ (by norm_num) (by norm_num)

attribute [irreducible] bound

/-- Overflow to infinity. -/
noncomputable def clip : XR → XR
  | .fin x => if bound ≤ x then XR.pinf else if x ≤ -bound then XR.ninf else XR.fin x
  | .pinf => .pinf
  | .ninf => .ninf
  | .nan => .nan

noncomputable instance : Zero OverflowXR := ⟨XR.fin 0⟩
noncomputable instance : One OverflowXR := ⟨XR.fin 1⟩
noncomputable instance : NatCast OverflowXR := ⟨fun n => XR.fin n⟩
noncomputable instance : Add OverflowXR := ⟨fun a b => clip (XR.add a b)⟩
noncomputable instance : Neg OverflowXR := ⟨XR.neg⟩
noncomputable instance : Sub OverflowXR := ⟨fun a b => clip (XR.add a (XR.neg b))⟩
noncomputable instance : Mul OverflowXR := ⟨fun a b => clip (XR.mul a b)⟩
noncomputable instance : Div OverflowXR := ⟨fun a b => clip (XR.div a b)⟩
instance : LT OverflowXR := ⟨XR.lt⟩
instance : LE OverflowXR := ⟨XR.le⟩
noncomputable instance : DecidableLT OverflowXR := fun a b => propDecidable (XR.lt a b)
noncomputable instance : DecidableLE OverflowXR := fun a b => propDecidable (XR.le a b)
noncomputable instance : BEq OverflowXR := ⟨XR.beq⟩
noncomputable instance : Max OverflowXR := ⟨XR.fmax⟩
noncomputable instance : Min OverflowXR := ⟨XR.fmin⟩
noncomputable instance : Fns OverflowXR := inferInstanceAs (Fns XR)

/-- Half of the least magnitude that overflows, a finite value. -/
noncomputable def huge : OverflowXR := XR.fin (bound / 2)

/-- Infinity. -/
def inf : OverflowXR := XR.pinf

theorem clip_fin {x : ℝ} (h0 : 0 ≤ x) (h1 : x < bound) : clip (XR.fin x) = XR.fin x := by
  have hb := one_lt_bound
  have : ¬ x ≤ -bound := by intro h; linarith
  rw [clip, if_neg (not_le.2 h1), if_neg this]

theorem half_eq : (1 / ((2 : ℕ) : OverflowXR)) = (XR.fin (1 / 2) : XR) := by
  have hb := one_lt_bound
  have h1 : XR.div (XR.fin 1) (XR.fin ((2 : ℕ) : ℝ)) = XR.fin (1 / 2) := by simp [XR.div]
  show clip (XR.div (XR.fin 1) (XR.fin ((2 : ℕ) : ℝ))) = XR.fin (1 / 2)
  rw [h1, clip_fin (by norm_num) (by linarith)]

theorem huge_finite : Fns.isFinite huge = true := rfl

theorem huge_abs : Fns.abs huge = huge := by
  have hb := one_lt_bound
  show XR.fin |bound / 2| = XR.fin (bound / 2)
  rw [abs_of_pos (by linarith)]

theorem zero_huge : (0 : OverflowXR) + huge = huge := by
  have hb := one_lt_bound
  show clip (XR.fin (0 + bound / 2)) = XR.fin (bound / 2)
  rw [zero_add, clip_fin (by linarith) (by linarith)]

theorem huge_huge : huge + huge = inf := by
  show clip (XR.fin (bound / 2 + bound / 2)) = XR.pinf
  rw [clip, if_pos (by linarith)]

theorem zero_lt_inf : (0 : OverflowXR) < inf := by show XR.lt (XR.fin 0) XR.pinf; trivial

theorem inf_not_lt : ¬ (inf < inf) := by show ¬ XR.lt XR.pinf XR.pinf; simp [XR.lt]

theorem half_lt_inf : (1 / ((2 : ℕ) : OverflowXR)) < inf := by
  rw [half_eq]; show XR.lt (XR.fin (1 / 2)) XR.pinf; trivial

theorem inf_half : inf * (1 / ((2 : ℕ) : OverflowXR)) = inf := by
  rw [half_eq]
  show clip (XR.mul XR.pinf (XR.fin (1 / 2))) = XR.pinf
  have : XR.mul XR.pinf (XR.fin (1 / 2)) = XR.pinf := by simp [XR.mul, XR.infTimes]
  rw [this, clip]
end OverflowXR

/-- The scaling loop on a value that halving does not change. -/
theorem halveLoop_stuck {T : Type} [Zero T] [One T] [NatCast T] [Add T] [Sub T] [Mul T] [Div T] [Neg T] [LT T]
    [DecidableLT T] [LE T] [DecidableLE T] [BEq T] [Max T] [Min T] [Fns T] (x : T)
    (h1 : 1 / ((2 : ℕ) : T) < x) (h2 : x * (1 / ((2 : ℕ) : T)) = x) (fuel k : ℕ) : halveLoop fuel x k = none := by
  induction fuel generalizing k with
  | zero => rw [halveLoop, if_pos h1]
  | succ fuel ih => rw [halveLoop, if_pos h1, h2, ih]

/-- C100 (finding). `expm` does not return on some finite matrices.  When the sum of a column overflows to infinity,
halving it leaves it infinite, so the scaling loop never ends: with every entry equal to half of `2¹⁰²⁴`, no number of passes
is enough.  The documentation promises a result or an error. -/
theorem expm_overflow_hangs (largest : OverflowXR) (fuel : ℕ) :
    Fns.isFinite OverflowXR.huge = true ∧
    expm largest fuel (fun _ _ => OverflowXR.huge : Matrix (Fin 2) (Fin 2) OverflowXR) = none := by
  have hl : List.finRange 2 = [0, 1] := rfl
  have hnorm : oneNorm (fun _ _ => OverflowXR.huge : Matrix (Fin 2) (Fin 2) OverflowXR) = OverflowXR.inf := by
    simp only [oneNorm, sumLoop, hl, List.foldl_cons, List.foldl_nil, OverflowXR.huge_abs, OverflowXR.zero_huge,
      OverflowXR.huge_huge, if_pos OverflowXR.zero_lt_inf, if_neg OverflowXR.inf_not_lt]
  refine ⟨OverflowXR.huge_finite, ?_⟩
  unfold expm
  rw [if_pos (by simp [mIsFinite, OverflowXR.huge_finite]), hnorm,
    halveLoop_stuck _ OverflowXR.half_lt_inf OverflowXR.inf_half]

end Multicalc
