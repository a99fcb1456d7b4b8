import Verif.Model.LinearAlgebra
import Mathlib.LinearAlgebra.Matrix.NonsingularInverse
import Mathlib.LinearAlgebra.Matrix.Block
import Mathlib.Tactic

/-!
# Lemmas on the matrix loops
-/

namespace Multicalc

open Matrix

variable {n r c k : ℕ}

theorem foldl_add_eq {R ι : Type} [AddCommMonoid R] (l : List ι) (f : ι → R) (a : R) :
    l.foldl (fun acc i => acc + f i) a = a + (l.map f).sum := by
  induction l generalizing a with
  | nil => simp
  | cons i l ih => simp [ih, add_assoc]

theorem sumLoop_eq {R : Type} [AddCommMonoid R] (f : Fin n → R) : sumLoop n f = ∑ i, f i := by
  rw [sumLoop, foldl_add_eq, zero_add, ← List.sum_ofFn, List.ofFn_eq_map]

theorem sum_single {R : Type} [AddCommMonoid R] (k : Fin n) (f : Fin n → R) :
    f k = ∑ m, if m = k then f m else 0 := by
  simp

theorem prodLoop_eq {R : Type} [CommMonoid R] (f : Fin n → R) (a : R) :
    (List.finRange n).foldl (fun acc i => acc * f i) a = a * ∏ i, f i := by
  rw [← List.prod_ofFn, List.ofFn_eq_map]
  generalize List.finRange n = l
  induction l generalizing a with
  | nil => simp
  | cons i l ih => simp [ih, mul_assoc]

theorem foldl_sub_filter {R ι : Type} [CommRing R] (l : List ι) (p : ι → Bool) (f : ι → R) (a : R) :
    (l.filter p).foldl (fun sum j => sum - f j) a =
      a - (l.map fun j => if p j then f j else 0).sum := by
  induction l generalizing a with
  | nil => simp
  | cons j l ih =>
    rw [List.filter_cons]
    cases hp : p j
    · simp [ih, hp]
    · simp [ih, hp, sub_sub]

theorem foldl_sub_finRange {R : Type} [CommRing R] (p : Fin n → Bool) (f : Fin n → R) (a : R) :
    ((List.finRange n).filter p).foldl (fun sum j => sum - f j) a =
      a - ∑ j, if p j then f j else 0 := by
  rw [foldl_sub_filter, ← List.sum_ofFn, List.ofFn_eq_map]

theorem finRange_split {pre post : List (Fin n)} {i : Fin n}
    (h : List.finRange n = pre ++ i :: post) :
    (i : ℕ) = pre.length ∧ (∀ j, j ∈ pre ↔ j < i) ∧ (∀ j, j ∈ post ↔ i < j) := by
  have h1 : (i : ℕ) = pre.length := by
    have hl : pre.length < n := by
      have := congrArg List.length h
      simp at this; omega
    have := congrArg (fun l => l[pre.length]?) h
    simp [hl] at this
    rw [← this]
  have hs : (pre ++ i :: post).Pairwise (· < ·) := by
    rw [← h]; exact List.pairwise_lt_finRange n
  rw [List.pairwise_append, List.pairwise_cons] at hs
  obtain ⟨-, ⟨h2, -⟩, h3⟩ := hs
  have hm : ∀ j, j ∈ pre ∨ j = i ∨ j ∈ post := by
    intro j
    have : j ∈ pre ++ i :: post := by rw [← h]; exact List.mem_finRange j
    simpa using this
  have h4 : ∀ j ∈ pre, j < i := fun j hj => h3 j hj i (by simp)
  refine ⟨h1, fun j => ⟨h4 j, fun hj => ?_⟩, fun j => ⟨h2 j, fun hj => ?_⟩⟩
  · rcases hm j with h | h | h
    · exact h
    · exact absurd h hj.ne
    · exact absurd (h2 j h) hj.asymm
  · rcases hm j with h | h | h
    · exact absurd (h4 j h) hj.asymm
    · exact absurd h hj.ne'
    · exact h

/-- What a run of substitution steps computes: when every step uses only entries found before it. -/
theorem substitution_run {K : Type} [CommRing K] (coeff : Fin n → Fin n → K)
    (used : Fin n → Fin n → Bool) (finish : Fin n → K → K) (b : Fin n → K) :
    ∀ (post pre : List (Fin n)) (x : Fin n → K), (pre ++ post).Nodup →
      (∀ p i q, pre ++ post = p ++ i :: q → ∀ j, used i j = true → j ∈ p) →
      (∀ i ∈ pre, x i = finish i (b i - ∑ j, if used i j then coeff i j * x j else 0)) →
      (∀ i, i ∉ pre → x i = b i) →
      ∀ y, y = post.foldl (fun x i => substituteStep (coeff i) (used i) (finish i) x i) x →
        (∀ i ∈ pre ++ post, y i = finish i (b i - ∑ j, if used i j then coeff i j * y j else 0)) ∧
        (∀ i, i ∉ pre ++ post → y i = b i) := by
  intro post
  induction post with
  | nil =>
    intro pre x _ _ h1 h2 y hy
    simp only [List.foldl_nil] at hy
    subst hy
    simpa using ⟨h1, h2⟩
  | cons i post ih =>
    intro pre x hn hu h1 h2 y hy
    have hi : i ∉ pre := by
      rw [List.nodup_append] at hn
      exact fun hp => hn.2.2 i hp i (by simp) rfl
    have hx' : ∀ j, j ≠ i → substituteStep (coeff i) (used i) (finish i) x i j = x j := by
      intro j hj
      rw [substituteStep, Function.update_of_ne hj]
    have hxi : substituteStep (coeff i) (used i) (finish i) x i i =
        finish i (b i - ∑ j, if used i j then coeff i j * x j else 0) := by
      rw [substituteStep, Function.update_self, foldl_sub_finRange, h2 i hi]
    have hsum : ∀ a, (∀ j, used a j = true → j ∈ pre) →
        (∑ j, if used a j then
          coeff a j * substituteStep (coeff i) (used i) (finish i) x i j else 0) =
        ∑ j, if used a j then coeff a j * x j else 0 := by
      intro a ha
      refine Finset.sum_congr rfl fun j _ => ?_
      split_ifs with hj
      · rw [hx' j]
        rintro rfl
        exact hi (ha _ hj)
      · rfl
    have hassoc : (pre ++ [i]) ++ post = pre ++ i :: post := by simp
    have := ih (pre ++ [i]) (substituteStep (coeff i) (used i) (finish i) x i) (by rwa [hassoc])
      (by rwa [hassoc]) ?_ ?_ y (by rw [hy, List.foldl_cons])
    · rwa [hassoc] at this
    · intro a ha
      rw [List.mem_append, List.mem_singleton] at ha
      rcases ha with ha | rfl
      · have hai : a ≠ i := fun h => hi (h ▸ ha)
        obtain ⟨p, q, hpq⟩ := List.append_of_mem ha
        have hua := hu p a (q ++ i :: post) (by rw [hpq]; simp)
        rw [hx' a hai, h1 a ha, hsum a fun j hj => by rw [hpq]; simp [hua j hj]]
      · rw [hxi, hsum]
        exact hu pre a post rfl
    · intro a ha
      rw [List.mem_append, List.mem_singleton, not_or] at ha
      rw [hx' a ha.2, h2 a ha.1]

/-- Forward substitution. -/
theorem forward_substitution {K : Type} [CommRing K] (coeff : Fin n → Fin n → K)
    (finish : Fin n → K → K) (b y : Fin n → K)
    (hy : y = (List.finRange n).foldl (fun x i =>
      substituteStep (coeff i) (fun j => decide (j < i)) (finish i) x i) b) (i : Fin n) :
    y i = finish i (b i - ∑ j, if j < i then coeff i j * y j else 0) := by
  have := (substitution_run coeff (fun i j => decide (j < i)) finish b (List.finRange n) [] b
    (by simpa using List.nodup_finRange n) ?_ (by simp) (by simp) y hy).1 i (by simp)
  · simpa using this
  · intro p a q h j hj
    exact ((finRange_split h).2.1 j).2 (by simpa using hj)

/-- Back substitution. -/
theorem back_substitution {K : Type} [CommRing K] (coeff : Fin n → Fin n → K)
    (finish : Fin n → K → K) (b y : Fin n → K)
    (hy : y = (List.finRange n).reverse.foldl (fun x i =>
      substituteStep (coeff i) (fun j => decide (i < j)) (finish i) x i) b) (i : Fin n) :
    y i = finish i (b i - ∑ j, if i < j then coeff i j * y j else 0) := by
  have := (substitution_run coeff (fun i j => decide (i < j)) finish b (List.finRange n).reverse []
    b (by simpa using List.nodup_finRange n) ?_ (by simp) (by simp) y hy).1 i (by simp)
  · simpa using this
  · intro p a q h j hj
    have h' : List.finRange n = q.reverse ++ a :: p.reverse := by
      have := congrArg List.reverse h
      simpa using this
    have := ((finRange_split h').2.2 j).2 (by simpa using hj)
    simpa using this

/-! ### LU -/

theorem real_abs (x : ℝ) : Fns.abs x = |x| := rfl
theorem real_sqrt (x : ℝ) : Fns.sqrt x = Real.sqrt x := rfl

theorem pivotSearch_spec (a : Matrix (Fin n) (Fin n) ℝ) (k : Fin n) :
    k ≤ (pivotSearch a k).2 ∧ (pivotSearch a k).1 = |a (pivotSearch a k).2 k| ∧
    ∀ i, k ≤ i → |a i k| ≤ (pivotSearch a k).1 := by
  have key : ∀ (l : List (Fin n)) (s : ℝ × Fin n), k ≤ s.2 → s.1 = |a s.2 k| →
      let t := l.foldl (fun (s : ℝ × Fin n) i =>
        if k < i ∧ s.1 < Fns.abs (a i k) then (Fns.abs (a i k), i) else s) s
      k ≤ t.2 ∧ t.1 = |a t.2 k| ∧ s.1 ≤ t.1 ∧ ∀ i ∈ l, k < i → |a i k| ≤ t.1 := by
    intro l
    induction l with
    | nil => intro s h1 h2; simp [h1, h2]
    | cons i l ih =>
      intro s h1 h2
      simp only [List.foldl_cons, real_abs]
      by_cases h : k < i ∧ s.1 < |a i k|
      · rw [if_pos h]
        obtain ⟨g1, g2, g3, g4⟩ := ih (|a i k|, i) h.1.le rfl
        refine ⟨g1, g2, h.2.le.trans g3, ?_⟩
        intro j hj hk
        rcases List.mem_cons.1 hj with rfl | hj
        · exact g3
        · exact g4 j hj hk
      · rw [if_neg h]
        obtain ⟨g1, g2, g3, g4⟩ := ih s h1 h2
        refine ⟨g1, g2, g3, ?_⟩
        intro j hj hk
        rcases List.mem_cons.1 hj with rfl | hj
        · exact (not_lt.1 fun h' => h ⟨hk, h'⟩).trans g3
        · exact g4 j hj hk
  obtain ⟨h1, h2, h3, h4⟩ := key (List.finRange n) (|a k k|, k) le_rfl rfl
  refine ⟨h1, h2, fun i hi => ?_⟩
  rcases hi.eq_or_lt with rfl | hi
  · exact h3
  · exact h4 i (List.mem_finRange i) hi

/-- Column `m` of the unit lower factor held in a packed matrix. -/
def packedLower (a : Matrix (Fin n) (Fin n) ℝ) (i m : Fin n) : ℝ :=
  if i = m then 1 else if m < i then a i m else 0

/-- Row `m` of the upper factor held in a packed matrix. -/
def packedUpper (a : Matrix (Fin n) (Fin n) ℝ) (m j : Fin n) : ℝ :=
  if m ≤ j then a m j else 0

/-- What holds after the first `k` columns of `factor_lu`. -/
structure LuInvariant (A : Matrix (Fin n) (Fin n) ℝ) (k : ℕ) (s : LuState n ℝ)
    (σ : Equiv.Perm (Fin n)) : Prop where
  perm : s.perm = σ
  sign : s.sign = ((Equiv.Perm.sign σ : ℤ) : ℝ)
  diag : ∀ i : Fin n, (i : ℕ) < k → s.a i i ≠ 0
  bound : ∀ i j : Fin n, (j : ℕ) < k → j < i → |s.a i j| ≤ 1
  pivots : ∀ i : Fin n, (i : ℕ) < k → s.smallestPivot ≤ |s.a i i|
  factor : ∀ i j, A (σ i) j =
    (∑ m : Fin n, if (m : ℕ) < k then packedLower s.a i m * packedUpper s.a m j else 0) +
      if k ≤ (i : ℕ) ∧ k ≤ (j : ℕ) then s.a i j else 0

theorem luInvariant_swap {A : Matrix (Fin n) (Fin n) ℝ} {k : Fin n} {s : LuState n ℝ}
    {σ : Equiv.Perm (Fin n)} (h : LuInvariant A k s σ) (p : Fin n) (hp : k ≤ p) (hpk : p ≠ k)
    (small : ℝ) (hsmall : small ≤ s.smallestPivot) :
    LuInvariant A k ⟨fun i => s.a (Equiv.swap k p i), fun i => s.perm (Equiv.swap k p i), -s.sign,
      small⟩ (σ * Equiv.swap k p) := by
  have hlt : ∀ i : Fin n, i < k → Equiv.swap k p i = i := fun i hi =>
    Equiv.swap_apply_of_ne_of_ne hi.ne (hi.trans_le hp).ne
  have hge : ∀ i : Fin n, k ≤ i → k ≤ Equiv.swap k p i := by
    intro i hi
    rcases eq_or_ne i k with rfl | h1
    · rw [Equiv.swap_apply_left]; exact hp
    · rcases eq_or_ne i p with rfl | h2
      · rw [Equiv.swap_apply_right]
      · rw [Equiv.swap_apply_of_ne_of_ne h1 h2]; exact hi
  refine ⟨?_, ?_, ?_, ?_, ?_, ?_⟩
  · funext i; simp [h.perm]
  · rw [Equiv.Perm.sign_mul, Equiv.Perm.sign_swap (Ne.symm hpk), h.sign]; simp
  · intro i hi
    simp only [hlt i hi]
    exact h.diag i hi
  · intro i j hj hij
    by_cases hi : i < k
    · simp only [hlt i hi]; exact h.bound i j hj hij
    · exact h.bound _ j hj (lt_of_lt_of_le hj (hge i (not_lt.1 hi)))
  · intro i hi
    simp only [hlt i hi]
    exact hsmall.trans (h.pivots i hi)
  · intro i j
    rw [Equiv.Perm.mul_apply, h.factor]
    congr 1
    · refine Finset.sum_congr rfl fun m _ => ?_
      split_ifs with hm
      · congr 1
        · simp only [packedLower]
          by_cases hi : i < k
          · rw [hlt i hi]
          · have h1 := hge i (not_lt.1 hi)
            have hmk : m < k := hm
            have h2 : m < i := lt_of_lt_of_le hmk (not_lt.1 hi)
            have h3 : m < Equiv.swap k p i := lt_of_lt_of_le hmk h1
            rw [if_neg h2.ne', if_neg h3.ne', if_pos h2, if_pos h3]
        · simp only [packedUpper, hlt m hm]
      · rfl
    · by_cases hi : i < k
      · simp only [hlt i hi]
      · have h1 := hge i (not_lt.1 hi)
        have h2 : (k : ℕ) ≤ i := not_lt.1 hi
        have h3 : (k : ℕ) ≤ Equiv.swap k p i := h1
        simp only [h2, h3, true_and]

theorem luInvariant_eliminate {A : Matrix (Fin n) (Fin n) ℝ} {k : Fin n} {s : LuState n ℝ}
    {σ : Equiv.Perm (Fin n)} (h : LuInvariant A k s σ) (hk : s.a k k ≠ 0)
    (hbig : ∀ i, k ≤ i → |s.a i k| ≤ |s.a k k|) (hsmall : s.smallestPivot ≤ |s.a k k|) :
    LuInvariant A (k + 1) { s with a := eliminate s.a k } σ := by
  have hrow : ∀ i j, i ≤ k → eliminate s.a k i j = s.a i j := fun i j hi => by
    rw [eliminate, if_neg (not_lt.2 hi)]
  have hcol : ∀ i j, j < k → eliminate s.a k i j = s.a i j := fun i j hj => by
    rw [eliminate]
    split_ifs with h1 h2 h3
    · exact absurd h2 hj.ne
    · exact absurd h3 hj.asymm
    · rfl
    · rfl
  refine ⟨h.perm, h.sign, ?_, ?_, ?_, ?_⟩
  · intro i hi
    have hik : i ≤ k := Nat.lt_succ_iff.1 hi
    simp only [hrow i i hik]
    rcases hik.eq_or_lt with rfl | hlt
    · exact hk
    · exact h.diag i hlt
  · intro i j hj hij
    have hjk : j ≤ k := Nat.lt_succ_iff.1 hj
    rcases hjk.eq_or_lt with rfl | hlt
    · simp only [eliminate, if_pos hij, if_true]
      rw [abs_div]
      exact div_le_one_of_le₀ (hbig i hij.le) (abs_nonneg _)
    · simp only [hcol i j hlt]
      exact h.bound i j hlt hij
  · intro i hi
    have hik : i ≤ k := Nat.lt_succ_iff.1 hi
    simp only [hrow i i hik]
    rcases hik.eq_or_lt with rfl | hlt
    · exact hsmall
    · exact h.pivots i hlt
  · intro i j
    rw [h.factor]
    have hsplit : (∑ m : Fin n, if (m : ℕ) < k + 1 then
          packedLower (eliminate s.a k) i m * packedUpper (eliminate s.a k) m j else 0) =
        (∑ m : Fin n, if (m : ℕ) < k then packedLower s.a i m * packedUpper s.a m j else 0) +
          packedLower (eliminate s.a k) i k * packedUpper (eliminate s.a k) k j := by
      rw [sum_single k
        (fun m => packedLower (eliminate s.a k) i m * packedUpper (eliminate s.a k) m j),
        ← Finset.sum_add_distrib]
      refine Finset.sum_congr rfl fun m _ => ?_
      rcases lt_trichotomy m k with hm | rfl | hm
      · have hm' : (m : ℕ) < k := hm
        rw [if_pos (by omega), if_pos hm', if_neg hm.ne, add_zero]
        congr 1
        · simp only [packedLower, hcol i m hm]
        · simp only [packedUpper, hrow m j hm.le]
      · simp
      · have hm' : (k : ℕ) < m := hm
        rw [if_neg (by omega), if_neg (by omega), if_neg hm.ne', add_zero]
    rw [hsplit, add_assoc]
    congr 1
    have e1 : packedUpper (eliminate s.a k) k j = if k ≤ j then s.a k j else 0 := by
      simp only [packedUpper, hrow k j le_rfl]
    rw [e1]
    simp only [packedLower]
    rcases lt_trichotomy i k with hi | rfl | hi
    · have hi' : (i : ℕ) < k := hi
      rw [if_neg (show ¬ ((k : ℕ) ≤ i ∧ (k : ℕ) ≤ j) by omega), if_neg hi.ne, if_neg hi.asymm,
        if_neg (show ¬ ((k : ℕ) + 1 ≤ i ∧ (k : ℕ) + 1 ≤ j) by omega)]
      ring
    · rw [if_pos rfl, one_mul]
      rw [if_neg (show ¬ ((i : ℕ) + 1 ≤ i ∧ (i : ℕ) + 1 ≤ j) by omega), add_zero]
      by_cases hj : i ≤ j
      · rw [if_pos hj, if_pos ⟨le_rfl, hj⟩]
      · rw [if_neg hj, if_neg (fun h => hj h.2)]
    · have hi' : (k : ℕ) < i := hi
      rw [if_neg hi.ne', if_pos hi]
      have e2 : eliminate s.a k i k = s.a i k / s.a k k := by
        simp [eliminate, hi]
      rw [e2]
      rcases lt_trichotomy j k with hj | rfl | hj
      · have hj' : (j : ℕ) < k := hj
        rw [if_neg (by omega), if_neg (not_le.2 hj), if_neg (by omega)]
        ring
      · rw [if_pos ⟨hi'.le, le_rfl⟩, if_pos le_rfl, if_neg (by omega), add_zero,
          div_mul_cancel₀ _ hk]
      · have hj' : (k : ℕ) < j := hj
        rw [if_pos ⟨hi'.le, hj'.le⟩, if_pos hj.le, if_pos (by omega)]
        have e3 : eliminate s.a k i j = s.a i j - s.a i k / s.a k k * s.a k j := by
          simp [eliminate, hi, hj, hj.ne']
        rw [e3]; ring

/-- A column with nothing on or below the diagonal makes the matrix singular. -/
theorem det_zero_of_column {A : Matrix (Fin n) (Fin n) ℝ} {k : Fin n} {s : LuState n ℝ}
    {σ : Equiv.Perm (Fin n)} (h : LuInvariant A k s σ) (hz : ∀ i, k ≤ i → s.a i k = 0) :
    A.det = 0 := by
  classical
  set L : Matrix (Fin n) (Fin n) ℝ := fun i m =>
    if (m : ℕ) < k then packedLower s.a i m else if m = i then 1 else 0 with hL
  set U : Matrix (Fin n) (Fin n) ℝ := fun m j =>
    if (m : ℕ) < k then packedUpper s.a m j else if (k : ℕ) ≤ j then s.a m j else 0 with hU
  have hprod : A.submatrix σ id = L * U := by
    ext i j
    rw [Matrix.submatrix_apply, id, h.factor, Matrix.mul_apply]
    have : ∀ m, L i m * U m j =
        (if (m : ℕ) < k then packedLower s.a i m * packedUpper s.a m j else 0) +
          if m = i then (if (k : ℕ) ≤ i ∧ (k : ℕ) ≤ j then s.a i j else 0) else 0 := by
      intro m
      simp only [hL, hU]
      by_cases hm : (m : ℕ) < k
      · rw [if_pos hm, if_pos hm, if_pos hm]
        by_cases hmi : m = i
        · subst hmi
          rw [if_pos rfl, if_neg (by omega), add_zero]
        · rw [if_neg hmi, add_zero]
      · rw [if_neg hm, if_neg hm, if_neg hm, zero_add]
        by_cases hmi : m = i
        · subst hmi
          rw [if_pos rfl, if_pos rfl, one_mul]
          have : (k : ℕ) ≤ m := not_lt.1 hm
          simp only [this, true_and]
        · rw [if_neg hmi, if_neg hmi, zero_mul]
    simp only [this, Finset.sum_add_distrib, Finset.sum_ite_eq', Finset.mem_univ, if_true]
  have hUdet : U.det = 0 := by
    rw [Matrix.det_apply]
    refine Finset.sum_eq_zero fun τ _ => ?_
    have hcol : ∀ m j : Fin n, j < k → j < m → U m j = 0 := by
      intro m j hj hm
      have hj' : (j : ℕ) < k := hj
      simp only [hU]
      split_ifs with h1 h2
      · simp [packedUpper, not_le.2 hm]
      · omega
      · rfl
    have hkcol : ∀ m : Fin n, k ≤ m → U m k = 0 := by
      intro m hm
      have hm' : (k : ℕ) ≤ m := hm
      simp only [hU]
      rw [if_neg (by omega), if_pos le_rfl, hz m hm]
    have : ∃ j, U (τ j) j = 0 := by
      by_contra hne
      push Not at hne
      have h1 : ∀ j, j < k → τ j ≤ j := fun j hj => not_lt.1 fun h => hne j (hcol _ _ hj h)
      have h2 : τ k < k := not_le.1 fun h => hne k (hkcol _ h)
      have h3 : ∀ j ∈ Finset.Iic k, τ j ∈ Finset.Iio k := by
        intro j hj
        rw [Finset.mem_Iic] at hj
        rw [Finset.mem_Iio]
        rcases hj.eq_or_lt with rfl | hj
        · exact h2
        · exact lt_of_le_of_lt (h1 j hj) hj
      have := Finset.card_le_card_of_injOn τ h3 (fun a _ b _ hab => τ.injective hab)
      simp at this
    obtain ⟨j, hj⟩ := this
    rw [Finset.prod_eq_zero (f := fun i => U (τ i) i) (Finset.mem_univ j) hj, smul_zero]
  have h1 := Matrix.det_permute σ A
  rw [hprod, Matrix.det_mul, hUdet, mul_zero] at h1
  have h2 : ((Equiv.Perm.sign σ : ℤ) : ℝ) ≠ 0 := by
    rcases Int.units_eq_one_or (Equiv.Perm.sign σ) with h | h <;> simp [h]
  exact (mul_eq_zero.1 h1.symm).resolve_left h2

theorem luStep_spec {A : Matrix (Fin n) (Fin n) ℝ} {k : Fin n} {s : LuState n ℝ}
    {σ : Equiv.Perm (Fin n)} (h : LuInvariant A k s σ) :
    (luStep s k = .error .singular ∧ A.det = 0) ∨
    ∃ s' τ, luStep s k = .ok s' ∧ LuInvariant A (k + 1) s' τ := by
  obtain ⟨h1, h2, h3⟩ := pivotSearch_spec s.a k
  unfold luStep
  generalize pivotSearch s.a k = bp at h1 h2 h3
  obtain ⟨best, pivot⟩ := bp
  simp only at h1 h2 h3 ⊢
  by_cases hb : best = 0
  · left
    refine ⟨by simp [hb], det_zero_of_column h fun i hi => ?_⟩
    have := h3 i hi
    rw [hb] at this
    exact abs_eq_zero.1 (le_antisymm this (abs_nonneg _))
  · right
    rw [if_neg (by simpa using hb)]
    by_cases hp : pivot = k
    · subst hp
      refine ⟨_, σ, rfl, ?_⟩
      simp only [if_true]
      have hpv : s.a pivot pivot ≠ 0 := by
        intro h0; rw [h0, abs_zero] at h2; exact hb h2
      have h' : LuInvariant A pivot { s with smallestPivot := min s.smallestPivot best } σ :=
        ⟨h.perm, h.sign, h.diag, h.bound, fun i hi => (min_le_left _ _).trans (h.pivots i hi),
          h.factor⟩
      exact luInvariant_eliminate h' hpv (fun i hi => by rw [← h2]; exact h3 i hi)
        (by rw [← h2]; exact min_le_right _ _)
    · refine ⟨_, σ * Equiv.swap k pivot, rfl, ?_⟩
      simp only [if_neg hp]
      have h' := luInvariant_swap h pivot h1 hp (min s.smallestPivot best) (min_le_left _ _)
      have hpv : s.a pivot k ≠ 0 := by
        intro h0; rw [h0, abs_zero] at h2; exact hb h2
      refine luInvariant_eliminate h' ?_ ?_ ?_
      · simpa using hpv
      · intro i hi
        simp only [Equiv.swap_apply_left]
        rw [← h2]
        apply h3
        rcases eq_or_ne i k with rfl | h4
        · rw [Equiv.swap_apply_left]; exact h1
        · rcases eq_or_ne i pivot with rfl | h5
          · rw [Equiv.swap_apply_right]
          · rw [Equiv.swap_apply_of_ne_of_ne h4 h5]; exact hi
      · simp only [Equiv.swap_apply_left]
        rw [← h2]; exact min_le_right _ _

theorem luLoop_spec {A : Matrix (Fin n) (Fin n) ℝ} :
    ∀ (post pre : List (Fin n)) (s : LuState n ℝ) (σ : Equiv.Perm (Fin n)),
      List.finRange n = pre ++ post → LuInvariant A pre.length s σ →
      (luLoop post s = .error .singular ∧ A.det = 0) ∨
      ∃ s' τ, luLoop post s = .ok s' ∧ LuInvariant A n s' τ := by
  intro post
  induction post with
  | nil =>
    intro pre s σ hl h
    right
    have : pre.length = n := by
      have := congrArg List.length hl
      simpa using this.symm
    rw [this] at h
    exact ⟨s, σ, rfl, h⟩
  | cons k post ih =>
    intro pre s σ hl h
    have hk := (finRange_split hl).1
    rw [← hk] at h
    rcases luStep_spec h with ⟨h1, h2⟩ | ⟨s', τ, h1, h2⟩
    · left; exact ⟨by rw [luLoop, h1], h2⟩
    · rw [luLoop, h1]
      exact ih (pre ++ [k]) s' τ (by rw [hl]; simp) (by
        rw [List.length_append, ← hk]; exact h2)

theorem factorLu_spec (largest : ℝ) (A : Matrix (Fin n) (Fin n) ℝ) :
    (factorLu largest A = .error .singular ∧ A.det = 0) ∨
    ∃ s σ, factorLu largest A = .ok s ∧ LuInvariant A n s σ := by
  refine luLoop_spec (List.finRange n) [] _ 1 (by simp) ⟨rfl, by simp, by simp, by simp, by simp, ?_⟩
  intro i j
  simp

/-- The factors of a finished factorization. -/
theorem luInvariant_factors {A : Matrix (Fin n) (Fin n) ℝ} {s : LuState n ℝ}
    {σ : Equiv.Perm (Fin n)} (h : LuInvariant A n s σ) :
    s.lower * s.upper = A.submatrix σ id ∧ s.lower.det = 1 ∧ s.upper.det = ∏ i, s.a i i ∧
    (∀ i, s.a i i ≠ 0) := by
  refine ⟨?_, ?_, ?_, fun i => h.diag i i.2⟩
  · ext i j
    rw [Matrix.submatrix_apply, id, h.factor, Matrix.mul_apply, if_neg (by omega), add_zero]
    refine Finset.sum_congr rfl fun m _ => ?_
    rw [if_pos m.2]
    rfl
  · rw [Matrix.det_of_lowerTriangular]
    · simp [LuState.lower]
    · intro i j hij
      have : i < j := hij
      simp [LuState.lower, this.ne, this.asymm]
  · rw [Matrix.det_of_upperTriangular]
    · simp [LuState.upper]
    · intro i j hij
      have : j < i := hij
      simp [LuState.upper, this]

theorem luInvariant_det {A : Matrix (Fin n) (Fin n) ℝ} {s : LuState n ℝ}
    {σ : Equiv.Perm (Fin n)} (h : LuInvariant A n s σ) :
    s.determinant = A.det ∧ A.det ≠ 0 := by
  obtain ⟨h1, h2, h3, h4⟩ := luInvariant_factors h
  have hd := congrArg Matrix.det h1
  rw [Matrix.det_mul, h2, h3, one_mul, Matrix.det_permute] at hd
  have hs : ((Equiv.Perm.sign σ : ℤ) : ℝ) * ((Equiv.Perm.sign σ : ℤ) : ℝ) = 1 := by
    rcases Int.units_eq_one_or (Equiv.Perm.sign σ) with h | h <;> simp [h]
  have hdet : s.determinant = A.det := by
    rw [LuState.determinant, prodLoop_eq, h.sign, hd, ← mul_assoc, hs, one_mul]
  refine ⟨hdet, fun h0 => ?_⟩
  rw [h0, mul_zero] at hd
  exact Finset.prod_ne_zero_iff.2 (fun i _ => h4 i) hd

theorem luInvariant_solve {A : Matrix (Fin n) (Fin n) ℝ} {s : LuState n ℝ}
    {σ : Equiv.Perm (Fin n)} (h : LuInvariant A n s σ) (b : Fin n → ℝ) :
    A.mulVec (s.solve b) = b := by
  obtain ⟨h1, -, -, h4⟩ := luInvariant_factors h
  set y := (List.finRange n).foldl (fun x i =>
    substituteStep (s.a i) (fun j => decide (j < i)) (fun v => v) x i) (fun i => b (s.perm i)) with hy
  have hx : s.solve b = (List.finRange n).reverse.foldl (fun x i =>
    substituteStep (s.a i) (fun j => decide (i < j)) (fun v => v / s.a i i) x i) y := rfl
  have hyi := forward_substitution s.a (fun _ v => v) (fun i => b (s.perm i)) y hy
  have hxi := back_substitution s.a (fun i v => v / s.a i i) y (s.solve b) hx
  set x := s.solve b
  have hU : ∀ i, s.upper.mulVec x i = y i := by
    intro i
    have h5 := hxi i
    rw [eq_div_iff (h4 i)] at h5
    have : s.upper.mulVec x i = s.a i i * x i + ∑ j, if i < j then s.a i j * x j else 0 := by
      rw [Matrix.mulVec, dotProduct, sum_single i (fun j => s.a i j * x j),
        ← Finset.sum_add_distrib]
      refine Finset.sum_congr rfl fun j _ => ?_
      rcases lt_trichotomy i j with hij | rfl | hij
      · simp [LuState.upper, hij, hij.le, hij.ne']
      · simp [LuState.upper]
      · simp [LuState.upper, hij.asymm, hij.ne, not_le.2 hij]
    rw [this]; linarith
  have hL : ∀ i, s.lower.mulVec y i = b (σ i) := by
    intro i
    have h5 := hyi i
    have : s.lower.mulVec y i = y i + ∑ j, if j < i then s.a i j * y j else 0 := by
      rw [Matrix.mulVec, dotProduct, sum_single i (fun j => y j), ← Finset.sum_add_distrib]
      refine Finset.sum_congr rfl fun j _ => ?_
      rcases lt_trichotomy i j with hij | rfl | hij
      · simp [LuState.lower, hij.ne, hij.ne', hij.asymm]
      · simp [LuState.lower]
      · simp [LuState.lower, hij, hij.ne, hij.ne']
    rw [this, h5, h.perm]; ring
  have hprod : (A.submatrix σ id).mulVec x = fun i => b (σ i) := by
    rw [← h1, ← Matrix.mulVec_mulVec]
    have : s.upper.mulVec x = y := funext hU
    rw [this]; exact funext hL
  funext i
  have := congrFun hprod (σ.symm i)
  simp only [Equiv.apply_symm_apply] at this
  rw [← this]
  simp [Matrix.mulVec, dotProduct]

/-! ### Cholesky -/

theorem choleskyResidual_eq (a lower : Matrix (Fin n) (Fin n) ℝ) (i j : Fin n)
    (h : ∀ r l, j ≤ l → lower r l = 0) :
    choleskyResidual a lower i j = a i j - ∑ l, lower i l * lower j l := by
  rw [choleskyResidual, foldl_sub_finRange]
  congr 1
  refine Finset.sum_congr rfl fun l _ => ?_
  by_cases hl : l < j
  · simp [hl]
  · simp [hl, h i l (not_lt.1 hl)]

/-- What holds after the first `k` columns of `cholesky`. -/
structure CholeskyInvariant (A : Matrix (Fin n) (Fin n) ℝ) (k : ℕ)
    (L : Matrix (Fin n) (Fin n) ℝ) : Prop where
  lower : ∀ i m : Fin n, i < m → L i m = 0
  later : ∀ i m : Fin n, k ≤ (m : ℕ) → L i m = 0
  diag : ∀ m : Fin n, (m : ℕ) < k → 0 < L m m
  factor : ∀ i m : Fin n, (m : ℕ) < k → m ≤ i → ∑ l, L i l * L m l = A i m

theorem choleskyStep_spec {A L : Matrix (Fin n) (Fin n) ℝ} {j : Fin n}
    (h : CholeskyInvariant A j L) :
    (choleskyStep A L j = .error .notPositiveDefinite ∧ A j j - ∑ l, L j l * L j l ≤ 0) ∨
    ∃ L', choleskyStep A L j = .ok L' ∧ CholeskyInvariant A (j + 1) L' := by
  have hz : ∀ r l, j ≤ l → L r l = 0 := fun r l hl => h.later r l hl
  have hres := fun i => choleskyResidual_eq A L i j hz
  unfold choleskyStep
  simp only [hres, real_sqrt]
  by_cases hd : A j j - ∑ l, L j l * L j l ≤ 0
  · left; exact ⟨if_pos hd, hd⟩
  · right
    refine ⟨_, if_neg hd, ?_⟩
    set d := A j j - ∑ l, L j l * L j l with hddef
    push Not at hd
    have hs : 0 < Real.sqrt d := Real.sqrt_pos.2 hd
    have hother : ∀ i m : Fin n, m ≠ j → (if m = j then if i = j then Real.sqrt d else
        if j < i then (A i j - ∑ l, L i l * L j l) / Real.sqrt d else L i m else L i m) = L i m :=
      fun i m hm => if_neg hm
    refine ⟨?_, ?_, ?_, ?_⟩
    · intro i m him
      by_cases hm : m = j
      · subst hm
        simp only [if_true, if_neg him.ne, if_neg him.asymm]
        exact h.lower i m him
      · rw [hother i m hm]; exact h.lower i m him
    · intro i m hm
      have : m ≠ j := by rintro rfl; omega
      rw [hother i m this]
      exact h.later i m (by omega)
    · intro m hm
      by_cases hmj : m = j
      · subst hmj; simpa using hs
      · rw [hother m m hmj]
        apply h.diag
        have : (m : ℕ) ≠ j := fun e => hmj (Fin.ext e)
        omega
    · intro i m hm hmi
      by_cases hmj : m = j
      · subst hmj
        have key : ∀ l : Fin n,
            (if l = m then if i = m then Real.sqrt d else
              if m < i then (A i m - ∑ l, L i l * L m l) / Real.sqrt d else L i l else L i l) *
            (if l = m then if m = m then Real.sqrt d else
              if m < m then (A m m - ∑ l, L m l * L m l) / Real.sqrt d else L m l else L m l) =
            L i l * L m l + if l = m then A i m - ∑ l, L i l * L m l else 0 := by
          intro l
          by_cases hl : l = m
          · subst hl
            simp only [if_true, hz _ l le_rfl, mul_zero, zero_add]
            rcases hmi.eq_or_lt with rfl | hlt
            · simp only [if_true]
              rw [Real.mul_self_sqrt hd.le]
            · rw [if_neg hlt.ne', if_pos hlt, div_mul_cancel₀ _ hs.ne']
          · simp only [if_neg hl, add_zero]
        rw [Finset.sum_congr rfl fun l _ => key l, Finset.sum_add_distrib]
        simp
      · have hmlt : m < j := by
          have : (m : ℕ) ≠ j := fun e => hmj (Fin.ext e)
          exact Fin.lt_def.2 (by omega)
        rw [← h.factor i m hmlt hmi]
        refine Finset.sum_congr rfl fun l _ => ?_
        by_cases hl : l = j
        · subst hl
          simp only [if_true, if_neg hmlt.ne, if_neg hmlt.asymm, hz _ l le_rfl, mul_zero]
        · simp only [if_neg hl]

theorem choleskyLoop_spec {A : Matrix (Fin n) (Fin n) ℝ} :
    ∀ (post pre : List (Fin n)) (L : Matrix (Fin n) (Fin n) ℝ),
      List.finRange n = pre ++ post → CholeskyInvariant A pre.length L →
      (choleskyLoop A post L = .error .notPositiveDefinite ∧
        ∃ (j : Fin n) (L' : Matrix (Fin n) (Fin n) ℝ), CholeskyInvariant A j L' ∧
          A j j - ∑ l, L' j l * L' j l ≤ 0) ∨
      ∃ L', choleskyLoop A post L = .ok L' ∧ CholeskyInvariant A n L' := by
  intro post
  induction post with
  | nil =>
    intro pre L hl h
    right
    have : pre.length = n := by
      have := congrArg List.length hl
      simpa using this.symm
    rw [this] at h
    exact ⟨L, rfl, h⟩
  | cons k post ih =>
    intro pre L hl h
    have hk := (finRange_split hl).1
    rw [← hk] at h
    rcases choleskyStep_spec h with ⟨h1, h2⟩ | ⟨L', h1, h2⟩
    · left; exact ⟨by rw [choleskyLoop, h1], k, L, h, h2⟩
    · rw [choleskyLoop, h1]
      exact ih (pre ++ [k]) L' (by rw [hl]; simp) (by
        rw [List.length_append, ← hk]; exact h2)

theorem cholesky_run (A : Matrix (Fin n) (Fin n) ℝ) :
    (cholesky A = .error .notPositiveDefinite ∧
      ∃ (j : Fin n) (L' : Matrix (Fin n) (Fin n) ℝ), CholeskyInvariant A j L' ∧
        A j j - ∑ l, L' j l * L' j l ≤ 0) ∨
    ∃ L', cholesky A = .ok L' ∧ CholeskyInvariant A n L' :=
  choleskyLoop_spec (List.finRange n) [] _ (by simp) ⟨by simp, by simp, by simp, by simp⟩

theorem choleskyInvariant_det {A L : Matrix (Fin n) (Fin n) ℝ} (h : CholeskyInvariant A n L) :
    L.det = ∏ i, L i i ∧ L.det ≠ 0 := by
  have h1 : L.det = ∏ i, L i i := Matrix.det_of_lowerTriangular _ fun i j hij => h.lower i j hij
  exact ⟨h1, by rw [h1]; exact Finset.prod_ne_zero_iff.2 fun i _ => (h.diag i i.2).ne'⟩

theorem choleskyInvariant_mul {A L : Matrix (Fin n) (Fin n) ℝ} (hA : A.IsSymm)
    (h : CholeskyInvariant A n L) : L * Lᵀ = A := by
  ext i j
  rw [Matrix.mul_apply]
  simp only [Matrix.transpose_apply]
  rcases le_total j i with hij | hij
  · exact h.factor i j j.2 hij
  · rw [← hA.apply, ← h.factor j i i.2 hij]
    exact Finset.sum_congr rfl fun l _ => mul_comm _ _

/-- A column refused by `cholesky` exhibits a direction along which the form is not positive. -/
theorem cholesky_refused {A L : Matrix (Fin n) (Fin n) ℝ} (hA : A.IsSymm) {j : Fin n}
    (h : CholeskyInvariant A j L) :
    ∃ v : Fin n → ℝ, v ≠ 0 ∧ v ⬝ᵥ A *ᵥ v = A j j - ∑ l, L j l * L j l := by
  set M : Matrix (Fin n) (Fin n) ℝ := fun i m =>
    if (m : ℕ) < j then L i m else if i = m then 1 else 0 with hM
  have hdet : M.det ≠ 0 := by
    rw [Matrix.det_of_lowerTriangular]
    · refine Finset.prod_ne_zero_iff.2 fun i _ => ?_
      simp only [hM, if_true]
      split_ifs with hi
      · exact (h.diag i hi).ne'
      · exact one_ne_zero
    · intro i m him
      have him' : i < m := him
      simp only [hM]
      split_ifs with h1 h2
      · exact h.lower i m him'
      · exact absurd h2 him'.ne
      · rfl
  have hunit : IsUnit (Mᵀ).det := by rw [Matrix.det_transpose]; exact isUnit_iff_ne_zero.2 hdet
  set v : Fin n → ℝ := (Mᵀ)⁻¹ *ᵥ Pi.single j 1 with hv
  have hMv : Mᵀ *ᵥ v = Pi.single j 1 := by
    rw [hv, Matrix.mulVec_mulVec, Matrix.mul_nonsing_inv _ hunit, Matrix.one_mulVec]
  have hMv' : ∀ m, ∑ i, M i m * v i = if m = j then 1 else 0 := by
    intro m
    have := congrFun hMv m
    rw [Pi.single_apply] at this
    exact this
  have hvge : ∀ m : Fin n, j ≤ m → v m = if m = j then 1 else 0 := by
    intro m hm
    rw [← hMv' m]
    have hm' : (j : ℕ) ≤ m := hm
    simp only [hM, if_neg (not_lt.2 hm')]
    simp
  have hLv : ∀ m, ∑ i, L i m * v i = 0 := by
    intro m
    by_cases hm : (m : ℕ) < j
    · have := hMv' m
      have hmj : m ≠ j := by rintro rfl; omega
      rw [if_neg hmj] at this
      simpa only [hM, if_pos hm] using this
    · exact Finset.sum_eq_zero fun i _ => by rw [h.later i m (not_lt.1 hm), zero_mul]
  have hvj : v j = 1 := by rw [hvge j le_rfl, if_pos rfl]
  refine ⟨v, fun h0 => by rw [h0] at hvj; simp at hvj, ?_⟩
  have hsplit : ∀ i m, v i * (A i m * v m) =
      ∑ l, (L i l * v i) * (L m l * v m) +
        if m = j then (if i = j then A j j - ∑ l, L j l * L j l else 0) else 0 := by
    intro i m
    have e : ∑ l, (L i l * v i) * (L m l * v m) = v i * (∑ l, L i l * L m l) * v m := by
      rw [Finset.mul_sum, Finset.sum_mul]
      exact Finset.sum_congr rfl fun l _ => by ring
    rw [e]
    rcases lt_trichotomy m j with hm | rfl | hm
    · rw [if_neg hm.ne, add_zero]
      rcases le_total m i with hmi | him
      · rw [h.factor i m hm hmi]; ring
      · have hi : i < j := lt_of_le_of_lt him hm
        rw [← hA.apply, ← h.factor m i hi him,
          Finset.sum_congr rfl fun l _ => mul_comm (L i l) (L m l)]
        ring
    · rw [if_pos rfl]
      rcases lt_trichotomy i m with hi | rfl | hi
      · rw [if_neg hi.ne, add_zero, ← hA.apply, ← h.factor m i hi hi.le,
          Finset.sum_congr rfl fun l _ => mul_comm (L i l) (L m l)]
        ring
      · rw [if_pos rfl, hvj]; ring
      · rw [if_neg hi.ne', hvge i hi.le, if_neg hi.ne']; ring
    · rw [if_neg hm.ne', hvge m hm.le, if_neg hm.ne']; ring
  have hexp : v ⬝ᵥ A *ᵥ v = ∑ i, ∑ m, v i * (A i m * v m) := by
    simp only [dotProduct, Matrix.mulVec, Finset.mul_sum]
  rw [hexp, Finset.sum_congr rfl fun i _ => Finset.sum_congr rfl fun m _ => hsplit i m]
  simp only [Finset.sum_add_distrib, Finset.sum_ite_eq', Finset.mem_univ, if_true]
  have hzero : ∑ i, ∑ m, ∑ l, (L i l * v i) * (L m l * v m) = 0 := by
    have : ∀ i, ∑ m, ∑ l, (L i l * v i) * (L m l * v m) = 0 := by
      intro i
      rw [Finset.sum_comm]
      refine Finset.sum_eq_zero fun l _ => ?_
      rw [← Finset.mul_sum, hLv l, mul_zero]
    simp [this]
  rw [hzero, zero_add]

theorem choleskyInvariant_solve {A L : Matrix (Fin n) (Fin n) ℝ} (h : CholeskyInvariant A n L)
    (b : Fin n → ℝ) : (L * Lᵀ) *ᵥ choleskySolve L b = b := by
  have h4 : ∀ i, L i i ≠ 0 := fun i => (h.diag i i.2).ne'
  set y := (List.finRange n).foldl (fun x i =>
    substituteStep (fun j => L i j) (fun j => decide (j < i)) (fun s => s / L i i) x i) b with hy
  have hx : choleskySolve L b = (List.finRange n).reverse.foldl (fun x i =>
    substituteStep (fun j => L j i) (fun j => decide (i < j)) (fun v => v / L i i) x i) y := rfl
  have hyi := forward_substitution L (fun i v => v / L i i) b y hy
  have hxi := back_substitution (fun i j => L j i) (fun i v => v / L i i) y (choleskySolve L b) hx
  set x := choleskySolve L b
  have hU : Lᵀ *ᵥ x = y := by
    funext i
    have h5 := hxi i
    rw [eq_div_iff (h4 i)] at h5
    have : (Lᵀ *ᵥ x) i = L i i * x i + ∑ j, if i < j then L j i * x j else 0 := by
      rw [Matrix.mulVec, dotProduct, sum_single i (fun j => L j i * x j), ← Finset.sum_add_distrib]
      refine Finset.sum_congr rfl fun j _ => ?_
      rcases lt_trichotomy i j with hij | rfl | hij
      · simp [hij, hij.ne']
      · simp
      · simp [hij.asymm, hij.ne, h.lower j i hij]
    rw [this]; linarith
  have hL : L *ᵥ y = b := by
    funext i
    have h5 := hyi i
    rw [eq_div_iff (h4 i)] at h5
    have : (L *ᵥ y) i = L i i * y i + ∑ j, if j < i then L i j * y j else 0 := by
      rw [Matrix.mulVec, dotProduct, sum_single i (fun j => L i j * y j), ← Finset.sum_add_distrib]
      refine Finset.sum_congr rfl fun j _ => ?_
      rcases lt_trichotomy i j with hij | rfl | hij
      · simp [hij.ne', hij.asymm, h.lower i j hij]
      · simp
      · simp [hij, hij.ne]
    rw [this]; linarith
  rw [← Matrix.mulVec_mulVec, hU, hL]

end Multicalc
