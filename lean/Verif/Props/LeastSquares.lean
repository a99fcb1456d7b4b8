import Verif.Props.Qr

/-!
# What the pivoted QR factorisation and its least-squares solver guarantee (C96)
-/

namespace Multicalc

open Matrix

variable {m n : ℕ}

theorem sum_castLE (tall : n ≤ m) (f : Fin m → ℝ) (h : ∀ i : Fin m, n ≤ i.val → f i = 0) :
    ∑ c : Fin n, f (Fin.castLE tall c) = ∑ i, f i := by
  obtain ⟨k, rfl⟩ := Nat.exists_eq_add_of_le tall
  rw [Fin.sum_univ_add]
  have : ∑ i : Fin k, f (Fin.natAdd n i) = 0 := Finset.sum_eq_zero fun i _ => h _ (by simp)
  rw [this, add_zero]
  rfl

namespace PivotedQr

/-- The triangular factor with its zero rows. -/
def stacked (q : PivotedQr m n ℝ) : Matrix (Fin m) (Fin n) ℝ := fun i c =>
  if i.val < c.val then q.packed i c else if i.val = c.val then q.rDiag c else 0

theorem stacked_top (q : PivotedQr m n ℝ) (r c : Fin n) : q.stacked (Fin.castLE q.tall r) c = q.triangular r c := by
  unfold stacked triangular
  have e : (Fin.castLE q.tall r).val = r.val := rfl
  rcases lt_trichotomy r c with h | rfl | h
  · have : r.val < c.val := h
    simp [this, h, h.ne]
  · simp
  · have h1 : ¬(r.val < c.val) := not_lt.2 (Fin.le_def.1 h.le)
    have h2 : r.val ≠ c.val := fun e => h.ne' (Fin.ext e)
    simp [h1, h2, not_lt.2 h.le, h.ne']

theorem stacked_bottom (q : PivotedQr m n ℝ) (i : Fin m) (hi : n ≤ i.val) (c : Fin n) : q.stacked i c = 0 := by
  unfold stacked
  have := c.isLt
  rw [if_neg (by omega), if_neg (by omega)]

/-- What a finished factorisation of `A` satisfies. -/
structure Of (q : PivotedQr m n ℝ) (A : Matrix (Fin m) (Fin n) ℝ) (U : Matrix (Fin m) (Fin m) ℝ) : Prop where
  perm : Function.Bijective q.permutation
  prod : U = q.product (List.finRange n)
  orth : Uᵀ * U = 1
  fact : U * A.submatrix id q.permutation = q.stacked
  order : ∀ c k : Fin n, c ≤ k → tailSq c.val (fun i => q.stacked i k) ≤ q.rDiag c ^ 2

end PivotedQr

theorem qr_fold (minPositive largest : ℝ) {A : Matrix (Fin m) (Fin n) ℝ} (tall : n ≤ m)
    (bound : ℝ) (hb : bound * m < √largest) (hb0 : 0 ≤ bound) (hA : ∀ c, ∑ i, A i c ^ 2 ≤ bound ^ 2)
    (s₀ : QrState m n ℝ) (hp : s₀.packed = A) (hid : s₀.permutation = id)
    (hn : ∀ k, s₀.rDiag k = √(tailSq 0 fun i => A i k)) (j : ℕ) (hj : j ≤ n) :
    let s := ((List.finRange n).take j).foldl (qrStep minPositive largest tall) s₀
    s.Inv A tall j ∧ ∀ k : Fin n, j ≤ k.val → s.rDiag k = √(tailSq j fun i => s.packed i k) := by
  induction j with
  | zero =>
    refine ⟨⟨?_, ?_, ?_, ?_⟩, ?_⟩
    · simp only [List.take_zero, List.foldl_nil, hid]; exact Function.bijective_id
    · intro c hc; exact absurd hc (Nat.not_lt_zero _)
    · simp only [List.take_zero, List.foldl_nil, hid]
      rw [show ∀ q : PivotedQr m n ℝ, q.product [] = 1 from fun _ => rfl, Matrix.one_mul]
      ext i c
      simp [QrState.reduced, hp]
    · intro c k hc; exact absurd hc (Nat.not_lt_zero _)
    · intro k _
      simp only [List.take_zero, List.foldl_nil, hp]
      exact hn k
  | succ j ih =>
    have hlt : j < n := hj
    obtain ⟨h1, h2⟩ := ih hlt.le
    have htake : (List.finRange n).take (j + 1) = (List.finRange n).take j ++ [⟨j, hlt⟩] := by
      rw [List.take_succ_eq_append_getElem (by simpa using hlt)]
      simp
    rw [htake]
    simp only [List.foldl_append, List.foldl_cons, List.foldl_nil]
    have := QrState.qrStep_inv minPositive largest ⟨j, hlt⟩ bound hb hb0 hA h1 (fun k hk => h2 k hk)
    exact ⟨this.1, fun k hk => this.2 k hk⟩

theorem finRange_from_zero : indicesFrom m 0 = List.finRange m := by
  unfold indicesFrom
  simp

theorem exists_bound (largest : ℝ) (hl : 0 < largest) (A : Matrix (Fin m) (Fin n) ℝ)
    (hA : ∀ c, √(∑ i, A i c ^ 2) * m < √largest) :
    ∃ bound, bound * m < √largest ∧ 0 ≤ bound ∧ ∀ c, ∑ i, A i c ^ 2 ≤ bound ^ 2 := by
  rcases Nat.eq_zero_or_pos n with rfl | hn
  · exact ⟨0, by simpa using hl, le_rfl, fun c => c.elim0⟩
  · haveI : Nonempty (Fin n) := ⟨⟨0, hn⟩⟩
    obtain ⟨c, hc⟩ := Finite.exists_max fun c => √(∑ i, A i c ^ 2)
    refine ⟨_, hA c, Real.sqrt_nonneg _, fun k => ?_⟩
    rw [Real.sq_sqrt (Finset.sum_nonneg fun i _ => sq_nonneg _)]
    exact (Real.sqrt_le_sqrt_iff (Finset.sum_nonneg fun i _ => sq_nonneg _)).1 (hc k)

theorem decompose_of (minPositive largest : ℝ) (hl : 0 < largest) (A : Matrix (Fin m) (Fin n) ℝ)
    (hA : ∀ c, √(∑ i, A i c ^ 2) * m < √largest) (q : PivotedQr m n ℝ)
    (h : PivotedQr.decompose minPositive largest A = .ok q) :
    (∀ c, q.columnNorms c = √(∑ i, A i c ^ 2)) ∧ ∃ U, q.Of A U := by
  obtain ⟨bound, hb, hb0, hAb⟩ := exists_bound largest hl A hA
  unfold PivotedQr.decompose at h
  split_ifs at h with tall
  have hnorm : ∀ c, enorm minPositive largest ((List.finRange m).map fun i => A i c) = √(∑ i, A i c ^ 2) := by
    intro c
    have := enorm_tail minPositive largest 0 (fun i => A i c) bound hb (hAb c) hb0
    rw [finRange_from_zero] at this
    simpa using this
  have hf := qr_fold minPositive largest tall bound hb hb0 hAb
    ⟨A, fun c => enorm minPositive largest ((List.finRange m).map fun i => A i c),
      fun c => enorm minPositive largest ((List.finRange m).map fun i => A i c), id⟩ rfl rfl
    (fun k => (hnorm k).trans (by simp [tailSq])) n le_rfl
  rw [show (List.finRange n).take n = List.finRange n from List.take_of_length_le (by simp)] at hf
  simp only [Except.ok.injEq] at h
  subst h
  refine ⟨hnorm, ?_⟩
  obtain ⟨hi, _⟩ := hf
  generalize (List.finRange n).foldl (qrStep minPositive largest tall) _ = s at *
  have hst : ∀ norms, (⟨s.packed, s.rDiag, norms, s.permutation, tall⟩ : PivotedQr m n ℝ).stacked = s.reduced n := by
    intro norms
    ext i c
    simp [PivotedQr.stacked, QrState.reduced]
  have hpr : ∀ norms, (⟨s.packed, s.rDiag, norms, s.permutation, tall⟩ : PivotedQr m n ℝ).product (List.finRange n)
      = (s.view tall).product (List.finRange n) := fun norms => PivotedQr.product_congr _ _ _ fun _ _ => rfl
  have hfact := hi.fact
  rw [show (List.finRange n).take n = List.finRange n from List.take_of_length_le (by simp)] at hfact
  refine ⟨_, hi.perm, rfl, ?_, ?_, ?_⟩
  · exact PivotedQr.product_orthogonal _ _ fun c _ => hi.sound c c.isLt
  · rw [hst, hpr]; exact hfact
  · intro c k hck
    rw [hst]
    exact hi.order c k c.isLt hck

namespace PivotedQr

theorem orthogonal_entry {q : PivotedQr m n ℝ} {A : Matrix (Fin m) (Fin n) ℝ} {U : Matrix (Fin m) (Fin m) ℝ}
    (h : q.Of A U) (i : Fin m) (c : Fin n) : q.orthogonal i c = U (Fin.castLE q.tall c) i := by
  unfold orthogonal
  rw [foldl_apply, product_reverse, ← h.prod]
  simp [mulVec, dotProduct]

end PivotedQr

/-- C96. A matrix with at least as many rows as columns is factored, and only such a matrix.  The factors multiply back
to the matrix with its columns permuted; the first has orthonormal columns; the second is upper triangular, and no
entry at or right of a diagonal entry's column has a longer tail than that diagonal entry, so the diagonal never grows.
The recorded norms are those of the columns. -/
theorem qr_factorises (minPositive largest : ℝ) (hl : 0 < largest) (A : Matrix (Fin m) (Fin n) ℝ)
    (hA : ∀ c, √(∑ i, A i c ^ 2) * m < √largest) :
    (m < n → PivotedQr.decompose minPositive largest A = .error .underdetermined)
    ∧ (n ≤ m → ∃ q, PivotedQr.decompose minPositive largest A = .ok q
      ∧ Function.Bijective q.permutation
      ∧ q.orthogonal * q.triangular = A.submatrix id q.permutation
      ∧ q.orthogonalᵀ * q.orthogonal = 1
      ∧ (∀ i j, j < i → q.triangular i j = 0)
      ∧ (∀ c k, c ≤ k → ∑ i, (if c ≤ i then q.triangular i k ^ 2 else 0) ≤ q.triangular c c ^ 2)
      ∧ (∀ c k, c ≤ k → |q.triangular k k| ≤ |q.triangular c c|)
      ∧ ∀ c, q.columnNorms c = √(∑ i, A i c ^ 2)) := by
  refine ⟨fun h => ?_, fun tall => ?_⟩
  · unfold PivotedQr.decompose
    rw [dif_neg (by omega)]
  · obtain ⟨q, hq⟩ : ∃ q, PivotedQr.decompose minPositive largest A = .ok q := by
      unfold PivotedQr.decompose
      rw [dif_pos tall]
      exact ⟨_, rfl⟩
    obtain ⟨hnorms, U, h⟩ := decompose_of minPositive largest hl A hA q hq
    have hdiag : ∀ c, q.triangular c c = q.rDiag c := fun c => by simp [PivotedQr.triangular]
    have htail : ∀ c k, c ≤ k → ∑ i, (if c ≤ i then q.triangular i k ^ 2 else 0) ≤ q.triangular c c ^ 2 := by
      intro c k hck
      rw [hdiag]
      refine le_trans (le_of_eq ?_) (h.order c k hck)
      unfold tailSq
      rw [← sum_castLE q.tall _ (fun i hi => by simp [q.stacked_bottom i hi k])]
      refine Finset.sum_congr rfl fun i _ => ?_
      have := q.stacked_top i k
      dsimp only
      rw [this]
      rfl
    refine ⟨q, hq, h.perm, ?_, ?_, ?_, htail, ?_, hnorms⟩
    · have e : q.orthogonal * q.triangular = Uᵀ * q.stacked := by
        ext i c
        rw [mul_apply, mul_apply,
          ← sum_castLE q.tall _ (fun i' hi => by rw [q.stacked_bottom i' hi c, mul_zero])]
        refine Finset.sum_congr rfl fun r _ => ?_
        rw [PivotedQr.orthogonal_entry h, q.stacked_top, transpose_apply]
      rw [e, ← h.fact, ← Matrix.mul_assoc, h.orth, Matrix.one_mul]
    · ext r c
      have hu0 : U * Uᵀ = 1 := mul_eq_one_comm.1 h.orth
      have hu := congrFun (congrFun hu0 (Fin.castLE q.tall r)) (Fin.castLE q.tall c)
      rw [mul_apply] at hu ⊢
      simp only [transpose_apply, PivotedQr.orthogonal_entry h] at hu ⊢
      rw [hu, one_apply, one_apply]
      simp
    · intro i j hij
      simp [PivotedQr.triangular, hij.ne', not_lt.2 hij.le]
    · intro c k hck
      rw [← sq_le_sq]
      refine le_trans ?_ (htail c k hck)
      have := Finset.single_le_sum (f := fun i => if c ≤ i then q.triangular i k ^ 2 else 0)
        (fun i _ => by split_ifs <;> positivity) (Finset.mem_univ k)
      simpa [hck] using this

/-- Two rows and one column. -/
example : ∀ c, √(∑ i, (!![3; 4] : Matrix (Fin 2) (Fin 1) ℝ) i c ^ 2) * (2 : ℕ) < √(1000 : ℝ) := by
  intro c
  have h1 : √(∑ i, (!![3; 4] : Matrix (Fin 2) (Fin 1) ℝ) i c ^ 2) = 5 := by
    fin_cases c
    simp [Fin.sum_univ_two]
    rw [show (3 : ℝ) ^ 2 + 4 ^ 2 = 5 ^ 2 by norm_num]
    exact Real.sqrt_sq (by norm_num)
  rw [h1]
  exact Real.lt_sqrt_of_sq_lt (by norm_num)

/-! ### Least squares -/

namespace PivotedQr

theorem backSubstitute_spec (q : PivotedQr m n ℝ) (qtb : Fin m → ℝ) (j : ℕ) (hj : j ≤ n) (y : Fin n → ℝ) :
    (∀ e, q.backSubstitute qtb ((List.finRange n).take j).reverse y = .error e →
      e = .singular ∧ ∃ r : Fin n, r.val < j ∧ |q.rDiag r| ≤ q.threshold)
    ∧ ∀ z, q.backSubstitute qtb ((List.finRange n).take j).reverse y = .ok z →
      (∀ c : Fin n, j ≤ c.val → z c = y c) ∧ ∀ r : Fin n, r.val < j → q.threshold < |q.rDiag r|
        ∧ (q.rDiag r ≠ 0 → ∑ c, q.triangular r c * z c = qtb (Fin.castLE q.tall r)) := by
  induction j generalizing y with
  | zero =>
    refine ⟨fun e h => ?_, fun z h => ?_⟩
    · simp [backSubstitute] at h
    · simp only [List.take_zero, List.reverse_nil, backSubstitute, Except.ok.injEq] at h
      subst h
      exact ⟨fun _ _ => rfl, fun r hr => absurd hr (Nat.not_lt_zero _)⟩
  | succ j ih =>
    have hlt : j < n := hj
    have htake : ((List.finRange n).take (j + 1)).reverse = ⟨j, hlt⟩ :: ((List.finRange n).take j).reverse := by
      rw [List.take_succ_eq_append_getElem (by simpa using hlt)]
      simp
    rw [htake]
    unfold backSubstitute
    dsimp only
    by_cases hs : Fns.abs (q.rDiag ⟨j, hlt⟩) ≤ q.threshold
    · rw [if_pos hs]
      refine ⟨fun e h => ?_, fun z h => by cases h⟩
      cases h
      exact ⟨rfl, ⟨j, hlt⟩, Nat.lt_succ_self j, hs⟩
    · rw [if_neg hs]
      generalize hv : (indicesFrom n (j + 1)).foldl _ (qtb (Fin.castLE q.tall ⟨j, hlt⟩)) = v
      obtain ⟨he, hz⟩ := ih hlt.le (Function.update y ⟨j, hlt⟩ (v / q.rDiag ⟨j, hlt⟩))
      refine ⟨fun e h => ?_, fun z h => ?_⟩
      · obtain ⟨h1, r, h2, h3⟩ := he e h
        exact ⟨h1, r, h2.trans (Nat.lt_succ_self j), h3⟩
      · obtain ⟨h1, h2⟩ := hz z h
        refine ⟨fun c hc => ?_, fun r hr => ?_⟩
        · rw [h1 c (by omega), Function.update_of_ne]
          intro e
          rw [e] at hc
          exact absurd hc (by simp)
        · by_cases hrj : r.val < j
          · exact h2 r hrj
          · have hr' : r = ⟨j, hlt⟩ := Fin.ext (by simp; omega)
            subst hr'
            refine ⟨not_le.1 hs, fun hne => ?_⟩
            have hacc : ∀ (l : List (Fin n)) (a : ℝ), l.foldl (fun acc col => acc - q.packed (Fin.castLE q.tall ⟨j, hlt⟩) col * y col) a
                = a - (l.map fun col => q.packed (Fin.castLE q.tall ⟨j, hlt⟩) col * y col).sum := by
              intro l
              induction l with
              | nil => intro a; simp
              | cons c l ih => intro a; rw [List.foldl_cons, ih, List.map_cons, List.sum_cons]; ring
            rw [hacc, indicesFrom, sum_filter_finRange] at hv
            have hsum : ∑ c, q.triangular ⟨j, hlt⟩ c * z c
                = q.rDiag ⟨j, hlt⟩ * z ⟨j, hlt⟩
                  + ∑ c : Fin n, (if decide (j + 1 ≤ c.val) = true then q.packed (Fin.castLE q.tall ⟨j, hlt⟩) c * y c else 0) := by
              rw [← Finset.add_sum_erase _ _ (Finset.mem_univ (⟨j, hlt⟩ : Fin n))]
              congr 1
              · simp [triangular]
              · rw [← Finset.add_sum_erase (Finset.univ : Finset (Fin n)) (fun c : Fin n =>
                  (if decide (j + 1 ≤ c.val) = true then q.packed (Fin.castLE q.tall ⟨j, hlt⟩) c * y c else 0))
                  (Finset.mem_univ (⟨j, hlt⟩ : Fin n))]
                rw [if_neg (by simp), zero_add]
                refine Finset.sum_congr rfl fun c hc => ?_
                have hne' : c ≠ ⟨j, hlt⟩ := (Finset.mem_erase.1 hc).1
                have hval : c.val ≠ j := fun e => hne' (Fin.ext e)
                by_cases hcj : j + 1 ≤ c.val
                · rw [if_pos (by simpa using hcj), h1 c (by omega), Function.update_of_ne hne']
                  have : (⟨j, hlt⟩ : Fin n) < c := Fin.lt_def.2 (by simp; omega)
                  simp [triangular, this, this.ne]
                · rw [if_neg (by simpa using hcj)]
                  have : ¬((⟨j, hlt⟩ : Fin n) < c) := fun h => hcj (Fin.lt_def.1 h)
                  simp [triangular, this, hne'.symm]
            rw [hsum, h1 ⟨j, hlt⟩ le_rfl, Function.update_self, mul_div_cancel₀ _ hne, ← hv]
            ring

theorem unpermute_spec (perm : Fin n → Fin n) (hp : Function.Injective perm) (y : Fin n → ℝ) (j : Fin n) :
    unpermute perm y (perm j) = y j := by
  have key : ∀ (l : List (Fin n)) (x : Fin n → ℝ),
      l.foldl (fun x j => Function.update x (perm j) (y j)) x (perm j) = if j ∈ l then y j else x (perm j) := by
    intro l
    induction l with
    | nil => intro x; simp
    | cons c l ih =>
      intro x
      rw [List.foldl_cons, ih]
      by_cases hl : j ∈ l
      · simp [hl]
      · by_cases hc : j = c
        · subst hc; simp [hl]
        · rw [Function.update_of_ne (fun e => hc (hp e))]
          simp [hl, hc]
  unfold unpermute
  rw [key]
  simp

theorem mulVec_permuted (A : Matrix (Fin m) (Fin n) ℝ) (perm : Fin n → Fin n) (hp : Function.Bijective perm)
    (x : Fin n → ℝ) : A.submatrix id perm *ᵥ (fun j => x (perm j)) = A *ᵥ x := by
  ext i
  simp only [mulVec, dotProduct, submatrix_apply, id]
  exact Function.Bijective.sum_comp hp fun c => A i c * x c

/-- The part of the transformed residual a solution controls. -/
theorem stacked_mulVec_top (q : PivotedQr m n ℝ) (y : Fin n → ℝ) (r : Fin n) :
    (q.stacked *ᵥ y) (Fin.castLE q.tall r) = ∑ c, q.triangular r c * y c := by
  simp only [mulVec, dotProduct, q.stacked_top]

theorem normal_of_top {q : PivotedQr m n ℝ} {A : Matrix (Fin m) (Fin n) ℝ} {U : Matrix (Fin m) (Fin m) ℝ} (h : q.Of A U)
    (b : Fin m → ℝ) (x : Fin n → ℝ)
    (hx : ∀ r c : Fin n, q.triangular r c * (∑ k, q.triangular r k * x (q.permutation k) - (U *ᵥ b) (Fin.castLE q.tall r)) = 0) :
    Aᵀ *ᵥ (A *ᵥ x) = Aᵀ *ᵥ b := by
  have e1 : (A.submatrix id q.permutation)ᵀ *ᵥ (A *ᵥ x - b) = 0 := by
    rw [← mulVec_permuted A q.permutation h.perm x]
    have : (A.submatrix id q.permutation)ᵀ = q.stackedᵀ * U := by
      rw [← h.fact, transpose_mul, Matrix.mul_assoc, h.orth, Matrix.mul_one]
    rw [this, ← mulVec_mulVec, mulVec_sub, mulVec_mulVec _ U, h.fact]
    ext c
    simp only [mulVec, dotProduct, transpose_apply, Pi.zero_apply]
    rw [← sum_castLE q.tall _ (fun i hi => by rw [q.stacked_bottom i hi c, zero_mul])]
    refine Finset.sum_eq_zero fun r _ => ?_
    have := hx r c
    rw [q.stacked_top]
    simp only [Pi.sub_apply]
    rw [stacked_mulVec_top q (fun j => x (q.permutation j)) r]
    exact this
  have e2 : Aᵀ *ᵥ (A *ᵥ x - b) = 0 := by
    ext c
    obtain ⟨j, rfl⟩ := h.perm.2 c
    exact congrFun e1 j
  rw [mulVec_sub] at e2
  exact sub_eq_zero.1 e2

theorem injective_of_diag {q : PivotedQr m n ℝ} {A : Matrix (Fin m) (Fin n) ℝ} {U : Matrix (Fin m) (Fin m) ℝ} (h : q.Of A U)
    (hd : ∀ r, q.rDiag r ≠ 0) (v : Fin n → ℝ) (hv : A *ᵥ v = 0) : v = 0 := by
  have hdet : q.triangular.det ≠ 0 := by
    rw [det_of_upperTriangular (fun i j hij => by
      have : j < i := hij
      simp [triangular, this.ne', not_lt.2 this.le])]
    exact Finset.prod_ne_zero_iff.2 fun r _ => by simpa [triangular] using hd r
  have hz : q.triangular *ᵥ (fun j => v (q.permutation j)) = 0 := by
    have : q.stacked *ᵥ (fun j => v (q.permutation j)) = 0 := by
      rw [← h.fact, ← mulVec_mulVec, mulVec_permuted A q.permutation h.perm, hv, mulVec_zero]
    ext r
    have e := congrFun this (Fin.castLE q.tall r)
    rw [stacked_mulVec_top] at e
    exact e
  have := eq_zero_of_mulVec_eq_zero hdet hz
  ext c
  obtain ⟨j, rfl⟩ := h.perm.2 c
  exact congrFun this j

end PivotedQr

theorem dotProduct_self_zero {v : Fin m → ℝ} (h : v ⬝ᵥ v ≤ 0) : v = 0 := by
  ext i
  have h1 : v ⬝ᵥ v = ∑ i, v i * v i := rfl
  have := Finset.single_le_sum (f := fun i => v i * v i) (fun i _ => mul_self_nonneg _) (Finset.mem_univ i)
  exact mul_self_eq_zero.1 (le_antisymm (this.trans (h1 ▸ h)) (mul_self_nonneg _))

/-- A solution of the normal equations has the least residual; how much worse another point is. -/
theorem normal_least (A : Matrix (Fin m) (Fin n) ℝ) (b : Fin m → ℝ) (x y : Fin n → ℝ) (h : Aᵀ *ᵥ (A *ᵥ x) = Aᵀ *ᵥ b) :
    (A *ᵥ y - b) ⬝ᵥ (A *ᵥ y - b) = (A *ᵥ x - b) ⬝ᵥ (A *ᵥ x - b) + (A *ᵥ (y - x)) ⬝ᵥ (A *ᵥ (y - x)) := by
  have hz : (A *ᵥ (y - x)) ⬝ᵥ (A *ᵥ x - b) = 0 := by
    rw [dotProduct_comm, dotProduct_mulVec, ← mulVec_transpose, mulVec_sub, h, sub_self, zero_dotProduct]
  have e : A *ᵥ y - b = (A *ᵥ (y - x)) + (A *ᵥ x - b) := by rw [mulVec_sub]; abel
  rw [e, add_dotProduct, dotProduct_add, dotProduct_add, hz, dotProduct_comm (A *ᵥ x - b), hz]
  ring

/-- C96. Least squares: the solver answers, unless some diagonal entry of the triangular factor is negligible beside the
first, in which case it reports a singular matrix and nothing else.  Its answer solves the normal equations and is the
only point with the least residual. -/
theorem least_squares_correct (minPositive largest : ℝ) (hl : 0 < largest) (A : Matrix (Fin m) (Fin n) ℝ)
    (hA : ∀ c, √(∑ i, A i c ^ 2) * m < √largest) (q : PivotedQr m n ℝ)
    (hq : PivotedQr.decompose minPositive largest A = .ok q) (b : Fin m → ℝ) :
    (∀ e, q.solveLeastSquares b = .error e → e = .singular
      ∧ ∃ r : Fin n, |q.triangular r r| ≤ 1 / 2 ^ 52 * (max m n : ℕ) * |q.triangular ⟨0, r.pos⟩ ⟨0, r.pos⟩|)
    ∧ ∀ x, q.solveLeastSquares b = .ok x →
      (∀ r : Fin n, 1 / 2 ^ 52 * (max m n : ℕ) * |q.triangular ⟨0, r.pos⟩ ⟨0, r.pos⟩| < |q.triangular r r|)
      ∧ Aᵀ *ᵥ (A *ᵥ x) = Aᵀ *ᵥ b
      ∧ ∀ y, (A *ᵥ x - b) ⬝ᵥ (A *ᵥ x - b) ≤ (A *ᵥ y - b) ⬝ᵥ (A *ᵥ y - b)
        ∧ ((A *ᵥ y - b) ⬝ᵥ (A *ᵥ y - b) ≤ (A *ᵥ x - b) ⬝ᵥ (A *ᵥ x - b) → y = x) := by
  obtain ⟨-, U, h⟩ := decompose_of minPositive largest hl A hA q hq
  have hthr : ∀ r : Fin n, q.threshold = 1 / 2 ^ 52 * (max m n : ℕ) * |q.triangular ⟨0, r.pos⟩ ⟨0, r.pos⟩| := by
    intro r
    unfold PivotedQr.threshold
    rw [dif_neg (by have := r.pos; omega)]
    simp [PivotedQr.triangular, Fns.epsilon, real_abs]
  have hdiag : ∀ c, q.triangular c c = q.rDiag c := fun c => by simp [PivotedQr.triangular]
  have hb := PivotedQr.backSubstitute_spec q (q.transposeApply b) n le_rfl fun _ => 0
  rw [show (List.finRange n).take n = List.finRange n from List.take_of_length_le (by simp)] at hb
  unfold PivotedQr.solveLeastSquares
  cases hbs : q.backSubstitute (q.transposeApply b) (List.finRange n).reverse (fun _ => 0) with
  | error e =>
    obtain ⟨h1, r, -, h3⟩ := hb.1 e hbs
    refine ⟨fun e' he => ?_, fun x hx => nomatch hx⟩
    injection he with he
    subst he
    exact ⟨h1, r, by rw [hdiag, ← hthr r]; exact h3⟩
  | ok z =>
    obtain ⟨-, h2⟩ := hb.2 z hbs
    refine ⟨fun e' he => (nomatch he), fun x hx => ?_⟩
    injection hx with hx
    subst hx
    have hne : ∀ r, q.rDiag r ≠ 0 := by
      intro r e
      have := (h2 r r.isLt).1
      rw [e, abs_zero, hthr r] at this
      exact absurd this (not_lt.2 (by positivity))
    have hnormal : Aᵀ *ᵥ (A *ᵥ PivotedQr.unpermute q.permutation z) = Aᵀ *ᵥ b := by
      refine PivotedQr.normal_of_top h b _ fun r c => ?_
      have e := (h2 r r.isLt).2 (hne r)
      have et : q.transposeApply b = U *ᵥ b := by
        unfold PivotedQr.transposeApply
        rw [PivotedQr.foldl_apply, h.prod]
      rw [et] at e
      simp only [PivotedQr.unpermute_spec q.permutation h.perm.1]
      rw [e, sub_self, mul_zero]
    refine ⟨fun r => by rw [hdiag r, ← hthr r]; exact (h2 r r.isLt).1, hnormal, fun y => ?_⟩
    have hl := normal_least A b _ y hnormal
    have hnn : ∀ v : Fin m → ℝ, 0 ≤ v ⬝ᵥ v := fun v => Finset.sum_nonneg fun i _ => mul_self_nonneg _
    refine ⟨by rw [hl]; exact le_add_of_nonneg_right (hnn _), fun hle => ?_⟩
    rw [hl] at hle
    have := PivotedQr.injective_of_diag h hne _ (dotProduct_self_zero (by linarith))
    exact sub_eq_zero.1 this

/-- C96. A matrix whose columns are linearly dependent is always reported as singular. -/
theorem least_squares_rank_deficient (minPositive largest : ℝ) (hl : 0 < largest) (A : Matrix (Fin m) (Fin n) ℝ)
    (hA : ∀ c, √(∑ i, A i c ^ 2) * m < √largest) (q : PivotedQr m n ℝ)
    (hq : PivotedQr.decompose minPositive largest A = .ok q) (b : Fin m → ℝ) (v : Fin n → ℝ) (hv : v ≠ 0) (hAv : A *ᵥ v = 0) :
    q.solveLeastSquares b = .error .singular := by
  obtain ⟨h1, h2⟩ := least_squares_correct minPositive largest hl A hA q hq b
  cases h : q.solveLeastSquares b with
  | error e => rw [(h1 e h).1]
  | ok x =>
    have := ((h2 x h).2.2 (x + v)).2 (by rw [mulVec_add, hAv, add_zero])
    exact absurd (by simpa using this) hv

/-- Two equal columns. -/
example : (![1, -1] : Fin 2 → ℝ) ≠ 0 ∧ (!![1, 1; 2, 2] : Matrix (Fin 2) (Fin 2) ℝ) *ᵥ ![1, -1] = 0 := by
  refine ⟨fun h => by simpa using congrFun h 0, ?_⟩
  ext i
  fin_cases i <;> simp [mulVec, dotProduct, Fin.sum_univ_two]

end Multicalc
