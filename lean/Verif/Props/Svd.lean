import Verif.Model.Svd
import Verif.Lemmas.Eigen
import Verif.Props.LeastSquares
import Verif.Model.XR

/-!
# Singular value decomposition (C98)
-/

namespace Multicalc

open Matrix

variable {m n : ℕ}

/-! ### Rotations -/

theorem rotateColumns_eq (v : Matrix (Fin m) (Fin n) ℝ) (p q : Fin n) (hpq : p ≠ q) (c s : ℝ) :
    rotateColumns v p q c s = v * givens p q c s := by
  ext i k
  rw [mul_givens _ _ _ hpq]; rfl

theorem svdAngle_spec (alpha beta gamma : ℝ) (hg : gamma ≠ 0) :
    let a := svdAngle alpha beta gamma
    a.1 * a.1 + a.2 * a.2 = 1 ∧ a.1 * a.2 * (alpha - beta) + (a.1 * a.1 - a.2 * a.2) * gamma = 0 := by
  intro a
  obtain ⟨h1, h2, h3⟩ := jacobiAngle_spec alpha beta gamma _ _ _ hg rfl
  have e1 : a.1 = (jacobiAngle alpha beta gamma).2.1 := rfl
  have e2 : a.2 = (jacobiAngle alpha beta gamma).2.1 * (jacobiAngle alpha beta gamma).1 := rfl
  change gamma * ((jacobiAngle alpha beta gamma).1 * (jacobiAngle alpha beta gamma).1)
    + (beta - alpha) * (jacobiAngle alpha beta gamma).1 - gamma = 0 at h1
  change (jacobiAngle alpha beta gamma).2.1 * (jacobiAngle alpha beta gamma).2.1
    * (1 + (jacobiAngle alpha beta gamma).1 * (jacobiAngle alpha beta gamma).1) = 1 at h3
  rw [e1, e2]
  generalize (jacobiAngle alpha beta gamma).1 = t at *
  generalize (jacobiAngle alpha beta gamma).2.1 = c at *
  exact ⟨by linear_combination h3, by linear_combination -(c * c) * h1⟩

/-- The product of the squared lengths of the columns. -/
noncomputable def columnVolume (L : Matrix (Fin m) (Fin n) ℝ) : ℝ := ∏ k, ∑ i, L i k ^ 2

theorem columnVolume_nonneg (L : Matrix (Fin m) (Fin n) ℝ) : 0 ≤ columnVolume L :=
  Finset.prod_nonneg fun _ _ => Finset.sum_nonneg fun _ _ => sq_nonneg _

/-- Rotating two columns to be perpendicular shrinks the product of the lengths by the sine of their angle. -/
theorem rotateColumns_volume (L : Matrix (Fin m) (Fin n) ℝ) (p q : Fin n) (hpq : p ≠ q) (c s : ℝ)
    (h1 : c * c + s * s = 1)
    (h2 : c * s * (∑ i, L i p ^ 2 - ∑ i, L i q ^ 2) + (c * c - s * s) * ∑ i, L i p * L i q = 0) :
    (∑ i, rotateColumns L p q c s i p * rotateColumns L p q c s i q = 0)
    ∧ columnVolume (rotateColumns L p q c s) * ((∑ i, L i p ^ 2) * ∑ i, L i q ^ 2)
      = columnVolume L * ((∑ i, L i p ^ 2) * (∑ i, L i q ^ 2) - (∑ i, L i p * L i q) ^ 2) := by
  have ep : ∀ i, rotateColumns L p q c s i p = c * L i p - s * L i q := fun i => by simp [rotateColumns]
  have eq : ∀ i, rotateColumns L p q c s i q = s * L i p + c * L i q := fun i => by
    simp [rotateColumns, hpq.symm]
  have hother : ∀ i k, k ≠ p → k ≠ q → rotateColumns L p q c s i k = L i k := fun i k h1 h2 => by
    simp [rotateColumns, h1, h2]
  have h0 : ∑ i, rotateColumns L p q c s i p * rotateColumns L p q c s i q = 0 := by
    rw [← h2]
    simp only [ep, eq, Finset.mul_sum, ← Finset.sum_sub_distrib, ← Finset.sum_add_distrib]
    refine Finset.sum_congr rfl fun i _ => by ring
  refine ⟨h0, ?_⟩
  have hsplit : ∀ f : Fin n → ℝ, ∏ k, f k = f p * (f q * ∏ k ∈ (Finset.univ.erase p).erase q, f k) := by
    intro f
    rw [Finset.mul_prod_erase _ f (by simp [hpq.symm]), Finset.mul_prod_erase _ f (Finset.mem_univ p)]
  have hrest : ∏ k ∈ (Finset.univ.erase p).erase q, ∑ i, rotateColumns L p q c s i k ^ 2
      = ∏ k ∈ (Finset.univ.erase p).erase q, ∑ i, L i k ^ 2 := by
    refine Finset.prod_congr rfl fun k hk => Finset.sum_congr rfl fun i _ => ?_
    simp only [Finset.mem_erase, Finset.mem_univ, and_true] at hk
    rw [hother i k hk.2 hk.1]
  have hA : ∑ i, rotateColumns L p q c s i p ^ 2
      = c * c * ∑ i, L i p ^ 2 - 2 * (c * s) * ∑ i, L i p * L i q + s * s * ∑ i, L i q ^ 2 := by
    simp only [ep, Finset.mul_sum, ← Finset.sum_sub_distrib, ← Finset.sum_add_distrib]
    refine Finset.sum_congr rfl fun i _ => by ring
  have hB : ∑ i, rotateColumns L p q c s i q ^ 2
      = s * s * ∑ i, L i p ^ 2 + 2 * (c * s) * ∑ i, L i p * L i q + c * c * ∑ i, L i q ^ 2 := by
    simp only [eq, Finset.mul_sum, ← Finset.sum_add_distrib]
    refine Finset.sum_congr rfl fun i _ => by ring
  unfold columnVolume
  rw [hsplit (fun k => ∑ i, rotateColumns L p q c s i k ^ 2), hsplit (fun k => ∑ i, L i k ^ 2), hrest]
  rw [hA, hB]
  generalize ∑ i, L i p ^ 2 = α at *
  generalize ∑ i, L i q ^ 2 = β at *
  generalize ∑ i, L i p * L i q = γ at *
  generalize ∏ k ∈ (Finset.univ.erase p).erase q, ∑ i, L i k ^ 2 = R
  have key : (c * c * α - 2 * (c * s) * γ + s * s * β) * (s * s * α + 2 * (c * s) * γ + c * c * β) = α * β - γ ^ 2 := by
    have h3 : (c * c + s * s) ^ 2 * (α * β - γ ^ 2) + (c * s * (α - β) + (c * c - s * s) * γ) ^ 2
        = (c * c * α - 2 * (c * s) * γ + s * s * β) * (s * s * α + 2 * (c * s) * γ + c * c * β) := by ring
    rw [← h3, h2, h1]; ring
  linear_combination (R * (α * β)) * key

/-! ### Sweeps -/

/-- What every rotation keeps. -/
structure SvdInvariant (A : Matrix (Fin m) (Fin n) ℝ) (s : SvdState m n ℝ) : Prop where
  left : s.left = A * s.right
  orthogonal : s.rightᵀ * s.right = 1

/-- Columns `p` and `q` are perpendicular to within rounding. -/
def NearlyOrthogonal (L : Matrix (Fin m) (Fin n) ℝ) (p q : Fin n) : Prop :=
  |∑ i, L i p * L i q| ≤ 1 / 2 ^ 52 * √((∑ i, L i p ^ 2) * ∑ i, L i q ^ 2)

theorem gamma_sq_le (L : Matrix (Fin m) (Fin n) ℝ) (p q : Fin n) :
    (∑ i, L i p * L i q) ^ 2 ≤ (∑ i, L i p ^ 2) * ∑ i, L i q ^ 2 :=
  Finset.sum_mul_sq_le_sq_mul_sq _ _ _

theorem svdPair_cases {A : Matrix (Fin m) (Fin n) ℝ} {s : SvdState m n ℝ} (h : SvdInvariant A s) (p q : Fin n)
    (hpq : p ≠ q) :
    SvdInvariant A (svdPair s (p, q)) ∧ s.offMax ≤ (svdPair s (p, q)).offMax
    ∧ (((svdPair s (p, q)).left = s.left ∧ NearlyOrthogonal s.left p q
        ∧ (s.offMax ≤ 1 / 2 ^ 52 → (svdPair s (p, q)).offMax ≤ 1 / 2 ^ 52))
      ∨ (1 / 2 ^ 52 < (svdPair s (p, q)).offMax ∧ ¬ NearlyOrthogonal s.left p q
        ∧ ∑ i, (svdPair s (p, q)).left i p * (svdPair s (p, q)).left i q = 0
        ∧ columnVolume (svdPair s (p, q)).left ≤ (1 - (1 / 2 ^ 52) ^ 2) * columnVolume s.left)) := by
  have hα : vnormSquared (fun row => s.left row p) = ∑ i, s.left i p ^ 2 := by
    simp [vnormSquared, vdot, sumLoop_eq, sq]
  have hβ : vnormSquared (fun row => s.left row q) = ∑ i, s.left i q ^ 2 := by
    simp [vnormSquared, vdot, sumLoop_eq, sq]
  have hγ : vdot (fun row => s.left row p) (fun row => s.left row q) = ∑ i, s.left i p * s.left i q := by
    simp [vdot, sumLoop_eq]
  have hα0 : 0 ≤ ∑ i, s.left i p ^ 2 := Finset.sum_nonneg fun i _ => sq_nonneg _
  have hβ0 : 0 ≤ ∑ i, s.left i q ^ 2 := Finset.sum_nonneg fun i _ => sq_nonneg _
  have hcs := gamma_sq_le s.left p q
  have heps : (Fns.epsilon : ℝ) = 1 / 2 ^ 52 := rfl
  unfold svdPair
  dsimp only
  rw [hα, hβ, hγ]
  by_cases hz : ((∑ i, s.left i p ^ 2 : ℝ) == 0 || (∑ i, s.left i q ^ 2 : ℝ) == 0) = true
  · rw [if_pos hz]
    refine ⟨h, le_rfl, Or.inl ⟨rfl, ?_, id⟩⟩
    have hz' : (∑ i, s.left i p ^ 2) * ∑ i, s.left i q ^ 2 = 0 := by
      rcases Bool.or_eq_true_iff.1 hz with h | h
      · rw [eq_of_beq h, zero_mul]
      · rw [eq_of_beq h, mul_zero]
    unfold NearlyOrthogonal
    rw [hz'] at hcs ⊢
    rw [pow_eq_zero_iff two_ne_zero |>.1 (le_antisymm hcs (sq_nonneg _))]
    simp
  · rw [if_neg hz]
    have hne : (∑ i, s.left i p ^ 2) ≠ 0 ∧ (∑ i, s.left i q ^ 2) ≠ 0 := by
      constructor
      · intro e; exact hz (by simp [e])
      · intro e; exact hz (by simp [e])
    have hprod : 0 < (∑ i, s.left i p ^ 2) * ∑ i, s.left i q ^ 2 :=
      mul_pos (lt_of_le_of_ne hα0 hne.1.symm) (lt_of_le_of_ne hβ0 hne.2.symm)
    have hscale := Real.sqrt_pos.2 hprod
    rw [real_abs, real_sqrt, heps]
    have hmax : ∀ off : ℝ, s.offMax ≤ (if s.offMax < off then off else s.offMax) := fun off => by
      split_ifs with h
      · exact h.le
      · exact le_rfl
    by_cases hs : |∑ i, s.left i p * s.left i q| ≤ 1 / 2 ^ 52 * √((∑ i, s.left i p ^ 2) * ∑ i, s.left i q ^ 2)
    · rw [if_pos hs]
      refine ⟨⟨h.left, h.orthogonal⟩, hmax _, Or.inl ⟨rfl, hs, fun h1 => ?_⟩⟩
      dsimp only
      split_ifs
      · rw [div_le_iff₀ hscale]; exact hs
      · exact h1
    · rw [if_neg hs]
      have hg : ∑ i, s.left i p * s.left i q ≠ 0 := by
        intro e
        apply hs
        rw [e, abs_zero]
        positivity
      obtain ⟨a1, a2⟩ := svdAngle_spec (∑ i, s.left i p ^ 2) (∑ i, s.left i q ^ 2) (∑ i, s.left i p * s.left i q) hg
      generalize svdAngle (∑ i, s.left i p ^ 2) (∑ i, s.left i q ^ 2) (∑ i, s.left i p * s.left i q) = a at *
      refine ⟨⟨?_, ?_⟩, hmax _, Or.inr ⟨?_, hs, ?_, ?_⟩⟩
      · dsimp only
        rw [rotateColumns_eq _ _ _ hpq, rotateColumns_eq _ _ _ hpq, h.left, Matrix.mul_assoc]
      · dsimp only
        rw [rotateColumns_eq _ _ _ hpq, transpose_mul, Matrix.mul_assoc, ← Matrix.mul_assoc s.rightᵀ, h.orthogonal,
          Matrix.one_mul, givens_orthogonal _ _ hpq _ _ a1]
      · dsimp only
        have : 1 / 2 ^ 52 < |∑ i, s.left i p * s.left i q| / √((∑ i, s.left i p ^ 2) * ∑ i, s.left i q ^ 2) := by
          rw [lt_div_iff₀ hscale]; exact not_le.1 hs
        split_ifs with h2
        · exact this
        · exact this.trans_le (not_lt.1 h2)
      · exact (rotateColumns_volume s.left p q hpq a.1 a.2 a1 a2).1
      · have hv := (rotateColumns_volume s.left p q hpq a.1 a.2 a1 a2).2
        dsimp only
        have hgs : (1 / 2 ^ 52) ^ 2 * ((∑ i, s.left i p ^ 2) * ∑ i, s.left i q ^ 2) ≤ (∑ i, s.left i p * s.left i q) ^ 2 := by
          have := pow_le_pow_left₀ (by positivity) (not_le.1 hs).le 2
          rw [sq_abs, mul_pow, Real.sq_sqrt hprod.le] at this
          exact this
        generalize (∑ i, s.left i p ^ 2) * ∑ i, s.left i q ^ 2 = ab at *
        have hvol := columnVolume_nonneg s.left
        refine le_of_mul_le_mul_right ?_ hprod
        rw [hv]
        nlinarith [mul_le_mul_of_nonneg_left hgs hvol]

theorem svd_fold {A : Matrix (Fin m) (Fin n) ℝ} (l : List (Fin n × Fin n)) (hl : ∀ x ∈ l, x.1 ≠ x.2)
    (s : SvdState m n ℝ) (h : SvdInvariant A s) :
    let t := l.foldl svdPair s
    SvdInvariant A t ∧ s.offMax ≤ t.offMax
    ∧ ((t.left = s.left ∧ (∀ x ∈ l, NearlyOrthogonal s.left x.1 x.2) ∧ (s.offMax ≤ 1 / 2 ^ 52 → t.offMax ≤ 1 / 2 ^ 52))
      ∨ (1 / 2 ^ 52 < t.offMax ∧ columnVolume t.left ≤ (1 - (1 / 2 ^ 52) ^ 2) * columnVolume s.left)) := by
  induction l generalizing s with
  | nil => exact ⟨h, le_rfl, Or.inl ⟨rfl, by simp, id⟩⟩
  | cons x l ih =>
    simp only [List.foldl_cons]
    obtain ⟨p1, p2, p3⟩ := svdPair_cases h x.1 x.2 (hl x List.mem_cons_self)
    obtain ⟨t1, t2, t3⟩ := ih (fun y hy => hl y (List.mem_cons_of_mem _ hy)) (svdPair s x) p1
    have hfac : (1 - (1 / 2 ^ 52) ^ 2 : ℝ) ≤ 1 ∧ 0 ≤ (1 - (1 / 2 ^ 52) ^ 2 : ℝ) := by norm_num
    refine ⟨t1, p2.trans t2, ?_⟩
    rcases p3 with ⟨a1, a2, a3⟩ | ⟨a1, -, -, a3⟩
    · change (svdPair s x).left = s.left at a1
      rcases t3 with ⟨b1, b2, b3⟩ | ⟨b1, b2⟩
      · left
        refine ⟨b1.trans a1, fun y hy => ?_, fun h => b3 (a3 h)⟩
        rcases List.mem_cons.1 hy with rfl | hy
        · exact a2
        · have := b2 y hy
          rwa [a1] at this
      · right
        rw [a1] at b2
        exact ⟨b1, b2⟩
    · right
      refine ⟨a1.trans_le t2, ?_⟩
      rcases t3 with ⟨b1, -, -⟩ | ⟨-, b2⟩
      · rw [b1]; exact a3
      · refine b2.trans ((mul_le_of_le_one_left (columnVolume_nonneg _) hfac.1).trans a3)

theorem NearlyOrthogonal.symm {L : Matrix (Fin m) (Fin n) ℝ} {p q : Fin n} (h : NearlyOrthogonal L p q) :
    NearlyOrthogonal L q p := by
  unfold NearlyOrthogonal at *
  rw [mul_comm (∑ i, L i q ^ 2)]
  simpa only [mul_comm] using h

theorem svdSweeps_spec {A : Matrix (Fin m) (Fin n) ℝ} (k : ℕ) (s : SvdState m n ℝ) (h : SvdInvariant A s) :
    SvdInvariant A (svdSweeps k s)
    ∧ ((∀ p q, p ≠ q → NearlyOrthogonal (svdSweeps k s).left p q)
      ∨ columnVolume (svdSweeps k s).left ≤ (1 - (1 / 2 ^ 52) ^ 2) ^ k * columnVolume s.left) := by
  have hl : ∀ x ∈ jacobiPairs n, x.1 ≠ x.2 := by
    rintro ⟨p, q⟩ hx
    exact ((mem_jacobiPairs p q).1 hx).ne
  have hfac : 0 ≤ (1 - (1 / 2 ^ 52) ^ 2 : ℝ) := by norm_num
  induction k generalizing s with
  | zero => exact ⟨h, Or.inr (by simp [svdSweeps])⟩
  | succ k ih =>
    obtain ⟨t1, -, t3⟩ := svd_fold (jacobiPairs n) hl { s with offMax := 0 } ⟨h.left, h.orthogonal⟩
    unfold svdSweeps
    dsimp only
    generalize (jacobiPairs n).foldl svdPair { s with offMax := 0 } = t at *
    change _ ∧ (_ ∨ _)
    have heps : (Fns.epsilon : ℝ) = 1 / 2 ^ 52 := rfl
    rw [heps]
    dsimp only at t3
    rcases t3 with ⟨b1, b2, b3⟩ | ⟨b1, b2⟩
    · rw [if_pos (b3 (by positivity))]
      refine ⟨t1, Or.inl fun p q hpq => ?_⟩
      rw [b1]
      rcases lt_or_gt_of_ne hpq with h | h
      · exact b2 (p, q) ((mem_jacobiPairs p q).2 h)
      · exact (b2 (q, p) ((mem_jacobiPairs q p).2 h)).symm
    · rw [if_neg (not_le.2 b1)]
      obtain ⟨i1, i2⟩ := ih t t1
      refine ⟨i1, i2.imp id fun i2 => ?_⟩
      rw [pow_succ, mul_assoc]
      exact i2.trans (mul_le_mul_of_nonneg_left b2 (pow_nonneg hfac k))

/-- Two columns are done after one sweep. -/
theorem svdSweeps_two {A : Matrix (Fin m) (Fin 2) ℝ} (k : ℕ) (s : SvdState m 2 ℝ) (h : SvdInvariant A s) :
    NearlyOrthogonal (svdSweeps (k + 2) s).left 0 1 := by
  have hp : jacobiPairs 2 = [(0, 1)] := by decide
  have heps : (Fns.epsilon : ℝ) = 1 / 2 ^ 52 := rfl
  have hsweep : ∀ (j : ℕ) (s : SvdState m 2 ℝ), SvdInvariant A s → NearlyOrthogonal s.left 0 1 →
      (svdSweeps (j + 1) s).left = s.left := by
    intro j s h hn
    unfold svdSweeps
    rw [hp]
    simp only [List.foldl_cons, List.foldl_nil, heps]
    obtain ⟨-, -, c⟩ := svdPair_cases (s := { s with offMax := 0 }) ⟨h.left, h.orthogonal⟩ 0 1 (by decide)
    rcases c with ⟨c1, -, c3⟩ | ⟨-, c2, -⟩
    · rw [if_pos (c3 (by positivity))]
      exact c1
    · exact absurd hn c2
  rw [show k + 2 = (k + 1) + 1 from rfl]
  unfold svdSweeps
  rw [hp]
  simp only [List.foldl_cons, List.foldl_nil, heps]
  obtain ⟨i, -, c⟩ := svdPair_cases (s := { s with offMax := 0 }) ⟨h.left, h.orthogonal⟩ 0 1 (by decide)
  rcases c with ⟨c1, c2, c3⟩ | ⟨c1, -, c3, -⟩
  · rw [if_pos (c3 (by positivity)), c1]
    exact c2
  · rw [if_neg (not_le.2 c1)]
    have hn : NearlyOrthogonal (svdPair { s with offMax := 0 } (0, 1)).left 0 1 := by
      unfold NearlyOrthogonal
      rw [c3, abs_zero]
      positivity
    rw [hsweep k _ i hn]
    exact hn

/-! ### Sorting and signs -/

theorem svd_sort_spec (d : Svd m n ℝ) (post pre : List (Fin n)) (s : Svd m n ℝ) (hl : List.finRange n = pre ++ post)
    (h1 : ∃ σ : Equiv.Perm (Fin n), (∀ i, s.singularValues i = d.singularValues (σ i))
      ∧ (∀ i c, s.left i c = d.left i (σ c)) ∧ ∀ i c, s.right i c = d.right i (σ c))
    (h2 : ∀ i j, i ∈ pre → i ≤ j → s.singularValues j ≤ s.singularValues i) :
    let t := post.foldl svdSortStep s
    (∃ σ : Equiv.Perm (Fin n), (∀ i, t.singularValues i = d.singularValues (σ i))
      ∧ (∀ i c, t.left i c = d.left i (σ c)) ∧ ∀ i c, t.right i c = d.right i (σ c))
    ∧ ∀ i j, i ≤ j → t.singularValues j ≤ t.singularValues i := by
  induction post generalizing pre s with
  | nil =>
    refine ⟨h1, fun i j hij => h2 i j ?_ hij⟩
    rw [List.append_nil] at hl
    rw [← hl]; exact List.mem_finRange i
  | cons k post ih =>
    obtain ⟨σ, h1, h1', h1''⟩ := h1
    simp only [List.foldl_cons]
    obtain ⟨-, hpre, -⟩ := finRange_split hl
    obtain ⟨ht1, ht2⟩ := topFrom_spec s.singularValues k
    have hstep : (svdSortStep s k).singularValues = (fun i => s.singularValues (Equiv.swap k (topFrom s.singularValues k) i)) ∧
        (svdSortStep s k).left = (fun i c => s.left i (Equiv.swap k (topFrom s.singularValues k) c)) ∧
        (svdSortStep s k).right = fun i c => s.right i (Equiv.swap k (topFrom s.singularValues k) c) := by
      unfold svdSortStep
      by_cases h : topFrom s.singularValues k = k
      · simp [h]
      · dsimp only; rw [if_pos h]; exact ⟨rfl, rfl, rfl⟩
    set top := topFrom s.singularValues k with htop
    have hge : ∀ j, k ≤ j → k ≤ Equiv.swap k top j := by
      intro j hj
      rcases eq_or_ne j k with rfl | h3
      · rw [Equiv.swap_apply_left]; exact ht1
      · rcases eq_or_ne j top with rfl | h4
        · rw [Equiv.swap_apply_right]
        · rw [Equiv.swap_apply_of_ne_of_ne h3 h4]; exact hj
    refine ih (pre ++ [k]) (svdSortStep s k) (by rw [hl]; simp) ⟨σ * Equiv.swap k top, ?_, ?_, ?_⟩ ?_
    · intro i; rw [hstep.1]; simp [h1]
    · intro i c; rw [hstep.2.1]; simp [h1']
    · intro i c; rw [hstep.2.2]; simp [h1'']
    · intro i j hi hij
      rw [hstep.1]
      simp only
      rcases List.mem_append.1 hi with hi | hi
      · have hik : i < k := (hpre i).1 hi
        rw [Equiv.swap_apply_of_ne_of_ne hik.ne (hik.trans_le ht1).ne]
        by_cases hjk : j < k
        · rw [Equiv.swap_apply_of_ne_of_ne hjk.ne (hjk.trans_le ht1).ne]
          exact h2 i j hi hij
        · exact h2 i _ hi (hik.le.trans (hge j (not_lt.1 hjk)))
      · rw [List.mem_singleton] at hi
        subst hi
        rw [Equiv.swap_apply_left]
        exact ht2 _ (hge j hij)

theorem svdLargest_spec (first : Fin m) (v : Fin m → ℝ) (i : Fin m) : |v i| ≤ |v (svdLargest first v)| := by
  have key : ∀ (l : List (Fin m)) (s : ℝ × Fin m), s.1 ≤ |v s.2| →
      let t := l.foldl (fun (s : ℝ × Fin m) i =>
        if s.1 < Fns.abs (v i) then (Fns.abs (v i), i) else s) s
      t.1 ≤ |v t.2| ∧ s.1 ≤ t.1 ∧ ∀ i ∈ l, |v i| ≤ t.1 := by
    intro l
    induction l with
    | nil => intro s h; simp [h]
    | cons i l ih =>
      intro s h
      simp only [List.foldl_cons, real_abs]
      by_cases hc : s.1 < |v i|
      · rw [if_pos hc]
        obtain ⟨g1, g2, g3⟩ := ih (|v i|, i) le_rfl
        refine ⟨g1, hc.le.trans g2, fun j hj => ?_⟩
        rcases List.mem_cons.1 hj with rfl | hj
        · exact g2
        · exact g3 j hj
      · rw [if_neg hc]
        obtain ⟨g1, g2, g3⟩ := ih s h
        refine ⟨g1, g2, fun j hj => ?_⟩
        rcases List.mem_cons.1 hj with rfl | hj
        · exact (not_lt.1 hc).trans g2
        · exact g3 j hj
  obtain ⟨h1, -, h3⟩ := key (List.finRange m) (0, first) (abs_nonneg _)
  exact (h3 i (List.mem_finRange i)).trans h1

theorem svdSigns_spec (tall : n ≤ m) (s : Svd m n ℝ) :
    ∃ e : Fin n → ℝ, (∀ k, e k * e k = 1) ∧ (∀ i k, (svdSigns tall s).left i k = e k * s.left i k)
      ∧ (∀ i k, (svdSigns tall s).right i k = e k * s.right i k)
      ∧ (svdSigns tall s).singularValues = s.singularValues
      ∧ ∀ k, ∃ r, ∀ i, |(svdSigns tall s).left i k| ≤ (svdSigns tall s).left r k := by
  refine ⟨fun k => if s.left (svdLargest ⟨0, k.pos.trans_le tall⟩ fun i => s.left i k) k < 0 then -1 else 1,
    fun k => ?_, fun i k => ?_, fun i k => ?_, rfl, fun k =>
      ⟨svdLargest ⟨0, k.pos.trans_le tall⟩ fun i => s.left i k, fun i => ?_⟩⟩
  · dsimp only; split_ifs <;> norm_num
  · unfold svdSigns; dsimp only; simp only [decide_eq_true_eq]; split_ifs <;> simp
  · unfold svdSigns; dsimp only; simp only [decide_eq_true_eq]; split_ifs <;> simp
  · have := svdLargest_spec ⟨0, k.pos.trans_le tall⟩ (fun i => s.left i k) i
    unfold svdSigns
    simp only [decide_eq_true_eq]
    split_ifs with h
    · rw [abs_neg]; rwa [abs_of_neg h] at this
    · rwa [abs_of_nonneg (not_lt.1 h)] at this

/-! ### The decomposition -/

theorem svd_ok (A : Matrix (Fin m) (Fin n) ℝ) (tall : n ≤ m) :
    ∃ d s, svd A = .ok d ∧ s = svdSweeps 60 ⟨A, midentity n, 0⟩ ∧ SvdInvariant A s
      ∧ (∀ i j, i ≤ j → d.singularValues j ≤ d.singularValues i)
      ∧ (∀ k, ∃ r, ∀ i, |d.left i k| ≤ d.left r k)
      ∧ ∃ (σ : Equiv.Perm (Fin n)) (e : Fin n → ℝ), (∀ k, e k * e k = 1)
        ∧ (∀ k, d.singularValues k = √(∑ i, s.left i (σ k) ^ 2))
        ∧ (∀ i k, d.left i k * d.singularValues k = e k * s.left i (σ k))
        ∧ (∀ k, d.singularValues k = 0 → ∀ i, d.left i k = 0)
        ∧ ∀ i k, d.right i k = e k * s.right i (σ k) := by
  have hinit : SvdInvariant A ⟨A, midentity n, 0⟩ := by
    refine ⟨?_, ?_⟩
    · dsimp only; rw [midentity_eq, Matrix.mul_one]
    · dsimp only; rw [midentity_eq]; simp
  obtain ⟨hinv, -⟩ := svdSweeps_spec 60 _ hinit
  set s := svdSweeps 60 (⟨A, midentity n, 0⟩ : SvdState m n ℝ) with hs
  have hsigma : ∀ k, (svdNormalize s).singularValues k = √(∑ i, s.left i k ^ 2) := by
    intro k
    simp [svdNormalize, vnorm, vnormSquared, vdot, sumLoop_eq, real_sqrt, sq]
  obtain ⟨⟨σ, s1, s2, s3⟩, s4⟩ := svd_sort_spec (svdNormalize s) (List.finRange n) [] (svdNormalize s) (by simp)
    ⟨1, by simp, by simp, by simp⟩ (by simp)
  obtain ⟨e, e1, e2, e3, e4, e5⟩ := svdSigns_spec tall ((List.finRange n).foldl svdSortStep (svdNormalize s))
  have hz : ∀ k, (svdNormalize s).singularValues k = 0 → ∀ i, s.left i k = 0 := by
    intro k hk i
    rw [hsigma, Real.sqrt_eq_zero (Finset.sum_nonneg fun i _ => sq_nonneg _)] at hk
    exact pow_eq_zero_iff two_ne_zero |>.1
      ((Finset.sum_eq_zero_iff_of_nonneg fun i _ => sq_nonneg _).1 hk i (Finset.mem_univ i))
  refine ⟨_, s, ?_, rfl, hinv, ?_, e5, σ, e, e1, ?_, ?_, ?_, ?_⟩
  · unfold svd
    rw [dif_pos tall, show mIsFinite A = true by simp [mIsFinite, Fns.isFinite]]
    simp only [Bool.not_true, Bool.false_eq_true, if_false]
    rw [← hs]
  · rw [e4]; exact s4
  · intro k; rw [e4, s1, hsigma]
  · intro i k
    rw [e4, e2, s1, s2]
    by_cases h0 : (svdNormalize s).singularValues (σ k) = 0
    · rw [h0, hz _ h0]; simp
    · have hpos : 0 < (svdNormalize s).singularValues (σ k) :=
        lt_of_le_of_ne (by rw [hsigma]; exact Real.sqrt_nonneg _) (Ne.symm h0)
      have : (svdNormalize s).left i (σ k) = s.left i (σ k) / (svdNormalize s).singularValues (σ k) := by
        unfold svdNormalize
        dsimp only
        exact if_pos hpos
      rw [this]
      field_simp
  · intro k hk i
    rw [e4, s1] at hk
    rw [e2, s2]
    have : (svdNormalize s).left i (σ k) = s.left i (σ k) := by
      unfold svdNormalize
      dsimp only
      refine if_neg ?_
      change ¬ 0 < (svdNormalize s).singularValues (σ k)
      rw [hk]; exact lt_irrefl _
    rw [this, hz _ hk, mul_zero]
  · intro i k
    rw [e3, s3]
    rfl

theorem left_inner_le (d : Svd m n ℝ) (L : Matrix (Fin m) (Fin n) ℝ) (σ : Equiv.Perm (Fin n)) (e : Fin n → ℝ)
    (e1 : ∀ k, e k * e k = 1) (e3 : ∀ i k, d.left i k * d.singularValues k = e k * L i (σ k))
    (e4 : ∀ k, d.singularValues k = 0 → ∀ i, d.left i k = 0) (hnn : ∀ k, 0 ≤ d.singularValues k)
    (hsq : ∀ k, d.singularValues k ^ 2 = ∑ i, L i (σ k) ^ 2) (p q : Fin n)
    (hpq' : |∑ i, L i (σ p) * L i (σ q)| ≤ 1 / 2 ^ 52 * √((∑ i, L i (σ p) ^ 2) * ∑ i, L i (σ q) ^ 2)) :
    |∑ i, d.left i p * d.left i q| ≤ 1 / 2 ^ 52 := by
  by_cases hp : d.singularValues p = 0
  · rw [Finset.sum_eq_zero fun i _ => by rw [e4 p hp i]; simp]; simp
  by_cases hq : d.singularValues q = 0
  · rw [Finset.sum_eq_zero fun i _ => by rw [e4 q hq i]; simp]; simp
  have hpos : 0 < d.singularValues p * d.singularValues q :=
    mul_pos (lt_of_le_of_ne (hnn p) (Ne.symm hp)) (lt_of_le_of_ne (hnn q) (Ne.symm hq))
  have habs : |∑ i, d.left i p * d.left i q| * (d.singularValues p * d.singularValues q)
      = |∑ i, L i (σ p) * L i (σ q)| := by
    rw [← abs_of_pos hpos, ← abs_mul, Finset.sum_mul]
    have : ∑ i, d.left i p * d.left i q * (d.singularValues p * d.singularValues q)
        = e p * e q * ∑ i, L i (σ p) * L i (σ q) := by
      rw [Finset.mul_sum]
      refine Finset.sum_congr rfl fun i _ => ?_
      linear_combination (d.left i q * d.singularValues q) * e3 i p + (e p * L i (σ p)) * e3 i q
    rw [this, abs_mul]
    have hone : |e p * e q| = 1 := by
      have h1 : (e p * e q) ^ 2 = 1 := by linear_combination (e q * e q) * e1 p + e1 q
      have h2 : |e p * e q| ^ 2 = 1 := by rw [sq_abs]; exact h1
      exact (pow_eq_one_iff_of_nonneg (abs_nonneg _) two_ne_zero).1 h2
    rw [hone, one_mul]
  rw [← hsq, ← hsq, ← mul_pow, Real.sqrt_sq hpos.le, ← habs] at hpq'
  exact le_of_mul_le_mul_right hpq' hpos

/-- C98. A matrix at least as tall as wide decomposes: `U diag(σ) Vᵀ` is the matrix, `V` is orthogonal, the singular
values are non-negative and largest first with the matrix's sum of squares, each column of `U` has length one or, beside
a zero singular value, zero, and its largest entry is positive.  The columns of `U` are perpendicular to within one unit
of rounding, unless all sixty sweeps were spent, each shrinking the product of the column lengths. -/
theorem svd_spec (A : Matrix (Fin m) (Fin n) ℝ) (tall : n ≤ m) :
    ∃ d, svd A = .ok d
      ∧ d.left * Matrix.diagonal d.singularValues * d.rightᵀ = A
      ∧ d.rightᵀ * d.right = 1
      ∧ (∀ k, 0 ≤ d.singularValues k)
      ∧ (∀ i j, i ≤ j → d.singularValues j ≤ d.singularValues i)
      ∧ ∑ k, d.singularValues k ^ 2 = ∑ i, ∑ j, A i j ^ 2
      ∧ (∀ k, ∑ i, d.left i k ^ 2 = if d.singularValues k = 0 then 0 else 1)
      ∧ (∀ k, ∃ r, ∀ i, |d.left i k| ≤ d.left r k)
      ∧ ((∀ p q, p ≠ q → |∑ i, d.left i p * d.left i q| ≤ 1 / 2 ^ 52)
        ∨ ∏ k, d.singularValues k ^ 2 ≤ (1 - (1 / 2 ^ 52) ^ 2) ^ 60 * ∏ k, ∑ i, A i k ^ 2) := by
  obtain ⟨d, s, hd, hs, hinv, hsort, hsign, σ, e, e1, e2, e3, e4, e5⟩ := svd_ok A tall
  have hright : d.rightᵀ * d.right = 1 := by
    ext a b
    have hab := congrFun (congrFun hinv.orthogonal (σ a)) (σ b)
    rw [mul_apply] at hab ⊢
    have : ∀ i, d.rightᵀ a i * d.right i b = e a * e b * (s.rightᵀ (σ a) i * s.right i (σ b)) := by
      intro i; simp only [transpose_apply, e5]; ring
    simp only [this, ← Finset.mul_sum, hab]
    by_cases h : a = b
    · subst h; simp [e1]
    · rw [one_apply_ne h, one_apply_ne (fun h' => h (σ.injective h')), mul_zero]
  have hnn : ∀ k, 0 ≤ d.singularValues k := fun k => by rw [e2]; exact Real.sqrt_nonneg _
  have hsq : ∀ k, d.singularValues k ^ 2 = ∑ i, s.left i (σ k) ^ 2 := fun k => by
    rw [e2, Real.sq_sqrt (Finset.sum_nonneg fun i _ => sq_nonneg _)]
  have hrecon : d.left * Matrix.diagonal d.singularValues * d.rightᵀ = A := by
    have h1 : d.left * Matrix.diagonal d.singularValues = A * d.right := by
      ext i k
      rw [mul_diagonal, e3, hinv.left, mul_apply, mul_apply, Finset.mul_sum]
      refine Finset.sum_congr rfl fun j _ => ?_
      rw [e5]; ring
    rw [h1, Matrix.mul_assoc, mul_eq_one_comm.1 hright, Matrix.mul_one]
  refine ⟨d, hd, hrecon, hright, hnn, hsort, ?_, ?_, hsign, ?_⟩
  · have h1 : ∑ k, d.singularValues k ^ 2 = ∑ k, ∑ i, s.left i k ^ 2 := by
      rw [Finset.sum_congr rfl fun k _ => hsq k]
      exact Equiv.sum_comp σ fun k => ∑ i, s.left i k ^ 2
    have h2 : ∑ k, ∑ i, s.left i k ^ 2 = (s.leftᵀ * s.left).trace := by
      simp only [trace, diag, mul_apply, transpose_apply, sq]
    have h3 : ∑ i, ∑ j, A i j ^ 2 = (Aᵀ * A).trace := by
      rw [Finset.sum_comm]
      simp only [trace, diag, mul_apply, transpose_apply, sq]
    have h4 : s.right * s.rightᵀ = 1 := mul_eq_one_comm.1 hinv.orthogonal
    rw [h1, h2, h3, hinv.left, transpose_mul, Matrix.mul_assoc, trace_mul_comm, Matrix.mul_assoc, Matrix.mul_assoc, h4,
      Matrix.mul_one]
  · intro k
    by_cases h0 : d.singularValues k = 0
    · rw [if_pos h0]
      exact Finset.sum_eq_zero fun i _ => by rw [e4 k h0 i]; simp
    · rw [if_neg h0]
      have : (∑ i, d.left i k ^ 2) * d.singularValues k ^ 2 = d.singularValues k ^ 2 := by
        rw [Finset.sum_mul, hsq]
        refine Finset.sum_congr rfl fun i _ => ?_
        rw [← hsq, ← mul_pow, e3, mul_pow, sq (e k), e1, one_mul]
      have hp : d.singularValues k ^ 2 ≠ 0 := pow_ne_zero 2 h0
      exact mul_right_cancel₀ hp (this.trans (one_mul _).symm)
  · have hinit : SvdInvariant A ⟨A, midentity n, 0⟩ := by
      refine ⟨?_, ?_⟩
      · dsimp only; rw [midentity_eq, Matrix.mul_one]
      · dsimp only; rw [midentity_eq]; simp
    rcases (svdSweeps_spec 60 _ hinit).2 with h | h
    · left
      intro p q hpq
      rw [← hs] at h
      have hpq' := h (σ p) (σ q) (fun h' => hpq (σ.injective h'))
      exact left_inner_le d s.left σ e e1 e3 e4 hnn hsq p q hpq'
    · right
      rw [← hs] at h
      have : ∏ k, d.singularValues k ^ 2 = columnVolume s.left := by
        rw [Finset.prod_congr rfl fun k _ => hsq k]
        exact Equiv.prod_comp σ fun k => ∑ i, s.left i k ^ 2
      rw [this]
      exact h

theorem svd_fold_idle {A : Matrix (Fin m) (Fin n) ℝ} (l : List (Fin n × Fin n)) (hl : ∀ x ∈ l, x.1 ≠ x.2)
    (s : SvdState m n ℝ) (h : SvdInvariant A s) (hn : ∀ x ∈ l, NearlyOrthogonal s.left x.1 x.2) :
    (l.foldl svdPair s).left = s.left ∧ (s.offMax ≤ 1 / 2 ^ 52 → (l.foldl svdPair s).offMax ≤ 1 / 2 ^ 52) := by
  induction l generalizing s with
  | nil => exact ⟨rfl, id⟩
  | cons x l ih =>
    simp only [List.foldl_cons]
    obtain ⟨p1, -, p3⟩ := svdPair_cases h x.1 x.2 (hl x List.mem_cons_self)
    rcases p3 with ⟨a1, -, a3⟩ | ⟨-, a2, -⟩
    · change (svdPair s x).left = s.left at a1
      obtain ⟨i1, i2⟩ := ih (fun y hy => hl y (List.mem_cons_of_mem _ hy)) (svdPair s x) p1
        (fun y hy => by rw [a1]; exact hn y (List.mem_cons_of_mem _ hy))
      exact ⟨i1.trans a1, fun h => i2 (a3 h)⟩
    · exact absurd (hn x List.mem_cons_self) a2

/-- C98. A matrix whose columns are already perpendicular is not rotated: its singular values are the column lengths, in
order of size, and the left vectors are exactly perpendicular. -/
theorem svd_orthogonal_columns (A : Matrix (Fin m) (Fin n) ℝ) (tall : n ≤ m)
    (h : ∀ p q, p ≠ q → ∑ i, A i p * A i q = 0) :
    ∃ d, svd A = .ok d ∧ (∀ p q, p ≠ q → ∑ i, d.left i p * d.left i q = 0)
      ∧ ∃ σ : Equiv.Perm (Fin n), ∀ k, d.singularValues k = √(∑ i, A i (σ k) ^ 2) := by
  obtain ⟨d, s, hd, hs, hinv, -, -, σ, e, e1, e2, e3, e4, -⟩ := svd_ok A tall
  have hinit : SvdInvariant A ⟨A, midentity n, 0⟩ := by
    refine ⟨?_, ?_⟩
    · dsimp only; rw [midentity_eq, Matrix.mul_one]
    · dsimp only; rw [midentity_eq]; simp
  have hsA : s.left = A := by
    obtain ⟨i1, i2⟩ := svd_fold_idle (jacobiPairs n) (by rintro ⟨p, q⟩ hx; exact ((mem_jacobiPairs p q).1 hx).ne)
      (⟨A, midentity n, 0⟩ : SvdState m n ℝ) hinit (by
        rintro ⟨p, q⟩ hx
        unfold NearlyOrthogonal
        dsimp only
        rw [h p q ((mem_jacobiPairs p q).1 hx).ne, abs_zero]
        positivity)
    have heps : (Fns.epsilon : ℝ) = 1 / 2 ^ 52 := rfl
    rw [hs, svdSweeps]
    dsimp only
    rw [heps, if_pos (i2 (by positivity))]
    exact i1
  rw [hsA] at e2 e3
  refine ⟨d, hd, fun p q hpq => ?_, σ, e2⟩
  by_cases hp : d.singularValues p = 0
  · exact Finset.sum_eq_zero fun i _ => by rw [e4 p hp i, zero_mul]
  by_cases hq : d.singularValues q = 0
  · exact Finset.sum_eq_zero fun i _ => by rw [e4 q hq i, mul_zero]
  have : (∑ i, d.left i p * d.left i q) * (d.singularValues p * d.singularValues q) = 0 := by
    rw [Finset.sum_mul]
    have hz := h (σ p) (σ q) (fun h' => hpq (σ.injective h'))
    have e : ∑ i, d.left i p * d.left i q * (d.singularValues p * d.singularValues q)
        = e p * e q * ∑ i, A i (σ p) * A i (σ q) := by
      rw [Finset.mul_sum]
      refine Finset.sum_congr rfl fun i _ => ?_
      linear_combination (d.left i q * d.singularValues q) * e3 i p + (e p * A i (σ p)) * e3 i q
    rw [e, hz, mul_zero]
  exact (mul_eq_zero.1 this).resolve_right (mul_ne_zero hp hq)

/-- A matrix with perpendicular columns, as a shared example. -/
theorem svd_example : ∃ d, svd (!![0, 4; 3, 0; 0, 0] : Matrix (Fin 3) (Fin 2) ℝ) = .ok d
    ∧ (∀ p q, p ≠ q → ∑ i, d.left i p * d.left i q = 0)
    ∧ ∀ k, d.singularValues k = 3 ∨ d.singularValues k = 4 := by
  obtain ⟨d, h1, h2, σ, h3⟩ := svd_orthogonal_columns (!![0, 4; 3, 0; 0, 0] : Matrix (Fin 3) (Fin 2) ℝ) (by norm_num)
    (by intro p q hpq; fin_cases p <;> fin_cases q <;> simp [Fin.sum_univ_succ] at hpq ⊢)
  refine ⟨d, h1, h2, fun k => ?_⟩
  rw [h3]
  have h2 : ∀ i : Fin 2, i = 0 ∨ i = 1 := by decide
  rcases h2 (σ k) with h | h
  · left
    rw [h, Real.sqrt_eq_iff_eq_sq (Finset.sum_nonneg fun i _ => sq_nonneg _) (by norm_num)]
    simp [Fin.sum_univ_succ]
  · right
    rw [h, Real.sqrt_eq_iff_eq_sq (Finset.sum_nonneg fun i _ => sq_nonneg _) (by norm_num)]
    simp [Fin.sum_univ_succ]

example : ∃ d, svd (!![3, 0; 0, 4; 0, 0] : Matrix (Fin 3) (Fin 2) ℝ) = .ok d ∧ ∑ k, d.singularValues k ^ 2 = 25 := by
  obtain ⟨d, h, -, -, -, -, h6, -⟩ := svd_spec (!![3, 0; 0, 4; 0, 0] : Matrix (Fin 3) (Fin 2) ℝ) (by norm_num)
  refine ⟨d, h, h6.trans ?_⟩
  simp [Fin.sum_univ_succ]
  norm_num

/-- C98. With two columns the left vectors always come out perpendicular to within one unit of rounding. -/
theorem svd_two_columns (A : Matrix (Fin m) (Fin 2) ℝ) (tall : 2 ≤ m) :
    ∃ d, svd A = .ok d ∧ |∑ i, d.left i 0 * d.left i 1| ≤ 1 / 2 ^ 52 := by
  obtain ⟨d, s, hd, hs, hinv, -, -, σ, e, e1, e2, e3, e4, -⟩ := svd_ok A tall
  refine ⟨d, hd, ?_⟩
  have hinit : SvdInvariant A ⟨A, midentity 2, 0⟩ := by
    refine ⟨?_, ?_⟩
    · dsimp only; rw [midentity_eq, Matrix.mul_one]
    · dsimp only; rw [midentity_eq]; simp
  have h01 : NearlyOrthogonal s.left 0 1 := by
    have := svdSweeps_two 58 _ hinit
    rw [hs]; exact this
  have h : NearlyOrthogonal s.left (σ 0) (σ 1) := by
    have hne : σ 0 ≠ σ 1 := fun h => absurd (σ.injective h) (by decide)
    have h2 : ∀ i : Fin 2, i = 0 ∨ i = 1 := by decide
    rcases h2 (σ 0) with h | h <;> rcases h2 (σ 1) with h' | h'
    · exact absurd (h.trans h'.symm) hne
    · rw [h, h']; exact h01
    · rw [h, h']; exact h01.symm
    · exact absurd (h.trans h'.symm) hne
  unfold NearlyOrthogonal at h
  have hnn : ∀ k, 0 ≤ d.singularValues k := fun k => by rw [e2]; exact Real.sqrt_nonneg _
  have hsq : ∀ k, d.singularValues k ^ 2 = ∑ i, s.left i (σ k) ^ 2 := fun k => by
    rw [e2, Real.sq_sqrt (Finset.sum_nonneg fun i _ => sq_nonneg _)]
  exact left_inner_le d s.left σ e e1 e3 e4 hnn hsq 0 1 h

example : ∃ d, svd (!![1, 2; 3, 4; 5, 6] : Matrix (Fin 3) (Fin 2) ℝ) = .ok d
    ∧ |∑ i, d.left i 0 * d.left i 1| ≤ 1 / 2 ^ 52 := svd_two_columns _ (by norm_num)

/-- C98. A matrix wider than tall is refused. -/
theorem svd_wide {T : Type} [Zero T] [One T] [NatCast T] [Neg T] [Add T] [Sub T] [Mul T] [Div T] [BEq T] [LE T]
    [DecidableLE T] [LT T] [DecidableLT T] [Fns T] (A : Matrix (Fin m) (Fin n) T) (h : m < n) :
    svd A = .error .underdetermined := by
  unfold svd
  rw [dif_neg (by omega)]

example : svd (!![1, 2] : Matrix (Fin 1) (Fin 2) ℝ) = .error .underdetermined := svd_wide _ (by norm_num)

/-- C98. A matrix with an infinite or undefined entry is refused. -/
theorem svd_not_finite {T : Type} [Zero T] [One T] [NatCast T] [Neg T] [Add T] [Sub T] [Mul T] [Div T] [BEq T] [LE T]
    [DecidableLE T] [LT T] [DecidableLT T] [Fns T] (A : Matrix (Fin m) (Fin n) T) (tall : n ≤ m)
    (h : ∃ i j, Fns.isFinite (A i j) = false) : svd A = .error .nonFinite := by
  unfold svd
  rw [dif_pos tall]
  obtain ⟨i, j, h⟩ := h
  have : mIsFinite A = false := by
    unfold mIsFinite
    rw [List.all_eq_false]
    refine ⟨i, List.mem_finRange i, ?_⟩
    simp only [Bool.not_eq_true]
    rw [List.all_eq_false]
    exact ⟨j, List.mem_finRange j, by simp [h]⟩
  simp [this]

example : svd (fun _ _ => XR.nan : Matrix (Fin 2) (Fin 1) XR) = .error .nonFinite :=
  svd_not_finite _ (by norm_num) ⟨0, 0, rfl⟩

/-- C98 (finding). The documentation promises orthonormal columns in `U`.  They are not when the matrix lacks full
rank: the zero matrix yields a `U` of zeros. -/
theorem svd_left_orthonormal_partial :
    ∃ d, svd (0 : Matrix (Fin 2) (Fin 1) ℝ) = .ok d ∧ d.leftᵀ * d.left ≠ 1 := by
  obtain ⟨d, h, -, -, -, -, h6, h7, -⟩ := svd_spec (0 : Matrix (Fin 2) (Fin 1) ℝ) (by norm_num)
  refine ⟨d, h, fun h1 => ?_⟩
  have h0 : d.singularValues 0 = 0 := by simpa using h6
  have := congrFun (congrFun h1 0) 0
  rw [mul_apply] at this
  simp only [transpose_apply, one_apply_eq, ← sq] at this
  rw [h7 0, if_pos h0] at this
  exact zero_ne_one this

/-! ### Rank, pseudo-inverse and least squares -/

/-- The four Moore–Penrose conditions. -/
structure MoorePenrose (A : Matrix (Fin m) (Fin n) ℝ) (P : Matrix (Fin n) (Fin m) ℝ) : Prop where
  left : A * P * A = A
  right : P * A * P = P
  range : (A * P)ᵀ = A * P
  support : (P * A)ᵀ = P * A

theorem MoorePenrose.transpose {A : Matrix (Fin m) (Fin n) ℝ} {P : Matrix (Fin n) (Fin m) ℝ} (h : MoorePenrose A P) :
    MoorePenrose Aᵀ Pᵀ := by
  refine ⟨?_, ?_, ?_, ?_⟩
  · rw [← transpose_mul, ← transpose_mul, ← Matrix.mul_assoc, h.left]
  · rw [← transpose_mul, ← transpose_mul, ← Matrix.mul_assoc, h.right]
  · rw [← transpose_mul, transpose_transpose, h.support]
  · rw [← transpose_mul, transpose_transpose, h.range]

/-- A pseudo-inverse is unique. -/
theorem MoorePenrose.unique {A : Matrix (Fin m) (Fin n) ℝ} {P Q : Matrix (Fin n) (Fin m) ℝ} (hp : MoorePenrose A P)
    (hq : MoorePenrose A Q) : P = Q := by
  have h1 : A * P = A * Q := by
    calc A * P = (A * P)ᵀ := hp.range.symm
      _ = (A * Q * A * P)ᵀ := by rw [hq.left]
      _ = (A * P)ᵀ * (A * Q)ᵀ := by rw [← transpose_mul, Matrix.mul_assoc (A * Q)]
      _ = A * P * A * Q := by rw [hp.range, hq.range, ← Matrix.mul_assoc]
      _ = A * Q := by rw [hp.left]
  have h2 : P * A = Q * A := by
    calc P * A = (P * A)ᵀ := hp.support.symm
      _ = (P * (A * Q * A))ᵀ := by rw [hq.left]
      _ = (Q * A)ᵀ * (P * A)ᵀ := by rw [← transpose_mul, Matrix.mul_assoc, Matrix.mul_assoc]
      _ = Q * (A * P * A) := by rw [hp.support, hq.support, Matrix.mul_assoc, Matrix.mul_assoc]
      _ = Q * A := by rw [hp.left]
  calc P = P * A * P := hp.right.symm
    _ = Q * A * P := by rw [h2]
    _ = Q * (A * Q) := by rw [Matrix.mul_assoc, h1]
    _ = Q := by rw [← Matrix.mul_assoc, hq.right]

/-- The best least-squares solution of least length. -/
theorem MoorePenrose.least {A : Matrix (Fin m) (Fin n) ℝ} {P : Matrix (Fin n) (Fin m) ℝ} (h : MoorePenrose A P)
    (b : Fin m → ℝ) (y : Fin n → ℝ) :
    (A *ᵥ (P *ᵥ b) - b) ⬝ᵥ (A *ᵥ (P *ᵥ b) - b) ≤ (A *ᵥ y - b) ⬝ᵥ (A *ᵥ y - b)
    ∧ ((A *ᵥ y - b) ⬝ᵥ (A *ᵥ y - b) ≤ (A *ᵥ (P *ᵥ b) - b) ⬝ᵥ (A *ᵥ (P *ᵥ b) - b) →
      (P *ᵥ b) ⬝ᵥ (P *ᵥ b) ≤ y ⬝ᵥ y) := by
  have hn : Aᵀ *ᵥ (A *ᵥ (P *ᵥ b) - b) = 0 := by
    rw [mulVec_sub, mulVec_mulVec, mulVec_mulVec, Matrix.mul_assoc, ← h.range, ← transpose_mul,
      h.left, sub_self]
  set x := P *ᵥ b with hx
  have hsplit : (A *ᵥ y - b) ⬝ᵥ (A *ᵥ y - b)
      = (A *ᵥ x - b) ⬝ᵥ (A *ᵥ x - b) + (A *ᵥ (y - x)) ⬝ᵥ (A *ᵥ (y - x)) := by
    have e : A *ᵥ y - b = (A *ᵥ x - b) + A *ᵥ (y - x) := by rw [mulVec_sub]; abel
    have hc : (A *ᵥ x - b) ⬝ᵥ (A *ᵥ (y - x)) = 0 := by
      rw [dotProduct_mulVec, ← mulVec_transpose, hn, zero_dotProduct]
    rw [e, add_dotProduct, dotProduct_add, dotProduct_add, hc,
      dotProduct_comm (A *ᵥ (y - x)) (A *ᵥ x - b), hc]
    ring
  have hnn : 0 ≤ (A *ᵥ (y - x)) ⬝ᵥ (A *ᵥ (y - x)) := Finset.sum_nonneg fun _ _ => mul_self_nonneg _
  refine ⟨by rw [hsplit]; linarith, fun hle => ?_⟩
  have hz : A *ᵥ (y - x) = 0 := by
    have : (A *ᵥ (y - x)) ⬝ᵥ (A *ᵥ (y - x)) = 0 := le_antisymm (by linarith [hsplit]) hnn
    exact dotProduct_self_zero this.le
  have hxp : x = (P * A) *ᵥ x := by
    rw [hx, mulVec_mulVec, h.right]
  have hc : x ⬝ᵥ (y - x) = 0 := by
    rw [hxp, dotProduct_comm ((P * A) *ᵥ x), dotProduct_mulVec, ← mulVec_transpose, h.support, ← hxp, ← mulVec_mulVec, hz,
      mulVec_zero, zero_dotProduct]
  have e : y ⬝ᵥ y = x ⬝ᵥ x + (y - x) ⬝ᵥ (y - x) := by
    have e2 : y = x + (y - x) := by abel
    conv_lhs => rw [e2]
    rw [add_dotProduct, dotProduct_add, dotProduct_add, hc, dotProduct_comm (y - x) x, hc]
    ring
  have : 0 ≤ (y - x) ⬝ᵥ (y - x) := Finset.sum_nonneg fun _ _ => mul_self_nonneg _
  rw [e]; linarith

/-- The decomposition with the singular values at or below `tol` dropped. -/
noncomputable def Svd.truncated (d : Svd m n ℝ) (tol : ℝ) : Matrix (Fin m) (Fin n) ℝ :=
  d.left * Matrix.diagonal (fun k => if tol < d.singularValues k then d.singularValues k else 0) * d.rightᵀ

/-- C98. `rank(tol)` counts the singular values above `tol`. -/
theorem svd_rank (d : Svd m n ℝ) (tol : ℝ) :
    d.rank tol = (Finset.univ.filter fun k => tol < d.singularValues k).card := by
  unfold Svd.rank
  have key : ∀ (l : List (Fin n)) (c : ℕ), l.Nodup →
      l.foldl (fun count k => if tol < d.singularValues k then count + 1 else count) c
        = c + (l.toFinset.filter fun k => tol < d.singularValues k).card := by
    intro l
    induction l with
    | nil => simp
    | cons k l ih =>
      intro c hn
      rw [List.nodup_cons] at hn
      rw [List.foldl_cons, ih _ hn.2, List.toFinset_cons, Finset.filter_insert]
      by_cases h : tol < d.singularValues k
      · rw [if_pos h, if_pos h, Finset.card_insert_of_notMem (by simp [hn.1])]; omega
      · rw [if_neg h, if_neg h]
  rw [key _ _ (List.nodup_finRange n), zero_add]
  congr 2
  ext k; simp

example : (⟨0, fun k => if k = 0 then 3 else 0, 0⟩ : Svd 2 2 ℝ).rank 1 = 1 := by
  rw [svd_rank, Finset.card_eq_one]
  refine ⟨0, ?_⟩
  ext k
  fin_cases k <;> simp

/-- `1/σ` for the kept singular values. -/
noncomputable def Svd.reciprocal (d : Svd m n ℝ) (tol : ℝ) (k : Fin n) : ℝ :=
  if tol < d.singularValues k then 1 / d.singularValues k else 0

/-- C98. `pseudo_inverse_with_tol` is `V diag(1/σ) Uᵀ` over the singular values above the tolerance, and `solve`
multiplies its argument by `pseudo_inverse`. -/
theorem svd_pseudo_inverse_eq (d : Svd m n ℝ) (tol : ℝ) (b : Fin m → ℝ) :
    d.pseudoInverseTol tol = d.right * Matrix.diagonal (d.reciprocal tol) * d.leftᵀ
    ∧ d.solve b = d.pseudoInverse *ᵥ b := by
  have h1 : ∀ tol, d.pseudoInverseTol tol = d.right * Matrix.diagonal (d.reciprocal tol) * d.leftᵀ := by
    intro tol
    ext i j
    rw [mul_apply]
    unfold Svd.pseudoInverseTol
    have : (fun (acc : ℝ) k => if tol < d.singularValues k then acc + d.right i k * d.left j k / d.singularValues k else acc)
        = fun acc k => acc + (d.right * Matrix.diagonal (d.reciprocal tol)) i k * d.leftᵀ k j := by
      funext acc k
      rw [mul_diagonal, transpose_apply, Svd.reciprocal]
      split_ifs <;> ring
    rw [this]
    exact sumLoop_eq _
  refine ⟨h1 tol, ?_⟩
  unfold Svd.solve Svd.pseudoInverse
  rw [h1, mmulVec_eq, ← mulVec_mulVec, ← mulVec_mulVec]
  congr 1
  funext k
  rw [mulVec_diagonal, Svd.reciprocal, vdot_eq, mulVec]
  split_ifs
  · rw [show d.leftᵀ k = fun row => d.left row k from rfl]; ring
  · ring

/-- C98. Dropping the singular values at or below a tolerance changes the matrix by exactly the dropped ones, in sum of
squares. -/
theorem svd_truncation_error (A : Matrix (Fin m) (Fin n) ℝ) (tol : ℝ) (d : Svd m n ℝ) (hd : svd A = .ok d) :
    ∑ i, ∑ j, (A i j - d.truncated tol i j) ^ 2
      = ∑ k, if tol < d.singularValues k then 0 else d.singularValues k ^ 2 := by
  have tall : n ≤ m := by
    by_contra h
    rw [svd_wide A (by omega)] at hd
    exact absurd hd (by simp)
  obtain ⟨d', hd', h1, h2, -, -, -, h7, -⟩ := svd_spec A tall
  rw [hd] at hd'
  obtain rfl : d = d' := by injection hd'
  set D := Matrix.diagonal (fun k => if tol < d.singularValues k then 0 else d.singularValues k) with hD
  have hsub : A - d.truncated tol = d.left * D * d.rightᵀ := by
    conv_lhs => rw [← h1]
    unfold Svd.truncated
    rw [← Matrix.sub_mul, ← Matrix.mul_sub, diagonal_sub]
    congr 3
    funext k
    split_ifs <;> simp
  have h3 : ∑ i, ∑ j, (A i j - d.truncated tol i j) ^ 2 = ((A - d.truncated tol)ᵀ * (A - d.truncated tol)).trace := by
    rw [Finset.sum_comm]
    simp only [trace, diag, mul_apply, transpose_apply, sq, Matrix.sub_apply]
  rw [h3, hsub, transpose_mul, transpose_transpose, Matrix.mul_assoc, trace_mul_comm, Matrix.mul_assoc, Matrix.mul_assoc, h2,
    Matrix.mul_one, trace]
  refine Finset.sum_congr rfl fun k _ => ?_
  rw [diag_apply, hD, mul_apply]
  simp only [transpose_apply, mul_diagonal]
  have : ∀ i, d.left i k * (if tol < d.singularValues k then 0 else d.singularValues k)
      * (d.left i k * (if tol < d.singularValues k then 0 else d.singularValues k))
      = d.left i k ^ 2 * (if tol < d.singularValues k then 0 else d.singularValues k ^ 2) := by
    intro i; split_ifs <;> ring
  rw [Finset.sum_congr rfl fun i _ => this i, ← Finset.sum_mul, h7]
  split_ifs <;> simp_all

example : ∃ d, svd (!![0, 4; 3, 0; 0, 0] : Matrix (Fin 3) (Fin 2) ℝ) = .ok d
    ∧ ∑ i, ∑ j, ((!![0, 4; 3, 0; 0, 0] : Matrix (Fin 3) (Fin 2) ℝ) i j - d.truncated (7 / 2) i j) ^ 2
      = ∑ k, if 7 / 2 < d.singularValues k then 0 else d.singularValues k ^ 2 := by
  obtain ⟨d, h, -⟩ := svd_example
  exact ⟨d, h, svd_truncation_error _ _ d h⟩

/-- C98. When the kept left vectors are exactly perpendicular, `pseudo_inverse_with_tol` is the Moore–Penrose inverse of
the matrix with the other singular values dropped. -/
theorem svd_moore_penrose (A : Matrix (Fin m) (Fin n) ℝ) (tol : ℝ) (htol : 0 ≤ tol) (d : Svd m n ℝ) (hd : svd A = .ok d)
    (horth : ∀ p q, p ≠ q → tol < d.singularValues p → tol < d.singularValues q → ∑ i, d.left i p * d.left i q = 0) :
    MoorePenrose (d.truncated tol) (d.pseudoInverseTol tol) := by
  have tall : n ≤ m := by
    by_contra h
    rw [svd_wide A (by omega)] at hd
    exact absurd hd (by simp)
  obtain ⟨d', hd', h1, h2, -, -, -, h7, -⟩ := svd_spec A tall
  rw [hd] at hd'
  obtain rfl : d = d' := by injection hd'
  rw [(svd_pseudo_inverse_eq d tol 0).1, Svd.truncated]
  set D := Matrix.diagonal (fun k => if tol < d.singularValues k then d.singularValues k else 0) with hD
  set E := Matrix.diagonal (d.reciprocal tol) with hE
  set K : Matrix (Fin n) (Fin n) ℝ := Matrix.diagonal (fun k => if tol < d.singularValues k then 1 else 0) with hK
  have hne : ∀ k, tol < d.singularValues k → d.singularValues k ≠ 0 := fun k h => (htol.trans_lt h).ne'
  have hDE : D * E = K := by
    rw [hD, hE, hK, diagonal_mul_diagonal]
    congr 1; funext k
    unfold Svd.reciprocal
    split_ifs with h
    · field_simp [hne k h]
    · simp
  have hDK : D * K = D := by
    rw [hD, hK, diagonal_mul_diagonal]
    congr 1; funext k; split_ifs <;> simp
  have hKE : K * E = E := by
    rw [hE, hK, diagonal_mul_diagonal]
    congr 1; funext k
    unfold Svd.reciprocal
    split_ifs <;> simp
  have hmid : E * (d.leftᵀ * d.left) * D = K := by
    ext p q
    rw [hD, hE, hK, mul_diagonal, diagonal_mul, mul_apply]
    simp only [transpose_apply]
    unfold Svd.reciprocal
    by_cases hpq : p = q
    · subst hpq
      rw [diagonal_apply_eq]
      simp only [← sq]
      rw [h7]
      split_ifs with h h'
      · exact absurd h' (hne p h)
      · field_simp
      · simp
      · simp
    · rw [diagonal_apply_ne _ hpq]
      by_cases hp : tol < d.singularValues p
      · by_cases hq : tol < d.singularValues q
        · rw [horth p q hpq hp hq]; ring
        · rw [if_neg hq, mul_zero]
      · rw [if_neg hp, zero_mul, zero_mul]
  have hDt : Dᵀ = D := diagonal_transpose _
  have hEt : Eᵀ = E := diagonal_transpose _
  have hKt : Kᵀ = K := diagonal_transpose _
  have hBP : d.left * D * d.rightᵀ * (d.right * E * d.leftᵀ) = d.left * K * d.leftᵀ := by
    calc _ = d.left * D * (d.rightᵀ * d.right) * E * d.leftᵀ := by simp only [Matrix.mul_assoc]
      _ = d.left * (D * E) * d.leftᵀ := by rw [h2, Matrix.mul_one]; simp only [Matrix.mul_assoc]
      _ = _ := by rw [hDE]
  have hPB : d.right * E * d.leftᵀ * (d.left * D * d.rightᵀ) = d.right * K * d.rightᵀ := by
    calc _ = d.right * (E * (d.leftᵀ * d.left) * D) * d.rightᵀ := by simp only [Matrix.mul_assoc]
      _ = _ := by rw [hmid]
  refine ⟨?_, ?_, ?_, ?_⟩
  · rw [Matrix.mul_assoc, hPB]
    calc _ = d.left * (D * ((d.rightᵀ * d.right) * K)) * d.rightᵀ := by simp only [Matrix.mul_assoc]
      _ = _ := by rw [h2, Matrix.one_mul, hDK]
  · rw [hPB]
    calc _ = d.right * (K * ((d.rightᵀ * d.right) * E)) * d.leftᵀ := by simp only [Matrix.mul_assoc]
      _ = _ := by rw [h2, Matrix.one_mul, hKE]
  · rw [hBP, transpose_mul, transpose_mul, transpose_transpose, hKt, Matrix.mul_assoc]
  · rw [hPB, transpose_mul, transpose_mul, transpose_transpose, hKt, Matrix.mul_assoc]

example : ∃ d, svd (!![0, 4; 3, 0; 0, 0] : Matrix (Fin 3) (Fin 2) ℝ) = .ok d
    ∧ MoorePenrose (d.truncated (7 / 2)) (d.pseudoInverseTol (7 / 2)) := by
  obtain ⟨d, h, h1, -⟩ := svd_example
  exact ⟨d, h, svd_moore_penrose _ _ (by norm_num) d h fun p q hpq _ _ => h1 p q hpq⟩

/-- C98. When the left vectors are exactly perpendicular and no singular value lies between zero and the default
tolerance, `pseudo_inverse` is the matrix's Moore–Penrose inverse, and `solve` gives the least-squares solution, the
shortest if there are several. -/
theorem svd_solve (A : Matrix (Fin m) (Fin n) ℝ) (d : Svd m n ℝ) (hd : svd A = .ok d)
    (horth : ∀ p q, p ≠ q → ∑ i, d.left i p * d.left i q = 0)
    (hgap : ∀ k, d.singularValues k ≤ d.defaultTol → d.singularValues k = 0) (b : Fin m → ℝ) :
    MoorePenrose A d.pseudoInverse
    ∧ ∀ y, (A *ᵥ d.solve b - b) ⬝ᵥ (A *ᵥ d.solve b - b) ≤ (A *ᵥ y - b) ⬝ᵥ (A *ᵥ y - b)
      ∧ ((A *ᵥ y - b) ⬝ᵥ (A *ᵥ y - b) ≤ (A *ᵥ d.solve b - b) ⬝ᵥ (A *ᵥ d.solve b - b) →
        d.solve b ⬝ᵥ d.solve b ≤ y ⬝ᵥ y) := by
  have tall : n ≤ m := by
    by_contra h
    rw [svd_wide A (by omega)] at hd
    exact absurd hd (by simp)
  obtain ⟨d', hd', h1, -, h3, -⟩ := svd_spec A tall
  rw [hd] at hd'
  obtain rfl : d = d' := by injection hd'
  have htol : 0 ≤ d.defaultTol := by
    unfold Svd.defaultTol
    split_ifs
    · exact le_rfl
    · have : (0 : ℝ) ≤ Fns.epsilon := by change (0 : ℝ) ≤ 1 / 2 ^ 52; positivity
      exact mul_nonneg (mul_nonneg (Nat.cast_nonneg _) this) (h3 _)
  have hmp := svd_moore_penrose A d.defaultTol htol d hd (fun p q h _ _ => horth p q h)
  have hA : d.truncated d.defaultTol = A := by
    conv_rhs => rw [← h1]
    unfold Svd.truncated
    congr 3
    funext k
    split_ifs with h
    · rfl
    · exact (hgap k (not_lt.1 h)).symm
  rw [hA] at hmp
  refine ⟨hmp, fun y => ?_⟩
  rw [(svd_pseudo_inverse_eq d 0 b).2]
  exact hmp.least b y

example : ∃ d, svd (!![0, 4; 3, 0; 0, 0] : Matrix (Fin 3) (Fin 2) ℝ) = .ok d
    ∧ MoorePenrose !![0, 4; 3, 0; 0, 0] d.pseudoInverse := by
  obtain ⟨d, h, h1, h2⟩ := svd_example
  refine ⟨d, h, (svd_solve _ d h h1 (fun k hk => ?_) 0).1⟩
  exfalso
  unfold Svd.defaultTol at hk
  rw [dif_neg (by norm_num)] at hk
  have he : (Fns.epsilon : ℝ) = 1 / 2 ^ 52 := rfl
  rw [he] at hk
  rcases h2 k with h | h <;> rcases h2 ⟨0, by omega⟩ with h' | h' <;> rw [h, h'] at hk <;> norm_num at hk

/-- C98. `Matrix::pseudo_inverse` on a matrix wider than tall goes through the transpose, and is again the
Moore–Penrose inverse. -/
theorem pseudo_inverse_wide (A : Matrix (Fin m) (Fin n) ℝ) (h : m < n) :
    ∃ d, svd Aᵀ = .ok d ∧ pseudoInverse A = .ok d.pseudoInverseᵀ
      ∧ ((∀ p q, p ≠ q → ∑ i, d.left i p * d.left i q = 0) →
        (∀ k, d.singularValues k ≤ d.defaultTol → d.singularValues k = 0) → MoorePenrose A d.pseudoInverseᵀ) := by
  obtain ⟨d, hd, -⟩ := svd_spec Aᵀ h.le
  refine ⟨d, hd, ?_, fun h1 h2 => ?_⟩
  · unfold pseudoInverse
    rw [if_neg (by omega), show mtranspose A = Aᵀ from rfl, hd]
    rfl
  · have := (svd_solve Aᵀ d hd h1 h2 0).1.transpose
    rwa [transpose_transpose] at this

example : ∃ d, svd (!![1, 2] : Matrix (Fin 1) (Fin 2) ℝ)ᵀ = .ok d
    ∧ pseudoInverse (!![1, 2] : Matrix (Fin 1) (Fin 2) ℝ) = .ok d.pseudoInverseᵀ
    ∧ MoorePenrose (!![1, 2] : Matrix (Fin 1) (Fin 2) ℝ) d.pseudoInverseᵀ := by
  obtain ⟨d, h1, h2, h3⟩ := pseudo_inverse_wide (!![1, 2] : Matrix (Fin 1) (Fin 2) ℝ) (by norm_num)
  refine ⟨d, h1, h2, h3 (fun p q h => absurd (Subsingleton.elim p q) h) fun k hk => ?_⟩
  obtain ⟨d', hd', -, -, h4, -⟩ := svd_spec (!![1, 2] : Matrix (Fin 1) (Fin 2) ℝ)ᵀ (by norm_num)
  rw [h1] at hd'
  obtain rfl : d = d' := by injection hd'
  obtain rfl : k = 0 := Subsingleton.elim _ _
  unfold Svd.defaultTol at hk
  rw [dif_neg (by norm_num)] at hk
  have he : (Fns.epsilon : ℝ) = 1 / 2 ^ 52 := rfl
  rw [he, show (⟨0, by omega⟩ : Fin 1) = 0 from rfl] at hk
  have := h4 0
  norm_num at hk
  linarith

/-- C98. The default cut-off is the longer side times the machine epsilon times the largest singular value: with
perpendicular left vectors above it, `pseudo_inverse` is the Moore–Penrose inverse of the matrix with every singular
value at or below that dropped, and `solve` applies it. -/
theorem svd_default_cutoff (A : Matrix (Fin m) (Fin (n + 1)) ℝ) (d : Svd m (n + 1) ℝ) (hd : svd A = .ok d)
    (horth : ∀ p q, p ≠ q → m / 2 ^ 52 * d.singularValues 0 < d.singularValues p →
      m / 2 ^ 52 * d.singularValues 0 < d.singularValues q → ∑ i, d.left i p * d.left i q = 0) (b : Fin m → ℝ) :
    MoorePenrose (d.left * Matrix.diagonal (fun k => if m / 2 ^ 52 * d.singularValues 0 < d.singularValues k then
      d.singularValues k else 0) * d.rightᵀ) d.pseudoInverse ∧ d.solve b = d.pseudoInverse *ᵥ b := by
  have tall : n + 1 ≤ m := by
    by_contra h
    rw [svd_wide A (by omega)] at hd
    exact absurd hd (by simp)
  have htol : d.defaultTol = m / 2 ^ 52 * d.singularValues 0 := by
    unfold Svd.defaultTol
    rw [dif_neg (by omega), max_eq_left tall, show (Fns.epsilon : ℝ) = 1 / 2 ^ 52 from rfl]
    simp only [mul_one_div]
    rfl
  obtain ⟨d', hd', -, -, h3, -⟩ := svd_spec A tall
  rw [hd] at hd'
  obtain rfl : d = d' := by injection hd'
  have h0 : 0 ≤ m / 2 ^ 52 * d.singularValues 0 := mul_nonneg (by positivity) (h3 0)
  refine ⟨?_, (svd_pseudo_inverse_eq d 0 b).2⟩
  have := svd_moore_penrose A _ h0 d hd horth
  unfold Svd.pseudoInverse
  rw [htol]
  exact this

example : ∃ d, svd (!![0, 4; 3, 0; 0, 0] : Matrix (Fin 3) (Fin 2) ℝ) = .ok d
    ∧ ∀ p q, p ≠ q → ∑ i, d.left i p * d.left i q = 0 := by
  obtain ⟨d, h, h1, -⟩ := svd_example
  exact ⟨d, h, h1⟩

/-- C98. When the left vectors are exactly orthonormal, the largest and smallest singular values bound how much the
matrix stretches any vector, and `condition_number` is their ratio. -/
theorem svd_condition_number (A : Matrix (Fin m) (Fin (n + 1)) ℝ) (d : Svd m (n + 1) ℝ) (hd : svd A = .ok d)
    (horth : ∀ p q, p ≠ q → ∑ i, d.left i p * d.left i q = 0) (hpos : 0 < d.singularValues (Fin.last n))
    (x : Fin (n + 1) → ℝ) :
    d.conditionNumber = d.singularValues 0 / d.singularValues (Fin.last n)
    ∧ d.singularValues (Fin.last n) ^ 2 * (x ⬝ᵥ x) ≤ (A *ᵥ x) ⬝ᵥ (A *ᵥ x)
    ∧ (A *ᵥ x) ⬝ᵥ (A *ᵥ x) ≤ d.singularValues 0 ^ 2 * (x ⬝ᵥ x) := by
  have tall : n + 1 ≤ m := by
    by_contra h
    rw [svd_wide A (by omega)] at hd
    exact absurd hd (by simp)
  obtain ⟨d', hd', h1, h2, h3, h4, -, h7, -⟩ := svd_spec A tall
  rw [hd] at hd'
  obtain rfl : d = d' := by injection hd'
  have hall : ∀ k, d.singularValues k ≠ 0 := fun k => (hpos.trans_le (h4 k _ (Fin.le_last k))).ne'
  have hU : d.leftᵀ * d.left = 1 := by
    ext p q
    rw [mul_apply]
    simp only [transpose_apply]
    by_cases hpq : p = q
    · subst hpq
      simp only [← sq]
      rw [h7, if_neg (hall p), one_apply_eq]
    · rw [horth p q hpq, one_apply_ne hpq]
  have hiso : ∀ {r : ℕ} (Q : Matrix (Fin r) (Fin (n + 1)) ℝ) (v : Fin (n + 1) → ℝ), Qᵀ * Q = 1 →
      (Q *ᵥ v) ⬝ᵥ (Q *ᵥ v) = v ⬝ᵥ v := by
    intro r Q v hQ
    rw [dotProduct_mulVec, ← mulVec_transpose, mulVec_mulVec, hQ, one_mulVec]
  have hVt : d.rightᵀᵀ * d.rightᵀ = 1 := by rw [transpose_transpose]; exact mul_eq_one_comm.1 h2
  have hAx : (A *ᵥ x) ⬝ᵥ (A *ᵥ x) = ∑ k, d.singularValues k ^ 2 * (d.rightᵀ *ᵥ x) k ^ 2 := by
    conv_lhs => rw [← h1]
    rw [← mulVec_mulVec, ← mulVec_mulVec, hiso _ _ hU]
    unfold dotProduct
    refine Finset.sum_congr rfl fun k _ => ?_
    rw [mulVec_diagonal]; ring
  have hx : x ⬝ᵥ x = ∑ k, (d.rightᵀ *ᵥ x) k ^ 2 := by
    rw [← hiso _ x hVt]
    unfold dotProduct
    refine Finset.sum_congr rfl fun k _ => by ring
  refine ⟨?_, ?_, ?_⟩
  · unfold Svd.conditionNumber
    rw [dif_neg (by omega)]
    exact if_neg (not_le.2 hpos)
  · rw [hAx, hx, Finset.mul_sum]
    refine Finset.sum_le_sum fun k _ => mul_le_mul_of_nonneg_right ?_ (sq_nonneg _)
    exact pow_le_pow_left₀ hpos.le (h4 k _ (Fin.le_last k)) 2
  · rw [hAx, hx, Finset.mul_sum]
    refine Finset.sum_le_sum fun k _ => mul_le_mul_of_nonneg_right ?_ (sq_nonneg _)
    exact pow_le_pow_left₀ (h3 k) (h4 0 k (Fin.zero_le k)) 2

example : ∃ d, svd (!![0, 4; 3, 0; 0, 0] : Matrix (Fin 3) (Fin 2) ℝ) = .ok d
    ∧ d.conditionNumber = d.singularValues 0 / d.singularValues 1 := by
  obtain ⟨d, h, h1, h2⟩ := svd_example
  exact ⟨d, h, (svd_condition_number (n := 1) _ d h h1 (by rcases h2 (Fin.last 1) with h | h <;> rw [h] <;> norm_num) 0).1⟩

end Multicalc
