import Verif.Model.Eigen
import Verif.Props.LinearAlgebra

/-!
# Lemmas on Jacobi rotations
-/

namespace Multicalc

open Matrix

variable {n : ℕ}

/-- The plane rotation applied by one step. -/
def givens (p q : Fin n) (c s : ℝ) : Matrix (Fin n) (Fin n) ℝ := fun i k =>
  if k = p then (if i = p then c else if i = q then -s else 0)
  else if k = q then (if i = p then s else if i = q then c else 0)
  else if i = k then 1 else 0

theorem sum_two (p q : Fin n) (hpq : p ≠ q) (a b : ℝ) (f : Fin n → ℝ) :
    (∑ i, f i * if i = p then a else if i = q then b else 0) = f p * a + f q * b := by
  have : ∀ i, (f i * if i = p then a else if i = q then b else 0) =
      (if i = p then f i * a else 0) + (if i = q then f i * b else 0) := by
    intro i
    by_cases h1 : i = p
    · subst h1; simp [hpq]
    · rw [if_neg h1, if_neg h1, zero_add]
      split_ifs <;> simp
  rw [Finset.sum_congr rfl fun i _ => this i, Finset.sum_add_distrib, ← sum_single p (fun i => f i * a),
    ← sum_single q (fun i => f i * b)]

theorem mul_givens {r : ℕ} (M : Matrix (Fin r) (Fin n) ℝ) (p q : Fin n) (hpq : p ≠ q) (c s : ℝ)
    (i : Fin r) (k : Fin n) : (M * givens p q c s) i k =
      if k = p then c * M i p - s * M i q else if k = q then s * M i p + c * M i q else M i k := by
  rw [Matrix.mul_apply]
  unfold givens
  split_ifs with h1 h2
  · rw [sum_two p q hpq]; ring
  · rw [sum_two p q hpq]; ring
  · have : ∀ j, (M i j * if j = k then (1 : ℝ) else 0) = if j = k then M i j else 0 := by
      intro j; split_ifs <;> simp
    rw [Finset.sum_congr rfl fun j _ => this j, ← sum_single k]

theorem givens_mul (M : Matrix (Fin n) (Fin n) ℝ) (p q : Fin n) (hpq : p ≠ q) (c s : ℝ)
    (i k : Fin n) : ((givens p q c s)ᵀ * M) i k =
      if i = p then c * M p k - s * M q k else if i = q then s * M p k + c * M q k else M i k := by
  have := mul_givens Mᵀ p q hpq c s k i
  rw [← Matrix.transpose_apply (Mᵀ * givens p q c s), Matrix.transpose_mul,
    Matrix.transpose_transpose] at this
  simpa using this

theorem rotateVectors_eq (v : Matrix (Fin n) (Fin n) ℝ) (p q : Fin n) (hpq : p ≠ q) (c s : ℝ) :
    rotateVectors v p q c s = v * givens p q c s := by
  ext i k
  rw [mul_givens _ _ _ hpq]; rfl

theorem givens_orthogonal (p q : Fin n) (hpq : p ≠ q) (c s : ℝ) (h : c * c + s * s = 1) :
    (givens p q c s)ᵀ * givens p q c s = 1 := by
  ext i k
  rw [givens_mul _ _ _ hpq]
  simp only [givens, Matrix.one_apply]
  by_cases h1 : i = p <;> by_cases h2 : i = q <;> by_cases h3 : k = p <;> by_cases h4 : k = q <;>
    simp_all <;> first | linarith | (split_ifs <;> simp_all) | skip

theorem jacobiAngle_spec (alpha beta gamma t c s : ℝ) (hg : gamma ≠ 0)
    (h : jacobiAngle alpha beta gamma = (t, c, s)) :
    gamma * (t * t) + (beta - alpha) * t - gamma = 0 ∧ s = t * c ∧ c * c * (1 + t * t) = 1 := by
  unfold jacobiAngle at h
  simp only [Prod.mk.injEq, real_abs, real_sqrt] at h
  obtain ⟨ht, hc, hs⟩ := h
  set z := (beta - alpha) / (((2 : ℕ) : ℝ) * gamma) with hz
  have hz' : beta - alpha = 2 * z * gamma := by
    rw [hz]; push_cast; field_simp
  set w := Real.sqrt (1 + z * z) with hw
  have hww : w * w = 1 + z * z := Real.mul_self_sqrt (by nlinarith [mul_self_nonneg z])
  have hwpos : 0 < w := Real.sqrt_pos.2 (by nlinarith [mul_self_nonneg z])
  have hden : 0 < |z| + w := by positivity
  have ht2 : t * t + 2 * z * t - 1 = 0 := by
    by_cases hneg : z < 0
    · rw [if_pos hneg, abs_of_neg hneg] at ht
      rw [abs_of_neg hneg] at hden
      rw [← ht]
      field_simp
      nlinarith
    · rw [if_neg hneg, abs_of_nonneg (not_lt.1 hneg)] at ht
      rw [abs_of_nonneg (not_lt.1 hneg)] at hden
      rw [← ht]
      field_simp
      nlinarith
  refine ⟨?_, ?_, ?_⟩
  · rw [hz']; linear_combination gamma * ht2
  · rw [← hs, ← hc, ← ht]
  · rw [ht] at hc
    have hp : 0 < 1 + t * t := by nlinarith [mul_self_nonneg t]
    have hsq : Real.sqrt (1 + t * t) * Real.sqrt (1 + t * t) = 1 + t * t := Real.mul_self_sqrt hp.le
    have hsp : 0 < Real.sqrt (1 + t * t) := Real.sqrt_pos.2 hp
    rw [← hc, div_mul_div_comm, hsq]
    field_simp

theorem rotateWorking_eq (w : Matrix (Fin n) (Fin n) ℝ) (hw : w.IsSymm) (p q : Fin n) (hpq : p ≠ q)
    (t c s : ℝ) (h1 : w p q * (t * t) + (w q q - w p p) * t - w p q = 0) (h2 : s = t * c)
    (h3 : c * c * (1 + t * t) = 1) :
    rotateWorking w p q t c s = (givens p q c s)ᵀ * w * givens p q c s := by
  have hsym : ∀ i j, w i j = w j i := fun i j => hw.apply j i
  ext i k
  rw [Matrix.mul_assoc, givens_mul _ _ _ hpq, mul_givens _ _ _ hpq, mul_givens _ _ _ hpq,
    mul_givens _ _ _ hpq]
  unfold rotateWorking
  have hqp := hsym q p
  have e1 : c * (c * w p p - s * w p q) - s * (c * w q p - s * w q q) = w p p - t * w p q := by
    rw [hqp, h2]
    linear_combination (w p p - t * w p q) * h3 - c * c * t * (-1) * h1
  have e2 : s * (s * w p p + c * w p q) + c * (s * w q p + c * w q q) = w q q + t * w p q := by
    rw [hqp, h2]
    linear_combination (w q q + t * w p q) * h3 - c * c * t * h1
  have e3 : c * (s * w p p + c * w p q) - s * (s * w q p + c * w q q) = 0 := by
    rw [hqp, h2]
    linear_combination (-(c * c)) * h1
  have e4 : s * (c * w p p - s * w p q) + c * (c * w q p - s * w q q) = 0 := by
    rw [hqp, h2]
    linear_combination (-(c * c)) * h1
  by_cases hip : i = p
  · subst hip
    by_cases hkp : k = i
    · subst hkp; simp only [if_true, and_self]; exact e1.symm
    · by_cases hkq : k = q
      · subst hkq
        simp only [if_true, and_self, hkp, and_false, if_false, true_or, hpq, false_and]
        exact e3.symm
      · simp only [hkp, hkq, hpq, and_false, if_false, if_true, or_self, false_and]
        rw [hsym k i, hsym k q]
  · by_cases hiq : i = q
    · subst hiq
      by_cases hkp : k = p
      · subst hkp
        simp only [hip, hpq, if_true, and_self, and_false, false_and, if_false, false_or]
        exact e4.symm
      · by_cases hkq : k = i
        · subst hkq; simp only [if_true, and_self, hip, if_false, false_and]; exact e2.symm
        · simp only [hip, hkp, hkq, and_false, if_false, if_true, or_self, false_and]
          rw [hsym k p, hsym k i]
    · simp only [hip, hiq, and_false, false_and, if_false, or_self]

/-- The sum of the squares of all entries. -/
def squareMass (w : Matrix (Fin n) (Fin n) ℝ) : ℝ := ∑ i, ∑ j, w i j ^ 2

/-- The sum of the squares of the entries off the diagonal. -/
def offMass (w : Matrix (Fin n) (Fin n) ℝ) : ℝ := ∑ i, ∑ j, if i = j then 0 else w i j ^ 2

theorem squareMass_trace (w : Matrix (Fin n) (Fin n) ℝ) : squareMass w = (wᵀ * w).trace := by
  simp only [squareMass, Matrix.trace, Matrix.diag, Matrix.mul_apply, Matrix.transpose_apply]
  rw [Finset.sum_comm]
  exact Finset.sum_congr rfl fun i _ => Finset.sum_congr rfl fun j _ => by ring

theorem squareMass_orthogonal (w J : Matrix (Fin n) (Fin n) ℝ) (hJ : Jᵀ * J = 1) :
    squareMass (w * J) = squareMass w ∧ squareMass (Jᵀ * w) = squareMass w := by
  have hJ' : J * Jᵀ = 1 := mul_eq_one_comm.1 hJ
  constructor
  · rw [squareMass_trace, squareMass_trace, Matrix.transpose_mul, Matrix.mul_assoc,
      Matrix.trace_mul_comm, Matrix.mul_assoc, Matrix.mul_assoc, hJ', Matrix.mul_one]
  · rw [squareMass_trace, squareMass_trace, Matrix.transpose_mul, Matrix.transpose_transpose,
      Matrix.mul_assoc, ← Matrix.mul_assoc J, hJ', Matrix.one_mul]

theorem offMass_eq (w : Matrix (Fin n) (Fin n) ℝ) : offMass w = squareMass w - ∑ i, w i i ^ 2 := by
  unfold offMass squareMass
  rw [← Finset.sum_sub_distrib]
  refine Finset.sum_congr rfl fun i _ => ?_
  rw [sum_single i (fun j => w i j ^ 2) |>.trans (Finset.sum_congr rfl fun j _ => by
    rfl), ← Finset.sum_sub_distrib]
  refine Finset.sum_congr rfl fun j _ => ?_
  by_cases h : i = j
  · subst h; simp
  · simp [h, Ne.symm h]

theorem offMass_nonneg (w : Matrix (Fin n) (Fin n) ℝ) : 0 ≤ offMass w :=
  Finset.sum_nonneg fun i _ => Finset.sum_nonneg fun j _ => by split_ifs <;> positivity

/-- What every state of the sweeps satisfies. -/
structure JacobiInvariant (A : Matrix (Fin n) (Fin n) ℝ) (s : JacobiState n ℝ) : Prop where
  symm : s.working.IsSymm
  orthogonal : s.vectorsᵀ * s.vectors = 1
  similar : s.vectorsᵀ * A * s.vectors = s.working

theorem jacobi_rotation {A : Matrix (Fin n) (Fin n) ℝ} {s : JacobiState n ℝ}
    (h : JacobiInvariant A s) (p q : Fin n) (hpq : p ≠ q) (hg : s.working p q ≠ 0) (t c sn m : ℝ)
    (ha : jacobiAngle (s.working p p) (s.working q q) (s.working p q) = (t, c, sn)) :
    JacobiInvariant A ⟨rotateWorking s.working p q t c sn, rotateVectors s.vectors p q c sn, m⟩ ∧
    offMass (rotateWorking s.working p q t c sn) = offMass s.working - 2 * s.working p q ^ 2 := by
  obtain ⟨h1, h2, h3⟩ := jacobiAngle_spec _ _ _ _ _ _ hg ha
  have hcs : c * c + sn * sn = 1 := by rw [h2]; linear_combination h3
  have hJ := givens_orthogonal p q hpq c sn hcs
  have hw := rotateWorking_eq s.working h.symm p q hpq t c sn h1 h2 h3
  refine ⟨⟨?_, ?_, ?_⟩, ?_⟩
  · change (rotateWorking s.working p q t c sn).IsSymm
    rw [hw, Matrix.IsSymm, Matrix.transpose_mul, Matrix.transpose_mul, Matrix.transpose_transpose,
      h.symm.eq, Matrix.mul_assoc]
  · change (rotateVectors s.vectors p q c sn)ᵀ * rotateVectors s.vectors p q c sn = 1
    rw [rotateVectors_eq _ _ _ hpq, Matrix.transpose_mul, Matrix.mul_assoc,
      ← Matrix.mul_assoc s.vectorsᵀ, h.orthogonal, Matrix.one_mul, hJ]
  · change (rotateVectors s.vectors p q c sn)ᵀ * A * rotateVectors s.vectors p q c sn =
      rotateWorking s.working p q t c sn
    rw [rotateVectors_eq _ _ _ hpq, Matrix.transpose_mul, hw, ← h.similar]
    simp only [Matrix.mul_assoc]
  · have hsq : squareMass (rotateWorking s.working p q t c sn) = squareMass s.working := by
      rw [hw, (squareMass_orthogonal _ _ hJ).1, (squareMass_orthogonal _ _ hJ).2]
    rw [offMass_eq, offMass_eq, hsq]
    have hdiag : ∑ i, rotateWorking s.working p q t c sn i i ^ 2 =
        ∑ i, s.working i i ^ 2 + 2 * s.working p q ^ 2 := by
      have e : ∀ i, rotateWorking s.working p q t c sn i i ^ 2 = s.working i i ^ 2 +
          ((if i = p then (s.working p p - t * s.working p q) ^ 2 - s.working p p ^ 2 else 0) +
          if i = q then (s.working q q + t * s.working p q) ^ 2 - s.working q q ^ 2 else 0) := by
        intro i
        unfold rotateWorking
        by_cases hi : i = p
        · subst hi; simp [hpq]
        · by_cases hi' : i = q
          · subst hi'; simp [hi]
          · simp [hi, hi']
      rw [Finset.sum_congr rfl fun i _ => e i, Finset.sum_add_distrib, Finset.sum_add_distrib]
      simp only [Finset.sum_ite_eq', Finset.mem_univ, if_true]
      linear_combination 2 * s.working p q * h1
    rw [hdiag]; ring

/-- One sweep, or part of one. -/
theorem jacobi_fold {A : Matrix (Fin n) (Fin n) ℝ} {thr : ℝ} (hthr : 0 ≤ thr) :
    ∀ (l : List (Fin n × Fin n)) (s : JacobiState n ℝ), (∀ x ∈ l, x.1 ≠ x.2) → JacobiInvariant A s →
      let s' := l.foldl (jacobiPair thr) s
      JacobiInvariant A s' ∧ s.offMax ≤ s'.offMax ∧
      ((s'.working = s.working ∧ ∀ x ∈ l, |s.working x.1 x.2| ≤ thr) ∧
          (s.offMax ≤ thr → s'.offMax ≤ thr) ∨
        thr < s'.offMax ∧ offMass s'.working ≤ offMass s.working - 2 * thr ^ 2) := by
  intro l
  induction l with
  | nil => intro s _ h; simp [h]
  | cons x l ih =>
    intro s hl h
    simp only [List.foldl_cons]
    obtain ⟨p, q⟩ := x
    have hpq : p ≠ q := hl (p, q) (by simp)
    by_cases hoff : |s.working p q| ≤ thr
    · have hp : jacobiPair thr s (p, q) = { s with offMax := max s.offMax |s.working p q| } := by
        simp only [jacobiPair, real_abs, if_pos hoff]
      rw [hp]
      obtain ⟨i1, i2, i3⟩ := ih { s with offMax := max s.offMax |s.working p q| }
        (fun x hx => hl x (by simp [hx])) ⟨h.symm, h.orthogonal, h.similar⟩
      refine ⟨i1, (le_max_left _ _).trans i2, ?_⟩
      rcases i3 with ⟨⟨j1, j2⟩, j3⟩ | i3
      · left
        refine ⟨⟨j1, ?_⟩, fun h => j3 (max_le h hoff)⟩
        intro x hx
        rcases List.mem_cons.1 hx with rfl | hx
        · exact hoff
        · exact j2 x hx
      · right; exact i3
    · have hg : s.working p q ≠ 0 := by
        intro h0; rw [h0, abs_zero] at hoff; exact hoff hthr
      obtain ⟨⟨t, c, sn⟩, ha⟩ : ∃ a, jacobiAngle (s.working p p) (s.working q q) (s.working p q) = a :=
        ⟨_, rfl⟩
      have hp : jacobiPair thr s (p, q) = ⟨rotateWorking s.working p q t c sn,
          rotateVectors s.vectors p q c sn, max s.offMax |s.working p q|⟩ := by
        simp only [jacobiPair, real_abs, if_neg hoff, ha]
      rw [hp]
      obtain ⟨k1, k2⟩ := jacobi_rotation h p q hpq hg t c sn (max s.offMax |s.working p q|) ha
      obtain ⟨i1, i2, i3⟩ := ih _ (fun x hx => hl x (by simp [hx])) k1
      push Not at hoff
      have hsq : thr ^ 2 ≤ s.working p q ^ 2 := by
        rw [← sq_abs (s.working p q)]; exact pow_le_pow_left₀ hthr hoff.le 2
      refine ⟨i1, (le_max_left _ _).trans i2, ?_⟩
      right
      refine ⟨lt_of_lt_of_le (lt_of_lt_of_le hoff (le_max_right _ _)) i2, ?_⟩
      rcases i3 with ⟨⟨j1, -⟩, -⟩ | ⟨-, j⟩
      · rw [j1]; simp only; rw [k2]; linarith
      · simp only at j; rw [k2] at j
        have := sq_nonneg thr
        linarith

theorem mem_jacobiPairs (p q : Fin n) : (p, q) ∈ jacobiPairs n ↔ p < q := by
  simp [jacobiPairs]

theorem jacobiSweeps_spec {A : Matrix (Fin n) (Fin n) ℝ} {thr : ℝ} (hthr : 0 ≤ thr) :
    ∀ (k : ℕ) (s : JacobiState n ℝ), JacobiInvariant A s →
      let s' := jacobiSweeps thr k s
      JacobiInvariant A s' ∧ offMass s'.working ≤ offMass s.working ∧
      ((∀ i j, i ≠ j → |s'.working i j| ≤ thr) ∨
        offMass s'.working ≤ offMass s.working - 2 * k * thr ^ 2) := by
  intro k
  induction k with
  | zero => intro s h; simp [jacobiSweeps, h]
  | succ k ih =>
    intro s h
    simp only [jacobiSweeps]
    have hl : ∀ x ∈ jacobiPairs n, x.1 ≠ x.2 := by
      rintro ⟨p, q⟩ hx
      exact ((mem_jacobiPairs p q).1 hx).ne
    obtain ⟨h1, -, h3⟩ := jacobi_fold hthr (jacobiPairs n) { s with offMax := 0 } hl
      ⟨h.symm, h.orthogonal, h.similar⟩
    set s1 := (jacobiPairs n).foldl (jacobiPair thr) { s with offMax := 0 } with hs1
    rcases h3 with ⟨⟨j1, j2⟩, j3⟩ | ⟨j1, j2⟩
    · rw [if_pos (j3 hthr)]
      refine ⟨h1, by rw [j1], Or.inl ?_⟩
      have hlt : ∀ i j, i < j → |s1.working i j| ≤ thr := fun i j hij => by
        rw [j1]; exact j2 (i, j) ((mem_jacobiPairs i j).2 hij)
      intro i j hij
      rcases lt_or_gt_of_ne hij with h | h
      · exact hlt i j h
      · rw [h1.symm.apply]; exact hlt j i h
    · rw [if_neg (not_le.2 j1)]
      simp only at j2
      obtain ⟨i1, i2, i3⟩ := ih s1 h1
      have := sq_nonneg thr
      refine ⟨i1, by linarith, ?_⟩
      rcases i3 with i3 | i3
      · exact Or.inl i3
      · right; push_cast; linarith

/-! ### Sorting and signs -/

theorem topFrom_spec (v : Fin n → ℝ) (k : Fin n) :
    k ≤ topFrom v k ∧ ∀ j, k ≤ j → v j ≤ v (topFrom v k) := by
  have key : ∀ (l : List (Fin n)) (top : Fin n), k ≤ top →
      let t := l.foldl (fun top j => if k < j ∧ v top < v j then j else top) top
      k ≤ t ∧ v top ≤ v t ∧ ∀ j ∈ l, k < j → v j ≤ v t := by
    intro l
    induction l with
    | nil => intro top h; simp [h]
    | cons i l ih =>
      intro top h
      simp only [List.foldl_cons]
      by_cases hc : k < i ∧ v top < v i
      · rw [if_pos hc]
        obtain ⟨g1, g2, g3⟩ := ih i hc.1.le
        refine ⟨g1, hc.2.le.trans g2, fun j hj hk => ?_⟩
        rcases List.mem_cons.1 hj with rfl | hj
        · exact g2
        · exact g3 j hj hk
      · rw [if_neg hc]
        obtain ⟨g1, g2, g3⟩ := ih top h
        refine ⟨g1, g2, fun j hj hk => ?_⟩
        rcases List.mem_cons.1 hj with rfl | hj
        · exact (not_lt.1 fun h' => hc ⟨hk, h'⟩).trans g2
        · exact g3 j hj hk
  obtain ⟨h1, h2, h3⟩ := key (List.finRange n) k le_rfl
  refine ⟨h1, fun j hj => ?_⟩
  rcases hj.eq_or_lt with rfl | hj
  · exact h2
  · exact h3 j (List.mem_finRange j) hj

theorem sort_spec (values : Fin n → ℝ) (V : Matrix (Fin n) (Fin n) ℝ) :
    ∀ (post pre : List (Fin n)) (s : (Fin n → ℝ) × Matrix (Fin n) (Fin n) ℝ),
      List.finRange n = pre ++ post →
      (∃ σ : Equiv.Perm (Fin n), (∀ i, s.1 i = values (σ i)) ∧ ∀ i c, s.2 i c = V i (σ c)) →
      (∀ i j, i ∈ pre → i ≤ j → s.1 j ≤ s.1 i) →
      let t := post.foldl sortStep s
      (∃ σ : Equiv.Perm (Fin n), (∀ i, t.1 i = values (σ i)) ∧ ∀ i c, t.2 i c = V i (σ c)) ∧
      ∀ i j, i ≤ j → t.1 j ≤ t.1 i := by
  intro post
  induction post with
  | nil =>
    intro pre s hl h1 h2
    refine ⟨h1, fun i j hij => h2 i j ?_ hij⟩
    rw [List.append_nil] at hl
    rw [← hl]; exact List.mem_finRange i
  | cons k post ih =>
    intro pre s hl ⟨σ, h1, h1'⟩ h2
    simp only [List.foldl_cons]
    obtain ⟨-, hpre, -⟩ := finRange_split hl
    obtain ⟨ht1, ht2⟩ := topFrom_spec s.1 k
    have hstep : (sortStep s k).1 = (fun i => s.1 (Equiv.swap k (topFrom s.1 k) i)) ∧
        (sortStep s k).2 = fun i c => s.2 i (Equiv.swap k (topFrom s.1 k) c) := by
      unfold sortStep
      by_cases h : topFrom s.1 k = k
      · simp [h]
      · dsimp only; rw [if_pos h]; exact ⟨rfl, rfl⟩
    set top := topFrom s.1 k with htop
    have hge : ∀ j, k ≤ j → k ≤ Equiv.swap k top j := by
      intro j hj
      rcases eq_or_ne j k with rfl | h3
      · rw [Equiv.swap_apply_left]; exact ht1
      · rcases eq_or_ne j top with rfl | h4
        · rw [Equiv.swap_apply_right]
        · rw [Equiv.swap_apply_of_ne_of_ne h3 h4]; exact hj
    refine ih (pre ++ [k]) (sortStep s k) (by rw [hl]; simp) ⟨σ * Equiv.swap k top, ?_, ?_⟩ ?_
    · intro i; rw [hstep.1]; simp [h1]
    · intro i c; rw [hstep.2]; simp [h1']
    · intro i j hi hij
      rw [hstep.1]
      simp only
      rcases List.mem_append.1 hi with hi | hi
      · have hik : i < k := (hpre i).1 hi
        rw [Equiv.swap_apply_of_ne_of_ne hik.ne (hik.trans_le ht1).ne]
        by_cases hjk : j < k
        · rw [Equiv.swap_apply_of_ne_of_ne hjk.ne (hjk.trans_le ht1).ne]
          exact h2 i j hi hij
        · exact h2 i _ hi (hik.le.trans (hge j (not_lt.1 hjk)))
      · rw [List.mem_singleton] at hi
        subst hi
        rw [Equiv.swap_apply_left]
        exact ht2 _ (hge j hij)

theorem largestRow_spec (v : Matrix (Fin n) (Fin n) ℝ) (k i : Fin n) :
    |v i k| ≤ |v (largestRow v k) k| := by
  have key : ∀ (l : List (Fin n)) (s : ℝ × Fin n), s.1 ≤ |v s.2 k| →
      let t := l.foldl (fun (s : ℝ × Fin n) i =>
        if s.1 < Fns.abs (v i k) then (Fns.abs (v i k), i) else s) s
      t.1 ≤ |v t.2 k| ∧ s.1 ≤ t.1 ∧ ∀ i ∈ l, |v i k| ≤ t.1 := by
    intro l
    induction l with
    | nil => intro s h; simp [h]
    | cons i l ih =>
      intro s h
      simp only [List.foldl_cons, real_abs]
      by_cases hc : s.1 < |v i k|
      · rw [if_pos hc]
        obtain ⟨g1, g2, g3⟩ := ih (|v i k|, i) le_rfl
        refine ⟨g1, hc.le.trans g2, fun j hj => ?_⟩
        rcases List.mem_cons.1 hj with rfl | hj
        · exact g2
        · exact g3 j hj
      · rw [if_neg hc]
        obtain ⟨g1, g2, g3⟩ := ih s h
        refine ⟨g1, g2, fun j hj => ?_⟩
        rcases List.mem_cons.1 hj with rfl | hj
        · exact (not_lt.1 hc).trans g2
        · exact g3 j hj
  obtain ⟨h1, -, h3⟩ := key (List.finRange n) (0, ⟨0, k.pos⟩) (abs_nonneg _)
  exact (h3 i (List.mem_finRange i)).trans h1

theorem fixSigns_spec (v : Matrix (Fin n) (Fin n) ℝ) :
    ∃ e : Fin n → ℝ, (∀ k, e k * e k = 1) ∧ (∀ i k, fixSigns v i k = e k * v i k) ∧
      ∀ k, ∃ r, ∀ i, |fixSigns v i k| ≤ fixSigns v r k := by
  refine ⟨fun k => if v (largestRow v k) k < 0 then -1 else 1, fun k => ?_, fun i k => ?_,
    fun k => ⟨largestRow v k, fun i => ?_⟩⟩
  · dsimp only; split_ifs <;> norm_num
  · unfold fixSigns; dsimp only; split_ifs <;> simp
  · have := largestRow_spec v k i
    unfold fixSigns
    split_ifs with h
    · rw [abs_neg]; rwa [abs_of_neg h] at this
    · rwa [abs_of_nonneg (not_lt.1 h)] at this

end Multicalc
