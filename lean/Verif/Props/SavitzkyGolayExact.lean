import Verif.Model.SavitzkyGolaySolver
import Verif.Props.SavitzkyGolay
import Verif.Props.Svd

/-!
C26: the Savitzky–Golay filter together with the crate's own pseudo-inverse, for fits by a constant
and for centred fits by a line.
-/

namespace Multicalc
open Matrix
variable {m n W : ℕ}

/-- The pseudo-inverse of a matrix with perpendicular columns of comparable lengths. -/
theorem pinv_orthogonal_columns (A : Matrix (Fin m) (Fin n) ℝ) (tall : n ≤ m)
    (h : ∀ p q, p ≠ q → ∑ i, A i p * A i q = 0)
    (hgap : ∀ p q, (m : ℝ) * (1 / 2 ^ 52) * √(∑ i, A i p ^ 2) < √(∑ i, A i q ^ 2)) :
    ∃ X, pseudoInverse A = .ok X ∧ ∀ i j, X i j = A j i / ∑ k, A k i ^ 2 := by
  obtain ⟨d, hd, horth, σ, hσ⟩ := svd_orthogonal_columns A tall h
  have hpos : ∀ q, 0 < ∑ i, A i q ^ 2 := by
    intro q
    have h0 : 0 ≤ (m : ℝ) * (1 / 2 ^ 52) * √(∑ i, A i q ^ 2) := by positivity
    exact Real.sqrt_pos.1 (h0.trans_lt (hgap q q))
  have hg : ∀ k, d.singularValues k ≤ d.defaultTol → d.singularValues k = 0 := by
    intro k hk
    exfalso
    have hn : n ≠ 0 := fun h0 => by subst h0; exact k.elim0
    have ht : d.defaultTol = (m : ℝ) * (1 / 2 ^ 52) * d.singularValues ⟨0, by omega⟩ := by
      unfold Svd.defaultTol
      rw [dif_neg hn, max_eq_left tall]
      rfl
    rw [ht, hσ, hσ] at hk
    exact absurd hk (not_le.2 (hgap _ _))
  have hmp := (svd_solve A d hd horth hg 0).1
  have hn : Aᵀ * (A * d.pseudoInverse) = Aᵀ := by
    conv_lhs => rw [← hmp.range, ← transpose_mul, hmp.left]
  have hD : Aᵀ * A = diagonal fun i => ∑ k, A k i ^ 2 := by
    ext p q
    rw [mul_apply, diagonal_apply]
    simp only [transpose_apply]
    split_ifs with hpq
    · subst hpq; exact Finset.sum_congr rfl fun i _ => (sq _).symm
    · exact h p q hpq
  refine ⟨d.pseudoInverse, ?_, fun i j => ?_⟩
  · unfold pseudoInverse
    rw [if_pos tall, hd]
  · rw [← Matrix.mul_assoc, hD] at hn
    have := congrFun (congrFun hn i) j
    rw [diagonal_mul, transpose_apply] at this
    rw [eq_div_iff (hpos i).ne', mul_comm]
    exact this

theorem gap_of_sq {c a b : ℝ} (hc : 0 ≤ c) (ha : 0 ≤ a) (h : c ^ 2 * a < b) : c * √a < √b := by
  have : c * √a = √(c ^ 2 * a) := by
    rw [Real.sqrt_mul (sq_nonneg c), Real.sqrt_sq hc]
  rw [this]
  exact Real.sqrt_lt_sqrt (by positivity) h

/-- What a filter with known weights reports. -/
theorem sg_reports (f : SavitzkyGolay W ℝ) (hW : 0 < W) (hr : f.ring = Ring.empty W) (xs : List ℝ)
    (hxs : xs ≠ []) :
    (sgRun f xs).value = ∑ j : Fin W, f.smoothing j * (paddedWindow W xs).getD j 0 ∧
    (sgRun f xs).firstDerivative = ∑ j : Fin W, f.first j * (paddedWindow W xs).getD j 0 ∧
    (sgRun f xs).secondDerivative = ∑ j : Fin W, f.second j * (paddedWindow W xs).getD j 0 := by
  rw [sgRun_ring, hr]
  exact ⟨weightedSum_eq hW xs hxs _, weightedSum_eq hW xs hxs _, weightedSum_eq hW xs hxs _⟩

/-- C26. With the crate's own pseudo-inverse: a fit by a constant is accepted for every window shorter
than 2⁵², at any read position, and reports the mean of the last `W` samples (the first sample standing
in for those before it), with no slope and no bend, whatever the samples. -/
theorem sg_constant_fit (dt : ℝ) (hdt : 0 < dt) (r : ℕ) (hW : 0 < W) (hW' : W < 2 ^ 52) :
    ∃ f : SavitzkyGolay W ℝ, SavitzkyGolay.build (P := 1) sgPseudoInverse dt r = .ok f ∧
      ∀ xs : List ℝ, xs ≠ [] →
        (sgRun f xs).value = (∑ j : Fin W, (paddedWindow W xs).getD j 0) / W ∧
        (sgRun f xs).firstDerivative = 0 ∧ (sgRun f xs).secondDerivative = 0 := by
  have hA : ∀ (i : Fin W) (j : Fin 1), (sgFit W 1 r i j : ℝ) = 1 := by
    intro i j
    have : ((j : ℕ) : ℤ) = 0 := by omega
    simp [sgFit, powi_eq_zpow]
  have hWr : (0 : ℝ) < W := by exact_mod_cast hW
  have hWr' : (W : ℝ) < 2 ^ 52 := by exact_mod_cast hW'
  obtain ⟨X, hX, hXe⟩ := pinv_orthogonal_columns (sgFit W 1 r : Matrix (Fin W) (Fin 1) ℝ) hW
    (fun p q hpq => absurd (Subsingleton.elim p q) hpq) (by
      intro p q
      have e : ∀ p, ∑ i, (sgFit W 1 r i p : ℝ) ^ 2 = W := by intro p; simp [hA]
      rw [e, e]
      have h1 : (W : ℝ) * (1 / 2 ^ 52) < 1 := by
        rw [mul_one_div, div_lt_one (by positivity)]; exact hWr'
      have h2 : 0 < √(W : ℝ) := Real.sqrt_pos.2 hWr
      nlinarith)
  have hs : sgPseudoInverse (sgFit W 1 r : Fin W → Fin 1 → ℝ) = .ok X := by
    unfold sgPseudoInverse; rw [hX]
  have hb : ∃ f : SavitzkyGolay W ℝ, SavitzkyGolay.build (P := 1) sgPseudoInverse dt r = .ok f ∧
      f.ring = Ring.empty W ∧ (∀ j, f.smoothing j = 1 / W) ∧ (∀ j, f.first j = 0) ∧ ∀ j, f.second j = 0 := by
    unfold SavitzkyGolay.build
    simp only [Fns.isFinite, Bool.not_true, Bool.false_eq_true, if_false, if_neg (not_le.2 hdt)]
    rw [if_neg (by omega), if_neg (by omega), hs]
    refine ⟨_, rfl, rfl, fun j => ?_, fun j => ?_, fun j => ?_⟩
    · show (if h : 0 < 1 then X ⟨0, h⟩ j else 0) = _
      rw [dif_pos (by norm_num), hXe]; simp [hA]
    · simp
    · simp
  obtain ⟨f, hf, h0, h1, h2, h3⟩ := hb
  refine ⟨f, hf, fun xs hxs => ?_⟩
  obtain ⟨e1, e2, e3⟩ := sg_reports f hW h0 xs hxs
  rw [e1, e2, e3]
  refine ⟨?_, by simp [h2], by simp [h3]⟩
  simp only [h1]
  rw [← Finset.mul_sum]; ring

/-- The mean of a window of five, slid over seven samples. -/
example : ∃ f : SavitzkyGolay 5 ℝ, SavitzkyGolay.build (P := 1) sgPseudoInverse (1 / 10) 2 = .ok f :=
  let ⟨f, hf, _⟩ := sg_constant_fit (W := 5) (1 / 10) (by norm_num) 2 (by norm_num) (by norm_num)
  ⟨f, hf⟩

theorem centred_sum (r : ℕ) : ∑ j : Fin (2 * r + 1), ((j : ℝ) - r) = 0 := by
  rw [Finset.sum_sub_distrib, Finset.sum_const, Fin.sum_univ_eq_sum_range (fun j => (j : ℝ))]
  have h := Finset.sum_range_id_mul_two (2 * r + 1)
  have h' : (∑ i ∈ Finset.range (2 * r + 1), (i : ℝ)) * 2 = ((2 * r + 1 : ℕ) : ℝ) * ((2 * r + 1 - 1 : ℕ) : ℝ) := by
    rw [← Nat.cast_mul, ← h]; push_cast; ring
  rw [Nat.add_sub_cancel] at h'
  push_cast at h'
  simp only [Finset.card_univ, Fintype.card_fin, nsmul_eq_mul]
  push_cast
  linarith

/-- C26. With the crate's own pseudo-inverse: a centred fit by a line is accepted for every odd window
from three up to 2²⁶, and reports the mean of the window and the least-squares slope through it,
whatever the samples. -/
theorem sg_line_fit (dt : ℝ) (hdt : 0 < dt) (r : ℕ) (hr : 1 ≤ r) (hr' : 2 * r + 1 < 2 ^ 26) :
    ∃ f : SavitzkyGolay (2 * r + 1) ℝ, SavitzkyGolay.centered (P := 2) sgPseudoInverse dt = .ok f ∧
      f.delay = r * dt ∧
      ∀ xs : List ℝ, xs ≠ [] →
        (sgRun f xs).value = (∑ j : Fin (2 * r + 1), (paddedWindow (2 * r + 1) xs).getD j 0) / (2 * r + 1) ∧
        (sgRun f xs).firstDerivative =
          (∑ j : Fin (2 * r + 1), ((j : ℝ) - r) * dt * (paddedWindow (2 * r + 1) xs).getD j 0) /
            ∑ j : Fin (2 * r + 1), (((j : ℝ) - r) * dt) ^ 2 ∧
        (sgRun f xs).secondDerivative = 0 := by
  have hA0 : ∀ i : Fin (2 * r + 1), (sgFit (2 * r + 1) 2 r i 0 : ℝ) = 1 := by
    intro i; simp [sgFit, powi_eq_zpow]
  have hA1 : ∀ i : Fin (2 * r + 1), (sgFit (2 * r + 1) 2 r i 1 : ℝ) = (i : ℝ) - r := by
    intro i; simp [sgFit, powi_eq_zpow]
  have hsum := centred_sum r
  set S : ℝ := ∑ j : Fin (2 * r + 1), ((j : ℝ) - r) ^ 2 with hS
  set w : ℝ := ((2 * r + 1 : ℕ) : ℝ) with hw
  have hw1 : 1 ≤ w := by rw [hw]; push_cast; linarith [(Nat.cast_nonneg r : (0 : ℝ) ≤ r)]
  have hw2 : w < 2 ^ 26 := by rw [hw]; exact_mod_cast hr'
  have hr0 : (1 : ℝ) ≤ r := by exact_mod_cast hr
  have hS1 : 1 ≤ S := by
    have : ((((0 : Fin (2 * r + 1)) : ℕ) : ℝ) - r) ^ 2 ≤ S :=
      Finset.single_le_sum (f := fun j : Fin (2 * r + 1) => ((j : ℝ) - r) ^ 2)
        (fun j _ => sq_nonneg _) (Finset.mem_univ 0)
    simp only [Fin.coe_ofNat_eq_mod, Nat.zero_mod, Nat.cast_zero] at this
    nlinarith
  have hS2 : S ≤ w * w ^ 2 := by
    have : S ≤ ∑ _j : Fin (2 * r + 1), w ^ 2 := by
      refine Finset.sum_le_sum fun j _ => ?_
      have h1 : ((j : ℕ) : ℝ) ≤ 2 * r := by exact_mod_cast Nat.lt_succ_iff.1 j.isLt
      have h2 : (0 : ℝ) ≤ ((j : ℕ) : ℝ) := Nat.cast_nonneg _
      have h3 : w = 2 * r + 1 := by rw [hw]; push_cast; ring
      rw [h3]; nlinarith
    rw [Finset.sum_const, Finset.card_univ, Fintype.card_fin, nsmul_eq_mul] at this
    exact this
  have e0 : ∑ i, (sgFit (2 * r + 1) 2 r i 0 : ℝ) ^ 2 = w := by simp [hA0, hw]
  have e1 : ∑ i, (sgFit (2 * r + 1) 2 r i 1 : ℝ) ^ 2 = S := by simp [hA1, hS]
  have two : ∀ p : Fin 2, p = 0 ∨ p = 1 := by decide
  have hc : 0 ≤ w * (1 / 2 ^ 52) := by positivity
  have hw3 : w ^ 4 < 2 ^ 104 := by
    have : w ^ 4 < (2 ^ 26) ^ 4 := pow_lt_pow_left₀ hw2 (by linarith) (by norm_num)
    calc w ^ 4 < _ := this
      _ = 2 ^ 104 := by norm_num
  have hw4 : w ^ 2 ≤ w ^ 4 := pow_le_pow_right₀ hw1 (by norm_num)
  have hw5 : w ^ 3 ≤ w ^ 4 := pow_le_pow_right₀ hw1 (by norm_num)
  have hc2 : (w * (1 / 2 ^ 52)) ^ 2 = w ^ 2 / 2 ^ 104 := by rw [mul_pow, div_pow, ← pow_mul]; ring
  have scale : ∀ {x y : ℝ}, w ^ 2 * x < 2 ^ 104 * y → (w * (1 / 2 ^ 52)) ^ 2 * x < y := by
    intro x y h
    rw [hc2, div_mul_eq_mul_div, div_lt_iff₀ (by positivity)]
    linarith
  obtain ⟨X, hX, hXe⟩ := pinv_orthogonal_columns (sgFit (2 * r + 1) 2 r : Matrix (Fin (2 * r + 1)) (Fin 2) ℝ)
    (by omega) (by
      intro p q hpq
      rcases two p with rfl | rfl <;> rcases two q with rfl | rfl
      · exact absurd rfl hpq
      · simpa [hA0, hA1] using hsum
      · simpa [hA0, hA1] using hsum
      · exact absurd rfl hpq) (by
      intro p q
      rcases two p with rfl | rfl <;> rcases two q with rfl | rfl
      · rw [e0]; exact gap_of_sq hc (by linarith) (scale (by nlinarith))
      · rw [e0, e1]; exact gap_of_sq hc (by linarith) (scale (by nlinarith))
      · rw [e0, e1]; refine gap_of_sq hc (by linarith) (scale ?_)
        have : w ^ 2 * S ≤ w ^ 2 * (w * w ^ 2) := by gcongr
        nlinarith
      · rw [e1]; exact gap_of_sq hc (by linarith) (scale (by nlinarith)))
  have hs : sgPseudoInverse (sgFit (2 * r + 1) 2 r : Fin (2 * r + 1) → Fin 2 → ℝ) = .ok X := by
    unfold sgPseudoInverse; rw [hX]
  have hb : ∃ f : SavitzkyGolay (2 * r + 1) ℝ, SavitzkyGolay.centered (P := 2) sgPseudoInverse dt = .ok f ∧
      f.delay = r * dt ∧ f.ring = Ring.empty (2 * r + 1) ∧ (∀ j, f.smoothing j = 1 / w) ∧
      (∀ j, f.first j = ((j : ℝ) - r) / S / dt) ∧ ∀ j, f.second j = 0 := by
    unfold SavitzkyGolay.centered SavitzkyGolay.build
    rw [if_neg (by omega), show (2 * r + 1 - 1) / 2 = r by omega]
    simp only [Fns.isFinite, Bool.not_true, Bool.false_eq_true, if_false, if_neg (not_le.2 hdt)]
    rw [if_neg (by omega), if_neg (by omega), hs]
    refine ⟨_, rfl, ?_, rfl, fun j => ?_, fun j => ?_, fun j => ?_⟩
    · show ((2 * r + 1 - 1 - r : ℕ) : ℝ) * dt = _
      rw [show 2 * r + 1 - 1 - r = r by omega]
    · show (if h : 0 < 2 then X ⟨0, h⟩ j else 0) = _
      rw [dif_pos (by norm_num), hXe]
      show (sgFit (2 * r + 1) 2 r j 0 : ℝ) / ∑ k, (sgFit (2 * r + 1) 2 r k 0 : ℝ) ^ 2 = _
      rw [e0, hA0]
    · show (if h : 1 < 2 then X ⟨1, h⟩ j / dt else 0) = _
      rw [dif_pos (by norm_num), hXe]
      show (sgFit (2 * r + 1) 2 r j 1 : ℝ) / (∑ k, (sgFit (2 * r + 1) 2 r k 1 : ℝ) ^ 2) / dt = _
      rw [e1, hA1]
    · simp
  obtain ⟨f, hf, hdl, h0, h1, h2, h3⟩ := hb
  refine ⟨f, hf, hdl, fun xs hxs => ?_⟩
  obtain ⟨v1, v2, v3⟩ := sg_reports f (by omega) h0 xs hxs
  rw [v1, v2, v3]
  refine ⟨?_, ?_, by simp [h3]⟩
  · simp only [h1]
    rw [← Finset.mul_sum, hw]
    push_cast
    ring
  · have eS : ∑ j : Fin (2 * r + 1), (((j : ℝ) - r) * dt) ^ 2 = S * dt ^ 2 := by
      rw [hS, Finset.sum_mul]
      exact Finset.sum_congr rfl fun j _ => by ring
    rw [eS, Finset.sum_div]
    refine Finset.sum_congr rfl fun j _ => ?_
    rw [h2]
    have : S ≠ 0 := by linarith
    field_simp

/-- A line through a window of five. -/
example : ∃ f : SavitzkyGolay (2 * 2 + 1) ℝ, SavitzkyGolay.centered (P := 2) sgPseudoInverse (1 / 10) = .ok f :=
  let ⟨f, hf, _⟩ := sg_line_fit (1 / 10) (by norm_num) 2 (by norm_num) (by norm_num)
  ⟨f, hf⟩

/-- C26. `reset` gives back the filter as it was built, whatever was fed in between: weights and delay
are kept, and the next sample fills the window again. -/
theorem sg_reset {P : ℕ} (pinv : (Fin W → Fin P → ℝ) → Except SignalError (Fin P → Fin W → ℝ)) (dt : ℝ) (r : ℕ)
    (f : SavitzkyGolay W ℝ) (hf : SavitzkyGolay.build pinv dt r = .ok f) (xs : List ℝ) :
    (sgRun f xs).reset = f := by
  have h : f.ring = Ring.empty W := by
    unfold SavitzkyGolay.build at hf
    iterate 4
      split at hf
      · cases hf
    split at hf
    · cases hf
    · cases hf; rfl
  rw [sgRun_ring, SavitzkyGolay.reset, ← h]

end Multicalc
