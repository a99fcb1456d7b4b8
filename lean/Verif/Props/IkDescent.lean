import Verif.Props.IkNotBest

/-!
# One iteration of the inverse kinematics reduces the task error to first order (C57)
-/

namespace Multicalc

open Matrix KinematicTree

variable {maxJoints maxConfig : ℕ}

theorem dot_self_nonneg {n : ℕ} (x : Fin n → ℝ) : 0 ≤ x ⬝ᵥ x := Finset.sum_nonneg fun i _ => mul_self_nonneg _

/-- The least value of the damped objective is below that at rest unless the error is out of the joints' reach. -/
theorem damped_gain {m n : ℕ} (J : Matrix (Fin m) (Fin n) ℝ) (w : Fin n → ℝ) (hw : ∀ k, 0 < w k) (c : ℝ) (hc : 0 ≤ c)
    (e : Fin m → ℝ) (hg : Jᵀ *ᵥ e ≠ 0) :
    ∃ x : Fin n → ℝ, (J *ᵥ x - e) ⬝ᵥ (J *ᵥ x - e) + c * ∑ k, w k * x k ^ 2 < e ⬝ᵥ e := by
  obtain ⟨g, hgd⟩ : ∃ g, g = Jᵀ *ᵥ e := ⟨_, rfl⟩
  rw [← hgd] at hg
  have hG : 0 < g ⬝ᵥ g := by
    rcases (dot_self_nonneg g).lt_or_eq with h | h
    · exact h
    · refine absurd (funext fun i => ?_) hg
      have := (Finset.sum_eq_zero_iff_of_nonneg fun i _ => mul_self_nonneg (g i)).1 h.symm i (Finset.mem_univ i)
      exact mul_self_eq_zero.1 this
  obtain ⟨A, hA⟩ : ∃ A, A = (J *ᵥ g) ⬝ᵥ (J *ᵥ g) + c * ∑ k, w k * g k ^ 2 := ⟨_, rfl⟩
  have hA0 : 0 ≤ A := by
    rw [hA]
    exact add_nonneg (dot_self_nonneg _)
      (mul_nonneg hc (Finset.sum_nonneg fun k _ => mul_nonneg (hw k).le (sq_nonneg _)))
  obtain ⟨τ, hτ⟩ : ∃ τ, τ = (g ⬝ᵥ g) / (A + 1) := ⟨_, rfl⟩
  have hτ0 : 0 < τ := by rw [hτ]; positivity
  have hτA : τ * A ≤ g ⬝ᵥ g := by
    rw [hτ, div_mul_eq_mul_div, div_le_iff₀ (by linarith)]
    nlinarith
  refine ⟨τ • g, ?_⟩
  have e1 : (J *ᵥ g) ⬝ᵥ e = g ⬝ᵥ g := by
    conv_rhs => rw [hgd]
    rw [← hgd, dotProduct_comm, Matrix.dotProduct_mulVec, ← Matrix.mulVec_transpose, ← hgd]
  have e2 : ∑ k, w k * (τ • g) k ^ 2 = τ ^ 2 * ∑ k, w k * g k ^ 2 := by
    rw [Finset.mul_sum]
    exact Finset.sum_congr rfl fun k _ => by simp only [Pi.smul_apply, smul_eq_mul]; ring
  have e3 : (J *ᵥ (τ • g) - e) ⬝ᵥ (J *ᵥ (τ • g) - e)
      = τ ^ 2 * ((J *ᵥ g) ⬝ᵥ (J *ᵥ g)) - 2 * τ * (g ⬝ᵥ g) + e ⬝ᵥ e := by
    rw [Matrix.mulVec_smul, sub_dotProduct, dotProduct_sub, dotProduct_sub, smul_dotProduct, smul_dotProduct,
      dotProduct_smul, dotProduct_comm e (τ • _), smul_dotProduct, e1]
    simp only [smul_eq_mul]
    ring
  rw [e2, e3]
  have : τ ^ 2 * A = τ * (τ * A) := by ring
  have h1 : τ * (τ * A) ≤ τ * (g ⬝ᵥ g) := mul_le_mul_of_nonneg_left hτA hτ0.le
  have h2 := mul_pos hτ0 hG
  rw [hA] at this h1
  nlinarith

theorem shortened_convex {m : ℕ} (p e : Fin m → ℝ) (k : ℝ) (h0 : 0 ≤ k) (h1 : k ≤ 1) :
    (k • p - e) ⬝ᵥ (k • p - e) ≤ k * ((p - e) ⬝ᵥ (p - e)) + (1 - k) * (e ⬝ᵥ e) := by
  simp only [dotProduct, Finset.mul_sum, ← Finset.sum_add_distrib]
  refine Finset.sum_le_sum fun i _ => ?_
  simp only [Pi.sub_apply, Pi.smul_apply, smul_eq_mul]
  nlinarith [mul_nonneg (mul_nonneg h0 (sub_nonneg.2 h1)) (sq_nonneg (p i))]

theorem maskedStep_slot {t : KinematicTree maxJoints maxConfig ℝ} (hb : Built t) (hf : t.hasFloatingBase = false)
    (step : Fin maxConfig → ℝ) (i : Fin maxConfig) :
    (maskedStep step t i = step i) ∨ (maskedStep step t i = 0 ∧
      (t.len ≤ i.val ∨ ∃ j, t.joint i = some j ∧ j.kind = .fixed)) := by
  classical
  have hm : maskedStep step t i = if i.val < t.len ∧ ∃ j, t.joint i = some j ∧ j.kind ≠ .fixed then step i else 0 := by
    unfold maskedStep
    suffices key : ∀ n ≤ t.len, (List.range n).foldl _ (fun _ => 0) i
        = if i.val < n ∧ ∃ j, t.joint i = some j ∧ j.kind ≠ .fixed then step i else 0 by
      exact key t.len le_rfl
    intro n
    induction n with
    | zero => intro _; simp
    | succ n ih =>
      intro hn
      rw [List.range_succ, List.foldl_append, List.foldl_cons, List.foldl_nil]
      obtain ⟨j, hj, hk, -, hv, -⟩ := plain_joint hb hf (show n < t.len by omega)
      have ih := ih (by omega)
      generalize (List.range n).foldl _ _ = d at ih ⊢
      rw [hj, hv]
      dsimp only
      rw [if_neg hk]
      by_cases hin : i.val = n
      · rw [hin, hj]
        by_cases hfix : j.kind = .fixed
        · rw [if_pos hfix, ih, if_neg (by omega), if_neg]
          rintro ⟨-, j', h1, h2⟩
          cases h1; exact h2 hfix
        · rw [if_neg hfix, copySlots, if_pos (by omega), if_pos ⟨by omega, j, rfl, hfix⟩]
      · have e : (i.val < n + 1) = (i.val < n) := by simp; omega
        simp only [e]
        by_cases hfix : j.kind = .fixed
        · rw [if_pos hfix, ih]
        · rw [if_neg hfix, copySlots, if_neg (by omega), ih]
  rw [hm]
  split_ifs with h
  · exact .inl rfl
  · refine .inr ⟨rfl, ?_⟩
    by_cases hi : i.val < t.len
    · obtain ⟨j, hj⟩ := joint_exists hi
      refine .inr ⟨j, hj, ?_⟩
      by_contra hk
      exact h ⟨hi, j, hj, hk⟩
    · exact .inl (by omega)

/-- C57. Without a secondary objective, the step of one iteration never increases the task error to first order, however
far it is damped and shortened; and it reduces it unless no joint can, that is unless `Jᵀe = 0`.  Where the decomposition
inside it is exact. -/
theorem iteration_descends {t : KinematicTree maxJoints maxConfig ℝ} (hb : Built t) (hf : t.hasFloatingBase = false)
    (s : InverseKinematics maxConfig ℝ) (hw : ∀ k, 0 < s.jointWeights k) (hthr : 0 < s.singularValueThreshold)
    (hmax : 0 < s.maximumStepNorm) (hobj : s.secondaryObjective = .none) (tool : ℕ) (htool : tool < t.len)
    (c : Fin maxConfig → ℝ) (state : KinematicTreeState ℝ) (hstate : state.length = t.len) (e : Fin 6 → ℝ) :
    ∃ J X d lam damped step, t.geometricJacobian state tool .body = .ok J ∧ J.weightedTranspose s.jointWeights = .ok X
      ∧ svd (J.entries * X) = .ok d
      ∧ lam = (if s.singularValueThreshold ≤ √(d.singularValues 5) then 0
          else s.maximumDamping ^ 2 * (1 - (√(d.singularValues 5) / s.singularValueThreshold) ^ 2))
      ∧ svd (J.entries * X + lam • 1) = .ok damped
      ∧ s.iterationStep t tool c state e = .ok step
      ∧ (damped.Exact → (J.entries *ᵥ step - e) ⬝ᵥ (J.entries *ᵥ step - e) ≤ e ⬝ᵥ e
        ∧ (J.entriesᵀ *ᵥ e ≠ 0 → (J.entries *ᵥ step - e) ⬝ᵥ (J.entries *ᵥ step - e) < e ⬝ᵥ e)) := by
  obtain ⟨J, hJ, hcols, -, -⟩ := jacobian_ok hb state hstate tool htool .body
  obtain ⟨hpad, hcol⟩ := geometric_jacobian_padded hb state tool .body J hJ
  have hbias : secondaryBias s.secondaryObjective t c s.secondaryGain = fun _ => 0 := by
    funext k
    obtain ⟨j, hj, -, ho, hv, hlt⟩ := plain_joint hb hf htool
    rw [hobj]
    exact (secondary_bias_spec c s.secondaryGain tool j ⟨tool, hlt⟩ ⟨tool, hlt⟩ hj ho hv).1 k
  obtain ⟨X, d, lam, damped, raw, h1, h2, h3, ⟨h4, -⟩, h5, h6, h7⟩ := joint_step_optimal J s.jointWeights hw hpad hcol e
    (fun _ => 0) s.singularValueThreshold s.maximumDamping hthr
  refine ⟨J, X, d, lam, damped, limitedStep raw t s.maximumStepNorm, hJ, h1, h2, h3, h5, ?_, fun hex => ?_⟩
  · unfold InverseKinematics.iterationStep
    rw [hJ]
    dsimp only
    rw [hbias, h6]
  obtain ⟨k, hk0, hk1, hk⟩ : ∃ k : ℝ, 0 < k ∧ k ≤ 1 ∧ limitedStep raw t s.maximumStepNorm = k • maskedStep raw t := by
    unfold limitedStep
    dsimp only
    split_ifs with h
    · refine ⟨s.maximumStepNorm / vnorm (maskedStep raw t), div_pos hmax h.2, (div_le_one h.2).2 h.1.le, ?_⟩
      funext i
      simp only [vscaleBy, Pi.smul_apply, smul_eq_mul, mul_comm]
    · exact ⟨1, one_pos, le_rfl, (one_smul _ _).symm⟩
  have hmask : J.entries *ᵥ maskedStep raw t = J.entries *ᵥ raw := by
    funext row
    simp only [Matrix.mulVec, dotProduct]
    refine Finset.sum_congr rfl fun i _ => ?_
    rcases maskedStep_slot hb hf raw i with h | ⟨-, h⟩
    · rw [h]
    · have hzero : J.entries row i = 0 := by
        rcases h with h | ⟨j, hj, hfix⟩
        · refine hpad row i ?_
          rw [hcols]
          unfold velocityLen
          rw [hf]
          split_ifs <;> simp_all
        · obtain ⟨-, -, -, -, hv, -⟩ := plain_joint hb hf (joint_some_lt hj)
          obtain ⟨J', hJ', hz⟩ := jacobian_zero_columns hb state hstate tool htool .body i.val j i.val hj hv (.inr hfix)
          rw [hJ] at hJ'
          injection hJ' with hJ'
          subst hJ'
          have := hz i.val le_rfl (by split_ifs <;> omega)
          unfold KinematicJacobian.column at this
          split_ifs at this with h1
          · simp only [Option.some.injEq, Twist.mk.injEq] at this
            obtain ⟨ha, hc⟩ := this
            fin_cases row
            · exact congrFun ha 0
            · exact congrFun ha 1
            · exact congrFun ha 2
            · exact congrFun hc 0
            · exact congrFun hc 1
            · exact congrFun hc 2
      rw [hzero, zero_mul, zero_mul]
  have hrest := h7 hex
  have hopt : ∀ x, (J.entries *ᵥ raw - e) ⬝ᵥ (J.entries *ᵥ raw - e)
      ≤ (J.entries *ᵥ x - e) ⬝ᵥ (J.entries *ᵥ x - e) + lam * ∑ k, s.jointWeights k * x k ^ 2 := by
    intro x
    have h := hrest x
    simp only [sub_zero] at h
    have : 0 ≤ lam * ∑ k, s.jointWeights k * raw k ^ 2 :=
      mul_nonneg h4 (Finset.sum_nonneg fun k _ => mul_nonneg (hw k).le (sq_nonneg _))
    linarith
  have hconv := shortened_convex (J.entries *ᵥ raw) e k hk0.le hk1
  have hJk : J.entries *ᵥ limitedStep raw t s.maximumStepNorm = k • (J.entries *ᵥ raw) := by
    rw [hk, Matrix.mulVec_smul, hmask]
  rw [hJk]
  have hzero : (J.entries *ᵥ raw - e) ⬝ᵥ (J.entries *ᵥ raw - e) ≤ e ⬝ᵥ e := by
    have h := hopt 0
    have e1 : ∑ k, s.jointWeights k * (0 : Fin maxConfig → ℝ) k ^ 2 = 0 := Finset.sum_eq_zero fun k _ => by simp
    rwa [Matrix.mulVec_zero, zero_sub, neg_dotProduct_neg, e1, mul_zero, add_zero] at h
  have hgain : ∀ b, (J.entries *ᵥ raw - e) ⬝ᵥ (J.entries *ᵥ raw - e) ≤ e ⬝ᵥ e - b →
      (k • (J.entries *ᵥ raw) - e) ⬝ᵥ (k • (J.entries *ᵥ raw) - e) ≤ e ⬝ᵥ e - k * b := by
    intro b hb
    have := mul_le_mul_of_nonneg_left hb hk0.le
    linarith
  constructor
  · simpa using hgain 0 (by simpa using hzero)
  · intro hg
    obtain ⟨x, hx⟩ := damped_gain J.entries s.jointWeights hw lam h4 e hg
    have hlt := (hopt x).trans_lt hx
    have := hgain (e ⬝ᵥ e - (J.entries *ᵥ raw - e) ⬝ᵥ (J.entries *ᵥ raw - e)) (by linarith)
    have h2 := mul_pos hk0 (sub_pos.2 hlt)
    linarith

/-- A slider out of place comes nearer, even at full damping. -/
example (x : ℝ) (hx : x ≠ 0) : ∃ state step, slideTree.forwardKinematics (fun _ => x) = .ok state
    ∧ ({ (InverseKinematics.new : InverseKinematics 1 ℝ) with maximumDamping := 1 }).iterationStep slideTree 0 (fun _ => x)
      state ![-x, 0, 0, 0, 0, 0] = .ok step
    ∧ (slideJacobian.entries *ᵥ step - ![-x, 0, 0, 0, 0, 0]) ⬝ᵥ (slideJacobian.entries *ᵥ step - ![-x, 0, 0, 0, 0, 0])
      < ![-x, 0, 0, 0, 0, 0] ⬝ᵥ ![-x, 0, 0, 0, 0, 0] := by
  obtain ⟨state, f1, f2, f3⟩ := slide_fk fun _ => x
  have hlit : ∀ q : ℚ, 0 < q → (0 : ℝ) < (Fns.lit q : ℝ) := fun q hq => by
    show (0 : ℝ) < (q : ℝ)
    exact_mod_cast hq
  obtain ⟨J, X, d, lam, damped, step, g1, g2, g3, g4, g5, g6, g7⟩ := iteration_descends slide_built rfl
    ({ (InverseKinematics.new : InverseKinematics 1 ℝ) with maximumDamping := 1 }) (fun _ => one_pos)
    (hlit _ (by norm_num)) (hlit _ (by norm_num)) rfl 0 one_pos (fun _ => x) state f2 ![-x, 0, 0, 0, 0, 0]
  rw [slide_jacobian f2 f3] at g1
  injection g1 with g1
  subst g1
  obtain ⟨hσ, hd⟩ := slide_gram g2 g3
  have hl : lam = 1 := by
    rw [g4, hσ, Real.sqrt_zero, zero_div, if_neg]
    · show (1 : ℝ) ^ 2 * _ = 1
      norm_num
    · show ¬ ((Fns.lit (1 / 10 ^ 3) : ℝ) ≤ 0)
      exact not_le.2 (hlit _ (by norm_num))
  rw [hl, hd] at g5
  refine ⟨state, step, f1, g6, (g7 (svd_diagonal_exact _ (fun k => by split_ifs <;> norm_num) g5).1).2 fun h => hx ?_⟩
  have := congrFun h 0
  rw [Matrix.mulVec, dotProduct, Fin.sum_univ_six] at this
  simp only [Matrix.transpose_apply] at this
  simpa [slideJacobian] using this

end Multicalc
