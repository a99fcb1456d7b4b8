import Verif.Props.JacobianInverse
import Verif.Props.ConfigurationDistance

/-!
# What one step of the inverse kinematics weighs (C57)
-/

namespace Multicalc

open Matrix KinematicTree

variable {maxJoints maxConfig : ℕ}

/-- C57. One step is a compromise between the task and the secondary objective: with `σ` the square root of the smallest
singular value of `J·W⁻¹·Jᵀ`, `λ² = 0` from `singular_value_threshold` up and `λ² = λ²ₘₐₓ·(1 − (σ/threshold)²)` below it,
and where the decomposition is exact the step minimises `‖J·x − e‖² + λ²·Σ wᵢ·(xᵢ − bᵢ)²`.  The damping never exceeds
`maximum_damping`, and reaches it exactly at a singularity. -/
theorem joint_step_optimal (J : KinematicJacobian maxConfig ℝ) (w : Fin maxConfig → ℝ) (hw : ∀ k, 0 < w k) (hJ : J.Padded)
    (hcol : J.columns ≤ maxConfig) (e : Fin 6 → ℝ) (b : Fin maxConfig → ℝ) (threshold damping : ℝ)
    (hthr : 0 < threshold) :
    ∃ X d lam damped step, J.weightedTranspose w = .ok X ∧ svd (J.entries * X) = .ok d
      ∧ lam = (if threshold ≤ √(d.singularValues 5) then 0
          else damping ^ 2 * (1 - (√(d.singularValues 5) / threshold) ^ 2))
      ∧ (0 ≤ lam ∧ lam ≤ damping ^ 2 ∧ (damping ≠ 0 → (lam = damping ^ 2 ↔ d.singularValues 5 = 0)))
      ∧ svd (J.entries * X + lam • 1) = .ok damped
      ∧ jointStep J e b w threshold damping = .ok step
      ∧ (damped.Exact → ∀ x,
          (J.entries *ᵥ step - e) ⬝ᵥ (J.entries *ᵥ step - e) + lam * ∑ k, w k * (step k - b k) ^ 2
            ≤ (J.entries *ᵥ x - e) ⬝ᵥ (J.entries *ᵥ x - e) + lam * ∑ k, w k * (x k - b k) ^ 2) := by
  obtain ⟨X, B, h1, h2, h3, h4⟩ := weighted_gram J w hw hJ hcol
  obtain ⟨d, hd, s1, s2, s3, s4, s5, s6, -⟩ := svd_spec (J.entries * X) le_rfl
  obtain ⟨lam, hlam⟩ : ∃ lam, lam = (if threshold ≤ √(d.singularValues 5) then 0
      else damping ^ 2 * (1 - (√(d.singularValues 5) / threshold) ^ 2)) := ⟨_, rfl⟩
  have hbounds : 0 ≤ lam ∧ lam ≤ damping ^ 2 ∧ (damping ≠ 0 → (lam = damping ^ 2 ↔ d.singularValues 5 = 0)) := by
    rw [hlam]
    have hσ := Real.sqrt_nonneg (d.singularValues 5)
    have hzero : √(d.singularValues 5) = 0 ↔ d.singularValues 5 = 0 := Real.sqrt_eq_zero (s3 5)
    split_ifs with hbig
    · refine ⟨le_rfl, sq_nonneg _, fun h0 => ⟨fun h => absurd h.symm (by positivity), fun h => ?_⟩⟩
      rw [h, Real.sqrt_zero] at hbig
      linarith
    · push Not at hbig
      have r0 : 0 ≤ √(d.singularValues 5) / threshold := div_nonneg hσ hthr.le
      have r1 : √(d.singularValues 5) / threshold < 1 := (div_lt_one hthr).2 hbig
      have r2 : (√(d.singularValues 5) / threshold) ^ 2 ≤ 1 := by nlinarith
      refine ⟨mul_nonneg (sq_nonneg _) (by linarith), ?_, fun h0 => ?_⟩
      · have := mul_nonneg (sq_nonneg damping) (sq_nonneg (√(d.singularValues 5) / threshold))
        linarith
      · have hd2 : damping ^ 2 ≠ 0 := by positivity
        rw [← hzero]
        constructor
        · intro h
          have : 1 - (√(d.singularValues 5) / threshold) ^ 2 = 1 :=
            mul_left_cancel₀ hd2 (by rw [h, mul_one])
          have : √(d.singularValues 5) / threshold = 0 := by
            apply pow_eq_zero_iff (two_ne_zero) |>.1; linarith
          rcases div_eq_zero_iff.1 this with h | h
          · exact h
          · exact absurd h hthr.ne'
        · intro h
          rw [h]; simp
  obtain ⟨X', damped, P, h1', hdam, hP, hopt⟩ := damped_pseudo_inverse_optimal J w hw hJ hcol (√lam)
  rw [h1] at h1'
  injection h1' with h1'
  subst h1'
  rw [Real.mul_self_sqrt hbounds.1] at hdam
  have hPX : P = X * damped.pseudoInverse := by
    unfold KinematicJacobian.dampedPseudoInverse at hP
    rw [h1] at hP
    dsimp only at hP
    have hsum : madd (mmul J.entries X) (mscale (midentity 6) (√lam * √lam)) = J.entries * X + lam • 1 := by
      rw [madd_eq, mmul_eq, midentity_eq, Real.mul_self_sqrt hbounds.1]
      congr 1
      ext i j
      simp [mscale, mul_comm]
    rw [hsum, hdam] at hP
    injection hP with hP
    rw [← hP, mmul_eq]
  have hok : weightsOk J.columns w = true := by
    by_contra hcon
    unfold KinematicJacobian.weightedTranspose at h1
    rw [if_pos (by simpa using hcon)] at h1
    cases h1
  obtain ⟨step, hstep⟩ := jointStep_ok hok e b threshold damping
  refine ⟨X, d, lam, damped, step, h1, hd, hlam, hbounds, hdam, hstep, fun hex x => ?_⟩
  have hform : step = b + P *ᵥ (e - J.entries *ᵥ b) := by
    unfold jointStep at hstep
    rw [h1] at hstep
    dsimp only at hstep
    rw [mmul_eq, hd] at hstep
    dsimp only at hstep
    rw [max_eq_left (s3 5), real_sqrt] at hstep
    have hsame : (if threshold ≤ √(d.singularValues 5) then 0 else damping * damping *
        (1 - √(d.singularValues 5) / threshold * (√(d.singularValues 5) / threshold))) = lam := by
      rw [hlam, sq, sq]
    have hsum : madd (J.entries * X) (mscale (midentity 6) lam) = J.entries * X + lam • 1 := by
      rw [madd_eq, midentity_eq]
      congr 1
      ext i j
      simp [mscale, mul_comm]
    rw [hsame, hsum, hdam] at hstep
    dsimp only at hstep
    injection hstep with hstep
    rw [← hstep, (svd_pseudo_inverse_eq damped 0 _).2, (svd_pseudo_inverse_eq damped 0 _).2, hPX]
    simp only [mmulVec_eq]
    change X *ᵥ (damped.pseudoInverse *ᵥ e) + (b - X *ᵥ (damped.pseudoInverse *ᵥ (J.entries *ᵥ b))) = _
    rw [Matrix.mulVec_sub]
    simp only [Matrix.mulVec_mulVec, Matrix.mul_assoc]
    abel
  have hmin := (hopt hex).1 (e - J.entries *ᵥ b) (x - b)
  rw [Real.sq_sqrt hbounds.1] at hmin
  have e1 : J.entries *ᵥ (x - b) - (e - J.entries *ᵥ b) = J.entries *ᵥ x - e := by
    rw [Matrix.mulVec_sub]; abel
  have e2 : J.entries *ᵥ (P *ᵥ (e - J.entries *ᵥ b)) - (e - J.entries *ᵥ b) = J.entries *ᵥ step - e := by
    rw [hform, Matrix.mulVec_add]; abel
  have e3 : ∀ k, (P *ᵥ (e - J.entries *ᵥ b)) k = step k - b k := by
    intro k; rw [hform]; simp
  rw [e1, e2] at hmin
  simpa only [e3, Pi.sub_apply] using hmin

/-- Six independent axes, a threshold of two: the step is damped, and still the best compromise. -/
example (e : Fin 6 → ℝ) (b : Fin 6 → ℝ) : ∃ step, jointStep cartesian e b (fun _ => 1) 2 1 = .ok step
    ∧ ∀ x, (cartesian.entries *ᵥ step - e) ⬝ᵥ (cartesian.entries *ᵥ step - e) + 3 / 4 * ∑ k, 1 * (step k - b k) ^ 2
      ≤ (cartesian.entries *ᵥ x - e) ⬝ᵥ (cartesian.entries *ᵥ x - e) + 3 / 4 * ∑ k, 1 * (x k - b k) ^ 2 := by
  obtain ⟨X, d, lam, damped, step, h1, h2, h3, -, h4, h5, h6⟩ := joint_step_optimal cartesian (fun _ => 1)
    (fun _ => one_pos) cartesian_padded le_rfl e b 2 1 two_pos
  rw [cartesian_transpose h1] at h4
  rw [cartesian_transpose h1, ← diagonal_one] at h2
  obtain ⟨-, σ, hs⟩ := svd_diagonal_exact _ (fun _ => by norm_num) h2
  have hl : lam = 3 / 4 := by rw [h3, hs]; norm_num
  subst hl
  have e1 : (1 : Matrix (Fin 6) (Fin 6) ℝ) + (3 / 4 : ℝ) • 1 = diagonal fun _ => 7 / 4 := by
    rw [Matrix.smul_one_eq_diagonal, ← Matrix.diagonal_one, Matrix.diagonal_add]
    congr 1; funext; norm_num
  rw [e1] at h4
  exact ⟨step, h5, h6 (svd_diagonal_exact _ (fun _ => by norm_num) h4).1⟩

theorem velocityOffset_injective {t : KinematicTree maxJoints maxConfig ℝ} {i k o : ℕ}
    (hi : t.velocityOffset i = some o) (hk : t.velocityOffset k = some o) : i = k := by
  rw [velocityOffset_some] at hi hk
  obtain ⟨-, rfl⟩ := hi
  obtain ⟨-, hk⟩ := hk
  split_ifs at hk <;> simp_all <;> omega

/-- What the bias of one joint is. -/
noncomputable def biasOf (objective : SecondaryObjective maxConfig ℝ) (t : KinematicTree maxJoints maxConfig ℝ)
    (configuration : Fin maxConfig → ℝ) (gain : ℝ) (index : ℕ) : Option ℝ :=
  match t.joint index, t.configOffset index with
  | some joint, some configAt =>
    if joint.kind = .fixed ∨ joint.kind = .floating then none
    else (reading configuration configAt).bind fun value => secondaryWanted objective joint configAt value gain
  | _, _ => none

/-- Writing the bias of one joint. -/
noncomputable def biasWrite (objective : SecondaryObjective maxConfig ℝ) (t : KinematicTree maxJoints maxConfig ℝ)
    (configuration : Fin maxConfig → ℝ) (gain : ℝ) (d : Fin maxConfig → ℝ) (index : ℕ) : Fin maxConfig → ℝ :=
  match t.velocityOffset index, biasOf objective t configuration gain index with
  | some v, some wanted => writeAt d v wanted
  | _, _ => d

theorem secondaryBias_slot (objective : SecondaryObjective maxConfig ℝ) (t : KinematicTree maxJoints maxConfig ℝ)
    (c : Fin maxConfig → ℝ) (gain : ℝ) :
    (∀ i v (hv : v < maxConfig), t.velocityOffset i = some v →
      secondaryBias objective t c gain ⟨v, hv⟩ = (biasOf objective t c gain i).getD 0)
    ∧ ∀ v : Fin maxConfig, (∀ i, t.velocityOffset i ≠ some v.val) → secondaryBias objective t c gain v = 0 := by
  have hfun : secondaryBias objective t c gain = (List.range t.len).foldl (biasWrite objective t c gain) fun _ => 0 := by
    unfold secondaryBias
    congr 1
    funext d n
    unfold biasWrite biasOf
    cases t.joint n with
    | none => cases t.velocityOffset n <;> rfl
    | some j =>
      cases t.configOffset n with
      | none => cases t.velocityOffset n <;> rfl
      | some o =>
        cases t.velocityOffset n with
        | none => rfl
        | some v =>
          dsimp only
          split_ifs
          · rfl
          · cases reading c o with
            | none => rfl
            | some value => cases hs : secondaryWanted objective j o value gain <;> simp [hs]
  rw [hfun]
  suffices key : ∀ n ≤ t.len,
      (∀ i < n, ∀ v (hv : v < maxConfig), t.velocityOffset i = some v →
        (List.range n).foldl (biasWrite objective t c gain) (fun _ => (0 : ℝ)) ⟨v, hv⟩
          = (biasOf objective t c gain i).getD 0)
      ∧ ∀ v : Fin maxConfig, (∀ i < n, t.velocityOffset i ≠ some v.val) →
        (List.range n).foldl (biasWrite objective t c gain) (fun _ => (0 : ℝ)) v = 0 by
    obtain ⟨k1, k2⟩ := key t.len le_rfl
    exact ⟨fun i v hv h => k1 i (velocityOffset_some.1 h).1 v hv h, fun v h => k2 v fun i _ => h i⟩
  intro n
  induction n with
  | zero => exact fun _ => ⟨fun i hi => by omega, fun _ _ => rfl⟩
  | succ n ih =>
    intro hn
    obtain ⟨ih1, ih2⟩ := ih (by omega)
    rw [List.range_succ, List.foldl_append, List.foldl_cons, List.foldl_nil]
    generalize (List.range n).foldl _ _ = d at ih1 ih2 ⊢
    obtain ⟨v, hv⟩ : ∃ v, t.velocityOffset n = some v := ⟨_, velocityOffset_some.2 ⟨by omega, rfl⟩⟩
    unfold biasWrite
    rw [hv]
    constructor
    · intro i hi v' hv' h
      rcases Nat.lt_succ_iff_lt_or_eq.1 hi with h' | rfl
      · have hne : v' ≠ v := fun hc => by
          have := velocityOffset_injective h (hc ▸ hv); omega
        cases biasOf objective t c gain n with
        | none => exact ih1 i h' v' hv' h
        | some x =>
          dsimp only [writeAt]
          rw [if_neg hne]
          exact ih1 i h' v' hv' h
      · rw [h] at hv
        injection hv with hv
        subst hv
        cases biasOf objective t c gain i with
        | none =>
          exact ih2 ⟨v', hv'⟩ fun k hk hc => by
            have := velocityOffset_injective h hc; omega
        | some x => dsimp only [writeAt]; rw [if_pos rfl]; rfl
    · intro v' h
      have hne : v'.val ≠ v := fun hc => h n (by omega) (hc ▸ hv)
      have := ih2 v' fun i hi => h i (by omega)
      cases biasOf objective t c gain n with
      | none => exact this
      | some x => dsimp only [writeAt]; rw [if_neg hne]; exact this

/-- C57. What the secondary objective asks of the joints.  Without one it asks nothing.  A preferred posture asks each
joint to move towards its preferred value, a continuous joint by the shortest way round; the limit margin asks each joint
with a range to move towards the middle of it, in proportion to how far away it is as a share of the range.  Nothing is
ever asked of a fixed joint, of a floating one or, for the margin, of a joint without limits. -/
theorem secondary_bias_spec {t : KinematicTree maxJoints maxConfig ℝ} (c : Fin maxConfig → ℝ) (gain : ℝ)
    (i : ℕ) (j : Joint ℝ) (o v : Fin maxConfig) (hj : t.joint i = some j) (ho : t.configOffset i = some o.val)
    (hv : t.velocityOffset i = some v.val) :
    (∀ k, secondaryBias .none t c gain k = 0)
    ∧ (∀ objective, j.kind = .fixed ∨ j.kind = .floating → secondaryBias objective t c gain v = 0)
    ∧ (j.kind ≠ .fixed → j.kind ≠ .floating →
      (∀ reference, (j.kind ≠ .continuous →
          secondaryBias (.preferredPosture reference) t c gain v = gain * (reference o - c o))
        ∧ (j.kind = .continuous → ∃ way, secondaryBias (.preferredPosture reference) t c gain v = gain * way
          ∧ (∃ n : ℤ, way = reference o - c o + n * (2 * Real.pi))
          ∧ ∀ n : ℤ, |way| ≤ |reference o - c o + n * (2 * Real.pi)|))
      ∧ (j.limits = none → secondaryBias .jointLimitMargin t c gain v = 0)
      ∧ ∀ lower upper, j.limits = some (lower, upper) → lower < upper →
        secondaryBias .jointLimitMargin t c gain v = gain * (((lower + upper) / 2 - c o) / (upper - lower))) := by
  have hslot : ∀ objective, secondaryBias objective t c gain v = (biasOf objective t c gain i).getD 0 :=
    fun objective => (secondaryBias_slot objective t c gain).1 i v.val v.isLt hv
  have hread : ∀ f : Fin maxConfig → ℝ, reading f o.val = some (f o) := fun f => reading_some o.isLt
  refine ⟨fun k => ?_, fun objective h => ?_, fun hf hfl => ⟨fun reference => ⟨fun hk => ?_, fun hk => ?_⟩, fun hl => ?_,
    fun lower upper hl hlt => ?_⟩⟩
  · by_cases h : ∃ i, t.velocityOffset i = some k.val
    · obtain ⟨i', h⟩ := h
      rw [(secondaryBias_slot .none t c gain).1 i' k.val k.isLt h]
      have : biasOf .none t c gain i' = none := by
        unfold biasOf
        split
        · split_ifs
          · rfl
          · cases reading c _ <;> simp [secondaryWanted]
        · rfl
      rw [this]; rfl
    · exact (secondaryBias_slot .none t c gain).2 k fun i' hi' => h ⟨i', hi'⟩
  · rw [hslot, biasOf, hj, ho]
    dsimp only
    rw [if_pos h]; rfl
  · rw [hslot, biasOf, hj, ho]
    dsimp only
    rw [if_neg (by tauto), hread, Option.bind_some, secondaryWanted, hread]
    dsimp only
    rw [if_neg hk]; rfl
  · obtain ⟨n, hn⟩ := (wrapToPi_spec (reference o - c o)).2.2.1
    refine ⟨wrapToPi (reference o - c o), ?_, ⟨-n, by push_cast; linarith⟩, fun m => ?_⟩
    · rw [hslot, biasOf, hj, ho]
      dsimp only
      rw [if_neg (by tauto), hread, Option.bind_some, secondaryWanted, hread]
      dsimp only
      rw [if_pos hk]; rfl
    · exact (wrap_least (reference o - c o)).2 ⟨m, rfl⟩
  · rw [hslot, biasOf, hj, ho]
    dsimp only
    rw [if_neg (by tauto), hread, Option.bind_some, secondaryWanted, hl]
    rfl
  · rw [hslot, biasOf, hj, ho]
    dsimp only
    rw [if_neg (by tauto), hread, Option.bind_some, secondaryWanted, hl]
    dsimp only
    rw [if_pos hlt]
    have hh : (half : ℝ) = 1 / 2 := by simp [half]
    simp only [Option.getD_some]
    rw [hh]
    ring

/-- A continuous joint a little past `−π` is asked to go on round to a little under `π`, and not all the way back. -/
example : ∃ way, secondaryBias (.preferredPosture fun _ => 3)
      (⟨[(Joint.fromKind .continuous ![0, 0, 1] SE3.identity, .world)]⟩ : KinematicTree 1 1 ℝ) (fun _ => -3) 1 0 = 1 * way
    ∧ |way| ≤ 2 * Real.pi - 6 := by
  obtain ⟨way, h1, -, h2⟩ := ((secondary_bias_spec (t := ⟨[(Joint.fromKind .continuous ![0, 0, 1] SE3.identity, .world)]⟩)
    (fun _ : Fin 1 => (-3 : ℝ)) 1 0 _ 0 0 rfl rfl rfl).2.2 (by simp [Joint.fromKind]) (by simp [Joint.fromKind])).1
    (fun _ => 3) |>.2 rfl
  refine ⟨way, h1, (h2 (-1)).trans ?_⟩
  have := Real.pi_gt_three
  rw [abs_of_neg (by push_cast; linarith)]
  push_cast; linarith

end Multicalc
