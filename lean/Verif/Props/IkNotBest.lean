import Verif.Props.IkStep

/-!
# The report of an unconverged solve is not the best configuration (C57)
-/

namespace Multicalc

open Matrix KinematicTree

/-- One joint sliding along the world's first axis. -/
noncomputable def slideTree : KinematicTree 1 1 ℝ := ⟨[(Joint.fromKind .prismatic ![1, 0, 0] SE3.identity, .world)]⟩

theorem identity_act (v : Fin 3 → ℝ) : (SO3.identity : SO3 ℝ).act v = v := by
  apply vec3_ext <;> simp [SO3.act, transformPoint_explicit, SO3.identity, Quat.identity]

theorem identity_compose : (SO3.identity : SO3 ℝ).compose SO3.identity = SO3.identity := by
  simp [SO3.compose, SO3.identity, Quat.identity, Quat.mul]

theorem identity_inverse : (SO3.identity : SO3 ℝ).inverse = SO3.identity := by
  simp [SO3.inverse, SO3.identity, Quat.identity, Quat.conjugate]

theorem slide_fk (x : Fin 1 → ℝ) : ∃ s, slideTree.forwardKinematics x = .ok s ∧ s.length = 1 ∧
    s.pose 0 = some ⟨SO3.identity, ![x 0, 0, 0]⟩ := by
  refine ⟨_, rfl, rfl, ?_⟩
  show some (((SE3.identity : SE3 ℝ).compose SE3.identity).compose
    ((Joint.fromKind .prismatic ![1, 0, 0] SE3.identity : Joint ℝ).slide (x 0))) = some _
  congr 1
  simp only [SE3.compose, SE3.identity, identity_compose, identity_act, Joint.slide]
  congr 1
  apply vec3_ext <;> simp [vadd, vscaleBy, Joint.fromKind]

theorem identity_log : (SO3.identity : SO3 ℝ).log = fun _ => 0 := by
  unfold SO3.log
  rw [toScaledAxis_eq]
  funext i
  have : (SO3.identity : SO3 ℝ).quaternion.shortest.vec i = 0 := by
    have h : ¬ ((1 : ℝ) < 0) := by norm_num
    fin_cases i <;> simp [SO3.identity, Quat.identity, Quat.shortest, Quat.vec, h]
  rw [this, zero_mul]

theorem slide_log (x : ℝ) :
    ((⟨SO3.identity, ![x, 0, 0]⟩ : SE3 ℝ).inverse.compose SE3.identity).log = ![-x, 0, 0, 0, 0, 0] := by
  simp only [SE3.inverse, SE3.compose, SE3.identity, identity_inverse, identity_compose, identity_act, SE3.log, identity_log]
  ext i
  fin_cases i <;> simp [inverseLeftJacobianSo3, mmulVec_eq, madd_eq, msub_eq, mmul_eq, midentity_eq, skew3, mscale,
    Matrix.mulVec, dotProduct, Fin.sum_univ_three, vadd, vneg, Matrix.mul_apply]

/-- Its Jacobian: one column, along the first axis. -/
noncomputable def slideJacobian : KinematicJacobian 1 ℝ := ⟨fun i _ => if i = 0 then 1 else 0, 1, .body⟩

theorem slide_jacobian {s : KinematicTreeState ℝ} {x : ℝ} (hl : s.length = 1) (hp : s.pose 0 = some ⟨SO3.identity, ![x, 0, 0]⟩) :
    slideTree.geometricJacobian s 0 .body = .ok slideJacobian := by
  have hlen : slideTree.len = 1 := rfl
  have hj : slideTree.joint 0 = some (Joint.fromKind .prismatic ![1, 0, 0] SE3.identity) := rfl
  have hv : slideTree.velocityOffset 0 = some 0 := rfl
  have hpar : slideTree.parent 0 = some .world := rfl
  have hvl : slideTree.velocityLen = 1 := rfl
  unfold geometricJacobian
  rw [if_neg (by rw [hlen]; omega), if_neg (by rw [hlen, hl]; simp), hp]
  have hstep : slideTree.jacobianStep s ⟨SO3.identity, ![x, 0, 0]⟩ .body (Function.update (fun _ => false) 0 true)
      (fun _ _ => 0) 0 = .ok fun i _ => if i = 0 then 1 else 0 := by
    unfold jacobianStep
    rw [Function.update_self, if_neg (by simp), hj]
    dsimp only
    rw [if_neg (by simp [Joint.fromKind]), hp, hv]
    simp only [jointColumns, Joint.fromKind, writeColumns, writeColumn, inFrame, identity_inverse, identity_act, bind,
      Except.bind]
    rw [if_pos one_pos]
    dsimp only
    congr 1
    funext i k
    rw [if_pos (by omega)]
    fin_cases i <;> simp [Twist.toVector]
  have hfold : (List.range slideTree.len).foldlM (slideTree.jacobianStep s ⟨SO3.identity, ![x, 0, 0]⟩ .body
      (Function.update (fun _ => false) 0 true)) (fun _ _ => 0) = .ok fun i _ => if i = 0 then 1 else 0 := by
    show (slideTree.jacobianStep s ⟨SO3.identity, ![x, 0, 0]⟩ .body (Function.update (fun _ => false) 0 true)
      (fun _ _ => 0) 0 >>= fun v => pure v) = _
    rw [hstep]
    rfl
  have hcarry : slideTree.carriesLoop 1 0 (fun _ => false) = .ok (Function.update (fun _ => false) 0 true) := by
    simp only [carriesLoop, hpar, hlen]
    rw [if_pos one_pos]
  dsimp only
  rw [hcarry]
  change ((List.range slideTree.len).foldlM (slideTree.jacobianStep s ⟨SO3.identity, ![x, 0, 0]⟩ .body
    (Function.update (fun _ => false) 0 true)) (fun _ _ => 0) >>= fun entries => _) = _
  rw [hfold]
  rfl

theorem slide_built : Built slideTree := by
  have hn : vnormalized (![1, 0, 0] : Fin 3 → ℝ) = ![1, 0, 0] := by
    have h1 : vnorm (![1, 0, 0] : Fin 3 → ℝ) = 1 := by
      rw [vnorm, vnormSquared, vdot_sum, Fin.sum_univ_three, real_sqrt]; simp
    unfold vnormalized
    rw [h1]
    apply vec3_ext <;> simp [vdivBy]
  have hax : vtryNormalized (![1, 0, 0] : Fin 3 → ℝ) = some ![1, 0, 0] := by
    rw [vtryNormalized_some (by intro h; simpa using congrFun h 0), hn]
  have hp : (new : KinematicTree 1 1 ℝ).push (Joint.fromKind .prismatic ![1, 0, 0] SE3.identity) .world
      = .ok slideTree := by
    refine (push_cases _ _ _ _).2 ⟨by simp [len, new], by simp, fun h => ?_, ?_, rfl, fun _ => rfl,
      Joint.fromKind .prismatic ![1, 0, 0] SE3.identity, ?_,
      by simp [configLen, len, new, Joint.width, Joint.fromKind], rfl⟩
    · simp [Joint.fromKind] at h
    · simp [Joint.isFinite, vecIsFinite, Fns.isFinite, Joint.fromKind]
    · simp [Joint.normalizeAxis, Joint.fromKind, hax]
  exact Built.push Built.new hp

/-- What the slider's Jacobian gives: a Gram matrix with a zero singular value. -/
theorem slide_gram {X : Matrix (Fin 1) (Fin 6) ℝ} {d : Svd 6 6 ℝ}
    (h1 : slideJacobian.weightedTranspose (fun _ => 1) = .ok X) (h2 : svd (slideJacobian.entries * X) = .ok d) :
    d.singularValues 5 = 0 ∧ slideJacobian.entries * X + (1 : ℝ) • 1 = diagonal fun k => if k = 0 then 2 else 1 := by
  have hX : ∀ k row, X k row = if row = 0 then 1 else 0 := by
    rw [weightedTranspose_ok (by simp [weightsOk, reading, slideJacobian])] at h1
    injection h1 with h1
    intro k row
    rw [← h1]
    beta_reduce
    rw [if_neg (by have := k.isLt; change ¬ 1 ≤ k.val; omega)]
    simp [slideJacobian]
  have hbase : slideJacobian.entries * X
      = diagonal fun k => if k = 0 then 1 else 0 := by
    ext i k
    rw [Matrix.mul_apply, Fin.sum_univ_one, hX, Matrix.diagonal_apply]
    simp only [slideJacobian]
    by_cases hi : i = 0 <;> by_cases hk : k = 0 <;> simp [hi, hk, eq_comm]
  rw [hbase] at h2
  have hσ : d.singularValues 5 = 0 := by
    obtain ⟨d', hd', -, σ, hs⟩ := svd_orthogonal_columns (diagonal fun k : Fin 6 => if k = 0 then (1 : ℝ) else 0) le_rfl (by
      intro p q hpq
      refine Finset.sum_eq_zero fun i _ => ?_
      by_cases hp : i = p
      · rw [diagonal_apply_ne _ (hp ▸ hpq : i ≠ q), mul_zero]
      · rw [diagonal_apply_ne _ hp, zero_mul])
    rw [h2] at hd'
    injection hd' with hd'
    subst hd'
    obtain ⟨d', hd', -, -, g3, g4, -⟩ := svd_spec (diagonal fun k : Fin 6 => if k = 0 then (1 : ℝ) else 0) le_rfl
    rw [h2] at hd'
    injection hd' with hd'
    subst hd'
    refine le_antisymm ((g4 (σ.symm 1) 5 (Fin.le_last _)).trans ?_) (g3 5)
    rw [hs, Equiv.apply_symm_apply, Finset.sum_eq_zero, Real.sqrt_zero]
    intro i _
    by_cases hi : i = 1
    · subst hi; simp
    · rw [diagonal_apply_ne _ hi]; simp
  refine ⟨hσ, ?_⟩
  rw [hbase, one_smul, ← Matrix.diagonal_one, Matrix.diagonal_add]
  congr 1
  funext k
  split_ifs <;> norm_num

/-- The step the slider takes towards zero when it would rather be elsewhere, fully damped. -/
theorem slide_step (x b : ℝ) :
    jointStep slideJacobian ![-x, 0, 0, 0, 0, 0] (fun _ => b)
      (fun _ => 1) (1 / 10 ^ 3) 1 = .ok fun _ => (b - x) / 2 := by
  obtain ⟨X, d, lam, damped, step, h1, h2, h3, h4, h5, h6, h7⟩ := joint_step_optimal
    slideJacobian (fun _ => 1) (fun _ => one_pos)
    (fun row k hk => absurd (show 1 ≤ k.val from hk) (by have := k.isLt; omega)) le_rfl ![-x, 0, 0, 0, 0, 0] (fun _ => b) (1 / 10 ^ 3) 1
    (by norm_num)
  obtain ⟨hσ, hd⟩ := slide_gram h1 h2
  have hl : lam = 1 := by
    have := (h4.2.2 one_ne_zero).2 hσ
    rw [this, one_pow]
  subst hl
  rw [hd] at h5
  have hmin := h7 (svd_diagonal_exact _ (fun k => by split_ifs <;> norm_num) h5).1 fun _ => (b - x) / 2
  have hJ : ∀ y : Fin 1 → ℝ, slideJacobian.entries *ᵥ y
      - ![-x, 0, 0, 0, 0, 0] = ![y 0 + x, 0, 0, 0, 0, 0] := by
    intro y
    funext i
    rw [Pi.sub_apply, Matrix.mulVec, dotProduct, Fin.sum_univ_one]
    fin_cases i <;> simp [slideJacobian]
  rw [hJ, hJ] at hmin
  simp only [dotProduct, Fin.sum_univ_six, Fin.sum_univ_one] at hmin
  simp at hmin
  have hz : (step 0 - (b - x) / 2) ^ 2 ≤ 0 := by nlinarith
  have hzero : step 0 = (b - x) / 2 := by
    have := pow_eq_zero_iff (two_ne_zero) |>.1 (le_antisymm hz (sq_nonneg _))
    linarith
  rw [h6]
  congr 1
  funext k
  rw [Subsingleton.elim k 0, hzero]

/-- C57 (finding). "A non-converged solve still carries its best configuration" is not so: a slider one hundredth from its
target, that would rather stand at one and is allowed one iteration, is reported at one half, where the errors are fifty
times those of its own seed.  What is returned is the last configuration. -/
theorem ik_report_not_best : ∃ (t : KinematicTree 1 1 ℝ) (s : InverseKinematics 1 ℝ) (target : SE3 ℝ) (seed : Fin 1 → ℝ)
    (r : IkReport 1 ℝ), Built t ∧ 0 < s.maximumIterations ∧ 0 < s.positionTolerance ∧ 0 < s.orientationTolerance
      ∧ s.solve t 0 target seed = .ok r ∧ r.termination = .iterationBudget
      ∧ InsideLimits t seed
      ∧ ErrorsAt t 0 target seed (1 / 100) 0
      ∧ ErrorsAt t 0 target r.jointPositions (1 / 2) 0 ∧ r.positionError = 1 / 2 := by
  obtain ⟨s, hs⟩ : ∃ s : InverseKinematics 1 ℝ, s = { (InverseKinematics.new : InverseKinematics 1 ℝ) with
    maximumIterations := 1, maximumDamping := 1, maximumStepNorm := 1, respectLimits := false,
    secondaryObjective := .preferredPosture fun _ => 1, secondaryGain := 1 } := ⟨_, rfl⟩
  have herr : ∀ x : ℝ, 0 ≤ x → vnorm (head3 (![-x, 0, 0, 0, 0, 0] : Fin 6 → ℝ)) = x
      ∧ vnorm (tail3 (![-x, 0, 0, 0, 0, 0] : Fin 6 → ℝ)) = 0 := by
    intro x hx
    constructor
    · rw [vnorm, vnormSquared, vdot_sum, Fin.sum_univ_three, real_sqrt]
      simp [head3, Real.sqrt_mul_self hx]
    · rw [vnorm, vnormSquared, vdot_sum, Fin.sum_univ_three, real_sqrt]
      simp [tail3]
  have hpose : ∀ x : ℝ, ∃ st, slideTree.forwardKinematics (fun _ => x) = .ok st ∧ st.length = 1
      ∧ st.pose 0 = some ⟨SO3.identity, ![x, 0, 0]⟩ := fun x => slide_fk fun _ => x
  have herrors : ∀ x : ℝ, 0 ≤ x → ErrorsAt slideTree 0 SE3.identity (fun _ => x) x 0 := by
    intro x hx
    obtain ⟨st, f1, -, f3⟩ := hpose x
    refine ⟨st, _, f1, f3, ?_, ?_⟩
    · rw [slide_log, (herr x hx).1]
    · rw [slide_log, (herr x hx).2]
  have hf : slideTree.hasFloatingBase = false := rfl
  have hbias : secondaryBias s.secondaryObjective slideTree (fun _ => (1 / 100 : ℝ)) s.secondaryGain
      = fun _ => 1 - 1 / 100 := by
    funext k
    have := (((secondary_bias_spec (t := slideTree) (fun _ => (1 / 100 : ℝ)) s.secondaryGain 0 _ 0 0 rfl rfl rfl).2.2
      (by simp [Joint.fromKind]) (by simp [Joint.fromKind])).1 (fun _ => 1)).1 (by simp [Joint.fromKind])
    rw [Subsingleton.elim k 0, hs] at *
    rw [this]; ring
  obtain ⟨st, f1, f2, f3⟩ := hpose (1 / 100)
  have htool : toolPose slideTree 0 (fun _ => (1 / 100 : ℝ)) = .ok (st, ⟨SO3.identity, ![1 / 100, 0, 0]⟩) := by
    unfold toolPose
    rw [f1]
    dsimp only
    rw [f3]
  have hlim : limitedStep (fun _ : Fin 1 => ((1 - 1 / 100) - 1 / 100) / 2) slideTree 1
      = fun _ => (((1 - 1 / 100) - 1 / 100) / 2 : ℝ) := by
    obtain ⟨-, k, -, -, hk, h⟩ := limited_step slide_built hf (fun _ : Fin 1 => (((1 - 1 / 100) - 1 / 100) / 2 : ℝ)) 1
      zero_le_one
    funext i
    rw [h i, if_pos ⟨_, by rw [Subsingleton.elim i 0]; rfl, by simp [Joint.fromKind]⟩, hk, one_mul]
    rw [vnorm, vnormSquared, vdot_sum, Fin.sum_univ_one, real_sqrt, Real.sqrt_mul_self] <;> norm_num
  have hiter : s.iterationStep slideTree 0 (fun _ => 1 / 100) st ![-(1 / 100), 0, 0, 0, 0, 0]
      = .ok fun _ => ((1 - 1 / 100) - 1 / 100) / 2 := by
    unfold InverseKinematics.iterationStep
    rw [slide_jacobian f2 f3]
    dsimp only
    rw [hbias]
    have hw : s.jointWeights = fun _ => 1 := by rw [hs]; rfl
    have ht : s.singularValueThreshold = 1 / 10 ^ 3 := by
      rw [hs]
      show (((1 / 10 ^ 3 : ℚ)) : ℝ) = _
      norm_num
    have hd : s.maximumDamping = 1 := by rw [hs]
    have hm : s.maximumStepNorm = 1 := by rw [hs]
    rw [hw, ht, hd, hm, slide_step]
    dsimp only
    rw [hlim]
  have hnext : s.holdInsideLimits slideTree (advanced slideTree (fun _ => 1 / 100)
      fun _ => ((1 - 1 / 100) - 1 / 100) / 2) = fun _ => 1 / 2 := by
    unfold InverseKinematics.holdInsideLimits
    rw [if_pos (by rw [hs]), (advanced_step slide_built hf s _ _ (by rw [hs]; intro h; cases h)
      (fun i hi => absurd hi (by have : slideTree.len = 1 := rfl; have := i.isLt; omega))).1]
    funext i
    simp only [vadd]
    norm_num
  have htool' : ∃ st', toolPose slideTree 0 (fun _ => (1 / 2 : ℝ)) = .ok (st', ⟨SO3.identity, ![1 / 2, 0, 0]⟩) := by
    obtain ⟨st', f1, f2, f3⟩ := hpose (1 / 2)
    refine ⟨st', ?_⟩
    unfold toolPose
    rw [f1]
    dsimp only
    rw [f3]
  obtain ⟨st', htool'⟩ := htool'
  have htol : s.positionTolerance = 1 / 10 ^ 6 ∧ s.orientationTolerance = 1 / 10 ^ 6 ∧ s.minimumStepNorm = 1 / 10 ^ 12 := by
    rw [hs]
    refine ⟨?_, ?_, ?_⟩
    · show (((1 / 10 ^ 6 : ℚ)) : ℝ) = _
      norm_num
    · show (((1 / 10 ^ 6 : ℚ)) : ℝ) = _
      norm_num
    · show (((1 / 10 ^ 12 : ℚ)) : ℝ) = _
      norm_num
  have hsolve : s.solve slideTree 0 SE3.identity (fun _ => 1 / 100)
      = .ok ⟨fun _ => 1 / 2, 1 / 2, 0, 1, .iterationBudget⟩ := by
    unfold InverseKinematics.solve
    rw [if_neg (by have : slideTree.len = 1 := rfl; omega), if_neg (by simp [vecIsFinite, Fns.isFinite]), if_neg]
    · have hm : s.maximumIterations = 1 := by rw [hs]
      have hh : s.holdInsideLimits slideTree (fun _ => 1 / 100) = fun _ => 1 / 100 := by
        unfold InverseKinematics.holdInsideLimits
        rw [if_pos (by rw [hs])]
      rw [hm, hh, InverseKinematics.loop, htool]
      dsimp only
      rw [slide_log, splitError, (herr _ (by norm_num)).1, (herr _ (by norm_num)).2]
      dsimp only
      rw [if_neg (by rw [htol.1]; norm_num), hiter]
      dsimp only
      rw [hnext, if_neg, InverseKinematics.loop, if_pos (by norm_num), htool']
      · dsimp only
        rw [slide_log, splitError, (herr _ (by norm_num)).1, (herr _ (by norm_num)).2]
      · rw [htol.2.2, vnorm, vnormSquared, vdot_sum, Fin.sum_univ_one, real_sqrt]
        simp only [vsub]
        rw [Real.sqrt_mul_self (by norm_num)]
        norm_num
    · rw [hs]
      simp [weightsOk, InverseKinematics.new, reading, velocityLen, slideTree, len, hasFloatingBase, joint, Joint.fromKind]
  refine ⟨slideTree, s, SE3.identity, fun _ => 1 / 100, _, slide_built, by rw [hs]; exact one_pos, by rw [htol.1]; norm_num,
    by rw [htol.2.1]; norm_num, hsolve, rfl, ?_, herrors (1 / 100) (by norm_num), herrors (1 / 2) (by norm_num), rfl⟩
  intro i j lower upper o hj _ hl
  have hi := joint_some_lt hj
  have : slideTree.len = 1 := rfl
  obtain rfl : i = 0 := by omega
  rw [show slideTree.joint 0 = some (Joint.fromKind .prismatic ![1, 0, 0] SE3.identity) from rfl] at hj
  injection hj with hj
  subst hj
  cases hl

end Multicalc
