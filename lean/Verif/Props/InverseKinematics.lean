import Verif.Model.InverseKinematics
import Verif.Props.GeometricJacobian
import Verif.Props.Svd
import Verif.Props.Screw
import Verif.Props.Attitude
import Verif.Props.PolylinePath

/-!
# Inverse kinematics (C57)
-/

namespace Multicalc

open KinematicTree

variable {maxJoints maxConfig : ℕ}

/-! ### Any arithmetic -/

section structural

variable {T : Type} [Zero T] [One T] [NatCast T] [Add T] [Sub T] [Mul T] [Div T] [Neg T] [LT T]
  [DecidableLT T] [LE T] [DecidableLE T] [BEq T] [Max T] [Min T] [Fns T]

/-- The two errors are those of the tool's pose at this configuration against the target: the lengths of the two halves
of `log(current⁻¹ · target)`. -/
def ErrorsAt (t : KinematicTree maxJoints maxConfig T) (toolIndex : ℕ) (target : SE3 T) (c : Fin maxConfig → T)
    (position orientation : T) : Prop :=
  ∃ state pose, t.forwardKinematics c = .ok state ∧ state.pose toolIndex = some pose
    ∧ position = vnorm (head3 (pose.inverse.compose target).log)
    ∧ orientation = vnorm (tail3 (pose.inverse.compose target).log)

theorem toolPose_ok {t : KinematicTree maxJoints maxConfig T} {toolIndex : ℕ} {c : Fin maxConfig → T}
    {x : KinematicTreeState T × SE3 T} (h : toolPose t toolIndex c = .ok x) :
    t.forwardKinematics c = .ok x.1 ∧ x.1.pose toolIndex = some x.2 := by
  unfold toolPose at h
  cases hf : t.forwardKinematics c with
  | error e => rw [hf] at h; exact absurd h (by simp)
  | ok state =>
    rw [hf] at h
    dsimp only at h
    cases hp : state.pose toolIndex with
    | none => rw [hp] at h; exact absurd h (by simp)
    | some pose =>
      rw [hp] at h
      injection h with h
      subst h
      exact ⟨rfl, hp⟩

theorem ik_loop (s : InverseKinematics maxConfig T) (t : KinematicTree maxJoints maxConfig T) (toolIndex : ℕ)
    (target : SE3 T) (P : (Fin maxConfig → T) → Prop)
    (hP : ∀ c, P (s.holdInsideLimits t c)) (budget it : ℕ) (c : Fin maxConfig → T) (hc : P c)
    (r : IkReport maxConfig T) (h : s.loop t toolIndex target budget it c = .ok r) :
    P r.jointPositions ∧ it ≤ r.iterations ∧ r.iterations ≤ it + budget
    ∧ (0 < it + budget → ErrorsAt t toolIndex target r.jointPositions r.positionError r.orientationError)
    ∧ (r.termination = .converged →
      r.positionError ≤ s.positionTolerance ∧ r.orientationError ≤ s.orientationTolerance ∧ it < r.iterations)
    ∧ (r.termination = .stalled → it < r.iterations ∧
      ¬ (r.positionError ≤ s.positionTolerance ∧ r.orientationError ≤ s.orientationTolerance))
    ∧ (r.termination = .iterationBudget → r.iterations = it + budget) := by
  induction budget generalizing it c with
  | zero =>
    unfold InverseKinematics.loop at h
    by_cases hit : 0 < it
    · rw [if_pos hit] at h
      cases hp : toolPose t toolIndex c with
      | error e => rw [hp] at h; exact absurd h (by simp)
      | ok x =>
        rw [hp] at h
        dsimp only at h
        injection h with h
        subst h
        obtain ⟨h1, h2⟩ := toolPose_ok hp
        exact ⟨hc, le_rfl, le_rfl, fun _ => ⟨x.1, x.2, h1, h2, rfl, rfl⟩, (by intro h; cases h), (by intro h; cases h),
          fun _ => rfl⟩
    · rw [if_neg hit] at h
      injection h with h
      subst h
      exact ⟨hc, le_rfl, le_rfl, fun h => absurd h (by omega), (by intro h; cases h), (by intro h; cases h), fun _ => rfl⟩
  | succ budget ih =>
    unfold InverseKinematics.loop at h
    cases hp : toolPose t toolIndex c with
    | error e => rw [hp] at h; exact absurd h (by simp)
    | ok x =>
      rw [hp] at h
      obtain ⟨h1, h2⟩ := toolPose_ok hp
      dsimp only at h
      have he : ErrorsAt t toolIndex target c (splitError (x.2.inverse.compose target).log).1
          (splitError (x.2.inverse.compose target).log).2 := ⟨x.1, x.2, h1, h2, rfl, rfl⟩
      by_cases hconv : (splitError (x.2.inverse.compose target).log).1 ≤ s.positionTolerance
          ∧ (splitError (x.2.inverse.compose target).log).2 ≤ s.orientationTolerance
      · rw [if_pos hconv] at h
        injection h with h
        subst h
        exact ⟨hc, by dsimp only; omega, by dsimp only; omega, fun _ => he, fun _ => ⟨hconv.1, hconv.2, by dsimp only; omega⟩,
          (by intro h; cases h), (by intro h; cases h)⟩
      · rw [if_neg hconv] at h
        cases hs : s.iterationStep t toolIndex c x.1 (x.2.inverse.compose target).log with
        | error e => rw [hs] at h; exact absurd h (by simp)
        | ok step =>
          rw [hs] at h
          dsimp only at h
          by_cases hst : vnorm (vsub (s.holdInsideLimits t (advanced t c step)) c) ≤ s.minimumStepNorm
          · rw [if_pos hst] at h
            injection h with h
            subst h
            exact ⟨hc, by dsimp only; omega, by dsimp only; omega, fun _ => he, (by intro h; cases h),
              fun _ => ⟨by dsimp only; omega, hconv⟩, (by intro h; cases h)⟩
          · rw [if_neg hst] at h
            obtain ⟨g1, g2, g3, g4, g5, g6, g7⟩ := ih (it + 1) _ (hP _) h
            exact ⟨g1, by omega, by omega, fun _ => g4 (by omega), fun h => ⟨(g5 h).1, (g5 h).2.1, by have := (g5 h).2.2; omega⟩,
              fun h => ⟨by have := (g6 h).1; omega, (g6 h).2⟩, fun h => by rw [g7 h]; omega⟩

theorem ik_solve_ok {s : InverseKinematics maxConfig T} {t : KinematicTree maxJoints maxConfig T} {toolIndex : ℕ}
    {target : SE3 T} {seed : Fin maxConfig → T} {r : IkReport maxConfig T}
    (h : s.solve t toolIndex target seed = .ok r) :
    toolIndex < t.len ∧ s.loop t toolIndex target s.maximumIterations 0 (s.holdInsideLimits t seed) = .ok r := by
  unfold InverseKinematics.solve at h
  by_cases h1 : t.len ≤ toolIndex
  · rw [if_pos h1] at h; exact absurd h (by simp)
  rw [if_neg h1] at h
  by_cases h2 : vecIsFinite seed = false ∨ vecIsFinite target.translation = false ∨
      (Fns.isFinite target.rotation.quaternion.w && Fns.isFinite target.rotation.quaternion.x &&
        Fns.isFinite target.rotation.quaternion.y && Fns.isFinite target.rotation.quaternion.z) = false
  · rw [if_pos h2] at h; exact absurd h (by simp)
  rw [if_neg h2] at h
  by_cases h3 : weightsOk t.velocityLen s.jointWeights = false
  · rw [if_pos h3] at h; exact absurd h (by simp)
  rw [if_neg h3] at h
  exact ⟨by omega, h⟩

/-- C57. The errors in a report are those of the returned configuration, however the run ended; `Converged` means both
are within tolerance there, `Stalled` that they are not; at most `maximum_iterations` iterations are counted, and all of
them when the budget ran out.  In any arithmetic. -/
theorem ik_report (s : InverseKinematics maxConfig T) (t : KinematicTree maxJoints maxConfig T) (toolIndex : ℕ)
    (target : SE3 T) (seed : Fin maxConfig → T) (r : IkReport maxConfig T)
    (h : s.solve t toolIndex target seed = .ok r) :
    (0 < s.maximumIterations → ErrorsAt t toolIndex target r.jointPositions r.positionError r.orientationError)
    ∧ (r.termination = .converged →
      r.positionError ≤ s.positionTolerance ∧ r.orientationError ≤ s.orientationTolerance ∧ 0 < r.iterations)
    ∧ (r.termination = .stalled → 0 < r.iterations ∧
      ¬ (r.positionError ≤ s.positionTolerance ∧ r.orientationError ≤ s.orientationTolerance))
    ∧ (r.termination = .iterationBudget → r.iterations = s.maximumIterations)
    ∧ r.iterations ≤ s.maximumIterations := by
  obtain ⟨-, h⟩ := ik_solve_ok h
  obtain ⟨-, -, g3, g4, g5, g6, g7⟩ := ik_loop s t toolIndex target (fun _ => True) (fun _ => trivial) _ _ _ trivial r h
  exact ⟨fun h => g4 (by omega), g5, g6, fun h => by rw [g7 h]; omega, by omega⟩

/-- C57. `solve` refuses a frame the tree does not have, then any seed or target with a value that is not finite, then a
weight that is not positive or is missing. -/
theorem ik_refusals (s : InverseKinematics maxConfig T) (t : KinematicTree maxJoints maxConfig T) (toolIndex : ℕ)
    (target : SE3 T) (seed : Fin maxConfig → T) :
    (t.len ≤ toolIndex → s.solve t toolIndex target seed = .error .toolIndexOutOfRange)
    ∧ (toolIndex < t.len → (∃ k, Fns.isFinite (seed k) = false) → s.solve t toolIndex target seed = .error .nonFinite)
    ∧ (toolIndex < t.len → (∃ k, Fns.isFinite (target.translation k) = false) →
      s.solve t toolIndex target seed = .error .nonFinite)
    ∧ (toolIndex < t.len → Fns.isFinite target.rotation.quaternion.w = false
      ∨ Fns.isFinite target.rotation.quaternion.x = false ∨ Fns.isFinite target.rotation.quaternion.y = false
      ∨ Fns.isFinite target.rotation.quaternion.z = false → s.solve t toolIndex target seed = .error .nonFinite)
    ∧ (∀ r, s.solve t toolIndex target seed = .ok r → ∀ k < t.velocityLen, ∃ h : k < maxConfig, ¬ s.jointWeights ⟨k, h⟩ ≤ 0) := by
  have hv : ∀ {n : ℕ} (v : Fin n → T), (∃ k, Fns.isFinite (v k) = false) → vecIsFinite v = false := by
    rintro n v ⟨k, hk⟩
    rw [← Bool.not_eq_true, vecIsFinite_iff]
    intro h
    rw [h k] at hk
    cases hk
  refine ⟨fun h => if_pos h, fun h hk => ?_, fun h hk => ?_, fun h hk => ?_, fun r h k hk => ?_⟩
  · unfold InverseKinematics.solve
    rw [if_neg (by omega), if_pos (Or.inl (hv _ hk))]
  · unfold InverseKinematics.solve
    rw [if_neg (by omega), if_pos (Or.inr (Or.inl (hv _ hk)))]
  · unfold InverseKinematics.solve
    rw [if_neg (by omega), if_pos (Or.inr (Or.inr (by rcases hk with h | h | h | h <;> simp [h])))]
  · have hw : weightsOk t.velocityLen s.jointWeights = true := by
      unfold InverseKinematics.solve at h
      split_ifs at h with h1 h2 h3
      simpa using h3
    unfold weightsOk at hw
    rw [List.all_eq_true] at hw
    have := hw k (List.mem_range.2 hk)
    by_cases hlt : k < maxConfig
    · rw [reading, dif_pos hlt] at this
      exact ⟨hlt, by simpa using this⟩
    · rw [reading, dif_neg hlt] at this
      exact absurd this (by simp)

/-- C57 (finding). A budget of no iterations reports errors of zero whatever the target, without looking at the tool's
pose; only `termination` tells. -/
theorem ik_no_iterations (s : InverseKinematics maxConfig T) (t : KinematicTree maxJoints maxConfig T) (toolIndex : ℕ)
    (target : SE3 T) (seed : Fin maxConfig → T) (h0 : s.maximumIterations = 0) (r : IkReport maxConfig T)
    (h : s.solve t toolIndex target seed = .ok r) :
    r.positionError = 0 ∧ r.orientationError = 0 ∧ r.iterations = 0 ∧ r.termination = .iterationBudget := by
  obtain ⟨-, h⟩ := ik_solve_ok h
  rw [h0] at h
  unfold InverseKinematics.loop at h
  rw [if_neg (lt_irrefl 0)] at h
  injection h with h
  subst h
  exact ⟨rfl, rfl, rfl, rfl⟩

end structural

/-! ### Joint limits -/

section ordered

variable {T : Type} [LinearOrder T] [Zero T] [One T] [NatCast T] [Add T] [Sub T] [Mul T] [Div T] [Neg T] [BEq T] [Fns T]

/-- Every reading of a joint with limits is between them. -/
def InsideLimits (t : KinematicTree maxJoints maxConfig T) (c : Fin maxConfig → T) : Prop :=
  ∀ i j lower upper o, t.joint i = some j → j.kind ≠ .floating → j.limits = some (lower, upper) →
    t.configOffset i = some o → ∃ h : o < maxConfig, lower ≤ c ⟨o, h⟩ ∧ c ⟨o, h⟩ ≤ upper

theorem built_limits {t : KinematicTree maxJoints maxConfig T} (hb : Built t) {i : ℕ} {j : Joint T}
    (hj : t.joint i = some j) {lower upper : T} (hl : j.limits = some (lower, upper)) : lower ≤ upper := by
  induction hb generalizing i j with
  | new => simp [joint, KinematicTree.new] at hj
  | push hb hp ih =>
    obtain ⟨-, -, -, -, h5, -, j', h7, -, rfl⟩ := (push_cases _ _ _ _).1 hp
    unfold joint at hj
    rw [joint_append] at hj
    split_ifs at hj with h1 h2
    · exact ih hj hl
    · simp only [Option.map_some, Option.some.injEq] at hj
      subst hj
      rw [(normalizeAxis_kind h7).2.2.2.2] at hl
      unfold Joint.checkLimits at h5
      rw [hl] at h5
      dsimp only at h5
      split_ifs at h5 with h6 h8
      exact not_lt.1 h8
    · simp at hj

theorem configOffset_injective {t : KinematicTree maxJoints maxConfig T} {i k o : ℕ} (hi : t.configOffset i = some o)
    (hk : t.configOffset k = some o) : i = k := by
  rw [configOffset_some] at hi hk
  obtain ⟨-, rfl⟩ := hi
  obtain ⟨-, hk⟩ := hk
  split_ifs at hk <;> simp_all <;> omega

theorem holdInsideLimits_inside {t : KinematicTree maxJoints maxConfig T} (hb : Built t)
    (s : InverseKinematics maxConfig T) (hs : s.respectLimits = true) (c : Fin maxConfig → T) :
    InsideLimits t (s.holdInsideLimits t c) := by
  unfold InverseKinematics.holdInsideLimits
  rw [if_neg (by simp [hs])]
  have hfit : ∀ i j o, t.joint i = some j → t.configOffset i = some o → o < maxConfig := by
    intro i j o hj ho
    obtain ⟨-, h2, -, -, h5, -⟩ := offsets_partition hb
    have := h2 i j o hj ho
    split_ifs at this <;> omega
  suffices key : ∀ n ≤ t.len, ∀ i < n, ∀ j lower upper o, t.joint i = some j → j.kind ≠ .floating →
      j.limits = some (lower, upper) → t.configOffset i = some o → ∃ h : o < maxConfig,
      lower ≤ (List.range n).foldl _ c ⟨o, h⟩ ∧ (List.range n).foldl _ c ⟨o, h⟩ ≤ upper by
    intro i j lower upper o hj
    exact key t.len le_rfl i (joint_some_lt hj) j lower upper o hj
  intro n
  induction n with
  | zero => intro _ i hi; omega
  | succ n ih =>
    intro hn i hi j lower upper o hj hf hl ho
    rw [List.range_succ, List.foldl_append, List.foldl_cons, List.foldl_nil]
    have hlt := hfit i j o hj ho
    refine ⟨hlt, ?_⟩
    by_cases hin : i = n
    · subst hin
      rw [hj]
      dsimp only
      rw [if_neg hf, hl, ho]
      dsimp only
      rw [reading, dif_pos hlt]
      dsimp only [writeAt]
      rw [if_pos rfl]
      exact ⟨le_min (le_max_right _ _) (built_limits hb hj hl), min_le_right _ _⟩
    · obtain ⟨_, h1, h2⟩ := ih (by omega) i (by omega) j lower upper o hj hf hl ho
      generalize (List.range n).foldl _ c = d at h1 h2 ⊢
      obtain ⟨jn, hjn⟩ := joint_exists (show n < t.len by omega)
      rw [hjn]
      dsimp only
      by_cases hfn : jn.kind = .floating
      · rw [if_pos hfn]; exact ⟨h1, h2⟩
      · rw [if_neg hfn]
        cases hln : jn.limits with
        | none => exact ⟨h1, h2⟩
        | some lu =>
          cases hon : t.configOffset n with
          | none => exact ⟨h1, h2⟩
          | some on =>
            dsimp only
            cases reading d on with
            | none => exact ⟨h1, h2⟩
            | some v =>
              dsimp only [writeAt]
              rw [if_neg (fun e => hin (configOffset_injective ho (by rw [hon, ← e])))]
              exact ⟨h1, h2⟩

/-- C57. While `respect_limits` is on (the default), every configuration `solve` returns is inside the joint limits,
whatever the seed and however the run ended.  In any arithmetic with a linear order. -/
theorem ik_inside_limits {t : KinematicTree maxJoints maxConfig T} (hb : Built t) (s : InverseKinematics maxConfig T)
    (hs : s.respectLimits = true) (toolIndex : ℕ) (target : SE3 T) (seed : Fin maxConfig → T)
    (r : IkReport maxConfig T) (h : s.solve t toolIndex target seed = .ok r) : InsideLimits t r.jointPositions := by
  obtain ⟨-, h⟩ := ik_solve_ok h
  exact (ik_loop s t toolIndex target (InsideLimits t) (fun c => holdInsideLimits_inside hb s hs c) _ _ _
    (holdInsideLimits_inside hb s hs seed) r h).1

end ordered

/-! ### Exact arithmetic -/

theorem weightedTranspose_ok {J : KinematicJacobian maxConfig ℝ} {w : Fin maxConfig → ℝ}
    (h : weightsOk J.columns w = true) :
    J.weightedTranspose w = .ok fun index row => if J.columns ≤ index.val then 0 else J.entries row index / w index := by
  unfold KinematicJacobian.weightedTranspose
  rw [if_neg (by simp [h])]

theorem jointStep_ok {J : KinematicJacobian maxConfig ℝ} {w : Fin maxConfig → ℝ} (h : weightsOk J.columns w = true)
    (e : Fin 6 → ℝ) (b : Fin maxConfig → ℝ) (threshold damping : ℝ) :
    ∃ step, jointStep J e b w threshold damping = .ok step := by
  unfold jointStep
  rw [weightedTranspose_ok h]
  dsimp only
  obtain ⟨d, hd, -⟩ := svd_spec (mmul J.entries
    (fun index row => if J.columns ≤ index.val then 0 else J.entries row index / w index)) le_rfl
  rw [hd]
  dsimp only
  generalize (if threshold ≤ Fns.sqrt (max (d.singularValues 5) 0) then (0 : ℝ) else _) = damp
  obtain ⟨d', hd', -⟩ := svd_spec (madd (mmul J.entries
    (fun index row => if J.columns ≤ index.val then 0 else J.entries row index / w index)) (mscale (midentity 6) damp)) le_rfl
  rw [hd']
  exact ⟨_, rfl⟩

/-- C57. On a tree without a floating base, with positive weights, `solve` always returns a report. -/
theorem ik_total {t : KinematicTree maxJoints maxConfig ℝ} (hb : Built t) (hf : t.hasFloatingBase = false)
    (s : InverseKinematics maxConfig ℝ) (hw : ∀ k, 0 < s.jointWeights k) (toolIndex : ℕ) (ht : toolIndex < t.len)
    (target : SE3 ℝ) (seed : Fin maxConfig → ℝ) : ∃ r, s.solve t toolIndex target seed = .ok r := by
  have hv : t.velocityLen ≤ maxConfig := (offsets_partition hb).2.2.2.2.2
  have hweights : weightsOk t.velocityLen s.jointWeights = true := by
    unfold weightsOk
    rw [List.all_eq_true]
    intro k hk
    rw [List.mem_range] at hk
    rw [reading, dif_pos (by omega)]
    simpa using hw _
  have hfk : ∀ c, ∃ x, toolPose t toolIndex c = .ok x ∧ x.1.length = t.len := by
    intro c
    obtain ⟨st, hst⟩ := ((fk_refusals hb c).2 fun _ _ _ _ _ _ _ _ _ => rfl).1 hf
    have hlen : st.length = t.len := (fk_ok_inv (built_wellFormed hb) hst).1
    refine ⟨(st, st.poses toolIndex), ?_, hlen⟩
    unfold toolPose
    rw [hst]
    dsimp only
    rw [pose_some (by omega)]
  have hloop : ∀ budget it c, ∃ r, s.loop t toolIndex target budget it c = .ok r := by
    intro budget
    induction budget with
    | zero =>
      intro it c
      unfold InverseKinematics.loop
      obtain ⟨x, hx, -⟩ := hfk c
      by_cases h : 0 < it
      · rw [if_pos h, hx]; exact ⟨_, rfl⟩
      · rw [if_neg h]; exact ⟨_, rfl⟩
    | succ budget ih =>
      intro it c
      unfold InverseKinematics.loop
      obtain ⟨x, hx, hlen⟩ := hfk c
      rw [hx]
      dsimp only
      split_ifs with h1
      · exact ⟨_, rfl⟩
      · have hstep : ∃ step, s.iterationStep t toolIndex c x.1 (x.2.inverse.compose target).log = .ok step := by
          unfold InverseKinematics.iterationStep
          obtain ⟨J, hJ, hcol, -⟩ := jacobian_ok hb x.1 hlen toolIndex ht .body
          rw [hJ]
          dsimp only
          obtain ⟨step, hs⟩ := jointStep_ok (J := J) (w := s.jointWeights) (by rw [hcol]; exact hweights)
            (x.2.inverse.compose target).log (secondaryBias s.secondaryObjective t c s.secondaryGain)
            s.singularValueThreshold s.maximumDamping
          rw [hs]
          exact ⟨_, rfl⟩
        obtain ⟨step, hstep⟩ := hstep
        rw [hstep]
        dsimp only
        split_ifs
        · exact ⟨_, rfl⟩
        · exact ih _ _
  unfold InverseKinematics.solve
  rw [if_neg (by omega), if_neg (by simp [real_vecIsFinite, Fns.isFinite]), if_neg (by simp [hweights])]
  exact hloop _ _ _

/-- The two-link arm answers every request: used by the examples below. -/
theorem ik_example (target : SE3 ℝ) (seed : Fin 2 → ℝ) : ∃ (t : KinematicTree 2 2 ℝ) (r : IkReport 2 ℝ), Built t
    ∧ t.hasFloatingBase = false ∧ (InverseKinematics.new : InverseKinematics 2 ℝ).solve t 1 target seed = .ok r := by
  obtain ⟨t, hb, hl, -, ⟨j, hj, hk⟩, -⟩ := arm_exists
  have hf : t.hasFloatingBase = false := by
    by_contra h
    obtain ⟨j', hj', hk'⟩ := (hasFloatingBase_iff t).1 (by simpa using h)
    rw [hj] at hj'; cases hj'
    rw [hk] at hk'; cases hk'
  obtain ⟨r, hr⟩ := ik_total hb hf InverseKinematics.new (fun _ => by simp [InverseKinematics.new]) 1 (by omega) target seed
  exact ⟨t, r, hb, hf, hr⟩

example (target : SE3 ℝ) (seed : Fin 2 → ℝ) : ∃ (t : KinematicTree 2 2 ℝ) (r : IkReport 2 ℝ),
    (InverseKinematics.new : InverseKinematics 2 ℝ).solve t 1 target seed = .ok r
    ∧ ErrorsAt t 1 target r.jointPositions r.positionError r.orientationError ∧ r.iterations ≤ 100 := by
  obtain ⟨t, r, -, -, h⟩ := ik_example target seed
  obtain ⟨h1, -, -, -, h5⟩ := ik_report _ t 1 target seed r h
  exact ⟨t, r, h, h1 (by simp [InverseKinematics.new]), h5⟩

example (target : SE3 ℝ) (seed : Fin 2 → ℝ) : ∃ (t : KinematicTree 2 2 ℝ) (r : IkReport 2 ℝ),
    (InverseKinematics.new : InverseKinematics 2 ℝ).solve t 1 target seed = .ok r ∧ InsideLimits t r.jointPositions := by
  obtain ⟨t, r, hb, -, h⟩ := ik_example target seed
  exact ⟨t, r, h, ik_inside_limits hb _ rfl 1 target seed r h⟩

/-- The inverse of the left Jacobian never shortens a vector. -/
theorem inverseLeftJacobian_expands (φ v : Fin 3 → ℝ) (hφ : vnorm φ ≤ Real.pi) :
    vnorm v ≤ vnorm (mmulVec (inverseLeftJacobianSo3 φ) v) := by
  rw [vnorm_le_iff]
  obtain ⟨c, hc⟩ : ∃ c, so3Coeff3 (vdot φ φ) = c := ⟨_, rfl⟩
  have hθ0 : 0 ≤ vdot φ φ := by rw [vdot3]; nlinarith [mul_self_nonneg (φ 0), mul_self_nonneg (φ 1), mul_self_nonneg (φ 2)]
  have hkey : 0 ≤ vdot φ φ * (1 / 4 - 2 * c + c ^ 2 * vdot φ φ) := by
    rw [← hc]
    by_cases h : 1 / 6000 ≤ vdot φ φ
    · obtain ⟨-, -, k3⟩ := so3_coeffs_main _ h
      rw [k3]
      have hsq : Real.sqrt (vdot φ φ) = vnorm φ := rfl
      rw [hsq]
      have hn := vnorm_sq φ
      have hn0 := vnorm_nonneg φ
      have hpos : 0 < vnorm φ := by
        rcases hn0.lt_or_eq with h' | h'
        · exact h'
        · rw [← h'] at hn; norm_num at hn; rw [← hn] at h; norm_num at h
      rw [← hn]
      generalize vnorm φ = θ at *
      have hs : 0 < Real.sin (θ / 2) := Real.sin_pos_of_pos_of_lt_pi (by linarith) (by linarith [Real.pi_pos])
      have hle : Real.sin (θ / 2) ≤ θ / 2 := Real.sin_le (by linarith)
      have hcs := Real.sin_sq_add_cos_sq (θ / 2)
      generalize Real.cos (θ / 2) = C at *
      generalize Real.sin (θ / 2) = S at *
      have e : θ * θ * (1 / 4 - 2 * ((1 - θ / 2 * (C / S)) / (θ * θ)) + ((1 - θ / 2 * (C / S)) / (θ * θ)) ^ 2 * (θ * θ))
          = ((θ / 2) ^ 2 * (S ^ 2 + C ^ 2) - S ^ 2) / S ^ 2 := by
        field_simp
        ring
      rw [e, hcs]
      apply div_nonneg _ (sq_nonneg _)
      nlinarith
    · push Not at h
      unfold so3Coeff3
      by_cases hs : vdot φ φ < Fns.cbrt (Fns.lit 15120 * Fns.epsilon)
      · rw [if_pos hs]
        simp only [real_lit]
        push_cast
        apply mul_nonneg hθ0
        nlinarith [sq_nonneg (1 / 12 + vdot φ φ / 720)]
      · rw [if_neg hs]
        have hpos : 0 < vdot φ φ := by
          refine lt_of_lt_of_le ?_ (not_lt.1 hs)
          refine lt_of_lt_of_le (by norm_num : (0 : ℝ) < 1 / 2 ^ 52) (cbrt_ge ?_ (by norm_num) ?_)
          · rw [real_lit]; change (0 : ℝ) ≤ _ * (1 / 2 ^ 52); positivity
          · rw [real_lit]; change _ ≤ _ * (1 / 2 ^ 52 : ℝ); norm_num
        have hn := vnorm_sq φ
        have hn0 := vnorm_nonneg φ
        have hsq : Fns.sqrt (vdot φ φ) = vnorm φ := rfl
        dsimp only
        rw [hsq, half_real, show (Fns.cos : ℝ → ℝ) = Real.cos from rfl, show (Fns.sin : ℝ → ℝ) = Real.sin from rfl]
        have hpos' : 0 < vnorm φ := by
          rcases hn0.lt_or_eq with h' | h'
          · exact h'
          · rw [← h'] at hn; norm_num at hn; rw [← hn] at hpos; exact absurd hpos (lt_irrefl _)
        rw [← hn]
        rw [show vnorm φ * (1 / 2) = vnorm φ / 2 by ring]
        generalize vnorm φ = θ at *
        have hs : 0 < Real.sin (θ / 2) := Real.sin_pos_of_pos_of_lt_pi (by linarith) (by linarith [Real.pi_pos])
        have hle : Real.sin (θ / 2) ≤ θ / 2 := Real.sin_le (by linarith)
        have hcs := Real.sin_sq_add_cos_sq (θ / 2)
        generalize Real.cos (θ / 2) = C at *
        generalize Real.sin (θ / 2) = S at *
        have e : θ * θ * (1 / 4 - 2 * ((1 - θ / 2 * (C / S)) / (θ * θ)) + ((1 - θ / 2 * (C / S)) / (θ * θ)) ^ 2 * (θ * θ))
            = ((θ / 2) ^ 2 * (S ^ 2 + C ^ 2) - S ^ 2) / S ^ 2 := by
          field_simp
          ring
        rw [e, hcs]
        apply div_nonneg _ (sq_nonneg _)
        nlinarith
  have hexp : vdot (mmulVec (inverseLeftJacobianSo3 φ) v) (mmulVec (inverseLeftJacobianSo3 φ) v)
      = vdot v v + vdot (cross φ v) (cross φ v) * (1 / 4 - 2 * c + c ^ 2 * vdot φ φ) := by
    unfold inverseLeftJacobianSo3
    dsimp only
    rw [hc]
    simp only [mmulVec_eq, mmul_eq, vdot3, half_real]
    simp only [Matrix.mulVec, dotProduct, Fin.sum_univ_three, madd, msub, mscale, midentity_eq, Matrix.mul_apply, skew3, cross]
    simp
    ring
  have hcross : vdot (cross φ v) (cross φ v) ≤ vdot φ φ * vdot v v ∧ 0 ≤ vdot (cross φ v) (cross φ v) := by
    have e : vdot (cross φ v) (cross φ v) = vdot φ φ * vdot v v - vdot φ v ^ 2 := by
      simp [vdot3, cross]; ring
    constructor
    · rw [e]; nlinarith [sq_nonneg (vdot φ v)]
    · rw [vdot3]; nlinarith [mul_self_nonneg (cross φ v 0), mul_self_nonneg (cross φ v 1), mul_self_nonneg (cross φ v 2)]
  rw [hexp]
  rcases hθ0.lt_or_eq with h | h
  · have := nonneg_of_mul_nonneg_right hkey h
    nlinarith [mul_nonneg hcross.2 this]
  · have : vdot (cross φ v) (cross φ v) = 0 := by
      apply le_antisymm _ hcross.2
      rw [← h, zero_mul] at hcross
      exact hcross.1
    rw [this]; linarith

/-- C57. The reported position error bounds how far the tool is from the target, and the reported orientation error is
the length of the rotation vector between them, at most π.  So `Converged` means the tool is within `position_tolerance`
of the target position. -/
theorem ik_distance {t : KinematicTree maxJoints maxConfig ℝ} {toolIndex : ℕ} {target : SE3 ℝ} {c : Fin maxConfig → ℝ}
    {position orientation : ℝ} (h : ErrorsAt t toolIndex target c position orientation)
    (hu : target.rotation.quaternion.IsUnit) :
    ∃ state pose, t.forwardKinematics c = .ok state ∧ state.pose toolIndex = some pose
      ∧ (pose.rotation.quaternion.IsUnit → vnorm (vsub target.translation pose.translation) ≤ position
        ∧ orientation = vnorm (pose.rotation.inverse.compose target.rotation).log ∧ orientation ≤ Real.pi) := by
  obtain ⟨state, pose, h1, h2, rfl, rfl⟩ := h
  refine ⟨state, pose, h1, h2, fun hp => ?_⟩
  have hrot : (pose.inverse.compose target).rotation = pose.rotation.inverse.compose target.rotation := rfl
  have htr : (pose.inverse.compose target).translation
      = pose.rotation.inverse.act (vsub target.translation pose.translation) := by
    apply vec3_ext <;>
      simp [SE3.compose, SE3.inverse, SO3.act, transformPoint_explicit, vadd, vsub, vneg] <;> ring
  have hinv : pose.rotation.inverse.quaternion.IsUnit := by
    unfold Quat.IsUnit at hp ⊢
    simp only [SO3.inverse, Quat.conjugate]
    linarith
  have hunit : (pose.rotation.inverse.compose target.rotation).quaternion.IsUnit := by
    unfold Quat.IsUnit at hinv hu ⊢
    simp only [SO3.compose, Quat.mul]
    grind
  have hpi : vnorm (pose.rotation.inverse.compose target.rotation).log ≤ Real.pi := (so3_exp_log _ hunit).1
  have htail : tail3 (pose.inverse.compose target).log = (pose.rotation.inverse.compose target.rotation).log := by
    rw [← hrot]
    apply vec3_ext <;> simp [tail3, SE3.log]
  have hhead : head3 (pose.inverse.compose target).log
      = mmulVec (inverseLeftJacobianSo3 (pose.rotation.inverse.compose target.rotation).log)
        (pose.rotation.inverse.act (vsub target.translation pose.translation)) := by
    rw [← hrot, ← htr]
    apply vec3_ext <;> simp [head3, SE3.log]
  rw [htail, hhead]
  refine ⟨le_trans (le_of_eq ?_) (inverseLeftJacobian_expands _ _ hpi), rfl, hpi⟩
  rw [vnorm, vnorm]
  congr 1
  exact (so3_group _ _ SO3.identity hinv hinv _ _).2.2.2.2.2.2.2.2.2.2.2.1.symm

example : ∃ (t : KinematicTree 2 2 ℝ) (r : IkReport 2 ℝ), ErrorsAt t 1 SE3.identity r.jointPositions r.positionError
    r.orientationError ∧ (SE3.identity : SE3 ℝ).rotation.quaternion.IsUnit := by
  obtain ⟨t, r, -, -, h⟩ := ik_example SE3.identity fun _ => 0
  obtain ⟨h1, -⟩ := ik_report _ t 1 _ _ r h
  exact ⟨t, r, h1 (by simp [InverseKinematics.new]), by simp [SE3.identity, SO3.identity, Quat.identity, Quat.IsUnit]⟩

/-! ### The length of a step -/

theorem plain_joint {t : KinematicTree maxJoints maxConfig ℝ} (hb : Built t) (hf : t.hasFloatingBase = false) {i : ℕ}
    (hi : i < t.len) : ∃ j, t.joint i = some j ∧ j.kind ≠ .floating ∧ t.configOffset i = some i
      ∧ t.velocityOffset i = some i ∧ i < maxConfig := by
  obtain ⟨j, hj⟩ := joint_exists hi
  have hc : t.configOffset i = some i := by rw [configOffset_some, hf]; simp [hi]
  have hv : t.velocityOffset i = some i := by rw [velocityOffset_some, hf]; simp [hi]
  refine ⟨j, hj, fun h => ?_, hc, hv, ?_⟩
  · obtain ⟨rfl, -⟩ := (built_wellFormed hb).floating i j hj h
    rw [(hasFloatingBase_iff t).2 ⟨j, hj, h⟩] at hf
    cases hf
  · obtain ⟨-, h2, -, -, h5, -⟩ := offsets_partition hb
    have := h2 i j i hj hc
    split_ifs at this <;> omega

/-- C57. The step of one iteration is the solver's step with the fixed joints held, shortened if it is longer than
`maximum_step_norm`, without changing its direction. -/
theorem limited_step {t : KinematicTree maxJoints maxConfig ℝ} (hb : Built t) (hf : t.hasFloatingBase = false)
    (step : Fin maxConfig → ℝ) (bound : ℝ) (hbound : 0 ≤ bound) :
    vnorm (limitedStep step t bound) ≤ bound
    ∧ ∃ k, 0 ≤ k ∧ k ≤ 1 ∧ (vnorm step ≤ bound → k = 1)
      ∧ ∀ i, limitedStep step t bound i
        = if ∃ j, t.joint i = some j ∧ j.kind ≠ .fixed then k * step i else 0 := by
  classical
  have hmask : ∀ i, maskedStep step t i = if ∃ j, t.joint i = some j ∧ j.kind ≠ .fixed then step i else 0 := by
    intro i
    have e : (i.val < t.len ∧ ∃ j, t.joint i = some j ∧ j.kind ≠ .fixed) = ∃ j, t.joint i = some j ∧ j.kind ≠ .fixed := by
      simp only [eq_iff_iff, and_iff_right_iff_imp]
      rintro ⟨j, hj, -⟩
      exact joint_some_lt hj
    unfold maskedStep
    suffices key : ∀ n ≤ t.len, (List.range n).foldl _ (fun _ => 0) i
        = if i.val < n ∧ ∃ j, t.joint i = some j ∧ j.kind ≠ .fixed then step i else 0 by
      have := key t.len le_rfl
      simp only [e] at this
      exact this
    intro n
    induction n with
    | zero => intro _; simp
    | succ n ih =>
      intro hn
      rw [List.range_succ, List.foldl_append, List.foldl_cons, List.foldl_nil]
      obtain ⟨j, hj, hk, -, hv, -⟩ := plain_joint hb hf (show n < t.len by omega)
      have ih := ih (by omega)
      generalize (List.range n).foldl _ _ = d at ih ⊢
      rw [hj, hv]
      dsimp only
      rw [if_neg hk]
      by_cases hin : i.val = n
      · rw [hin, hj]
        by_cases hfix : j.kind = .fixed
        · rw [if_pos hfix, ih, if_neg (by omega), if_neg]
          rintro ⟨-, j', h1, h2⟩
          cases h1; exact h2 hfix
        · rw [if_neg hfix, copySlots, if_pos (by omega), if_pos ⟨by omega, j, rfl, hfix⟩]
      · have e : (i.val < n + 1) = (i.val < n) := by simp; omega
        simp only [e]
        by_cases hfix : j.kind = .fixed
        · rw [if_pos hfix, ih]
        · rw [if_neg hfix, copySlots, if_neg (by omega), ih]
  have hle : vnorm (maskedStep step t) ≤ vnorm step := by
    have h0 := vnorm_nonneg step
    rw [vnorm, vnorm, real_sqrt]
    apply Real.sqrt_le_sqrt
    rw [vnormSquared, vnormSquared, vdot_sum, vdot_sum]
    refine Finset.sum_le_sum fun i _ => ?_
    rw [hmask]
    split_ifs
    · exact le_rfl
    · simpa using mul_self_nonneg (step i)
  unfold limitedStep
  dsimp only
  have hn0 := vnorm_nonneg (maskedStep step t)
  by_cases h : bound < vnorm (maskedStep step t) ∧ 0 < vnorm (maskedStep step t)
  · rw [if_pos h]
    have hk0 : 0 ≤ bound / vnorm (maskedStep step t) := div_nonneg hbound hn0
    have hk1 : bound / vnorm (maskedStep step t) ≤ 1 := by rw [div_le_one h.2]; exact h.1.le
    constructor
    · have hsq : vdot (vscaleBy (maskedStep step t) (bound / vnorm (maskedStep step t)))
          (vscaleBy (maskedStep step t) (bound / vnorm (maskedStep step t))) = bound ^ 2 := by
        have e : vdot (vscaleBy (maskedStep step t) (bound / vnorm (maskedStep step t)))
          (vscaleBy (maskedStep step t) (bound / vnorm (maskedStep step t)))
            = (bound / vnorm (maskedStep step t)) ^ 2 * vdot (maskedStep step t) (maskedStep step t) := by
          rw [vdot_sum, vdot_sum, Finset.mul_sum]
          refine Finset.sum_congr rfl fun i _ => ?_
          simp only [vscaleBy]; ring
        rw [e, ← vnorm_sq]
        have := h.2.ne'
        field_simp
      rw [vnorm, vnormSquared, hsq, real_sqrt, Real.sqrt_sq hbound]
    · refine ⟨_, hk0, hk1, fun hb => absurd (hle.trans hb) (not_le.2 h.1), fun i => ?_⟩
      rw [vscaleBy, hmask]
      split_ifs
      · ring
      · ring
  · rw [if_neg h]
    constructor
    · by_contra hc
      exact h ⟨not_le.1 hc, hbound.trans_lt (not_le.1 hc)⟩
    · refine ⟨1, zero_le_one, le_rfl, fun _ => rfl, fun i => ?_⟩
      rw [hmask]
      split_ifs
      · ring
      · rfl

/-- C57. From a configuration inside the limits, one iteration moves each joint by at most its share of the step, limits
included, so the whole move is no longer than the step. -/
theorem advanced_step {t : KinematicTree maxJoints maxConfig ℝ} (hb : Built t) (hf : t.hasFloatingBase = false)
    (s : InverseKinematics maxConfig ℝ) (c step : Fin maxConfig → ℝ)
    (hc : s.respectLimits = true → InsideLimits t c) (hstep : ∀ i : Fin maxConfig, t.len ≤ i.val → step i = 0) :
    advanced t c step = vadd c step
    ∧ (∀ i, |s.holdInsideLimits t (advanced t c step) i - c i| ≤ |step i|)
    ∧ vnorm (vsub (s.holdInsideLimits t (advanced t c step)) c) ≤ vnorm step := by
  have hadv : advanced t c step = vadd c step := by
    ext i
    have e : (if i.val < t.len then c i + step i else c i) = vadd c step i := by
      split_ifs with h
      · rfl
      · rw [vadd, hstep i (by omega), add_zero]
    rw [← e]
    unfold advanced
    suffices key : ∀ n ≤ t.len, (List.range n).foldl _ c i = if i.val < n then c i + step i else c i by
      exact key t.len le_rfl
    intro n
    induction n with
    | zero => intro _; simp
    | succ n ih =>
      intro hn
      rw [List.range_succ, List.foldl_append, List.foldl_cons, List.foldl_nil]
      obtain ⟨j, hj, hk, hco, hv, hlt⟩ := plain_joint hb hf (show n < t.len by omega)
      have ih := ih (by omega)
      generalize (List.range n).foldl _ _ = d at ih ⊢
      rw [hj, hv, hco]
      dsimp only
      rw [if_neg hk, reading, dif_pos hlt, reading, dif_pos hlt]
      dsimp only [writeAt]
      by_cases hin : i.val = n
      · subst hin
        rw [if_pos rfl, if_pos (by omega)]
        rw [if_neg (lt_irrefl _)] at ih
        change d i + step i = _
        rw [ih]
      · rw [if_neg hin, ih]
        have e : (i.val < n + 1) = (i.val < n) := by simp; omega
        simp only [e]
  have habs : ∀ i, |s.holdInsideLimits t (advanced t c step) i - c i| ≤ |step i| := by
    intro i
    rw [hadv]
    unfold InverseKinematics.holdInsideLimits
    split_ifs with hr
    · simp [vadd]
    · have hin := hc (by simpa using hr)
      generalize List.range t.len = l
      induction l using List.reverseRecOn with
      | nil => simp [vadd]
      | append_singleton l index ih =>
        rw [List.foldl_append, List.foldl_cons, List.foldl_nil]
        generalize l.foldl _ _ = d at ih ⊢
        cases hj : t.joint index with
        | none => exact ih
        | some joint =>
          dsimp only
          by_cases hfl : joint.kind = .floating
          · rw [if_pos hfl]; exact ih
          rw [if_neg hfl]
          cases hl : joint.limits with
          | none => exact ih
          | some lu =>
            cases ho : t.configOffset index with
            | none => exact ih
            | some configAt =>
              dsimp only
              cases hs : reading d configAt with
              | none => exact ih
              | some slot =>
                dsimp only [writeAt]
                split_ifs with hi
                · obtain ⟨hlt, h1, h2⟩ := hin index joint lu.1 lu.2 configAt hj hfl hl ho
                  rw [reading, dif_pos hlt] at hs
                  injection hs with hs
                  have e : (⟨configAt, hlt⟩ : Fin maxConfig) = i := Fin.ext hi.symm
                  rw [e] at h1 h2 hs
                  rw [← hs]
                  refine le_trans ?_ ih
                  rw [abs_le]
                  rcases le_total (d i) (c i) with hd | hd
                  · rw [abs_of_nonpos (by linarith)]
                    constructor
                    · have : d i ≤ min (max (d i) lu.1) lu.2 := le_min (le_max_left _ _) (hd.trans h2)
                      linarith
                    · have : min (max (d i) lu.1) lu.2 ≤ c i := (min_le_left _ _).trans (max_le hd h1)
                      linarith
                  · rw [abs_of_nonneg (by linarith)]
                    constructor
                    · have : c i ≤ min (max (d i) lu.1) lu.2 := le_min (hd.trans (le_max_left _ _)) h2
                      linarith
                    · have : min (max (d i) lu.1) lu.2 ≤ d i :=
                        (min_le_left _ _).trans (max_le le_rfl (h1.trans hd))
                      linarith
                · exact ih
  refine ⟨hadv, habs, ?_⟩
  rw [vnorm, vnorm, real_sqrt]
  apply Real.sqrt_le_sqrt
  rw [vnormSquared, vnormSquared, vdot_sum, vdot_sum]
  refine Finset.sum_le_sum fun i _ => ?_
  rw [vsub, ← abs_mul_abs_self, ← abs_mul_abs_self (step i)]
  exact mul_self_le_mul_self (abs_nonneg _) (habs i)

theorem vnorm_triangle (x y z : Fin maxConfig → ℝ) : vnorm (vsub x z) ≤ vnorm (vsub x y) + vnorm (vsub y z) := by
  have e : ∀ v : Fin maxConfig → ℝ, vnorm v = ‖WithLp.toLp 2 v‖ := by
    intro v
    rw [EuclideanSpace.norm_eq, vnorm, vnormSquared, vdot_sum, real_sqrt]
    congr 1
    refine Finset.sum_congr rfl fun i _ => ?_
    rw [Real.norm_eq_abs, sq_abs, sq]
  rw [e, e, e]
  have h : WithLp.toLp 2 (vsub x z) = WithLp.toLp 2 (vsub x y) + WithLp.toLp 2 (vsub y z) := by
    ext i; simp [vsub]
  rw [h]
  exact norm_add_le _ _

/-- C57. Each iteration moves the configuration by at most `maximum_step_norm`, so the answer is at most
`iterations · maximum_step_norm` away from the seed (as clamped to the limits). -/
theorem ik_travel {t : KinematicTree maxJoints maxConfig ℝ} (hb : Built t) (hf : t.hasFloatingBase = false)
    (s : InverseKinematics maxConfig ℝ) (hbound : 0 ≤ s.maximumStepNorm) (toolIndex : ℕ) (target : SE3 ℝ)
    (seed : Fin maxConfig → ℝ) (r : IkReport maxConfig ℝ) (h : s.solve t toolIndex target seed = .ok r) :
    vnorm (vsub r.jointPositions (s.holdInsideLimits t seed)) ≤ r.iterations * s.maximumStepNorm := by
  have hzero : ∀ c : Fin maxConfig → ℝ, vnorm (vsub c c) = 0 := by
    intro c
    rw [vnorm, vnormSquared, vdot_sum, real_sqrt]
    simp [vsub]
  have hloop : ∀ budget it c, (s.respectLimits = true → InsideLimits t c) →
      s.loop t toolIndex target budget it c = .ok r →
      vnorm (vsub r.jointPositions c) + it * s.maximumStepNorm ≤ r.iterations * s.maximumStepNorm := by
    intro budget
    induction budget with
    | zero =>
      intro it c _ h
      unfold InverseKinematics.loop at h
      split_ifs at h with h0
      · cases hx : toolPose t toolIndex c with
        | error e => rw [hx] at h; cases h
        | ok x =>
          rw [hx] at h
          dsimp only at h
          injection h with h; subst h
          rw [hzero, zero_add]
      · injection h with h; subst h
        rw [hzero, zero_add]
    | succ budget ih =>
      intro it c hc h
      unfold InverseKinematics.loop at h
      cases hx : toolPose t toolIndex c with
      | error e => rw [hx] at h; cases h
      | ok x =>
        rw [hx] at h
        dsimp only at h
        by_cases h1 : (splitError (x.2.inverse.compose target).log).1 ≤ s.positionTolerance
          ∧ (splitError (x.2.inverse.compose target).log).2 ≤ s.orientationTolerance
        · rw [if_pos h1] at h
          injection h with h; subst h
          rw [hzero, zero_add]
          push_cast
          nlinarith
        · rw [if_neg h1] at h
          cases hs : s.iterationStep t toolIndex c x.1 (x.2.inverse.compose target).log with
          | error e => rw [hs] at h; cases h
          | ok step =>
            rw [hs] at h
            dsimp only at h
            by_cases h2 : vnorm (vsub (s.holdInsideLimits t (advanced t c step)) c) ≤ s.minimumStepNorm
            · rw [if_pos h2] at h
              injection h with h; subst h
              rw [hzero, zero_add]
              push_cast
              nlinarith
            · rw [if_neg h2] at h
              have ih := ih _ _ (fun hr => holdInsideLimits_inside hb s hr _) h
              have hstep : ∃ raw, step = limitedStep raw t s.maximumStepNorm := by
                unfold InverseKinematics.iterationStep at hs
                cases hJ : t.geometricJacobian x.1 toolIndex .body with
                | error e => rw [hJ] at hs; cases hs
                | ok J =>
                  rw [hJ] at hs
                  dsimp only at hs
                  cases hj : jointStep J (x.2.inverse.compose target).log
                      (secondaryBias s.secondaryObjective t c s.secondaryGain) s.jointWeights s.singularValueThreshold
                      s.maximumDamping with
                  | error e => rw [hj] at hs; cases hs
                  | ok raw =>
                    rw [hj] at hs
                    injection hs with hs
                    exact ⟨raw, hs.symm⟩
              obtain ⟨raw, rfl⟩ := hstep
              obtain ⟨l1, k, -, -, -, l2⟩ := limited_step hb hf raw s.maximumStepNorm hbound
              have hmove := (advanced_step hb hf s c (limitedStep raw t s.maximumStepNorm) hc (fun i hi => by
                rw [l2, if_neg]
                rintro ⟨j, hj, -⟩
                have := joint_some_lt hj
                omega)).2.2
              have htri := vnorm_triangle r.jointPositions
                (s.holdInsideLimits t (advanced t c (limitedStep raw t s.maximumStepNorm))) c
              push_cast at ih
              linarith
  obtain ⟨-, h⟩ := ik_solve_ok h
  have := hloop _ _ _ (fun hr => holdInsideLimits_inside hb s hr _) h
  simpa using this

example : ∃ (t : KinematicTree 2 2 ℝ) (r : IkReport 2 ℝ),
    (InverseKinematics.new : InverseKinematics 2 ℝ).solve t 1 SE3.identity (fun _ => 0) = .ok r
    ∧ vnorm (vsub r.jointPositions ((InverseKinematics.new : InverseKinematics 2 ℝ).holdInsideLimits t fun _ => 0))
      ≤ r.iterations * (1 / 5) := by
  obtain ⟨t, r, hb, hf, h⟩ := ik_example SE3.identity fun _ => 0
  have := ik_travel hb hf _ (by simp [InverseKinematics.new, Fns.lit]) 1 _ _ r h
  exact ⟨t, r, h, by simpa [InverseKinematics.new, Fns.lit] using this⟩

end Multicalc
