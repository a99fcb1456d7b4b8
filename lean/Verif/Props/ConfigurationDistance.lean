import Verif.Props.KinematicTree
import Verif.Props.Scalar
import Verif.Props.Slerp
import Verif.Props.Attitude
import Mathlib.Analysis.InnerProductSpace.PiL2

/-!
# What the distance between two configurations means (C116)
-/

namespace Multicalc
namespace KinematicTree

open Matrix

variable {maxJoints maxConfig : ℕ}

/-- The wrapped difference is the shortest of all the turns that make up the difference. -/
theorem wrap_least (x : ℝ) : IsLeast (Set.range fun n : ℤ => |x + n * (2 * Real.pi)|) |wrapToPi x| := by
  obtain ⟨l, u, ⟨n, hn⟩, -, -⟩ := wrapToPi_spec x
  have hpi := Real.pi_pos
  refine ⟨⟨-n, ?_⟩, ?_⟩
  · beta_reduce
    congr 1
    push_cast
    linarith
  · rintro _ ⟨k, rfl⟩
    beta_reduce
    have e : x + k * (2 * Real.pi) = wrapToPi x + ((n + k : ℤ) : ℝ) * (2 * Real.pi) := by push_cast; linarith
    rw [e]
    generalize n + k = c
    rcases lt_trichotomy c 0 with h | h | h
    · have : (c : ℝ) ≤ -1 := by exact_mod_cast (by omega : c ≤ -1)
      have h1 : (c : ℝ) * (2 * Real.pi) ≤ -1 * (2 * Real.pi) := mul_le_mul_of_nonneg_right this (by positivity)
      rw [abs_of_nonpos (a := _ + _) (by linarith)]
      exact abs_le.2 ⟨by linarith, by linarith⟩
    · simp [h]
    · have : (1 : ℝ) ≤ c := by exact_mod_cast (by omega : 1 ≤ c)
      have h1 : 1 * (2 * Real.pi) ≤ (c : ℝ) * (2 * Real.pi) := mul_le_mul_of_nonneg_right this (by positivity)
      rw [abs_of_nonneg (a := _ + _) (by linarith)]
      exact abs_le.2 ⟨by linarith, by linarith⟩

/-- What one joint may add to the distance. -/
noncomputable def joltSq (t : KinematicTree maxJoints maxConfig ℝ) (a b : Fin maxConfig → ℝ) (i : ℕ) : ℝ :=
  match t.joint i, t.configOffset i with
  | some joint, some offset => distanceTerm joint offset a b
  | _, _ => 0

theorem vdot_nonneg3 (v : Fin 3 → ℝ) : 0 ≤ vdot v v := by
  rw [vdot3]; nlinarith [mul_self_nonneg (v 0), mul_self_nonneg (v 1), mul_self_nonneg (v 2)]

theorem distanceTerm_nonneg (j : Joint ℝ) (o : ℕ) (a b : Fin maxConfig → ℝ) : 0 ≤ distanceTerm j o a b := by
  unfold distanceTerm
  split
  · exact le_rfl
  · split
    · exact mul_self_nonneg _
    · exact le_rfl
  · split
    · exact mul_self_nonneg _
    · exact le_rfl
  · split
    · exact mul_self_nonneg _
    · exact le_rfl
  · dsimp only
    split
    · exact add_nonneg (vdot_nonneg3 _) (vdot_nonneg3 _)
    · exact le_rfl

theorem joltSq_nonneg (t : KinematicTree maxJoints maxConfig ℝ) (a b : Fin maxConfig → ℝ) (i : ℕ) : 0 ≤ t.joltSq a b i := by
  unfold joltSq
  split
  · exact distanceTerm_nonneg _ _ _ _
  · exact le_rfl

theorem distance_eq (t : KinematicTree maxJoints maxConfig ℝ) (a b : Fin maxConfig → ℝ) :
    t.configurationDistance a b = √(∑ i ∈ Finset.range t.len, t.joltSq a b i) := by
  unfold configurationDistance
  rw [real_sqrt]
  congr 1
  have : ∀ F : ℝ → ℕ → ℝ, (∀ total i, F total i = total + t.joltSq a b i) → ∀ n,
      (List.range n).foldl F 0 = ∑ i ∈ Finset.range n, t.joltSq a b i := by
    intro F hF n
    induction n with
    | zero => rfl
    | succ n ih => rw [List.range_succ, List.foldl_append, ih, Finset.sum_range_succ, List.foldl_cons, List.foldl_nil, hF]
  refine this _ (fun total i => ?_) t.len
  unfold joltSq
  cases t.joint i <;> cases t.configOffset i <;> simp

theorem tryNormalized_isUnit {q p : Quat ℝ} (h : q.tryNormalized = some p) : p.IsUnit := by
  unfold Quat.tryNormalized at h
  split at h
  · cases h
  · rename_i hc
    cases h
    simp only [Fns.isFinite, Fns.epsilon, Bool.not_true, Bool.false_or, decide_eq_true_eq, not_le] at hc
    have hpos : 0 < q.norm := lt_trans (by norm_num) hc
    have hsq : q.norm * q.norm = q.normSquared := by
      rw [Quat.norm, real_sqrt]
      exact Real.mul_self_sqrt (by
        unfold Quat.normSquared
        nlinarith [mul_self_nonneg q.w, mul_self_nonneg q.x, mul_self_nonneg q.y, mul_self_nonneg q.z])
    rw [isUnit_normSquared]
    unfold Quat.normSquared at hsq ⊢
    unfold Quat.scale
    field_simp
    linarith

/-- What a floating joint's seven readings say, when they say anything. -/
theorem free_state {v : Fin 7 → ℝ} {x : FreeJointState ℝ} (h : FreeJointState.fromGeneralizedVectors v (fun _ => 0) = some x) :
    ∃ q, (Quat.mk (v 3) (v 4) (v 5) (v 6)).tryNormalized = some q ∧ q.IsUnit ∧ x.pose.rotation = ⟨q⟩
      ∧ x.pose.translation = ![v 0, v 1, v 2] := by
  unfold FreeJointState.fromGeneralizedVectors at h
  cases hq : (Quat.mk (v 3) (v 4) (v 5) (v 6)).tryNormalized with
  | none => rw [hq] at h; cases h
  | some q =>
    rw [hq] at h
    have hu := tryNormalized_isUnit hq
    cases h
    exact ⟨q, rfl, hu, by rw [SO3.fromQuaternion, quat_normalized_unit q hu], rfl⟩

/-- The length of a logarithm depends only on the size of the scalar part. -/
theorem log_coeff_pos (q : Quat ℝ) (hq : q.IsUnit) (i : Fin 3) (h : q.toScaledAxis i = 0) : q.shortest.vec i = 0 := by
  rw [toScaledAxis_eq] at h
  obtain ⟨hw, hu, -⟩ := shortest_spec q hq
  obtain ⟨hn, hnn, ha0, ha1, hsin, hcos⟩ := half_angle q.shortest hu hw
  rcases mul_eq_zero.1 h with h | h
  · exact h
  · exfalso
    split at h
    · norm_num at h
    · rename_i hc
      have hpos : 0 < Real.sqrt (q.shortest.x * q.shortest.x + q.shortest.y * q.shortest.y + q.shortest.z * q.shortest.z) := by
        refine lt_of_lt_of_le ?_ (not_lt.1 hc)
        rw [smallAngle_real]; norm_num
      rw [div_eq_zero_iff] at h
      rcases h with h | h
      · have h0 : (Fns.atan2 (Real.sqrt (q.shortest.x * q.shortest.x + q.shortest.y * q.shortest.y +
          q.shortest.z * q.shortest.z)) q.shortest.w : ℝ) = 0 := by linarith
        rw [h0, Real.sin_zero] at hsin
        linarith
      · linarith

theorem relative_unit {p q : Quat ℝ} (hp : p.IsUnit) (hq : q.IsUnit) : (p.conjugate.mul q).IsUnit := by
  rw [Quat.IsUnit] at *
  simp only [Quat.mul, Quat.conjugate]
  grind

theorem log_zero_iff {p q : Quat ℝ} (hp : p.IsUnit) (hq : q.IsUnit) (h : (p.conjugate.mul q).toScaledAxis = 0) (v : Fin 3 → ℝ) :
    (SO3.mk p).act v = (SO3.mk q).act v := by
  have hu := relative_unit hp hq
  have hz := fun i => log_coeff_pos _ hu i (congrFun h i)
  obtain ⟨-, -, hs⟩ := shortest_spec _ hu
  have e : (p.conjugate.mul q).x = 0 ∧ (p.conjugate.mul q).y = 0 ∧ (p.conjugate.mul q).z = 0 := by
    have h0 := hz 0
    have h1 := hz 1
    have h2 := hz 2
    rcases hs with hs | hs <;> rw [hs] at h0 h1 h2
    · exact ⟨h0, h1, h2⟩
    · simp only [Quat.vec, Quat.neg] at h0 h1 h2
      exact ⟨by simpa using h0, by simpa using h1, by simpa using h2⟩
  obtain ⟨h0, h1, h2⟩ := e
  rw [Quat.IsUnit] at *
  simp only [SO3.act, transformPoint_explicit]
  simp only [Quat.mul, Quat.conjugate] at h0 h1 h2 hu
  set w := p.w * q.w - -p.x * q.x - -p.y * q.y - -p.z * q.z with hw
  have hw2 : w ^ 2 = 1 := by rw [h0, h1, h2] at hu; linarith
  have e0 : q.w = w * p.w := by rw [hw]; grind
  have e1 : q.x = w * p.x := by rw [hw]; grind
  have e2 : q.y = w * p.y := by rw [hw]; grind
  have e3 : q.z = w * p.z := by rw [hw]; grind
  clear_value w
  apply vec3_ext <;> simp [e0, e1, e2, e3] <;> grind

theorem log_conjugate (q : Quat ℝ) : vdot q.conjugate.toScaledAxis q.conjugate.toScaledAxis = vdot q.toScaledAxis q.toScaledAxis := by
  have hs : q.conjugate.shortest = q.shortest.conjugate := by
    unfold Quat.shortest
    by_cases h : q.w < 0
    · rw [if_pos (show q.conjugate.w < 0 from h), if_pos h]; simp [Quat.neg, Quat.conjugate]
    · rw [if_neg (show ¬ q.conjugate.w < 0 from h), if_neg h]
  rw [toScaledAxis_eq, toScaledAxis_eq, hs, vdot3, vdot3]
  simp only [Quat.conjugate, Quat.vec, neg_mul_neg]
  generalize (if Real.sqrt _ < smallAngle then (2 : ℝ) else _) = c
  simp

theorem relative_conjugate (p q : Quat ℝ) : q.conjugate.mul p = (p.conjugate.mul q).conjugate := by
  simp only [Quat.conjugate, Quat.mul, Quat.mk.injEq]
  refine ⟨?_, ?_, ?_, ?_⟩ <;> ring

theorem reading_some {c : Fin maxConfig → ℝ} {o : ℕ} (h : o < maxConfig) : reading c o = some (c ⟨o, h⟩) := by
  unfold reading; rw [dif_pos h]

/-- C116. The distance is never negative, is zero from a configuration to itself, and is the same both ways, for every
tree. -/
theorem distance_symmetric (t : KinematicTree maxJoints maxConfig ℝ) (a b : Fin maxConfig → ℝ) :
    0 ≤ t.configurationDistance a b ∧ t.configurationDistance a a = 0
      ∧ t.configurationDistance a b = t.configurationDistance b a := by
  refine ⟨by rw [distance_eq]; exact Real.sqrt_nonneg _, ?_, ?_⟩
  · rw [distance_eq, Finset.sum_eq_zero, Real.sqrt_zero]
    intro i _
    unfold joltSq
    cases t.joint i with
    | none => rfl
    | some j =>
    cases t.configOffset i with
    | none => rfl
    | some o =>
      show distanceTerm j o a a = 0
      unfold distanceTerm
      have hw : wrapToPi (0 : ℝ) = 0 := wrapToPi_id (by linarith [Real.pi_pos]) Real.pi_pos
      cases j.kind <;> dsimp only
      · cases reading a o <;> simp
      · cases reading a o <;> simp
      · cases reading a o <;> simp [hw]
      · cases hx : FreeJointState.fromGeneralizedVectors (fun slot : Fin 7 => (reading a (o + slot)).getD 0) (fun _ => 0) with
        | none => rfl
        | some x =>
          obtain ⟨q, -, hu, hr, -⟩ := free_state hx
          dsimp only
          have e1 : vsub x.pose.translation x.pose.translation = 0 := by funext k; simp [vsub]
          have e2 : (x.pose.rotation.inverse.compose x.pose.rotation).log = 0 := by
            rw [hr, SO3.inverse, SO3.compose, SO3.log]
            have : q.conjugate.mul q = ⟨1, 0, 0, 0⟩ := by
              rw [Quat.IsUnit] at hu
              simp only [Quat.mul, Quat.conjugate, Quat.mk.injEq]
              refine ⟨by linarith, ?_, ?_, ?_⟩ <;> ring
            rw [this, toScaledAxis_eq]
            funext k
            have : (Quat.mk (1 : ℝ) 0 0 0).shortest = ⟨1, 0, 0, 0⟩ := by
              unfold Quat.shortest; rw [if_neg (by norm_num)]
            rw [this]
            fin_cases k <;> simp [Quat.vec]
          rw [e1, e2, vdot3]
          simp
  · rw [distance_eq, distance_eq]
    congr 1
    refine Finset.sum_congr rfl fun i _ => ?_
    unfold joltSq
    cases t.joint i with
    | none => rfl
    | some j =>
    cases t.configOffset i with
    | none => rfl
    | some o =>
      show distanceTerm j o a b = distanceTerm j o b a
      unfold distanceTerm
      cases j.kind <;> dsimp only
      · cases reading a o <;> cases reading b o <;> dsimp only
        ring
      · cases reading a o <;> cases reading b o <;> dsimp only
        ring
      · cases reading a o <;> cases reading b o <;> dsimp only
        rename_i x y
        have e : |wrapToPi (x - y)| = |wrapToPi (y - x)| := by
          refine (wrap_least (x - y)).unique ?_
          have h := wrap_least (y - x)
          refine ⟨?_, ?_⟩
          · obtain ⟨n, hn⟩ := h.1
            refine ⟨-n, ?_⟩
            rw [← hn]
            beta_reduce
            rw [← abs_neg]
            congr 1
            push_cast
            ring
          · rintro _ ⟨n, rfl⟩
            refine h.2 ⟨-n, ?_⟩
            beta_reduce
            rw [← abs_neg]
            congr 1
            push_cast
            ring
        rw [← abs_mul_abs_self, e, abs_mul_abs_self]
      · cases hx : FreeJointState.fromGeneralizedVectors (fun slot : Fin 7 => (reading a (o + slot)).getD 0) (fun _ => 0) <;>
          cases hy : FreeJointState.fromGeneralizedVectors (fun slot : Fin 7 => (reading b (o + slot)).getD 0) (fun _ => 0) <;> dsimp only
        rename_i x y
        congr 1
        · rw [vdot3, vdot3]
          simp only [vsub]
          ring
        · simp only [SO3.log, SO3.compose, SO3.inverse]
          rw [relative_conjugate y.pose.rotation.quaternion x.pose.rotation.quaternion, log_conjugate]

theorem floating_term {j : Joint ℝ} {o : ℕ} {a b : Fin maxConfig → ℝ} (hk : j.kind = .floating) (ho' : o + 7 ≤ maxConfig) {p q : Quat ℝ}
    (hp : (Quat.mk (a ⟨o + 3, by omega⟩) (a ⟨o + 4, by omega⟩) (a ⟨o + 5, by omega⟩) (a ⟨o + 6, by omega⟩)).tryNormalized = some p)
    (hq : (Quat.mk (b ⟨o + 3, by omega⟩) (b ⟨o + 4, by omega⟩) (b ⟨o + 5, by omega⟩) (b ⟨o + 6, by omega⟩)).tryNormalized = some q) :
    distanceTerm j o a b = (a ⟨o, by omega⟩ - b ⟨o, by omega⟩) ^ 2 + (a ⟨o + 1, by omega⟩ - b ⟨o + 1, by omega⟩) ^ 2
      + (a ⟨o + 2, by omega⟩ - b ⟨o + 2, by omega⟩) ^ 2 + vnorm ((SO3.mk p).inverse.compose (SO3.mk q)).log ^ 2 := by
  have hplace : ∀ c : Fin maxConfig → ℝ, (fun slot : Fin 7 => (reading c (o + slot)).getD 0) =
      fun slot : Fin 7 => c ⟨o + slot, by omega⟩ := fun c => by
    funext slot; rw [reading_some (by omega)]; rfl
  have hst : ∀ (c : Fin maxConfig → ℝ) (r : Quat ℝ), (Quat.mk (c ⟨o + 3, by omega⟩) (c ⟨o + 4, by omega⟩)
      (c ⟨o + 5, by omega⟩) (c ⟨o + 6, by omega⟩)).tryNormalized = some r →
      ∃ x, FreeJointState.fromGeneralizedVectors (fun slot : Fin 7 => c ⟨o + slot, by omega⟩) (fun _ => 0) = some x
        ∧ x.pose.rotation = ⟨r⟩ ∧ x.pose.translation = ![c ⟨o, by omega⟩, c ⟨o + 1, by omega⟩, c ⟨o + 2, by omega⟩] := by
    intro c r hr
    refine ⟨⟨⟨⟨r⟩, ![c ⟨o, by omega⟩, c ⟨o + 1, by omega⟩, c ⟨o + 2, by omega⟩]⟩, ⟨![0, 0, 0], ![0, 0, 0]⟩⟩, ?_, rfl, rfl⟩
    unfold FreeJointState.fromGeneralizedVectors
    have : (Quat.mk (c ⟨o + (3 : Fin 7), by omega⟩) (c ⟨o + (4 : Fin 7), by omega⟩) (c ⟨o + (5 : Fin 7), by omega⟩)
        (c ⟨o + (6 : Fin 7), by omega⟩)).tryNormalized = some r := hr
    rw [this]
    simp only
    rw [SO3.fromQuaternion, quat_normalized_unit r (tryNormalized_isUnit hr)]
    rfl
  obtain ⟨x, hx, hx1, hx2⟩ := hst a p hp
  obtain ⟨y, hy, hy1, hy2⟩ := hst b q hq
  unfold distanceTerm
  simp only [hk]
  rw [hplace a, hplace b, hx, hy]
  simp only
  rw [hx1, hx2, hy1, hy2, sq (vnorm _), vnorm_sq]
  congr 1
  rw [vdot3]
  simp [vsub]
  ring

/-- C116. What each joint adds, as a length: nothing when fixed; the plain difference of the readings when it turns
between limits or slides; the shortest way round when it turns freely; for a floating base, the offset of the places and
the angle of the relative rotation together.  The distance is the root of the sum of the squares. -/
theorem distance_explicit {t : KinematicTree maxJoints maxConfig ℝ} (hb : Built t) (a b : Fin maxConfig → ℝ) :
    ∃ δ : ℕ → ℝ, t.configurationDistance a b = √(∑ i ∈ Finset.range t.len, δ i ^ 2) ∧
      ∀ i j o, t.joint i = some j → t.configOffset i = some o → 0 ≤ δ i
        ∧ (j.kind = .fixed → δ i = 0)
        ∧ (j.kind = .revolute ∨ j.kind = .prismatic → ∃ h : o < maxConfig, δ i = |a ⟨o, h⟩ - b ⟨o, h⟩|)
        ∧ (j.kind = .continuous → ∃ h : o < maxConfig,
          IsLeast (Set.range fun n : ℤ => |a ⟨o, h⟩ - b ⟨o, h⟩ + n * (2 * Real.pi)|) (δ i))
        ∧ (j.kind = .floating → ∃ h : o + 7 ≤ maxConfig, ∀ p q,
          (Quat.mk (a ⟨o + 3, by omega⟩) (a ⟨o + 4, by omega⟩) (a ⟨o + 5, by omega⟩) (a ⟨o + 6, by omega⟩)).tryNormalized = some p →
          (Quat.mk (b ⟨o + 3, by omega⟩) (b ⟨o + 4, by omega⟩) (b ⟨o + 5, by omega⟩) (b ⟨o + 6, by omega⟩)).tryNormalized = some q →
          δ i ^ 2 = (a ⟨o, by omega⟩ - b ⟨o, by omega⟩) ^ 2 + (a ⟨o + 1, by omega⟩ - b ⟨o + 1, by omega⟩) ^ 2
            + (a ⟨o + 2, by omega⟩ - b ⟨o + 2, by omega⟩) ^ 2
            + vnorm ((SO3.mk p).inverse.compose (SO3.mk q)).log ^ 2) := by
  refine ⟨fun i => √(t.joltSq a b i), ?_, fun i j o hj ho => ⟨Real.sqrt_nonneg _, ?_⟩⟩
  · rw [distance_eq]
    congr 1
    exact Finset.sum_congr rfl fun i _ => (Real.sq_sqrt (joltSq_nonneg t a b i)).symm
  · have hin := ((offsets_partition hb).2.1 i j o hj ho).trans (built_wellFormed hb).config
    have hterm : t.joltSq a b i = distanceTerm j o a b := by unfold joltSq; rw [hj, ho]
    beta_reduce
    rw [hterm]
    refine ⟨fun hk => ?_, fun hk => ?_, fun hk => ?_, fun hk => ?_⟩
    · simp [distanceTerm, hk]
    · have ho' : o < maxConfig := by rcases hk with hk | hk <;> simp [hk] at hin <;> omega
      refine ⟨ho', ?_⟩
      have : distanceTerm j o a b = (a ⟨o, ho'⟩ - b ⟨o, ho'⟩) * (a ⟨o, ho'⟩ - b ⟨o, ho'⟩) := by
        unfold distanceTerm
        rw [reading_some ho', reading_some ho']
        rcases hk with hk | hk <;> simp [hk]
      rw [this, Real.sqrt_mul_self_eq_abs]
    · have ho' : o < maxConfig := by simp [hk] at hin; omega
      refine ⟨ho', ?_⟩
      have : distanceTerm j o a b = wrapToPi (a ⟨o, ho'⟩ - b ⟨o, ho'⟩) * wrapToPi (a ⟨o, ho'⟩ - b ⟨o, ho'⟩) := by
        unfold distanceTerm
        rw [reading_some ho', reading_some ho']
        simp [hk]
      rw [this, Real.sqrt_mul_self_eq_abs]
      exact wrap_least _
    · have ho' : o + 7 ≤ maxConfig := by simp [hk] at hin; omega
      refine ⟨ho', fun p q hp hq => ?_⟩
      rw [Real.sq_sqrt (distanceTerm_nonneg _ _ _ _)]
      exact floating_term hk ho' hp hq

theorem joltSq_eq {t : KinematicTree maxJoints maxConfig ℝ} {i o : ℕ} {j : Joint ℝ} (hj : t.joint i = some j)
    (ho : t.configOffset i = some o) (a b : Fin maxConfig → ℝ) : t.joltSq a b i = distanceTerm j o a b := by
  unfold joltSq; rw [hj, ho]

theorem joint_and_offset {t : KinematicTree maxJoints maxConfig ℝ} {i : ℕ} (hi : i < t.len) :
    ∃ j o, t.joint i = some j ∧ t.configOffset i = some o := by
  obtain ⟨j, hj⟩ := joint_exists hi
  exact ⟨j, _, hj, configOffset_some.2 ⟨hi, rfl⟩⟩

/-- C116. Whole turns of a freely turning joint do not change the distance: configurations that agree up to whole turns
of such joints are equally far from every third one. -/
theorem distance_whole_turns {t : KinematicTree maxJoints maxConfig ℝ} (hb : Built t) (a a' b : Fin maxConfig → ℝ)
    (h : ∀ i j o, t.joint i = some j → t.configOffset i = some o → ∀ k : Fin maxConfig, o ≤ k.val → k.val < o + j.width →
      a' k = a k ∨ (j.kind = .continuous ∧ ∃ n : ℤ, a' k = a k + n * (2 * Real.pi))) :
    t.configurationDistance a' b = t.configurationDistance a b := by
  rw [distance_eq, distance_eq]
  congr 1
  refine Finset.sum_congr rfl fun i hi => ?_
  obtain ⟨j, o, hj, ho⟩ := joint_and_offset (Finset.mem_range.1 hi)
  have hin := ((offsets_partition hb).2.1 i j o hj ho).trans (built_wellFormed hb).config
  rw [joltSq_eq hj ho, joltSq_eq hj ho]
  by_cases hk : j.kind = .continuous
  · have ho' : o < maxConfig := by simp [hk] at hin; omega
    obtain ⟨n, hn⟩ : ∃ n : ℤ, a' ⟨o, ho'⟩ = a ⟨o, ho'⟩ + n * (2 * Real.pi) := by
      rcases h i j o hj ho ⟨o, ho'⟩ le_rfl (by simp [Joint.width, hk]) with e | ⟨-, n, e⟩
      · exact ⟨0, by rw [e]; simp⟩
      · exact ⟨n, e⟩
    unfold distanceTerm
    rw [reading_some ho', reading_some ho', reading_some ho']
    simp only [hk]
    rw [hn]
    have e : |wrapToPi (a ⟨o, ho'⟩ + n * (2 * Real.pi) - b ⟨o, ho'⟩)| = |wrapToPi (a ⟨o, ho'⟩ - b ⟨o, ho'⟩)| := by
      refine (wrap_least _).unique ?_
      have h := wrap_least (a ⟨o, ho'⟩ - b ⟨o, ho'⟩)
      refine ⟨?_, ?_⟩
      · obtain ⟨m, hm⟩ := h.1
        refine ⟨m - n, ?_⟩
        rw [← hm]
        beta_reduce
        congr 1
        push_cast
        ring
      · rintro _ ⟨m, rfl⟩
        refine h.2 ⟨m + n, ?_⟩
        beta_reduce
        congr 1
        push_cast
        ring
    rw [← abs_mul_abs_self, e, abs_mul_abs_self]
  · have hsame : ∀ k, o ≤ k → k < o + j.width → reading a' k = reading a k := by
      intro k h1 h2
      unfold reading
      split_ifs with hlt
      · rcases h i j o hj ho ⟨k, hlt⟩ h1 h2 with e | ⟨e, -⟩
        · rw [e]
        · exact absurd e hk
      · rfl
    unfold distanceTerm
    cases hkk : j.kind with
    | continuous => exact absurd hkk hk
    | fixed => rfl
    | revolute => simp only [hsame o le_rfl (by simp [Joint.width, hkk])]
    | prismatic => simp only [hsame o le_rfl (by simp [Joint.width, hkk])]
    | floating =>
      have : (fun slot : Fin 7 => (reading a' (o + slot)).getD 0) = fun slot : Fin 7 => (reading a (o + slot)).getD 0 := by
        funext slot
        rw [hsame _ (Nat.le_add_right _ _) (by simp [Joint.width, hkk])]
      simp only [this]

/-- C116. Without a floating base a detour is never shorter: the distance obeys the triangle inequality. -/
theorem distance_triangle {t : KinematicTree maxJoints maxConfig ℝ} (hb : Built t) (hf : t.hasFloatingBase = false)
    (a b c : Fin maxConfig → ℝ) :
    t.configurationDistance a c ≤ t.configurationDistance a b + t.configurationDistance b c := by
  obtain ⟨δ, hδ, h1⟩ := distance_explicit hb a b
  obtain ⟨ε, hε, h2⟩ := distance_explicit hb b c
  obtain ⟨ζ, hζ, h3⟩ := distance_explicit hb a c
  have key : ∀ i < t.len, 0 ≤ δ i ∧ 0 ≤ ε i ∧ 0 ≤ ζ i ∧ ζ i ≤ δ i + ε i := by
    intro i hi
    obtain ⟨j, o, hj, ho⟩ := joint_and_offset hi
    obtain ⟨p1, f1, r1, c1, -⟩ := h1 i j o hj ho
    obtain ⟨p2, f2, r2, c2, -⟩ := h2 i j o hj ho
    obtain ⟨p3, f3, r3, c3, -⟩ := h3 i j o hj ho
    refine ⟨p1, p2, p3, ?_⟩
    have hrp : j.kind = .revolute ∨ j.kind = .prismatic → ζ i ≤ δ i + ε i := fun hk => by
      obtain ⟨_, e1⟩ := r1 hk
      obtain ⟨_, e2⟩ := r2 hk
      obtain ⟨_, e3⟩ := r3 hk
      rw [e1, e2, e3]
      exact abs_sub_le _ _ _
    cases hk : j.kind with
    | fixed => rw [f1 hk, f2 hk, f3 hk]; simp
    | revolute => exact hrp (.inl hk)
    | prismatic => exact hrp (.inr hk)
    | continuous =>
      obtain ⟨ho', e1⟩ := c1 hk
      obtain ⟨_, e2⟩ := c2 hk
      obtain ⟨_, e3⟩ := c3 hk
      obtain ⟨n, hn⟩ := e1.1
      obtain ⟨m, hm⟩ := e2.1
      rw [← hn, ← hm]
      refine (e3.2 ⟨n + m, rfl⟩).trans (le_trans (le_of_eq ?_) (abs_add_le _ _))
      beta_reduce
      congr 1
      push_cast
      ring
    | floating =>
      exfalso
      rcases floating_width (built_wellFormed hb) hj with h | h
      · rw [hf] at h; exact absurd h.1 (by simp)
      · exact h.2.1 hk
  rw [hδ, hε, hζ]
  have e : ∀ f : ℕ → ℝ, √(∑ i ∈ Finset.range t.len, f i ^ 2) = ‖(WithLp.toLp 2 fun i : Fin t.len => f i : EuclideanSpace ℝ (Fin t.len))‖ := by
    intro f
    rw [EuclideanSpace.norm_eq, Finset.sum_range]
    simp
  calc √(∑ i ∈ Finset.range t.len, ζ i ^ 2) ≤ √(∑ i ∈ Finset.range t.len, (δ i + ε i) ^ 2) := by
        refine Real.sqrt_le_sqrt (Finset.sum_le_sum fun i hi => ?_)
        obtain ⟨-, -, h0, hle⟩ := key i (Finset.mem_range.1 hi)
        exact pow_le_pow_left₀ h0 hle 2
    _ = ‖(WithLp.toLp 2 fun i : Fin t.len => δ i : EuclideanSpace ℝ (Fin t.len)) + WithLp.toLp 2 fun i : Fin t.len => ε i‖ := by
        rw [e fun i => δ i + ε i]
        rfl
    _ ≤ _ := by
        rw [e δ, e ε]
        exact norm_add_le _ _

/-- C116. Configurations at distance zero put every link in the same place: whatever the tree, if forward kinematics
accepts both, every point fixed to every link has one image.  (Readings of freely turning joints within the exponential's
series threshold of their zero, but not at it, are excepted.) -/
theorem distance_zero_same_pose {t : KinematicTree maxJoints maxConfig ℝ} (hb : Built t) {a b : Fin maxConfig → ℝ}
    {s s' : KinematicTreeState ℝ} (ha : t.forwardKinematics a = .ok s) (hb' : t.forwardKinematics b = .ok s')
    (hreg : ∀ i j o, t.joint i = some j → t.configOffset i = some o → j.kind = .continuous → ∀ h : o < maxConfig,
      RegularTurn (a ⟨o, h⟩ - j.zeroOffset) ∧ RegularTurn (b ⟨o, h⟩ - j.zeroOffset))
    (h0 : t.configurationDistance a b = 0) (i : ℕ) (hi : i < t.len) :
    ∃ P Q, s.pose i = some P ∧ s'.pose i = some Q ∧ ∀ x, P.act x = Q.act x := by
  have hw := built_wellFormed hb
  obtain ⟨hl, hinv⟩ := fk_ok_inv hw ha
  obtain ⟨hl', hinv'⟩ := fk_ok_inv hw hb'
  refine ⟨s.poses i, s'.poses i, pose_some (by omega), pose_some (by omega), ?_⟩
  have hzero : ∀ i < t.len, t.joltSq a b i = 0 := by
    rw [distance_eq, Real.sqrt_eq_zero (Finset.sum_nonneg fun i _ => joltSq_nonneg t a b i),
      Finset.sum_eq_zero_iff_of_nonneg fun i _ => joltSq_nonneg t a b i] at h0
    exact fun i hi => h0 i (Finset.mem_range.2 hi)
  induction i using Nat.strong_induction_on with
  | _ i ih =>
    obtain ⟨j, o, P, M, h1, h2, h3, h4, h5⟩ := hinv i hi
    obtain ⟨j2, o2, P', M', h1', h2', h3', h4', h5'⟩ := hinv' i hi
    rw [h1] at h1'; cases h1'
    rw [h2] at h2'; cases h2'
    have hP : ∀ x, P.act x = P'.act x := by
      rcases h3 with h3 | ⟨p, hp, hp1, hp2⟩ <;> rcases h3' with h3' | ⟨p', hp', hp1', hp2'⟩
      · rw [h3.2, h3'.2]; exact fun _ => rfl
      · rw [h3.1] at hp1'; cases hp1'
      · rw [h3'.1] at hp1; cases hp1
      · rw [hp1] at hp1'; cases hp1'
        rw [← hp2, ← hp2']
        exact ih p hp (by omega)
    have hz := hzero i hi
    rw [joltSq_eq h1 h2] at hz
    have hin := ((offsets_partition hb).2.1 i j o h1 h2).trans hw.config
    have hm := localPose_isMotion h4
    have hm' := localPose_isMotion h4'
    have hM : ∀ x, M.act x = M'.act x := by
      have hsingle : ∀ ho' : o < maxConfig, a ⟨o, ho'⟩ = b ⟨o, ho'⟩ → j.kind ≠ .floating → M = M' := by
        intro ho' he hk
        have : localPose j a o = localPose j b o := localPose_congr fun k hk1 hk2 => by
          have : k = ⟨o, ho'⟩ := Fin.ext (by simp [Joint.width, hk] at hk2; show k.val = o; omega)
          rw [this, he]
        rw [h4, h4'] at this
        exact Except.ok.inj this
      have hrp : j.kind = .revolute ∨ j.kind = .prismatic → M = M' := fun hk => by
        have ho' : o < maxConfig := by rcases hk with hk | hk <;> simp [hk] at hin <;> omega
        refine hsingle ho' ?_ (by rcases hk with hk | hk <;> simp [hk])
        unfold distanceTerm at hz
        rw [reading_some ho', reading_some ho'] at hz
        rcases hk with hk | hk <;> simp [hk] at hz <;> linarith
      cases hk : j.kind with
      | fixed =>
        unfold IsMotion at hm hm'
        simp only [hk] at hm hm'
        rw [hm, hm']; exact fun _ => rfl
      | revolute => rw [hrp (.inl hk)]; exact fun _ => rfl
      | prismatic => rw [hrp (.inr hk)]; exact fun _ => rfl
      | continuous =>
        have ho' : o < maxConfig := by simp [hk] at hin; omega
        obtain ⟨_, e1, e2⟩ := turn_act (.inr hk) hm
        obtain ⟨_, e1', e2'⟩ := turn_act (.inr hk) hm'
        have haxis := built_axes hb i j h1 (.inr (.inl hk))
        obtain ⟨g1, g2⟩ := hreg i j o h1 h2 hk ho'
        have hrot : ∀ v, M.rotation.act v = M'.rotation.act v := by
          intro v
          rw [e1, e1', exp_axis_act haxis g1, exp_axis_act haxis g2]
          unfold distanceTerm at hz
          rw [reading_some ho', reading_some ho'] at hz
          simp only [hk, mul_self_eq_zero] at hz
          obtain ⟨-, -, ⟨n, hn⟩, -, -⟩ := wrapToPi_spec (a ⟨o, ho'⟩ - b ⟨o, ho'⟩)
          rw [hz, zero_add] at hn
          have e : a ⟨o, ho'⟩ - j.zeroOffset = b ⟨o, ho'⟩ - j.zeroOffset + n * (2 * Real.pi) := by linarith
          rw [e, Real.cos_add_int_mul_two_pi, Real.sin_add_int_mul_two_pi]
        intro x
        simp only [SE3.act]
        rw [hrot x, e2, e2', hrot j.anchor]
      | floating =>
        unfold IsMotion at hm hm'
        simp only [hk] at hm hm'
        obtain ⟨ho', p, hp, hr, ht⟩ := hm
        obtain ⟨_, q, hq, hr', ht'⟩ := hm'
        obtain ⟨δ, -, hd⟩ := distance_explicit hb a b
        have hpu := tryNormalized_isUnit hp
        have hqu := tryNormalized_isUnit hq
        rw [SO3.fromQuaternion, quat_normalized_unit _ hpu] at hr
        rw [SO3.fromQuaternion, quat_normalized_unit _ hqu] at hr'
        have hz2 := floating_term hk ho' hp hq
        rw [hz] at hz2
        have hv := vnorm_sq ((SO3.mk p).inverse.compose (SO3.mk q)).log
        rw [vdot3] at hv
        set L := ((SO3.mk p).inverse.compose (SO3.mk q)).log with hL
        have n1 := sq_nonneg (a ⟨o, by omega⟩ - b ⟨o, by omega⟩)
        have n2 := sq_nonneg (a ⟨o + 1, by omega⟩ - b ⟨o + 1, by omega⟩)
        have n3 := sq_nonneg (a ⟨o + 2, by omega⟩ - b ⟨o + 2, by omega⟩)
        have n4 := sq_nonneg (vnorm L)
        have z1 : a ⟨o, by omega⟩ = b ⟨o, by omega⟩ := sub_eq_zero.1 (pow_eq_zero_iff (n := 2) (by norm_num) |>.1 (by linarith))
        have z2 : a ⟨o + 1, by omega⟩ = b ⟨o + 1, by omega⟩ := sub_eq_zero.1 (pow_eq_zero_iff (n := 2) (by norm_num) |>.1 (by linarith))
        have z3 : a ⟨o + 2, by omega⟩ = b ⟨o + 2, by omega⟩ := sub_eq_zero.1 (pow_eq_zero_iff (n := 2) (by norm_num) |>.1 (by linarith))
        have z4 : vnorm L ^ 2 = 0 := by linarith
        have hL0 : L = 0 := by
          rw [sq, hv] at z4
          have m0 := mul_self_nonneg (L 0)
          have m1 := mul_self_nonneg (L 1)
          have m2 := mul_self_nonneg (L 2)
          apply vec3_ext
          · exact mul_self_eq_zero.1 (by linarith)
          · exact mul_self_eq_zero.1 (by linarith)
          · exact mul_self_eq_zero.1 (by linarith)
        intro x
        simp only [SE3.act]
        rw [hr, hr', ht, ht', z1, z2, z3, log_zero_iff hpu hqu hL0]
    intro x
    rw [h5, h5', se3_compose_act, se3_compose_act, se3_compose_act, se3_compose_act, hM, hP]

/-- One joint turning freely about the vertical: from 3 radians to -3 is `2π - 6`, the short way; 1 and `1 + 2π` are at
distance zero, both turns are regular, and forward kinematics accepts both. -/
example : ∃ t : KinematicTree 1 1 ℝ, Built t ∧ t.hasFloatingBase = false
    ∧ t.configurationDistance (fun _ => 3) (fun _ => -3) = 2 * Real.pi - 6
    ∧ t.configurationDistance (fun _ => 1 + 2 * Real.pi) (fun _ => 1) = 0
    ∧ RegularTurn (1 + 2 * Real.pi - 0) ∧ RegularTurn (1 - 0)
    ∧ ∀ c, ∃ s, t.forwardKinematics c = .ok s := by
  have hax : vtryNormalized (![0, 0, 1] : Fin 3 → ℝ) ≠ none := by
    rw [vtryNormalized_some (by intro h; simpa using congrFun h 2)]; simp
  obtain ⟨ax, hax⟩ := Option.ne_none_iff_exists'.1 hax
  have hp : (new : KinematicTree 1 1 ℝ).push (Joint.fromKind .continuous ![0, 0, 1] SE3.identity) .world =
      .ok ⟨[(Joint.fromKind .continuous ax SE3.identity, .world)]⟩ := by
    refine (push_cases _ _ _ _).2 ⟨by simp [len, new], by simp, fun h => ?_, ?_, rfl, fun _ => rfl,
      Joint.fromKind .continuous ax SE3.identity, ?_,
      by simp [configLen, len, new, Joint.width, Joint.fromKind], rfl⟩
    · simp [Joint.fromKind] at h
    · simp [Joint.isFinite, vecIsFinite, Fns.isFinite, Joint.fromKind]
    · simp [Joint.normalizeAxis, Joint.fromKind, hax]
  have hb := Built.push Built.new hp
  have hpi := Real.pi_gt_three
  have hpi4 := Real.pi_le_four
  have hone : ∀ a b : ℝ, ∃ δ, (⟨[(Joint.fromKind .continuous ax SE3.identity, .world)]⟩ : KinematicTree 1 1 ℝ).configurationDistance
      (fun _ => a) (fun _ => b) = δ ∧ IsLeast (Set.range fun n : ℤ => |a - b + n * (2 * Real.pi)|) δ := by
    intro a b
    obtain ⟨δ, h1, h2⟩ := distance_explicit hb (fun _ => a) (fun _ => b)
    obtain ⟨h3, -, -, h4, -⟩ := h2 0 _ 0 rfl rfl
    obtain ⟨-, h5⟩ := h4 rfl
    refine ⟨δ 0, ?_, h5⟩
    rw [h1]
    simp [len, Real.sqrt_sq h3]
  refine ⟨_, hb, rfl, ?_, ?_, .inr ?_, .inr ?_, fun c => ?_⟩
  · obtain ⟨δ, h1, h2⟩ := hone 3 (-3)
    rw [h1]
    refine h2.unique ⟨⟨-1, ?_⟩, ?_⟩
    · beta_reduce
      rw [abs_of_nonpos] <;> push_cast <;> linarith
    · rintro _ ⟨n, rfl⟩
      beta_reduce
      rcases le_or_gt 0 n with h | h
      · have : (0 : ℝ) ≤ n := by exact_mod_cast h
        have : 0 ≤ (n : ℝ) * (2 * Real.pi) := by positivity
        rw [abs_of_nonneg] <;> linarith
      · have : (n : ℝ) ≤ -1 := by exact_mod_cast (by omega : n ≤ -1)
        have := mul_le_mul_of_nonneg_right this (show 0 ≤ 2 * Real.pi by positivity)
        refine le_trans ?_ (neg_le_abs _)
        linarith
  · obtain ⟨δ, h1, h2⟩ := hone (1 + 2 * Real.pi) 1
    rw [h1]
    refine h2.unique ⟨⟨-1, ?_⟩, ?_⟩
    · simp
    · rintro _ ⟨n, rfl⟩
      exact abs_nonneg _
  · rw [abs_of_pos (by linarith)]; norm_num; linarith
  · norm_num
  · exact ((fk_refusals hb c).2 fun _ _ _ _ _ _ _ _ _ => rfl).1 rfl

end KinematicTree
end Multicalc
