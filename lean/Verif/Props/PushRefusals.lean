import Verif.Props.KinematicTree
import Mathlib.Tactic

/-!
# The rest of the tests `push` makes

`push_errors` covers the tests on the tree, the parent, the floating base and the parameters; the ones
on the limits, the axis and the configuration length follow them.
-/

namespace Multicalc
namespace KinematicTree

section
variable {maxJoints maxConfig : ℕ} {T : Type} [Zero T] [One T] [NatCast T] [Add T] [Sub T] [Mul T] [Div T]
  [Neg T] [LT T] [DecidableLT T] [LE T] [DecidableLE T] [BEq T] [Fns T]

/-- C53. The tests on the limits come after the ones on the tree, the parent, the base and the
parameters, whatever the scalar type: a limit that is not finite is refused as such before the limits
are compared, a lower limit above the upper one is `LimitsReversed`, and a continuous joint whose
limits are in order is refused for having them at all. -/
theorem push_limit_errors (t : KinematicTree maxJoints maxConfig T) (j : Joint T) (p : JointParent)
    (h1 : t.len ≠ maxJoints) (h2 : ∀ k, p = .joint k → k < t.len)
    (h3 : j.kind = .floating → t.len = 0 ∧ p = .world) (h4 : j.isFinite = true) (lower upper : T)
    (hl : j.limits = some (lower, upper)) :
    (Fns.isFinite lower = false ∨ Fns.isFinite upper = false → t.push j p = .error .nonFinite) ∧
    (Fns.isFinite lower = true → Fns.isFinite upper = true → upper < lower →
      t.push j p = .error .limitsReversed) ∧
    (Fns.isFinite lower = true → Fns.isFinite upper = true → ¬ upper < lower → j.kind = .continuous →
      t.push j p = .error .continuousJointHasLimits) := by
  have h2' : ¬ p.outOfOrder t.len = true := by
    cases p with
    | world => simp [JointParent.outOfOrder]
    | joint k => simpa [JointParent.outOfOrder] using h2 k rfl
  have h3' : ¬ (j.kind = .floating ∧ (t.len ≠ 0 ∨ p ≠ .world)) := by
    rintro ⟨hf, h⟩
    obtain ⟨a, b⟩ := h3 hf
    rcases h with h | h
    · exact h a
    · exact h b
  have e : t.push j p = match j.checkLimits with
      | .error e => .error e
      | .ok _ =>
        if j.kind = .continuous ∧ j.limits.isSome then .error .continuousJointHasLimits
        else
          match j.normalizeAxis with
          | .error e => .error e
          | .ok j =>
            if maxConfig < t.configLen + j.width then .error .configurationCapacityExceeded
            else .ok ⟨t.joints ++ [(j, p)]⟩ := by
    unfold push
    rw [if_neg h1, if_neg h2', if_neg h3', if_neg (by rw [h4]; simp)]
    rfl
  refine ⟨fun h => ?_, fun hlo hup hlt => ?_, fun hlo hup hlt hk => ?_⟩
  · have : j.checkLimits = .error .nonFinite := by
      unfold Joint.checkLimits; rw [hl]; exact if_pos h
    rw [e, this]
  · have : j.checkLimits = .error .limitsReversed := by
      unfold Joint.checkLimits; rw [hl]; simp [hlo, hup, hlt]
    rw [e, this]
  · have : j.checkLimits = .ok () := by
      unfold Joint.checkLimits; rw [hl]; simp [hlo, hup, hlt]
    rw [e, this]
    simp [hk, hl]

end

/-- C53. With exact arithmetic a joint is accepted exactly when the tree has room for it and for its
configuration, its parent comes earlier, a floating joint is the root on the world, its limits are in
order, a continuous joint has none, and a joint that moves about an axis has one that is not zero. -/
theorem push_accepts_iff {maxJoints maxConfig : ℕ} (t : KinematicTree maxJoints maxConfig ℝ) (j : Joint ℝ)
    (p : JointParent) :
    (∃ t', t.push j p = .ok t') ↔
      t.len ≠ maxJoints ∧ (∀ k, p = .joint k → k < t.len) ∧
      (j.kind = .floating → t.len = 0 ∧ p = .world) ∧
      (∀ lower upper, j.limits = some (lower, upper) → lower ≤ upper) ∧
      (j.kind = .continuous → j.limits = none) ∧
      (j.kind ≠ .fixed → j.kind ≠ .floating → j.axis ≠ 0) ∧
      t.configLen + (if j.kind = .floating then 7 else 1) ≤ maxConfig := by
  have hfin : j.isFinite = true := by simp [Joint.isFinite, vecIsFinite, Fns.isFinite]
  have hlim : j.checkLimits = .ok () ↔ ∀ lower upper, j.limits = some (lower, upper) → lower ≤ upper := by
    unfold Joint.checkLimits
    cases hl : j.limits with
    | none => simp
    | some l =>
      obtain ⟨lo, up⟩ := l
      have hf : ∀ x : ℝ, (Fns.isFinite x : Bool) = true := fun _ => rfl
      dsimp only
      rw [if_neg (by simp [hf])]
      by_cases h : up < lo
      · rw [if_pos h]
        simp only [reduceCtorEq, Option.some.injEq, Prod.mk.injEq, false_iff, not_forall]
        exact ⟨lo, up, ⟨rfl, rfl⟩, not_le.2 h⟩
      · rw [if_neg h]
        simp only [Option.some.injEq, Prod.mk.injEq, true_iff]
        rintro a b ⟨rfl, rfl⟩
        exact not_lt.1 h
  have hax : (∃ j', j.normalizeAxis = .ok j') ↔ (j.kind ≠ .fixed → j.kind ≠ .floating → j.axis ≠ 0) := by
    unfold Joint.normalizeAxis
    by_cases h0 : j.axis = 0
    · have hv : vtryNormalized j.axis = none := by rw [h0, vtryNormalized_none]
      rw [hv]
      cases hk : j.kind <;> simp [h0]
    · have hv := vtryNormalized_some h0
      cases hk : j.kind <;> simp [hv, h0]
  have hwid : ∀ j', j.normalizeAxis = .ok j' → j'.width = if j.kind = .floating then 7 else 1 := by
    intro j' h
    unfold Joint.width
    rw [(normalizeAxis_kind h).1]
  constructor
  · rintro ⟨t', h⟩
    obtain ⟨a1, a2, a3, -, a5, a6, j', a7, a8, -⟩ := (push_cases t t' j p).1 h
    exact ⟨a1, a2, a3, hlim.1 a5, a6, hax.1 ⟨j', a7⟩, by rw [← hwid j' a7]; exact a8⟩
  · rintro ⟨a1, a2, a3, a4, a5, a6, a7⟩
    obtain ⟨j', hj'⟩ := hax.2 a6
    exact ⟨_, (push_cases t _ j p).2 ⟨a1, a2, a3, hfin, hlim.2 a4, a5, j', hj',
      by rw [hwid j' hj']; exact a7, rfl⟩⟩

/-- A hinge about the vertical with limits in order, on the world. -/
example : ∃ t' : KinematicTree 3 10 ℝ,
    ((KinematicTree.new : KinematicTree 3 10 ℝ).push
      { Joint.fromKind .revolute ![0, 0, 2] SE3.identity with limits := some (-1, 1) }
      .world) = .ok t' := by
  refine (push_accepts_iff _ _ _).2 ⟨by simp [KinematicTree.new, len], by simp,
    by simp [Joint.fromKind], ?_, by simp [Joint.fromKind], ?_, by simp [KinematicTree.new, configLen, len, Joint.fromKind]⟩
  · intro lo up h
    simp only [Option.some.injEq, Prod.mk.injEq] at h
    obtain ⟨rfl, rfl⟩ := h
    norm_num
  · intro _ _ h
    have := congrFun h 2
    simp [Joint.fromKind] at this

/-- The same with its limits swapped. -/
example : (KinematicTree.new : KinematicTree 3 10 ℝ).push
    { Joint.fromKind .revolute ![0, 0, 2] SE3.identity with limits := some (1, -1) } .world =
      .error .limitsReversed :=
  (push_limit_errors _ _ _ (by simp [KinematicTree.new, len]) (by simp) (by simp [Joint.fromKind])
    (by simp [Joint.isFinite, vecIsFinite, Fns.isFinite]) 1 (-1) rfl).2.1 rfl rfl (by norm_num)

end KinematicTree
end Multicalc
