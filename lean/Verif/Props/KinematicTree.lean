import Verif.Model.KinematicTree
import Verif.Model.XR
import Verif.Props.Rigid
import Verif.Props.RotationMaps
import Verif.Props.Directions

/-!
# Kinematic trees and forward kinematics (C53)
-/

namespace Multicalc

/-! ### Loops over an index range that may fail -/

theorem foldlM_range_inv {σ ε : Type} (f : σ → ℕ → Except ε σ) (n : ℕ) (s₀ : σ) (Inv : ℕ → σ → Prop)
    (h0 : Inv 0 s₀) (hs : ∀ i < n, ∀ s s', Inv i s → f s i = .ok s' → Inv (i + 1) s') :
    ∀ s', (List.range n).foldlM f s₀ = .ok s' → Inv n s' := by
  induction n with
  | zero => intro s' h; simp only [List.range_zero, List.foldlM_nil] at h; cases h; exact h0
  | succ n ih =>
    intro s' h
    rw [List.range_succ, List.foldlM_append] at h
    cases hr : (List.range n).foldlM f s₀ with
    | error e => rw [hr] at h; cases h
    | ok s =>
      rw [hr] at h
      have h : f s n = .ok s' := by
        have h' : ([n].foldlM f s) = .ok s' := h
        rw [List.foldlM_cons] at h'
        cases hf : f s n with
        | error e => rw [hf] at h'; cases h'
        | ok v => rw [hf] at h'; exact h'
      exact hs n n.lt_succ_self s s' (ih (fun i hi => hs i (hi.trans n.lt_succ_self)) s hr) h

theorem foldlM_range_total {σ ε : Type} (f : σ → ℕ → Except ε σ) (n : ℕ) (s₀ : σ) (Inv : ℕ → σ → Prop)
    (h0 : Inv 0 s₀) (hs : ∀ i < n, ∀ s, Inv i s → ∃ s', f s i = .ok s' ∧ Inv (i + 1) s') :
    ∃ s', (List.range n).foldlM f s₀ = .ok s' ∧ Inv n s' := by
  induction n with
  | zero => exact ⟨s₀, rfl, h0⟩
  | succ n ih =>
    obtain ⟨s, hr, hi⟩ := ih (fun i hi => hs i (hi.trans n.lt_succ_self))
    obtain ⟨s', hf, hi'⟩ := hs n n.lt_succ_self s hi
    refine ⟨s', ?_, hi'⟩
    rw [List.range_succ, List.foldlM_append, hr]
    change [n].foldlM f s = _
    rw [List.foldlM_cons, hf]; rfl

theorem forM_range_ok {ε : Type} (f : ℕ → Except ε Unit) (n : ℕ) :
    (List.range n).forM f = .ok () ↔ ∀ i < n, f i = .ok () := by
  induction n with
  | zero => simp [List.forM]; rfl
  | succ n ih =>
    rw [List.range_succ]
    have : (List.range n ++ [n]).forM f = (do (List.range n).forM f; f n) := by
      simp [List.forM, bind_assoc]
    rw [this]
    cases hr : (List.range n).forM f with
    | error e =>
      constructor
      · intro h; cases h
      · intro h
        rw [ih.2 fun i hi => h i (hi.trans n.lt_succ_self)] at hr; cases hr
    | ok u =>
      have h1 := ih.1 hr
      constructor
      · intro h i hi
        rcases Nat.lt_succ_iff_lt_or_eq.1 hi with h' | rfl
        · exact h1 i h'
        · exact h
      · intro h; exact h n n.lt_succ_self

theorem forM_range_error {ε : Type} (f : ℕ → Except ε Unit) (n : ℕ) (e : ε)
    (hf : ∀ i < n, f i = .ok () ∨ f i = .error e) (hx : ∃ i < n, f i = .error e) :
    (List.range n).forM f = .error e := by
  induction n with
  | zero => obtain ⟨i, hi, _⟩ := hx; omega
  | succ n ih =>
    rw [List.range_succ]
    have : (List.range n ++ [n]).forM f = (do (List.range n).forM f; f n) := by
      simp [List.forM, bind_assoc]
    rw [this]
    by_cases hall : ∀ i < n, f i = .ok ()
    · rw [(forM_range_ok f n).2 hall]
      obtain ⟨i, hi, he⟩ := hx
      rcases Nat.lt_succ_iff_lt_or_eq.1 hi with h' | rfl
      · rw [hall i h'] at he; cases he
      · exact he
    · push Not at hall
      obtain ⟨i, hi, hne⟩ := hall
      rw [ih (fun i hi => hf i (hi.trans n.lt_succ_self))
        ⟨i, hi, (hf i (hi.trans n.lt_succ_self)).resolve_left hne⟩]
      rfl

namespace KinematicTree

variable {maxJoints maxConfig : ℕ}

/-! ### Trees that pushes can build -/

section structural

variable {T : Type} [Zero T] [One T] [NatCast T] [Add T] [Sub T] [Mul T] [Div T] [Neg T] [LT T]
  [DecidableLT T] [LE T] [DecidableLE T] [BEq T] [Fns T]

/-- The trees any sequence of accepted pushes can produce. -/
inductive Built : KinematicTree maxJoints maxConfig T → Prop
  | new : Built KinematicTree.new
  | push {t t' : KinematicTree maxJoints maxConfig T} {j : Joint T} {p : JointParent} :
      Built t → t.push j p = .ok t' → Built t'

theorem push_cases (t t' : KinematicTree maxJoints maxConfig T) (j : Joint T) (p : JointParent) :
    t.push j p = .ok t' ↔
      t.len ≠ maxJoints ∧ (∀ k, p = .joint k → k < t.len) ∧
      (j.kind = .floating → t.len = 0 ∧ p = .world) ∧ j.isFinite = true ∧ j.checkLimits = .ok () ∧
      (j.kind = .continuous → j.limits = none) ∧
      ∃ j', j.normalizeAxis = .ok j' ∧ t.configLen + j'.width ≤ maxConfig ∧
        t' = ⟨t.joints ++ [(j', p)]⟩ := by
  unfold push
  by_cases h1 : t.len = maxJoints
  · simp [h1]
  rw [if_neg h1]
  by_cases h2 : ∀ k, p = .joint k → k < t.len
  swap
  · cases p with
    | world => exact absurd (by simp) h2
    | joint k =>
      have hk : t.len ≤ k := by
        by_contra hc; exact h2 (by rintro k' ⟨⟩; omega)
      simp [hk, JointParent.outOfOrder]
  have h2' : ¬ (p.outOfOrder t.len = true) := by
    cases p with
    | world => simp [JointParent.outOfOrder]
    | joint k => simpa [JointParent.outOfOrder] using h2 k rfl
  rw [if_neg h2']
  by_cases h3 : j.kind = .floating ∧ (t.len ≠ 0 ∨ p ≠ .world)
  · have : ¬ (j.kind = .floating → t.len = 0 ∧ p = .world) := by
      intro h; have := h h3.1; rcases h3.2 with h | h
      · exact h this.1
      · exact h this.2
    rw [if_pos h3]
    simp [this]
  have h3' : j.kind = .floating → t.len = 0 ∧ p = .world := by
    intro hk
    by_contra hc
    exact h3 ⟨hk, by tauto⟩
  rw [if_neg h3]
  by_cases h4 : j.isFinite = false
  · simp [h4]
  rw [if_neg h4]
  have h4' : j.isFinite = true := by simpa using h4
  cases h5 : j.checkLimits with
  | error e => simp
  | ok u =>
    simp only
    by_cases h6 : j.kind = .continuous ∧ j.limits.isSome
    · rw [if_pos h6]
      have : ¬ (j.kind = .continuous → j.limits = none) := by
        intro h; have := h h6.1; rw [this] at h6; simp at h6
      simp [this]
    rw [if_neg h6]
    have h6' : j.kind = .continuous → j.limits = none := by
      intro hk
      cases hl : j.limits with
      | none => rfl
      | some v => exact absurd ⟨hk, by simp [hl]⟩ h6
    cases h7 : j.normalizeAxis with
    | error e => simp
    | ok j' =>
      simp only
      by_cases h8 : maxConfig < t.configLen + j'.width
      · rw [if_pos h8]
        simp; omega
      · rw [if_neg h8]
        constructor
        · rintro ⟨⟩
          exact ⟨h1, h2, h3', h4', trivial, h6', j', rfl, by omega, rfl⟩
        · rintro ⟨-, -, -, -, -, -, j'', he, -, rfl⟩
          cases he; rfl

/-- What every tree built by pushes satisfies. -/
structure WellFormed (t : KinematicTree maxJoints maxConfig T) : Prop where
  capacity : t.len ≤ maxJoints
  config : t.configLen ≤ maxConfig
  parents : ∀ i p, t.parent i = some (.joint p) → p < i
  floating : ∀ i j, t.joint i = some j → j.kind = .floating → i = 0 ∧ t.parent i = some .world

theorem joint_append (t : KinematicTree maxJoints maxConfig T) (x : Joint T × JointParent) (i : ℕ) :
    (⟨t.joints ++ [x]⟩ : KinematicTree maxJoints maxConfig T).joints[i]? =
      if i < t.len then t.joints[i]? else if i = t.len then some x else none := by
  unfold len
  split_ifs with h1 h2
  · exact List.getElem?_append_left h1
  · subst h2; simp
  · refine List.getElem?_eq_none ?_; simp; omega

theorem len_append (t : KinematicTree maxJoints maxConfig T) (x : Joint T × JointParent) :
    (⟨t.joints ++ [x]⟩ : KinematicTree maxJoints maxConfig T).len = t.len + 1 := by simp [len]

theorem normalizeAxis_kind {j j' : Joint T} (h : j.normalizeAxis = .ok j') :
    j'.kind = j.kind ∧ j'.anchor = j.anchor ∧ j'.origin = j.origin ∧ j'.zeroOffset = j.zeroOffset ∧
      j'.limits = j.limits := by
  unfold Joint.normalizeAxis at h
  split at h
  · cases h; exact ⟨rfl, rfl, rfl, rfl, rfl⟩
  · cases h; exact ⟨rfl, rfl, rfl, rfl, rfl⟩
  · split at h
    · cases h
    · cases h; exact ⟨rfl, rfl, rfl, rfl, rfl⟩

theorem hasFloatingBase_iff (t : KinematicTree maxJoints maxConfig T) :
    t.hasFloatingBase = true ↔ ∃ j, t.joint 0 = some j ∧ j.kind = .floating := by
  unfold hasFloatingBase joint
  cases t.joints with
  | nil => simp
  | cons a l => simp

theorem configLen_append (t : KinematicTree maxJoints maxConfig T) (j : Joint T) (p : JointParent)
    (h : j.kind = .floating → t.len = 0) :
    (⟨t.joints ++ [(j, p)]⟩ : KinematicTree maxJoints maxConfig T).configLen = t.configLen + j.width := by
  unfold configLen
  rw [len_append, if_neg (Nat.succ_ne_zero _)]
  unfold hasFloatingBase Joint.width len
  cases hj : t.joints with
  | nil =>
    by_cases hk : j.kind = .floating <;> simp [hk]
  | cons a l =>
    have hk : j.kind ≠ .floating := fun hk => by simpa [len, hj] using h hk
    by_cases ha : a.1.kind = .floating <;> simp [ha, hk]

/-- C53. Whatever sequence of pushes built it, a tree fits its capacities, every joint hangs off the
world or off a joint pushed before it, and a floating joint is only ever the first joint and attached to
the world. -/
theorem built_wellFormed {t : KinematicTree maxJoints maxConfig T} (h : Built t) : t.WellFormed := by
  induction h with
  | new =>
    refine ⟨Nat.zero_le _, Nat.zero_le _, ?_, ?_⟩
    · intro i p h; simp [parent, KinematicTree.new] at h
    · intro i p h; simp [joint, KinematicTree.new] at h
  | @push t t' j p hb hp ih =>
    obtain ⟨h1, h2, h3, -, -, -, j', hj, hc, rfl⟩ := (push_cases _ _ _ _).1 hp
    have hk := (normalizeAxis_kind hj).1
    refine ⟨?_, ?_, ?_, ?_⟩
    · rw [len_append]; have := ih.capacity; omega
    · rw [configLen_append _ _ _ (by rw [hk]; exact fun h => (h3 h).1)]; exact hc
    · intro i q hq
      unfold parent at hq
      rw [joint_append] at hq
      split_ifs at hq with ha hb'
      · exact ih.parents i q hq
      · simp only [Option.map_some, Option.some.injEq] at hq
        have := h2 q hq; omega
      · simp at hq
    · intro i jj hjj hf
      unfold joint at hjj
      unfold parent
      rw [joint_append] at hjj ⊢
      split_ifs at hjj ⊢ with ha hb'
      · exact ih.floating i jj hjj hf
      · simp only [Option.map_some, Option.some.injEq] at hjj ⊢
        subst hjj
        rw [hk] at hf
        exact ⟨by rw [hb', (h3 hf).1], (h3 hf).2⟩
      · simp at hjj

/-- C53. `push` refuses a joint exactly when the tree is full, the parent does not come earlier, a
floating joint is not at the root, a parameter is not finite, the limits are reversed, a continuous joint
has limits, a moving joint's axis has no direction, or the configuration vector is too short; the tests
run in that order. Otherwise the joint goes on the end, and the joints already there keep their place. -/
theorem push_errors (t : KinematicTree maxJoints maxConfig T) (j : Joint T) (p : JointParent) :
    (t.len = maxJoints → t.push j p = .error .capacityExceeded) ∧
    (t.len ≠ maxJoints → (∃ k, p = .joint k ∧ t.len ≤ k) → t.push j p = .error .parentOutOfOrder) ∧
    (t.len ≠ maxJoints → (∀ k, p = .joint k → k < t.len) → j.kind = .floating →
      ¬ (t.len = 0 ∧ p = .world) → t.push j p = .error .floatingJointNotAtRoot) ∧
    (t.len ≠ maxJoints → (∀ k, p = .joint k → k < t.len) →
      (j.kind = .floating → t.len = 0 ∧ p = .world) → j.isFinite = false →
      t.push j p = .error .nonFinite) ∧
    (∀ t', t.push j p = .ok t' →
      t'.len = t.len + 1 ∧ t'.configLen = t.configLen + j.width ∧ t'.parent t.len = some p ∧
      (∃ j', t'.joint t.len = some j' ∧ j'.kind = j.kind ∧ j'.origin = j.origin ∧ j'.anchor = j.anchor ∧
        j'.zeroOffset = j.zeroOffset ∧ j'.limits = j.limits) ∧
      ∀ i < t.len, t'.joint i = t.joint i ∧ t'.parent i = t.parent i) := by
  refine ⟨fun h => by simp [push, h], ?_, ?_, ?_, ?_⟩
  · rintro h ⟨k, rfl, hk⟩
    simp [push, h, JointParent.outOfOrder, hk]
  · intro h h2 hf hn
    have h2' : p.outOfOrder t.len = false := by
      cases p with
      | world => rfl
      | joint k => simpa [JointParent.outOfOrder] using h2 k rfl
    unfold push
    rw [if_neg h, h2', if_neg (by simp), if_pos ⟨hf, by tauto⟩]
  · intro h h2 h3 h4
    have h2' : p.outOfOrder t.len = false := by
      cases p with
      | world => rfl
      | joint k => simpa [JointParent.outOfOrder] using h2 k rfl
    unfold push
    rw [if_neg h, h2', if_neg (by simp), if_neg (by tauto), if_pos h4]
  · intro t' hp
    obtain ⟨h1, h2, h3, -, -, -, j', hj, hc, rfl⟩ := (push_cases _ _ _ _).1 hp
    obtain ⟨hk, ha, ho, hz, hl⟩ := normalizeAxis_kind hj
    have hw : j'.width = j.width := by simp [Joint.width, hk]
    refine ⟨len_append _ _, ?_, ?_, ⟨j', ?_, hk, ho, ha, hz, hl⟩, fun i hi => ?_⟩
    · rw [configLen_append _ _ _ (by rw [hk]; exact fun h => (h3 h).1), hw]
    · unfold parent; rw [joint_append]; simp
    · unfold joint; rw [joint_append]; simp
    · unfold joint parent; rw [joint_append, if_pos hi]; exact ⟨rfl, rfl⟩

theorem configOffset_some {t : KinematicTree maxJoints maxConfig T} {i o : ℕ} :
    t.configOffset i = some o ↔
      i < t.len ∧ o = if t.hasFloatingBase && decide (0 < i) then i + 6 else i := by
  unfold configOffset
  split_ifs <;> simp <;> omega

theorem velocityOffset_some {t : KinematicTree maxJoints maxConfig T} {i o : ℕ} :
    t.velocityOffset i = some o ↔
      i < t.len ∧ o = if t.hasFloatingBase && decide (0 < i) then i + 5 else i := by
  unfold velocityOffset
  split_ifs <;> simp <;> omega

theorem joint_some_lt {t : KinematicTree maxJoints maxConfig T} {i : ℕ} {j : Joint T}
    (h : t.joint i = some j) : i < t.len := by
  unfold joint at h
  by_contra hc
  rw [List.getElem?_eq_none (by unfold len at hc; omega)] at h
  simp at h

theorem joint_exists {t : KinematicTree maxJoints maxConfig T} {i : ℕ} (h : i < t.len) :
    ∃ j, t.joint i = some j := by
  unfold joint
  rw [List.getElem?_eq_getElem (by exact h)]
  exact ⟨_, rfl⟩

theorem floating_width {t : KinematicTree maxJoints maxConfig T} (hw : t.WellFormed) {i : ℕ} {j : Joint T}
    (h : t.joint i = some j) : (t.hasFloatingBase = true ∧ i = 0 ∧ j.kind = .floating ∧ j.width = 7) ∨
      ((t.hasFloatingBase = false ∨ 0 < i) ∧ j.kind ≠ .floating ∧ j.width = 1) := by
  by_cases hk : j.kind = .floating
  · left
    have h0 := (hw.floating i j h hk).1
    subst h0
    exact ⟨(hasFloatingBase_iff t).2 ⟨j, h, hk⟩, rfl, hk, by simp [Joint.width, hk]⟩
  · right
    refine ⟨?_, hk, by simp [Joint.width, hk]⟩
    by_contra hc
    push Not at hc
    have h0 : i = 0 := by omega
    subst h0
    obtain ⟨j', hj', hk'⟩ := (hasFloatingBase_iff t).1 (by simpa using hc.1)
    rw [h] at hj'; cases hj'; exact hk hk'

/-- C53. The configuration slots the joints read cut the first `config_len` slots of the vector into
disjoint runs that leave nothing over: seven slots for a floating joint and one for any other. The same
holds of the velocity slots, six and one, over `velocity_len`. All of them fit the configuration
vector. -/
theorem offsets_partition {t : KinematicTree maxJoints maxConfig T} (hb : Built t) :
    (∀ k < t.configLen, ∃! i, ∃ j o, t.joint i = some j ∧ t.configOffset i = some o ∧
      o ≤ k ∧ k < o + (if j.kind = .floating then 7 else 1)) ∧
    (∀ i j o, t.joint i = some j → t.configOffset i = some o →
      o + (if j.kind = .floating then 7 else 1) ≤ t.configLen) ∧
    (∀ k < t.velocityLen, ∃! i, ∃ j o, t.joint i = some j ∧ t.velocityOffset i = some o ∧
      o ≤ k ∧ k < o + (if j.kind = .floating then 6 else 1)) ∧
    (∀ i j o, t.joint i = some j → t.velocityOffset i = some o →
      o + (if j.kind = .floating then 6 else 1) ≤ t.velocityLen) ∧
    t.configLen ≤ maxConfig ∧ t.velocityLen ≤ maxConfig := by
  have hw := built_wellFormed hb
  have hcv : t.velocityLen ≤ t.configLen := by unfold velocityLen configLen; split_ifs <;> omega
  refine ⟨?_, ?_, ?_, ?_, hw.config, hcv.trans hw.config⟩
  · intro k hk
    cases hf : t.hasFloatingBase with
    | false =>
      have hk' : k < t.len := by
        unfold configLen at hk; rw [hf] at hk; split_ifs at hk <;> simp_all
      obtain ⟨j, hj⟩ := joint_exists hk'
      rcases floating_width hw hj with h | h
      · rw [hf] at h; simp at h
      refine ⟨k, ⟨j, k, hj, configOffset_some.2 ⟨hk', by simp [hf]⟩, le_rfl, by simp [h.2.1]⟩, ?_⟩
      rintro i ⟨j', o, hj', ho, h1, h2⟩
      obtain ⟨-, ho⟩ := configOffset_some.1 ho
      rcases floating_width hw hj' with h | h
      · rw [hf] at h; simp at h
      simp [hf] at ho; simp [h.2.1] at h2; omega
    | true =>
      have hk' : k < t.len + 6 := by
        unfold configLen at hk; rw [hf] at hk; split_ifs at hk <;> simp_all
      obtain ⟨j0, hj0, hk0⟩ := (hasFloatingBase_iff t).1 hf
      have hlen := joint_some_lt hj0
      by_cases h7 : k < 7
      · refine ⟨0, ⟨j0, 0, hj0, configOffset_some.2 ⟨hlen, by simp⟩, Nat.zero_le _, by simp [hk0]; omega⟩, ?_⟩
        rintro i ⟨j', o, hj', ho, h1, h2⟩
        obtain ⟨-, ho⟩ := configOffset_some.1 ho
        by_contra hi
        simp [hf, Nat.pos_of_ne_zero hi] at ho; omega
      · obtain ⟨j, hj⟩ := joint_exists (t := t) (i := k - 6) (by omega)
        rcases floating_width hw hj with h | h
        · omega
        refine ⟨k - 6, ⟨j, k, hj, configOffset_some.2 ⟨by omega, ?_⟩, le_rfl, by simp [h.2.1]⟩, ?_⟩
        · rw [hf, if_pos (by simp; omega)]; omega
        rintro i ⟨j', o, hj', ho, h1, h2⟩
        obtain ⟨-, ho⟩ := configOffset_some.1 ho
        rcases floating_width hw hj' with h' | h'
        · obtain ⟨-, rfl, hk', -⟩ := h'; simp at ho; simp [hk'] at h2; omega
        · simp [hf] at h'
          simp [hf, h'.1] at ho; simp [h'.2.1] at h2; omega
  · intro i j o hj ho
    obtain ⟨hi, ho⟩ := configOffset_some.1 ho
    have hlen : t.configLen = if t.hasFloatingBase then t.len + 6 else t.len := by
      unfold configLen; rw [if_neg (show t.len ≠ 0 by omega)]
    rw [hlen]
    rcases floating_width hw hj with h | h
    · obtain ⟨hf, rfl, hk, -⟩ := h
      simp [hf, hk] at ho ⊢; omega
    · rw [ho]; simp only [h.2.1, if_false]
      cases hf : t.hasFloatingBase
      · simp; omega
      · simp [hf] at h; simp [h.1]; omega
  · intro k hk
    cases hf : t.hasFloatingBase with
    | false =>
      have hk' : k < t.len := by
        unfold velocityLen at hk; rw [hf] at hk; split_ifs at hk <;> simp_all
      obtain ⟨j, hj⟩ := joint_exists hk'
      rcases floating_width hw hj with h | h
      · rw [hf] at h; simp at h
      refine ⟨k, ⟨j, k, hj, velocityOffset_some.2 ⟨hk', by simp [hf]⟩, le_rfl, by simp [h.2.1]⟩, ?_⟩
      rintro i ⟨j', o, hj', ho, h1, h2⟩
      obtain ⟨-, ho⟩ := velocityOffset_some.1 ho
      rcases floating_width hw hj' with h | h
      · rw [hf] at h; simp at h
      simp [hf] at ho; simp [h.2.1] at h2; omega
    | true =>
      have hk' : k < t.len + 5 := by
        unfold velocityLen at hk; rw [hf] at hk; split_ifs at hk <;> simp_all
      obtain ⟨j0, hj0, hk0⟩ := (hasFloatingBase_iff t).1 hf
      have hlen := joint_some_lt hj0
      by_cases h7 : k < 6
      · refine ⟨0, ⟨j0, 0, hj0, velocityOffset_some.2 ⟨hlen, by simp⟩, Nat.zero_le _, by simp [hk0]; omega⟩, ?_⟩
        rintro i ⟨j', o, hj', ho, h1, h2⟩
        obtain ⟨-, ho⟩ := velocityOffset_some.1 ho
        by_contra hi
        simp [hf, Nat.pos_of_ne_zero hi] at ho; omega
      · obtain ⟨j, hj⟩ := joint_exists (t := t) (i := k - 5) (by omega)
        rcases floating_width hw hj with h | h
        · omega
        refine ⟨k - 5, ⟨j, k, hj, velocityOffset_some.2 ⟨by omega, ?_⟩, le_rfl, by simp [h.2.1]⟩, ?_⟩
        · rw [hf, if_pos (by simp; omega)]; omega
        rintro i ⟨j', o, hj', ho, h1, h2⟩
        obtain ⟨-, ho⟩ := velocityOffset_some.1 ho
        rcases floating_width hw hj' with h' | h'
        · obtain ⟨-, rfl, hk', -⟩ := h'; simp at ho; simp [hk'] at h2; omega
        · simp [hf] at h'
          simp [hf, h'.1] at ho; simp [h'.2.1] at h2; omega
  · intro i j o hj ho
    obtain ⟨hi, ho⟩ := velocityOffset_some.1 ho
    have hlen : t.velocityLen = if t.hasFloatingBase then t.len + 5 else t.len := by
      unfold velocityLen; rw [if_neg (show t.len ≠ 0 by omega)]
    rw [hlen]
    rcases floating_width hw hj with h | h
    · obtain ⟨hf, rfl, hk, -⟩ := h
      simp [hf, hk] at ho ⊢; omega
    · rw [ho]; simp only [h.2.1, if_false]
      cases hf : t.hasFloatingBase
      · simp; omega
      · simp [hf] at h; simp [h.1]; omega

/-- The pose that link `i` hangs off: the identity for the world, the pose of an earlier link otherwise. -/
def HangsOff (t : KinematicTree maxJoints maxConfig T) (s : KinematicTreeState T) (i : ℕ) (P : SE3 T) :
    Prop :=
  (t.parent i = some .world ∧ P = SE3.identity) ∨
    ∃ p < i, t.parent i = some (.joint p) ∧ s.pose p = some P

/-- The motion a joint makes at a configuration, from the joint's own numbers and its reading: a turn
`x ↦ anchor + R (x - anchor)` about the axis by the displacement, a slide along the axis, nothing, or the
place and orientation read from seven slots. -/
def IsMotion (j : Joint T) (c : Fin maxConfig → T) (o : ℕ) (M : SE3 T) : Prop :=
  match j.kind with
  | .revolute | .continuous => ∃ h : o < maxConfig,
      M.rotation = SO3.exp (fun k => j.axis k * (c ⟨o, h⟩ - j.zeroOffset)) ∧
      M.translation = fun k => j.anchor k - M.rotation.act j.anchor k
  | .prismatic => ∃ h : o < maxConfig,
      M.rotation = SO3.identity ∧ M.translation = fun k => j.axis k * (c ⟨o, h⟩ - j.zeroOffset)
  | .fixed => M = SE3.identity
  | .floating => ∃ (h : o + 7 ≤ maxConfig) (q : Quat T),
      (Quat.mk (c ⟨o + 3, by omega⟩) (c ⟨o + 4, by omega⟩) (c ⟨o + 5, by omega⟩)
        (c ⟨o + 6, by omega⟩)).tryNormalized = some q ∧ M.rotation = SO3.fromQuaternion q ∧
      M.translation = ![c ⟨o, by omega⟩, c ⟨o + 1, by omega⟩, c ⟨o + 2, by omega⟩]

theorem localPose_isMotion {j : Joint T} {c : Fin maxConfig → T} {o : ℕ} {M : SE3 T}
    (h : localPose j c o = .ok M) : IsMotion j c o M := by
  unfold localPose at h
  unfold IsMotion
  cases hk : j.kind <;> simp only [hk] at h ⊢
  all_goals try unfold reading at h
  · split_ifs at h with ho
    cases h; exact ⟨ho, rfl, rfl⟩
  · split_ifs at h with ho
    cases h; exact ⟨ho, rfl, rfl⟩
  · split_ifs at h with ho
    cases h; exact ⟨ho, rfl, rfl⟩
  · cases h; rfl
  · split_ifs at h with ho
    refine ⟨ho, ?_⟩
    unfold FreeJointState.fromGeneralizedVectors at h
    split at h
    · cases h
    · rename_i st hst
      cases h
      split at hst
      · cases hst
      · rename_i q hq
        cases hst
        exact ⟨q, hq, rfl, rfl⟩

theorem parent_exists {t : KinematicTree maxJoints maxConfig T} {i : ℕ} (h : i < t.len) :
    ∃ p, t.parent i = some p := by
  unfold parent
  rw [List.getElem?_eq_getElem (by exact h)]
  exact ⟨_, rfl⟩

/-- The state of the forward sweep after `n` links. -/
def SweepInv (t : KinematicTree maxJoints maxConfig T) (c : Fin maxConfig → T) (n : ℕ)
    (poses : ℕ → SE3 T) : Prop :=
  ∀ i < n, ∃ j o P M, t.joint i = some j ∧ t.configOffset i = some o ∧
    ((t.parent i = some .world ∧ P = SE3.identity) ∨
      ∃ p < i, t.parent i = some (.joint p) ∧ poses p = P) ∧
    localPose j c o = .ok M ∧ poses i = (P.compose j.origin).compose M

theorem sweepStep_inv {t : KinematicTree maxJoints maxConfig T} (hw : t.WellFormed)
    {c : Fin maxConfig → T} {i : ℕ} {poses poses' : ℕ → SE3 T} (hi : SweepInv t c i poses)
    (h : t.sweepStep c poses i = .ok poses') : SweepInv t c (i + 1) poses' := by
  unfold sweepStep at h
  cases hj : t.joint i with
  | none => rw [hj] at h; cases h
  | some j =>
  cases ho : t.configOffset i with
  | none => rw [hj, ho] at h; cases h
  | some o =>
  rw [hj, ho] at h
  simp only at h
  cases hpp : t.parentPose poses i with
  | error e => rw [hpp] at h; cases h
  | ok P =>
  cases hm : localPose j c o with
  | error e => rw [hpp, hm] at h; cases h
  | ok M =>
  rw [hpp, hm] at h
  have h : poses' = Function.update poses i ((P.compose j.origin).compose M) := by
    symm; exact Except.ok.inj h
  have hlow : ∀ k, k < i → poses' k = poses k := fun k hk => by
    rw [h, Function.update_of_ne (by omega)]
  intro k hk
  rcases Nat.lt_succ_iff_lt_or_eq.1 hk with hk' | rfl
  · obtain ⟨j', o', P', M', h1, h2, h3, h4, h5⟩ := hi k hk'
    refine ⟨j', o', P', M', h1, h2, ?_, h4, by rw [hlow k hk', h5]⟩
    rcases h3 with h3 | ⟨p, hp, hp1, hp2⟩
    · exact Or.inl h3
    · exact Or.inr ⟨p, hp, hp1, by rw [hlow p (by omega), hp2]⟩
  · refine ⟨j, o, P, M, hj, ho, ?_, hm, by rw [h, Function.update_self]⟩
    obtain ⟨p, hp⟩ := parent_exists (joint_some_lt hj)
    unfold parentPose at hpp
    rw [hp] at hpp
    cases p with
    | world => cases hpp; exact Or.inl ⟨hp, rfl⟩
    | joint p =>
      simp only at hpp
      split_ifs at hpp
      cases hpp
      exact Or.inr ⟨p, hw.parents k p hp, hp, hlow p (hw.parents k p hp)⟩

theorem fk_ok_inv {t : KinematicTree maxJoints maxConfig T} (hw : t.WellFormed) {c : Fin maxConfig → T}
    {s : KinematicTreeState T} (h : t.forwardKinematics c = .ok s) :
    s.length = t.len ∧ SweepInv t c t.len s.poses := by
  unfold forwardKinematics at h
  cases hc : (List.range t.len).forM (t.checkReadings c) with
  | error e => rw [hc] at h; cases h
  | ok u =>
  rw [hc] at h
  cases hp : (List.range t.len).foldlM (t.sweepStep c) fun _ => SE3.identity with
  | error e => simp only [hp, bind, Except.bind] at h; cases h
  | ok poses =>
    simp only [hp, bind, Except.bind] at h
    cases h
    exact ⟨rfl, foldlM_range_inv _ _ _ (SweepInv t c) (fun i hi => absurd hi (Nat.not_lt_zero i))
      (fun i _ p p' => sweepStep_inv hw) _ hp⟩

theorem pose_some {s : KinematicTreeState T} {i : ℕ} (h : i < s.length) : s.pose i = some (s.poses i) := by
  unfold KinematicTreeState.pose; rw [if_neg (by omega)]

/-- C53. Forward kinematics, on any tree built by pushes and any configuration it accepts, gives one
pose per joint, and each pose is the parent's pose times the joint's origin times the joint's motion. No
law of arithmetic is used, so this holds of the floating-point results themselves. -/
theorem fk_recurrence {t : KinematicTree maxJoints maxConfig T} (hb : Built t) {c : Fin maxConfig → T}
    {s : KinematicTreeState T} (h : t.forwardKinematics c = .ok s) :
    (∀ i, (s.pose i).isSome ↔ i < t.len) ∧
    ∀ i < t.len, ∃ j o P M, t.joint i = some j ∧ t.configOffset i = some o ∧ HangsOff t s i P ∧
      IsMotion j c o M ∧ s.pose i = some ((P.compose j.origin).compose M) := by
  obtain ⟨hl, hi⟩ := fk_ok_inv (built_wellFormed hb) h
  refine ⟨fun i => ?_, fun i hlt => ?_⟩
  · unfold KinematicTreeState.pose; rw [hl]; split_ifs <;> simp <;> omega
  · obtain ⟨j, o, P, M, h1, h2, h3, h4, h5⟩ := hi i hlt
    refine ⟨j, o, P, M, h1, h2, ?_, localPose_isMotion h4, ?_⟩
    · rcases h3 with h3 | ⟨p, hp, hp1, hp2⟩
      · exact Or.inl h3
      · exact Or.inr ⟨p, hp, hp1, by rw [pose_some (by omega), hp2]⟩
    · rw [pose_some (by omega), h5]

theorem localPose_congr {j : Joint T} {c c' : Fin maxConfig → T} {o : ℕ}
    (h : ∀ k : Fin maxConfig, o ≤ k.val → k.val < o + j.width → c k = c' k) :
    localPose j c o = localPose j c' o := by
  unfold localPose
  have hw : j.kind ≠ .floating → j.width = 1 := fun hk => by simp [Joint.width, hk]
  have h1 : j.kind ≠ .floating → reading c o = reading c' o := fun hk => by
    unfold reading; split_ifs with hlt
    · rw [h ⟨o, hlt⟩ le_rfl (by rw [hw hk]; exact Nat.lt_succ_self _)]
    · rfl
  cases hk : j.kind <;> simp only
  · rw [h1 (by simp [hk])]
  · rw [h1 (by simp [hk])]
  · rw [h1 (by simp [hk])]
  · have hwf : j.width = 7 := by simp [Joint.width, hk]
    split_ifs with hlt
    · have : (fun slot : Fin 7 => c ⟨o + slot, by omega⟩) = fun slot : Fin 7 => c' ⟨o + slot, by omega⟩ := by
        funext slot
        exact h _ (Nat.le_add_right _ _) (by rw [hwf]; exact Nat.add_lt_add_left slot.2 o)
      rw [this]
    · rfl

/-- Link `i` is carried by joint `k`: `i` is `k` or hangs off a link that is. -/
inductive CarriedBy (t : KinematicTree maxJoints maxConfig T) (k : ℕ) : ℕ → Prop
  | self : CarriedBy t k k
  | step {i p : ℕ} : t.parent i = some (.joint p) → CarriedBy t k p → CarriedBy t k i

/-- C53. Moving joint `k` moves only the links it carries: two configurations that differ only in the
slots of joint `k` give the same pose to every link not hanging, directly or through others, off joint
`k`. -/
theorem fk_local {t : KinematicTree maxJoints maxConfig T} (hb : Built t) {c c' : Fin maxConfig → T}
    {s s' : KinematicTreeState T} (h : t.forwardKinematics c = .ok s)
    (h' : t.forwardKinematics c' = .ok s') (k o : ℕ) (j : Joint T) (hj : t.joint k = some j)
    (ho : t.configOffset k = some o)
    (hc : ∀ n : Fin maxConfig, ¬ (o ≤ n.val ∧ n.val < o + (if j.kind = .floating then 7 else 1)) → c n = c' n)
    (i : ℕ) (hi : ¬ CarriedBy t k i) : s.pose i = s'.pose i := by
  have hw := built_wellFormed hb
  obtain ⟨hl, hinv⟩ := fk_ok_inv hw h
  obtain ⟨hl', hinv'⟩ := fk_ok_inv hw h'
  by_cases hlt : i < t.len
  swap
  · unfold KinematicTreeState.pose; rw [hl, hl', if_pos (by omega), if_pos (by omega)]
  rw [pose_some (by omega), pose_some (by omega)]
  congr 1
  induction i using Nat.strong_induction_on with
  | _ i ih =>
    obtain ⟨j1, o1, P, M, h1, h2, h3, h4, h5⟩ := hinv i hlt
    obtain ⟨j2, o2, P', M', h1', h2', h3', h4', h5'⟩ := hinv' i hlt
    rw [h1] at h1'; cases h1'
    rw [h2] at h2'; cases h2'
    have hik : i ≠ k := fun hik => hi (hik ▸ CarriedBy.self)
    have hM : localPose j1 c o1 = localPose j1 c' o1 := by
      refine localPose_congr fun n hn1 hn2 => hc n fun hn => hik ?_
      have hpart := (offsets_partition hb).1 n.val (by
        have := (offsets_partition hb).2.1 i j1 o1 h1 h2
        unfold Joint.width at hn2; omega)
      exact hpart.unique ⟨j1, o1, h1, h2, hn1, by unfold Joint.width at hn2; exact hn2⟩
        ⟨j, o, hj, ho, hn⟩
    rw [h4, h4'] at hM
    cases hM
    have hP : P = P' := by
      rcases h3 with h3 | ⟨p, hp, hp1, hp2⟩ <;> rcases h3' with h3' | ⟨p', hp', hp1', hp2'⟩
      · rw [h3.2, h3'.2]
      · rw [h3.1] at hp1'; cases hp1'
      · rw [h3'.1] at hp1; cases hp1
      · rw [hp1] at hp1'; cases hp1'
        rw [← hp2, ← hp2']
        exact ih p hp (fun hcar => hi (CarriedBy.step hp1 hcar)) (by omega)
    rw [h5, h5', hP]

/-- C53. When forward kinematics is refused, and why: with a reading of a moving joint that is not
finite it answers `NonFinite`; with every such reading finite it succeeds, unless the tree floats and the
four orientation numbers cannot be normalised, and then it answers `OrientationHasNoDirection`. -/
theorem fk_refusals {t : KinematicTree maxJoints maxConfig T} (hb : Built t) (c : Fin maxConfig → T) :
    ((∃ (k : Fin maxConfig) (i o : ℕ) (j : Joint T), t.joint i = some j ∧ t.configOffset i = some o ∧
        j.kind ≠ .fixed ∧ o ≤ k.val ∧ k.val < o + (if j.kind = .floating then 7 else 1) ∧
        Fns.isFinite (c k) = false) →
      t.forwardKinematics c = .error .nonFinite) ∧
    ((∀ (k : Fin maxConfig) (i o : ℕ) (j : Joint T), t.joint i = some j → t.configOffset i = some o →
        j.kind ≠ .fixed → o ≤ k.val → k.val < o + (if j.kind = .floating then 7 else 1) →
        Fns.isFinite (c k) = true) →
      (t.hasFloatingBase = false → ∃ s, t.forwardKinematics c = .ok s) ∧
      (t.hasFloatingBase = true → ∃ h : 7 ≤ maxConfig,
        ((∃ s, t.forwardKinematics c = .ok s) ∧
          ∃ q, (Quat.mk (c ⟨3, by omega⟩) (c ⟨4, by omega⟩) (c ⟨5, by omega⟩)
            (c ⟨6, by omega⟩)).tryNormalized = some q) ∨
        (t.forwardKinematics c = .error .orientationHasNoDirection ∧
          (Quat.mk (c ⟨3, by omega⟩) (c ⟨4, by omega⟩) (c ⟨5, by omega⟩)
            (c ⟨6, by omega⟩)).tryNormalized = none))) := by
  have hw := built_wellFormed hb
  have hin : ∀ i j o, t.joint i = some j → t.configOffset i = some o → o + j.width ≤ maxConfig := by
    intro i j o hj ho
    exact ((offsets_partition hb).2.1 i j o hj ho).trans hw.config
  have hoff : ∀ i, i < t.len → ∃ o, t.configOffset i = some o := fun i hi =>
    ⟨_, configOffset_some.2 ⟨hi, rfl⟩⟩
  have hread : ∀ i, i < t.len → ∀ j o, t.joint i = some j → t.configOffset i = some o →
      (t.checkReadings c i = .ok () ↔ (j.kind ≠ .fixed → ∀ k : Fin maxConfig, o ≤ k.val →
        k.val < o + j.width → Fns.isFinite (c k) = true)) ∧
      (t.checkReadings c i = .ok () ∨ t.checkReadings c i = .error .nonFinite) := by
    intro i hi j o hj ho
    have hwd := hin i j o hj ho
    have hstep : ∀ slot, slot < j.width → ∀ hs : o + slot < maxConfig,
        (match reading c (o + slot) with
          | none => .error .nonFinite
          | some value =>
            if j.kind ≠ .fixed ∧ Fns.isFinite value = false then .error .nonFinite else .ok () :
              Except KinematicsError Unit) =
          if j.kind ≠ .fixed ∧ Fns.isFinite (c ⟨o + slot, hs⟩) = false then .error .nonFinite else .ok () := by
      intro slot _ hs
      unfold reading
      rw [dif_pos hs]
    have hcheck : t.checkReadings c i = (List.range j.width).forM fun slot =>
        (match reading c (o + slot) with
          | none => .error .nonFinite
          | some value =>
            if j.kind ≠ .fixed ∧ Fns.isFinite value = false then .error .nonFinite else .ok () :
              Except KinematicsError Unit) := by
      unfold checkReadings; rw [hj, ho]; rfl
    have hdich : ∀ slot < j.width, (match reading c (o + slot) with
          | none => .error .nonFinite
          | some value =>
            if j.kind ≠ .fixed ∧ Fns.isFinite value = false then .error .nonFinite else .ok () :
              Except KinematicsError Unit) = .ok () ∨ (match reading c (o + slot) with
          | none => .error .nonFinite
          | some value =>
            if j.kind ≠ .fixed ∧ Fns.isFinite value = false then .error .nonFinite else .ok () :
              Except KinematicsError Unit) = .error .nonFinite := by
      intro slot hs
      rw [hstep slot hs (by omega)]
      split_ifs <;> simp
    refine ⟨?_, ?_⟩
    · rw [hcheck, forM_range_ok]
      constructor
      · intro h hk k h1 h2
        have := h (k.val - o) (by omega)
        rw [hstep _ (by omega) (by omega)] at this
        split_ifs at this with hif
        by_contra hfin
        refine hif ⟨hk, ?_⟩
        have : (⟨o + (k.val - o), by omega⟩ : Fin maxConfig) = k := Fin.ext (by simp; omega)
        rw [this]; simpa using hfin
      · intro h slot hs
        rw [hstep slot hs (by omega), if_neg]
        rintro ⟨hk, hf⟩
        have := h hk ⟨o + slot, by omega⟩ (Nat.le_add_right _ _) (Nat.add_lt_add_left hs o)
        rw [this] at hf; cases hf
    · rw [hcheck]
      by_cases hall : ∀ slot < j.width, (match reading c (o + slot) with
          | none => .error .nonFinite
          | some value =>
            if j.kind ≠ .fixed ∧ Fns.isFinite value = false then .error .nonFinite else .ok () :
              Except KinematicsError Unit) = .ok ()
      · left; exact (forM_range_ok _ _).2 hall
      · right
        push Not at hall
        obtain ⟨slot, hs, hne⟩ := hall
        exact forM_range_error _ _ _ hdich ⟨slot, hs, (hdich slot hs).resolve_left hne⟩
  refine ⟨?_, ?_⟩
  · rintro ⟨k, i, o, j, hj, ho, hk, h1, h2, hfin⟩
    have hi := joint_some_lt hj
    have : (List.range t.len).forM (t.checkReadings c) = .error .nonFinite := by
      refine forM_range_error _ _ _ (fun i' hi' => ?_) ⟨i, hi, ?_⟩
      · obtain ⟨j', hj'⟩ := joint_exists hi'
        obtain ⟨o', ho'⟩ := hoff i' hi'
        exact (hread i' hi' j' o' hj' ho').2
      · refine (hread i hi j o hj ho).2.resolve_left fun hok => ?_
        have := (hread i hi j o hj ho).1.1 hok hk k h1 (by unfold Joint.width; exact h2)
        rw [hfin] at this; cases this
    unfold forwardKinematics
    rw [this]; rfl
  · intro hall
    have hchk : (List.range t.len).forM (t.checkReadings c) = .ok () := by
      rw [forM_range_ok]
      intro i hi
      obtain ⟨j, hj⟩ := joint_exists hi
      obtain ⟨o, ho⟩ := hoff i hi
      exact (hread i hi j o hj ho).1.2 fun hk k h1 h2 => hall k i o j hj ho hk h1 (by
        unfold Joint.width at h2; exact h2)
    have hfk : t.forwardKinematics c =
        (List.range t.len).foldlM (t.sweepStep c) (fun _ => SE3.identity) >>=
          fun poses => .ok ⟨poses, t.len⟩ := by
      unfold forwardKinematics; rw [hchk]; rfl
    have hpp : ∀ poses i, i < t.len → ∃ P, t.parentPose poses i = .ok P := by
      intro poses i hi
      obtain ⟨p, hp⟩ := parent_exists hi
      unfold parentPose; rw [hp]
      cases p with
      | world => exact ⟨_, rfl⟩
      | joint p =>
        have h1 := hw.parents i p hp
        have h2 := hw.capacity
        exact ⟨_, if_pos (by omega)⟩
    have hrd : ∀ i j o, t.joint i = some j → t.configOffset i = some o → ∃ v, reading c o = some v := by
      intro i j o hj ho
      have := hin i j o hj ho
      unfold reading
      rw [dif_pos (by unfold Joint.width at this; split_ifs at this <;> omega)]
      exact ⟨_, rfl⟩
    have hnf : ∀ i j o, t.joint i = some j → t.configOffset i = some o → j.kind ≠ .floating →
        ∃ M, localPose j c o = .ok M := by
      intro i j o hj ho hk
      obtain ⟨v, hv⟩ := hrd i j o hj ho
      unfold localPose
      cases hk' : j.kind <;> simp only [hv]
      · exact ⟨_, rfl⟩
      · exact ⟨_, rfl⟩
      · exact ⟨_, rfl⟩
      · exact ⟨_, rfl⟩
      · exact absurd hk' hk
    have hgo : (∀ i j o, t.joint i = some j → t.configOffset i = some o →
        ∃ M, localPose j c o = .ok M) → ∃ s, t.forwardKinematics c = .ok s := by
      intro hloc
      obtain ⟨poses, hps, -⟩ := foldlM_range_total (t.sweepStep c) t.len (fun _ => SE3.identity)
        (fun _ _ => True) trivial (fun i hi poses _ => by
          obtain ⟨j, hj⟩ := joint_exists hi
          obtain ⟨o, ho⟩ := hoff i hi
          obtain ⟨M, hM⟩ := hloc i j o hj ho
          obtain ⟨P, hP⟩ := hpp poses i hi
          refine ⟨Function.update poses i ((P.compose j.origin).compose M), ?_, trivial⟩
          unfold sweepStep; rw [hj, ho]; simp only [hP, hM]; rfl)
      rw [hfk, hps]; exact ⟨_, rfl⟩
    refine ⟨fun hff => hgo fun i j o hj ho => hnf i j o hj ho fun hk => ?_, fun hff => ?_⟩
    · have := (hw.floating i j hj hk).1
      subst this
      rw [(hasFloatingBase_iff t).2 ⟨j, hj, hk⟩] at hff; cases hff
    · obtain ⟨j0, hj0, hk0⟩ := (hasFloatingBase_iff t).1 hff
      have hlen := joint_some_lt hj0
      have ho0 : t.configOffset 0 = some 0 := configOffset_some.2 ⟨hlen, by simp⟩
      have h7 : 7 ≤ maxConfig := by
        have := hin 0 j0 0 hj0 ho0
        simpa [Joint.width, hk0] using this
      refine ⟨h7, ?_⟩
      cases hq : (Quat.mk (c ⟨3, by omega⟩) (c ⟨4, by omega⟩) (c ⟨5, by omega⟩)
            (c ⟨6, by omega⟩)).tryNormalized with
      | some q =>
        left
        refine ⟨hgo fun i j o hj ho => ?_, q, rfl⟩
        by_cases hk : j.kind = .floating
        · have := (hw.floating i j hj hk).1
          subst this
          rw [ho0] at ho; cases ho
          unfold localPose
          simp only [hk]
          rw [dif_pos (by omega)]
          unfold FreeJointState.fromGeneralizedVectors
          have : (Quat.mk (c ⟨0 + ((3 : Fin 7) : ℕ), by simp; omega⟩) (c ⟨0 + ((4 : Fin 7) : ℕ), by simp; omega⟩)
              (c ⟨0 + ((5 : Fin 7) : ℕ), by simp; omega⟩) (c ⟨0 + ((6 : Fin 7) : ℕ), by simp; omega⟩)).tryNormalized = some q := hq
          rw [this]
          exact ⟨_, rfl⟩
        · exact hnf i j o hj ho hk
      | none =>
        right
        refine ⟨?_, rfl⟩
        have hstep : t.sweepStep c (fun _ => SE3.identity) 0 = .error .orientationHasNoDirection := by
          obtain ⟨P, hP⟩ := hpp (fun _ => SE3.identity) 0 hlen
          have hl : localPose j0 c 0 = .error .orientationHasNoDirection := by
            unfold localPose
            simp only [hk0]
            rw [dif_pos (by omega)]
            unfold FreeJointState.fromGeneralizedVectors
            have : (Quat.mk (c ⟨0 + ((3 : Fin 7) : ℕ), by simp; omega⟩) (c ⟨0 + ((4 : Fin 7) : ℕ), by simp; omega⟩)
              (c ⟨0 + ((5 : Fin 7) : ℕ), by simp; omega⟩) (c ⟨0 + ((6 : Fin 7) : ℕ), by simp; omega⟩)).tryNormalized = none := hq
            rw [this]
          unfold sweepStep
          rw [hj0, ho0]; simp only [hP, hl]; rfl
        obtain ⟨n, hn⟩ : ∃ n, t.len = n + 1 := ⟨t.len - 1, by omega⟩
        rw [hfk, hn, List.range_succ_eq_map, List.foldlM_cons, hstep]
        rfl

end structural

/-! ### Over the reals -/

/-- Unit length. -/
def UnitVec (a : Fin 3 → ℝ) : Prop := a 0 ^ 2 + a 1 ^ 2 + a 2 ^ 2 = 1

/-- A joint that turns or slides. -/
def _root_.Multicalc.Joint.Moves {T : Type} (j : Joint T) : Prop :=
  j.kind = .revolute ∨ j.kind = .continuous ∨ j.kind = .prismatic

/-- C53. In a tree built by pushes every turning or sliding joint has an axis of unit length, pointing
the way the pushed axis pointed. -/
theorem push_axis {t t' : KinematicTree maxJoints maxConfig ℝ} {j : Joint ℝ} {p : JointParent}
    (h : t.push j p = .ok t') (hm : j.Moves) :
    j.axis ≠ 0 ∧ ∃ j' k, t'.joint t.len = some j' ∧ 0 < k ∧ j'.axis = (fun i => j.axis i * k) ∧
      UnitVec j'.axis := by
  obtain ⟨h1, h2, h3, -, -, -, j', hj, hc, rfl⟩ := (push_cases _ _ _ _).1 h
  have hn : ∃ a, vtryNormalized j.axis = some a ∧ j' = { j with axis := a } := by
    unfold Joint.normalizeAxis at hj
    rcases hm with hm | hm | hm <;> simp only [hm] at hj
    all_goals
      cases hv : vtryNormalized j.axis with
      | none => rw [hv] at hj; cases hj
      | some a => rw [hv] at hj; exact ⟨a, rfl, by rw [hm]; exact (Except.ok.inj hj).symm⟩
  obtain ⟨a, ha, rfl⟩ := hn
  have hne : j.axis ≠ 0 := by
    intro h0; rw [h0, vtryNormalized_none] at ha; cases ha
  rw [vtryNormalized_some hne] at ha
  cases ha
  have hpos := vnorm_pos hne
  refine ⟨hne, { j with axis := vnormalized j.axis }, 1 / vnorm j.axis, ?_, by positivity, ?_, ?_⟩
  · unfold joint; rw [joint_append]; simp
  · funext i; simp [vnormalized, vdivBy, div_eq_mul_inv]
  · have := vnorm_sq j.axis
    rw [vdot3] at this
    simp only [UnitVec, vnormalized, vdivBy]
    field_simp
    linarith

theorem built_axes {t : KinematicTree maxJoints maxConfig ℝ} (h : Built t) :
    ∀ i j, t.joint i = some j → j.Moves → UnitVec j.axis := by
  induction h with
  | new => intro i j hj; simp [joint, KinematicTree.new] at hj
  | @push t t' j p hb hp ih =>
    intro i jj hjj hm
    have hpe := (push_errors t j p).2.2.2.2 t' hp
    rcases Nat.lt_trichotomy i t.len with hi | rfl | hi
    · exact ih i jj (by rw [← (hpe.2.2.2.2 i hi).1]; exact hjj) hm
    · obtain ⟨j', hj', hk, -⟩ := hpe.2.2.2.1
      rw [hj'] at hjj; cases hjj
      obtain ⟨-, j'', k, hj'', -, -, hu⟩ := push_axis hp (by unfold Joint.Moves at hm ⊢; rw [← hk]; exact hm)
      rw [hj'] at hj''; cases hj''; exact hu
    · have := joint_some_lt hjj; omega

/-- The small turns that the exponential handles by its series lie strictly between zero and this. -/
def RegularTurn (d : ℝ) : Prop := d = 0 ∨ 30 / 2 ^ 52 ≤ |d|

theorem vnorm_axis {a : Fin 3 → ℝ} (ha : UnitVec a) (d : ℝ) : vnorm (fun k => a k * d) = |d| := by
  rw [vnorm, real_sqrt, vnormSquared, vdot3]
  rw [show a 0 * d * (a 0 * d) + a 1 * d * (a 1 * d) + a 2 * d * (a 2 * d) = d * d by
    unfold UnitVec at ha; linear_combination d * d * ha]
  exact Real.sqrt_mul_self_eq_abs d

theorem exp_axis {a : Fin 3 → ℝ} (ha : UnitVec a) {d : ℝ} (hd : RegularTurn d) :
    (SO3.exp (fun k => a k * d)).quaternion =
      ⟨Real.cos (d / 2), a 0 * Real.sin (d / 2), a 1 * Real.sin (d / 2), a 2 * Real.sin (d / 2)⟩ := by
  change Quat.fromScaledAxis _ = _
  rcases hd with rfl | hd
  · rw [fromScaledAxis_small (by rw [vnorm_axis ha]; norm_num), vnorm_axis ha]
    simp
  · rw [fromScaledAxis_main (by rw [vnorm_axis ha]; exact hd), vnorm_axis ha]
    have h0 : |d| ≠ 0 := (lt_of_lt_of_le (by positivity) hd).ne'
    have hc : Real.cos (|d| / 2) = Real.cos (d / 2) := by
      rcases abs_choice d with h | h <;> rw [h]
      rw [neg_div, Real.cos_neg]
    have hs : d * (Real.sin (|d| / 2) / |d|) = Real.sin (d / 2) := by
      rcases abs_choice d with h | h <;> rw [h] <;> rw [h] at h0
      · field_simp
      · rw [neg_div, Real.sin_neg, neg_div_neg_eq]
        have : d ≠ 0 := fun h => h0 (by simp [h])
        field_simp
    simp only [mul_assoc, hc, hs]

theorem exp_axis_unit {a : Fin 3 → ℝ} (ha : UnitVec a) {d : ℝ} (hd : RegularTurn d) :
    (SO3.exp (fun k => a k * d)).quaternion.IsUnit := by
  rw [exp_axis ha hd, Quat.IsUnit]
  unfold UnitVec at ha
  linear_combination Real.sin (d / 2) ^ 2 * ha + Real.sin_sq_add_cos_sq (d / 2)

theorem exp_axis_act {a : Fin 3 → ℝ} (ha : UnitVec a) {d : ℝ} (hd : RegularTurn d) (v : Fin 3 → ℝ) :
    (SO3.exp (fun k => a k * d)).act v = fun i =>
      Real.cos d * v i + Real.sin d * cross a v i + (1 - Real.cos d) * vdot a v * a i := by
  have hcos : Real.cos d = Real.cos (d / 2) ^ 2 - Real.sin (d / 2) ^ 2 := by
    rw [← Real.cos_two_mul']; congr 1; ring
  have hsin : Real.sin d = 2 * Real.sin (d / 2) * Real.cos (d / 2) := by
    rw [← Real.sin_two_mul]; congr 1; ring
  have h1 := Real.sin_sq_add_cos_sq (d / 2)
  unfold UnitVec at ha
  rw [SO3.act, transformPoint_explicit, exp_axis ha hd, vdot3, hcos, hsin]
  simp only
  generalize Real.cos (d / 2) = c at *
  generalize Real.sin (d / 2) = s at *
  apply vec3_ext <;> simp [cross] <;> grind

theorem so3_compose_act (p q : SO3 ℝ) (v : Fin 3 → ℝ) : (p.compose q).act v = p.act (q.act v) := by
  apply vec3_ext <;> simp [SO3.act, SO3.compose, transformPoint_explicit, Quat.mul] <;> ring

theorem se3_compose_act (P Q : SE3 ℝ) (v : Fin 3 → ℝ) : (P.compose Q).act v = P.act (Q.act v) := by
  simp only [SE3.act, SE3.compose]
  rw [so3_compose_act, (so3_act_linear _ _ _).1]
  funext i; simp only [vadd]; ring

theorem turn_act {j : Joint ℝ} {M : SE3 ℝ} {c : Fin maxConfig → ℝ} {o : ℕ}
    (hk : j.kind = .revolute ∨ j.kind = .continuous) (hM : IsMotion j c o M) :
    ∃ h : o < maxConfig, M.rotation = SO3.exp (fun k => j.axis k * (c ⟨o, h⟩ - j.zeroOffset)) ∧
      M.translation = fun k => j.anchor k - M.rotation.act j.anchor k := by
  unfold IsMotion at hM
  rcases hk with hk | hk <;> simp only [hk] at hM <;> exact hM

theorem slide_act {j : Joint ℝ} {M : SE3 ℝ} {c : Fin maxConfig → ℝ} {o : ℕ}
    (hk : j.kind = .prismatic) (hM : IsMotion j c o M) :
    ∃ h : o < maxConfig, M.rotation = SO3.identity ∧
      M.translation = fun k => j.axis k * (c ⟨o, h⟩ - j.zeroOffset) := by
  unfold IsMotion at hM
  simp only [hk] at hM; exact hM

/-- C53. How each kind of joint moves its link. `x` is a point fixed to the link, given in the link's
axes; `B` is the joint's place before it moves, which is the parent's pose times the origin. A turning
joint keeps its anchor where it is whatever the reading, and turns every point about the line through the
anchor along the axis by the reading less the zero offset, so that line stays where it is; this form is
exact when the turn is zero or at least the series threshold `30 / 2 ^ 52`. A sliding joint shifts every
point along the axis by the reading less the zero offset, and a fixed joint leaves it in place. -/
theorem link_motion {t : KinematicTree maxJoints maxConfig ℝ} (hb : Built t) {c : Fin maxConfig → ℝ}
    {s : KinematicTreeState ℝ} (h : t.forwardKinematics c = .ok s) (i : ℕ) (j : Joint ℝ)
    (hj : t.joint i = some j) (o : ℕ) (ho : t.configOffset i = some o) :
    ∃ P L, HangsOff t s i P ∧ s.pose i = some L ∧
      (j.kind = .revolute ∨ j.kind = .continuous →
        L.act j.anchor = (P.compose j.origin).act j.anchor ∧
        ∃ hlt : o < maxConfig, RegularTurn (c ⟨o, hlt⟩ - j.zeroOffset) → ∀ x : Fin 3 → ℝ,
          L.act x = (P.compose j.origin).act (fun i => j.anchor i +
            (Real.cos (c ⟨o, hlt⟩ - j.zeroOffset) * (x i - j.anchor i) +
              Real.sin (c ⟨o, hlt⟩ - j.zeroOffset) * cross j.axis (fun i => x i - j.anchor i) i +
              (1 - Real.cos (c ⟨o, hlt⟩ - j.zeroOffset)) * vdot j.axis (fun i => x i - j.anchor i) *
                j.axis i))) ∧
      (j.kind = .prismatic → ∃ hlt : o < maxConfig, ∀ x : Fin 3 → ℝ,
        L.act x = (P.compose j.origin).act (fun i => x i + (c ⟨o, hlt⟩ - j.zeroOffset) * j.axis i)) ∧
      (j.kind = .fixed → ∀ x, L.act x = (P.compose j.origin).act x) := by
  obtain ⟨j', o', P, M, h1, h2, h3, h4, h5⟩ := (fk_recurrence hb h).2 i (joint_some_lt hj)
  rw [hj] at h1; cases h1
  rw [ho] at h2; cases h2
  refine ⟨P, _, h3, h5, ?_, ?_, ?_⟩
  · intro hk
    obtain ⟨hlt, hR, hT⟩ := turn_act hk h4
    have hact : ∀ x, M.act x = fun i => j.anchor i + M.rotation.act (fun i => x i - j.anchor i) i := by
      intro x
      have := (so3_act_linear M.rotation x j.anchor).2.2
      unfold SE3.act
      rw [hT]
      funext i
      have h' := congrFun this i
      simp only [vsub] at h'
      simp only [vadd]
      rw [show (fun i => x i - j.anchor i) = vsub x j.anchor from rfl, this]
      simp only [vsub]; ring
    refine ⟨?_, hlt, fun hd x => ?_⟩
    · rw [se3_compose_act, hact]
      congr 1
      funext i
      have : M.rotation.act (fun i => j.anchor i - j.anchor i) i = 0 := by
        fin_cases i <;> simp [SO3.act, transformPoint_explicit]
      rw [this, add_zero]
    · rw [se3_compose_act, hact, hR, exp_axis_act (built_axes hb i j hj (by
        rcases hk with hk | hk <;> simp [Joint.Moves, hk])) hd]
  · intro hk
    obtain ⟨hlt, hR, hT⟩ := slide_act hk h4
    refine ⟨hlt, fun x => ?_⟩
    rw [se3_compose_act]
    congr 1
    unfold SE3.act
    rw [hR, hT]
    apply vec3_ext <;> simp [SO3.act, SO3.identity, Quat.identity, transformPoint_explicit, vadd] <;> ring
  · intro hk x
    unfold IsMotion at h4
    simp only [hk] at h4
    rw [se3_compose_act, h4]
    congr 1
    unfold SE3.act
    apply vec3_ext <;> simp [SE3.identity, SO3.act, SO3.identity, Quat.identity, transformPoint_explicit, vadd]

/-- Any finite joint with a direction can be pushed onto a tree with room for it. -/
theorem push_ok_real (t : KinematicTree maxJoints maxConfig ℝ) (j : Joint ℝ) (p : JointParent)
    (h1 : t.len ≠ maxJoints) (h2 : ∀ k, p = .joint k → k < t.len)
    (h3 : j.kind = .floating → t.len = 0 ∧ p = .world) (hl : j.limits = none) (ha : j.axis ≠ 0)
    (hc : t.configLen + j.width ≤ maxConfig) : ∃ t', t.push j p = .ok t' := by
  have hn : ∃ j', j.normalizeAxis = .ok j' := by
    unfold Joint.normalizeAxis
    rw [vtryNormalized_some ha]
    cases j.kind <;> exact ⟨_, rfl⟩
  obtain ⟨j', hj'⟩ := hn
  refine ⟨_, (push_cases _ _ _ _).2 ⟨h1, h2, h3, ?_, ?_, fun _ => hl, j', hj', ?_, rfl⟩⟩
  · simp [Joint.isFinite, vecIsFinite, Fns.isFinite]
  · unfold Joint.checkLimits; rw [hl]
  · unfold Joint.width at hc ⊢; rw [(normalizeAxis_kind hj').1]; exact hc

/-- A two-link arm with an off-centre hinge: it can be built, forward kinematics accepts every
configuration of it, and its joints turn. -/
theorem arm_exists : ∃ t : KinematicTree 2 2 ℝ, Built t ∧ t.len = 2 ∧ t.parent 1 = some (.joint 0) ∧
    (∃ j, t.joint 0 = some j ∧ j.kind = .revolute) ∧ (∃ j, t.joint 1 = some j ∧ j.kind = .revolute) ∧
    (∀ i j, t.joint i = some j → j.origin.rotation.quaternion.IsUnit) ∧
    ∀ c, ∃ s, t.forwardKinematics c = .ok s := by
  have ha : (![0, 0, 2] : Fin 3 → ℝ) ≠ 0 := fun h => by have := congrFun h 2; simp at this
  obtain ⟨t1, h1⟩ := push_ok_real (KinematicTree.new : KinematicTree 2 2 ℝ)
    { Joint.fromKind .revolute ![0, 0, 2] SE3.identity with anchor := ![1, 0, 0] } .world
    (by simp [len, new]) (by simp) (by simp [Joint.fromKind]) rfl ha
    (by simp [configLen, len, new, Joint.width, Joint.fromKind])
  have e1 := (push_errors _ _ _).2.2.2.2 t1 h1
  have hl1 : t1.len = 1 := by rw [e1.1]; rfl
  have hc1 : t1.configLen = 1 := by rw [e1.2.1]; simp [configLen, len, new, Joint.width, Joint.fromKind]
  obtain ⟨t2, h2⟩ := push_ok_real t1
    (Joint.fromKind .revolute ![0, 0, 2] ⟨SO3.identity, ![1, 0, 0]⟩) (.joint 0)
    (by rw [hl1]; norm_num) (by rintro k ⟨⟩; rw [hl1]; norm_num) (by simp [Joint.fromKind]) rfl ha
    (by rw [hc1]; simp [Joint.width, Joint.fromKind])
  have e2 := (push_errors _ _ _).2.2.2.2 t2 h2
  have hb : Built t2 := Built.push (Built.push Built.new h1) h2
  have hl0 : (KinematicTree.new : KinematicTree 2 2 ℝ).len = 0 := rfl
  rw [hl0] at e1
  rw [hl1] at e2
  have hj0 := e2.2.2.2.2 0 (by norm_num)
  obtain ⟨j0, hj0', hk0, ho0, -⟩ := e1.2.2.2.1
  obtain ⟨j1, hj1, hk1, ho1, -⟩ := e2.2.2.2.1
  refine ⟨t2, hb, e2.1, e2.2.2.1, ⟨j0, by rw [hj0.1]; exact hj0', hk0⟩, ⟨j1, hj1, hk1⟩, ?_, fun c => ?_⟩
  · intro i j hj
    have := joint_some_lt hj
    rw [e2.1] at this
    interval_cases i
    · rw [hj0.1, hj0'] at hj; cases hj; rw [ho0]
      simp [Joint.fromKind, SE3.identity, SO3.identity, Quat.identity, Quat.IsUnit]
    · rw [hj1] at hj; cases hj; rw [ho1]
      simp [Joint.fromKind, SO3.identity, Quat.identity, Quat.IsUnit]
  · refine ((fk_refusals hb c).2 fun _ _ _ _ _ _ _ _ _ => rfl).1 ?_
    by_contra hne
    have hne : t2.hasFloatingBase = true := by simpa using hne
    obtain ⟨j, hj, hk⟩ := (hasFloatingBase_iff t2).1 hne
    rw [hj0.1, hj0'] at hj; cases hj
    rw [hk0] at hk
    simp [Joint.fromKind] at hk

example : RegularTurn 0 ∧ RegularTurn (1 / 1000) ∧ RegularTurn (-3) := by
  refine ⟨Or.inl rfl, Or.inr ?_, Or.inr ?_⟩ <;> norm_num [abs_of_pos]

/-- A floating body whose place is not a number is refused. -/
example : ∃ t : KinematicTree 1 7 XR, Built t ∧ t.forwardKinematics (fun _ => .nan) = .error .nonFinite := by
  have hp : (new : KinematicTree 1 7 XR).push (Joint.floating SE3.identity) .world =
      .ok ⟨[(Joint.floating SE3.identity, .world)]⟩ :=
    (push_cases _ _ _ _).2 ⟨by simp [len, new], by simp, fun _ => ⟨rfl, rfl⟩, rfl, rfl,
      fun _ => rfl, _, rfl, by simp [configLen, len, new, Joint.width, Joint.floating, Joint.fromKind], rfl⟩
  have hb := Built.push Built.new hp
  exact ⟨_, hb, (fk_refusals hb _).1 ⟨0, 0, 0, Joint.floating SE3.identity, rfl, rfl, by
    simp [Joint.floating, Joint.fromKind], le_rfl, by simp [Joint.floating, Joint.fromKind], rfl⟩⟩

end KinematicTree
end Multicalc
