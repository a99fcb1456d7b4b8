import Verif.Model.Mjcf
import Verif.Props.GeomInertia

/-!
# MJCF settings, joints and stated inertias (C110)
-/

namespace Multicalc.Mjcf

section lawfree

variable {T : Type}

/-- `s` states, in each attribute, what the first of the layers that states the attribute says. -/
def GeomDefaults.FirstStated (s : GeomDefaults T) (layers : List (GeomDefaults T)) : Prop :=
  s.geomType = layers.findSome? (·.geomType) ∧ s.size = layers.findSome? (·.size) ∧
  s.fromto = layers.findSome? (·.fromto) ∧ s.pos = layers.findSome? (·.pos) ∧
  s.quat = layers.findSome? (·.quat) ∧ s.mass = layers.findSome? (·.mass) ∧
  s.density = layers.findSome? (·.density)

/-- The same of a joint's settings. -/
def JointDefaults.FirstStated (s : JointDefaults T) (layers : List (JointDefaults T)) : Prop :=
  s.jointType = layers.findSome? (·.jointType) ∧ s.axis = layers.findSome? (·.axis) ∧
  s.pos = layers.findSome? (·.pos) ∧ s.range = layers.findSome? (·.range) ∧
  s.limited = layers.findSome? (·.limited) ∧ s.armature = layers.findSome? (·.armature) ∧
  s.damping = layers.findSome? (·.damping) ∧ s.frictionLoss = layers.findSome? (·.frictionLoss) ∧
  s.reference = layers.findSome? (·.reference) ∧ s.springReference = layers.findSome? (·.springReference) ∧
  s.stiffness = layers.findSome? (·.stiffness)

theorem findSome_cons {A B : Type} (f : A → Option B) (a : A) (l : List A) :
    (a :: l).findSome? f = (f a).or (l.findSome? f) := by
  rw [List.findSome?_cons]
  cases f a <;> rfl

theorem GeomDefaults.firstStated_over {s : GeomDefaults T} {layers : List (GeomDefaults T)}
    (h : s.FirstStated layers) (other : GeomDefaults T) :
    (s.overriddenBy other).FirstStated (other :: layers) := by
  obtain ⟨h1, h2, h3, h4, h5, h6, h7⟩ := h
  refine ⟨?_, ?_, ?_, ?_, ?_, ?_, ?_⟩ <;> rw [findSome_cons] <;>
    simp only [GeomDefaults.overriddenBy, h1, h2, h3, h4, h5, h6, h7]

theorem JointDefaults.firstStated_over {s : JointDefaults T} {layers : List (JointDefaults T)}
    (h : s.FirstStated layers) (other : JointDefaults T) :
    (s.overriddenBy other).FirstStated (other :: layers) := by
  obtain ⟨h1, h2, h3, h4, h5, h6, h7, h8, h9, h10, h11⟩ := h
  refine ⟨?_, ?_, ?_, ?_, ?_, ?_, ?_, ?_, ?_, ?_, ?_⟩ <;> rw [findSome_cons] <;>
    simp only [JointDefaults.overriddenBy, h1, h2, h3, h4, h5, h6, h7, h8, h9, h10, h11]

theorem or_none' {A : Type} (x : Option A) : x.or none = x := by cases x <;> rfl

theorem GeomDefaults.firstStated_self (s : GeomDefaults T) : s.FirstStated [s] := by
  refine ⟨?_, ?_, ?_, ?_, ?_, ?_, ?_⟩ <;> rw [findSome_cons, List.findSome?_nil, or_none']

theorem JointDefaults.firstStated_self (s : JointDefaults T) : s.FirstStated [s] := by
  refine ⟨?_, ?_, ?_, ?_, ?_, ?_, ?_, ?_, ?_, ?_, ?_⟩ <;> rw [findSome_cons, List.findSome?_nil, or_none']

theorem GeomDefaults.firstStated_foldl {s : GeomDefaults T} {layers : List (GeomDefaults T)}
    (h : s.FirstStated layers) (l : List (GeomDefaults T)) :
    (l.foldl GeomDefaults.overriddenBy s).FirstStated (l.reverse ++ layers) := by
  induction l generalizing s layers with
  | nil => exact h
  | cons a l ih =>
    have := ih (GeomDefaults.firstStated_over h a)
    simpa using this

theorem JointDefaults.firstStated_foldl {s : JointDefaults T} {layers : List (JointDefaults T)}
    (h : s.FirstStated layers) (l : List (JointDefaults T)) :
    (l.foldl JointDefaults.overriddenBy s).FirstStated (l.reverse ++ layers) := by
  induction l generalizing s layers with
  | nil => exact h
  | cons a l ih =>
    have := ih (JointDefaults.firstStated_over h a)
    simpa using this

/-! ### The table of classes -/

/-- The `class` of a block. -/
def DefaultBlock.className : DefaultBlock T → Option String
  | .mk className _ _ _ => className

/-- The `<geom>` children of a block. -/
def DefaultBlock.geoms : DefaultBlock T → List (GeomDefaults T)
  | .mk _ geoms _ _ => geoms

/-- The `<joint>` children of a block. -/
def DefaultBlock.joints : DefaultBlock T → List (JointDefaults T)
  | .mk _ _ joints _ => joints

mutual

/-- The blocks of a `<default>` in document order, each with the blocks around it, innermost first. -/
def pathsOf : DefaultBlock T → List (DefaultBlock T) → List (List (DefaultBlock T))
  | .mk className geoms joints nested, above =>
    (.mk className geoms joints nested :: above) ::
      pathsOfAll nested (.mk className geoms joints nested :: above)

/-- The same of several blocks side by side. -/
def pathsOfAll : List (DefaultBlock T) → List (DefaultBlock T) → List (List (DefaultBlock T))
  | [], _ => []
  | block :: rest, above => pathsOf block above ++ pathsOfAll rest above

end

/-- What a class that stands at the end of a path of nested blocks says: for each attribute, the last
element of the innermost block that states it. -/
def Says (c : ClassDefaults T) (path : List (DefaultBlock T)) : Prop :=
  c.geom.FirstStated (path.flatMap fun b => b.geoms.reverse) ∧
  c.joint.FirstStated (path.flatMap fun b => b.joints.reverse)

/-- The class of the innermost block of a path. -/
def classOf : List (DefaultBlock T) → Option String
  | [] => none
  | b :: _ => b.className

/-- The entries of a table are the last among `paths` with that class. -/
def Tabulates (before table : DefaultTable T) (paths : List (List (DefaultBlock T))) : Prop :=
  (∀ name, (table.classes name = before.classes name ∧ ∀ p ∈ paths, classOf p ≠ some name) ∨
    ∃ p c, (paths.reverse.find? fun p => classOf p = some name) = some p ∧
      table.classes name = some c ∧ Says c p) ∧
  ((table.root = before.root ∧ ∀ p ∈ paths, classOf p ≠ none) ∨
    ∃ p, (paths.reverse.find? fun p => classOf p = none) = some p ∧ Says table.root p)

theorem Tabulates.trans {a b c : DefaultTable T} {p q : List (List (DefaultBlock T))}
    (h : Tabulates a b p) (h' : Tabulates b c q) : Tabulates a c (p ++ q) := by
  obtain ⟨h1, h2⟩ := h
  obtain ⟨h1', h2'⟩ := h'
  refine ⟨fun name => ?_, ?_⟩
  · rcases h1' name with ⟨e, hn⟩ | ⟨x, s, hf, he, hs⟩
    · rcases h1 name with ⟨e0, hn0⟩ | ⟨x, s, hf, he, hs⟩
      · left
        refine ⟨e.trans e0, fun y hy => ?_⟩
        rcases List.mem_append.1 hy with hy | hy
        · exact hn0 y hy
        · exact hn y hy
      · right
        refine ⟨x, s, ?_, e.trans he, hs⟩
        rw [List.reverse_append, List.find?_append, hf]
        have : (q.reverse.find? fun p => classOf p = some name) = none := by
          rw [List.find?_eq_none]
          intro y hy
          simpa using hn y (List.mem_reverse.1 hy)
        rw [this]
        rfl
    · right
      refine ⟨x, s, ?_, he, hs⟩
      rw [List.reverse_append, List.find?_append, hf]
      rfl
  · rcases h2' with ⟨e, hn⟩ | ⟨x, hf, hs⟩
    · rcases h2 with ⟨e0, hn0⟩ | ⟨x, hf, hs⟩
      · left
        refine ⟨e.trans e0, fun y hy => ?_⟩
        rcases List.mem_append.1 hy with hy | hy
        · exact hn0 y hy
        · exact hn y hy
      · right
        refine ⟨x, ?_, by rw [e]; exact hs⟩
        rw [List.reverse_append, List.find?_append, hf]
        have : (q.reverse.find? fun p => classOf p = none) = none := by
          rw [List.find?_eq_none]
          intro y hy
          simpa using hn y (List.mem_reverse.1 hy)
        rw [this]
        rfl
    · right
      refine ⟨x, ?_, hs⟩
      rw [List.reverse_append, List.find?_append, hf]
      rfl

theorem Tabulates.nil (table : DefaultTable T) : Tabulates table table [] :=
  ⟨fun _ => .inl ⟨rfl, by simp⟩, .inl ⟨rfl, by simp⟩⟩

theorem Tabulates.store (table : DefaultTable T) (p : List (DefaultBlock T)) (c : ClassDefaults T)
    (h : Says c p) : Tabulates table (table.store (classOf p) c) [p] := by
  cases hc : classOf p with
  | none =>
    refine ⟨fun name => .inl ⟨rfl, by simp [hc]⟩, .inr ⟨p, by simp [hc], h⟩⟩
  | some n =>
    refine ⟨fun name => ?_, .inl ⟨rfl, by simp [hc]⟩⟩
    by_cases hn : n = name
    · subst hn
      exact .inr ⟨p, c, by simp [hc], by simp [DefaultTable.store], h⟩
    · refine .inl ⟨?_, by simp [hc, hn]⟩
      simp [DefaultTable.store, Function.update, Ne.symm hn]

mutual

theorem walkDefault_tabulates : ∀ (block : DefaultBlock T) (above : List (DefaultBlock T))
    (inherited : ClassDefaults T) (table : DefaultTable T), Says inherited above →
    Tabulates table (walkDefault block inherited table) (pathsOf block above)
  | .mk className geoms joints nested, above, inherited, table, h => by
    unfold walkDefault pathsOf
    have hs : Says (blockSettings geoms joints inherited) (.mk className geoms joints nested :: above) := by
      refine ⟨?_, ?_⟩
      · simpa [blockSettings, DefaultBlock.geoms] using GeomDefaults.firstStated_foldl h.1 geoms
      · simpa [blockSettings, DefaultBlock.joints] using JointDefaults.firstStated_foldl h.2 joints
    exact Tabulates.trans (Tabulates.store table (.mk className geoms joints nested :: above) _ hs)
      (walkDefaults_tabulates nested _ _ _ hs)

theorem walkDefaults_tabulates : ∀ (blocks above : List (DefaultBlock T))
    (inherited : ClassDefaults T) (table : DefaultTable T), Says inherited above →
    Tabulates table (walkDefaults blocks inherited table) (pathsOfAll blocks above)
  | [], above, inherited, table, _ => by
    unfold walkDefaults pathsOfAll
    exact Tabulates.nil table
  | block :: rest, above, inherited, table, h => by
    unfold walkDefaults pathsOfAll
    exact Tabulates.trans (walkDefault_tabulates block above inherited table h)
      (walkDefaults_tabulates rest above inherited _ h)

end

/-- C110. What a class means: the last block of that name in the file, with, for each attribute, the last
element of the innermost block around it that states it; a name that no block carries is an error;
and what holds without a class is said by the last block without a name. -/
theorem mjcf_classes (blocks : List (DefaultBlock T)) :
    (∀ name, ((∀ p ∈ pathsOfAll blocks [], classOf p ≠ some name) ∧
        (DefaultTable.build blocks).resolve (some name) = .error (.undefinedClass name)) ∨
      ∃ p c, ((pathsOfAll blocks []).reverse.find? fun p => classOf p = some name) = some p ∧
        (DefaultTable.build blocks).resolve (some name) = .ok c ∧ Says c p) ∧
    (((∀ p ∈ pathsOfAll blocks [], classOf p ≠ none) ∧ (DefaultTable.build blocks).resolve none = .ok {}) ∨
      ∃ p c, ((pathsOfAll blocks []).reverse.find? fun p => classOf p = none) = some p ∧
        (DefaultTable.build blocks).resolve none = .ok c ∧ Says c p) := by
  have h0 : Says ({} : ClassDefaults T) [] :=
    ⟨⟨rfl, rfl, rfl, rfl, rfl, rfl, rfl⟩, ⟨rfl, rfl, rfl, rfl, rfl, rfl, rfl, rfl, rfl, rfl, rfl⟩⟩
  obtain ⟨h1, h2⟩ := walkDefaults_tabulates blocks [] {} {} h0
  refine ⟨fun name => ?_, ?_⟩
  · rcases h1 name with ⟨e, hn⟩ | ⟨p, c, hf, he, hs⟩
    · left
      refine ⟨hn, ?_⟩
      simp only [DefaultTable.resolve, DefaultTable.build, e]
    · right
      refine ⟨p, c, hf, ?_, hs⟩
      simp only [DefaultTable.resolve, DefaultTable.build, he]
  · rcases h2 with ⟨e, hn⟩ | ⟨p, hf, hs⟩
    · left
      refine ⟨hn, ?_⟩
      simp only [DefaultTable.resolve, DefaultTable.build, e]
    · right
      exact ⟨p, _, hf, rfl, hs⟩

/-- A block `a` inside an unnamed block, both of them stating a density: the inner one says it. -/
example : ∃ c : ClassDefaults ℚ,
    (DefaultTable.build (T := ℚ) [DefaultBlock.mk none [{ density := some 1, mass := some 5 }] []
      [.mk (some "a") [{ density := some 2 }] [] []]]).resolve (some "a") = .ok c ∧
    c.geom.density = some 2 ∧ c.geom.mass = some 5 := by
  refine ⟨_, rfl, rfl, rfl⟩

/-! ### What is in effect for one element -/

/-- The settings of the class an element or a body names, if it names one. -/
def classLayer {S : Type} (table : DefaultTable T) (pick : ClassDefaults T → S) (name : Option String) :
    List S :=
  match name with
  | none => []
  | some n => (table.classes n).toList.map pick

/-- The first of two class names that the table does not have. -/
def missing (table : DefaultTable T) (first second : Option String) : Option String :=
  [first, second].findSome? fun name => name.filter fun n => (table.classes n).isNone

/-- C110. For a geom, its own attributes win over those of the class it names, these over those of the
class its body names, and these over what holds without a class, attribute by attribute; the only
error is a class that does not exist. -/
theorem mjcf_geom_precedence (table : DefaultTable T) (chain className : Option String)
    (own : GeomDefaults T) :
    (∀ n, missing table chain className = some n →
      effectiveGeom table chain className own = .error (.undefinedClass n)) ∧
    (missing table chain className = none → ∃ s, effectiveGeom table chain className own = .ok s ∧
      s.FirstStated (own :: (classLayer table (·.geom) className ++ classLayer table (·.geom) chain ++
        [table.root.geom]))) := by
  have key : ∀ (name : Option String) (s : GeomDefaults T) (layers : List (GeomDefaults T)),
      s.FirstStated layers →
      (∃ n, name = some n ∧ table.classes n = none ∧
        table.apply (·.geom) GeomDefaults.overriddenBy name s = .error (.undefinedClass n)) ∨
      ((name.filter fun n => (table.classes n).isNone) = none ∧ ∃ s',
        table.apply (·.geom) GeomDefaults.overriddenBy name s = .ok s' ∧
        s'.FirstStated (classLayer table (·.geom) name ++ layers)) := by
    intro name s layers h
    cases name with
    | none => exact .inr ⟨rfl, s, rfl, h⟩
    | some n =>
      cases hc : table.classes n with
      | none => exact .inl ⟨n, rfl, hc, by simp [DefaultTable.apply, DefaultTable.resolve, hc]⟩
      | some c =>
        refine .inr ⟨by simp [hc], s.overriddenBy c.geom,
          by simp [DefaultTable.apply, DefaultTable.resolve, hc], ?_⟩
        simpa [classLayer, hc] using GeomDefaults.firstStated_over h c.geom
  rcases key chain table.root.geom _ (GeomDefaults.firstStated_self _) with ⟨n, rfl, hc, he⟩ | ⟨hn, s1, he1, hs1⟩
  · have hm : missing table (some n) className = some n := by simp [missing, findSome_cons, hc]
    refine ⟨fun m h => ?_, fun h => by rw [hm] at h; cases h⟩
    rw [hm] at h
    injection h with h
    subst h
    simp only [effectiveGeom, bind, Except.bind, he]
  · rcases key className s1 _ hs1 with ⟨n, rfl, hc, he⟩ | ⟨hn2, s2, he2, hs2⟩
    · have hm : missing table chain (some n) = some n := by
        rw [missing, findSome_cons, hn, findSome_cons]
        simp [hc]
      refine ⟨fun m h => ?_, fun h => by rw [hm] at h; cases h⟩
      rw [hm] at h
      injection h with h
      subst h
      simp only [effectiveGeom, bind, Except.bind, he1, he]
    · have hm : missing table chain className = none := by
        rw [missing, findSome_cons, hn, findSome_cons, hn2]
        rfl
      refine ⟨fun m h => (by rw [hm] at h; cases h), fun _ => ⟨s2.overriddenBy own, ?_, ?_⟩⟩
      · simp only [effectiveGeom, bind, Except.bind, he1, he2]
      · rw [List.append_assoc]
        exact GeomDefaults.firstStated_over hs2 own

/-- C110. The same precedence holds for joints. -/
theorem mjcf_joint_precedence (table : DefaultTable T) (chain className : Option String)
    (own : JointDefaults T) :
    (∀ n, missing table chain className = some n →
      effectiveJoint table chain className own = .error (.undefinedClass n)) ∧
    (missing table chain className = none → ∃ s, effectiveJoint table chain className own = .ok s ∧
      s.FirstStated (own :: (classLayer table (·.joint) className ++ classLayer table (·.joint) chain ++
        [table.root.joint]))) := by
  have key : ∀ (name : Option String) (s : JointDefaults T) (layers : List (JointDefaults T)),
      s.FirstStated layers →
      (∃ n, name = some n ∧ table.classes n = none ∧
        table.apply (·.joint) JointDefaults.overriddenBy name s = .error (.undefinedClass n)) ∨
      ((name.filter fun n => (table.classes n).isNone) = none ∧ ∃ s',
        table.apply (·.joint) JointDefaults.overriddenBy name s = .ok s' ∧
        s'.FirstStated (classLayer table (·.joint) name ++ layers)) := by
    intro name s layers h
    cases name with
    | none => exact .inr ⟨rfl, s, rfl, h⟩
    | some n =>
      cases hc : table.classes n with
      | none => exact .inl ⟨n, rfl, hc, by simp [DefaultTable.apply, DefaultTable.resolve, hc]⟩
      | some c =>
        refine .inr ⟨by simp [hc], s.overriddenBy c.joint,
          by simp [DefaultTable.apply, DefaultTable.resolve, hc], ?_⟩
        simpa [classLayer, hc] using JointDefaults.firstStated_over h c.joint
  rcases key chain table.root.joint _ (JointDefaults.firstStated_self _) with ⟨n, rfl, hc, he⟩ | ⟨hn, s1, he1, hs1⟩
  · have hm : missing table (some n) className = some n := by simp [missing, findSome_cons, hc]
    refine ⟨fun m h => ?_, fun h => by rw [hm] at h; cases h⟩
    rw [hm] at h
    injection h with h
    subst h
    simp only [effectiveJoint, bind, Except.bind, he]
  · rcases key className s1 _ hs1 with ⟨n, rfl, hc, he⟩ | ⟨hn2, s2, he2, hs2⟩
    · have hm : missing table chain (some n) = some n := by
        rw [missing, findSome_cons, hn, findSome_cons]
        simp [hc]
      refine ⟨fun m h => ?_, fun h => by rw [hm] at h; cases h⟩
      rw [hm] at h
      injection h with h
      subst h
      simp only [effectiveJoint, bind, Except.bind, he1, he]
    · have hm : missing table chain className = none := by
        rw [missing, findSome_cons, hn, findSome_cons, hn2]
        rfl
      refine ⟨fun m h => (by rw [hm] at h; cases h), fun _ => ⟨s2.overriddenBy own, ?_, ?_⟩⟩
      · simp only [effectiveJoint, bind, Except.bind, he1, he2]
      · rw [List.append_assoc]
        exact JointDefaults.firstStated_over hs2 own

/-- C110 (finding). "Blocks nest, each inheriting its parent's settings", but a block without a class is
no scope: a second one, nested or beside the first, replaces what the first one said for the whole
file, also for the attributes it does not state when it stands beside the first. -/
theorem mjcf_second_unnamed_block (density mass : T) :
    (DefaultTable.build [.mk none [{ density := some density }] [] [], .mk none [{ mass := some mass }] [] []] :
      DefaultTable T).root.geom.density = none ∧
    (DefaultTable.build [.mk (some "a") [] [] [.mk none [{ mass := some mass }] [] []]] :
      DefaultTable T).root.geom.mass = some mass := ⟨rfl, rfl⟩

end lawfree

/-! ### Joints -/

/-- Whether a joint's settings limit its travel: yes, no, or undecided (an error). -/
inductive Travel (r : JointDefaults ℝ) (autoLimits : Bool) : Option (ℝ × ℝ) → Prop
  | forbidden (h : r.limited = some "false") : Travel r autoLimits none
  | demanded (h : r.limited = some "true") (lo hi : ℝ) (hr : r.range = some (lo, hi)) :
      Travel r autoLimits (some (lo, hi))
  | unmentioned (h : r.limited = none ∨ r.limited = some "auto") (hr : r.range = none) :
      Travel r autoLimits none
  | inferred (h : r.limited = none ∨ r.limited = some "auto") (ha : autoLimits = true) (lo hi : ℝ)
      (hr : r.range = some (lo, hi)) : Travel r autoLimits (some (lo, hi))

theorem readLimits_spec (r : JointDefaults ℝ) (autoLimits : Bool) (f : ℝ → ℝ) :
    (∃ t, Travel r autoLimits t ∧ readLimits r autoLimits f = .ok (t.map fun p => (f p.1, f p.2))) ∨
    ((∀ t, ¬Travel r autoLimits t) ∧ ∃ e, readLimits r autoLimits f = .error e ∧
      (e = .limitsNeedRange ∨ e = .badAttribute "limited")) := by
  obtain ⟨ty, ax, pos, range, limited, ar, da, fr, re, sp, st⟩ := r
  have auto : ∀ limited : Option String, limited = none ∨ limited = some "auto" →
      (∃ t, Travel (⟨ty, ax, pos, range, limited, ar, da, fr, re, sp, st⟩ : JointDefaults ℝ) autoLimits t ∧
        readLimits ⟨ty, ax, pos, range, limited, ar, da, fr, re, sp, st⟩ autoLimits f =
          .ok (t.map fun p => (f p.1, f p.2))) ∨
      ((∀ t, ¬Travel (⟨ty, ax, pos, range, limited, ar, da, fr, re, sp, st⟩ : JointDefaults ℝ) autoLimits t) ∧
        ∃ e, readLimits ⟨ty, ax, pos, range, limited, ar, da, fr, re, sp, st⟩ autoLimits f = .error e ∧
        (e = .limitsNeedRange ∨ e = .badAttribute "limited")) := by
    intro limited hl
    have hg : limited.getD "auto" = "auto" := by rcases hl with rfl | rfl <;> rfl
    cases range with
    | none => exact .inl ⟨none, .unmentioned hl rfl, by simp [readLimits, hg]⟩
    | some p =>
      obtain ⟨lo, hi⟩ := p
      cases autoLimits with
      | true => exact .inl ⟨some (lo, hi), .inferred hl rfl lo hi rfl, by simp [readLimits, hg]⟩
      | false =>
        refine .inr ⟨fun t ht => ?_, .limitsNeedRange, by simp [readLimits, hg], .inl rfl⟩
        rcases ht with h | ⟨h, _, _, _⟩ | ⟨_, h⟩ | ⟨_, h, _, _, _⟩
        · rcases hl with rfl | rfl <;> simp at h
        · rcases hl with rfl | rfl <;> simp at h
        · simp at h
        · simp at h
  cases limited with
  | none => exact auto none (.inl rfl)
  | some l =>
    by_cases h1 : l = "false"
    · subst h1
      exact .inl ⟨none, .forbidden rfl, by simp [readLimits]⟩
    by_cases h2 : l = "true"
    · subst h2
      cases range with
      | some p => exact .inl ⟨some (p.1, p.2), .demanded rfl p.1 p.2 rfl, by simp [readLimits]⟩
      | none =>
        refine .inr ⟨fun t ht => ?_, .limitsNeedRange, by simp [readLimits], .inl rfl⟩
        rcases ht with h | ⟨_, _, _, h⟩ | ⟨h, _⟩ | ⟨_, _, _, _, h⟩ <;> simp at h
    by_cases h3 : l = "auto"
    · subst h3
      exact auto _ (.inr rfl)
    · refine .inr ⟨fun t ht => ?_, .badAttribute "limited", by simp [readLimits, h1, h2, h3], .inr rfl⟩
      rcases ht with h | ⟨h, _, _, _⟩ | ⟨h, _⟩ | ⟨h, _, _, _, _⟩ <;> simp_all

theorem Travel.unique {r : JointDefaults ℝ} {a : Bool} {t t' : Option (ℝ × ℝ)} (h : Travel r a t)
    (h' : Travel r a t') : t = t' := by
  rcases h with h | ⟨h, lo, hi, hr⟩ | ⟨h, hr⟩ | ⟨h, ha, lo, hi, hr⟩ <;>
    rcases h' with h' | ⟨h', lo', hi', hr'⟩ | ⟨h', hr'⟩ | ⟨h', ha', lo', hi', hr'⟩ <;> simp_all

/-- What one unit of a joint's attributes is worth in the model: angles of a hinge are converted to
radians, lengths of a slide stay as they are. -/
noncomputable def jointUnit (settings : CompilerSettings) (hinge : Bool) : ℝ :=
  if hinge ∧ settings.angleInDegrees then Real.pi / 180 else 1

/-- `j` is the joint that the settings `r` describe: a hinge or a slide about the stated direction, with
the travel, offset and spring rest position in radians or lengths. -/
structure Portrays (settings : CompilerSettings) (r : JointDefaults ℝ) (j : JointDescription ℝ) : Prop where
  kind : (j.kind = .prismatic ∧ r.jointType = some "slide") ∨
    ((j.kind = .revolute ∧ j.limits ≠ none ∨ j.kind = .continuous ∧ j.limits = none) ∧
      (r.jointType = none ∨ r.jointType = some "hinge"))
  axis : ∑ i, j.axis i ^ 2 = 1 ∧ ∃ k > 0, r.axis.getD ![0, 0, 1] = fun i => k * j.axis i
  limits : ∃ t, Travel r settings.autoLimits t ∧ j.limits = t.map fun p =>
    (p.1 * jointUnit settings (j.kind ≠ .prismatic), p.2 * jointUnit settings (j.kind ≠ .prismatic))
  zeroOffset : j.zeroOffset = r.reference.getD 0 * jointUnit settings (j.kind ≠ .prismatic)
  springReference : j.springReference = r.springReference.getD 0 * jointUnit settings (j.kind ≠ .prismatic)
  anchor : j.anchor = r.pos.getD 0
  armature : j.armature = r.armature.getD 0
  damping : j.damping = r.damping.getD 0
  frictionLoss : j.frictionLoss = r.frictionLoss.getD 0
  springStiffness : j.springStiffness = r.stiffness.getD 0
  mimic : j.mimic = none

theorem jointUnit_toRadians (settings : CompilerSettings) (x : ℝ) :
    settings.toRadians x = x * jointUnit settings true := by
  unfold CompilerSettings.toRadians jointUnit
  cases settings.angleInDegrees
  · simp
  · simp only [if_true, and_self]
    show x * Real.pi / ((180 : ℕ) : ℝ) = _
    push_cast
    ring

/-- C110. A body with one joint element gets the joint its settings describe, and is refused only for a
class that does not exist, a type other than hinge and slide, an axis without a direction, or travel
that is demanded or suggested but not settled. -/
theorem mjcf_joint (table : DefaultTable ℝ) (chain : Option String) (settings : CompilerSettings)
    (node : JointElement ℝ) :
    (∀ e, effectiveJoint table chain node.className node.own = .error e →
      readJoint table chain settings [node] = .error e) ∧
    ∀ r, effectiveJoint table chain node.className node.own = .ok r →
      (∃ j, readJoint table chain settings [node] = .ok (some j) ∧ Portrays settings r j ∧
        j.name = node.name.getD "joint") ∨
      (∃ e, readJoint table chain settings [node] = .error e ∧
        ((e = .unsupportedJoint (r.jointType.getD "hinge") ∧
            r.jointType ∉ [none, some "hinge", some "slide"]) ∨
          (e = .badAttribute "axis" ∧ r.axis = some 0) ∨
          ((e = .limitsNeedRange ∨ e = .badAttribute "limited") ∧ ∀ t, ¬Travel r settings.autoLimits t))) := by
  refine ⟨fun e he => by simp [readJoint, bind, Except.bind, he], fun r hr => ?_⟩
  have hz : r.axis.getD ![0, 0, 1] = 0 → r.axis = some 0 := by
    intro h
    cases ha : r.axis with
    | none =>
      rw [ha] at h
      have := congrFun h 2
      simp at this
    | some a => rw [ha] at h; exact congrArg some h
  have main : ∀ (kind : JointKind) (hinge : Bool),
      (if r.jointType.getD "hinge" = "hinge" then (.ok .revolute : Except GeomError JointKind)
        else if r.jointType.getD "hinge" = "slide" then .ok .prismatic
        else .error (.unsupportedJoint (r.jointType.getD "hinge"))) = .ok kind →
      decide (r.jointType.getD "hinge" = "hinge") = hinge →
      (hinge = false ∧ kind = .prismatic ∧ r.jointType = some "slide" ∨
        hinge = true ∧ kind = .revolute ∧ (r.jointType = none ∨ r.jointType = some "hinge")) →
      (∃ j, readJoint table chain settings [node] = .ok (some j) ∧ Portrays settings r j ∧
        j.name = node.name.getD "joint") ∨
      (∃ e, readJoint table chain settings [node] = .error e ∧
        ((e = .badAttribute "axis" ∧ r.axis = some 0) ∨
          ((e = .limitsNeedRange ∨ e = .badAttribute "limited") ∧ ∀ t, ¬Travel r settings.autoLimits t))) := by
    intro kind hinge hk hh hc
    by_cases ha : r.axis.getD ![0, 0, 1] = 0
    · right
      refine ⟨.badAttribute "axis", ?_, .inl ⟨rfl, hz ha⟩⟩
      simp only [readJoint, bind, Except.bind, hr, hk, ha, vtryNormalized_none]
    · have hf : (fun value : ℝ => if hinge = true then settings.toRadians value else value) =
          fun value => value * jointUnit settings hinge := by
        funext x
        cases hinge
        · simp [jointUnit]
        · simp [jointUnit_toRadians]
      rcases readLimits_spec r settings.autoLimits (fun value => value * jointUnit settings hinge) with
        ⟨t, ht, he⟩ | ⟨hn, e, he, hx⟩
      · left
        have hread : readJoint table chain settings [node] = .ok (some
            { name := node.name.getD "joint"
              kind := if hinge && (t.map fun p => (p.1 * jointUnit settings hinge,
                p.2 * jointUnit settings hinge)).isNone then .continuous else kind
              axis := vnormalized (r.axis.getD ![0, 0, 1])
              anchor := r.pos.getD fun _ => 0
              limits := t.map fun p => (p.1 * jointUnit settings hinge, p.2 * jointUnit settings hinge)
              zeroOffset := r.reference.getD 0 * jointUnit settings hinge
              armature := r.armature.getD 0
              damping := r.damping.getD 0
              frictionLoss := r.frictionLoss.getD 0
              springReference := r.springReference.getD 0 * jointUnit settings hinge
              springStiffness := r.stiffness.getD 0
              mimic := none }) := by
          have hf0 := fun x => congrFun hf x
          simp only [readJoint, bind, Except.bind, hr, hk, hh, vtryNormalized_some ha, hf0, he]
        refine ⟨_, hread, ?_, rfl⟩
        have hpos := vnorm_pos ha
        have hu := vnormalized_unit ha
        have haxis : ∑ i, vnormalized (r.axis.getD ![0, 0, 1]) i ^ 2 = 1 ∧
            ∃ k > 0, r.axis.getD ![0, 0, 1] = fun i => k * vnormalized (r.axis.getD ![0, 0, 1]) i := by
          refine ⟨?_, vnorm (r.axis.getD ![0, 0, 1]), hpos, ?_⟩
          · rw [vdot3] at hu
            rw [Fin.sum_univ_three]
            linear_combination hu
          · funext i
            have hne := hpos.ne'
            rw [vnormalized, vdivBy, mul_div_assoc', mul_div_cancel_left₀ _ hne]
        rcases hc with ⟨rfl, rfl, hty⟩ | ⟨rfl, rfl, hty⟩
        · exact
            { kind := .inl ⟨rfl, hty⟩
              axis := haxis
              limits := ⟨t, ht, by simp⟩
              zeroOffset := by simp
              springReference := by simp
              anchor := rfl
              armature := rfl
              damping := rfl
              frictionLoss := rfl
              springStiffness := rfl
              mimic := rfl }
        · cases t with
          | none =>
            exact
              { kind := .inr ⟨.inr ⟨rfl, rfl⟩, hty⟩
                axis := haxis
                limits := ⟨none, ht, rfl⟩
                zeroOffset := by simp
                springReference := by simp
                anchor := rfl
                armature := rfl
                damping := rfl
                frictionLoss := rfl
                springStiffness := rfl
                mimic := rfl }
          | some p =>
            exact
              { kind := .inr ⟨.inl ⟨rfl, by simp⟩, hty⟩
                axis := haxis
                limits := ⟨some p, ht, by simp⟩
                zeroOffset := by simp
                springReference := by simp
                anchor := rfl
                armature := rfl
                damping := rfl
                frictionLoss := rfl
                springStiffness := rfl
                mimic := rfl }
      · right
        refine ⟨e, ?_, .inr ⟨hx, hn⟩⟩
        simp only [readJoint, bind, Except.bind, hr, hk, hh, vtryNormalized_some ha, hf, he]
  cases hty : r.jointType with
  | none =>
    rcases main .revolute true (by simp [hty]) (by simp [hty]) (.inr ⟨rfl, rfl, .inl hty⟩) with h | ⟨e, he, h⟩
    · exact .inl h
    · exact .inr ⟨e, he, .inr h⟩
  | some ty =>
    by_cases h1 : ty = "hinge"
    · subst h1
      rcases main .revolute true (by simp [hty]) (by simp [hty]) (.inr ⟨rfl, rfl, .inr hty⟩) with h | ⟨e, he, h⟩
      · exact .inl h
      · exact .inr ⟨e, he, .inr h⟩
    by_cases h2 : ty = "slide"
    · subst h2
      rcases main .prismatic false (by simp [hty]) (by simp [hty]) (.inl ⟨rfl, rfl, hty⟩) with h | ⟨e, he, h⟩
      · exact .inl h
      · exact .inr ⟨e, he, .inr h⟩
    · refine .inr ⟨.unsupportedJoint ty, ?_, .inl ⟨rfl, by simp [h1, h2]⟩⟩
      simp [readJoint, bind, Except.bind, hr, hty, h1, h2]

/-- C110. A body without joint elements is welded to its parent; one with several is refused. -/
theorem mjcf_joint_count (table : DefaultTable ℝ) (chain : Option String) (settings : CompilerSettings)
    (nodes : List (JointElement ℝ)) :
    (readJoint table chain settings nodes = .ok none ↔ nodes = []) ∧
    (2 ≤ nodes.length → readJoint table chain settings nodes = .error (.multipleJoints nodes.length)) := by
  match nodes with
  | [] => simp [readJoint]
  | [node] =>
    refine ⟨⟨fun h => ?_, fun h => by cases h⟩, fun h => by simp at h⟩
    obtain ⟨h1, h2⟩ := mjcf_joint table chain settings node
    cases he : effectiveJoint table chain node.className node.own with
    | error e => rw [h1 e he] at h; cases h
    | ok r =>
      rcases h2 r he with ⟨j, hj, _⟩ | ⟨e, hj, _⟩ <;> rw [hj] at h <;> cases h
  | a :: b :: rest => simp [readJoint]

/-- A hinge from -90 to 90 degrees about a direction of length two. -/
example : ∃ j, readJoint ({} : DefaultTable ℝ) none {}
    [{ own := { axis := some ![0, 2, 0], range := some (-90, 90) } }] = .ok (some j) ∧
    j.kind = .revolute ∧ j.limits = some (-(Real.pi / 2), Real.pi / 2) ∧ j.axis 1 = 1 := by
  have hr : effectiveJoint ({} : DefaultTable ℝ) none none { axis := some ![0, 2, 0], range := some (-90, 90) } =
      .ok { axis := some ![0, 2, 0], range := some (-90, 90) } := rfl
  have ht : Travel { axis := some ![0, 2, 0], range := some (-90, 90) } true (some ((-90 : ℝ), 90)) :=
    .inferred (.inl rfl) rfl _ _ rfl
  rcases (mjcf_joint ({} : DefaultTable ℝ) none {}
    { own := { axis := some ![0, 2, 0], range := some (-90, 90) } }).2 _ hr with ⟨j, hj, hp, -⟩ | ⟨e, -, h⟩
  · refine ⟨j, hj, ?_⟩
    obtain ⟨t, ht', hl⟩ := hp.limits
    have := ht'.unique ht
    subst this
    have hk : j.kind = .revolute := by
      rcases hp.kind with ⟨-, h⟩ | ⟨⟨h, -⟩ | ⟨-, h⟩, -⟩
      · simp at h
      · exact h
      · rw [hl] at h
        simp at h
    refine ⟨hk, ?_, ?_⟩
    · rw [hl, hk]
      have hne : ¬(JointKind.revolute = JointKind.prismatic) := by intro h; cases h
      simp only [jointUnit, Option.map_some, Option.some.injEq, Prod.mk.injEq, ne_eq, hne, not_false_eq_true,
        decide_true, and_self, if_true]
      constructor <;> ring
    · obtain ⟨hn, k, hk0, ha⟩ := hp.axis
      have h0 := congrFun ha 0
      have h1 := congrFun ha 1
      have h2 := congrFun ha 2
      simp at h0 h1 h2
      have a0 : j.axis 0 = 0 := by rcases h0 with h | h <;> [(exact absurd h hk0.ne'); exact h]
      have a2 : j.axis 2 = 0 := by rcases h2 with h | h <;> [(exact absurd h hk0.ne'); exact h]
      rw [Fin.sum_univ_three, a0, a2] at hn
      have : 0 < j.axis 1 := by
        by_contra hh
        nlinarith [not_lt.1 hh]
      nlinarith
  · exfalso
    rcases h with ⟨-, h⟩ | ⟨-, h⟩ | ⟨-, h⟩
    · simp at h
    · have := congrFun (Option.some.inj h) 1
      simp at this
    · exact h _ ht

/-! ### Stated inertias -/

/-- C110. A body's `<inertial>` is read as it is meant: the mass and centre it states, and about that
centre either the six entries of `fullinertia` in the order `xx yy zz xy xz yz`, or the tensor whose
principal moments are `diaginertia` along the axes that `quat` turns the body's axes to. -/
theorem mjcf_stated_inertia (node : InertialElement ℝ) (B : SpatialInertia ℝ)
    (h : statedInertia node = .ok B) :
    node.mass = some B.mass ∧ 0 < B.mass ∧ B.centerOfMass = node.pos.getD 0 ∧ (∀ i, 0 < B.rotationalInertia i i) ∧
    ((∃ f, node.full = some f ∧ node.diagonal = none ∧ ∀ ω : Fin 3 → ℝ,
        vdot ω (mmulVec B.rotationalInertia ω) =
          f 0 * ω 0 ^ 2 + f 1 * ω 1 ^ 2 + f 2 * ω 2 ^ 2 +
            2 * (f 3 * (ω 0 * ω 1) + f 4 * (ω 0 * ω 2) + f 5 * (ω 1 * ω 2)) ∧
        ∀ i j, B.rotationalInertia i j = B.rotationalInertia j i) ∨
      ∃ d, node.diagonal = some d ∧ node.full = none ∧ ∃ q : Quat ℝ, q.IsUnit ∧
        (∃ k > 0, node.quat.getD ![1, 0, 0, 0] = ![k * q.w, k * q.x, k * q.y, k * q.z]) ∧
        ∀ k, mmulVec B.rotationalInertia (q.transformPoint (Pi.single k 1)) =
          fun i => d k * q.transformPoint (Pi.single k 1) i) := by
  unfold statedInertia at h
  cases hm : node.mass with
  | none => simp [hm] at h
  | some mass =>
  simp only [hm, bind, Except.bind] at h
  have fin : ∀ I : Matrix (Fin 3) (Fin 3) ℝ, SpatialInertia.new mass (node.pos.getD fun _ => 0) I = .ok B →
      mass = B.mass ∧ 0 < B.mass ∧ B.centerOfMass = node.pos.getD 0 ∧ B.rotationalInertia = I ∧ ∀ i, 0 < I i i := by
    intro I hn
    obtain ⟨rfl, hp, -, hd⟩ := (inertia_new _ _ _ _).1 hn
    exact ⟨rfl, hp, rfl, rfl, hd⟩
  cases hd : node.diagonal with
  | some d =>
    cases hf : node.full with
    | some f => simp [hd, hf] at h
    | none =>
      simp only [hd, hf] at h
      rcases unitQuaternion_cases (node.quat.getD ![1, 0, 0, 0]) with ⟨-, he⟩ | ⟨q, he, hq, hk⟩
      · simp [he] at h
      · simp only [he] at h
        have hn : SpatialInertia.new mass (node.pos.getD fun _ => 0) (turnedTensor q d) = .ok B := by
          split at h
          · rename_i hi
            injection h with h
            rw [hi, h]
          · cases h
        obtain ⟨rfl, h1, h2, h3, h4⟩ := fin _ hn
        refine ⟨rfl, h1, h2, by rw [h3]; exact h4, .inr ⟨d, rfl, rfl, q, hq, hk, fun k => ?_⟩⟩
        have hv : ∀ i, q.transformPoint (Pi.single k 1) i = q.toRotationMatrix i k := by
          intro i
          obtain ⟨-, -, ht, -⟩ := toRotationMatrix_spec q q hq hq (Pi.single k 1)
          rw [← ht, mmulVec_eq, Matrix.mulVec_single_one]
          rfl
        rw [h3, mmulVec_eq]
        funext i
        rw [Matrix.mulVec, dotProduct, hv]
        simp only [turnedTensor_entry, hv, Finset.sum_mul]
        rw [Finset.sum_comm]
        have : ∀ l, ∑ x, q.toRotationMatrix i l * q.toRotationMatrix x l * d l * q.toRotationMatrix x k =
            q.toRotationMatrix i l * d l * if l = k then 1 else 0 := by
          intro l
          rw [← rotation_columns q hq l k, Finset.mul_sum]
          exact Finset.sum_congr rfl fun x _ => by ring
        simp only [this]
        simp
        ring
  | none =>
    cases hf : node.full with
    | none => simp [hd, hf] at h
    | some f =>
      simp only [hd, hf] at h
      have hn : SpatialInertia.new mass (node.pos.getD fun _ => 0)
          (fun i j => (!![f 0, f 3, f 4; f 3, f 1, f 5; f 4, f 5, f 2]) i j) = .ok B := by
        split at h
        · rename_i hi
          injection h with h
          rw [hi, h]
        · cases h
      obtain ⟨rfl, h1, h2, h3, h4⟩ := fin _ hn
      refine ⟨rfl, h1, h2, by rw [h3]; exact h4, .inl ⟨f, rfl, rfl, fun ω => ⟨?_, fun i j => ?_⟩⟩⟩
      · rw [mmulVec_eq, h3, vdot3]
        simp [Matrix.mulVec, dotProduct, Fin.sum_univ_three]
        ring
      · rw [h3]
        fin_cases i <;> fin_cases j <;> rfl

/-- C110. Conversely, an `<inertial>` with a positive mass and positive principal moments is accepted,
whichever way it is turned. -/
theorem mjcf_stated_inertia_accepts (node : InertialElement ℝ) (m : ℝ) (d : Fin 3 → ℝ) (hm : node.mass = some m)
    (hm0 : 0 < m) (hd : node.diagonal = some d) (hd0 : ∀ k, 0 < d k) (hf : node.full = none)
    (hq : ∀ v, node.quat = some v → 1 / 2 ^ 52 < Real.sqrt (v 0 * v 0 + v 1 * v 1 + v 2 * v 2 + v 3 * v 3)) :
    ∃ B, statedInertia node = .ok B := by
  rcases unitQuaternion_cases (node.quat.getD ![1, 0, 0, 0]) with ⟨hs, -⟩ | ⟨q, he, hu, -⟩
  · exfalso
    cases hv : node.quat with
    | none =>
      rw [hv] at hs
      have e : (![1, 0, 0, 0] : Fin 4 → ℝ) 2 = 0 ∧ (![1, 0, 0, 0] : Fin 4 → ℝ) 3 = 0 := ⟨rfl, rfl⟩
      norm_num [e.1, e.2] at hs
    | some v =>
      rw [hv] at hs
      exact absurd hs (not_le.2 (hq v hv))
  · have hpos : ∀ i, 0 < turnedTensor q d i i := by
      intro i
      rw [turnedTensor_entry]
      have h1 := rotation_rows q hu i i
      simp only [if_true] at h1
      have hnn : ∀ k ∈ Finset.univ, 0 ≤ q.toRotationMatrix i k * q.toRotationMatrix i k * d k := fun k _ =>
        mul_nonneg (mul_self_nonneg _) (hd0 k).le
      rcases (Finset.sum_nonneg hnn).lt_or_eq with h | h
      · exact h
      · exfalso
        have hz := (Finset.sum_eq_zero_iff_of_nonneg hnn).1 h.symm
        have : ∑ k, q.toRotationMatrix i k * q.toRotationMatrix i k = 0 :=
          Finset.sum_eq_zero fun k hk => (mul_eq_zero.1 (hz k hk)).resolve_right (hd0 k).ne'
        rw [this] at h1
        norm_num at h1
    have hsym : isSymmetric (turnedTensor q d) = true := by
      simp only [isSymmetric, List.all_eq_true]
      intro i _ j _
      split
      · have e : turnedTensor q d i j = turnedTensor q d j i := by
          rw [turnedTensor_entry, turnedTensor_entry]
          exact Finset.sum_congr rfl fun k _ => by ring
        rw [e, sub_self]
        simp only [real_abs, abs_zero]
        simp only [Bool.not_eq_true', decide_eq_false_iff_not, not_lt]
        refine mul_nonneg ?_ (le_trans zero_le_one (le_max_right _ _))
        simp [epsilonX30]
        exact (show (0 : ℝ) ≤ 1 / 2 ^ 52 by positivity)
      · rfl
    refine ⟨⟨m, node.pos.getD fun _ => 0, turnedTensor q d⟩, ?_⟩
    have hn := (inertia_new m (node.pos.getD fun _ => 0) (turnedTensor q d) _).2 ⟨rfl, hm0, hsym, hpos⟩
    simp only [statedInertia, hm, hd, hf, bind, Except.bind, he, hn]

/-- C110. Where a body's inertia comes from: `inertiafromgeom` `false` requires an `<inertial>`, `true`
ignores it, and `auto` uses it when there is one and the geoms otherwise. -/
theorem mjcf_inertia_source (settings : CompilerSettings) (table : DefaultTable ℝ) (chain : Option String)
    (geoms : List (GeomElement ℝ)) :
    (settings.inertiaFromGeom = .never →
      bodyInertia settings table chain none geoms = .error .noInertiaSource) ∧
    (settings.inertiaFromGeom ≠ .never →
      bodyInertia settings table chain none geoms = synthesizedInertia table chain geoms) ∧
    ∀ node, (settings.inertiaFromGeom = .always →
        bodyInertia settings table chain (some node) geoms = synthesizedInertia table chain geoms) ∧
      (settings.inertiaFromGeom ≠ .always → node.orientation = none →
        bodyInertia settings table chain (some node) geoms = statedInertia node) ∧
      ∀ attr, settings.inertiaFromGeom ≠ .always → node.orientation = some attr →
        bodyInertia settings table chain (some node) geoms = .error (.unsupportedOrientation attr) := by
  obtain ⟨a, b, c⟩ := settings
  refine ⟨?_, ?_, fun node => ⟨?_, ?_, ?_⟩⟩
  · rintro rfl; rfl
  · intro h; cases c <;> simp_all [bodyInertia]
  · rintro rfl; rfl
  · intro h ho; cases c <;> simp_all [bodyInertia]
  · intro attr h ho; cases c <;> simp_all [bodyInertia]

/-- Moments 1, 2, 3 along axes turned by a quaternion that is not of unit length. -/
example : ∃ B, statedInertia
    ({ mass := some 2, diagonal := some ![1, 2, 3], quat := some ![2, 0, 1, 2] } : InertialElement ℝ) = .ok B := by
  refine mjcf_stated_inertia_accepts _ 2 ![1, 2, 3] rfl (by norm_num) rfl ?_ rfl ?_
  · intro k
    fin_cases k <;> norm_num
  · rintro v ⟨⟩
    refine lt_of_lt_of_le (b := 1) (by norm_num) (Real.one_le_sqrt.2 ?_)
    simp
    norm_num

end Multicalc.Mjcf
