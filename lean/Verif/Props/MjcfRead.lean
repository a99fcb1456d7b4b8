import Verif.Model.MjcfRead
import Verif.Props.Urdf
import Verif.Props.Mjcf

/-!
# Property theorems: what the elements of an MJCF mean

C119.  Nothing here uses the arithmetic of the scalar type, so all of it holds whatever that is.
-/

namespace Multicalc
namespace Mjcf

open Urdf (bind_ok bind_error Gives GivesOr GivesOne)

/-! ### Plumbing -/

theorem ofXml_ok {A : Type} {x : Except Urdf.ReadError A} {a : A} : ofXml x = .ok a ↔ x = .ok a := by
  cases x <;> simp [ofXml]

theorem ofGeom_ok {A : Type} {x : Except GeomError A} {a : A} : ofGeom x = .ok a ↔ x = .ok a := by
  cases x <;> simp [ofGeom]

/-! ### Compiler settings -/

/-- The setting this attribute makes: one of the listed spellings, the first of them when it is missing. -/
def Chooses {A : Type} (node : XmlNode) (name : String) (spellings : List (String × A)) (a : A) : Prop :=
  (∃ text, node.attr name = some text ∧ (text, a) ∈ spellings) ∨
  node.attr name = none ∧ ∃ text, spellings.head? = some (text, a)

/-- C119. The compiler settings are those of the first `<compiler>` element; degrees, automatic limits and automatic
inertia hold where it says nothing or is missing; and any other spelling is refused, quoting it. -/
theorem mjcf_compiler (root : XmlNode) :
    (root.child "compiler" = none → compilerSettings root = .ok ⟨true, true, .auto⟩) ∧
    ∀ c, root.child "compiler" = some c →
      (∀ s, compilerSettings root = .ok s ↔
        Chooses c "angle" [("degree", true), ("radian", false)] s.angleInDegrees ∧
        Chooses c "autolimits" [("true", true), ("false", false)] s.autoLimits ∧
        Chooses c "inertiafromgeom" [("auto", .auto), ("true", InertiaFromGeom.always), ("false", .never)]
          s.inertiaFromGeom) ∧
      ∀ e, compilerSettings root = .error e → ∃ name ∈ ["angle", "autolimits", "inertiafromgeom"],
        ∃ text, c.attr name = some text ∧ e = .badAttribute c.tag name text := by
  refine ⟨fun h => by rw [compilerSettings, h], fun c hc => ?_⟩
  have two : ∀ (name t f : String) (htf : t ≠ f) (x : Except Urdf.ReadError Bool),
      x = (if (c.attr name).getD t = t then .ok true else if (c.attr name).getD t = f then .ok false
        else .error (Urdf.badAttribute c name ((c.attr name).getD t))) →
      (∀ b, x = .ok b ↔ Chooses c name [(t, true), (f, false)] b) ∧
      ∀ e, x = .error e → ∃ text, c.attr name = some text ∧ e = .badAttribute c.tag name text := by
    rintro name t f htf x rfl
    unfold Chooses
    cases ha : c.attr name with
    | none => exact ⟨fun b => by cases b <;> simp, fun e he => by simp at he⟩
    | some text =>
      by_cases h1 : text = t
      · subst h1
        exact ⟨fun b => by cases b <;> simp [htf], fun e he => by simp at he⟩
      · by_cases h2 : text = f
        · subst h2
          exact ⟨fun b => by cases b <;> simp [h1], fun e he => by simp [h1] at he⟩
        · refine ⟨fun b => by cases b <;> simp [h1, h2], fun e he => ?_⟩
          simp only [Option.getD_some, if_neg h1, if_neg h2, Except.error.injEq] at he
          exact ⟨text, rfl, he.symm⟩
  have h1 := two "angle" "degree" "radian" (by decide) _ rfl
  have h2 := two "autolimits" "true" "false" (by decide) _ rfl
  have h3 : ∀ x : Except Urdf.ReadError InertiaFromGeom,
      x = (if (c.attr "inertiafromgeom").getD "auto" = "false" then .ok .never
        else if (c.attr "inertiafromgeom").getD "auto" = "auto" then .ok .auto
        else if (c.attr "inertiafromgeom").getD "auto" = "true" then .ok .always
        else .error (Urdf.badAttribute c "inertiafromgeom" ((c.attr "inertiafromgeom").getD "auto"))) →
      (∀ b, x = .ok b ↔
        Chooses c "inertiafromgeom" [("auto", .auto), ("true", InertiaFromGeom.always), ("false", .never)] b) ∧
      ∀ e, x = .error e →
        ∃ text, c.attr "inertiafromgeom" = some text ∧ e = .badAttribute c.tag "inertiafromgeom" text := by
    rintro x rfl
    unfold Chooses
    cases ha : c.attr "inertiafromgeom" with
    | none => exact ⟨fun b => by cases b <;> simp, fun e he => by simp at he⟩
    | some text =>
      by_cases h1 : text = "false"
      · subst h1
        exact ⟨fun b => by cases b <;> simp, fun e he => by simp at he⟩
      · by_cases h2 : text = "auto"
        · subst h2
          exact ⟨fun b => by cases b <;> simp, fun e he => by simp at he⟩
        · by_cases h3 : text = "true"
          · subst h3
            exact ⟨fun b => by cases b <;> simp, fun e he => by simp at he⟩
          · refine ⟨fun b => by cases b <;> simp [h1, h2, h3], fun e he => ?_⟩
            simp only [Option.getD_some, if_neg h1, if_neg h2, if_neg h3, Except.error.injEq] at he
            exact ⟨text, rfl, he.symm⟩
  replace h3 := h3 _ rfl
  have e : compilerSettings root = (do
      let a ← (if (c.attr "angle").getD "degree" = "degree" then .ok true
        else if (c.attr "angle").getD "degree" = "radian" then .ok false
        else .error (Urdf.badAttribute c "angle" ((c.attr "angle").getD "degree")) : Except Urdf.ReadError Bool)
      let l ← (if (c.attr "autolimits").getD "true" = "true" then .ok true
        else if (c.attr "autolimits").getD "true" = "false" then .ok false
        else .error (Urdf.badAttribute c "autolimits" ((c.attr "autolimits").getD "true")) :
          Except Urdf.ReadError Bool)
      let g ← (if (c.attr "inertiafromgeom").getD "auto" = "false" then .ok .never
        else if (c.attr "inertiafromgeom").getD "auto" = "auto" then .ok .auto
        else if (c.attr "inertiafromgeom").getD "auto" = "true" then .ok .always
        else .error (Urdf.badAttribute c "inertiafromgeom" ((c.attr "inertiafromgeom").getD "auto")) :
          Except Urdf.ReadError InertiaFromGeom)
      .ok ⟨a, l, g⟩) := by
    rw [compilerSettings, hc]
    simp only
    congr 1
    · split <;> simp_all
    · funext a
      congr 1
      · split <;> simp_all
      · funext l
        congr 1
        split <;> simp_all
  rw [e]
  refine ⟨fun s => ?_, fun er h => ?_⟩
  · rw [bind_ok]
    constructor
    · rintro ⟨a, ha, h⟩
      rw [bind_ok] at h
      obtain ⟨l, hl, h⟩ := h
      rw [bind_ok] at h
      obtain ⟨g, hg, h⟩ := h
      cases h
      exact ⟨(h1.1 a).1 ha, (h2.1 l).1 hl, (h3.1 g).1 hg⟩
    · rintro ⟨ha, hl, hg⟩
      refine ⟨_, (h1.1 _).2 ha, ?_⟩
      rw [bind_ok]
      refine ⟨_, (h2.1 _).2 hl, ?_⟩
      rw [bind_ok]
      exact ⟨_, (h3.1 _).2 hg, rfl⟩
  · rw [bind_error] at h
    rcases h with h | ⟨a, -, h⟩
    · exact ⟨"angle", by simp, h1.2 _ h⟩
    rw [bind_error] at h
    rcases h with h | ⟨l, -, h⟩
    · exact ⟨"autolimits", by simp, h2.2 _ h⟩
    rw [bind_error] at h
    rcases h with h | ⟨g, -, h⟩
    · exact ⟨"inertiafromgeom", by simp, h3.2 _ h⟩
    · cases h

/-! ### Attributes -/

section Attributes

variable {T : Type} (parse : String → Option T)

/-- The attribute states these numbers, or is missing and there are none. -/
def Stated (node : XmlNode) (name : String) {n : ℕ} (o : Option (Fin n → T)) : Prop :=
  (node.attr name = none ∧ o = none) ∨ ∃ v, Gives parse node name v ∧ o = some v

/-- The same for a single number. -/
def StatedOne (node : XmlNode) (name : String) (o : Option T) : Prop :=
  (node.attr name = none ∧ o = none) ∨ ∃ x, GivesOne parse node name x ∧ o = some x

/-- The same for any count of numbers. -/
def StatedList (node : XmlNode) (name : String) (o : Option (List T)) : Prop :=
  (node.attr name = none ∧ o = none) ∨ ∃ n, ∃ v : Fin n → T, Gives parse node name v ∧ o = some (List.ofFn v)

theorem fixed_stated {node : XmlNode} {name : String} {n : ℕ} {o : Option (Fin n → T)} :
    Urdf.fixed parse n node name = .ok o ↔ Stated parse node name o := by
  have h := Urdf.urdf_numbers parse node name n
  cases o with
  | none => simp [Stated, h.1]
  | some v => simp [Stated, h.2.1]

theorem scalar_stated {node : XmlNode} {name : String} {o : Option T} :
    Urdf.parseScalar parse node name = .ok o ↔ StatedOne parse node name o := by
  rcases Urdf.parseScalar_cases parse node name with ⟨h, hf⟩ | ⟨x, hx, hf⟩ | ⟨e, ⟨text, h, hn, -⟩, hf⟩
  · rw [hf]
    constructor
    · rintro h'; cases h'; exact .inl ⟨h, rfl⟩
    · rintro (⟨-, rfl⟩ | ⟨x, ⟨text, h', -⟩, -⟩)
      · rfl
      · rw [h] at h'; cases h'
  · rw [hf]
    constructor
    · rintro h'; cases h'; exact .inr ⟨x, hx, rfl⟩
    · rintro (⟨h, -⟩ | ⟨y, hy, rfl⟩)
      · obtain ⟨text, h', -⟩ := hx
        rw [h] at h'; cases h'
      · rw [congrFun (hx.unique parse hy) 0]
  · rw [hf]
    constructor
    · intro h'; cases h'
    · rintro (⟨h', -⟩ | ⟨y, ⟨text', h', hs⟩, rfl⟩)
      · rw [h] at h'; cases h'
      · rw [h] at h'; cases h'
        exact absurd ⟨_, hs⟩ hn

theorem list_stated {node : XmlNode} {name : String} {o : Option (List T)} :
    Urdf.parseList parse node name = .ok o ↔ StatedList parse node name o := by
  have key : ∀ values : List T, Urdf.parseList parse node name = .ok (some values) →
      Urdf.fixed parse values.length node name = .ok (some fun i => values[i]) := by
    intro values h
    simp [Urdf.fixed, h, bind, Except.bind]
  constructor
  · intro h
    cases o with
    | none =>
      left
      refine ⟨?_, rfl⟩
      rw [Urdf.parseList] at h
      split at h
      · assumption
      · split at h <;> cases h
    | some values =>
      have := (Urdf.urdf_numbers parse node name values.length).2.1 _ |>.1 (key values h)
      exact .inr ⟨_, _, this, by simp⟩
  · rintro (⟨h, rfl⟩ | ⟨n, v, h, rfl⟩)
    · simp [Urdf.parseList, h]
    · have hf := ((Urdf.urdf_numbers parse node name n).2.1 v).2 h
      cases hl : Urdf.parseList parse node name with
      | error e => simp [Urdf.fixed, hl, bind, Except.bind] at hf
      | ok o =>
        cases o with
        | none => simp [Urdf.fixed, hl, bind, Except.bind] at hf
        | some values =>
          simp only [Urdf.fixed, hl, bind, Except.bind] at hf
          split at hf
          · rename_i hn
            cases hf
            subst hn
            simp
          · cases hf

/-- C119. The settings of a `<geom>`, on a body or in a default block, are those its attributes state: each number
attribute spells the numbers of its setting, and an attribute that is missing leaves its setting open. -/
theorem mjcf_geom_attributes (node : XmlNode) (d : GeomDefaults T) :
    geomDefaults parse node = .ok d ↔ d.geomType = node.attr "type" ∧ StatedList parse node "size" d.size ∧
      Stated parse node "fromto" d.fromto ∧ Stated parse node "pos" d.pos ∧ Stated parse node "quat" d.quat ∧
      StatedOne parse node "mass" d.mass ∧ StatedOne parse node "density" d.density := by
  simp only [geomDefaults, bind_ok, fixed_stated, scalar_stated, list_stated]
  constructor
  · rintro ⟨_, h1, _, h2, _, h3, _, h4, _, h5, _, h6, h⟩
    cases h
    exact ⟨rfl, h1, h2, h3, h4, h5, h6⟩
  · rintro ⟨h0, h1, h2, h3, h4, h5, h6⟩
    refine ⟨_, h1, _, h2, _, h3, _, h4, _, h5, _, h6, ?_⟩
    rw [← h0]

/-- C119. The same for a `<joint>`. -/
theorem mjcf_joint_attributes (node : XmlNode) (d : JointDefaults T) :
    jointDefaults parse node = .ok d ↔ d.jointType = node.attr "type" ∧ d.limited = node.attr "limited" ∧
      Stated parse node "axis" d.axis ∧ Stated parse node "pos" d.pos ∧
      Stated parse node "range" (d.range.map fun r => ![r.1, r.2]) ∧
      StatedOne parse node "armature" d.armature ∧ StatedOne parse node "damping" d.damping ∧
      StatedOne parse node "frictionloss" d.frictionLoss ∧ StatedOne parse node "ref" d.reference ∧
      StatedOne parse node "springref" d.springReference ∧ StatedOne parse node "stiffness" d.stiffness := by
  have hv : ∀ v : Fin 2 → T, ![v 0, v 1] = v := fun v => by
    funext i
    fin_cases i <;> rfl
  simp only [jointDefaults, bind_ok, fixed_stated, scalar_stated]
  constructor
  · rintro ⟨_, h1, _, h2, r, h3, _, h4, _, h5, _, h6, _, h7, _, h8, _, h9, h⟩
    cases h
    refine ⟨rfl, rfl, h1, h2, ?_, h4, h5, h6, h7, h8, h9⟩
    cases r with
    | none => exact h3
    | some v => simpa [hv] using h3
  · rintro ⟨h0, h0', h1, h2, h3, h4, h5, h6, h7, h8, h9⟩
    refine ⟨_, h1, _, h2, _, h3, _, h4, _, h5, _, h6, _, h7, _, h8, _, h9, ?_⟩
    rw [← h0, ← h0']
    obtain ⟨jt, ax, ps, rg, lm, ar, dm, fl, rf, sr, st⟩ := d
    cases rg <;> simp

/-- C119. An orientation attribute other than `quat` is always noticed, and nothing else is taken for one. -/
theorem mjcf_orientation (node : XmlNode) :
    orientationAttribute node = none ↔ ∀ name, node.attr name ≠ none →
      name ≠ "euler" ∧ name ≠ "axisangle" ∧ name ≠ "xyaxes" ∧ name ≠ "zaxis" := by
  rw [orientationAttribute, List.find?_eq_none]
  constructor
  · intro h name hn
    have hs : (node.attr name).isSome = true := Option.isSome_iff_ne_none.2 hn
    refine ⟨?_, ?_, ?_, ?_⟩ <;>
    · rintro rfl
      exact h _ (by simp) hs
  · intro h x hx hs
    have := h x (by intro h0; rw [h0] at hs; cases hs)
    simp only [List.mem_cons, List.not_mem_nil, or_false] at hx
    rcases hx with rfl | rfl | rfl | rfl <;> simp at this

/-! ### Default blocks -/

/-- The element is this default block: its class, its geoms' and joints' settings, and the blocks inside it. -/
inductive IsBlock : XmlNode → DefaultBlock T → Prop
  | mk (node : XmlNode) (geoms joints nested)
      (hg : List.Forall₂ (fun n d => geomDefaults parse n = .ok d) (node.elements "geom") geoms)
      (hj : List.Forall₂ (fun n d => jointDefaults parse n = .ok d) (node.elements "joint") joints)
      (hn : List.Forall₂ IsBlock (node.elements "default") nested) :
      IsBlock node (.mk (node.attr "class") geoms joints nested)

/-- The `<default>` elements of a list. -/
abbrev defaultsIn (nodes : List XmlNode) : List XmlNode := nodes.filter fun n => n.isElement && n.tag == "default"

mutual

theorem walkDefaultNode_sound : ∀ (node : XmlNode) (inherited : ClassDefaults T) (table table' : DefaultTable T),
    node.isElement = true → walkDefaultNode parse node inherited table = .ok table' →
    ∃ b, IsBlock parse node b ∧ table' = walkDefault b inherited table
  | .other, _, _, _, h, _ => by cases h
  | .element tag attributes children, inherited, table, table', _, h => by
    rw [walkDefaultNode, bind_ok] at h
    obtain ⟨geoms, hg, h⟩ := h
    rw [bind_ok] at h
    obtain ⟨joints, hj, h⟩ := h
    obtain ⟨bs, hbs, ht⟩ := walkDefaultNodes_sound children _ _ _ h
    refine ⟨_, .mk _ geoms joints bs ((Urdf.mapM_except_ok _ _ _).1 hg) ((Urdf.mapM_except_ok _ _ _).1 hj) hbs, ?_⟩
    rw [walkDefault, ht]

theorem walkDefaultNodes_sound : ∀ (nodes : List XmlNode) (inherited : ClassDefaults T) (table table' : DefaultTable T),
    walkDefaultNodes parse nodes inherited table = .ok table' →
    ∃ bs, List.Forall₂ (IsBlock parse) (defaultsIn nodes) bs ∧ table' = walkDefaults bs inherited table
  | [], _, table, table', h => by
    rw [walkDefaultNodes] at h
    cases h
    exact ⟨[], .nil, by rw [walkDefaults]⟩
  | child :: rest, inherited, table, table', h => by
    rw [walkDefaultNodes] at h
    by_cases hc : (child.isElement && child.tag == "default") = true
    · rw [if_pos hc, bind_ok] at h
      obtain ⟨t, h1, h2⟩ := h
      obtain ⟨b, hb, rfl⟩ := walkDefaultNode_sound child inherited table t (by
        rw [Bool.and_eq_true] at hc; exact hc.1) h1
      obtain ⟨bs, hbs, rfl⟩ := walkDefaultNodes_sound rest inherited _ table' h2
      refine ⟨b :: bs, ?_, by rw [walkDefaults]⟩
      rw [defaultsIn, List.filter_cons_of_pos (by simpa using hc)]
      exact .cons hb hbs
    · rw [if_neg hc] at h
      obtain ⟨bs, hbs, rfl⟩ := walkDefaultNodes_sound rest inherited table table' h
      refine ⟨bs, ?_, rfl⟩
      rw [defaultsIn, List.filter_cons_of_neg (by simpa using hc)]
      exact hbs

end

mutual

theorem walkDefaultNode_complete : ∀ (node : XmlNode) (inherited : ClassDefaults T) (table : DefaultTable T)
    (b : DefaultBlock T), node.isElement = true → IsBlock parse node b →
    walkDefaultNode parse node inherited table = .ok (walkDefault b inherited table)
  | .other, _, _, _, h, _ => by cases h
  | .element tag attributes children, inherited, table, b, _, hb => by
    cases hb with
    | mk _ geoms joints nested hg hj hn =>
      rw [walkDefaultNode, bind_ok]
      refine ⟨geoms, (Urdf.mapM_except_ok _ _ _).2 hg, ?_⟩
      rw [bind_ok]
      refine ⟨joints, (Urdf.mapM_except_ok _ _ _).2 hj, ?_⟩
      rw [walkDefaultNodes_complete children _ _ nested hn, walkDefault]

theorem walkDefaultNodes_complete : ∀ (nodes : List XmlNode) (inherited : ClassDefaults T) (table : DefaultTable T)
    (bs : List (DefaultBlock T)), List.Forall₂ (IsBlock parse) (defaultsIn nodes) bs →
    walkDefaultNodes parse nodes inherited table = .ok (walkDefaults bs inherited table)
  | [], _, table, bs, h => by
    cases h
    rw [walkDefaultNodes, walkDefaults]
  | child :: rest, inherited, table, bs, h => by
    rw [walkDefaultNodes]
    by_cases hc : (child.isElement && child.tag == "default") = true
    · rw [defaultsIn, List.filter_cons_of_pos (by simpa using hc)] at h
      cases h with
      | cons hb hbs =>
        rw [if_pos hc, walkDefaultNode_complete child inherited table _ (by
          rw [Bool.and_eq_true] at hc; exact hc.1) hb]
        show walkDefaultNodes parse rest inherited _ = _
        rw [walkDefaultNodes_complete rest inherited _ _ hbs, walkDefaults]
    · rw [defaultsIn, List.filter_cons_of_neg (by simpa using hc)] at h
      rw [if_neg hc]
      exact walkDefaultNodes_complete rest inherited table bs h

end

/-- C119. The table of classes is that of the document's `<default>` elements, nested as they are nested there; it is
refused only if some geom or joint in one of them is. -/
theorem mjcf_default_elements (root : XmlNode) (table : DefaultTable T) :
    defaultTable parse root = .ok table ↔
      ∃ blocks, List.Forall₂ (IsBlock parse) (root.elements "default") blocks ∧ table = DefaultTable.build blocks := by
  constructor
  · intro h
    obtain ⟨bs, hbs, ht⟩ := walkDefaultNodes_sound parse _ _ _ _ h
    exact ⟨bs, hbs, ht⟩
  · rintro ⟨bs, hbs, rfl⟩
    exact walkDefaultNodes_complete parse _ _ _ bs hbs

end Attributes

/-! ### Top-level bodies -/

theorem topLevelIn_append (xs ys : List XmlNode) : topLevelIn (xs ++ ys) = topLevelIn xs ++ topLevelIn ys := by
  induction xs with
  | nil => rw [List.nil_append, topLevelIn, List.nil_append]
  | cons x xs ih => rw [List.cons_append, topLevelIn, topLevelIn, ih, List.append_assoc]

/-- C119. The top-level bodies are the `<body>` children of the `<worldbody>`, in the order they are written, where a
`<worldbody>` inside stands for its own children: wrapping a run of children in another one changes nothing. -/
theorem mjcf_top_level (tag : String) (attributes attributes' : List (String × String)) (xs ys zs : List XmlNode) :
    topLevelBodies (.element tag attributes (xs ++ .element "worldbody" attributes' ys :: zs)) =
      topLevelBodies (.element tag attributes (xs ++ ys ++ zs)) ∧
    ((∀ c ∈ xs, ¬(c.isElement = true ∧ c.tag = "worldbody")) →
      topLevelBodies (.element tag attributes xs) = (XmlNode.element tag attributes xs).elements "body") := by
  constructor
  · rw [topLevelBodies, topLevelBodies, topLevelIn_append, topLevelIn_append, topLevelIn_append, topLevelIn,
      List.append_assoc]
    rw [if_neg (by simp [XmlNode.tag]), if_pos (by simp [XmlNode.tag, XmlNode.isElement]), topLevelBodies]
  · intro h
    rw [topLevelBodies, XmlNode.elements]
    show topLevelIn xs = xs.filter _
    induction xs with
    | nil => rfl
    | cons x xs ih =>
      have hx := h x (by simp)
      rw [topLevelIn, ih (fun c hc => h c (by simp [hc]))]
      by_cases hb : (x.isElement && x.tag == "body") = true
      · rw [if_pos hb, List.filter_cons_of_pos (by simpa using hb)]
        rfl
      · rw [if_neg hb, List.filter_cons_of_neg (by simpa using hb), if_neg (by simpa using hx)]
        rfl

/-! ### Includes -/

/-- The element itself, or one anywhere inside it. -/
inductive Within : XmlNode → XmlNode → Prop
  | self (node : XmlNode) : Within node node
  | inside (tag attributes children) (child node : XmlNode) (hc : child ∈ children) (h : Within child node) :
      Within (.element tag attributes children) node

mutual

theorem hasInclude_iff : ∀ node : XmlNode,
    hasInclude node = true ↔ ∃ n, Within node n ∧ n.isElement = true ∧ n.tag = "include"
  | .other => by
    rw [hasInclude]
    constructor
    · intro h; cases h
    · rintro ⟨n, h, h', -⟩
      cases h
      cases h'
  | .element tag attributes children => by
    rw [hasInclude, Bool.or_eq_true, anyInclude_iff children]
    constructor
    · rintro (h | ⟨c, hc, n, hn, h⟩)
      · exact ⟨_, .self _, rfl, by simpa [XmlNode.tag] using h⟩
      · exact ⟨n, .inside _ _ _ c n hc hn, h⟩
    · rintro ⟨n, h, h1, h2⟩
      cases h with
      | self => exact .inl (by simpa [XmlNode.tag] using h2)
      | inside _ _ _ c _ hc h => exact .inr ⟨c, hc, n, h, h1, h2⟩

theorem anyInclude_iff : ∀ nodes : List XmlNode,
    anyInclude nodes = true ↔ ∃ c ∈ nodes, ∃ n, Within c n ∧ n.isElement = true ∧ n.tag = "include"
  | [] => by simp [anyInclude]
  | child :: rest => by
    rw [anyInclude, Bool.or_eq_true, hasInclude_iff child, anyInclude_iff rest]
    simp

end

theorem anyInclude_append (xs ys : List XmlNode) : anyInclude (xs ++ ys) = (anyInclude xs || anyInclude ys) := by
  induction xs with
  | nil => rw [List.nil_append, anyInclude, Bool.false_or]
  | cons x xs ih => rw [List.cons_append, anyInclude, anyInclude, ih, Bool.or_assoc]

/-! ### Bodies in document order -/

mutual

/-- A body and the bodies inside it, in the order their tags open, each with the bodies around it, nearest first. -/
def bodiesOf : XmlNode → List XmlNode → List (XmlNode × List XmlNode)
  | .other, _ => []
  | .element tag attributes children, around =>
    (.element tag attributes children, around) ::
      bodiesIn children (.element tag attributes children :: around)

/-- The same for the `<body>` elements of a list. -/
def bodiesIn : List XmlNode → List XmlNode → List (XmlNode × List XmlNode)
  | [], _ => []
  | child :: rest, around =>
    (if child.isElement && child.tag == "body" then bodiesOf child around else []) ++ bodiesIn rest around

end

/-- The class that geoms and joints of a body fall back on: the `childclass` of the body or of the nearest body around
it that has one. -/
def classFor (place : XmlNode × List XmlNode) : Option String :=
  (place.1 :: place.2).findSome? fun node => node.attr "childclass"

/-- The body's one joint is a free joint. -/
def IsFree (node : XmlNode) : Prop :=
  ∃ only, (node.children.filter fun c => c.isElement && (c.tag == "joint" || c.tag == "freejoint")) = [only] ∧
    (only.tag = "freejoint" ∨ only.tag = "joint" ∧ only.attr "type" = some "free")

section Numbers

variable {T : Type} [Zero T] [One T] [NatCast T] [Add T] [Sub T] [Neg T] [Mul T] [Div T] [LT T] [DecidableLT T]
  [LE T] [DecidableLE T] [BEq T] [Max T] [Fns T] (parse : String → Option T)

/-- What a body element says about itself: its name, its pose, its joint and its inertia. -/
structure Describes (settings : CompilerSettings) (table : DefaultTable T) (place : XmlNode × List XmlNode)
    (b : BodyDescription T) : Prop where
  name : b.name = (place.1.attr "name").getD "body"
  pose : bodyPose parse place.1 = .ok b.pose
  free : IsFree place.1 → place.2 = [] ∧ b.joint = some (floatingDescription b.name)
  joint : ¬IsFree place.1 →
    readJointNodes parse table (classFor place) settings (jointLike place.1) = .ok b.joint
  inertia : ∃ I, b.inertia = some I ∧ inertiaFrom parse settings table (classFor place) place.1 = .ok I

/-- Every body but the outermost hangs from the body directly around it, which comes earlier: the last body before it
that is one level further out. -/
def Placed (offset : ℕ) (parent : Option ℕ) (around : List XmlNode) (places : List (XmlNode × List XmlNode))
    (bodies : List (BodyDescription T)) : Prop :=
  ∀ i place b, places[i]? = some place → bodies[i]? = some b →
    (place.2 = around ∧ b.parent = parent) ∨
    ∃ j < i, ∃ p up, place.2 = p :: up ∧ places[j]? = some (p, up) ∧ b.parent = some (offset + j) ∧
      ∀ k place', j < k → k < i → places[k]? = some place' → up.length < place'.2.length

theorem Placed.append {offset : ℕ} {parent : Option ℕ} {around : List XmlNode}
    {ps qs : List (XmlNode × List XmlNode)} {as bs : List (BodyDescription T)} (hl : ps.length = as.length)
    (h1 : Placed offset parent around ps as) (h2 : Placed (offset + as.length) parent around qs bs) :
    Placed offset parent around (ps ++ qs) (as ++ bs) := by
  intro i place b hp hb
  by_cases hi : i < ps.length
  · rw [List.getElem?_append_left hi] at hp
    rw [List.getElem?_append_left (by omega)] at hb
    rcases h1 i place b hp hb with h | ⟨j, hj, p, up, e1, e2, e3, e4⟩
    · exact .inl h
    · refine .inr ⟨j, hj, p, up, e1, by rw [List.getElem?_append_left (by omega)]; exact e2, e3, ?_⟩
      intro k place' h h' hk
      rw [List.getElem?_append_left (by omega)] at hk
      exact e4 k place' h h' hk
  · rw [List.getElem?_append_right (by omega)] at hp hb
    rw [← hl] at hb
    rcases h2 _ place b hp hb with h | ⟨j, hj, p, up, e1, e2, e3, e4⟩
    · exact .inl h
    · refine .inr ⟨ps.length + j, by omega, p, up, e1, ?_, ?_, ?_⟩
      · rw [List.getElem?_append_right (by omega), Nat.add_sub_cancel_left]; exact e2
      · rw [e3, hl, Nat.add_assoc]
      · intro k place' h h' hk
        rw [List.getElem?_append_right (by omega)] at hk
        exact e4 (k - ps.length) place' (by omega) (by omega) hk

theorem Placed.cons {offset : ℕ} {parent : Option ℕ} {around : List XmlNode} {node : XmlNode}
    {ps : List (XmlNode × List XmlNode)} {b₀ : BodyDescription T} {bs : List (BodyDescription T)}
    (h0 : b₀.parent = parent) (hd : ∀ p ∈ ps, around.length < p.2.length)
    (h : Placed (offset + 1) (some offset) (node :: around) ps bs) :
    Placed offset parent around ((node, around) :: ps) (b₀ :: bs) := by
  intro i place b hp hb
  cases i with
  | zero =>
    simp only [List.getElem?_cons_zero, Option.some.injEq] at hp hb
    subst hp hb
    exact .inl ⟨rfl, h0⟩
  | succ i =>
    rw [List.getElem?_cons_succ] at hp hb
    right
    rcases h i place b hp hb with ⟨e1, e2⟩ | ⟨j, hj, p, up, e1, e2, e3, e4⟩
    · refine ⟨0, by omega, node, around, e1, by simp, by simpa using e2, ?_⟩
      intro k place' hk _ hk'
      cases k with
      | zero => omega
      | succ k =>
        rw [List.getElem?_cons_succ] at hk'
        exact hd _ (List.mem_of_getElem? hk')
    · refine ⟨j + 1, by omega, p, up, e1, by rw [List.getElem?_cons_succ]; exact e2, by rw [e3]; congr 1; omega, ?_⟩
      intro k place' hk hk1 hk'
      cases k with
      | zero => omega
      | succ k =>
        rw [List.getElem?_cons_succ] at hk'
        exact e4 k place' (by omega) (by omega) hk'

mutual

theorem bodiesOf_depth : ∀ (node : XmlNode) (around : List XmlNode), ∀ p ∈ bodiesOf node around,
    around.length ≤ p.2.length
  | .other, _, p, h => by rw [bodiesOf] at h; cases h
  | .element tag attributes children, around, p, h => by
    rw [bodiesOf] at h
    rcases List.mem_cons.1 h with rfl | h
    · exact le_rfl
    · have := bodiesIn_depth children _ p h
      rw [List.length_cons] at this
      omega

theorem bodiesIn_depth : ∀ (nodes around : List XmlNode), ∀ p ∈ bodiesIn nodes around, around.length ≤ p.2.length
  | [], _, p, h => by rw [bodiesIn] at h; cases h
  | child :: rest, around, p, h => by
    rw [bodiesIn] at h
    rcases List.mem_append.1 h with h | h
    · split at h
      · exact bodiesOf_depth child around p h
      · cases h
    · exact bodiesIn_depth rest around p h

end

theorem isFree_iff (node : XmlNode) : carriesFreeJoint node = true ↔ IsFree node := by
  rw [carriesFreeJoint]
  have one : ∀ only : XmlNode, isFreeJoint only = true ↔
      (only.tag = "freejoint" ∨ only.tag = "joint" ∧ only.attr "type" = some "free") := by
    intro only
    rw [isFreeJoint]
    split
    · rename_i h; simp [h]
    · rename_i h; simp [h]
    · rename_i h1 h2
      constructor
      · intro h; cases h
      · rintro (h | ⟨h, -⟩)
        · exact absurd h h1
        · exact absurd h h2
  unfold IsFree
  constructor
  · intro h
    split at h
    · rename_i only ho
      exact ⟨only, ho, (one only).1 h⟩
    · cases h
  · rintro ⟨only, ho, h⟩
    have ho' : jointLike node = [only] := ho
    rw [ho']
    exact (one only).2 h

/-- The joint part of a body is read exactly when it is described. -/
theorem bodyJoint_spec (settings : CompilerSettings) (table : DefaultTable T) (chain : Option String)
    (hasParent : Bool) (node : XmlNode) (joint : Option (JointDescription T)) (floating : Bool) :
    bodyJoint parse settings table chain hasParent node = .ok (joint, floating) ↔
      (IsFree node ∧ hasParent = false ∧ joint = some (floatingDescription ((node.attr "name").getD "body")) ∧
        floating = true) ∨
      (¬IsFree node ∧ readJointNodes parse table chain settings (jointLike node) = .ok joint ∧ floating = false) := by
  rw [bodyJoint]
  by_cases hf : IsFree node
  · rw [if_pos ((isFree_iff node).2 hf)]
    cases hasParent
    · simp only [Bool.false_eq_true, if_false, Except.ok.injEq, Prod.mk.injEq]
      constructor
      · rintro ⟨rfl, rfl⟩; exact .inl ⟨hf, trivial, rfl, rfl⟩
      · rintro (⟨-, -, rfl, rfl⟩ | ⟨h, -⟩)
        · exact ⟨rfl, rfl⟩
        · exact absurd hf h
    · simp only [if_true]
      constructor
      · intro h; cases h
      · rintro (⟨-, h, -⟩ | ⟨h, -⟩)
        · cases h
        · exact absurd hf h
  · rw [if_neg (fun h => hf ((isFree_iff node).1 h)), bind_ok]
    constructor
    · rintro ⟨j, hj, h⟩; cases h; exact .inr ⟨hf, hj, rfl⟩
    · rintro (⟨h, -⟩ | ⟨-, h, rfl⟩)
      · exact absurd h hf
      · exact ⟨_, h, rfl⟩

theorem classFor_step (node : XmlNode) (around : List XmlNode) (chain : Option String)
    (hc : chain = around.findSome? fun n => n.attr "childclass") :
    (node.attr "childclass").or chain = classFor (node, around) := by
  rw [classFor, List.findSome?_cons, hc]
  cases node.attr "childclass" <;> rfl

open Classical in
mutual

theorem walkNode_sound (settings : CompilerSettings) (table : DefaultTable T) :
    ∀ (node : XmlNode) (parent : Option ℕ) (chain : Option String) (around : List XmlNode)
      (bodies bodies' : List (BodyDescription T)) (floating floating' : Bool), node.isElement = true →
      chain = around.findSome? (fun n => n.attr "childclass") → (parent = none ↔ around = []) →
      walkNode parse settings table node parent chain (bodies, floating) = .ok (bodies', floating') →
      ∃ new, bodies' = bodies ++ new ∧ List.Forall₂ (Describes parse settings table) (bodiesOf node around) new ∧
        Placed bodies.length parent around (bodiesOf node around) new ∧
        floating' = (floating || (bodiesOf node around).any fun p => decide (IsFree p.1))
  | .other, _, _, _, _, _, _, _, h, _, _, _ => by cases h
  | .element tag attributes children, parent, chain, around, bodies, bodies', floating, floating', _, hc, hp, h => by
    rw [walkNode, bind_ok] at h
    obtain ⟨pose, hpose, h⟩ := h
    rw [bind_ok] at h
    obtain ⟨⟨joint, fl⟩, hj, h⟩ := h
    rw [bind_ok] at h
    obtain ⟨inertia, hi, h⟩ := h
    simp only at hpose hj hi h
    rw [classFor_step _ around chain hc] at hj hi h
    rw [bodyJoint_spec] at hj
    obtain ⟨new, e, hd, hpl, hfl⟩ := walkNodes_sound settings table children (some bodies.length) _
      (.element tag attributes children :: around) _ _ _ _ (by rw [classFor]) (by simp) h
    refine ⟨_ :: new, by rw [e, List.append_assoc]; rfl, ?_, ?_, ?_⟩
    · rw [bodiesOf]
      refine .cons ⟨rfl, hpose, fun hf => ?_, fun hf => ?_, ⟨inertia, rfl, hi⟩⟩ hd
      · rcases hj with ⟨-, h1, h2, -⟩ | ⟨h1, -⟩
        · refine ⟨hp.1 ?_, h2⟩
          cases parent with
          | none => rfl
          | some _ => cases h1
        · exact absurd hf h1
      · rcases hj with ⟨h1, -⟩ | ⟨-, h2, -⟩
        · exact absurd h1 hf
        · exact h2
    · rw [bodiesOf]
      refine Placed.cons rfl (fun p hp => ?_) ?_
      · have := bodiesIn_depth children _ p hp
        rw [List.length_cons] at this
        omega
      · rw [List.length_append, List.length_singleton] at hpl
        exact hpl
    · rw [hfl, bodiesOf, List.any_cons]
      have : fl = decide (IsFree (XmlNode.element tag attributes children)) := by
        rcases hj with ⟨h1, -, -, h2⟩ | ⟨h1, -, h2⟩
        · rw [h2, decide_eq_true h1]
        · rw [h2, decide_eq_false h1]
      rw [this, Bool.or_assoc]

theorem walkNodes_sound (settings : CompilerSettings) (table : DefaultTable T) :
    ∀ (nodes : List XmlNode) (parent : Option ℕ) (chain : Option String) (around : List XmlNode)
      (bodies bodies' : List (BodyDescription T)) (floating floating' : Bool),
      chain = around.findSome? (fun n => n.attr "childclass") → (parent = none ↔ around = []) →
      walkNodes parse settings table nodes parent chain (bodies, floating) = .ok (bodies', floating') →
      ∃ new, bodies' = bodies ++ new ∧ List.Forall₂ (Describes parse settings table) (bodiesIn nodes around) new ∧
        Placed bodies.length parent around (bodiesIn nodes around) new ∧
        floating' = (floating || (bodiesIn nodes around).any fun p => decide (IsFree p.1))
  | [], _, _, _, _, _, _, _, _, _, h => by
    rw [walkNodes] at h
    cases h
    refine ⟨[], by simp, by rw [bodiesIn]; exact .nil, ?_, by rw [bodiesIn]; simp⟩
    intro i place b h
    rw [bodiesIn] at h
    simp at h
  | child :: rest, parent, chain, around, bodies, bodies', floating, floating', hc, hp, h => by
    rw [walkNodes] at h
    rw [bodiesIn]
    by_cases hb : (child.isElement && child.tag == "body") = true
    · rw [if_pos hb, bind_ok] at h
      obtain ⟨⟨mid, fmid⟩, h1, h2⟩ := h
      obtain ⟨a, ea, da, pa, fa⟩ := walkNode_sound settings table child parent chain around bodies mid floating fmid
        (by rw [Bool.and_eq_true] at hb; exact hb.1) hc hp h1
      obtain ⟨b, eb, db, pb, fb⟩ := walkNodes_sound settings table rest parent chain around mid bodies' fmid floating'
        hc hp h2
      rw [if_pos hb]
      refine ⟨a ++ b, by rw [eb, ea, List.append_assoc], List.rel_append da db, ?_, ?_⟩
      · refine Placed.append da.length_eq pa ?_
        rw [ea, List.length_append] at pb
        exact pb
      · rw [fb, fa, List.any_append, Bool.or_assoc]
    · rw [if_neg hb] at h ⊢
      rw [List.nil_append]
      exact walkNodes_sound settings table rest parent chain around bodies bodies' floating floating' hc hp h

end

mutual

theorem walkNode_complete (settings : CompilerSettings) (table : DefaultTable T) :
    ∀ (node : XmlNode) (parent : Option ℕ) (chain : Option String) (around : List XmlNode)
      (state : List (BodyDescription T) × Bool), node.isElement = true →
      chain = around.findSome? (fun n => n.attr "childclass") → (parent = none ↔ around = []) →
      (∀ p ∈ bodiesOf node around, ∃ b, Describes parse settings table p b) →
      ∃ state', walkNode parse settings table node parent chain state = .ok state'
  | .other, _, _, _, _, h, _, _, _ => by cases h
  | .element tag attributes children, parent, chain, around, state, _, hc, hp, hall => by
    rw [bodiesOf] at hall
    obtain ⟨b, hb⟩ := hall _ (List.mem_cons_self ..)
    obtain ⟨I, -, hI⟩ := hb.inertia
    have hj : ∃ j, bodyJoint parse settings table (classFor (XmlNode.element tag attributes children, around))
        parent.isSome (XmlNode.element tag attributes children) = .ok j := by
      by_cases hf : IsFree (XmlNode.element tag attributes children)
      · have := (hb.free hf).1
        have hn := hp.2 this
        exact ⟨(_, _), (bodyJoint_spec ..).2 (.inl ⟨hf, by rw [hn]; rfl, rfl, rfl⟩)⟩
      · exact ⟨(_, _), (bodyJoint_spec ..).2 (.inr ⟨hf, hb.joint hf, rfl⟩)⟩
    obtain ⟨j, hj⟩ := hj
    obtain ⟨state', hs⟩ := walkNodes_complete settings table children (some state.1.length)
      (classFor (XmlNode.element tag attributes children, around)) (.element tag attributes children :: around)
      (state.1 ++ [⟨((XmlNode.element tag attributes children).attr "name").getD "body", parent, b.pose, some I, j.1⟩],
        state.2 || j.2) (by rw [classFor]) (by simp) (fun p hp => hall p (List.mem_cons_of_mem _ hp))
    refine ⟨state', ?_⟩
    rw [walkNode, bind_ok]
    refine ⟨b.pose, hb.pose, ?_⟩
    simp only
    rw [classFor_step _ around chain hc, bind_ok]
    refine ⟨j, hj, ?_⟩
    rw [bind_ok]
    exact ⟨I, hI, hs⟩

theorem walkNodes_complete (settings : CompilerSettings) (table : DefaultTable T) :
    ∀ (nodes : List XmlNode) (parent : Option ℕ) (chain : Option String) (around : List XmlNode)
      (state : List (BodyDescription T) × Bool),
      chain = around.findSome? (fun n => n.attr "childclass") → (parent = none ↔ around = []) →
      (∀ p ∈ bodiesIn nodes around, ∃ b, Describes parse settings table p b) →
      ∃ state', walkNodes parse settings table nodes parent chain state = .ok state'
  | [], _, _, _, state, _, _, _ => ⟨state, by rw [walkNodes]⟩
  | child :: rest, parent, chain, around, state, hc, hp, hall => by
    rw [bodiesIn] at hall
    by_cases hb : (child.isElement && child.tag == "body") = true
    · rw [if_pos hb] at hall
      obtain ⟨s1, h1⟩ := walkNode_complete settings table child parent chain around state
        (by rw [Bool.and_eq_true] at hb; exact hb.1) hc hp (fun p h => hall p (List.mem_append_left _ h))
      obtain ⟨s2, h2⟩ := walkNodes_complete settings table rest parent chain around s1 hc hp
        (fun p h => hall p (List.mem_append_right _ h))
      exact ⟨s2, by rw [walkNodes, if_pos hb, bind_ok]; exact ⟨s1, h1, h2⟩⟩
    · rw [if_neg hb, List.nil_append] at hall
      obtain ⟨s2, h2⟩ := walkNodes_complete settings table rest parent chain around state hc hp hall
      exact ⟨s2, by rw [walkNodes, if_neg hb]; exact h2⟩

end

/-! ### Whole documents -/

/-- C119. Loading a document: nothing in it may be an `<include>`; the compiler settings and the default blocks must be
readable, there must be a `<worldbody>` and in it a body, and every body must be readable.  Then the model has one
body for each body element, in the order their tags open; each has what its element describes and hangs from the body
around it; the base floats exactly if some body's one joint is a free joint; and the elements listed as ignored are,
once each and in order, the top-level ones of another name than `compiler`, `default` and `worldbody`. -/
theorem mjcf_load (root : XmlNode) :
    (∀ m, load parse root = .ok m → (∀ n, Within root n → n.isElement = true → n.tag ≠ "include") ∧
      ∃ settings table worldbody, compilerSettings root = .ok settings ∧ defaultTable parse root = .ok table ∧
        root.child "worldbody" = some worldbody ∧
        List.Forall₂ (Describes parse settings table) (bodiesIn (topLevelBodies worldbody) []) m.bodies ∧
        Placed 0 none [] (bodiesIn (topLevelBodies worldbody) []) m.bodies ∧ m.bodies ≠ [] ∧
        (m.floatingBase = true ↔ ∃ p ∈ bodiesIn (topLevelBodies worldbody) [], IsFree p.1) ∧
        m.name = (root.attr "model").getD "model" ∧ m.ignored.Pairwise (· < ·) ∧
        ∀ s, s ∈ m.ignored ↔ (∃ c ∈ root.children, c.isElement = true ∧ c.tag = s) ∧
          s ≠ "compiler" ∧ s ≠ "default" ∧ s ≠ "worldbody") ∧
    ((∃ m, load parse root = .ok m) ↔ (∀ n, Within root n → n.isElement = true → n.tag ≠ "include") ∧
      ∃ settings table worldbody, compilerSettings root = .ok settings ∧ defaultTable parse root = .ok table ∧
        root.child "worldbody" = some worldbody ∧ bodiesIn (topLevelBodies worldbody) [] ≠ [] ∧
        ∀ p ∈ bodiesIn (topLevelBodies worldbody) [], ∃ b, Describes parse settings table p b) := by
  classical
  have hinc : hasInclude root = false ↔ ∀ n, Within root n → n.isElement = true → n.tag ≠ "include" := by
    rw [← Bool.not_eq_true, hasInclude_iff]
    push Not
    rfl
  have sound : ∀ m, load parse root = .ok m → (∀ n, Within root n → n.isElement = true → n.tag ≠ "include") ∧
      ∃ settings table worldbody, compilerSettings root = .ok settings ∧ defaultTable parse root = .ok table ∧
        root.child "worldbody" = some worldbody ∧
        List.Forall₂ (Describes parse settings table) (bodiesIn (topLevelBodies worldbody) []) m.bodies ∧
        Placed 0 none [] (bodiesIn (topLevelBodies worldbody) []) m.bodies ∧ m.bodies ≠ [] ∧
        (m.floatingBase = true ↔ ∃ p ∈ bodiesIn (topLevelBodies worldbody) [], IsFree p.1) ∧
        m.name = (root.attr "model").getD "model" ∧ m.ignored.Pairwise (· < ·) ∧
        ∀ s, s ∈ m.ignored ↔ (∃ c ∈ root.children, c.isElement = true ∧ c.tag = s) ∧
          s ≠ "compiler" ∧ s ≠ "default" ∧ s ≠ "worldbody" := by
    intro m h
    rw [load] at h
    by_cases hi : hasInclude root = true
    · rw [if_pos hi] at h; cases h
    rw [if_neg hi, readRoot, bind_ok] at h
    obtain ⟨settings, h1, h⟩ := h
    rw [bind_ok] at h
    obtain ⟨table, h2, h⟩ := h
    rw [ofXml_ok] at h1 h2
    cases hw : root.child "worldbody" with
    | none => rw [hw] at h; cases h
    | some worldbody =>
      rw [hw] at h
      simp only at h
      rw [bind_ok] at h
      obtain ⟨⟨bodies, floating⟩, h3, h⟩ := h
      simp only at h
      by_cases hb : bodies.isEmpty = true
      · rw [if_pos hb] at h; cases h
      rw [if_neg hb] at h
      cases h
      obtain ⟨new, e, hd, hpl, hf⟩ := walkNodes_sound parse settings table _ none none [] [] bodies false floating rfl
        (by simp) h3
      rw [List.nil_append] at e
      subst e
      refine ⟨hinc.1 (by simpa using hi), settings, table, worldbody, h1, h2, rfl, hd, hpl, by simpa using hb, ?_, rfl, ?_⟩
      · show floating = true ↔ _
        rw [hf]
        simp
      · have hs := Urdf.sortNames_spec (((root.children.filter fun n => n.isElement).map fun n => n.tag).filter
          fun name => !((["compiler", "default", "worldbody"] : List String).contains name))
        have hdd := Urdf.dedup_spec _ hs.2
        refine ⟨hdd.1, fun s => ?_⟩
        show s ∈ Urdf.ignoredSections root ["compiler", "default", "worldbody"] ↔ _
        rw [Urdf.ignoredSections, hdd.2, hs.1.mem_iff]
        simp only [List.mem_filter, List.mem_map, List.contains_eq_mem, List.mem_cons, List.not_mem_nil, or_false,
          Bool.not_eq_true', decide_eq_false_iff_not, not_or]
        constructor
        · rintro ⟨⟨c, ⟨h1, h2⟩, h3⟩, h4⟩
          exact ⟨⟨c, h1, h2, h3⟩, h4⟩
        · rintro ⟨⟨c, h1, h2, h3⟩, h4⟩
          exact ⟨⟨c, ⟨h1, h2⟩, h3⟩, h4⟩
  refine ⟨sound, ?_, ?_⟩
  · rintro ⟨m, hm⟩
    obtain ⟨h0, settings, table, worldbody, h1, h2, h3, hd, -, hne, -⟩ := sound m hm
    refine ⟨h0, settings, table, worldbody, h1, h2, h3, ?_, ?_⟩
    · intro hn
      rw [hn] at hd
      cases hd' : m.bodies with
      | nil => exact hne hd'
      | cons b bs => rw [hd'] at hd; cases hd
    · intro p hp
      obtain ⟨i, hi, rfl⟩ := List.getElem_of_mem hp
      exact ⟨_, hd.get hi (by rw [← hd.length_eq]; exact hi)⟩
  · rintro ⟨h0, settings, table, worldbody, h1, h2, h3, hne, hall⟩
    obtain ⟨⟨bodies, floating⟩, hs⟩ := walkNodes_complete parse settings table (topLevelBodies worldbody) none none []
      ([], false) rfl (by simp) hall
    obtain ⟨new, e, hd, -⟩ := walkNodes_sound parse settings table _ none none [] [] bodies false floating rfl
      (by simp) hs
    rw [List.nil_append] at e
    subst e
    refine ⟨⟨(root.attr "model").getD "model", bodies, floating,
      Urdf.ignoredSections root ["compiler", "default", "worldbody"]⟩, ?_⟩
    rw [load, if_neg (by simpa using hinc.2 h0), readRoot, bind_ok]
    refine ⟨settings, ofXml_ok.2 h1, ?_⟩
    rw [bind_ok]
    refine ⟨table, ofXml_ok.2 h2, ?_⟩
    rw [h3]
    simp only
    rw [bind_ok]
    refine ⟨_, hs, ?_⟩
    simp only
    rw [if_neg]
    rw [List.isEmpty_iff]
    rintro rfl
    cases hb : bodiesIn (topLevelBodies worldbody) [] with
    | nil => exact hne hb
    | cons p ps => rw [hb] at hd; cases hd

/-! ### What the parts of a body mean -/

/-- C119. A body stands where its `pos` says, turned by its `quat` made unit length; the defaults are the origin and no
turn; a quaternion that cannot be made unit length and any other way of stating an orientation are refused. -/
theorem mjcf_pose (node : XmlNode) (p : SE3 T) :
    bodyPose parse node = .ok p ↔ orientationAttribute node = none ∧ ∃ pos quat q,
      GivesOr parse node "pos" (fun _ : Fin 3 => 0) pos ∧ GivesOr parse node "quat" ![1, 0, 0, 0] quat ∧
      (⟨quat 0, quat 1, quat 2, quat 3⟩ : Quat T).tryNormalized = some q ∧ p = ⟨SO3.fromQuaternion q, pos⟩ := by
  have unit : ∀ v : Fin 4 → T, ∀ q, unitQuaternion v = .ok q ↔
      (⟨v 0, v 1, v 2, v 3⟩ : Quat T).tryNormalized = some q := by
    intro v q
    rw [unitQuaternion]
    cases (⟨v 0, v 1, v 2, v 3⟩ : Quat T).tryNormalized <;> simp
  have orr : ∀ {n : ℕ} (name : String) (d v : Fin n → T), GivesOr parse node name d v ↔
      ∃ o, Stated parse node name o ∧ v = o.getD d := by
    intro n name d v
    constructor
    · rintro (h | ⟨h, rfl⟩)
      · exact ⟨some v, .inr ⟨v, h, rfl⟩, rfl⟩
      · exact ⟨none, .inl ⟨h, rfl⟩, rfl⟩
    · rintro ⟨o, ⟨h, rfl⟩ | ⟨w, h, rfl⟩, rfl⟩
      · exact .inr ⟨h, rfl⟩
      · exact .inl h
  rw [bodyPose]
  cases ho : orientationAttribute node with
  | some name => simp
  | none =>
    simp only [bind_ok, ofXml_ok, ofGeom_ok, fixed_stated, unit, orr, true_and]
    constructor
    · rintro ⟨a, ha, b, hb, q, hq, h⟩
      cases h
      exact ⟨_, _, q, ⟨a, ha, rfl⟩, ⟨b, hb, rfl⟩, hq, rfl⟩
    · rintro ⟨_, _, q, ⟨a, ha, rfl⟩, ⟨b, hb, rfl⟩, hq, rfl⟩
      exact ⟨a, ha, b, hb, q, hq, rfl⟩

theorem effectiveJoint_own (table : DefaultTable T) (chain cls : Option String) (own : JointDefaults T)
    (r : JointDefaults T) (h : effectiveJoint table chain cls own = .ok r) (own' : JointDefaults T) :
    ∃ r', effectiveJoint table chain cls own' = .ok r' := by
  rw [effectiveJoint, bind_ok] at h
  obtain ⟨a, ha, h⟩ := h
  rw [bind_ok] at h
  obtain ⟨b, hb, -⟩ := h
  refine ⟨b.overriddenBy own', ?_⟩
  rw [effectiveJoint, bind_ok]
  refine ⟨a, ha, ?_⟩
  rw [bind_ok]
  exact ⟨b, hb, rfl⟩

theorem effectiveGeom_own (table : DefaultTable T) (chain cls : Option String) (own : GeomDefaults T)
    (r : GeomDefaults T) (h : effectiveGeom table chain cls own = .ok r) (own' : GeomDefaults T) :
    ∃ r', effectiveGeom table chain cls own' = .ok r' := by
  rw [effectiveGeom, bind_ok] at h
  obtain ⟨a, ha, h⟩ := h
  rw [bind_ok] at h
  obtain ⟨b, hb, -⟩ := h
  refine ⟨b.overriddenBy own', ?_⟩
  rw [effectiveGeom, bind_ok]
  refine ⟨a, ha, ?_⟩
  rw [bind_ok]
  exact ⟨b, hb, rfl⟩

/-- C119. A body without joint elements gets none, one with several is refused, and one with a single element gets the
joint that element's name, class and attributes stand for under the settings in effect. -/
theorem mjcf_joint_element (table : DefaultTable T) (chain : Option String) (settings : CompilerSettings)
    (nodes : List XmlNode) (d : Option (JointDescription T)) :
    readJointNodes parse table chain settings nodes = .ok d ↔
      (nodes = [] ∧ d = none) ∨ ∃ node own, nodes = [node] ∧ jointDefaults parse node = .ok own ∧
        readJoint table chain settings [⟨node.attr "name", node.attr "class", own⟩] = .ok d := by
  rcases nodes with _ | ⟨node, _ | ⟨node', rest⟩⟩
  · rw [readJointNodes]
    constructor
    · intro h; cases h; exact .inl ⟨rfl, rfl⟩
    · rintro (⟨-, rfl⟩ | ⟨_, _, h, -⟩)
      · rfl
      · cases h
  · rw [readJointNodes, bind_ok]
    constructor
    · rintro ⟨_, -, h⟩
      rw [bind_ok] at h
      obtain ⟨own, h1, h2⟩ := h
      exact .inr ⟨node, own, rfl, ofXml_ok.1 h1, ofGeom_ok.1 h2⟩
    · rintro (⟨h, -⟩ | ⟨_, own, h, h1, h2⟩)
      · cases h
      · cases h
        have h3 := h2
        rw [readJoint, bind_ok] at h3
        obtain ⟨r, hr, -⟩ := h3
        obtain ⟨r', hr'⟩ := effectiveJoint_own table chain _ own r hr {}
        refine ⟨r', ofGeom_ok.2 hr', ?_⟩
        rw [bind_ok]
        exact ⟨own, ofXml_ok.2 h1, ofGeom_ok.2 h2⟩
  · rw [readJointNodes]
    · constructor
      · intro h; cases h
      · rintro (⟨h, -⟩ | ⟨_, _, h, -⟩) <;> cases h
    all_goals simp

/-- The element is this geom. -/
def IsGeom (node : XmlNode) (g : GeomElement T) : Prop :=
  g.orientation = orientationAttribute node ∧ g.className = node.attr "class" ∧ geomDefaults parse node = .ok g.own

theorem readGeomNode_ok (table : DefaultTable T) (chain : Option String) (node : XmlNode) (s : Option (GeomMass T)) :
    readGeomNode parse table chain node = .ok s ↔ ∃ g, IsGeom parse node g ∧ readGeom table chain g = .ok s := by
  rw [readGeomNode]
  cases ho : orientationAttribute node with
  | some name =>
    constructor
    · intro h; cases h
    · rintro ⟨g, ⟨h, -⟩, h'⟩
      rw [readGeom, h, ho] at h'
      cases h'
  | none =>
    simp only
    rw [bind_ok]
    constructor
    · rintro ⟨_, -, h⟩
      rw [bind_ok] at h
      obtain ⟨own, h1, h2⟩ := h
      exact ⟨_, ⟨ho.symm, rfl, ofXml_ok.1 h1⟩, ofGeom_ok.1 h2⟩
    · rintro ⟨⟨o, c, own⟩, ⟨h, h', h''⟩, h2⟩
      simp only at h h' h''
      subst h'
      rw [ho] at h
      subst h
      have h3 := h2
      rw [readGeom] at h3
      simp only at h3
      rw [bind_ok] at h3
      obtain ⟨r, hr, -⟩ := h3
      obtain ⟨r', hr'⟩ := effectiveGeom_own table chain _ own r hr {}
      refine ⟨r', ofGeom_ok.2 hr', ?_⟩
      rw [bind_ok]
      exact ⟨own, ofXml_ok.2 h'', ofGeom_ok.2 h2⟩

theorem readGeoms_ok (table : DefaultTable T) (chain : Option String) (nodes : List XmlNode)
    (shapes : List (GeomMass T)) :
    (∃ ss, nodes.mapM (readGeomNode parse table chain) = .ok ss ∧ shapes = ss.flatMap fun s => s.toList) ↔
      ∃ gs, List.Forall₂ (IsGeom parse) nodes gs ∧ readGeoms table chain gs = .ok shapes := by
  induction nodes generalizing shapes with
  | nil =>
    constructor
    · rintro ⟨ss, h, rfl⟩
      cases h
      exact ⟨[], .nil, rfl⟩
    · rintro ⟨gs, h, h'⟩
      cases h
      cases h'
      exact ⟨[], rfl, rfl⟩
  | cons node rest ih =>
    simp only [List.mapM_cons, bind_ok]
    constructor
    · rintro ⟨ss, ⟨s, hs, ss', hss, h⟩, rfl⟩
      cases h
      obtain ⟨g, hg, hr⟩ := (readGeomNode_ok parse table chain node s).1 hs
      obtain ⟨gs, hgs, hrs⟩ := (ih _).1 ⟨ss', hss, rfl⟩
      refine ⟨g :: gs, .cons hg hgs, ?_⟩
      rw [readGeoms, bind_ok]
      refine ⟨s, hr, ?_⟩
      rw [bind_ok]
      exact ⟨_, hrs, by rw [List.flatMap_cons]⟩
    · rintro ⟨gs, h, h'⟩
      cases h with
      | cons hg hgs =>
        rw [readGeoms, bind_ok] at h'
        obtain ⟨s, hr, h'⟩ := h'
        rw [bind_ok] at h'
        obtain ⟨shapes', hrs, h'⟩ := h'
        cases h'
        obtain ⟨ss', hss, rfl⟩ := (ih _).2 ⟨_, hgs, hrs⟩
        exact ⟨s :: ss', ⟨s, (readGeomNode_ok parse table chain node s).2 ⟨_, hg, hr⟩, ss', hss, rfl⟩, by
          rw [List.flatMap_cons]⟩

/-- The element is this `<inertial>`: its mass is stated, and its `quat` counts only beside a `diaginertia`. -/
def IsInertial (node : XmlNode) (i : InertialElement T) : Prop :=
  i.orientation = orientationAttribute node ∧ Stated parse node "pos" i.pos ∧
  (∃ m, GivesOne parse node "mass" m ∧ i.mass = some m) ∧ Stated parse node "diaginertia" i.diagonal ∧
  Stated parse node "fullinertia" i.full ∧
  (i.diagonal.isSome = true ∧ i.full = none → Stated parse node "quat" i.quat) ∧
  (¬(i.diagonal.isSome = true ∧ i.full = none) → i.quat = none)

theorem required_iff (node : XmlNode) (name : String) (x : T) :
    Urdf.required parse node name = .ok x ↔ GivesOne parse node name x := by
  constructor
  · exact Urdf.required_ok parse
  · intro h
    rw [Urdf.required, bind_ok]
    exact ⟨some x, (scalar_stated parse).2 (.inr ⟨x, h, rfl⟩), rfl⟩

theorem inertialAttributes_ok (node : XmlNode) (ho : orientationAttribute node = none) (i : InertialElement T) :
    inertialAttributes parse node = .ok i ↔ IsInertial parse node i := by
  simp only [inertialAttributes, bind_ok, fixed_stated, required_iff]
  constructor
  · rintro ⟨pos, h1, mass, h2, diag, h3, full, h4, quat, h5, h⟩
    cases h
    refine ⟨ho.symm, h1, ⟨mass, h2, rfl⟩, h3, h4, fun h => ?_, fun h => ?_⟩
    · obtain ⟨ha, hb⟩ := h
      simp only at ha hb
      rw [if_pos (by simp [ha, hb]), fixed_stated] at h5
      exact h5
    · rw [if_neg (by simpa using h)] at h5
      cases h5
      rfl
  · rintro ⟨h0, h1, ⟨m, h2, h2'⟩, h3, h4, h5, h6⟩
    refine ⟨_, h1, m, h2, _, h3, _, h4, i.quat, ?_, ?_⟩
    · by_cases h : i.diagonal.isSome = true ∧ i.full = none
      · rw [if_pos (by simp [h.1, h.2]), fixed_stated]
        exact h5 h
      · rw [if_neg (by simpa using h), h6 h]
    · rw [← h2', ← ho, ← h0]

/-- C119. A body's inertia is that of its first `<inertial>` and its own `<geom>` elements, as the compiler settings
choose between them. -/
theorem mjcf_inertia_elements (settings : CompilerSettings) (table : DefaultTable T) (chain : Option String)
    (node : XmlNode) (B : SpatialInertia T) :
    inertiaFrom parse settings table chain node = .ok B ↔
      (settings.inertiaFromGeom ≠ .always ∧ ∃ inertial i, node.child "inertial" = some inertial ∧
        IsInertial parse inertial i ∧ i.orientation = none ∧ statedInertia i = .ok B) ∨
      (settings.inertiaFromGeom = .always ∨ settings.inertiaFromGeom = .auto ∧ node.child "inertial" = none) ∧
        ∃ geoms, List.Forall₂ (IsGeom parse) (node.elements "geom") geoms ∧
          synthesizedInertia table chain geoms = .ok B := by
  have hst : ∀ inertial : XmlNode, statedFrom parse inertial = .ok B ↔
      ∃ i, IsInertial parse inertial i ∧ i.orientation = none ∧ statedInertia i = .ok B := by
    intro inertial
    rw [statedFrom]
    cases ho : orientationAttribute inertial with
    | some name =>
      constructor
      · intro h; cases h
      · rintro ⟨i, ⟨h, -⟩, h', -⟩
        rw [h', ho] at h
        cases h
    | none =>
      simp only [bind_ok, ofXml_ok, ofGeom_ok, inertialAttributes_ok parse inertial ho]
      constructor
      · rintro ⟨i, hi, h⟩
        exact ⟨i, hi, hi.1.trans ho, h⟩
      · rintro ⟨i, hi, -, h⟩
        exact ⟨i, hi, h⟩
  have hsy : synthesizedFrom parse table chain node = .ok B ↔
      ∃ geoms, List.Forall₂ (IsGeom parse) (node.elements "geom") geoms ∧
        synthesizedInertia table chain geoms = .ok B := by
    rw [synthesizedFrom, bind_ok]
    constructor
    · rintro ⟨ss, h, h'⟩
      obtain ⟨gs, hgs, hr⟩ := (readGeoms_ok parse table chain _ _).1 ⟨ss, h, rfl⟩
      refine ⟨gs, hgs, ?_⟩
      rw [synthesizedInertia, bind_ok]
      exact ⟨_, hr, ofGeom_ok.1 h'⟩
    · rintro ⟨gs, hgs, h⟩
      rw [synthesizedInertia, bind_ok] at h
      obtain ⟨shapes, hr, h⟩ := h
      obtain ⟨ss, hss, rfl⟩ := (readGeoms_ok parse table chain _ _).2 ⟨gs, hgs, hr⟩
      exact ⟨ss, hss, ofGeom_ok.2 h⟩
  cases hs : settings.inertiaFromGeom <;> cases hc : node.child "inertial" <;>
    simp [inertiaFrom, hs, hc, hst, hsy]

/-! ### Several worldbodies -/


theorem walkDefaultNodes_filter (nodes : List XmlNode) (inherited : ClassDefaults T) (table : DefaultTable T) :
    walkDefaultNodes parse nodes inherited table = walkDefaultNodes parse (defaultsIn nodes) inherited table := by
  induction nodes generalizing table with
  | nil => rfl
  | cons child rest ih =>
    rw [walkDefaultNodes]
    by_cases hc : (child.isElement && child.tag == "default") = true
    · rw [if_pos hc, defaultsIn, List.filter_cons_of_pos (by simpa using hc), walkDefaultNodes, if_pos hc]
      congr 1
      funext t
      exact ih t
    · rw [if_neg hc, defaultsIn, List.filter_cons_of_neg (by simpa using hc)]
      exact ih table

/-- What a document loads as depends only on this. -/
theorem load_congr (root root' : XmlNode) (hi : hasInclude root = hasInclude root')
    (ha : ∀ name, root.attr name = root'.attr name)
    (hc : root.elements "compiler" = root'.elements "compiler")
    (hd : root.elements "default" = root'.elements "default")
    (hw : (root.child "worldbody").map topLevelBodies = (root'.child "worldbody").map topLevelBodies)
    (hs : Urdf.ignoredSections root ["compiler", "default", "worldbody"] =
      Urdf.ignoredSections root' ["compiler", "default", "worldbody"]) :
    load parse root = load parse root' := by
  have e1 : compilerSettings root = compilerSettings root' := by
    rw [compilerSettings, compilerSettings, XmlNode.child, XmlNode.child, hc]
  have e2 : defaultTable parse root = defaultTable parse root' := by
    rw [defaultTable, defaultTable, walkDefaultNodes_filter, walkDefaultNodes_filter parse root'.children]
    exact congrArg (fun l => walkDefaultNodes parse l {} {}) hd
  rw [load, load, hi, readRoot, readRoot, e1, e2, hs, ha]
  cases h : root.child "worldbody" <;> cases h' : root'.child "worldbody" <;> rw [h, h'] at hw
  · cases hw
  · cases hw
  · simp only [Option.map_some, Option.some.injEq] at hw
    simp only
    rw [hw]

/-- C119. An included file gives what its text would: when its bodies arrive in a `<worldbody>` of their own inside the
including one, the document loads as if they were written there directly. -/
theorem mjcf_include_inside (tag : String) (attributes a a' : List (String × String))
    (before after xs ys zs : List XmlNode) :
    load parse (.element tag attributes
      (before ++ .element "worldbody" a (xs ++ .element "worldbody" a' ys :: zs) :: after)) =
    load parse (.element tag attributes (before ++ .element "worldbody" a (xs ++ ys ++ zs) :: after)) := by
  apply load_congr
  · simp only [hasInclude, anyInclude_append, anyInclude]
    simp [Bool.or_assoc]
  · intro name; rfl
  · simp [XmlNode.elements, XmlNode.children, XmlNode.tag, List.filter_cons]
  · simp [XmlNode.elements, XmlNode.children, XmlNode.tag, List.filter_cons]
  · rw [XmlNode.child, XmlNode.child, XmlNode.elements, XmlNode.elements]
    show Option.map _ (List.filter _ (before ++ _ :: after)).head? =
      Option.map _ (List.filter _ (before ++ _ :: after)).head?
    rw [List.filter_append, List.filter_append, List.filter_cons_of_pos (by rfl), List.filter_cons_of_pos (by rfl),
      List.head?_append, List.head?_append]
    generalize (List.filter (fun child : XmlNode => child.isElement && child.tag == "worldbody") before).head? = o
    cases o with
    | none => exact congrArg some (mjcf_top_level "worldbody" a a' xs ys zs).1
    | some w => rfl
  · simp [Urdf.ignoredSections, XmlNode.children, XmlNode.isElement, XmlNode.tag, List.filter_cons]

/-- C119 (finding). A second `<worldbody>` beside the first, which is what a file included next to the including file's
own `<worldbody>` becomes, is dropped with everything in it: the document loads exactly as if it were not there, and
the list of ignored elements is the same as well.  The same holds for a second `<compiler>`. -/
theorem mjcf_second_worldbody_partial (tag : String) (attributes a a' : List (String × String))
    (before between after xs ys : List XmlNode) (name : String) (hname : name = "worldbody" ∨ name = "compiler")
    (hy : anyInclude ys = false) :
    load parse (.element tag attributes
      (before ++ .element name a xs :: (between ++ .element name a' ys :: after))) =
    load parse (.element tag attributes (before ++ .element name a xs :: (between ++ after))) := by
  have hn : name ≠ "include" ∧ name ≠ "default" := by rcases hname with rfl | rfl <;> decide
  have hh : ∀ t, ((XmlNode.element tag attributes
      (before ++ .element name a xs :: (between ++ .element name a' ys :: after))).elements t).head? =
      ((XmlNode.element tag attributes (before ++ .element name a xs :: (between ++ after))).elements t).head? := by
    intro t
    simp only [XmlNode.elements, XmlNode.children, List.filter_append, List.head?_append, List.filter_cons,
      XmlNode.isElement, XmlNode.tag, Bool.true_and]
    by_cases ht : name = t
    · simp [ht]
    · simp [ht]
  have hc : ∀ t, (XmlNode.element tag attributes
      (before ++ .element name a xs :: (between ++ .element name a' ys :: after))).child t =
      (XmlNode.element tag attributes (before ++ .element name a xs :: (between ++ after))).child t := hh
  have e1 : compilerSettings (.element tag attributes
      (before ++ .element name a xs :: (between ++ .element name a' ys :: after))) =
      compilerSettings (.element tag attributes (before ++ .element name a xs :: (between ++ after))) := by
    rw [compilerSettings, compilerSettings, hc]
  have e2 : defaultTable parse (.element tag attributes
      (before ++ .element name a xs :: (between ++ .element name a' ys :: after))) =
      defaultTable parse (.element tag attributes (before ++ .element name a xs :: (between ++ after))) := by
    rw [defaultTable, defaultTable, walkDefaultNodes_filter, walkDefaultNodes_filter parse (XmlNode.children _)]
    congr 1
    simp [defaultsIn, XmlNode.children, List.filter_cons, XmlNode.tag, hn.2]
  have e3 : Urdf.ignoredSections (.element tag attributes
      (before ++ .element name a xs :: (between ++ .element name a' ys :: after))) ["compiler", "default", "worldbody"] =
      Urdf.ignoredSections (.element tag attributes (before ++ .element name a xs :: (between ++ after)))
        ["compiler", "default", "worldbody"] := by
    rcases hname with rfl | rfl <;>
      simp [Urdf.ignoredSections, XmlNode.children, XmlNode.isElement, XmlNode.tag, List.filter_cons]
  have e4 : hasInclude (.element tag attributes
      (before ++ .element name a xs :: (between ++ .element name a' ys :: after))) =
      hasInclude (.element tag attributes (before ++ .element name a xs :: (between ++ after))) := by
    have hn' : (name == "include") = false := beq_eq_false_iff_ne.2 hn.1
    simp only [hasInclude, anyInclude_append, anyInclude, hy, hn', Bool.false_or]
  rw [load, load, e4, readRoot, readRoot, e1, e2, e3, hc]
  rfl

end Numbers

/-! ### Examples -/

/-- A body of one kilogram. -/
def lump (name : String) (inside : List XmlNode) : XmlNode :=
  .element "body" [("name", name), ("pos", "0 0 2")]
    (.element "inertial" [("mass", "1"), ("diaginertia", "1 2 2")] [] :: inside)

theorem lump_described (name : String) (inside around : List XmlNode)
    (hj : (inside.filter fun c => c.isElement && (c.tag == "joint" || c.tag == "freejoint")) = []) :
    ∃ b, Describes (Urdf.fewNumbers (T := ℝ)) ⟨true, true, .auto⟩ {} (lump name inside, around) b := by
  have hpose : ∃ p, bodyPose (Urdf.fewNumbers (T := ℝ)) (lump name inside) = .ok p := by
    refine ⟨_, (mjcf_pose _ _ _).2 ⟨rfl, ![0, 0, 2], ![1, 0, 0, 0], ⟨1, 0, 0, 0⟩, .inl ?_, .inr ⟨rfl, rfl⟩, ?_, rfl⟩⟩
    · rw [← (Urdf.urdf_numbers _ _ _ _).2.1]
      refine congrArg (fun v => Except.ok (some v)) (?_ : (fun i : Fin 3 => [(0 : ℝ), 0, ((2 : ℕ) : ℝ)][i]) = _)
      funext i
      fin_cases i <;> simp
    · show (⟨1, 0, 0, 0⟩ : Quat ℝ).tryNormalized = _
      exact tryNormalized_unit _ (by norm_num [Quat.IsUnit])
  have hi : ∃ B, inertiaFrom (Urdf.fewNumbers (T := ℝ)) ⟨true, true, .auto⟩ {} (classFor (lump name inside, around))
      (lump name inside) = .ok B := by
    obtain ⟨B, hB⟩ := mjcf_stated_inertia_accepts ⟨none, none, some 1, some fun i => [(1 : ℝ), ((2 : ℕ) : ℝ), ((2 : ℕ) : ℝ)][i],
      none, none⟩ 1 _ rfl one_pos rfl (by intro k; fin_cases k <;> simp) rfl (by intro v h; cases h)
    refine ⟨B, ?_⟩
    show statedFrom _ (.element "inertial" [("mass", "1"), ("diaginertia", "1 2 2")] []) = _
    show ofGeom (statedInertia _) = _
    rw [ofGeom_ok]
    exact hB
  obtain ⟨p, hp⟩ := hpose
  obtain ⟨B, hB⟩ := hi
  have hjl : jointLike (lump name inside) = [] := by
    rw [jointLike]
    show List.filter _ (_ :: inside) = []
    rw [List.filter_cons_of_neg (by simp [XmlNode.tag])]
    exact hj
  have hnf : ¬IsFree (lump name inside) := by
    rintro ⟨only, ho, -⟩
    have : jointLike (lump name inside) = [only] := ho
    rw [hjl] at this
    cases this
  exact ⟨⟨name, none, p, some B, none⟩, rfl, hp, fun h => absurd h hnf, fun _ => by
    rw [hjl, readJointNodes], ⟨B, rfl, hB⟩⟩

/-- One body in another, a third body included into the same list, and sections nobody reads. -/
def twoLists : XmlNode :=
  .element "mujoco" [("model", "arm")] [.element "option" [] [],
    .element "worldbody" [] [.other, lump "base" [lump "arm" []], .element "worldbody" [] [lump "tool" []]],
    .element "asset" [] []]

/-- The same list of bodies included at the top instead. -/
def twoListsApart : XmlNode :=
  .element "mujoco" [("model", "arm")] [.element "option" [] [],
    .element "worldbody" [] [.other, lump "base" [lump "arm" []]], .element "worldbody" [] [lump "tool" []],
    .element "asset" [] []]

/-- C119 (finding). The list of three bodies loads as three when the include stands inside the `<worldbody>`; the same
include beside it loads as two, without an error and with the same list of ignored elements. -/
theorem mjcf_root_include_lost_partial : ∃ m m' : Urdf.Loaded ℝ, load Urdf.fewNumbers twoLists = .ok m ∧
    load Urdf.fewNumbers twoListsApart = .ok m' ∧ m.bodies.map (·.name) = ["base", "arm", "tool"] ∧
    m.bodies.map (·.parent) = [none, some 0, none] ∧ m'.bodies.map (·.name) = ["base", "arm"] ∧
    m.ignored = m'.ignored ∧ m.name = "arm" := by
  have hplaces : ∀ {P : XmlNode × List XmlNode → Prop}, (∀ name inside around,
      (inside.filter fun c => c.isElement && (c.tag == "joint" || c.tag == "freejoint")) = [] →
      P (lump name inside, around)) →
      P (lump "base" [lump "arm" []], []) ∧ P (lump "arm" [], [lump "base" [lump "arm" []]]) ∧ P (lump "tool" [], []) := by
    intro P h
    exact ⟨h _ _ _ rfl, h _ _ _ rfl, h _ _ _ rfl⟩
  obtain ⟨d1, d2, d3⟩ := hplaces (P := fun p => ∃ b, Describes (Urdf.fewNumbers (T := ℝ)) ⟨true, true, .auto⟩ {} p b)
    (fun name inside around h => lump_described name inside around h)
  have p1 : bodiesIn (topLevelBodies (.element "worldbody" []
      [.other, lump "base" [lump "arm" []], .element "worldbody" [] [lump "tool" []]])) [] =
      [(lump "base" [lump "arm" []], []), (lump "arm" [], [lump "base" [lump "arm" []]]), (lump "tool" [], [])] := rfl
  have p2 : bodiesIn (topLevelBodies (.element "worldbody" [] [.other, lump "base" [lump "arm" []]])) [] =
      [(lump "base" [lump "arm" []], []), (lump "arm" [], [lump "base" [lump "arm" []]])] := rfl
  have inc : ∀ root, hasInclude root = false →
      ∀ n, Within root n → n.isElement = true → n.tag ≠ "include" := by
    intro root h n hn h1 h2
    rw [(hasInclude_iff root).2 ⟨n, hn, h1, h2⟩] at h
    cases h
  obtain ⟨m, hm⟩ := (mjcf_load (Urdf.fewNumbers (T := ℝ)) twoLists).2.2 ⟨inc _ rfl, ⟨true, true, .auto⟩, {}, _, rfl, rfl, rfl, by
    rw [p1]; simp, by
    rw [p1]
    intro p hp
    simp only [List.mem_cons, List.not_mem_nil, or_false] at hp
    rcases hp with rfl | rfl | rfl
    · exact d1
    · exact d2
    · exact d3⟩
  obtain ⟨m', hm'⟩ := (mjcf_load (Urdf.fewNumbers (T := ℝ)) twoListsApart).2.2 ⟨inc _ rfl, ⟨true, true, .auto⟩, {}, _, rfl, rfl, rfl, by
    rw [p2]; simp, by
    rw [p2]
    intro p hp
    simp only [List.mem_cons, List.not_mem_nil, or_false] at hp
    rcases hp with rfl | rfl
    · exact d1
    · exact d2⟩
  obtain ⟨-, s, t, w, hs, ht, hw, hd, hpl, -, -, hn, ho, hig⟩ := (mjcf_load _ _).1 m hm
  obtain ⟨-, s', t', w', hs', ht', hw', hd', hpl', -, -, hn', ho', hig'⟩ := (mjcf_load _ _).1 m' hm'
  cases hw
  cases hw'
  rw [p1] at hd hpl
  rw [p2] at hd'
  refine ⟨m, m', hm, hm', ?_, ?_, ?_, ?_, hn⟩
  · generalize m.bodies = bs at hd
    cases hd with | cons h1 hd => cases hd with | cons h2 hd => cases hd with | cons h3 hd => cases hd with
    | nil => rw [List.map_cons, List.map_cons, List.map_cons, h1.name, h2.name, h3.name]; rfl
  · generalize m.bodies = bs at hd hpl
    have hlen := hd.length_eq
    rcases bs with _ | ⟨b1, _ | ⟨b2, _ | ⟨b3, _ | ⟨b4, bs⟩⟩⟩⟩
    · simp at hlen
    · simp at hlen
    · simp at hlen
    · clear hd
      have q1 := hpl 0 _ b1 rfl rfl
      have q2 := hpl 1 _ b2 rfl rfl
      have q3 := hpl 2 _ b3 rfl rfl
      have r1 : b1.parent = none := by
        rcases q1 with ⟨-, h⟩ | ⟨j, hj, -⟩
        · exact h
        · omega
      have r2 : b2.parent = some 0 := by
        rcases q2 with ⟨h, -⟩ | ⟨j, hj, _, _, -, -, h, -⟩
        · cases h
        · rw [h]; congr 1; omega
      have r3 : b3.parent = none := by
        rcases q3 with ⟨-, h⟩ | ⟨j, hj, _, _, h, -⟩
        · exact h
        · cases h
      simp [r1, r2, r3]
    · simp at hlen
  · generalize m'.bodies = bs at hd'
    cases hd' with | cons h1 hd => cases hd with | cons h2 hd => cases hd with
    | nil => rw [List.map_cons, List.map_cons, h1.name, h2.name]; rfl
  · refine List.Perm.eq_of_pairwise (le := (· < ·)) (fun a b _ _ h h' => absurd (h.trans h') (lt_irrefl _)) ho ho' ?_
    refine (List.perm_ext_iff_of_nodup (ho.imp fun h => h.ne) (ho'.imp fun h => h.ne)).2 fun x => ?_
    rw [hig, hig']
    simp [twoLists, twoListsApart, XmlNode.children, XmlNode.isElement, XmlNode.tag]

/-- Radians, and a second `<compiler>` nobody reads. -/
example : compilerSettings (.element "mujoco" [] [.element "compiler" [("angle", "radian")] [],
    .element "compiler" [("angle", "degree"), ("autolimits", "false")] []]) = .ok ⟨false, true, .auto⟩ := rfl

/-- A default block with another inside it. -/
def blocks : XmlNode :=
  .element "mujoco" [] [.element "default" [] [.element "joint" [("damping", "2"), ("springref", "1")] [],
    .element "default" [("class", "heavy")] [.other, .element "geom" [("density", "2"), ("size", "1 2")] []]]]

example : ∃ table, defaultTable (Urdf.fewNumbers (T := ℚ)) blocks = .ok table ∧
    table.root.joint.damping = some 2 ∧ table.root.joint.springReference = some 1 ∧
    table.root.joint.reference = none ∧
    (table.classes "heavy").map (fun c => (c.joint.damping, c.geom.density, c.geom.size)) =
      some (some 2, some 2, some [1, 2]) :=
  ⟨_, rfl, rfl, rfl, rfl, rfl⟩

example : IsFree (.element "body" [] [.other, .element "joint" [("type", "free")] [], .element "geom" [] []]) ∧
    ¬IsFree (.element "body" [] [.element "freejoint" [] [], .element "joint" [] []]) :=
  ⟨⟨_, rfl, .inr ⟨rfl, rfl⟩⟩, by rintro ⟨only, h, -⟩; cases h⟩

example : orientationAttribute (.element "geom" [("size", "1"), ("zaxis", "0 0 1")] []) = some "zaxis" := rfl

end Mjcf
end Multicalc
