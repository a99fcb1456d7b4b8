import Verif.Model.Urdf
import Verif.Props.UrdfTree
import Verif.Props.GeomInertia
import Verif.Props.Slerp

/-!
# Property theorems: what the elements of a URDF mean

C112.
-/

namespace Multicalc
namespace Urdf

open Matrix

/-! ### Plumbing -/

theorem bind_ok {ε α β : Type} {x : Except ε α} {f : α → Except ε β} {b : β} :
    (x >>= f) = .ok b ↔ ∃ a, x = .ok a ∧ f a = .ok b := by
  cases x with
  | error e => simp [bind, Except.bind]
  | ok a => simp [bind, Except.bind]

theorem bind_error {ε α β : Type} {x : Except ε α} {f : α → Except ε β} {e : ε} :
    (x >>= f) = .error e ↔ x = .error e ∨ ∃ a, x = .ok a ∧ f a = .error e := by
  cases x with
  | error e => simp [bind, Except.bind]
  | ok a => simp [bind, Except.bind]

theorem okOr_ok {α : Type} {e : ReadError} {o : Option α} {a : α} : okOr e o = .ok a ↔ o = some a := by
  cases o <;> simp [okOr]

theorem okOr_error {α : Type} {e e' : ReadError} {o : Option α} :
    okOr e o = .error e' ↔ o = none ∧ e = e' := by
  cases o <;> simp [okOr]

section lawfree

variable {T : Type} (parse : String → Option T)

/-! ### Numbers in attributes -/

/-- The text consists of these fields: runs of other characters, kept apart by white space. -/
inductive Fields : List Char → List (List Char) → Prop
  | blank (space : List Char) (h : ∀ c ∈ space, isAsciiWhitespace c = true) : Fields space []
  | last (space field : List Char) (h : ∀ c ∈ space, isAsciiWhitespace c = true) (hne : field ≠ [])
      (hf : ∀ c ∈ field, isAsciiWhitespace c = false) : Fields (space ++ field) [field]
  | more (space field : List Char) (c : Char) (rest : List Char) (fields : List (List Char))
      (h : ∀ c ∈ space, isAsciiWhitespace c = true) (hne : field ≠ [])
      (hf : ∀ c ∈ field, isAsciiWhitespace c = false) (hc : isAsciiWhitespace c = true)
      (hr : Fields rest fields) : Fields (space ++ field ++ c :: rest) (field :: fields)

/-- The text spells these numbers. -/
def Spells (text : String) {n : ℕ} (v : Fin n → T) : Prop :=
  ∃ fields, Fields text.toList fields ∧ fields.length = n ∧
    ∀ i : Fin n, (fields[(i : ℕ)]?.bind fun f => parse (String.ofList f)) = some (v i)

/-- The attribute is there and spells these numbers. -/
def Gives (node : XmlNode) (name : String) {n : ℕ} (v : Fin n → T) : Prop :=
  ∃ text, node.attr name = some text ∧ Spells parse text v

/-- The attribute is there and spells no `n` numbers; the complaint quotes it. -/
def Garbled (node : XmlNode) (name : String) (n : ℕ) (e : ReadError) : Prop :=
  ∃ text, node.attr name = some text ∧ (¬∃ v : Fin n → T, Spells parse text v) ∧
    e = .badAttribute node.tag name text

/-- The attribute gives these numbers, or is missing and these are what stands in for it. -/
def GivesOr (node : XmlNode) (name : String) {n : ℕ} (d v : Fin n → T) : Prop :=
  Gives parse node name v ∨ node.attr name = none ∧ v = d

theorem fieldsFrom_word (word : List Char) (hw : ∀ c ∈ word, isAsciiWhitespace c = false) (current rest : List Char) :
    fieldsFrom current (word ++ rest) = fieldsFrom (word.reverse ++ current) rest := by
  induction word generalizing current with
  | nil => rfl
  | cons c w ih =>
    rw [List.cons_append, fieldsFrom, hw c (by simp)]
    simp only [Bool.false_eq_true, if_false]
    rw [ih (fun c hc => hw c (by simp [hc]))]
    simp

theorem fieldsFrom_space (space : List Char) (hs : ∀ c ∈ space, isAsciiWhitespace c = true) (rest : List Char) :
    fieldsFrom [] (space ++ rest) = fieldsFrom [] rest := by
  induction space with
  | nil => rfl
  | cons c w ih =>
    rw [List.cons_append, fieldsFrom, hs c (by simp)]
    simp only [if_true, List.isEmpty_nil]
    exact ih fun c hc => hs c (by simp [hc])

theorem fieldsFrom_of_fields {text : List Char} {fields : List (List Char)} (h : Fields text fields) :
    fieldsFrom [] text = fields := by
  induction h with
  | blank space h =>
    have := fieldsFrom_space space h []
    rw [List.append_nil] at this
    rw [this]; rfl
  | last space field h hne hf =>
    rw [fieldsFrom_space space h]
    have := fieldsFrom_word field hf [] []
    rw [List.append_nil, List.append_nil] at this
    rw [this, fieldsFrom]
    simp [hne]
  | more space field c rest fields h hne hf hc hr ih =>
    rw [List.append_assoc, fieldsFrom_space space h, fieldsFrom_word field hf, fieldsFrom, hc, List.append_nil]
    simp [hne, ih]

theorem takeWhile_mem {A : Type} (p : A → Bool) (l : List A) (a : A) (h : a ∈ l.takeWhile p) : p a = true := by
  induction l with
  | nil => cases h
  | cons b l ih =>
    rw [List.takeWhile_cons] at h
    split at h
    · rename_i hb
      rcases List.mem_cons.1 h with rfl | h
      · exact hb
      · exact ih h
    · cases h

theorem fields_exist (text : List Char) : ∃ fields, Fields text fields := by
  have main : ∀ (n : ℕ) (text : List Char), text.length ≤ n → ∃ fields, Fields text fields := by
    intro n
    induction n with
    | zero =>
      intro text h
      have : text = [] := List.length_eq_zero_iff.1 (by omega)
      subst this
      exact ⟨[], .blank [] (by simp)⟩
    | succ n ih =>
      intro text h
      have e := List.takeWhile_append_dropWhile (p := isAsciiWhitespace) (l := text)
      have hs : ∀ c ∈ text.takeWhile isAsciiWhitespace, isAsciiWhitespace c = true := fun c hc => takeWhile_mem _ _ c hc
      cases hd : text.dropWhile isAsciiWhitespace with
      | nil =>
        rw [hd, List.append_nil] at e
        exact ⟨[], by rw [← e]; exact .blank _ hs⟩
      | cons a l =>
        have ha : isAsciiWhitespace a = false := by
          have := List.head_dropWhile_not isAsciiWhitespace (l := text) (by rw [hd]; simp)
          simpa [hd] using this
        have e2 := List.takeWhile_append_dropWhile (p := fun c => !isAsciiWhitespace c) (l := a :: l)
        have hw : ∀ c ∈ (a :: l).takeWhile (fun c => !isAsciiWhitespace c), isAsciiWhitespace c = false := fun c hc => by
          simpa using takeWhile_mem _ _ c hc
        have hne : (a :: l).takeWhile (fun c => !isAsciiWhitespace c) ≠ [] := by
          rw [List.takeWhile_cons_of_pos (by simp [ha])]; simp
        rw [hd] at e
        cases hd2 : (a :: l).dropWhile (fun c => !isAsciiWhitespace c) with
        | nil =>
          rw [hd2, List.append_nil] at e2
          exact ⟨[(a :: l).takeWhile fun c => !isAsciiWhitespace c], by
            rw [← e, ← e2]
            conv => arg 2; rw [e2]
            exact .last _ _ hs hne hw⟩
        | cons b m =>
          have hb : isAsciiWhitespace b = true := by
            have := List.head_dropWhile_not (fun c => !isAsciiWhitespace c) (l := a :: l) (by rw [hd2]; simp)
            simpa [hd2] using this
          have hlen : m.length ≤ n := by
            have h1 := congrArg List.length e
            have h2 := congrArg List.length e2
            rw [hd2] at h2
            simp only [List.length_append, List.length_cons] at h1 h2
            have h3 : 0 < ((a :: l).takeWhile fun c => !isAsciiWhitespace c).length := List.length_pos_iff.2 hne
            omega
          obtain ⟨fields, hf⟩ := ih m hlen
          refine ⟨((a :: l).takeWhile fun c => !isAsciiWhitespace c) :: fields, ?_⟩
          rw [hd2] at e2
          have := Fields.more _ _ b m fields hs hne hw hb hf
          rw [List.append_assoc, e2, e] at this
          exact this
  exact main _ text le_rfl

theorem fields_iff (text : List Char) (fields : List (List Char)) :
    fieldsFrom [] text = fields ↔ Fields text fields := by
  refine ⟨fun h => ?_, fieldsFrom_of_fields⟩
  obtain ⟨f, hf⟩ := fields_exist text
  rw [← h, fieldsFrom_of_fields hf]
  exact hf

theorem mapM_some {A B : Type} (f : A → Option B) (l : List A) (vs : List B) :
    l.mapM f = some vs ↔ vs.length = l.length ∧ ∀ i : ℕ, i < l.length → (l[i]?.bind f) = vs[i]? := by
  induction l generalizing vs with
  | nil => simp [List.length_eq_zero_iff, eq_comm]
  | cons a l ih =>
    rw [List.mapM_cons]
    cases ha : f a with
    | none =>
      simp only [bind, Option.bind, reduceCtorEq, false_iff, not_and, not_forall]
      intro hl
      refine ⟨0, by simp, ?_⟩
      cases vs with
      | nil => simp at hl
      | cons v vs => simp [ha]
    | some b =>
      cases vs with
      | nil =>
        simp only [bind, Option.bind, List.length_nil, List.length_cons]
        constructor
        · intro h
          split at h <;> simp at h
        · rintro ⟨h, -⟩; omega
      | cons v vs =>
        have := ih vs
        rw [List.length_cons, List.length_cons]
        constructor
        · intro h
          simp only [bind, Option.bind] at h
          split at h
          · cases h
          · rename_i ws hw
            simp only [pure, Option.some.injEq, List.cons.injEq] at h
            obtain ⟨rfl, rfl⟩ := h
            obtain ⟨h1, h2⟩ := this.1 hw
            refine ⟨by omega, fun i hi => ?_⟩
            cases i with
            | zero => simp [ha]
            | succ i => simpa using h2 i (by omega)
        · rintro ⟨h1, h2⟩
          have hw := this.2 ⟨by omega, fun i hi => by simpa using h2 (i + 1) (by omega)⟩
          simp only [hw, bind, Option.bind]
          have := h2 0 (by omega)
          simp only [List.getElem?_cons_zero, Option.bind_some, ha, Option.some.injEq] at this
          subst this
          rfl

theorem fixed_cases (node : XmlNode) (name : String) (n : ℕ) :
    (node.attr name = none ∧ fixed parse n node name = .ok none) ∨
    (∃ v : Fin n → T, Gives parse node name v ∧ fixed parse n node name = .ok (some v)) ∨
    ∃ e, Garbled parse node name n e ∧ fixed parse n node name = .error e := by
  cases ha : node.attr name with
  | none => exact .inl ⟨rfl, by simp [fixed, parseList, ha, bind, Except.bind]⟩
  | some text =>
    right
    obtain ⟨fields, hf⟩ := fields_exist text.toList
    have hsplit : splitAsciiWhitespace text = fields.map String.ofList := by
      rw [splitAsciiWhitespace, fieldsFrom_of_fields hf]
    have huniq : ∀ f, Fields text.toList f → f = fields := fun f h =>
      (fieldsFrom_of_fields h).symm.trans (fieldsFrom_of_fields hf)
    cases hm : (splitAsciiWhitespace text).mapM parse with
    | none =>
      right
      refine ⟨.badAttribute node.tag name text, ⟨text, ha, ?_, rfl⟩, by
        simp [fixed, parseList, ha, hm, bind, Except.bind, badAttribute]⟩
      rintro ⟨v, f, h1, h2, h3⟩
      have := huniq f h1
      subst this
      have : (splitAsciiWhitespace text).mapM parse = some (List.ofFn v) := by
        rw [hsplit, mapM_some]
        refine ⟨by simp [h2], fun i hi => ?_⟩
        have hi' : i < n := by simpa [h2] using hi
        have := h3 ⟨i, hi'⟩
        rw [List.getElem?_map, List.getElem?_ofFn, dif_pos hi', ← this]
        cases f[i]? <;> rfl
      rw [hm] at this
      cases this
    | some values =>
      have hm' := hm
      rw [hsplit, mapM_some] at hm'
      obtain ⟨hl, hv⟩ := hm'
      rw [List.length_map] at hl hv
      by_cases hn : values.length = n
      · left
        refine ⟨fun i => values[i]'(by omega), ⟨text, ha, fields, hf, by omega, fun i => ?_⟩, by
          simp [fixed, parseList, ha, hm, bind, Except.bind, hn]⟩
        have := hv i (by omega)
        rw [List.getElem?_map, List.getElem?_eq_getElem (l := values) (by omega)] at this
        refine Eq.trans ?_ this
        cases fields[(i : ℕ)]? <;> rfl
      · right
        refine ⟨.badAttribute node.tag name text, ⟨text, ha, ?_, rfl⟩, by
          simp [fixed, parseList, ha, hm, bind, Except.bind, badAttribute, hn]⟩
        rintro ⟨v, f, h1, h2, -⟩
        have := huniq f h1
        subst this
        omega

theorem Gives.unique {node : XmlNode} {name : String} {n : ℕ} {v w : Fin n → T} (hv : Gives parse node name v)
    (hw : Gives parse node name w) : v = w := by
  obtain ⟨text, ha, f, h1, h2, h3⟩ := hv
  obtain ⟨text', ha', f', h1', h2', h3'⟩ := hw
  rw [ha] at ha'; cases ha'
  have : f = f' := (fieldsFrom_of_fields h1).symm.trans (fieldsFrom_of_fields h1')
  subst this
  funext i
  have := (h3 i).symm.trans (h3' i)
  simpa using this

/-- C112. An attribute that should hold `n` numbers is read as the numbers its text spells, however
they are spaced; a text that spells a different count, or something that is no number, is refused with
the element, the attribute and the text in the error; and only a missing attribute counts as missing. -/
theorem urdf_numbers (node : XmlNode) (name : String) (n : ℕ) :
    (fixed parse n node name = .ok none ↔ node.attr name = none) ∧
    (∀ v : Fin n → T, fixed parse n node name = .ok (some v) ↔ Gives parse node name v) ∧
    (∀ e, fixed parse n node name = .error e ↔ Garbled parse node name n e) ∧
    ∀ text : String, ∃ fields, Fields text.toList fields ∧ ∀ f, Fields text.toList f → f = fields := by
  refine ⟨?_, fun v => ?_, fun e => ?_, fun text => ?_⟩
  · rcases fixed_cases parse node name n with ⟨h, hf⟩ | ⟨w, ⟨text, h, -⟩, hf⟩ | ⟨e, ⟨text, h, -⟩, hf⟩ <;>
      simp [h, hf]
  · rcases fixed_cases parse node name n with ⟨h, hf⟩ | ⟨w, hw, hf⟩ | ⟨e', ⟨text, h, hn, -⟩, hf⟩
    · rw [hf]
      refine ⟨fun h => (by cases h), fun ⟨text, ht, _⟩ => by rw [h] at ht; cases ht⟩
    · rw [hf]
      exact ⟨fun h => (by cases h; exact hw), fun h => by rw [hw.unique parse h]⟩
    · rw [hf]
      refine ⟨fun h => (by cases h), fun ⟨text', ht, hs⟩ => ?_⟩
      rw [h] at ht; cases ht
      exact absurd ⟨v, hs⟩ hn
  · rcases fixed_cases parse node name n with ⟨h, hf⟩ | ⟨w, ⟨text, h, hs⟩, hf⟩ | ⟨e', he, hf⟩
    · rw [hf]
      refine ⟨fun h => (by cases h), fun ⟨text, ht, _⟩ => by rw [h] at ht; cases ht⟩
    · rw [hf]
      refine ⟨fun h => (by cases h), fun ⟨text', ht, hn, _⟩ => ?_⟩
      rw [h] at ht; cases ht
      exact absurd ⟨w, hs⟩ hn
    · rw [hf]
      refine ⟨fun h => (by cases h; exact he), fun h => ?_⟩
      obtain ⟨text, h1, -, rfl⟩ := he
      obtain ⟨text', h2, -, rfl⟩ := h
      rw [h1] at h2; cases h2; rfl
  · obtain ⟨f, hf⟩ := fields_exist text.toList
    exact ⟨f, hf, fun g hg => (fieldsFrom_of_fields hg).symm.trans (fieldsFrom_of_fields hf)⟩

/-- C112. `element` finds the first child element of that tag, and nothing when there is none. -/
theorem urdf_first_child (node : XmlNode) (tag : String) :
    (∀ c, node.child tag = some c ↔ ∃ before after, node.children = before ++ c :: after ∧
      c.isElement = true ∧ c.tag = tag ∧ ∀ b ∈ before, ¬(b.isElement = true ∧ b.tag = tag)) ∧
    (node.child tag = none ↔ ∀ c ∈ node.children, ¬(c.isElement = true ∧ c.tag = tag)) := by
  have e : node.child tag = node.children.find? fun c => c.isElement && c.tag == tag := by
    rw [XmlNode.child, XmlNode.elements, List.head?_filter]
  rw [e]
  refine ⟨fun c => ?_, ?_⟩
  · rw [List.find?_eq_some_iff_append]
    constructor
    · rintro ⟨h1, as, bs, h2, h3⟩
      simp only [Bool.and_eq_true, beq_iff_eq] at h1
      exact ⟨as, bs, h2, h1.1, h1.2, fun b hb => by
        have := h3 b hb
        simp only [Bool.not_eq_true', Bool.and_eq_false_iff, beq_eq_false_iff_ne] at this
        rintro ⟨h, h'⟩
        simp [h, h'] at this⟩
    · rintro ⟨as, bs, h2, h1, h1', h3⟩
      exact ⟨by simp [h1, h1'], as, bs, h2, fun b hb => by
        have := h3 b hb
        simp only [Bool.not_eq_true', Bool.and_eq_false_iff, beq_eq_false_iff_ne]
        by_contra hc
        push Not at hc
        exact this ⟨by simpa using hc.1, hc.2⟩⟩
  · simp [List.find?_eq_none]

/-- The attribute is there and spells this one number. -/
abbrev GivesOne (node : XmlNode) (name : String) (x : T) : Prop := Gives parse node name fun _ : Fin 1 => x

/-- The number is missing, or is there but cannot be read; the complaint says which. -/
def Unstated (node : XmlNode) (name : String) (e : ReadError) : Prop :=
  Garbled parse node name 1 e ∨ node.attr name = none ∧ e = .badAttribute node.tag name ""

theorem parseScalar_cases (node : XmlNode) (name : String) :
    (node.attr name = none ∧ parseScalar parse node name = .ok none) ∨
    (∃ x : T, GivesOne parse node name x ∧ parseScalar parse node name = .ok (some x)) ∨
    ∃ e, Garbled parse node name 1 e ∧ parseScalar parse node name = .error e := by
  rcases fixed_cases parse node name 1 with ⟨h, hf⟩ | ⟨v, hv, hf⟩ | ⟨e, he, hf⟩
  · exact .inl ⟨h, by simp [parseScalar, hf, bind, Except.bind]⟩
  · refine .inr (.inl ⟨v 0, ?_, by simp [parseScalar, hf, bind, Except.bind]⟩)
    have : (fun _ : Fin 1 => v 0) = v := funext fun i => by rw [Subsingleton.elim i 0]
    rw [GivesOne, this]
    exact hv
  · exact .inr (.inr ⟨e, he, by simp [parseScalar, hf, bind, Except.bind]⟩)

theorem required_cases (node : XmlNode) (name : String) :
    (∃ x : T, GivesOne parse node name x ∧ required parse node name = .ok x) ∨
    ∃ e, Unstated parse node name e ∧ required parse node name = .error e := by
  rcases parseScalar_cases parse node name with ⟨h, hf⟩ | ⟨v, hv, hf⟩ | ⟨e, he, hf⟩
  · exact .inr ⟨_, .inr ⟨h, rfl⟩, by simp [required, hf, bind, Except.bind, okOr, badAttribute]⟩
  · exact .inl ⟨v, hv, by simp [required, hf, bind, Except.bind, okOr]⟩
  · exact .inr ⟨e, .inl he, by simp [required, hf, bind, Except.bind]⟩

theorem required_ok {node : XmlNode} {name : String} {x : T} (h : required parse node name = .ok x) :
    GivesOne parse node name x := by
  rcases required_cases parse node name with ⟨y, hy, hf⟩ | ⟨e, -, hf⟩
  · rw [hf] at h; cases h; exact hy
  · rw [hf] at h; cases h

theorem required_error {node : XmlNode} {name : String} {e : ReadError} (h : required parse node name = .error e) :
    Unstated parse node name e := by
  rcases required_cases parse node name with ⟨y, -, hf⟩ | ⟨e, he, hf⟩
  · rw [hf] at h; cases h
  · rw [hf] at h; cases h; exact he

theorem parseScalar_ok {node : XmlNode} {name : String} {o : Option T} (h : parseScalar parse node name = .ok o)
    (d : T) : GivesOr parse node name (fun _ : Fin 1 => d) fun _ => o.getD d := by
  rcases parseScalar_cases parse node name with ⟨h', hf⟩ | ⟨y, hy, hf⟩ | ⟨e, -, hf⟩ <;> rw [hf] at h <;> cases h
  · exact .inr ⟨h', rfl⟩
  · exact .inl hy

theorem parseScalar_error {node : XmlNode} {name : String} {e : ReadError}
    (h : parseScalar parse node name = .error e) : Garbled parse node name 1 e := by
  rcases parseScalar_cases parse node name with ⟨h', hf⟩ | ⟨y, hy, hf⟩ | ⟨e', he, hf⟩ <;> rw [hf] at h <;> cases h
  exact he

theorem fixed_ok {n : ℕ} {node : XmlNode} {name : String} {o : Option (Fin n → T)}
    (h : fixed parse n node name = .ok o) (d : Fin n → T) : GivesOr parse node name d (o.getD d) := by
  rcases fixed_cases parse node name n with ⟨h', hf⟩ | ⟨y, hy, hf⟩ | ⟨e, -, hf⟩ <;> rw [hf] at h <;> cases h
  · exact .inr ⟨h', rfl⟩
  · exact .inl hy

theorem fixed_error {n : ℕ} {node : XmlNode} {name : String} {e : ReadError}
    (h : fixed parse n node name = .error e) : Garbled parse node name n e := by
  rcases fixed_cases parse node name n with ⟨h', hf⟩ | ⟨y, hy, hf⟩ | ⟨e', he, hf⟩ <;> rw [hf] at h <;> cases h
  exact he

end lawfree

/-! ### Poses -/

/-- Turning about the x axis by an angle. -/
noncomputable def rotX (a : ℝ) : Matrix (Fin 3) (Fin 3) ℝ :=
  !![1, 0, 0; 0, Real.cos a, -Real.sin a; 0, Real.sin a, Real.cos a]

/-- Turning about the y axis by an angle. -/
noncomputable def rotY (a : ℝ) : Matrix (Fin 3) (Fin 3) ℝ :=
  !![Real.cos a, 0, Real.sin a; 0, 1, 0; -Real.sin a, 0, Real.cos a]

/-- Turning about the z axis by an angle. -/
noncomputable def rotZ (a : ℝ) : Matrix (Fin 3) (Fin 3) ℝ :=
  !![Real.cos a, -Real.sin a, 0; Real.sin a, Real.cos a, 0; 0, 0, 1]

variable (parse : String → Option ℝ)

/-- The frame stands where the element's `<origin>` puts it: turned by roll about x, then by pitch
about y, then by yaw about z, the axes all being those of the parent, and then moved by `xyz`.  Without
an `<origin>` it stands where the parent does. -/
def Stands (node : XmlNode) (p : SE3 ℝ) : Prop :=
  p.rotation.quaternion.IsUnit ∧
  ((node.child "origin" = none ∧ ∀ x, p.act x = x) ∨
    ∃ (origin : XmlNode) (xyz rpy : Fin 3 → ℝ), node.child "origin" = some origin ∧ GivesOr parse origin "xyz" 0 xyz ∧
      GivesOr parse origin "rpy" 0 rpy ∧
      ∀ x, p.act x = rotZ (rpy 2) *ᵥ (rotY (rpy 1) *ᵥ (rotX (rpy 0) *ᵥ x)) + xyz)

theorem transformPoint_axis (v : Fin 3 → ℝ) (a : ℝ) :
    (Quat.fromAxisAngle ![1, 0, 0] a).transformPoint v = rotX a *ᵥ v ∧
    (Quat.fromAxisAngle ![0, 1, 0] a).transformPoint v = rotY a *ᵥ v ∧
    (Quat.fromAxisAngle ![0, 0, 1] a).transformPoint v = rotZ a *ᵥ v := by
  rw [fromAxisAngle_unit _ (by rw [vdot3]; simp), fromAxisAngle_unit _ (by rw [vdot3]; simp),
      fromAxisAngle_unit _ (by rw [vdot3]; simp)]
  have h1 := Real.sin_sq_add_cos_sq (a / 2)
  have s1 : Real.sin a = 2 * Real.sin (a / 2) * Real.cos (a / 2) := by rw [← Real.sin_two_mul]; ring_nf
  have c1 : Real.cos a = 2 * Real.cos (a / 2) ^ 2 - 1 := by rw [← Real.cos_two_mul]; ring_nf
  refine ⟨?_, ?_, ?_⟩ <;>
  · funext i
    fin_cases i <;>
    simp [Quat.transformPoint, Quat.mul, Quat.conjugate, rotX, rotY, rotZ, Matrix.mulVec, dotProduct,
      Fin.sum_univ_three, s1, c1, Fns.cos, Fns.sin] <;> grind

theorem euler_act (r p y : ℝ) (v : Fin 3 → ℝ) :
    (Quat.fromEulerZyx r p y).transformPoint v = rotZ y *ᵥ (rotY p *ᵥ (rotX r *ᵥ v)) := by
  have h := KinematicTree.so3_compose_act
    ⟨(Quat.fromAxisAngle ![0, 0, 1] y).mul (Quat.fromAxisAngle ![0, 1, 0] p)⟩ ⟨Quat.fromAxisAngle ![1, 0, 0] r⟩ v
  have h' := KinematicTree.so3_compose_act ⟨Quat.fromAxisAngle ![0, 0, 1] y⟩ ⟨Quat.fromAxisAngle ![0, 1, 0] p⟩
    ((Quat.fromAxisAngle ![1, 0, 0] r).transformPoint v)
  simp only [SO3.act, SO3.compose] at h h'
  rw [(fromEulerZyx_spec r p y).1, h, h', (transformPoint_axis _ y).2.2, (transformPoint_axis _ p).2.1,
    (transformPoint_axis _ r).1]

/-- C112. An `<origin>` places a frame by its `xyz` and by its `rpy` as fixed-axis roll, pitch and yaw;
what it leaves out is zero; and it is refused only for an attribute that is no three numbers. -/
theorem urdf_origin (node : XmlNode) :
    (∃ p, readOrigin parse node = .ok p ∧ Stands parse node p) ∨
    ∃ e origin, readOrigin parse node = .error e ∧ node.child "origin" = some origin ∧
      (Garbled parse origin "xyz" 3 e ∨ Garbled parse origin "rpy" 3 e) := by
  cases hc : node.child "origin" with
  | none =>
    refine .inl ⟨SE3.identity, by simp [readOrigin, hc], ?_, .inl ⟨hc, fun x => ?_⟩⟩
    · simp [SE3.identity, SO3.identity, Quat.identity, Quat.IsUnit]
    · funext i
      fin_cases i <;>
      simp [SE3.act, SE3.identity, SO3.identity, Quat.identity, SO3.act, Quat.transformPoint, Quat.mul,
        Quat.conjugate, vadd]
  | some origin =>
    cases h1 : fixed parse 3 origin "xyz" with
    | error e =>
      exact .inr ⟨e, origin, by simp [readOrigin, hc, h1, bind, Except.bind], rfl, .inl (fixed_error parse h1)⟩
    | ok xyz =>
      cases h2 : fixed parse 3 origin "rpy" with
      | error e =>
        exact .inr ⟨e, origin, by simp [readOrigin, hc, h1, h2, bind, Except.bind], rfl,
          .inr (fixed_error parse h2)⟩
      | ok rpy =>
        have hu := (fromEulerZyx_spec ((rpy.getD 0) 0) ((rpy.getD 0) 1) ((rpy.getD 0) 2)).2
        have hq : SO3.fromQuaternion (Quat.fromEulerZyx ((rpy.getD 0) 0) ((rpy.getD 0) 1) ((rpy.getD 0) 2)) =
            ⟨Quat.fromEulerZyx ((rpy.getD 0) 0) ((rpy.getD 0) 1) ((rpy.getD 0) 2)⟩ := by
          rw [SO3.fromQuaternion, quat_normalized_unit _ hu]
        refine .inl ⟨⟨⟨Quat.fromEulerZyx ((rpy.getD 0) 0) ((rpy.getD 0) 1) ((rpy.getD 0) 2)⟩, xyz.getD 0⟩, ?_, hu,
          .inr ⟨origin, xyz.getD 0, rpy.getD 0, hc, fixed_ok parse h1 0, fixed_ok parse h2 0, fun x => ?_⟩⟩
        · rw [← hq]
          simp only [readOrigin, hc, h1, h2, bind, Except.bind]
          rfl
        · rw [← euler_act]
          rfl

/-! ### Inertias -/

/-- The `<inertial>` states this mass and this tensor. -/
def StatesInertia (node : XmlNode) (m : ℝ) (I : Matrix (Fin 3) (Fin 3) ℝ) : Prop :=
  ∃ massNode inertiaNode, node.child "mass" = some massNode ∧ GivesOne parse massNode "value" m ∧
    node.child "inertia" = some inertiaNode ∧ I.IsSymm ∧
    GivesOne parse inertiaNode "ixx" (I 0 0) ∧ GivesOne parse inertiaNode "ixy" (I 0 1) ∧
    GivesOne parse inertiaNode "ixz" (I 0 2) ∧ GivesOne parse inertiaNode "iyy" (I 1 1) ∧
    GivesOne parse inertiaNode "iyz" (I 1 2) ∧ GivesOne parse inertiaNode "izz" (I 2 2)

/-- Something the `<inertial>` must state is missing or unreadable. -/
inductive InertialUnstated (node : XmlNode) (e : ReadError) : Prop
  | originXyz (origin) (h : node.child "origin" = some origin) (hg : Garbled parse origin "xyz" 3 e)
  | originRpy (origin) (h : node.child "origin" = some origin) (hg : Garbled parse origin "rpy" 3 e)
  | noMass (h : node.child "mass" = none) (he : e = .badAttribute node.tag "mass" "")
  | mass (massNode) (h : node.child "mass" = some massNode) (hu : Unstated parse massNode "value" e)
  | noInertia (h : node.child "inertia" = none) (he : e = .badAttribute node.tag "inertia" "")
  | inertia (inertiaNode name) (h : node.child "inertia" = some inertiaNode)
      (hn : name ∈ ["ixx", "ixy", "ixz", "iyy", "iyz", "izz"]) (hu : Unstated parse inertiaNode name e)

theorem turned_symmetric (R I : Matrix (Fin 3) (Fin 3) ℝ) (hI : I.IsSymm) :
    isSymmetric (mmul (mmul R I) (mtranspose R)) = true := by
  have hs : (mmul (mmul R I) (mtranspose R)).IsSymm := by
    rw [mmul_eq, mmul_eq, mtranspose_eq, Matrix.IsSymm]
    simp [Matrix.transpose_mul, hI.eq, Matrix.mul_assoc]
  simp only [isSymmetric, List.all_eq_true]
  intro i _ j _
  split
  · rw [← hs.apply i j, sub_self]
    simp only [real_abs, abs_zero]
    simp only [Bool.not_eq_true', decide_eq_false_iff_not, not_lt]
    refine mul_nonneg ?_ (le_trans zero_le_one (le_max_right _ _))
    simp [epsilonX30]
    exact (show (0 : ℝ) ≤ 1 / 2 ^ 52 by positivity)
  · rfl

/-- C112. An `<inertial>` is read as it is meant: the mass and tensor it states, about a centre and along
axes placed by its `<origin>`, so that a rotation `ω` of the inertial frame has the moment the file
gives for it.  It is refused when something is missing or unreadable, and otherwise only when the mass
is not positive or the tensor not positive definite. -/
theorem urdf_inertial (node : XmlNode) :
    (∃ B p m I, readInertial parse node = .ok B ∧ StatesInertia parse node m I ∧ Stands parse node p ∧
      B.mass = m ∧ 0 < m ∧ B.centerOfMass = p.act 0 ∧
      ∀ u v, vdot (p.rotation.act u) (mmulVec B.rotationalInertia (p.rotation.act v)) = u ⬝ᵥ (I *ᵥ v)) ∨
    ∃ e, readInertial parse node = .error e ∧
      (InertialUnstated parse node e ∨
        ∃ s m I, e = .inertia s ∧ StatesInertia parse node m I ∧ (m ≤ 0 ∨ ∃ ω ≠ 0, ω ⬝ᵥ (I *ᵥ ω) ≤ 0)) := by
  rcases urdf_origin parse node with ⟨p, hp, hs⟩ | ⟨e, origin, he, ho, hg⟩
  swap
  · right
    refine ⟨e, by simp only [readInertial, bind, Except.bind, he], .inl ?_⟩
    rcases hg with hg | hg
    · exact .originXyz origin ho hg
    · exact .originRpy origin ho hg
  cases hm : node.child "mass" with
  | none => exact .inr ⟨_, by simp only [readInertial, bind, Except.bind, hp, hm, okOr]; rfl, .inl (.noMass hm rfl)⟩
  | some massNode =>
  cases hmv : required parse massNode "value" with
  | error e => exact .inr ⟨e, by simp only [readInertial, bind, Except.bind, hp, hm, okOr, hmv],
      .inl (.mass massNode hm (required_error parse hmv))⟩
  | ok m =>
  cases hi : node.child "inertia" with
  | none => exact .inr ⟨_, by simp only [readInertial, bind, Except.bind, hp, hm, okOr, hmv, hi]; rfl,
      .inl (.noInertia hi rfl)⟩
  | some inertiaNode =>
  cases hxx : required parse inertiaNode "ixx" with
  | error e => exact .inr ⟨e, by simp only [readInertial, bind, Except.bind, hp, hm, okOr, hmv, hi, hxx],
      .inl (.inertia inertiaNode _ hi (by simp) (required_error parse hxx))⟩
  | ok xx =>
  cases hxy : required parse inertiaNode "ixy" with
  | error e => exact .inr ⟨e, by simp only [readInertial, bind, Except.bind, hp, hm, okOr, hmv, hi, hxx, hxy],
      .inl (.inertia inertiaNode _ hi (by simp) (required_error parse hxy))⟩
  | ok xy =>
  cases hxz : required parse inertiaNode "ixz" with
  | error e => exact .inr ⟨e, by simp only [readInertial, bind, Except.bind, hp, hm, okOr, hmv, hi, hxx, hxy, hxz],
      .inl (.inertia inertiaNode _ hi (by simp) (required_error parse hxz))⟩
  | ok xz =>
  cases hyy : required parse inertiaNode "iyy" with
  | error e => exact .inr ⟨e, by simp only [readInertial, bind, Except.bind, hp, hm, okOr, hmv, hi, hxx, hxy, hxz,
      hyy], .inl (.inertia inertiaNode _ hi (by simp) (required_error parse hyy))⟩
  | ok yy =>
  cases hyz : required parse inertiaNode "iyz" with
  | error e => exact .inr ⟨e, by simp only [readInertial, bind, Except.bind, hp, hm, okOr, hmv, hi, hxx, hxy, hxz,
      hyy, hyz], .inl (.inertia inertiaNode _ hi (by simp) (required_error parse hyz))⟩
  | ok yz =>
  cases hzz : required parse inertiaNode "izz" with
  | error e => exact .inr ⟨e, by simp only [readInertial, bind, Except.bind, hp, hm, okOr, hmv, hi, hxx, hxy, hxz,
      hyy, hyz, hzz], .inl (.inertia inertiaNode _ hi (by simp) (required_error parse hzz))⟩
  | ok zz =>
  obtain ⟨I, hI⟩ : ∃ I : Matrix (Fin 3) (Fin 3) ℝ, I = !![xx, xy, xz; xy, yy, yz; xz, yz, zz] := ⟨_, rfl⟩
  have hsym : I.IsSymm := by
    rw [hI]
    ext i j
    fin_cases i <;> fin_cases j <;> rfl
  have hst : StatesInertia parse node m I := by
    refine ⟨massNode, inertiaNode, hm, required_ok parse hmv, hi, hsym, ?_, ?_, ?_, ?_, ?_, ?_⟩ <;> rw [hI]
    exacts [required_ok parse hxx, required_ok parse hxy, required_ok parse hxz, required_ok parse hyy,
      required_ok parse hyz, required_ok parse hzz]
  obtain ⟨R, hR⟩ : ∃ R, R = p.rotation.quaternion.toRotationMatrix := ⟨_, rfl⟩
  have hread : readInertial parse node =
      match SpatialInertia.new m p.translation (mmul (mmul R I) (mtranspose R)) with
      | .ok inertia => .ok inertia
      | .error e => .error (.inertia e) := by
    simp only [readInertial, bind, Except.bind, hp, hm, okOr, hmv, hi, hxx, hxy, hxz, hyy, hyz, hzz, hI, hR,
      SO3.toMatrix]
    cases SpatialInertia.new m p.translation _ <;> rfl
  have hsymm := turned_symmetric R I hsym
  have hrt : Rᵀ * R = 1 := by
    have h := (toRotationMatrix_spec _ _ hs.1 hs.1 0).1
    rw [mmul_eq, mtranspose_eq, midentity_eq] at h
    rw [hR]; exact h
  have hact : ∀ u, p.rotation.act u = R *ᵥ u := fun u => by
    have h := (toRotationMatrix_spec _ _ hs.1 hs.1 u).2.2.1
    rw [mmulVec_eq] at h
    rw [hR]; exact h.symm
  by_cases hok : 0 < m ∧ ∀ i, 0 < mmul (mmul R I) (mtranspose R) i i
  · left
    refine ⟨⟨m, p.translation, mmul (mmul R I) (mtranspose R)⟩, p, m, I, ?_, hst, hs, rfl, hok.1, ?_, fun u v => ?_⟩
    · rw [hread, (inertia_new _ _ _ _).2 ⟨rfl, hok.1, hsymm, hok.2⟩]
    · rw [SE3.act, hact, Matrix.mulVec_zero]
      funext i
      simp [vadd]
    · rw [mmulVec_eq, hact, hact, vdot_eq, mmul_eq, mmul_eq, mtranspose_eq]
      simp only [Matrix.mulVec_mulVec]
      rw [Matrix.mul_assoc, hrt, Matrix.mul_one, ← Matrix.mulVec_mulVec, Matrix.dotProduct_mulVec,
        ← Matrix.mulVec_transpose, Matrix.mulVec_mulVec, hrt, Matrix.one_mulVec]
  · right
    cases hn : SpatialInertia.new m p.translation (mmul (mmul R I) (mtranspose R)) with
    | ok B =>
      obtain ⟨-, h1, -, h2⟩ := (inertia_new _ _ _ _).1 hn
      exact absurd ⟨h1, h2⟩ hok
    | error s =>
      refine ⟨.inertia s, by rw [hread, hn], .inr ⟨s, m, I, rfl, hst, ?_⟩⟩
      by_cases h1 : 0 < m
      · right
        have h2 : ¬∀ i, 0 < mmul (mmul R I) (mtranspose R) i i := fun h => hok ⟨h1, h⟩
        push Not at h2
        obtain ⟨i, hi⟩ := h2
        refine ⟨R i, ?_, ?_⟩
        · intro h0
          have := Mjcf.rotation_rows _ hs.1 i i
          rw [← hR] at this
          simp [h0] at this
        · rw [mmul_eq, mmul_eq, mtranspose_eq] at hi
          refine le_trans (le_of_eq ?_) hi
          rw [Matrix.mul_assoc, Matrix.mul_apply]
          rfl
      · exact .inl (not_lt.1 h1)

/-! ### Joints -/

/-- The axis a joint element states; without one, the x axis. -/
def StatesAxis (node : XmlNode) (a : Fin 3 → ℝ) : Prop :=
  (node.child "axis" = none ∧ a = ![1, 0, 0]) ∨
    ∃ axisNode, node.child "axis" = some axisNode ∧ GivesOr parse axisNode "xyz" ![1, 0, 0] a

/-- The damping or friction a joint element states; without one, zero. -/
def StatesDynamics (node : XmlNode) (name : String) (x : ℝ) : Prop :=
  (node.child "dynamics" = none ∧ x = 0) ∨
    ∃ dynamics, node.child "dynamics" = some dynamics ∧
      GivesOr parse dynamics name (fun _ : Fin 1 => 0) fun _ => x

/-- The joint that another follows, if it does: `multiplier` defaults to one, `offset` to zero. -/
def StatesMimic (node : XmlNode) : Option (MimicDescription ℝ) → Prop
  | none => node.child "mimic" = none
  | some m => ∃ mimicNode, node.child "mimic" = some mimicNode ∧ mimicNode.attr "joint" = some m.joint ∧
      GivesOr parse mimicNode "multiplier" (fun _ : Fin 1 => 1) (fun _ => m.multiplier) ∧
      GivesOr parse mimicNode "offset" (fun _ : Fin 1 => 0) fun _ => m.offset

/-- The description says what the element of a joint that moves says. -/
structure Portrays (node : XmlNode) (kind : JointKind) (d : JointDescription ℝ) : Prop where
  name : d.name = (node.attr "name").getD "joint"
  kind : d.kind = kind
  axis : ∃ a, StatesAxis parse node a ∧ ∑ i, d.axis i ^ 2 = 1 ∧ ∃ k > 0, a = fun i => k * d.axis i
  limits : (d.kind = .continuous ∧ d.limits = none) ∨
    d.kind ≠ .continuous ∧ ∃ limitNode lower upper, node.child "limit" = some limitNode ∧
      GivesOne parse limitNode "lower" lower ∧ GivesOne parse limitNode "upper" upper ∧
      d.limits = some (lower, upper)
  damping : StatesDynamics parse node "damping" d.damping
  friction : StatesDynamics parse node "friction" d.frictionLoss
  mimic : StatesMimic parse node d.mimic
  rest : d.anchor = 0 ∧ d.zeroOffset = 0 ∧ d.armature = 0 ∧ d.springReference = 0 ∧ d.springStiffness = 0

/-- What can be wrong with the element of a joint that moves. -/
inductive MovableRefused (node : XmlNode) (kind : JointKind) (e : ReadError) : Prop
  | axis (axisNode) (h : node.child "axis" = some axisNode) (hg : Garbled parse axisNode "xyz" 3 e)
  | noDirection (axisNode text) (h : node.child "axis" = some axisNode) (ht : axisNode.attr "xyz" = some text)
      (hz : Gives parse axisNode "xyz" (0 : Fin 3 → ℝ)) (he : e = .badAttribute axisNode.tag "xyz" text)
  | needsLimit (hk : kind ≠ .continuous)
      (h : ∀ limitNode, node.child "limit" = some limitNode →
        limitNode.attr "lower" = none ∨ limitNode.attr "upper" = none)
      (he : e = .jointNeedsLimit ((node.attr "name").getD "joint"))
  | limit (limitNode name) (hk : kind ≠ .continuous) (h : node.child "limit" = some limitNode)
      (hn : name ∈ ["lower", "upper"]) (hg : Garbled parse limitNode name 1 e)
  | dynamics (dynamics name) (h : node.child "dynamics" = some dynamics) (hn : name ∈ ["damping", "friction"])
      (hg : Garbled parse dynamics name 1 e)
  | noLeader (mimicNode) (h : node.child "mimic" = some mimicNode) (hj : mimicNode.attr "joint" = none)
      (he : e = .badAttribute mimicNode.tag "joint" "")
  | mimic (mimicNode name) (h : node.child "mimic" = some mimicNode) (hn : name ∈ ["multiplier", "offset"])
      (hg : Garbled parse mimicNode name 1 e)

theorem readAxis_cases (node : XmlNode) :
    (∃ u a, readAxis parse node = .ok u ∧ StatesAxis parse node a ∧ ∑ i, u i ^ 2 = 1 ∧
      ∃ k > 0, a = fun i => k * u i) ∨
    ∃ e, readAxis parse node = .error e ∧ ∀ kind, MovableRefused parse node kind e := by
  have e1 : ∀ a : Fin 3 → ℝ, a ≠ 0 → ∑ i, vnormalized a i ^ 2 = 1 ∧ ∃ k > 0, a = fun i => k * vnormalized a i := by
    intro a ha
    have hpos := vnorm_pos ha
    have hu := vnormalized_unit ha
    refine ⟨?_, vnorm a, hpos, ?_⟩
    · rw [vdot3] at hu
      rw [Fin.sum_univ_three]
      linear_combination hu
    · funext i
      have hne := hpos.ne'
      rw [vnormalized, vdivBy, mul_div_assoc', mul_div_cancel_left₀ _ hne]
  cases hc : node.child "axis" with
  | none =>
    exact .inl ⟨![1, 0, 0], ![1, 0, 0], by simp [readAxis, hc], .inl ⟨hc, rfl⟩, by simp [Fin.sum_univ_three], 1, one_pos, by simp⟩
  | some axisNode =>
    cases h1 : fixed parse 3 axisNode "xyz" with
    | error e =>
      exact .inr ⟨e, by simp [readAxis, hc, h1, bind, Except.bind], fun _ => .axis axisNode hc (fixed_error parse h1)⟩
    | ok o =>
      by_cases hz : o.getD ![1, 0, 0] = 0
      · have ho : o = some 0 := by
          cases o with
          | none =>
            have := congrFun hz 0
            simp at this
          | some a => exact congrArg some hz
        rw [ho] at h1
        have hg := ((urdf_numbers parse axisNode "xyz" 3).2.1 0).1 h1
        obtain ⟨text, ht, -⟩ := id hg
        refine .inr ⟨.badAttribute axisNode.tag "xyz" text, ?_, fun _ => .noDirection axisNode text hc ht hg rfl⟩
        simp only [readAxis, hc, h1, bind, Except.bind, vtryNormalized_none, okOr, ht, badAttribute,
          Option.getD_some]
      · refine .inl ⟨vnormalized (o.getD ![1, 0, 0]), o.getD ![1, 0, 0], ?_,
          .inr ⟨axisNode, hc, fixed_ok parse h1 _⟩, e1 _ hz⟩
        simp only [readAxis, hc, h1, bind, Except.bind, vtryNormalized_some hz, okOr]

theorem readLimits_cases (node : XmlNode) :
    (∃ limitNode lower upper, readLimits parse node ((node.attr "name").getD "joint") = .ok (lower, upper) ∧
      node.child "limit" = some limitNode ∧
      GivesOne parse limitNode "lower" lower ∧ GivesOne parse limitNode "upper" upper) ∨
    ∃ e, readLimits parse node ((node.attr "name").getD "joint") = .error e ∧
      ∀ kind, kind ≠ .continuous → MovableRefused parse node kind e := by
  cases hc : node.child "limit" with
  | none =>
    exact .inr ⟨_, by simp only [readLimits, hc, okOr, bind, Except.bind], fun kind hk =>
      .needsLimit hk (by simp [hc]) rfl⟩
  | some ln =>
    rcases parseScalar_cases parse ln "lower" with ⟨h, hf⟩ | ⟨lo, hlo, hf⟩ | ⟨e, he, hf⟩
    · refine .inr ⟨_, by simp only [readLimits, hc, okOr, bind, Except.bind, hf], fun kind hk =>
        .needsLimit hk ?_ rfl⟩
      intro l hl
      rw [hc] at hl; cases hl
      exact .inl h
    · rcases parseScalar_cases parse ln "upper" with ⟨h, hf'⟩ | ⟨hi, hhi, hf'⟩ | ⟨e, he, hf'⟩
      · refine .inr ⟨_, by simp only [readLimits, hc, okOr, bind, Except.bind, hf, hf'], fun kind hk =>
          .needsLimit hk ?_ rfl⟩
        intro l hl
        rw [hc] at hl; cases hl
        exact .inr h
      · exact .inl ⟨ln, lo, hi, by simp only [readLimits, hc, okOr, bind, Except.bind, hf, hf'], rfl, hlo, hhi⟩
      · exact .inr ⟨e, by simp only [readLimits, hc, okOr, bind, Except.bind, hf, hf'], fun kind hk =>
          .limit ln _ hk hc (by simp) he⟩
    · exact .inr ⟨e, by simp only [readLimits, hc, okOr, bind, Except.bind, hf], fun kind hk =>
        .limit ln _ hk hc (by simp) he⟩

theorem dynamicsSetting_cases (node : XmlNode) (name : String) (hn : name ∈ ["damping", "friction"]) :
    (∃ x, dynamicsSetting parse node name = .ok x ∧ StatesDynamics parse node name x) ∨
    ∃ e, dynamicsSetting parse node name = .error e ∧ ∀ kind, MovableRefused parse node kind e := by
  cases hc : node.child "dynamics" with
  | none => exact .inl ⟨0, by simp [dynamicsSetting, hc], .inl ⟨hc, rfl⟩⟩
  | some dn =>
    cases hf : parseScalar parse dn name with
    | ok o =>
      exact .inl ⟨o.getD 0, by simp [dynamicsSetting, hc, bind, Except.bind, hf],
        .inr ⟨dn, hc, parseScalar_ok parse hf 0⟩⟩
    | error e =>
      exact .inr ⟨e, by simp [dynamicsSetting, hc, bind, Except.bind, hf], fun kind =>
        .dynamics dn name hc hn (parseScalar_error parse hf)⟩

theorem readMimic_cases (node : XmlNode) :
    (∃ m, readMimic parse node = .ok m ∧ StatesMimic parse node m) ∨
    ∃ e, readMimic parse node = .error e ∧ ∀ kind, MovableRefused parse node kind e := by
  cases hc : node.child "mimic" with
  | none => exact .inl ⟨none, by simp [readMimic, hc], hc⟩
  | some mn =>
    cases hj : mn.attr "joint" with
    | none =>
      exact .inr ⟨_, by simp only [readMimic, hc, hj, okOr, bind, Except.bind]; rfl, fun kind =>
        .noLeader mn hc hj rfl⟩
    | some joint =>
      cases hf : parseScalar parse mn "multiplier" with
      | error e =>
        exact .inr ⟨e, by simp only [readMimic, hc, hj, okOr, bind, Except.bind, hf], fun kind =>
          .mimic mn _ hc (by simp) (parseScalar_error parse hf)⟩
      | ok o =>
        cases hf' : parseScalar parse mn "offset" with
        | error e =>
          exact .inr ⟨e, by simp only [readMimic, hc, hj, okOr, bind, Except.bind, hf, hf'], fun kind =>
            .mimic mn _ hc (by simp) (parseScalar_error parse hf')⟩
        | ok o' =>
          exact .inl ⟨some ⟨joint, o.getD 1, o'.getD 0⟩,
            by simp only [readMimic, hc, hj, okOr, bind, Except.bind, hf, hf'],
            mn, hc, hj, parseScalar_ok parse hf 1, parseScalar_ok parse hf' 0⟩

theorem movable_cases (node : XmlNode) (kind : JointKind) :
    (∃ d, movable parse node ((node.attr "name").getD "joint") kind = .ok d ∧ Portrays parse node kind d) ∨
    ∃ e, movable parse node ((node.attr "name").getD "joint") kind = .error e ∧
      MovableRefused parse node kind e := by
  rcases readAxis_cases parse node with ⟨u, a, hr, haxis⟩ | ⟨e, he, he'⟩
  swap
  · exact .inr ⟨e, by simp only [movable, bind, Except.bind, he], he' kind⟩
  have hlim : (∃ l, readTravel parse node ((node.attr "name").getD "joint") kind = .ok l ∧
        ((kind = .continuous ∧ l = none) ∨
          kind ≠ .continuous ∧ ∃ limitNode lower upper, node.child "limit" = some limitNode ∧
          GivesOne parse limitNode "lower" lower ∧ GivesOne parse limitNode "upper" upper ∧
          l = some (lower, upper))) ∨
      ∃ e, readTravel parse node ((node.attr "name").getD "joint") kind = .error e ∧
        MovableRefused parse node kind e := by
    by_cases hk : kind = .continuous
    · subst hk
      exact .inl ⟨none, rfl, .inl ⟨rfl, rfl⟩⟩
    · rcases readLimits_cases parse node with ⟨ln, lo, hi, h1, h2, h3, h4⟩ | ⟨e, h1, h2⟩
      · refine .inl ⟨some (lo, hi), ?_, .inr ⟨hk, ln, lo, hi, h2, h3, h4, rfl⟩⟩
        cases kind <;> first | exact absurd rfl hk | simp only [readTravel, bind, Except.bind, h1]
      · refine .inr ⟨e, ?_, h2 kind hk⟩
        cases kind <;> first | exact absurd rfl hk | simp only [readTravel, bind, Except.bind, h1]
  rcases hlim with ⟨l, hl, hl'⟩ | ⟨e, he, he'⟩
  swap
  · refine .inr ⟨e, ?_, he'⟩
    simp only [movable, bind, Except.bind, hr, he]
  rcases dynamicsSetting_cases parse node "damping" (by simp) with ⟨x, hx, hx'⟩ | ⟨e, he, he'⟩
  swap
  · refine .inr ⟨e, ?_, he' kind⟩
    simp only [movable, bind, Except.bind, hr, hl, he]
  rcases dynamicsSetting_cases parse node "friction" (by simp) with ⟨y, hy, hy'⟩ | ⟨e, he, he'⟩
  swap
  · refine .inr ⟨e, ?_, he' kind⟩
    simp only [movable, bind, Except.bind, hr, hl, hx, he]
  rcases readMimic_cases parse node with ⟨m, hm, hm'⟩ | ⟨e, he, he'⟩
  swap
  · refine .inr ⟨e, ?_, he' kind⟩
    simp only [movable, bind, Except.bind, hr, hl, hx, hy, he]
  refine .inl ⟨⟨(node.attr "name").getD "joint", kind, u, fun _ => 0, l, 0, 0, x, y, 0, 0, m⟩, ?_, ?_⟩
  · unfold movable
    rw [hr, hl, hx, hy, hm]
    rfl
  · exact ⟨rfl, rfl, ⟨a, haxis⟩, hl', hx', hy', hm', rfl, rfl, rfl, rfl, rfl⟩

/-- What can be wrong with the element of a joint. -/
inductive JointRefused (node : XmlNode) (e : ReadError) : Prop
  | noParent (h : ∀ c, node.child "parent" = some c → c.attr "link" = none)
      (he : e = .badAttribute node.tag "parent" "")
  | noChild (h : ∀ c, node.child "child" = some c → c.attr "link" = none)
      (he : e = .badAttribute node.tag "child" "")
  | kind (c link) (hc : node.child "child" = some c) (hl : c.attr "link" = some link)
      (h : node.attr "type" ∉
        [some "revolute", some "continuous", some "prismatic", some "fixed", some "floating"])
      (he : e = .unsupportedJoint link ((node.attr "type").getD ""))
  | originXyz (origin) (h : node.child "origin" = some origin) (hg : Garbled parse origin "xyz" 3 e)
  | originRpy (origin) (h : node.child "origin" = some origin) (hg : Garbled parse origin "rpy" 3 e)
  | movable (kind) (h : node.attr "type" = some "revolute" ∧ kind = .revolute ∨
      node.attr "type" = some "continuous" ∧ kind = .continuous ∨
      node.attr "type" = some "prismatic" ∧ kind = .prismatic) (hr : MovableRefused parse node kind e)

theorem linked_cases (node : XmlNode) (tag : String) :
    (∃ c link, linked node tag = .ok link ∧ node.child tag = some c ∧ c.attr "link" = some link) ∨
    linked node tag = .error (.badAttribute node.tag tag "") ∧
      ∀ c, node.child tag = some c → c.attr "link" = none := by
  cases hc : node.child tag with
  | none => exact .inr ⟨by simp [linked, hc, okOr, badAttribute], by simp⟩
  | some c =>
    cases hl : c.attr "link" with
    | none => exact .inr ⟨by simp [linked, hc, hl, okOr, badAttribute], by simp [hl]⟩
    | some link => exact .inl ⟨c, link, by simp [linked, hc, hl, okOr], rfl, hl⟩

/-- C112. A `<joint>` is read as it is meant: between the links it names, at the pose of its `<origin>`,
of the kind its `type` says; one that moves has the direction of its `<axis>` at unit length, the travel
of its `<limit>` unless it is continuous, and the damping, friction and leader it states.  It is refused
only for what is missing, unreadable, of no known type or without direction. -/
theorem urdf_joint (node : XmlNode) :
    (∃ j pc cc, readJoint parse node = .ok j ∧ j.name = (node.attr "name").getD "joint" ∧
      node.child "parent" = some pc ∧ pc.attr "link" = some j.parentLink ∧
      node.child "child" = some cc ∧ cc.attr "link" = some j.childLink ∧ Stands parse node j.origin ∧
      ((node.attr "type" = some "fixed" ∧ j.description = none) ∨
        (node.attr "type" = some "floating" ∧ ∃ d, j.description = some d ∧ d.kind = .floating ∧
          d.name = j.name) ∨
        ∃ d kind, j.description = some d ∧ Portrays parse node kind d ∧
          (node.attr "type" = some "revolute" ∧ kind = .revolute ∨
            node.attr "type" = some "continuous" ∧ kind = .continuous ∨
            node.attr "type" = some "prismatic" ∧ kind = .prismatic))) ∨
    ∃ e, readJoint parse node = .error e ∧ JointRefused parse node e := by
  rcases linked_cases node "parent" with ⟨pc, pl, h1, h2, h3⟩ | ⟨h1, h2⟩
  swap
  · exact .inr ⟨_, by simp only [readJoint, bind, Except.bind, h1], .noParent h2 rfl⟩
  rcases linked_cases node "child" with ⟨cc, cl, h4, h5, h6⟩ | ⟨h4, h5⟩
  swap
  · exact .inr ⟨_, by simp only [readJoint, bind, Except.bind, h1, h4], .noChild h5 rfl⟩
  cases hk : jointKind ((node.attr "type").getD "") with
  | none =>
    refine .inr ⟨_, by simp only [readJoint, bind, Except.bind, h1, h4, hk, okOr], .kind cc cl h5 h6 ?_ rfl⟩
    intro hmem
    simp only [List.mem_cons, List.not_mem_nil, or_false] at hmem
    rcases hmem with h | h | h | h | h <;> simp [h, jointKind] at hk
  | some kind =>
  rcases urdf_origin parse node with ⟨p, hp, hs⟩ | ⟨e, origin, he, ho, hg⟩
  swap
  · refine .inr ⟨e, by simp only [readJoint, bind, Except.bind, h1, h4, hk, okOr, he], ?_⟩
    rcases hg with hg | hg
    · exact .originXyz origin ho hg
    · exact .originRpy origin ho hg
  have hkind : (node.attr "type" = some "fixed" ∧ kind = .fixed) ∨
      (node.attr "type" = some "floating" ∧ kind = .floating) ∨
      (node.attr "type" = some "revolute" ∧ kind = .revolute ∨
        node.attr "type" = some "continuous" ∧ kind = .continuous ∨
        node.attr "type" = some "prismatic" ∧ kind = .prismatic) := by
    cases ht : node.attr "type" with
    | none => rw [ht] at hk; simp [jointKind] at hk
    | some t =>
      rw [ht, Option.getD_some] at hk
      unfold jointKind at hk
      split_ifs at hk with a1 a2 a3 a4 a5 <;> simp_all
  rcases hkind with ⟨ht, rfl⟩ | ⟨ht, rfl⟩ | hmv
  · left
    refine ⟨⟨(node.attr "name").getD "joint", pl, cl, p, none⟩, pc, cc, ?_, rfl, h2, h3, h5, h6, hs, .inl ⟨ht, rfl⟩⟩
    simp only [readJoint, bind, Except.bind, h1, h4, hk, okOr, hp]
  · left
    refine ⟨⟨(node.attr "name").getD "joint", pl, cl, p,
      some (Mjcf.floatingDescription ((node.attr "name").getD "joint"))⟩, pc, cc, ?_, rfl, h2, h3, h5, h6, hs,
      .inr (.inl ⟨ht, _, rfl, rfl, rfl⟩)⟩
    simp only [readJoint, bind, Except.bind, h1, h4, hk, okOr, hp]
  · rcases movable_cases parse node kind with ⟨d, hd, hd'⟩ | ⟨e, he, he'⟩
    · left
      refine ⟨⟨(node.attr "name").getD "joint", pl, cl, p, some d⟩, pc, cc, ?_, rfl, h2, h3, h5, h6, hs,
        .inr (.inr ⟨d, kind, rfl, hd', hmv⟩)⟩
      simp only [readJoint, bind, Except.bind, h1, h4, hk, okOr, hp, hd]
      rcases hmv with ⟨-, rfl⟩ | ⟨-, rfl⟩ | ⟨-, rfl⟩ <;> simp only [hd]
    · right
      refine ⟨e, ?_, .movable kind hmv he'⟩
      simp only [readJoint, bind, Except.bind, h1, h4, hk, okOr, hp]
      rcases hmv with ⟨-, rfl⟩ | ⟨-, rfl⟩ | ⟨-, rfl⟩ <;> simp only [he]

/-! ### Whole documents -/

theorem mapM_except_ok {ε A B : Type} (f : A → Except ε B) (l : List A) (ys : List B) :
    l.mapM f = .ok ys ↔ List.Forall₂ (fun x y => f x = .ok y) l ys := by
  induction l generalizing ys with
  | nil =>
    cases ys with
    | nil => simp [pure, Except.pure]
    | cons y ys => simp [pure, Except.pure]
  | cons a l ih =>
    rw [List.mapM_cons, bind_ok]
    constructor
    · rintro ⟨y, hy, h⟩
      rw [bind_ok] at h
      obtain ⟨zs, hz, h⟩ := h
      cases h
      exact .cons hy ((ih zs).1 hz)
    · intro h
      cases h with
      | cons hy h =>
        refine ⟨_, hy, ?_⟩
        rw [bind_ok]
        exact ⟨_, (ih _).2 h, rfl⟩

theorem mapM_except_error {ε A B : Type} (f : A → Except ε B) (l : List A) (e : ε) (h : l.mapM f = .error e) :
    ∃ x ∈ l, f x = .error e := by
  induction l with
  | nil => simp [pure, Except.pure] at h
  | cons a l ih =>
    rw [List.mapM_cons, bind_error] at h
    rcases h with h | ⟨y, hy, h⟩
    · exact ⟨a, by simp, h⟩
    · rw [bind_error] at h
      rcases h with h | ⟨zs, hz, h⟩
      · obtain ⟨x, hx, hf⟩ := ih h
        exact ⟨x, by simp [hx], hf⟩
      · cases h

theorem dedup_spec (l : List String) (h : l.Pairwise (· ≤ ·)) :
    (dedup l).Pairwise (· < ·) ∧ ∀ s, s ∈ dedup l ↔ s ∈ l := by
  induction l with
  | nil => simp [dedup]
  | cons a l ih =>
    obtain ⟨ih1, ih2⟩ := ih h.of_cons
    cases l with
    | nil => simp [dedup]
    | cons b rest =>
      rw [dedup]
      split
      · rename_i hab
        subst hab
        refine ⟨ih1, fun s => ?_⟩
        rw [ih2]
        simp
      · rename_i hab
        refine ⟨List.pairwise_cons.2 ⟨fun c hc => ?_, ih1⟩, fun s => ?_⟩
        · have h1 := (List.pairwise_cons.1 h).1
          have h2 := (List.pairwise_cons.1 h.of_cons).1
          rw [ih2] at hc
          have hb : a < b := lt_of_le_of_ne (h1 b (by simp)) hab
          rcases List.mem_cons.1 hc with rfl | hc
          · exact hb
          · exact hb.trans_le (h2 c hc)
        · rw [List.mem_cons, ih2, ← List.mem_cons]

/-- The body at place `i` is what the document says about one of its links: the link's name and
inertia, and the pose and joint of the `<joint>` whose child it is, which starts from an earlier body. -/
def Embodies (root : XmlNode) (bodies : List (BodyDescription ℝ)) (i : ℕ) (b : BodyDescription ℝ) : Prop :=
  ∃ linkNode ∈ root.elements "link", b.name = (linkNode.attr "name").getD "link" ∧
    (linkNode.child "inertial" = none → b.inertia = none) ∧
    (∀ inertial, linkNode.child "inertial" = some inertial →
      ∃ B, b.inertia = some B ∧ readInertial parse inertial = .ok B) ∧
    ((i = 0 ∧ b.parent = none ∧ b.pose = SE3.identity ∧ b.joint = none) ∨
      ∃ jointNode ∈ root.elements "joint", ∃ j q b', readJoint parse jointNode = .ok j ∧
        j.childLink = b.name ∧ q < i ∧ b.parent = some q ∧ bodies[q]? = some b' ∧ b'.name = j.parentLink ∧
        b.pose = j.origin ∧ b.joint = j.description)

/-- What can be wrong with a document. -/
inductive LoadRefused (root : XmlNode) (e : ReadError) : Prop
  | root (h : root.tag ≠ "robot") (he : e = .unexpectedRootElement root.tag)
  | link (linkNode inertial) (hm : linkNode ∈ root.elements "link") (hc : linkNode.child "inertial" = some inertial)
      (h : readInertial parse inertial = .error e)
  | joint (jointNode) (hm : jointNode ∈ root.elements "joint") (h : readJoint parse jointNode = .error e)
  | tree (links joints e') (hl : List.Forall₂ (fun n l => readLink parse n = .ok l) (root.elements "link") links)
      (hj : List.Forall₂ (fun n j => readJoint parse n = .ok j) (root.elements "joint") joints)
      (h : BuildRefused links joints e') (he : e = .tree e')

theorem readLink_ok {node : XmlNode} {l : ParsedLink ℝ} (h : readLink parse node = .ok l) :
    l.name = (node.attr "name").getD "link" ∧
    (node.child "inertial" = none → l.inertia = none) ∧
    ∀ inertial, node.child "inertial" = some inertial →
      ∃ B, l.inertia = some B ∧ readInertial parse inertial = .ok B := by
  cases hc : node.child "inertial" with
  | none =>
    simp only [readLink, hc, bind, Except.bind] at h
    cases h
    exact ⟨rfl, fun _ => rfl, by simp⟩
  | some inode =>
    cases hr : readInertial parse inode with
    | error e => simp only [readLink, hc, bind, Except.bind, hr] at h; cases h
    | ok B =>
      simp only [readLink, hc, bind, Except.bind, hr] at h
      cases h
      refine ⟨rfl, by simp, ?_⟩
      rintro i ⟨⟩
      exact ⟨B, rfl, hr⟩

theorem readLink_error {node : XmlNode} {e : ReadError} (h : readLink parse node = .error e) :
    ∃ inertial, node.child "inertial" = some inertial ∧ readInertial parse inertial = .error e := by
  cases hc : node.child "inertial" with
  | none => simp only [readLink, hc, bind, Except.bind] at h; cases h
  | some inode =>
    cases hr : readInertial parse inode with
    | error e' =>
      simp only [readLink, hc, bind, Except.bind, hr] at h
      cases h
      exact ⟨inode, rfl, hr⟩
    | ok B => simp only [readLink, hc, bind, Except.bind, hr] at h; cases h

/-- C112. Loading a document: the root must be `<robot>`, and every `<link>` and `<joint>` in it must be
readable and together they must form a tree; then the model has one body for every link, each with the
name, inertia, pose and joint the document states, and lists, once each and in order, the top-level
elements that were not read.  `NoBodies` never occurs: a document without links has no root link. -/
theorem urdf_load (root : XmlNode) :
    (∃ m, load parse root = .ok m ∧ root.tag = "robot" ∧ m.name = (root.attr "name").getD "model" ∧
      m.floatingBase = false ∧ m.bodies ≠ [] ∧ m.bodies.length = (root.elements "link").length ∧
      (∀ i b, m.bodies[i]? = some b → Embodies parse root m.bodies i b) ∧
      (∀ linkNode ∈ root.elements "link", ∃ b ∈ m.bodies, b.name = (linkNode.attr "name").getD "link") ∧
      m.ignored.Pairwise (· < ·) ∧
      ∀ s, s ∈ m.ignored ↔ (∃ c ∈ root.children, c.isElement = true ∧ c.tag = s) ∧ s ≠ "link" ∧ s ≠ "joint") ∨
    ∃ e, load parse root = .error e ∧ e ≠ .noBodies ∧ LoadRefused parse root e := by
  by_cases hroot : root.tag = "robot"
  swap
  · exact .inr ⟨_, by rw [load, if_pos hroot], by simp, .root hroot rfl⟩
  cases hl : (root.elements "link").mapM (readLink parse) with
  | error e =>
    obtain ⟨x, hx, hf⟩ := mapM_except_error _ _ _ hl
    obtain ⟨inertial, hc, hr⟩ := readLink_error parse hf
    refine .inr ⟨e, by simp only [load, hroot, ne_eq, not_true_eq_false, if_false, bind, Except.bind, hl], ?_,
      .link x inertial hx hc hr⟩
    rintro rfl
    rcases urdf_inertial parse inertial with ⟨B, _, _, _, h, -⟩ | ⟨e, h, h'⟩
    · rw [hr] at h; cases h
    · rw [hr] at h; cases h
      rcases h' with h' | ⟨s, _, _, h', -⟩
      · rcases h' with ⟨_, -, _, -, -, h⟩ | ⟨_, -, _, -, -, h⟩ | ⟨-, h⟩ | ⟨_, -, ⟨_, -, -, h⟩ | ⟨-, h⟩⟩ | ⟨-, h⟩ |
          ⟨_, _, -, -, ⟨_, -, -, h⟩ | ⟨-, h⟩⟩ <;> cases h
      · cases h'
  | ok links =>
  cases hj : (root.elements "joint").mapM (readJoint parse) with
  | error e =>
    obtain ⟨x, hx, hf⟩ := mapM_except_error _ _ _ hj
    refine .inr ⟨e, by simp only [load, hroot, ne_eq, not_true_eq_false, if_false, bind, Except.bind, hl, hj], ?_,
      .joint x hx hf⟩
    rintro rfl
    rcases urdf_joint parse x with ⟨_, _, _, h, -⟩ | ⟨e, h, h'⟩
    · rw [hf] at h; cases h
    · rw [hf] at h; cases h
      rcases h' with ⟨-, h⟩ | ⟨-, h⟩ | ⟨_, _, -, -, -, h⟩ | ⟨_, -, _, -, -, h⟩ | ⟨_, -, _, -, -, h⟩ | ⟨_, -, h⟩
      iterate 5 cases h
      rcases h with ⟨_, -, _, -, -, h⟩ | ⟨_, _, -, -, -, h⟩ | ⟨-, -, h⟩ | ⟨_, _, -, -, -, _, -, -, h⟩ |
        ⟨_, _, -, -, _, -, -, h⟩ | ⟨_, -, -, h⟩ | ⟨_, _, -, -, _, -, -, h⟩ <;> cases h
  | ok joints =>
  have hl' := (mapM_except_ok _ _ _).1 hl
  have hj' := (mapM_except_ok _ _ _).1 hj
  cases hb : build links joints with
  | error e =>
    exact .inr ⟨.tree e, by
      simp only [load, hroot, ne_eq, not_true_eq_false, if_false, bind, Except.bind, hl, hj, hb], by simp,
      .tree links joints e hl' hj' (urdf_build_error hb) rfl⟩
  | ok bodies =>
  obtain ⟨tree, r, child, visit, hperm, hgood, -, -, -⟩ := urdf_build_ok hb
  have hlen : bodies.length = links.length := by rw [hgood.1, hperm.length_eq, List.length_range]
  have hne : bodies ≠ [] := by
    obtain ⟨r, hr, -⟩ := tree.rooted
    intro h
    rw [h] at hlen
    simp at hlen
    omega
  have hload : load parse root =
      .ok ⟨(root.attr "name").getD "model", bodies, false, ignoredSections root ["link", "joint"]⟩ := by
    have : bodies.isEmpty = false := by simpa using hne
    simp only [load, hroot, ne_eq, not_true_eq_false, if_false, bind, Except.bind, hl, hj, hb, this]
    rfl
  have hlink : ∀ (x : ℕ) (l : ParsedLink ℝ), links[x]? = some l → ∃ n ∈ root.elements "link", readLink parse n = .ok l := by
    intro x l hx
    obtain ⟨hx', rfl⟩ := List.getElem?_eq_some_iff.1 hx
    have hx2 : x < (root.elements "link").length := by rw [hl'.length_eq]; exact hx'
    exact ⟨(root.elements "link")[x], List.getElem_mem _, hl'.get hx2 hx'⟩
  have hjoint : ∀ (x : ℕ) (j : ParsedJoint ℝ), joints[x]? = some j →
      ∃ n ∈ root.elements "joint", readJoint parse n = .ok j := by
    intro x l hx
    obtain ⟨hx', rfl⟩ := List.getElem?_eq_some_iff.1 hx
    have hx2 : x < (root.elements "joint").length := by rw [hj'.length_eq]; exact hx'
    exact ⟨(root.elements "joint")[x], List.getElem_mem _, hj'.get hx2 hx'⟩
  refine .inl ⟨_, hload, hroot, rfl, rfl, hne, hlen.trans hl'.length_eq.symm, ?_, ?_, ?_⟩
  · intro i b hi
    change bodies[i]? = some b at hi
    have hi' : i < (visit r).length := by rw [← hgood.1]; exact (List.getElem?_eq_some_iff.1 hi).1
    obtain ⟨⟨l, hl, hn, hin⟩, hd⟩ := hgood.2 i _ b (List.getElem?_eq_getElem hi') hi
    obtain ⟨n, hnm, hnr⟩ := hlink _ _ hl
    obtain ⟨e1, e2, e3⟩ := readLink_ok parse hnr
    refine ⟨n, hnm, hn.trans e1, fun h => hin.trans (e2 h), fun inertial h => by rw [hin]; exact e3 inertial h, ?_⟩
    rcases hd with ⟨h0, -, h1, h2, h3⟩ | ⟨k, p, q, j, hJ, hjk, hq, hqp, h1, h2, h3⟩
    · exact .inl ⟨h0, h1, h2, h3⟩
    · right
      obtain ⟨jn, hjm, hjr⟩ := hjoint _ _ hjk
      obtain ⟨j', hj1, ⟨⟨lp, hlp, hlpn⟩, -⟩, ⟨lc, hlc, hlcn⟩, -⟩ := hJ
      rw [hjk] at hj1; cases hj1
      rw [hl] at hlc; cases hlc
      have hqb : q < bodies.length := hq.trans (List.getElem?_eq_some_iff.1 hi).1
      obtain ⟨⟨l2, hl2, hn2, -⟩, -⟩ := hgood.2 q p bodies[q] hqp (List.getElem?_eq_getElem hqb)
      rw [hlp] at hl2; cases hl2
      exact ⟨jn, hjm, j, q, bodies[q], hjr, hlcn.symm.trans hn.symm, hq, h1, List.getElem?_eq_getElem hqb,
        hn2.trans hlpn, h2, h3⟩
  · intro n hn
    obtain ⟨x, hx, rfl⟩ := List.getElem_of_mem hn
    have hx' : x < links.length := by rw [← hl'.length_eq]; exact hx
    have hr := hl'.get hx hx'
    have hmem : x ∈ visit r := hperm.mem_iff.2 (List.mem_range.2 hx')
    obtain ⟨i, hi, hix⟩ := List.getElem_of_mem hmem
    have hib : i < bodies.length := by rw [hgood.1]; exact hi
    obtain ⟨⟨l, hl, hnm, -⟩, -⟩ := hgood.2 i x bodies[i] (by rw [List.getElem?_eq_getElem hi, hix])
      (List.getElem?_eq_getElem hib)
    rw [List.getElem?_eq_getElem hx'] at hl; cases hl
    exact ⟨bodies[i], List.getElem_mem _, hnm.trans (readLink_ok parse hr).1⟩
  · have hs := sortNames_spec (((root.children.filter fun n => n.isElement).map fun n => n.tag).filter
      fun name => !((["link", "joint"] : List String).contains name))
    have hd := dedup_spec _ hs.2
    refine ⟨hd.1, fun s => ?_⟩
    show s ∈ ignoredSections root ["link", "joint"] ↔ _
    rw [ignoredSections, hd.2, hs.1.mem_iff]
    simp only [List.mem_filter, List.mem_map, List.contains_eq_mem, List.mem_cons, List.not_mem_nil, or_false,
      Bool.not_eq_true', decide_eq_false_iff_not, not_or]
    constructor
    · rintro ⟨⟨c, ⟨h1, h2⟩, h3⟩, h4⟩
      exact ⟨⟨c, h1, h2, h3⟩, h4⟩
    · rintro ⟨⟨c, h1, h2, h3⟩, h4⟩
      exact ⟨⟨c, ⟨h1, h2⟩, h3⟩, h4⟩

/-! ### Examples -/

/-- A reader of numbers that knows only a few. -/
def fewNumbers {T : Type} [Zero T] [One T] [NatCast T] [Neg T] (s : String) : Option T :=
  if s = "0" then some 0 else if s = "1" then some 1 else if s = "-1" then some (-1)
  else if s = "2" then some ((2 : ℕ) : T) else none

example : Gives (fewNumbers (T := ℚ)) (.element "axis" [("xyz", " 0\n2  1 ")] []) "xyz" ![0, 2, 1] := by
  refine ⟨" 0\n2  1 ", rfl, [['0'], ['2'], ['1']], ?_, rfl, ?_⟩
  · refine .more [' '] ['0'] '\n' ['2', ' ', ' ', '1', ' '] _ ?_ ?_ ?_ ?_
      (.more [] ['2'] ' ' [' ', '1', ' '] _ ?_ ?_ ?_ ?_ (.more [' '] ['1'] ' ' [] _ ?_ ?_ ?_ ?_ (.blank [] ?_))) <;>
    decide
  · intro i
    fin_cases i <;> rfl

example : Garbled (fewNumbers (T := ℚ)) (.element "axis" [("xyz", "0 2")] []) "xyz" 3
    (.badAttribute "axis" "xyz" "0 2") := by
  rw [← (urdf_numbers _ _ _ _).2.2.1]
  rfl

/-- A hinge from a base to an arm, a metre up and turned, about an axis of length two. -/
def hinge : XmlNode :=
  .element "joint" [("name", "shoulder"), ("type", "revolute")]
    [.other, .element "parent" [("link", "base")] [], .element "child" [("link", "arm")] [],
      .element "origin" [("xyz", "0 0 1"), ("rpy", "1 0 -1")] [],
      .element "axis" [("xyz", "0 2 0")] [], .element "limit" [("lower", "-1"), ("upper", "1")] []]

example : ∃ j, readJoint fewNumbers hinge = .ok j ∧ j.parentLink = "base" ∧ j.childLink = "arm" ∧
    Stands fewNumbers hinge j.origin ∧
    (∀ x, j.origin.act x = rotZ (-1) *ᵥ (rotY 0 *ᵥ (rotX 1 *ᵥ x)) + ![0, 0, 1]) ∧
    ∃ d, j.description = some d ∧ d.kind = .revolute ∧ Portrays fewNumbers hinge .revolute d ∧
      d.limits = some (-1, 1) := by
  have hax : readAxis (fewNumbers (T := ℝ)) hinge = .ok (vnormalized ![0, 2, 0]) := by
    have h0 : (![0, 2, 0] : Fin 3 → ℝ) ≠ 0 := fun h => by
      have := congrFun h 1
      simp at this
    have h1 : readAxis (fewNumbers (T := ℝ)) hinge =
        okOr (badAttribute (.element "axis" [("xyz", "0 2 0")] []) "xyz" "0 2 0")
          (vtryNormalized fun i => [(0 : ℝ), ((2 : ℕ) : ℝ), 0][i]) := rfl
    have h2 : (fun i : Fin 3 => [(0 : ℝ), ((2 : ℕ) : ℝ), 0][i]) = ![0, 2, 0] := by
      funext i
      fin_cases i <;> simp
    rw [h1, h2, vtryNormalized_some h0]
    rfl
  have hl : readTravel (fewNumbers (T := ℝ)) hinge "shoulder" .revolute = .ok (some (-1, 1)) := rfl
  have hm : movable (fewNumbers (T := ℝ)) hinge "shoulder" .revolute =
      .ok ⟨"shoulder", .revolute, vnormalized ![0, 2, 0], fun _ => 0, some (-1, 1), 0, 0, 0, 0, 0, 0, none⟩ := by
    simp only [movable, bind, Except.bind, hax, hl]
    rfl
  rcases urdf_joint fewNumbers hinge with ⟨j, pc, cc, h, -, h1, h2, h3, h4, hs, hk⟩ | ⟨e, h, -⟩
  · refine ⟨j, h, ?_, ?_, hs, fun x => ?_, ?_⟩
    · cases h1
      exact (Option.some.inj h2).symm
    · cases h3
      exact (Option.some.inj h4).symm
    · rcases hs.2 with ⟨ho, -⟩ | ⟨origin, xyz, rpy, ho, hx, hr, hact⟩
      · cases ho
      · cases ho
        have ex : xyz = ![0, 0, 1] := by
          rcases hx with hx | ⟨hx, -⟩
          · refine hx.unique fewNumbers ?_
            rw [← (urdf_numbers _ _ _ _).2.1]
            refine congrArg (fun v => Except.ok (some v)) (?_ : (fun i : Fin 3 => [(0 : ℝ), 0, 1][i]) = _)
            funext i
            fin_cases i <;> rfl
          · cases hx
        have er : rpy = ![1, 0, -1] := by
          rcases hr with hx | ⟨hx, -⟩
          · refine hx.unique fewNumbers ?_
            rw [← (urdf_numbers _ _ _ _).2.1]
            refine congrArg (fun v => Except.ok (some v)) (?_ : (fun i : Fin 3 => [(1 : ℝ), 0, -1][i]) = _)
            funext i
            fin_cases i <;> rfl
          · cases hx
        rw [hact, ex, er]
        rfl
    · rcases hk with ⟨hk, -⟩ | ⟨hk, -⟩ | ⟨d, kind, hd, hp, hk⟩
      · simp [hinge, XmlNode.attr] at hk
      · simp [hinge, XmlNode.attr] at hk
      · have hkind : kind = .revolute := by
          rcases hk with ⟨-, h⟩ | ⟨h, -⟩ | ⟨h, -⟩
          · exact h
          · simp [hinge, XmlNode.attr] at h
          · simp [hinge, XmlNode.attr] at h
        subst hkind
        refine ⟨d, hd, hp.kind, hp, ?_⟩
        rcases hp.limits with ⟨h, -⟩ | ⟨-, ln, lo, hi, hln, hlo, hhi, hd⟩
        · rw [hp.kind] at h; cases h
        · cases hln
          have e1 : lo = -1 := by
            refine congrFun (hlo.unique fewNumbers (?_ : GivesOne fewNumbers _ "lower" (-1 : ℝ))) 0
            rw [GivesOne, ← (urdf_numbers _ _ _ _).2.1]
            refine congrArg (fun v => Except.ok (some v)) (?_ : (fun i : Fin 1 => [(-1 : ℝ)][i]) = _)
            funext i
            fin_cases i
            rfl
          have e2 : hi = 1 := by
            refine congrFun (hhi.unique fewNumbers (?_ : GivesOne fewNumbers _ "upper" (1 : ℝ))) 0
            rw [GivesOne, ← (urdf_numbers _ _ _ _).2.1]
            refine congrArg (fun v => Except.ok (some v)) (?_ : (fun i : Fin 1 => [(1 : ℝ)][i]) = _)
            funext i
            fin_cases i
            rfl
          rw [hd, e1, e2]
  · exfalso
    have : ∃ j, readJoint fewNumbers hinge = .ok (j : ParsedJoint ℝ) := by
      have ho : ∃ p, readOrigin (fewNumbers (T := ℝ)) hinge = .ok p := ⟨_, rfl⟩
      obtain ⟨p, hp⟩ := ho
      have a1 : linked hinge "parent" = .ok "base" := rfl
      have a2 : linked hinge "child" = .ok "arm" := rfl
      have a3 : jointKind ((hinge.attr "type").getD "") = some .revolute := rfl
      have a4 : (hinge.attr "name").getD "joint" = "shoulder" := rfl
      exact ⟨_, by simp only [readJoint, bind, Except.bind, a1, a2, a3, okOr, hp, a4, hm]; rfl⟩
    obtain ⟨j, hj⟩ := this
    rw [hj] at h
    cases h

/-- A joint that needs travel and has none, and a type that is not supported. -/
example : readJoint (fewNumbers (T := ℝ)) (.element "joint" [("type", "prismatic")]
      [.element "parent" [("link", "a")] [], .element "child" [("link", "b")] []]) =
      .error (.jointNeedsLimit "joint") ∧
    readJoint (fewNumbers (T := ℝ)) (.element "joint" [("type", "planar")]
      [.element "parent" [("link", "a")] [], .element "child" [("link", "b")] []]) =
      .error (.unsupportedJoint "b" "planar") := ⟨rfl, rfl⟩

/-- An inertial frame that is turned and displaced. -/
def tilted : XmlNode :=
  .element "inertial" []
    [.element "origin" [("xyz", "0 0 1"), ("rpy", "1 2 -1")] [], .element "mass" [("value", "2")] [],
      .element "inertia" [("ixx", "2"), ("ixy", "1"), ("ixz", "0"), ("iyy", "2"), ("iyz", "0"), ("izz", "1")] []]

theorem tilted_numbers {T : Type} [Zero T] [One T] [NatCast T] [Neg T] :
    ∃ mn inode, tilted.child "mass" = some mn ∧ tilted.child "inertia" = some inode ∧
      required (fewNumbers (T := T)) mn "value" = .ok ((2 : ℕ) : T) ∧
      required (fewNumbers (T := T)) inode "ixx" = .ok ((2 : ℕ) : T) ∧
      required (fewNumbers (T := T)) inode "ixy" = .ok 1 ∧ required (fewNumbers (T := T)) inode "ixz" = .ok 0 ∧
      required (fewNumbers (T := T)) inode "iyy" = .ok ((2 : ℕ) : T) ∧
      required (fewNumbers (T := T)) inode "iyz" = .ok 0 ∧ required (fewNumbers (T := T)) inode "izz" = .ok 1 :=
  ⟨_, _, rfl, rfl, rfl, rfl, rfl, rfl, rfl, rfl, rfl⟩

theorem tilted_origin {T : Type} [Zero T] [One T] [NatCast T] [Add T] [Sub T] [Mul T] [Div T] [Neg T] [LE T]
    [DecidableLE T] [LT T] [DecidableLT T] [BEq T] [Max T] [Min T] [Fns T] :
    ∃ p, readOrigin (fewNumbers (T := T)) tilted = .ok p := ⟨_, rfl⟩

theorem readInertial_stated {node mn inode : XmlNode} {p : SE3 ℝ} {m xx xy xz yy yz zz : ℝ}
    (hp : readOrigin parse node = .ok p) (q1 : node.child "mass" = some mn) (q2 : node.child "inertia" = some inode)
    (q3 : required parse mn "value" = .ok m) (q4 : required parse inode "ixx" = .ok xx)
    (q5 : required parse inode "ixy" = .ok xy) (q6 : required parse inode "ixz" = .ok xz)
    (q7 : required parse inode "iyy" = .ok yy) (q8 : required parse inode "iyz" = .ok yz)
    (q9 : required parse inode "izz" = .ok zz) :
    (∃ x, readInertial parse node = .ok x) ∨ ∃ s, readInertial parse node = .error (.inertia s) := by
  simp only [readInertial, bind, Except.bind, hp, q1, q2, q3, q4, q5, q6, q7, q8, q9, okOr]
  split
  · exact .inl ⟨_, rfl⟩
  · exact .inr ⟨_, rfl⟩

example : ∃ B, readInertial (fewNumbers (T := ℝ)) tilted =
      .ok B ∧ B.mass = 2 := by
  have one : ∀ (node : XmlNode) (name : String) (x : ℝ), required fewNumbers node name = .ok x →
      ∀ y, GivesOne fewNumbers node name y → y = x := fun node name x h y hy =>
    congrFun (hy.unique fewNumbers (required_ok fewNumbers h)) 0
  rcases urdf_inertial fewNumbers tilted
    with ⟨B, p, m, I, h, ⟨mn, inode, hm, hmv, -⟩, -, hB, -⟩ | ⟨e, h, h' | ⟨s, m, I, -, ⟨mn, inode, hm, hmv, hi, hsym, a1, a2, a3, a4, a5, a6⟩, hbad⟩⟩
  · obtain ⟨mn', inode', q1, q2, q3, -⟩ := tilted_numbers (T := ℝ)
    rw [q1] at hm; cases hm
    refine ⟨B, h, hB.trans ?_⟩
    rw [one _ _ _ q3 _ hmv]
    norm_num
  · exfalso
    have key : ∀ r : Except ReadError (SpatialInertia ℝ), (∃ x, r = .ok x) ∨ (∃ s, r = .error (.inertia s)) →
        r = .error e → ∃ s, e = .inertia s := by
      rintro _ (⟨x, rfl⟩ | ⟨s, rfl⟩) h
      · cases h
      · cases h; exact ⟨s, rfl⟩
    obtain ⟨s, rfl⟩ := key _ (by
      obtain ⟨p, hp⟩ : ∃ p, readOrigin (fewNumbers (T := ℝ)) tilted = .ok p := tilted_origin
      obtain ⟨mn, inode, q1, q2, q3, q4, q5, q6, q7, q8, q9⟩ := tilted_numbers (T := ℝ)
      exact readInertial_stated _ hp q1 q2 q3 q4 q5 q6 q7 q8 q9) h
    rcases h' with ⟨_, -, _, -, -, h⟩ | ⟨_, -, _, -, -, h⟩ | ⟨-, h⟩ | ⟨_, -, ⟨_, -, -, h⟩ | ⟨-, h⟩⟩ | ⟨-, h⟩ |
          ⟨_, _, -, -, ⟨_, -, -, h⟩ | ⟨-, h⟩⟩ <;> cases h
  · exfalso
    obtain ⟨mn', inode', q1, q2, q3, q4, q5, q6, q7, q8, q9⟩ := tilted_numbers (T := ℝ)
    rw [q1] at hm; cases hm
    rw [q2] at hi; cases hi
    have b1 := one _ _ _ q4 _ a1
    have b2 := one _ _ _ q5 _ a2
    have b3 := one _ _ _ q6 _ a3
    have b4 := one _ _ _ q7 _ a4
    have b5 := one _ _ _ q8 _ a5
    have b6 := one _ _ _ q9 _ a6
    have b7 := one _ _ _ q3 _ hmv
    rcases hbad with hbad | ⟨ω, hω, hbad⟩
    · rw [b7] at hbad; norm_num at hbad
    · apply hω
      have s1 := hsym.apply 0 1
      have s2 := hsym.apply 0 2
      have s3 := hsym.apply 1 2
      simp only [Matrix.mulVec, dotProduct, Fin.sum_univ_three, s1, s2, s3, b1, b2, b3, b4, b5, b6] at hbad
      push_cast at hbad
      have h0 : ω 0 = 0 := by nlinarith [sq_nonneg (ω 0 + ω 1), sq_nonneg (ω 0), sq_nonneg (ω 1), sq_nonneg (ω 2)]
      have h1 : ω 1 = 0 := by nlinarith [sq_nonneg (ω 0 + ω 1), sq_nonneg (ω 0), sq_nonneg (ω 1), sq_nonneg (ω 2)]
      have h2 : ω 2 = 0 := by nlinarith [sq_nonneg (ω 0 + ω 1), sq_nonneg (ω 0), sq_nonneg (ω 1), sq_nonneg (ω 2)]
      funext i
      fin_cases i <;> assumption

/-- A document of two links welded together, with a section nobody reads. -/
example : ∃ m, load (fewNumbers (T := ℝ)) (.element "robot" [("name", "twig")]
      [.element "link" [("name", "tip")] [], .element "gazebo" [] [], .element "link" [("name", "base")] [],
        .element "joint" [("type", "fixed")]
          [.element "parent" [("link", "base")] [], .element "child" [("link", "tip")] []]]) = .ok m ∧
    m.bodies.map (fun b => b.name) = ["base", "tip"] ∧ m.name = "twig" := ⟨_, rfl, rfl, rfl⟩

end Urdf
end Multicalc
