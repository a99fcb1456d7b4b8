import Verif.Model.MjcfDocument
import Mathlib.Tactic

/-!
# MJCF: what a model assembled from several files is (C114)

The code works on a text: it notes where the `<include>` elements stand and overwrites them from the last to the first.
What it should produce is described on trees: an `<include>` stands for the elements inside the root of the file it names,
with that file's own includes already replaced.
-/

namespace Multicalc
namespace Mjcf

/-! ## Trees and their texts -/

/-- The text of the nodes. -/
def Forest.render : Forest → List Token
  | .nil => []
  | .text content rest => .text content :: rest.render
  | .element tag children rest => .opening tag :: (children.render ++ .closing tag.name :: rest.render)

/-- Nodes after nodes. -/
def Forest.append : Forest → Forest → Forest
  | .nil, after => after
  | .text content rest, after => .text content (rest.append after)
  | .element tag children rest, after => .element tag children (rest.append after)

/-- No `<include>` anywhere. -/
def Forest.Plain : Forest → Prop
  | .nil => True
  | .text _ rest => rest.Plain
  | .element tag children rest => tag.name ≠ "include" ∧ children.Plain ∧ rest.Plain

/-- No `<include>` inside an `<include>`. -/
def Forest.Flat : Forest → Prop
  | .nil => True
  | .text _ rest => rest.Flat
  | .element tag children rest => (if tag.name = "include" then children.Plain else children.Flat) ∧ rest.Flat

/-- Some `<include>`, at any depth, names this file. -/
def Forest.Names (file : String) : Forest → Prop
  | .nil => False
  | .text _ rest => rest.Names file
  | .element tag children rest =>
    (tag.name = "include" ∧ tag.file = some file) ∨ children.Names file ∨ rest.Names file

/-- Every `<include>` names a file. -/
def Forest.Named : Forest → Prop
  | .nil => True
  | .text _ rest => rest.Named
  | .element tag children rest => (tag.name = "include" → tag.file.isSome) ∧ children.Named ∧ rest.Named

/-- The elements standing side by side, a line break between each two. -/
def Forest.lines : Forest → Forest
  | .nil => .nil
  | .text _ rest => rest.lines
  | .element tag children rest =>
    .element tag children (if rest.elements = 0 then .nil else .text "\n" rest.lines)

/-- What a document stands for where it is included: the elements inside its root. -/
def Forest.contents : Forest → Forest
  | .nil => .nil
  | .text _ rest => rest.contents
  | .element _ children _ => children.lines

/-- Every `<include>` replaced by what its file stands for. -/
def Forest.substitute (inner : String → Option Forest) : Forest → Option Forest
  | .nil => some .nil
  | .text content rest => (rest.substitute inner).map (.text content)
  | .element tag children rest =>
    if tag.name = "include" then
      match tag.file.bind inner, rest.substitute inner with
      | some here, some rest => some (here.append rest)
      | _, _ => none
    else
      match children.substitute inner, rest.substitute inner with
      | some children, some rest => some (.element tag children rest)
      | _, _ => none

variable {Path : Type}

/-- A file that can be read and holds this document. -/
def Holds (s : Sources Path) (path : Path) (document : Forest) : Prop :=
  s.file path = .ok document.render ∧ document.elements = 1

/-- `tree` is the document at `path` with every include replaced, files nesting fewer than `levels` deep. -/
def Assembles (s : Sources Path) : ℕ → Path → Forest → Prop
  | 0, _, _ => False
  | levels + 1, path, tree =>
    ∃ (document : Forest) (inner : String → Option Forest), Holds s path document ∧
      (∀ file here, inner file = some here →
        ∃ whole, Assembles s levels (s.beside path file) whole ∧ whole.elements = 1 ∧ here = whole.contents) ∧
      document.substitute inner = some tree

/-- The document at one path has an `<include>` that leads to the other. -/
def Leads (s : Sources Path) (path next : Path) : Prop :=
  ∃ document file, Holds s path document ∧ document.Names file ∧ next = s.beside path file

theorem render_append (a b : Forest) : (a.append b).render = a.render ++ b.render := by
  induction a with
  | nil => rfl
  | text c r ih => simp [Forest.append, Forest.render, ih]
  | element t c r _ ih => simp [Forest.append, Forest.render, ih]

theorem render_onto (a b : Forest) : (a.onto b).render = (a.onto .nil).render ++ b.render := by
  induction a generalizing b with
  | nil => rfl
  | text c r ih => rw [Forest.onto, Forest.onto, ih, ih (.text c .nil)]; simp [Forest.render]
  | element t c r _ ih => rw [Forest.onto, Forest.onto, ih, ih (.element t c .nil)]; simp [Forest.render]

theorem length_render (a : Forest) : a.render.length = a.size := by
  induction a with
  | nil => rfl
  | text c r ih => simp [Forest.size, Forest.render, ih]
  | element t c r h1 h2 => simp [Forest.size, Forest.render, h1, h2]; omega

/-- The nodes read backwards, after those already read. -/
def Forest.under : Forest → Forest → Forest
  | .nil, before => before
  | .text content rest, before => rest.under (.text content before)
  | .element tag children rest, before => rest.under (.element tag children before)

theorem under_onto (a b c : Forest) : (a.under b).onto c = b.onto (a.append c) := by
  induction a generalizing b with
  | nil => rfl
  | text t r ih => rw [Forest.under, ih]; rfl
  | element t k r _ ih => rw [Forest.under, ih]; rfl

theorem append_nil (a : Forest) : a.append .nil = a := by
  induction a with
  | nil => rfl
  | text c r ih => rw [Forest.append, ih]
  | element t c r _ ih => rw [Forest.append, ih]

theorem matchTags_render (a : Forest) (tokens : List Token) (stack : List (Tag × Forest)) (before : Forest) :
    matchTags (a.render ++ tokens) stack before = matchTags tokens stack (a.under before) := by
  induction a generalizing tokens stack before with
  | nil => rfl
  | text c r ih => rw [Forest.render, List.cons_append, matchTags, ih, Forest.under]
  | element t c r h1 h2 =>
    rw [Forest.render, List.cons_append, matchTags, List.append_assoc, h1, List.cons_append, matchTags, if_pos rfl,
      under_onto, h2, append_nil]
    rfl

/-- The text read so far. -/
def readSoFar : List (Tag × Forest) → Forest → List Token
  | [], before => (before.onto .nil).render
  | (tag, outer) :: stack, before => readSoFar stack outer ++ .opening tag :: (before.onto .nil).render

theorem matchTags_sound (tokens : List Token) (stack : List (Tag × Forest)) (before forest : Forest)
    (h : matchTags tokens stack before = some forest) : forest.render = readSoFar stack before ++ tokens := by
  have push (stack : List (Tag × Forest)) (before node : Forest) :
      readSoFar stack (node.under before) = readSoFar stack before ++ node.render := by
    cases stack with
    | nil => rw [readSoFar, readSoFar, under_onto, append_nil, render_onto]
    | cons top stack => rw [readSoFar, readSoFar, under_onto, append_nil, render_onto]; simp
  induction tokens generalizing stack before with
  | nil =>
    cases stack with
    | nil => simp only [matchTags, Option.some.injEq] at h; rw [← h]; simp [readSoFar]
    | cons => simp [matchTags] at h
  | cons token tokens ih =>
    cases token with
    | text content =>
      rw [matchTags] at h
      rw [ih _ _ h]
      have := push stack before (.text content .nil)
      rw [Forest.under, Forest.under] at this
      rw [this]; simp [Forest.render]
    | opening tag =>
      rw [matchTags] at h
      rw [ih _ _ h, readSoFar]
      simp [Forest.onto, Forest.render]
    | closing name =>
      cases stack with
      | nil => simp [matchTags] at h
      | cons top stack =>
        obtain ⟨tag, outer⟩ := top
        rw [matchTags] at h
        split at h
        · rename_i hn
          rw [ih _ _ h]
          have := push stack outer (.element tag (before.onto .nil) .nil)
          rw [Forest.under, Forest.under] at this
          rw [this, readSoFar, ← hn]; simp [Forest.render]
        · exact absurd h (by simp)

/-- Parsing succeeds exactly on the text of a tree with one root, and gives that tree. -/
theorem parse_iff (tokens : List Token) (forest : Forest) :
    parseDocument tokens = .ok forest ↔ tokens = forest.render ∧ forest.elements = 1 := by
  have whole (f : Forest) : matchTags f.render [] .nil = some f := by
    have := matchTags_render f [] [] .nil
    rw [List.append_nil] at this
    rw [this, matchTags, under_onto, append_nil]; rfl
  constructor
  · intro h
    unfold parseDocument at h
    split at h
    · exact absurd h (by simp)
    · rename_i f hf
      split at h
      · simp only [Except.ok.injEq] at h
        subst h
        exact ⟨by rw [matchTags_sound _ _ _ _ hf]; simp [readSoFar, Forest.onto, Forest.render], by assumption⟩
      · exact absurd h (by simp)
  · rintro ⟨rfl, h⟩
    rw [parseDocument, whole]
    simp [h]

theorem parse_error {tokens : List Token} {e : DocumentError} (h : parseDocument tokens = .error e) : e = .xml := by
  unfold parseDocument at h
  split at h
  · simpa using h.symm
  · split at h
    · exact absurd h (by simp)
    · simpa using h.symm

/-! ## Splicing -/

theorem collect_append (a b : List IncludeElement) (l : List (ℕ × ℕ × String)) :
    collectIncludes (a ++ b) = .ok l ↔
      ∃ l1 l2, collectIncludes a = .ok l1 ∧ collectIncludes b = .ok l2 ∧ l = l1 ++ l2 := by
  induction a generalizing l with
  | nil => simp [collectIncludes]
  | cons e a ih =>
    rw [List.cons_append, collectIncludes, collectIncludes]
    cases e.file with
    | none => simp
    | some f =>
      simp only
      constructor
      · intro h
        cases hr : collectIncludes (a ++ b) with
        | error e => rw [hr] at h; exact absurd h (by simp)
        | ok r =>
          rw [hr] at h
          simp only [Except.ok.injEq] at h
          obtain ⟨l1, l2, h1, h2, h3⟩ := (ih r).mp hr
          exact ⟨_ :: l1, l2, by rw [h1], h2, by rw [← h, h3]; rfl⟩
      · rintro ⟨l1, l2, h1, h2, rfl⟩
        cases ha : collectIncludes a with
        | error e => rw [ha] at h1; exact absurd h1 (by simp)
        | ok r =>
          rw [ha] at h1
          simp only [Except.ok.injEq] at h1
          rw [(ih (r ++ l2)).mpr ⟨r, l2, ha, h2, rfl⟩, ← h1]
          rfl

theorem includes_plain (F : Forest) (o : ℕ) : includesFrom o F = [] ↔ F.Plain := by
  induction F generalizing o with
  | nil => simp [includesFrom, Forest.Plain]
  | text c r ih => rw [includesFrom, Forest.Plain, ih]
  | element t c r h1 h2 =>
    rw [includesFrom, Forest.Plain, List.append_eq_nil_iff, List.append_eq_nil_iff, h1, h2]
    by_cases h : t.name = "include" <;> simp [h]

theorem slice_elements (p : List Token) (F : Forest) (q : List Token) :
    joinLines ((elementRanges p.length F).map fun range => slice (p ++ F.render ++ q) range.1 range.2) =
      F.lines.render ∧ ((elementRanges p.length F) = [] ↔ F.elements = 0) := by
  induction F generalizing p with
  | nil => simp [elementRanges, joinLines, Forest.lines, Forest.render, Forest.elements]
  | text c r ih =>
    have := ih (p ++ [.text c])
    rw [List.length_append, List.length_singleton] at this
    rw [elementRanges, Forest.lines, Forest.elements]
    simpa [Forest.render] using this
  | element t c r _ ih =>
    obtain ⟨h1, h2⟩ := ih (p ++ .opening t :: (c.render ++ [.closing t.name]))
    have hlen : (p ++ Token.opening t :: (c.render ++ [Token.closing t.name])).length = p.length + (c.size + 2) := by
      simp [length_render]
    rw [hlen] at h1 h2
    have htext : p ++ Token.opening t :: (c.render ++ [Token.closing t.name]) ++ r.render ++ q =
        p ++ (Forest.element t c r).render ++ q := by simp [Forest.render]
    rw [htext] at h1
    refine ⟨?_, by simp [elementRanges, Forest.elements]⟩
    have hs : slice (p ++ (Forest.element t c r).render ++ q) p.length (p.length + (c.size + 2)) =
        .opening t :: (c.render ++ [.closing t.name]) := by
      rw [slice, List.append_assoc, List.drop_left, Nat.add_sub_cancel_left, Forest.render,
        show Token.opening t :: (c.render ++ .closing t.name :: r.render) ++ q =
          (Token.opening t :: (c.render ++ [.closing t.name])) ++ (r.render ++ q) by simp]
      rw [List.take_left' (by simp [length_render])]
    rw [elementRanges, List.map_cons, Forest.lines, hs]
    by_cases h0 : r.elements = 0
    · rw [h2.mpr h0, if_pos h0]
      simp [joinLines, Forest.render]
    · rw [if_neg h0]
      cases hr : elementRanges (p.length + (c.size + 2)) r with
      | nil => exact absurd (h2.mp hr) h0
      | cons x xs =>
        rw [hr] at h1
        rw [List.map_cons] at h1 ⊢
        rw [joinLines, h1]
        simp [Forest.render]

theorem inner_document (F : Forest) (h : F.elements = 1) : innerSource F.render = .ok F.contents.render := by
  have key (p : List Token) (F : Forest) : joinLines ((rootChildRanges p.length F).map fun range =>
      slice (p ++ F.render) range.1 range.2) = F.contents.render := by
    induction F generalizing p with
    | nil => rfl
    | text c r ih =>
      have := ih (p ++ [.text c])
      rw [List.length_append, List.length_singleton] at this
      rw [rootChildRanges, Forest.contents]
      simpa [Forest.render] using this
    | element t c r _ _ =>
      have := (slice_elements (p ++ [.opening t]) c (.closing t.name :: r.render)).1
      rw [List.length_append, List.length_singleton] at this
      rw [rootChildRanges, Forest.contents, ← this]
      simp [Forest.render]
  rw [innerSource, (parse_iff F.render F).mpr ⟨rfl, h⟩]
  exact congrArg _ (key [] F)

theorem inner_error {text : List Token} {e : DocumentError} (h : innerSource text = .error e) : e = .xml := by
  unfold innerSource at h
  split at h
  · rename_i e' he
    rw [Except.error.injEq] at h
    rw [← h]; exact parse_error he
  · exact absurd h (by simp)

/-- What an include that names `file` meets when it cannot be replaced. -/
def Fails (s : Sources Path) (read : Path → Except DocumentError (List Token)) (path : Path) (file : String)
    (e : DocumentError) : Prop :=
  read (s.beside path file) = .error e ∨ ∃ text, read (s.beside path file) = .ok text ∧ innerSource text = .error e

theorem splice_forest (s : Sources Path) (read : Path → Except DocumentError (List Token)) (path : Path)
    (inner : String → Option Forest)
    (hread : ∀ f, (∃ t text, inner f = some t ∧ read (s.beside path f) = .ok text ∧ innerSource text = .ok t.render) ∨
      ∃ e, Fails s read path f e) (F : Forest) (flat : F.Flat) (p q : List Token) (l more : List (ℕ × ℕ × String))
    (hc : collectIncludes (includesFrom p.length F) = .ok l) :
    (∃ t, F.substitute inner = some t ∧ spliceAll s read path (l.reverse ++ more) (p ++ F.render ++ q) =
      spliceAll s read path more (p ++ t.render ++ q)) ∨
    (∃ f e, F.Names f ∧ spliceAll s read path (l.reverse ++ more) (p ++ F.render ++ q) = .error e ∧
      Fails s read path f e) := by
  induction F generalizing p q l more with
  | nil =>
    simp only [includesFrom, collectIncludes, Except.ok.injEq] at hc
    subst hc
    exact Or.inl ⟨.nil, rfl, rfl⟩
  | text c r ih =>
    rw [includesFrom] at hc
    have := ih flat (p ++ [.text c]) q l more (by simpa using hc)
    rcases this with ⟨t, h1, h2⟩ | ⟨f, e, h1, h2, h3⟩
    · refine Or.inl ⟨.text c t, by rw [Forest.substitute, h1]; rfl, ?_⟩
      simpa [Forest.render] using h2
    · exact Or.inr ⟨f, e, h1, by simpa [Forest.render] using h2, h3⟩
  | element t c r h1 h2 =>
    obtain ⟨fc, fr⟩ := flat
    rw [includesFrom] at hc
    obtain ⟨l12, l3, hc12, hc3, rfl⟩ := (collect_append _ _ _).mp hc
    obtain ⟨l1, l2, hc1, hc2, rfl⟩ := (collect_append _ _ _).mp hc12
    have hlen : (p ++ Token.opening t :: (c.render ++ [Token.closing t.name])).length = p.length + (c.size + 2) := by
      simp [length_render]
    have htext : p ++ Token.opening t :: (c.render ++ [Token.closing t.name]) ++ r.render ++ q =
        p ++ (Forest.element t c r).render ++ q := by simp [Forest.render]
    have hrest := h2 fr (p ++ .opening t :: (c.render ++ [.closing t.name])) q l3
      ((l1 ++ l2).reverse ++ more) (by rw [hlen]; exact hc3)
    rw [htext] at hrest
    rw [List.reverse_append, List.append_assoc]
    rcases hrest with ⟨r', hr1, hr2⟩ | ⟨f, e, k1, k2, k3⟩
    swap
    · exact Or.inr ⟨f, e, Or.inr (Or.inr k1), k2, k3⟩
    rw [hr2]
    by_cases ht : t.name = "include"
    · rw [if_pos ht] at fc hc1
      rw [(includes_plain c _).mpr fc] at hc2
      simp only [collectIncludes, Except.ok.injEq] at hc2
      subst hc2
      rw [collectIncludes] at hc1
      cases hf : t.file with
      | none => rw [hf] at hc1; exact absurd hc1 (by simp)
      | some f =>
        rw [hf] at hc1
        simp only [collectIncludes, Except.ok.injEq] at hc1
        subst hc1
        rw [List.append_nil, List.reverse_singleton, List.singleton_append, spliceAll]
        rcases hread f with ⟨here, text, g1, g2, g3⟩ | ⟨e, g | ⟨text, g1, g2⟩⟩
        · refine Or.inl ⟨here.append r', ?_, ?_⟩
          · rw [Forest.substitute, if_pos ht, hf, Option.bind_some, g1, hr1]
          · rw [g2]
            simp only [g3]
            rw [replaceRange, if_pos]
            · have e1 : List.take p.length (p ++ Token.opening t :: (c.render ++ [.closing t.name]) ++ r'.render ++ q) =
                  p := by rw [List.append_assoc, List.append_assoc, List.take_left]
              have e2 : List.drop (p.length + (c.size + 2))
                  (p ++ Token.opening t :: (c.render ++ [.closing t.name]) ++ r'.render ++ q) = r'.render ++ q := by
                rw [List.append_assoc, ← hlen, List.drop_left]
              rw [e1, e2, render_append]
              simp
            · constructor
              · omega
              · rw [List.append_assoc, List.length_append, hlen]; omega
        · exact Or.inr ⟨f, e, Or.inl ⟨ht, hf⟩, by rw [g], Or.inl g⟩
        · exact Or.inr ⟨f, e, Or.inl ⟨ht, hf⟩, by rw [g1]; simp only [g2], Or.inr ⟨text, g1, g2⟩⟩
    · rw [if_neg ht] at fc hc1
      simp only [collectIncludes, Except.ok.injEq] at hc1
      subst hc1
      rw [List.nil_append]
      have hin := h1 fc (p ++ [.opening t]) (.closing t.name :: (r'.render ++ q)) l2 more (by simpa using hc2)
      have htext2 : p ++ [Token.opening t] ++ c.render ++ .closing t.name :: (r'.render ++ q) =
        p ++ .opening t :: (c.render ++ [Token.closing t.name]) ++ r'.render ++ q := by simp
      rw [htext2] at hin
      rcases hin with ⟨c', k1, k2⟩ | ⟨f, e, k1, k2, k3⟩
      · refine Or.inl ⟨.element t c' r', ?_, ?_⟩
        · rw [Forest.substitute, if_neg ht, k1, hr1]
        · rw [k2]; simp [Forest.render]
      · exact Or.inr ⟨f, e, Or.inr (Or.inl k1), k2, k3⟩

/-! ## The assembled document -/

theorem render_injective {a b : Forest} (h : a.render = b.render) : a = b := by
  have whole (f : Forest) : matchTags f.render [] .nil = some f := by
    have := matchTags_render f [] [] .nil
    rw [List.append_nil] at this
    rw [this, matchTags, under_onto, append_nil]; rfl
  have := whole a
  rw [h, whole b, Option.some.injEq] at this
  exact this.symm

theorem substitute_mono {inner inner' : String → Option Forest}
    (h : ∀ f t, inner f = some t → inner' f = some t) (F t : Forest) (hs : F.substitute inner = some t) :
    F.substitute inner' = some t := by
  induction F generalizing t with
  | nil => exact hs
  | text c r ih =>
    rw [Forest.substitute, Option.map_eq_some_iff] at hs ⊢
    obtain ⟨a, ha, rfl⟩ := hs
    exact ⟨a, ih a ha, rfl⟩
  | element tag c r h1 h2 =>
    rw [Forest.substitute] at hs ⊢
    split_ifs at hs ⊢
    · cases hf : tag.file.bind inner with
      | none => rw [hf] at hs; exact absurd hs (by simp)
      | some here =>
        cases hr : r.substitute inner with
        | none => rw [hf, hr] at hs; exact absurd hs (by simp)
        | some r' =>
          rw [hf, hr] at hs
          obtain ⟨f, hf1, hf2⟩ := Option.bind_eq_some_iff.mp hf
          rw [hf1, Option.bind_some, h f here hf2, h2 r' hr]
          exact hs
    · cases hf : c.substitute inner with
      | none => rw [hf] at hs; exact absurd hs (by simp)
      | some here =>
        cases hr : r.substitute inner with
        | none => rw [hf, hr] at hs; exact absurd hs (by simp)
        | some r' => rw [hf, hr] at hs; rw [h1 here hf, h2 r' hr]; exact hs

theorem named_of_substitute {inner : String → Option Forest} (F t : Forest) (flat : F.Flat)
    (hs : F.substitute inner = some t) : F.Named := by
  have plain (F : Forest) (h : F.Plain) : F.Named := by
    induction F with
    | nil => trivial
    | text c r ih => exact ih h
    | element t c r h1 h2 => exact ⟨fun ht => absurd ht h.1, h1 h.2.1, h2 h.2.2⟩
  induction F generalizing t with
  | nil => trivial
  | text c r ih =>
    rw [Forest.substitute, Option.map_eq_some_iff] at hs
    obtain ⟨a, ha, rfl⟩ := hs
    exact ih a flat ha
  | element tag c r h1 h2 =>
    obtain ⟨fc, fr⟩ := flat
    rw [Forest.substitute] at hs
    split_ifs at hs fc with ht
    · cases hf : tag.file.bind inner with
      | none => rw [hf] at hs; exact absurd hs (by simp)
      | some here =>
        cases hr : r.substitute inner with
        | none => rw [hf, hr] at hs; exact absurd hs (by simp)
        | some r' =>
          obtain ⟨f, hf1, hf2⟩ := Option.bind_eq_some_iff.mp hf
          exact ⟨fun _ => by rw [hf1]; rfl, plain c fc, h2 r' fr hr⟩
    · cases hf : c.substitute inner with
      | none => rw [hf] at hs; exact absurd hs (by simp)
      | some here =>
        cases hr : r.substitute inner with
        | none => rw [hf, hr] at hs; exact absurd hs (by simp)
        | some r' => exact ⟨fun h => absurd h ht, h1 here fc hf, h2 r' fr hr⟩

theorem collect_named (F : Forest) (o : ℕ) : (∃ l, collectIncludes (includesFrom o F) = .ok l) ↔ F.Named := by
  induction F generalizing o with
  | nil => exact ⟨fun _ => trivial, fun _ => ⟨[], rfl⟩⟩
  | text c r ih => exact ih (o + 1)
  | element t c r h1 h2 =>
    rw [includesFrom, Forest.Named, ← h1 (o + 1), ← h2 (o + (c.size + 2))]
    constructor
    · rintro ⟨l, hc⟩
      obtain ⟨l12, l3, hc12, hc3, rfl⟩ := (collect_append _ _ _).mp hc
      obtain ⟨l1, l2, hc1, hc2, rfl⟩ := (collect_append _ _ _).mp hc12
      refine ⟨fun ht => ?_, ⟨l2, hc2⟩, ⟨l3, hc3⟩⟩
      rw [if_pos ht, collectIncludes] at hc1
      cases hf : t.file with
      | none => rw [hf] at hc1; exact absurd hc1 (by simp)
      | some f => rfl
    · rintro ⟨hn, ⟨l2, h2⟩, ⟨l3, h3⟩⟩
      have : ∃ l1, collectIncludes (if t.name = "include" then [⟨o, o + (c.size + 2), t.file⟩] else []) = .ok l1 := by
        split_ifs with ht
        · obtain ⟨f, hf⟩ := Option.isSome_iff_exists.mp (hn ht)
          rw [hf]; exact ⟨_, rfl⟩
        · exact ⟨_, rfl⟩
      obtain ⟨l1, h1⟩ := this
      exact ⟨_, (collect_append _ _ _).mpr ⟨_, l3, (collect_append _ _ _).mpr ⟨l1, l2, h1, h2, rfl⟩, h3, rfl⟩⟩

theorem collect_names {F : Forest} {o : ℕ} {l : List (ℕ × ℕ × String)}
    (hc : collectIncludes (includesFrom o F) = .ok l) (f : String) : F.Names f ↔ ∃ a b, (a, b, f) ∈ l := by
  induction F generalizing o l with
  | nil =>
    simp only [includesFrom, collectIncludes, Except.ok.injEq] at hc
    subst hc
    simp [Forest.Names]
  | text c r ih => exact ih hc
  | element t c r h1 h2 =>
    rw [includesFrom] at hc
    obtain ⟨l12, l3, hc12, hc3, rfl⟩ := (collect_append _ _ _).mp hc
    obtain ⟨l1, l2, hc1, hc2, rfl⟩ := (collect_append _ _ _).mp hc12
    rw [Forest.Names, h1 hc2, h2 hc3]
    have hhead : (t.name = "include" ∧ t.file = some f) ↔ ∃ a b, (a, b, f) ∈ l1 := by
      split_ifs at hc1 with ht
      · rw [collectIncludes] at hc1
        cases hf : t.file with
        | none => rw [hf] at hc1; exact absurd hc1 (by simp)
        | some g =>
          rw [hf] at hc1
          simp only [collectIncludes, Except.ok.injEq] at hc1
          subst hc1
          simp [ht, eq_comm]
      · simp only [collectIncludes, Except.ok.injEq] at hc1
        subst hc1
        simp [ht]
    rw [hhead]
    simp only [List.mem_append]
    constructor
    · rintro (⟨a, b, h⟩ | ⟨a, b, h⟩ | ⟨a, b, h⟩)
      · exact ⟨a, b, Or.inl (Or.inl h)⟩
      · exact ⟨a, b, Or.inl (Or.inr h)⟩
      · exact ⟨a, b, Or.inr h⟩
    · rintro ⟨a, b, (h | h) | h⟩
      · exact Or.inl ⟨a, b, h⟩
      · exact Or.inr (Or.inl ⟨a, b, h⟩)
      · exact Or.inr (Or.inr ⟨a, b, h⟩)

/-- What `read` does with one file, its parts named. -/
theorem read_succ (s : Sources Path) (levels : ℕ) (path : Path) :
    (∃ document l, Holds s path document ∧ collectIncludes (includesFrom 0 document) = .ok l ∧
      readFile s (levels + 1) path = spliceAll s (readFile s levels) path l.reverse document.render) ∨
    ((∀ document, Holds s path document → ¬ document.Named) ∧
      ((∃ m, readFile s (levels + 1) path = .error (.fileRead m)) ∨ readFile s (levels + 1) path = .error .xml ∨
        readFile s (levels + 1) path = .error .badAttribute)) := by
  have collect_bad (l : List IncludeElement) (e : DocumentError) (h : collectIncludes l = .error e) :
      e = .badAttribute := by
    induction l with
    | nil => simp [collectIncludes] at h
    | cons x l ih =>
      rw [collectIncludes] at h
      split at h
      · simpa using h.symm
      · split at h
        · rename_i e' he
          rw [Except.error.injEq] at h
          exact ih (h ▸ he)
        · exact absurd h (by simp)
  rw [readFile]
  cases hf : s.file path with
  | error m =>
    refine Or.inr ⟨fun document h => ?_, Or.inl ⟨m, rfl⟩⟩
    rw [Holds, hf] at h
    exact absurd h.1 (by simp)
  | ok text =>
    simp only
    cases hp : parseDocument text with
    | error e =>
      refine Or.inr ⟨fun document h => ?_, Or.inr (Or.inl (by rw [parse_error hp]))⟩
      rw [Holds, hf, Except.ok.injEq] at h
      rw [(parse_iff text document).mpr h] at hp
      exact absurd hp (by simp)
    | ok document =>
      obtain ⟨rfl, h1⟩ := (parse_iff _ _).mp hp
      simp only
      cases hc : collectIncludes (includesFrom 0 document) with
      | error e =>
        refine Or.inr ⟨fun d h hn => ?_, Or.inr (Or.inr (by rw [collect_bad _ _ hc]))⟩
        rw [Holds, hf, Except.ok.injEq] at h
        rw [← render_injective h.1] at hn
        obtain ⟨l, hl⟩ := (collect_named document 0).mpr hn
        rw [hl] at hc
        exact absurd hc (by simp)
      | ok l => exact Or.inl ⟨document, l, ⟨hf, h1⟩, hc, rfl⟩

/-- No file has an `<include>` inside an `<include>`. -/
def AllFlat (s : Sources Path) : Prop := ∀ path document, Holds s path document → document.Flat

theorem holds_unique {s : Sources Path} {path : Path} {a b : Forest} (ha : Holds s path a) (hb : Holds s path b) :
    a = b := by
  have := ha.1
  rw [hb.1, Except.ok.injEq] at this
  exact (render_injective this).symm

open Classical in
/-- The result of `read` is the assembled tree, and nothing panics. -/
theorem read_iff (s : Sources Path) (flat : AllFlat s) (levels : ℕ) (path : Path) :
    (∀ text, readFile s levels path = .ok text ↔ ∃ tree, Assembles s levels path tree ∧ text = tree.render) ∧
    readFile s levels path ≠ .error .panics := by
  induction levels generalizing path with
  | zero => exact ⟨fun text => by simp [readFile, Assembles], by simp [readFile]⟩
  | succ levels ih =>
    have unique (path : Path) (a b : Forest) (ha : Assembles s levels path a) (hb : Assembles s levels path b) :
        a = b := by
      have h1 := ((ih path).1 a.render).mpr ⟨a, ha, rfl⟩
      have h2 := ((ih path).1 b.render).mpr ⟨b, hb, rfl⟩
      rw [h1, Except.ok.injEq] at h2
      exact render_injective h2
    -- What each include stands for.
    let P (f : String) (here : Forest) : Prop :=
      ∃ whole, Assembles s levels (s.beside path f) whole ∧ whole.elements = 1 ∧ here = whole.contents
    let inner (f : String) : Option Forest := if h : ∃ here, P f here then some h.choose else none
    have inner_iff (f : String) (here : Forest) : inner f = some here ↔ P f here := by
      constructor
      · intro h
        simp only [inner] at h
        split_ifs at h with hh
        rw [Option.some.injEq] at h
        rw [← h]; exact hh.choose_spec
      · intro h
        have hh : ∃ here, P f here := ⟨here, h⟩
        simp only [inner]
        rw [dif_pos hh, Option.some.injEq]
        obtain ⟨w1, a1, _, e1⟩ := hh.choose_spec
        obtain ⟨w2, a2, _, e2⟩ := h
        rw [e1, e2, unique _ _ _ a1 a2]
    have hread (f : String) : (∃ t text, inner f = some t ∧ readFile s levels (s.beside path f) = .ok text ∧
        innerSource text = .ok t.render) ∨ ∃ e, Fails s (readFile s levels) path f e := by
      cases hr : readFile s levels (s.beside path f) with
      | error e => exact Or.inr ⟨e, Or.inl hr⟩
      | ok text =>
        obtain ⟨whole, hw, rfl⟩ := ((ih _).1 text).mp hr
        by_cases h1 : whole.elements = 1
        · exact Or.inl ⟨whole.contents, whole.render, (inner_iff _ _).mpr ⟨whole, hw, h1, rfl⟩, rfl,
            inner_document whole h1⟩
        · cases hi : innerSource whole.render with
          | error e => exact Or.inr ⟨e, Or.inr ⟨_, hr, hi⟩⟩
          | ok i =>
            unfold innerSource at hi
            split at hi
            · exact absurd hi (by simp)
            · rename_i f' hp
              obtain ⟨k1, k2⟩ := (parse_iff _ _).mp hp
              rw [← render_injective k1] at k2
              exact absurd k2 h1
    have noPanic (f : String) (e : DocumentError) (h : Fails s (readFile s levels) path f e) : e ≠ .panics := by
      rcases h with h | ⟨text, _, h⟩
      · intro he; rw [he] at h; exact (ih _).2 h
      · rw [inner_error h]; simp
    rcases read_succ s levels path with ⟨document, l, holds, hc, heq⟩ | ⟨hno, herr⟩
    · have main := splice_forest s (readFile s levels) path inner hread document (flat _ _ holds) [] [] l [] hc
      simp only [List.nil_append, List.append_nil, spliceAll] at main
      rw [heq]
      rcases main with ⟨t, h1, h2⟩ | ⟨f, e, h1, h2, h3⟩
      · rw [h2]
        refine ⟨fun text => ?_, by simp⟩
        rw [Except.ok.injEq]
        constructor
        · rintro rfl
          exact ⟨t, ⟨document, inner, holds, fun f here h => (inner_iff f here).mp h, h1⟩, rfl⟩
        · rintro ⟨tree, ⟨d, inner', hd, hin, hsub⟩, rfl⟩
          rw [holds_unique hd holds] at hsub
          have := substitute_mono (fun f t h => (inner_iff f t).mpr (hin f t h)) _ _ hsub
          rw [h1, Option.some.injEq] at this
          rw [this]
      · rw [h2]
        refine ⟨fun text => ?_, by simpa using noPanic f e h3⟩
        simp only [reduceCtorEq, false_iff, not_exists]
        rintro tree ⟨⟨d, inner', hd, hin, hsub⟩, rfl⟩
        rw [holds_unique hd holds] at hsub
        -- A successful substitution with the canonical contents rules the failure out.
        have hsub' := substitute_mono (fun f t h => (inner_iff f t).mpr (hin f t h)) _ _ hsub
        have visited (F t : Forest) (hf : F.Flat) (hs : F.substitute inner = some t) (f : String) (hn : F.Names f) :
            ∃ here, inner f = some here := by
          have plain (F : Forest) (h : F.Plain) : ¬ F.Names f := by
            induction F with
            | nil => exact id
            | text c r ih => exact ih h
            | element t c r h1 h2 =>
              rintro (⟨k, _⟩ | k | k)
              · exact h.1 k
              · exact h1 h.2.1 k
              · exact h2 h.2.2 k
          induction F generalizing t with
          | nil => exact hn.elim
          | text c r ih =>
            rw [Forest.substitute, Option.map_eq_some_iff] at hs
            obtain ⟨a, ha, rfl⟩ := hs
            exact ih a hf ha hn
          | element tag c r h1 h2 =>
            obtain ⟨fc, fr⟩ := hf
            rw [Forest.substitute] at hs
            split_ifs at hs fc with ht
            · cases hb : tag.file.bind inner with
              | none => rw [hb] at hs; exact absurd hs (by simp)
              | some here =>
                cases hr : r.substitute inner with
                | none => rw [hb, hr] at hs; exact absurd hs (by simp)
                | some r' =>
                  rcases hn with ⟨_, hn⟩ | hn | hn
                  · rw [hn, Option.bind_some] at hb; exact ⟨here, hb⟩
                  · exact absurd hn (plain c fc)
                  · exact h2 r' fr hr hn
            · cases hb : c.substitute inner with
              | none => rw [hb] at hs; exact absurd hs (by simp)
              | some here =>
                cases hr : r.substitute inner with
                | none => rw [hb, hr] at hs; exact absurd hs (by simp)
                | some r' =>
                  rcases hn with ⟨hn, _⟩ | hn | hn
                  · exact absurd hn ht
                  · exact h1 here fc hb hn
                  · exact h2 r' fr hr hn
        obtain ⟨here, hhere⟩ := visited _ _ (flat _ _ holds) hsub' f h1
        obtain ⟨whole, hw, hw1, _⟩ := (inner_iff _ _).mp hhere
        have hok := ((ih _).1 whole.render).mpr ⟨whole, hw, rfl⟩
        rcases h3 with h3 | ⟨text, h3, h4⟩
        · rw [hok] at h3; exact absurd h3 (by simp)
        · rw [hok, Except.ok.injEq] at h3
          rw [← h3, inner_document whole hw1] at h4
          exact absurd h4 (by simp)
    · refine ⟨fun text => ?_, ?_⟩
      · constructor
        · intro h
          rcases herr with ⟨m, he⟩ | he | he <;> (rw [he] at h; exact absurd h (by simp))
        · rintro ⟨tree, ⟨d, inner', hd, hin, hsub⟩, rfl⟩
          exact absurd (named_of_substitute d tree (flat _ _ hd) hsub) (hno d hd)
      · rcases herr with ⟨m, he⟩ | he | he <;> (rw [he]; simp)

theorem plain_append {a b : Forest} (ha : a.Plain) (hb : b.Plain) : (a.append b).Plain := by
  induction a with
  | nil => exact hb
  | text c r ih => exact ih ha
  | element t c r _ ih => exact ⟨ha.1, ha.2.1, ih ha.2.2⟩

theorem plain_lines {a : Forest} (ha : a.Plain) : a.lines.Plain := by
  induction a with
  | nil => trivial
  | text c r ih => exact ih ha
  | element t c r _ ih =>
    refine ⟨ha.1, ha.2.1, ?_⟩
    split_ifs
    · trivial
    · exact ih ha.2.2

theorem plain_contents {a : Forest} (ha : a.Plain) : a.contents.Plain := by
  induction a with
  | nil => trivial
  | text c r ih => exact ih ha
  | element t c r _ _ => exact plain_lines ha.2.1

theorem plain_substitute {inner : String → Option Forest} (h : ∀ f t, inner f = some t → t.Plain) (F t : Forest)
    (hs : F.substitute inner = some t) : t.Plain := by
  induction F generalizing t with
  | nil => rw [Forest.substitute, Option.some.injEq] at hs; rw [← hs]; trivial
  | text c r ih =>
    rw [Forest.substitute, Option.map_eq_some_iff] at hs
    obtain ⟨a, ha, rfl⟩ := hs
    exact ih a ha
  | element tag c r h1 h2 =>
    rw [Forest.substitute] at hs
    split_ifs at hs with ht
    · cases hf : tag.file.bind inner with
      | none => rw [hf] at hs; exact absurd hs (by simp)
      | some here =>
        cases hr : r.substitute inner with
        | none => rw [hf, hr] at hs; exact absurd hs (by simp)
        | some r' =>
          rw [hf, hr] at hs
          simp only [Option.some.injEq] at hs
          obtain ⟨f, _, hf2⟩ := Option.bind_eq_some_iff.mp hf
          rw [← hs]; exact plain_append (h f here hf2) (h2 r' hr)
    · cases hf : c.substitute inner with
      | none => rw [hf] at hs; exact absurd hs (by simp)
      | some here =>
        cases hr : r.substitute inner with
        | none => rw [hf, hr] at hs; exact absurd hs (by simp)
        | some r' =>
          rw [hf, hr] at hs
          simp only [Option.some.injEq] at hs
          rw [← hs]; exact ⟨ht, h1 here hf, h2 r' hr⟩

theorem assembles_plain (s : Sources Path) (levels : ℕ) (path : Path) (tree : Forest)
    (h : Assembles s levels path tree) : tree.Plain := by
  induction levels generalizing path tree with
  | zero => exact h.elim
  | succ levels ih =>
    obtain ⟨d, inner, _, hin, hs⟩ := h
    refine plain_substitute (fun f t hf => ?_) d tree hs
    obtain ⟨whole, hw, _, rfl⟩ := hin f t hf
    exact plain_contents (ih _ _ hw)

theorem splice_reads (s : Sources Path) (read : Path → Except DocumentError (List Token)) (path : Path)
    (l : List (ℕ × ℕ × String)) (text : List Token) :
    (∀ out, spliceAll s read path l text = .ok out →
      ∀ a b f, (a, b, f) ∈ l → ∃ t, read (s.beside path f) = .ok t) ∧
    (∀ e, spliceAll s read path l text = .error e →
      e = .panics ∨ e = .xml ∨ ∃ a b f, (a, b, f) ∈ l ∧ read (s.beside path f) = .error e) := by
  induction l generalizing text with
  | nil => simp [spliceAll]
  | cons x l ih =>
    obtain ⟨a, b, f⟩ := x
    rw [spliceAll]
    cases hr : read (s.beside path f) with
    | error e =>
      refine ⟨by simp, fun e' h => Or.inr (Or.inr ⟨a, b, f, by simp, ?_⟩)⟩
      rw [hr]; exact h
    | ok t =>
      simp only
      cases hi : innerSource t with
      | error e =>
        refine ⟨by simp, fun e' h => Or.inr (Or.inl ?_)⟩
        rw [Except.error.injEq] at h
        rw [← h]; exact inner_error hi
      | ok i =>
        simp only
        cases hp : replaceRange text a b i with
        | error e =>
          refine ⟨by simp, fun e' h => Or.inl ?_⟩
          rw [Except.error.injEq] at h
          rw [← h]
          unfold replaceRange at hp
          split_ifs at hp
          simpa using hp.symm
        | ok text' =>
          refine ⟨fun out h a' b' f' hm => ?_, fun e h => ?_⟩
          · rcases List.mem_cons.mp hm with hm | hm
            · rw [show f' = f by injection hm with _ hm; injection hm]; exact ⟨t, hr⟩
            · exact (ih text').1 out h a' b' f' hm
          · rcases (ih text').2 e h with h | h | ⟨a', b', f', h1, h2⟩
            · exact Or.inl h
            · exact Or.inr (Or.inl h)
            · exact Or.inr (Or.inr ⟨a', b', f', List.mem_cons_of_mem _ h1, h2⟩)

/-- A file includes another, which includes another, and so on, `length` times. -/
inductive Chain (s : Sources Path) : ℕ → Path → Prop
  | here (path : Path) : Chain s 0 path
  | step {length : ℕ} {path next : Path} (leads : Leads s path next) (rest : Chain s length next) :
      Chain s (length + 1) path

theorem chain_fails (s : Sources Path) (levels : ℕ) (path : Path) (h : Chain s levels path) (out : List Token) :
    readFile s levels path ≠ .ok out := by
  induction levels generalizing path out with
  | zero => simp [readFile]
  | succ levels ih =>
    cases h with
    | step leads rest =>
      obtain ⟨d, f, hd, hn, rfl⟩ := leads
      rcases read_succ s levels path with ⟨document, l, holds, hc, heq⟩ | ⟨_, herr⟩
      · rw [heq]
        intro hok
        rw [holds_unique hd holds] at hn
        obtain ⟨a, b, hm⟩ := (collect_names hc f).mp hn
        obtain ⟨t, ht⟩ := (splice_reads s _ path l.reverse document.render).1 out hok a b f (by simpa using hm)
        exact ih _ rest t ht
      · rcases herr with ⟨m, he⟩ | he | he <;> (rw [he]; simp)

theorem deep_chain (s : Sources Path) (levels : ℕ) (path : Path) (depth : ℕ)
    (h : readFile s levels path = .error (.includeTooDeep depth)) :
    depth = maxIncludeDepth + 1 ∧ Chain s levels path := by
  induction levels generalizing path with
  | zero =>
    simp only [readFile, Except.error.injEq, DocumentError.includeTooDeep.injEq] at h
    exact ⟨h.symm, .here path⟩
  | succ levels ih =>
    rcases read_succ s levels path with ⟨document, l, holds, hc, heq⟩ | ⟨_, herr⟩
    · rw [heq] at h
      rcases (splice_reads s _ path l.reverse document.render).2 _ h with h | h | ⟨a, b, f, hm, hr⟩
      · exact absurd h (by simp)
      · exact absurd h (by simp)
      · obtain ⟨h1, h2⟩ := ih _ hr
        exact ⟨h1, .step ⟨document, f, holds, (collect_names hc f).mpr ⟨a, b, by simpa using hm⟩, rfl⟩ h2⟩
    · rcases herr with ⟨m, he⟩ | he | he <;> (rw [he] at h; exact absurd h (by simp))

/-- The root is not itself an `<include>`. -/
def Forest.Rooted : Forest → Prop
  | .nil => True
  | .text _ rest => rest.Rooted
  | .element tag _ rest => tag.name ≠ "include" ∧ rest.Rooted

theorem rooted_elements {inner : String → Option Forest} (F t : Forest) (hr : F.Rooted)
    (hs : F.substitute inner = some t) : t.elements = F.elements := by
  induction F generalizing t with
  | nil => rw [Forest.substitute, Option.some.injEq] at hs; rw [← hs]
  | text c r ih =>
    rw [Forest.substitute, Option.map_eq_some_iff] at hs
    obtain ⟨a, ha, rfl⟩ := hs
    exact ih a hr ha
  | element tag c r h1 h2 =>
    rw [Forest.substitute, if_neg hr.1] at hs
    cases hf : c.substitute inner with
    | none => rw [hf] at hs; exact absurd hs (by simp)
    | some here =>
      cases hrr : r.substitute inner with
      | none => rw [hf, hrr] at hs; exact absurd hs (by simp)
      | some r' =>
        rw [hf, hrr] at hs
        simp only [Option.some.injEq] at hs
        rw [← hs, Forest.elements, Forest.elements, h2 r' hr.2 hrr]

theorem substitute_some {inner : String → Option Forest} (F : Forest) (named : F.Named)
    (h : ∀ f, F.Names f → ∃ t, inner f = some t) : ∃ t, F.substitute inner = some t := by
  induction F with
  | nil => exact ⟨.nil, rfl⟩
  | text c r ih =>
    obtain ⟨t, ht⟩ := ih named h
    exact ⟨.text c t, by rw [Forest.substitute, ht]; rfl⟩
  | element tag c r h1 h2 =>
    obtain ⟨n1, n2, n3⟩ := named
    obtain ⟨r', hr⟩ := h2 n3 fun f hf => h f (Or.inr (Or.inr hf))
    rw [Forest.substitute]
    split_ifs with ht
    · obtain ⟨f, hf⟩ := Option.isSome_iff_exists.mp (n1 ht)
      obtain ⟨t, hft⟩ := h f (Or.inl ⟨ht, hf⟩)
      exact ⟨t.append r', by rw [hf, Option.bind_some, hft, hr]⟩
    · obtain ⟨c', hc⟩ := h1 n2 fun f hf => h f (Or.inr (Or.inl hf))
      exact ⟨.element tag c' r', by rw [hc, hr]⟩

open Classical in
theorem assembles_of_no_chain (s : Sources Path) (levels : ℕ) (path : Path)
    (good : ∀ q, Relation.ReflTransGen (Leads s) path q →
      ∃ document, Holds s q document ∧ document.Named ∧ document.Rooted) (short : ¬ Chain s levels path) :
    ∃ tree, Assembles s levels path tree ∧ tree.elements = 1 := by
  induction levels generalizing path with
  | zero => exact absurd (.here path) short
  | succ levels ih =>
    obtain ⟨document, holds, named, rooted⟩ := good path .refl
    have next (f : String) (hf : document.Names f) :
        ∃ whole, Assembles s levels (s.beside path f) whole ∧ whole.elements = 1 := by
      have hl : Leads s path (s.beside path f) := ⟨document, f, holds, hf, rfl⟩
      exact ih _ (fun q hq => good q (.head hl hq)) fun hc => short (.step hl hc)
    let inner (f : String) : Option Forest :=
      if h : document.Names f then some (next f h).choose.contents else none
    obtain ⟨tree, ht⟩ := substitute_some (inner := inner) document named fun f hf =>
      ⟨_, by simp only [inner]; rw [dif_pos hf]⟩
    refine ⟨tree, ⟨document, inner, holds, fun f here h => ?_, ht⟩, by rw [rooted_elements _ _ rooted ht, holds.2]⟩
    simp only [inner] at h
    split_ifs at h with hf
    rw [Option.some.injEq] at h
    exact ⟨_, (next f hf).choose_spec.1, (next f hf).choose_spec.2, h.symm⟩

/-! ## The claims -/

/-- C114. For files in which no include stands inside another, however many includes there are, wherever they stand and
however they nest, the assembled text is that of one tree: the document with each `<include>` replaced by the elements
inside the root of the file it names, that file being assembled first, with its own names resolved beside it.  It exists
exactly when the code succeeds, and overwriting ranges of the changing text never leaves the text or cuts an element. -/
theorem include_assembly (s : Sources Path) (flat : AllFlat s) (path : Path) :
    (∀ text, assemble s path = .ok text ↔ ∃ tree, Assembles s 9 path tree ∧ text = tree.render) ∧
    assemble s path ≠ .error .panics :=
  read_iff s flat 9 path

/-- C114. Loading from a path gives the model of that tree, and only that; the refusal that asks for a file never comes
from the text the code assembled itself. -/
theorem include_load (s : Sources Path) (flat : AllFlat s) {M : Type} (build : Forest → Except DocumentError M)
    (path : Path) (result : M) :
    (loadPath s build path = .ok result ↔
      ∃ tree, Assembles s 9 path tree ∧ tree.elements = 1 ∧ build tree = .ok result) ∧
    ((∀ tree, build tree ≠ .error .includeNeedsFile) → loadPath s build path ≠ .error .includeNeedsFile) := by
  have assembly := include_assembly s flat path
  have origin (levels : ℕ) (path : Path) : readFile s levels path ≠ .error .includeNeedsFile := by
    induction levels generalizing path with
    | zero => simp [readFile]
    | succ levels ih =>
      rcases read_succ s levels path with ⟨document, l, _, _, heq⟩ | ⟨_, herr⟩
      · rw [heq]
        intro h
        rcases (splice_reads s _ path l.reverse document.render).2 _ h with h | h | ⟨a, b, f, _, hr⟩
        · exact absurd h (by simp)
        · exact absurd h (by simp)
        · exact ih _ hr
      · rcases herr with ⟨m, he⟩ | he | he <;> (rw [he]; simp)
  unfold loadPath
  cases ha : assemble s path with
  | error e =>
    refine ⟨⟨by simp, ?_⟩, fun _ he => ?_⟩
    · rintro ⟨tree, h, _⟩
      rw [(assembly.1 tree.render).mpr ⟨tree, h, rfl⟩] at ha
      exact absurd ha (by simp)
    · rw [Except.error.injEq] at he
      rw [he] at ha
      exact origin _ _ ha
  | ok text =>
    obtain ⟨tree, ht, rfl⟩ := (assembly.1 text).mp ha
    simp only
    have plain := (includes_plain tree 0).mpr (assembles_plain s _ _ _ ht)
    have same (other : Forest) (h : Assembles s 9 path other) : other = tree := by
      have := (assembly.1 other.render).mpr ⟨other, h, rfl⟩
      rw [ha, Except.ok.injEq] at this
      exact (render_injective this).symm
    unfold loadStr
    by_cases h1 : tree.elements = 1
    · rw [(parse_iff _ _).mpr ⟨rfl, h1⟩]
      simp only [plain, List.isEmpty_nil, if_true]
      refine ⟨⟨fun h => ⟨tree, ht, h1, h⟩, ?_⟩, fun h => h tree⟩
      rintro ⟨other, ho, _, hb⟩
      rw [same other ho] at hb; exact hb
    · cases hp : parseDocument tree.render with
      | error e =>
        refine ⟨⟨by simp, ?_⟩, fun _ => ?_⟩
        · rintro ⟨other, ho, h, _⟩
          rw [same other ho] at h; exact absurd h h1
        · rw [parse_error hp]; simp
      | ok f =>
        obtain ⟨k1, k2⟩ := (parse_iff _ _).mp hp
        rw [← render_injective k1] at k2
        exact absurd k2 h1

/-- C114. Reading from a string refuses every document with an `<include>`, at any depth, and reads every other. -/
theorem include_needs_file {M : Type} (build : Forest → Except DocumentError M) (document : Forest)
    (one : document.elements = 1) :
    (document.Plain → loadStr build document.render = build document) ∧
    (¬ document.Plain → loadStr build document.render = .error .includeNeedsFile) := by
  unfold loadStr
  rw [(parse_iff _ _).mpr ⟨rfl, one⟩]
  refine ⟨fun h => ?_, fun h => ?_⟩
  · simp [(includes_plain document 0).mpr h]
  · have : includesFrom 0 document ≠ [] := fun h0 => h ((includes_plain document 0).mp h0)
    cases hi : includesFrom 0 document with
    | nil => exact absurd hi this
    | cons => simp [hi]

/-- C114. A file from which includes lead into a circle is never loaded: whatever the files hold, and wherever the circle
is entered, the reader ends with an error. -/
theorem include_circle (s : Sources Path) (path entry : Path) (reached : Relation.ReflTransGen (Leads s) path entry)
    (circle : Relation.TransGen (Leads s) entry entry) : ∃ e, assemble s path = .error e := by
  have around (n : ℕ) : ∀ q, Relation.TransGen (Leads s) q entry → Chain s n q := by
    induction n with
    | zero => exact fun q _ => .here q
    | succ n ih =>
      intro q hq
      obtain ⟨next, h1, h2⟩ := Relation.TransGen.head'_iff.mp hq
      rcases Relation.reflTransGen_iff_eq_or_transGen.mp h2 with h | h
      · exact .step h1 (h ▸ ih entry circle)
      · exact .step h1 (ih next h)
  have hc : Chain s 9 path := by
    rcases Relation.reflTransGen_iff_eq_or_transGen.mp reached with h | h
    · exact h ▸ around 9 entry circle
    · exact around 9 path h
  cases h : assemble s path with
  | error e => exact ⟨e, rfl⟩
  | ok out => exact absurd h (chain_fails s 9 path hc out)

/-- C114. The depth limit refuses nothing else: the error names depth nine, and is reported only if some nine includes in a
row lead from the file. -/
theorem include_too_deep (s : Sources Path) (path : Path) (depth : ℕ)
    (h : assemble s path = .error (.includeTooDeep depth)) : depth = 9 ∧ Chain s 9 path :=
  deep_chain s 9 path depth h

/-- C114. Files that nest at most eight deep are loaded: if every file reached can be read, holds one root that is not an
include, and names a file in each include, then the text is assembled and is one document. -/
theorem include_succeeds (s : Sources Path) (flat : AllFlat s) (path : Path)
    (good : ∀ q, Relation.ReflTransGen (Leads s) path q →
      ∃ document, Holds s q document ∧ document.Named ∧ document.Rooted)
    (short : ¬ Chain s 9 path) :
    ∃ tree, Assembles s 9 path tree ∧ tree.elements = 1 ∧ assemble s path = .ok tree.render := by
  obtain ⟨tree, h1, h2⟩ := assembles_of_no_chain s 9 path good short
  exact ⟨tree, h1, h2, ((include_assembly s flat path).1 _).mpr ⟨tree, h1, rfl⟩⟩

/-- Files by name; a file not listed cannot be read. -/
def library (files : List (String × Forest)) : Sources String where
  file path := match files.lookup path with
    | some document => .ok document.render
    | none => .error "no such file"
  beside _ file := file

/-- An `<include>` with what stands inside it. -/
def including (file : String) (children rest : Forest) : Forest := .element ⟨"include", some file, ""⟩ children rest

/-- An element of another name. -/
def plainElement (name : String) (children rest : Forest) : Forest := .element ⟨name, none, ""⟩ children rest

/-- C114 (finding). An `<include>` inside an `<include>` is not refused with an error.  Both are overwritten, the inner one
first, and the range kept for the outer one no longer fits: the reader panics, or removes what follows. -/
theorem include_nested_panics :
    assemble (library [("main", plainElement "mujoco" (including "a" (including "b" .nil .nil) .nil) .nil),
      ("a", plainElement "mujoco" .nil .nil), ("b", plainElement "mujoco" .nil .nil)]) "main" = .error .panics ∧
    assemble (library [("main", plainElement "mujoco" (including "a" (including "b" .nil .nil)
      (plainElement "worldbody" .nil .nil)) .nil),
      ("a", plainElement "mujoco" .nil .nil), ("b", plainElement "mujoco" .nil .nil)]) "main" =
      .ok (plainElement "mujoco" .nil .nil).render := by
  constructor <;> decide

theorem library_holds (files : List (String × Forest)) (path : String) (document : Forest) :
    Holds (library files) path document ↔ files.lookup path = some document ∧ document.elements = 1 := by
  rw [Holds, library]
  refine and_congr_left fun _ => ?_
  cases h : files.lookup path with
  | none => simp [h]
  | some d =>
    simp only [h, Except.ok.injEq, Option.some.injEq]
    exact ⟨render_injective, fun h => by rw [h]⟩

/-- A robot whose arm is a file, and whose hand is a file the arm includes. -/
def robotFiles : List (String × Forest) :=
  [("main", plainElement "mujoco" (.text " " (including "arm" .nil (plainElement "worldbody" .nil .nil))) .nil),
    ("arm", plainElement "mujoco" (plainElement "option" .nil (including "hand" (.text "?" .nil) .nil)) .nil),
    ("hand", plainElement "mujoco" (plainElement "asset" .nil (.text " " (plainElement "actuator" .nil .nil))) .nil)]

theorem robotFiles_lookup (path : String) (document : Forest) (h : robotFiles.lookup path = some document) :
    (path = "main" ∧ document = plainElement "mujoco"
      (.text " " (including "arm" .nil (plainElement "worldbody" .nil .nil))) .nil) ∨
    (path = "arm" ∧ document = plainElement "mujoco"
      (plainElement "option" .nil (including "hand" (.text "?" .nil) .nil)) .nil) ∨
    (path = "hand" ∧ document = plainElement "mujoco"
      (plainElement "asset" .nil (.text " " (plainElement "actuator" .nil .nil))) .nil) := by
  by_cases h1 : path = "main"
  · subst h1
    exact Or.inl ⟨rfl, by simpa [robotFiles, List.lookup] using h.symm⟩
  by_cases h2 : path = "arm"
  · subst h2
    exact Or.inr (Or.inl ⟨rfl, by simpa [robotFiles, List.lookup] using h.symm⟩)
  by_cases h3 : path = "hand"
  · subst h3
    exact Or.inr (Or.inr ⟨rfl, by simpa [robotFiles, List.lookup] using h.symm⟩)
  · have e1 : (path == "main") = false := by simpa using h1
    have e2 : (path == "arm") = false := by simpa using h2
    have e3 : (path == "hand") = false := by simpa using h3
    simp [robotFiles, List.lookup, e1, e2, e3] at h

theorem robotFiles_flat : AllFlat (library robotFiles) := by
  intro path document h
  rcases robotFiles_lookup path document ((library_holds _ _ _).mp h).1 with ⟨_, rfl⟩ | ⟨_, rfl⟩ | ⟨_, rfl⟩ <;>
    simp [plainElement, including, Forest.Flat, Forest.Plain]

theorem robotFiles_leads (path next : String) (h : Leads (library robotFiles) path next) :
    (path = "main" ∧ next = "arm") ∨ (path = "arm" ∧ next = "hand") := by
  obtain ⟨document, file, hd, hn, rfl⟩ := h
  rcases robotFiles_lookup path document ((library_holds _ _ _).mp hd).1 with ⟨h, rfl⟩ | ⟨h, rfl⟩ | ⟨h, rfl⟩ <;>
    simp [plainElement, including, Forest.Names] at hn
  · exact Or.inl ⟨h, hn.symm⟩
  · exact Or.inr ⟨h, hn.symm⟩

/-- The files of a robot meet every hypothesis: nothing is nested, every file reached is sound, and the chains are short. -/
example : AllFlat (library robotFiles) ∧ ¬ Chain (library robotFiles) 9 "main" ∧
    (∀ q, Relation.ReflTransGen (Leads (library robotFiles)) "main" q →
      ∃ document, Holds (library robotFiles) q document ∧ document.Named ∧ document.Rooted) ∧
    assemble (library robotFiles) "main" = .ok (plainElement "mujoco" (.text " " (plainElement "option" .nil
      (.text "\n" (plainElement "asset" .nil (.text "\n" (plainElement "actuator" .nil
        (plainElement "worldbody" .nil .nil))))))) .nil).render := by
  refine ⟨robotFiles_flat, fun h => ?_, fun q hq => ?_, by decide⟩
  · cases h with
    | step h1 r1 => cases r1 with
      | step h2 r2 => cases r2 with
        | step h3 r3 =>
          rcases robotFiles_leads _ _ h1 with ⟨_, rfl⟩ | ⟨h, _⟩
          · rcases robotFiles_leads _ _ h2 with ⟨h, _⟩ | ⟨_, rfl⟩
            · exact absurd h (by decide)
            · rcases robotFiles_leads _ _ h3 with ⟨h, _⟩ | ⟨h, _⟩ <;> exact absurd h (by decide)
          · exact absurd h (by decide)
  · have : q = "main" ∨ q = "arm" ∨ q = "hand" := by
      rcases Relation.ReflTransGen.cases_tail hq with h | ⟨c, _, h⟩
      · exact Or.inl h
      · rcases robotFiles_leads _ _ h with ⟨_, h⟩ | ⟨_, h⟩
        · exact Or.inr (Or.inl h)
        · exact Or.inr (Or.inr h)
    rcases this with rfl | rfl | rfl
    · exact ⟨_, (library_holds _ _ _).mpr ⟨rfl, rfl⟩, by simp [plainElement, including, Forest.Named],
        by simp [plainElement, including, Forest.Rooted]⟩
    · exact ⟨_, (library_holds _ _ _).mpr ⟨rfl, rfl⟩, by simp [plainElement, including, Forest.Named],
        by simp [plainElement, including, Forest.Rooted]⟩
    · exact ⟨_, (library_holds _ _ _).mpr ⟨rfl, rfl⟩, by simp [plainElement, including, Forest.Named],
        by simp [plainElement, including, Forest.Rooted]⟩

/-- Two files that include each other are a circle, and the depth limit is what is met. -/
example :
    let s := library [("a", plainElement "mujoco" (including "b" .nil .nil) .nil),
      ("b", plainElement "mujoco" (including "a" .nil .nil) .nil)]
    Relation.TransGen (Leads s) "a" "a" ∧ assemble s "a" = .error (.includeTooDeep 9) := by
  intro s
  have hab : Leads s "a" "b" := ⟨_, "b", (library_holds _ _ _).mpr ⟨rfl, rfl⟩,
    by simp [plainElement, including, Forest.Names], rfl⟩
  have hba : Leads s "b" "a" := ⟨_, "a", (library_holds _ _ _).mpr ⟨rfl, rfl⟩,
    by simp [plainElement, including, Forest.Names], rfl⟩
  exact ⟨.head hab (.single hba), by decide⟩

end Mjcf
end Multicalc
