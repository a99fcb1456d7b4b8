import Verif.Model.RobotModel
import Verif.Props.KinematicTree
import Mathlib.Data.String.Basic

/-!
# Property theorems: resolving a URDF's links and joints

C107.
-/

namespace Multicalc
namespace Urdf

variable {T : Type}

/-- A name stands for the first link that carries it. -/
def Denotes (links : List (ParsedLink T)) (name : String) (i : ℕ) : Prop :=
  (∃ l, links[i]? = some l ∧ l.name = name) ∧ ∀ j < i, ∀ l, links[j]? = some l → l.name ≠ name

/-- Joint `k` of the file runs from link `p` to link `c`. -/
def Joins (links : List (ParsedLink T)) (joints : List (ParsedJoint T)) (k p c : ℕ) : Prop :=
  ∃ j, joints[k]? = some j ∧ Denotes links j.parentLink p ∧ Denotes links j.childLink c

/-- Link `x` lies `d` joints below link `a`. -/
inductive Steps (links : List (ParsedLink T)) (joints : List (ParsedJoint T)) (a : ℕ) :
    ℕ → ℕ → Prop
  | here : Steps links joints a 0 a
  | down {d p k c : ℕ} : Steps links joints a d p → Joins links joints k p c →
      Steps links joints a (d + 1) c

/-- The links and joints of a file form one tree. -/
structure IsTree (links : List (ParsedLink T)) (joints : List (ParsedJoint T)) : Prop where
  /-- Every joint names two declared links. -/
  known : ∀ j ∈ joints, (∃ p, Denotes links j.parentLink p) ∧ ∃ c, Denotes links j.childLink c
  /-- No link is the child of two joints. -/
  single : ∀ k k' p p' c, Joins links joints k p c → Joins links joints k' p' c → k = k'
  /-- One link is nobody's child, and every link lies below it. -/
  rooted : ∃ r < links.length, (∀ k p, ¬Joins links joints k p r) ∧
    ∀ x < links.length, ∃ d, Steps links joints r d x

theorem denotes_iff (links : List (ParsedLink T)) (name : String) (i : ℕ) :
    (links.findIdx? fun l => l.name == name) = some i ↔ Denotes links name i := by
  rw [List.findIdx?_eq_some_iff_getElem]
  constructor
  · rintro ⟨h, h1, h2⟩
    refine ⟨⟨links[i], List.getElem?_eq_getElem h, by simpa using h1⟩, fun j hj l hl => ?_⟩
    have := h2 j hj
    rw [List.getElem?_eq_getElem (hj.trans h)] at hl
    cases hl
    simpa using this
  · rintro ⟨⟨l, hl, hn⟩, h2⟩
    obtain ⟨h, e⟩ := List.getElem?_eq_some_iff.1 hl
    subst e
    exact ⟨h, by simpa using hn, fun j hj => by
      simpa using h2 j hj _ (List.getElem?_eq_getElem (hj.trans h))⟩

theorem denotes_none (links : List (ParsedLink T)) (name : String) :
    (links.findIdx? fun l => l.name == name) = none ↔ ∀ l ∈ links, l.name ≠ name := by
  rw [List.findIdx?_eq_none_iff]; simp

theorem Denotes.lt {links : List (ParsedLink T)} {name : String} {i : ℕ} (h : Denotes links name i) :
    i < links.length := by
  obtain ⟨⟨l, hl, -⟩, -⟩ := h
  exact (List.getElem?_eq_some_iff.1 hl).1

theorem Denotes.unique {links : List (ParsedLink T)} {name : String} {i i' : ℕ}
    (h : Denotes links name i) (h' : Denotes links name i') : i = i' := by
  have := ((denotes_iff _ _ _).2 h).symm.trans ((denotes_iff _ _ _).2 h')
  simpa using this

variable {links : List (ParsedLink T)} {joints : List (ParsedJoint T)}

theorem Joins.unique {k p c p' c' : ℕ} (h : Joins links joints k p c)
    (h' : Joins links joints k p' c') : p = p' ∧ c = c' := by
  obtain ⟨j, hj, hp, hc⟩ := h
  obtain ⟨j', hj', hp', hc'⟩ := h'
  rw [hj] at hj'; cases hj'
  exact ⟨hp.unique hp', hc.unique hc'⟩

theorem Joins.lt {k p c : ℕ} (h : Joins links joints k p c) :
    k < joints.length ∧ p < links.length ∧ c < links.length := by
  obtain ⟨j, hj, hp, hc⟩ := h
  exact ⟨(List.getElem?_eq_some_iff.1 hj).1, hp.lt, hc.lt⟩

/-! ### The loop over the joints -/

/-- A loop that fails does so at some turn, reached without failing. -/
theorem foldlM_range_error {σ ε : Type} (f : σ → ℕ → Except ε σ) (n : ℕ) (s₀ : σ) (e : ε)
    (h : (List.range n).foldlM f s₀ = .error e) :
    ∃ i < n, ∃ s, (List.range i).foldlM f s₀ = .ok s ∧ f s i = .error e := by
  induction n with
  | zero => cases h
  | succ n ih =>
    rw [List.range_succ, List.foldlM_append] at h
    cases hr : (List.range n).foldlM f s₀ with
    | error e' =>
      rw [hr] at h
      have : e' = e := by cases h; rfl
      subst this
      obtain ⟨i, hi, r⟩ := ih hr
      exact ⟨i, by omega, r⟩
    | ok s =>
      rw [hr] at h
      have h' : ([n].foldlM f s) = .error e := h
      rw [List.foldlM_cons] at h'
      refine ⟨n, by omega, s, hr, ?_⟩
      cases hf : f s n with
      | error e' => rw [hf] at h'; cases h'; rfl
      | ok s' => rw [hf] at h'; cases h'

open Classical in
/-- What the loop has built after `i` joints. -/
structure Inv (links : List (ParsedLink T)) (joints : List (ParsedJoint T)) (i : ℕ) (r : Resolved) :
    Prop where
  length : r.driven.length = i
  driven : ∀ k < i, ∃ p, Joins links joints k p (r.driven.getD k 0)
  incoming : ∀ c k, r.incoming c = some k ↔ k < i ∧ ∃ p, Joins links joints k p c
  children : ∀ p, r.children p = (List.range i).filter fun k => ∃ c, Joins links joints k p c

theorem resolveStep_inv {i : ℕ} {r r' : Resolved} (h : Inv links joints i r)
    (hs : resolveStep links joints r i = .ok r') : Inv links joints (i + 1) r' := by
  unfold resolveStep at hs
  split at hs
  · cases hs
  · rename_i j hj
    unfold find at hs
    cases hp : (links.findIdx? fun l => l.name == j.parentLink) with
    | none => rw [hp] at hs; cases hs
    | some p =>
      cases hc : (links.findIdx? fun l => l.name == j.childLink) with
      | none => rw [hp, hc] at hs; cases hs
      | some c =>
        rw [hp, hc] at hs
        simp only [bind, Except.bind] at hs
        cases hi : r.incoming c with
        | some k => rw [hi] at hs; cases hs
        | none =>
          rw [hi] at hs
          cases hs
          rw [denotes_iff] at hp hc
          have hJ : Joins links joints i p c := ⟨j, hj, hp, hc⟩
          refine ⟨by simp [h.length], ?_, ?_, ?_⟩
          · intro k hk
            by_cases hki : k < i
            · obtain ⟨q, hq⟩ := h.driven k hki
              refine ⟨q, ?_⟩
              simp only [List.getD_eq_getElem?_getD] at hq ⊢
              rw [List.getElem?_append_left (by rw [h.length]; exact hki)]
              exact hq
            · obtain rfl : k = i := by omega
              refine ⟨p, ?_⟩
              simp only [List.getD_eq_getElem?_getD]
              rw [List.getElem?_append_right (by rw [h.length])]
              simpa [h.length] using hJ
          · intro x k
            by_cases hx : x = c
            · subst hx
              simp only [Function.update_self, Option.some.injEq]
              constructor
              · rintro rfl; exact ⟨by omega, p, hJ⟩
              · rintro ⟨hk, q, hq⟩
                by_contra hne
                have : r.incoming x = some k := (h.incoming x k).2 ⟨by omega, q, hq⟩
                rw [hi] at this; cases this
            · simp only [Function.update_of_ne hx]
              rw [h.incoming]
              constructor
              · rintro ⟨hk, q, hq⟩; exact ⟨by omega, q, hq⟩
              · rintro ⟨hk, q, hq⟩
                refine ⟨?_, q, hq⟩
                by_contra hne
                obtain rfl : k = i := by omega
                exact hx (hq.unique hJ).2
          · intro q
            rw [List.range_succ, List.filter_append]
            by_cases hq : q = p
            · subst hq
              simp only [Function.update_self]
              rw [h.children]
              congr 1
              have : ∃ c, Joins links joints i q c := ⟨c, hJ⟩
              simp [this]
            · simp only [Function.update_of_ne hq]
              rw [h.children]
              have : ¬∃ c, Joins links joints i q c := by
                rintro ⟨x, hx⟩; exact hq (hx.unique hJ).1
              simp [this]

theorem resolve_inv {r : Resolved} (h : resolve links joints = .ok r) :
    Inv links joints joints.length r := by
  unfold resolve at h
  refine foldlM_range_inv _ _ _ (Inv links joints) ⟨rfl, ?_, ?_, ?_⟩ (fun i _ s s' => resolveStep_inv) _ h
  · intro k hk; omega
  · intro c k; simp
  · intro p; simp

theorem sortNames_spec (names : List String) :
    (sortNames names).Perm names ∧ (sortNames names).Pairwise (· ≤ ·) := by
  refine ⟨List.mergeSort_perm _ _, ?_⟩
  have := List.pairwise_mergeSort (le := fun a b : String => decide (a ≤ b))
    (fun a b c h1 h2 => by simp at *; exact le_trans h1 h2) (fun a b => by simpa using le_total a b) names
  simpa [sortNames] using this

/-- Why the loop over the joints may stop. -/
inductive Refused (links : List (ParsedLink T)) (joints : List (ParsedJoint T)) : ModelError → Prop
  | unknown (j : ParsedJoint T) (link : String) (hj : j ∈ joints)
      (hl : link = j.parentLink ∨ link = j.childLink) (hn : ∀ l ∈ links, l.name ≠ link) :
      Refused links joints (.unknownLink j.name link)
  | twoParents (k k' p p' c : ℕ) (j j' : ParsedJoint T) (l : ParsedLink T) (names : List String)
      (hk : k < k') (h : Joins links joints k p c) (h' : Joins links joints k' p' c)
      (hj : joints[k]? = some j) (hj' : joints[k']? = some j') (hl : links[c]? = some l)
      (hp : names.Perm [j.name, j'.name]) (hs : names.Pairwise (· ≤ ·)) :
      Refused links joints (.linkHasTwoParents l.name names)

theorem resolve_error {e : ModelError} (h : resolve links joints = .error e) :
    Refused links joints e := by
  unfold resolve at h
  obtain ⟨i, hi, r, hr, he⟩ := foldlM_range_error _ _ _ _ h
  have hinv : Inv links joints i r := by
    refine foldlM_range_inv _ _ _ (Inv links joints) ⟨rfl, ?_, ?_, ?_⟩
      (fun i _ s s' => resolveStep_inv) _ hr
    · intro k hk; omega
    · intro c k; simp
    · intro p; simp
  unfold resolveStep at he
  rw [List.getElem?_eq_getElem hi] at he
  have hmem : joints[i] ∈ joints := List.getElem_mem hi
  have hget : joints[i]? = some joints[i] := List.getElem?_eq_getElem hi
  generalize joints[i] = j at *
  simp only [find] at he
  cases hp : (links.findIdx? fun l => l.name == j.parentLink) with
  | none =>
    rw [hp] at he; cases he
    exact .unknown j _ hmem (Or.inl rfl) ((denotes_none _ _).1 hp)
  | some p =>
    cases hc : (links.findIdx? fun l => l.name == j.childLink) with
    | none =>
      rw [hp, hc] at he; cases he
      exact .unknown j _ hmem (Or.inr rfl) ((denotes_none _ _).1 hc)
    | some c =>
      rw [hp, hc] at he
      simp only [bind, Except.bind] at he
      rw [denotes_iff] at hp hc
      cases hi' : r.incoming c with
      | none => rw [hi'] at he; cases he
      | some k =>
        rw [hi'] at he
        cases he
        obtain ⟨hk, q, hq⟩ := (hinv.incoming c k).1 hi'
        obtain ⟨⟨l, hl, hln⟩, -⟩ := id hc
        obtain ⟨j₀, hj₀, -⟩ := id hq
        rw [hl, hj₀]
        exact .twoParents k i q p c j₀ j l _ hk hq ⟨j, hget, hp, hc⟩ hj₀ hget hl
          (sortNames_spec _).1 (sortNames_spec _).2

theorem Inv.single {r : Resolved} (h : Inv links joints joints.length r) {k k' p p' c : ℕ}
    (h1 : Joins links joints k p c) (h2 : Joins links joints k' p' c) : k = k' := by
  have a := (h.incoming c k).2 ⟨h1.lt.1, p, h1⟩
  have b := (h.incoming c k').2 ⟨h2.lt.1, p', h2⟩
  rw [a] at b; simpa using b

/-! ### How deep a link can lie -/

theorem Steps.lt {a d x : ℕ} (ha : a < links.length) (h : Steps links joints a d x) :
    x < links.length := by
  cases h with
  | here => exact ha
  | down _ hj => exact hj.lt.2.2

theorem Steps.depth_unique
    (single : ∀ k k' p p' c, Joins links joints k p c → Joins links joints k' p' c → k = k') {a : ℕ}
    (root : ∀ k p, ¬Joins links joints k p a) {d e x : ℕ} (h : Steps links joints a d x)
    (h' : Steps links joints a e x) : d = e := by
  induction h generalizing e with
  | here =>
    cases h' with
    | here => rfl
    | down _ hj => exact absurd hj (root _ _)
  | down hs hj ih =>
    cases h' with
    | here => exact absurd hj (root _ _)
    | down hs' hj' =>
      have hk := single _ _ _ _ _ hj hj'
      subst hk
      have := (hj.unique hj').1
      subst this
      rw [ih hs']

theorem Steps.shallower {a d x : ℕ} (h : Steps links joints a d x) :
    ∀ e ≤ d, ∃ y, Steps links joints a e y := by
  induction h with
  | here => intro e he; exact ⟨a, by obtain rfl : e = 0 := by omega
                                     exact .here⟩
  | @down d p k c hs hj ih =>
    intro e he
    by_cases h : e = d + 1
    · subst h; exact ⟨c, .down hs hj⟩
    · exact ih e (by omega)

/-- A link lies at a depth smaller than the number of links. -/
theorem Steps.bound
    (single : ∀ k k' p p' c, Joins links joints k p c → Joins links joints k' p' c → k = k') {a : ℕ}
    (ha : a < links.length) (root : ∀ k p, ¬Joins links joints k p a) {d x : ℕ}
    (h : Steps links joints a d x) : d < links.length := by
  choose f hf using h.shallower
  have hinj : Function.Injective
      (fun e : Fin (d + 1) => (⟨f e (by omega), (hf e (by omega)).lt ha⟩ : Fin links.length)) := by
    intro e e' he
    simp only [Fin.mk.injEq] at he
    have h1 := hf e (by omega)
    have h2 := hf e' (by omega)
    rw [he] at h1
    exact Fin.ext (h1.depth_unique single root h2)
  have := Fintype.card_le_of_injective _ hinj
  simp only [Fintype.card_fin] at this
  omega

theorem Steps.trans {a b d e x : ℕ} (h : Steps links joints a d b) (h' : Steps links joints b e x) :
    Steps links joints a (d + e) x := by
  induction h' with
  | here => exact h
  | down _ hj ih => exact .down ih hj

theorem Steps.back_unique
    (single : ∀ k k' p p' c, Joins links joints k p c → Joins links joints k' p' c → k = k')
    {a b d x : ℕ} (h : Steps links joints a d x) (h' : Steps links joints b d x) : a = b := by
  induction d generalizing x with
  | zero => cases h; cases h'; rfl
  | succ d ih =>
    cases h with
    | down hs hj =>
      cases h' with
      | down hs' hj' =>
        have hk := single _ _ _ _ _ hj hj'
        subst hk
        have := (hj.unique hj').1
        subst this
        exact ih hs hs'

/-! ### The walk -/

/-- The links below a link in the order of a depth-first walk, down to a given depth. -/
def pre (r : Resolved) : ℕ → ℕ → List ℕ
  | 0, _ => []
  | f + 1, l => l :: (r.children l).flatMap fun k => pre r f (r.driven.getD k 0)

variable [Zero T] [One T]

/-- Body `i` is what the file says of link `x`: it carries the link's name and inertia; the root
stands at the origin without a joint; any other body hangs off an earlier one by the joint that leads
to it. -/
def Describes (links : List (ParsedLink T)) (joints : List (ParsedJoint T)) (order : List ℕ) (i x : ℕ)
    (b : BodyDescription T) : Prop :=
  (∃ l, links[x]? = some l ∧ b.name = l.name ∧ b.inertia = l.inertia) ∧
  ((i = 0 ∧ (∀ k p, ¬Joins links joints k p x) ∧ b.parent = none ∧ b.pose = SE3.identity ∧
      b.joint = none) ∨
    ∃ k p q j, Joins links joints k p x ∧ joints[k]? = some j ∧ q < i ∧ order[q]? = some p ∧
      b.parent = some q ∧ b.pose = j.origin ∧ b.joint = j.description)

/-- The bodies describe the links listed in `order`. -/
def Good (links : List (ParsedLink T)) (joints : List (ParsedJoint T)) (order : List ℕ)
    (bodies : List (BodyDescription T)) : Prop :=
  bodies.length = order.length ∧ ∀ i x b, order[i]? = some x → bodies[i]? = some b →
    Describes links joints order i x b

theorem Good.snoc {order : List ℕ} {bodies : List (BodyDescription T)} {x : ℕ} {b : BodyDescription T}
    (h : Good links joints order bodies) (hb : Describes links joints order bodies.length x b) :
    Good links joints (order ++ [x]) (bodies ++ [b]) := by
  have mono : ∀ i y b', i ≤ order.length → Describes links joints order i y b' →
      Describes links joints (order ++ [x]) i y b' := by
    rintro i y b' hi ⟨h1, h2⟩
    refine ⟨h1, h2.imp id ?_⟩
    rintro ⟨k, p, q, j, a1, a2, a3, a4, a5⟩
    exact ⟨k, p, q, j, a1, a2, a3, by rw [List.getElem?_append_left (by omega)]; exact a4, a5⟩
  refine ⟨by simp [h.1], fun i y b' hy hb' => ?_⟩
  by_cases hi : i < order.length
  · rw [List.getElem?_append_left hi] at hy
    rw [List.getElem?_append_left (by rw [h.1]; exact hi)] at hb'
    exact mono _ _ _ hi.le (h.2 i y b' hy hb')
  · rw [List.getElem?_append_right (by omega)] at hy
    rw [List.getElem?_append_right (by rw [h.1]; omega), h.1] at hb'
    have hi0 : i = order.length := by
      by_contra hne
      rw [List.getElem?_eq_none (by simp; omega)] at hy; cases hy
    subst hi0
    simp only [Nat.sub_self, List.getElem?_cons_zero, Option.some.injEq] at hy hb'
    subst hy; subst hb'
    rw [h.1] at hb
    exact mono _ _ _ le_rfl hb

theorem walk_good {r : Resolved} (hr : Inv links joints joints.length r) {root : ℕ}
    (hroot : root < links.length) (hfree : ∀ k p, ¬Joins links joints k p root) :
    ∀ (f d l : ℕ) (pb inc : Option ℕ) (visited : ℕ → Bool) (bodies : List (BodyDescription T))
      (order : List ℕ), Steps links joints root d l → d + f = links.length →
      Good links joints order bodies →
      ((bodies.length = 0 ∧ l = root ∧ pb = none ∧ inc = none) ∨
        ∃ k p q, inc = some k ∧ pb = some q ∧ Joins links joints k p l ∧ order[q]? = some p) →
      ∃ bodies', walk links joints r f l pb inc (visited, bodies) =
          some (fun x => visited x || decide (x ∈ pre r f l), bodies') ∧
        Good links joints (order ++ pre r f l) bodies' := by
  intro f
  induction f with
  | zero =>
    intro d l pb inc visited bodies order hs hd
    have := hs.bound (fun _ _ _ _ _ => hr.single) hroot hfree
    omega
  | succ f ih =>
    intro d l pb inc visited bodies order hs hd hg hcall
    have hl := hs.lt hroot
    have hlen := hg.1
    -- the body pushed first
    have hbody : ∀ b : BodyDescription T, b.name = (links[l]).name → b.inertia = (links[l]).inertia →
        b.parent = pb →
        b.pose = ((inc.bind fun index => joints[index]?).map fun j => j.origin).getD SE3.identity →
        b.joint = ((inc.bind fun index => joints[index]?).bind fun j => j.description) →
        Describes links joints order bodies.length l b := by
      intro b h1 h2 h3 h4 h5
      refine ⟨⟨links[l], List.getElem?_eq_getElem hl, h1, h2⟩, ?_⟩
      rcases hcall with ⟨a1, rfl, rfl, rfl⟩ | ⟨k, p, q, rfl, rfl, a3, a4⟩
      · exact Or.inl ⟨a1, hfree, h3, h4, h5⟩
      · obtain ⟨j, hj, -⟩ := id a3
        refine Or.inr ⟨k, p, q, j, a3, hj, ?_, a4, h3, ?_, ?_⟩
        · rw [hlen]; exact (List.getElem?_eq_some_iff.1 a4).1
        · rw [h4]; simp [hj]
        · rw [h5]; simp [hj]
    -- the children
    have key : ∀ (ks : List ℕ), (∀ k ∈ ks, k ∈ r.children l) →
        ∀ (vis : ℕ → Bool) (bs : List (BodyDescription T)) (ord : List ℕ),
        Good links joints ord bs → ord[bodies.length]? = some l →
        ∃ bs', ks.foldlM (fun s jointIndex => walk links joints r f (r.driven.getD jointIndex 0)
            (some bodies.length) (some jointIndex) s) (vis, bs) =
            some (fun x => vis x || decide (x ∈ ks.flatMap fun k => pre r f (r.driven.getD k 0)), bs') ∧
          Good links joints (ord ++ ks.flatMap fun k => pre r f (r.driven.getD k 0)) bs' := by
      intro ks
      induction ks with
      | nil =>
        intro _ vis bs ord h1 h2
        exact ⟨bs, by simp, by simpa using h1⟩
      | cons k ks ihk =>
        intro hmem vis bs ord h1 h2
        have hk := hmem k (by simp)
        rw [hr.children] at hk
        simp only [List.mem_filter, List.mem_range, decide_eq_true_eq] at hk
        obtain ⟨hk1, c, hc⟩ := hk
        obtain ⟨p', hp'⟩ := hr.driven k hk1
        obtain ⟨rfl, hcd⟩ := hc.unique hp'
        obtain ⟨bs1, e1, g1⟩ := ih (d + 1) (r.driven.getD k 0) (some bodies.length) (some k) vis bs ord
          (.down hs hp') (by omega) h1 (Or.inr ⟨k, l, bodies.length, rfl, rfl, hp', h2⟩)
        obtain ⟨bs2, e2, g2⟩ := ihk (fun x hx => hmem x (by simp [hx]))
          (fun x => vis x || decide (x ∈ pre r f (r.driven.getD k 0))) bs1 _ g1
          (by rw [List.getElem?_append_left (List.getElem?_eq_some_iff.1 h2).1]; exact h2)
        refine ⟨bs2, ?_, ?_⟩
        · rw [List.foldlM_cons, e1]
          refine Eq.trans e2 ?_
          congr 2
          funext x
          simp [List.flatMap_cons, Bool.or_assoc, Bool.decide_or]
        · rw [List.flatMap_cons, ← List.append_assoc]; exact g2
    rw [walk.eq_def]
    simp only [List.getElem?_eq_getElem hl]
    have hgood := hg.snoc (hbody ⟨links[l].name, pb,
      ((inc.bind fun index => joints[index]?).map fun j => j.origin).getD SE3.identity,
      links[l].inertia, (inc.bind fun index => joints[index]?).bind fun j => j.description⟩
      rfl rfl rfl rfl rfl)
    obtain ⟨bs', e, g⟩ := key (r.children l) (fun _ h => h) (Function.update visited l true) _ _ hgood
      (by rw [hlen, List.getElem?_append_right le_rfl]; simp)
    refine ⟨bs', ?_, ?_⟩
    · refine Eq.trans e ?_
      congr 2
      funext x
      by_cases hx : x = l
      · subst hx; simp [pre]
      · simp [pre, Function.update_of_ne hx, hx]
    · simpa [pre] using g

/-! ### The order of the walk -/

theorem Steps.head {a d x : ℕ} (h : Steps links joints a (d + 1) x) :
    ∃ k c, Joins links joints k a c ∧ Steps links joints c d x := by
  induction d generalizing x with
  | zero =>
    cases h with
    | down hs hj => cases hs; exact ⟨_, _, hj, .here⟩
  | succ d ih =>
    cases h with
    | down hs hj =>
      obtain ⟨k, c, h1, h2⟩ := ih hs
      exact ⟨k, c, h1, .down h2 hj⟩

theorem Steps.cons {a c k d x : ℕ} (hj : Joins links joints k a c) (h : Steps links joints c d x) :
    Steps links joints a (d + 1) x := by
  have := (Steps.down .here hj).trans h
  rwa [Nat.add_comm, Nat.zero_add, Nat.add_comm, Nat.add_comm 1 d] at this

theorem mem_children {r : Resolved} (hr : Inv links joints joints.length r) {l k : ℕ} :
    k ∈ r.children l ↔ Joins links joints k l (r.driven.getD k 0) := by
  rw [hr.children]
  simp only [List.mem_filter, List.mem_range, decide_eq_true_eq]
  constructor
  · rintro ⟨hk, c, hc⟩
    obtain ⟨p, hp⟩ := hr.driven k hk
    obtain ⟨rfl, rfl⟩ := hc.unique hp
    exact hp
  · intro h; exact ⟨h.lt.1, _, h⟩

theorem mem_pre {r : Resolved} (hr : Inv links joints joints.length r) (f : ℕ) :
    ∀ l x, x ∈ pre r f l ↔ ∃ e < f, Steps links joints l e x := by
  induction f with
  | zero => intro l x; simp [pre]
  | succ f ih =>
    intro l x
    simp only [pre, List.mem_cons, List.mem_flatMap, ih]
    constructor
    · rintro (rfl | ⟨k, hk, e, he, hs⟩)
      · exact ⟨0, by omega, .here⟩
      · exact ⟨e + 1, by omega, .cons ((mem_children hr).1 hk) hs⟩
    · rintro ⟨e, he, hs⟩
      cases e with
      | zero => cases hs; exact Or.inl rfl
      | succ e =>
        obtain ⟨k, c, hj, hs'⟩ := hs.head
        obtain ⟨p, hp⟩ := hr.driven k hj.lt.1
        obtain ⟨rfl, rfl⟩ := hj.unique hp
        exact Or.inr ⟨k, (mem_children hr).2 hp, e, by omega, hs'⟩

theorem pre_nodup {r : Resolved} (hr : Inv links joints joints.length r) {root : ℕ}
    (hfree : ∀ k p, ¬Joins links joints k p root) (f : ℕ) :
    ∀ d l, Steps links joints root d l → (pre r f l).Nodup := by
  have single : ∀ k k' p p' c, Joins links joints k p c → Joins links joints k' p' c → k = k' :=
    fun _ _ _ _ _ => hr.single
  induction f with
  | zero => intro d l _; simp [pre]
  | succ f ih =>
    intro d l hs
    simp only [pre, List.nodup_cons]
    refine ⟨?_, ?_⟩
    · rw [List.mem_flatMap]
      rintro ⟨k, hk, hm⟩
      obtain ⟨e, -, he⟩ := (mem_pre hr f _ _).1 hm
      have hj := (mem_children hr).1 hk
      have := ((hs.down hj).trans he).depth_unique single hfree hs
      omega
    · rw [List.nodup_flatMap]
      refine ⟨fun k hk => ih (d + 1) _ (hs.down ((mem_children hr).1 hk)), ?_⟩
      have hnd : (r.children l).Nodup := by rw [hr.children]; exact List.nodup_range.filter _
      refine hnd.imp_of_mem ?_
      intro k k' hk hk' hne x hx hx'
      obtain ⟨e, -, he⟩ := (mem_pre hr f _ _).1 hx
      obtain ⟨e', -, he'⟩ := (mem_pre hr f _ _).1 hx'
      have hj := (mem_children hr).1 hk
      have hj' := (mem_children hr).1 hk'
      have := ((hs.down hj).trans he).depth_unique single hfree ((hs.down hj').trans he')
      obtain rfl : e = e' := by omega
      have := he.back_unique single he'
      rw [this] at hj
      exact hne (single _ _ _ _ _ hj hj')

theorem pre_stable {r : Resolved} (hr : Inv links joints joints.length r) {root : ℕ}
    (hroot : root < links.length) (hfree : ∀ k p, ¬Joins links joints k p root) (f : ℕ) :
    ∀ d l, Steps links joints root d l → links.length ≤ d + f → pre r (f + 1) l = pre r f l := by
  induction f with
  | zero =>
    intro d l hs hd
    have := hs.bound (fun _ _ _ _ _ => hr.single) hroot hfree
    omega
  | succ f ih =>
    intro d l hs hd
    rw [pre, pre]
    congr 1
    refine List.flatMap_congr fun k hk => ?_
    exact ih (d + 1) _ (hs.down ((mem_children hr).1 hk)) (by omega)

/-! ### The verdict -/

/-- Why `build` refuses a file. -/
inductive BuildRefused (links : List (ParsedLink T)) (joints : List (ParsedJoint T)) :
    ModelError → Prop
  | joints {e : ModelError} (h : Refused links joints e) : BuildRefused links joints e
  | noRoot (h : ∀ x < links.length, ∃ k p, Joins links joints k p x) :
      BuildRefused links joints .missingRootLink
  | manyRoots (roots : List ℕ) (names : List String)
      (h : ∀ x, x ∈ roots ↔ x < links.length ∧ ∀ k p, ¬Joins links joints k p x)
      (hn : roots.Nodup) (h2 : 2 ≤ roots.length)
      (hp : names.Perm (roots.map fun x => (links[x]?.map fun l => l.name).getD ""))
      (hs : names.Pairwise (· ≤ ·)) : BuildRefused links joints (.multipleRootLinks names)
  | cyclic (x : ℕ) (l : ParsedLink T) (hl : links[x]? = some l)
      (known : ∀ j ∈ joints, (∃ p, Denotes links j.parentLink p) ∧ ∃ c, Denotes links j.childLink c)
      (single : ∀ k k' p p' c, Joins links joints k p c → Joins links joints k' p' c → k = k')
      (root : ℕ) (hr : root < links.length) (hroot : ∀ k p, ¬Joins links joints k p root)
      (hx : ∀ d, ¬Steps links joints root d x)
      (hfirst : ∀ y < x, ∃ d, Steps links joints root d y)
      (hcycle : ∃ y d e, 0 < d ∧ Steps links joints y d y ∧ Steps links joints y e x) :
      BuildRefused links joints (.cyclicLinkage l.name)
  | floating (k p x : ℕ) (j : ParsedJoint T) (l : ParsedLink T) (d : JointDescription T)
      (hj : Joins links joints k p x) (hk : joints[k]? = some j) (hl : links[x]? = some l)
      (hd : j.description = some d) (hf : d.kind = .floating) (tree : IsTree links joints) :
      BuildRefused links joints (.freeJointNotAtRoot l.name)

theorem exists_cycle {root x : ℕ} (hx : x < links.length)
    (hun : ∀ d, ¬Steps links joints root d x)
    (honly : ∀ y < links.length, y ≠ root → ∃ k p, Joins links joints k p y) :
    ∃ y d e, 0 < d ∧ Steps links joints y d y ∧ Steps links joints y e x := by
  let S := {y : Fin links.length // ∀ d, ¬Steps links joints root d y}
  have hpred : ∀ y : S, ∃ z : S, ∃ k, Joins links joints k z.1 y.1 := by
    rintro ⟨y, hy⟩
    obtain ⟨k, p, hj⟩ := honly y y.2 (by rintro h; exact hy 0 (by rw [h]; exact .here))
    exact ⟨⟨⟨p, hj.lt.2.1⟩, fun d hd => hy (d + 1) (hd.down hj)⟩, k, hj⟩
  choose g hg using hpred
  let s : ℕ → S := fun i => g^[i] ⟨⟨x, hx⟩, hun⟩
  have hstep : ∀ i m, Steps links joints (s (i + m)).1 m (s i).1 := by
    intro i m
    induction m with
    | zero => exact .here
    | succ m ih =>
      obtain ⟨k, hk⟩ := hg (s (i + m))
      have e : s (i + (m + 1)) = g (s (i + m)) := Function.iterate_succ_apply' g (i + m) _
      rw [e]
      exact .cons hk ih
  obtain ⟨i, j, hne, he⟩ := Finite.exists_ne_map_eq_of_infinite s
  have fin : ∀ i j, i < j → s i = s j →
      ∃ y d e, 0 < d ∧ Steps links joints y d y ∧ Steps links joints y e x := by
    intro i j hlt he
    refine ⟨(s i).1, j - i, i, by omega, ?_, ?_⟩
    · have := hstep i (j - i)
      rw [show i + (j - i) = j by omega, ← he] at this
      exact this
    · have := hstep 0 i
      rw [Nat.zero_add] at this
      exact this
  rcases lt_or_gt_of_ne hne with h | h
  · exact fin i j h he
  · exact fin j i h he.symm

theorem resolve_known {r : Resolved} (hr : Inv links joints joints.length r) :
    ∀ j ∈ joints, (∃ p, Denotes links j.parentLink p) ∧ ∃ c, Denotes links j.childLink c := by
  intro j hj
  obtain ⟨k, hk, rfl⟩ := List.getElem_of_mem hj
  obtain ⟨p, j', hj', hp, hc⟩ := hr.driven k hk
  rw [List.getElem?_eq_getElem hk] at hj'
  cases hj'
  exact ⟨⟨p, hp⟩, _, hc⟩

open Classical in
/-- Everything `build` can return. -/
theorem build_verdict (links : List (ParsedLink T)) (joints : List (ParsedJoint T)) :
    match build links joints with
    | .error e => BuildRefused links joints e
    | .ok bodies => IsTree links joints ∧
      ∃ (root : ℕ) (child : ℕ → ℕ) (visit : ℕ → List ℕ),
        (visit root).Perm (List.range links.length) ∧ Good links joints (visit root) bodies ∧
        (∀ b ∈ bodies, ∀ d, b.joint = some d → d.kind ≠ .floating) ∧
        (∀ k < joints.length, ∃ p, Joins links joints k p (child k)) ∧
        ∀ x < links.length, visit x =
          x :: ((List.range joints.length).filter fun k => ∃ c, Joins links joints k x c).flatMap
            fun k => visit (child k) := by
  unfold build
  cases hres : resolve links joints with
  | error e => exact .joints (resolve_error hres)
  | ok r =>
    have hr := resolve_inv hres
    have single : ∀ k k' p p' c, Joins links joints k p c → Joins links joints k' p' c → k = k' :=
      fun _ _ _ _ _ => hr.single
    have hmem : ∀ x, x ∈ ((List.range links.length).filter fun index => (r.incoming index).isNone) ↔
        x < links.length ∧ ∀ k p, ¬Joins links joints k p x := by
      intro x
      simp only [List.mem_filter, List.mem_range, Option.isNone_iff_eq_none]
      refine and_congr_right fun _ => ?_
      rw [Option.eq_none_iff_forall_ne_some]
      constructor
      · intro h k p hj; exact h k ((hr.incoming x k).2 ⟨hj.lt.1, p, hj⟩)
      · intro h k hk
        obtain ⟨-, p, hp⟩ := (hr.incoming x k).1 hk
        exact h k p hp
    have hnd : ((List.range links.length).filter fun index => (r.incoming index).isNone).Nodup :=
      List.nodup_range.filter _
    dsimp only
    generalize ((List.range links.length).filter fun index => (r.incoming index).isNone) = roots at *
    match roots, hmem, hnd with
    | [], hmem, hnd =>
      refine .noRoot fun x hx => ?_
      by_contra hne
      push Not at hne
      simpa using (hmem x).2 ⟨hx, hne⟩
    | a :: b :: t, hmem, hnd =>
      exact .manyRoots (a :: b :: t) _ hmem hnd (by simp) (sortNames_spec _).1 (sortNames_spec _).2
    | [root], hmem, hnd =>
      obtain ⟨hroot, hfree⟩ := (hmem root).1 (by simp)
      have honly : ∀ y < links.length, y ≠ root → ∃ k p, Joins links joints k p y := by
        intro y hy hne
        by_contra hno
        push Not at hno
        have := (hmem y).2 ⟨hy, hno⟩
        simp at this; exact hne this
      obtain ⟨bodies, hw, hg⟩ := walk_good hr hroot hfree links.length 0 root none none (fun _ => false)
        [] [] .here (by omega) ⟨rfl, by intro i x b h; simp at h⟩ (Or.inl ⟨rfl, rfl, rfl, rfl⟩)
      dsimp only
      rw [hw]
      simp only [Bool.false_or, List.nil_append] at hg ⊢
      have hreach : ∀ x, x ∈ pre r links.length root ↔ ∃ d, Steps links joints root d x := by
        intro x
        rw [mem_pre hr]
        exact ⟨fun ⟨e, _, h⟩ => ⟨e, h⟩, fun ⟨e, h⟩ => ⟨e, h.bound single hroot hfree, h⟩⟩
      cases hfind : (List.range links.length).find? fun index =>
          !decide (index ∈ pre r links.length root) with
      | some x =>
        dsimp only
        rw [List.find?_range_eq_some] at hfind
        obtain ⟨h1, h2, h3⟩ := hfind
        have hxl : x < links.length := by simpa using h2
        have hun : ∀ d, ¬Steps links joints root d x := by
          intro d hd
          simp [(hreach x).2 ⟨d, hd⟩] at h1
        rw [List.getElem?_eq_getElem hxl]
        refine .cyclic x links[x] (List.getElem?_eq_getElem hxl) (resolve_known hr) single root hroot
          hfree hun ?_ (exists_cycle hxl hun honly)
        intro y hy
        have := h3 y hy
        simp only [Bool.not_not, decide_eq_true_eq] at this
        exact (hreach y).1 this
      | none =>
        rw [List.find?_eq_none] at hfind
        have hall : ∀ x < links.length, x ∈ pre r links.length root := by
          intro x hx
          simpa using hfind x (List.mem_range.2 hx)
        have tree : IsTree links joints :=
          ⟨resolve_known hr, single, root, hroot, hfree, fun x hx => (hreach x).1 (hall x hx)⟩
        dsimp only
        cases hfl : bodies.find? isFloating with
        | some b =>
          dsimp only
          have hb := List.mem_of_find?_eq_some hfl
          have hfb := List.find?_some hfl
          obtain ⟨i, hi, rfl⟩ := List.getElem_of_mem hb
          have hi' : i < (pre r links.length root).length := by rw [← hg.1]; exact hi
          obtain ⟨⟨l, hl, hname, -⟩, h⟩ := hg.2 i _ _ (List.getElem?_eq_getElem hi')
            (List.getElem?_eq_getElem hi)
          unfold isFloating at hfb
          rcases h with ⟨-, -, -, -, hj⟩ | ⟨k, p, q, j, hj, hk, -, -, -, -, hd⟩
          · rw [hj] at hfb; cases hfb
          · rw [hd] at hfb
            cases hdd : j.description with
            | none => rw [hdd] at hfb; cases hfb
            | some d =>
              rw [hdd] at hfb
              rw [hname]
              exact .floating k p _ j l d hj hk hl hdd (by simpa using hfb) tree
        | none =>
          refine ⟨tree, root, fun k => r.driven.getD k 0, pre r links.length, ?_, hg, ?_, hr.driven, ?_⟩
          · refine (List.perm_ext_iff_of_nodup (pre_nodup hr hfree _ 0 root .here) List.nodup_range).2
              fun x => ?_
            rw [List.mem_range]
            exact ⟨fun h => by obtain ⟨d, hd⟩ := (hreach x).1 h; exact hd.lt hroot, hall x⟩
          · intro b hb d hd hk
            rw [List.find?_eq_none] at hfl
            refine hfl b hb ?_
            unfold isFloating
            rw [hd]; simp [hk]
          · intro x hx
            obtain ⟨d, hd⟩ := (hreach x).1 (hall x hx)
            obtain ⟨n, hn⟩ : ∃ n, links.length = n + 1 := ⟨links.length - 1, by omega⟩
            conv_lhs => rw [hn, pre]
            rw [hr.children]
            congr 1
            refine List.flatMap_congr fun k hk => ?_
            rw [← hr.children] at hk
            have := pre_stable hr hroot hfree n (d + 1) _ (hd.down ((mem_children hr).1 hk)) (by omega)
            rw [hn]; exact this.symm

/-- C107. When a URDF is accepted its links and joints form one tree; the bodies are the links, each
once, in depth-first order with siblings in the order of their joints; body 0 is the only root and
stands at the origin without a joint; every other body comes after the body it hangs off, and takes
its pose and its joint from the one joint that leads to its link; and no joint floats. -/
theorem urdf_build_ok {links : List (ParsedLink T)} {joints : List (ParsedJoint T)}
    {bodies : List (BodyDescription T)} (h : build links joints = .ok bodies) :
    IsTree links joints ∧
      ∃ (root : ℕ) (child : ℕ → ℕ) (visit : ℕ → List ℕ),
        (visit root).Perm (List.range links.length) ∧ Good links joints (visit root) bodies ∧
        (∀ b ∈ bodies, ∀ d, b.joint = some d → d.kind ≠ .floating) ∧
        (∀ k < joints.length, ∃ p, Joins links joints k p (child k)) ∧
        ∀ x < links.length, ∃ out : List ℕ, out.Pairwise (· < ·) ∧
          (∀ k, k ∈ out ↔ ∃ c, Joins links joints k x c) ∧
          visit x = x :: out.flatMap fun k => visit (child k) := by
  classical
  have := build_verdict links joints
  rw [h] at this
  obtain ⟨tree, root, child, visit, h1, h2, h3, h4, h5⟩ := this
  refine ⟨tree, root, child, visit, h1, h2, h3, h4, fun x hx => ⟨_, ?_, ?_, h5 x hx⟩⟩
  · exact List.pairwise_lt_range.filter _
  · intro k
    simp only [List.mem_filter, List.mem_range, decide_eq_true_eq]
    exact ⟨fun h => h.2, fun h => ⟨h.choose_spec.lt.1, h⟩⟩

/-- C107. When a URDF is refused the error names what is wrong with it.  In particular the walk always
ends: no list of links and joints makes it recurse for ever. -/
theorem urdf_build_error {links : List (ParsedLink T)} {joints : List (ParsedJoint T)} {e : ModelError}
    (h : build links joints = .error e) : BuildRefused links joints e := by
  have := build_verdict links joints
  rw [h] at this
  exact this

/-- C107. The walk ends and indexes nothing out of range. -/
theorem urdf_build_terminates (links : List (ParsedLink T)) (joints : List (ParsedJoint T)) :
    build links joints ≠ .error .diverges ∧ build links joints ≠ .error .panics := by
  constructor
  · intro h
    have := urdf_build_error h
    generalize he : ModelError.diverges = e at this
    cases this <;> try cases he
    rename_i h'; cases h' <;> cases he
  · intro h
    have := urdf_build_error h
    generalize he : ModelError.panics = e at this
    cases this <;> try cases he
    rename_i h'; cases h' <;> cases he

/-- C107. A URDF is accepted exactly when its links and joints form one tree and no joint floats. -/
theorem urdf_build_iff (links : List (ParsedLink T)) (joints : List (ParsedJoint T)) :
    (∃ bodies, build links joints = .ok bodies) ↔
      IsTree links joints ∧
        ∀ j ∈ joints, ∀ d, j.description = some d → d.kind ≠ .floating := by
  constructor
  · rintro ⟨bodies, h⟩
    obtain ⟨tree, root, child, visit, h1, h2, h3, -, -⟩ := urdf_build_ok h
    refine ⟨tree, fun j hj d hd => ?_⟩
    obtain ⟨k, hk, rfl⟩ := List.getElem_of_mem hj
    obtain ⟨⟨p, hp⟩, c, hc⟩ := tree.known _ hj
    have hJ : Joins links joints k p c := ⟨_, List.getElem?_eq_getElem hk, hp, hc⟩
    have hmem : c ∈ visit root := h1.mem_iff.2 (List.mem_range.2 hc.lt)
    obtain ⟨i, hi, hci⟩ := List.getElem_of_mem hmem
    have hib : i < bodies.length := by rw [h2.1]; exact hi
    obtain ⟨-, hdesc⟩ := h2.2 i c bodies[i] (by rw [List.getElem?_eq_getElem hi, hci])
      (List.getElem?_eq_getElem hib)
    rcases hdesc with ⟨-, hno, -⟩ | ⟨k', p', q, j', hJ', hk', -, -, -, -, hj'⟩
    · exact absurd hJ (hno k p)
    · have := tree.single _ _ _ _ _ hJ hJ'
      subst this
      rw [List.getElem?_eq_getElem hk] at hk'
      cases hk'
      exact h3 _ (List.getElem_mem hib) d (by rw [hj', hd])
  · rintro ⟨tree, hfl⟩
    cases h : build links joints with
    | ok bodies => exact ⟨bodies, rfl⟩
    | error e =>
      exfalso
      have := urdf_build_error h
      clear h
      obtain ⟨root, hroot, hfree, hreach⟩ := tree.rooted
      cases this with
      | joints h =>
        cases h with
        | unknown j link hj hl hn =>
          obtain ⟨⟨p, ⟨l, hl1, hl2⟩, -⟩, c, ⟨l', hl1', hl2'⟩, -⟩ := tree.known j hj
          rcases hl with rfl | rfl
          · exact hn l (List.mem_of_getElem? hl1) hl2
          · exact hn l' (List.mem_of_getElem? hl1') hl2'
        | twoParents k k' p p' c j j' l names hk h h' =>
          exact absurd (tree.single _ _ _ _ _ h h') (by omega)
      | noRoot h => obtain ⟨k, p, hj⟩ := h root hroot; exact hfree k p hj
      | manyRoots roots names h hn h2 =>
        match roots, h, hn, h2 with
        | a :: b :: t, h, hn, h2 =>
          have key : ∀ x ∈ a :: b :: t, x = root := by
            intro x hx
            obtain ⟨hx1, hx2⟩ := (h x).1 hx
            obtain ⟨d, hd⟩ := hreach x hx1
            cases hd with
            | here => rfl
            | down _ hj => exact absurd hj (hx2 _ _)
          have e1 := key a (by simp)
          have e2 := key b (by simp)
          rw [e1, e2] at hn
          simp at hn
      | cyclic x l hl known single r hr hroot' hx =>
        obtain ⟨d, hd⟩ := hreach r hr
        cases hd with
        | here =>
          obtain ⟨d, hd⟩ := hreach x (List.getElem?_eq_some_iff.1 hl).1
          exact hx d hd
        | down _ hj => exact hroot' _ _ hj
      | floating k p x j l d hj hk hl hd hf =>
        exact hfl j (List.mem_of_getElem? hk) d hd hf

/-- C107. The bodies of an accepted URDF all have different names: a second link of the same name is
never anyone's parent or child, so the file is refused. -/
theorem urdf_names_distinct {links : List (ParsedLink T)} {joints : List (ParsedJoint T)}
    {bodies : List (BodyDescription T)} (h : build links joints = .ok bodies) :
    ∀ (i i' : ℕ) (b b' : BodyDescription T), bodies[i]? = some b → bodies[i']? = some b' →
      b.name = b'.name → i = i' := by
  obtain ⟨tree, root, child, visit, h1, h2, -⟩ := urdf_build_ok h
  have hnames : ∀ (x x' : ℕ) (l l' : ParsedLink T), links[x]? = some l → links[x']? = some l' →
      l.name = l'.name → x < x' → False := by
    intro x x' l l' hl hl' hn hlt
    obtain ⟨r, hr, hfree, hreach⟩ := tree.rooted
    have hno : ∀ name, ¬Denotes links name x' := by
      rintro name ⟨⟨m, hm, rfl⟩, hfirst⟩
      rw [hl'] at hm; cases hm
      exact hfirst x hlt l hl hn
    obtain ⟨d, hd⟩ := hreach x' (List.getElem?_eq_some_iff.1 hl').1
    cases hd with
    | down _ hj => obtain ⟨j, -, -, hc⟩ := hj; exact hno _ hc
    | here =>
      obtain ⟨d, hd⟩ := hreach x (List.getElem?_eq_some_iff.1 hl).1
      cases d with
      | zero => cases hd; omega
      | succ d =>
        obtain ⟨k, c, ⟨j, -, hp, -⟩, -⟩ := hd.head
        exact hno _ hp
  intro i i' b b' hb hb' hn
  have hi : i < (visit root).length := by rw [← h2.1]; exact (List.getElem?_eq_some_iff.1 hb).1
  have hi' : i' < (visit root).length := by rw [← h2.1]; exact (List.getElem?_eq_some_iff.1 hb').1
  obtain ⟨⟨l, hl, hln, -⟩, -⟩ := h2.2 i _ b (List.getElem?_eq_getElem hi) hb
  obtain ⟨⟨l', hl', hln', -⟩, -⟩ := h2.2 i' _ b' (List.getElem?_eq_getElem hi') hb'
  have hnd : (visit root).Nodup := h1.nodup_iff.2 List.nodup_range
  have hx : (visit root)[i] = (visit root)[i'] := by
    rcases lt_trichotomy ((visit root)[i]) ((visit root)[i']) with hlt | he | hgt
    · exact (hnames _ _ _ _ hl hl' (by rw [← hln, ← hln', hn]) hlt).elim
    · exact he
    · exact (hnames _ _ _ _ hl' hl (by rw [← hln, ← hln', hn]) hgt).elim
  exact (hnd.getElem_inj_iff).1 hx

/-! ### Concrete files -/

/-- A weld from one link to another. -/
def weld (name parent child : String) : ParsedJoint ℚ := ⟨name, parent, child, SE3.identity, none⟩

/-- A link without inertia. -/
def bare (name : String) : ParsedLink ℚ := ⟨name, none⟩

/-- `urdf_build_ok`, `urdf_build_iff` and `urdf_names_distinct` on a file whose links are declared tip
first and whose base carries two branches. -/
example : (match build [bare "tip", bare "arm", bare "base", bare "camera"]
      [weld "j1" "arm" "tip", weld "j2" "base" "camera", weld "j3" "base" "arm"] with
    | .ok bodies => bodies.map fun b => (b.name, b.parent)
    | .error _ => []) = [("base", none), ("camera", some 0), ("arm", some 0), ("tip", some 2)] := by
  decide +kernel

/-- `urdf_build_error`: a link claimed by two joints, and a file with two roots. -/
example : (match build [bare "a", bare "b", bare "c"] [weld "y" "a" "c", weld "x" "b" "c"] with
    | .error (.linkHasTwoParents link names) => some (link, names.length)
    | _ => none) = some ("c", 2) ∧
    (match build [bare "b", bare "a", bare "c"] [weld "x" "b" "c"] with
    | .error (.multipleRootLinks names) => some names.length
    | _ => none) = some 2 ∧
    (match build [bare "b"] [weld "x" "b" "c"] with
    | .error e => some e
    | .ok _ => none) = some (.unknownLink "x" "c") ∧
    (match build [bare "b", bare "c"] [weld "x" "b" "c", weld "y" "c" "b"] with
    | .error e => some e
    | .ok _ => none) = some .missingRootLink := by
  refine ⟨?_, ?_, by decide +kernel, by decide +kernel⟩
  · change some ("c", (sortNames ["y", "x"]).length) = some ("c", 2)
    rw [(sortNames_spec _).1.length_eq]; rfl
  · change some (sortNames ["b", "a"]).length = some 2
    rw [(sortNames_spec _).1.length_eq]; rfl

/-- C107 (finding). `CyclicLinkage` is documented to carry "a link on the cycle" (`error.rs:131-135`),
and its message says that the link "hangs off itself".  Here it carries `mast`, which no joint leaves:
the cycle is between two links declared after it. -/
theorem urdf_cycle_names_wrong_link :
    ∃ (links : List (ParsedLink ℚ)) (joints : List (ParsedJoint ℚ)) (x : ℕ) (l : ParsedLink ℚ),
      links[x]? = some l ∧ build links joints = .error (.cyclicLinkage l.name) ∧
      (∀ y m, links[y]? = some m → m.name = l.name → y = x) ∧
      ∀ d > 0, ¬Steps links joints x d x := by
  refine ⟨[bare "base", bare "mast", bare "b", bare "c"],
    [weld "j1" "b" "c", weld "j2" "c" "b", weld "j3" "b" "mast"], 1, bare "mast", rfl, ?_, ?_, ?_⟩
  · have : (match build [bare "base", bare "mast", bare "b", bare "c"]
        [weld "j1" "b" "c", weld "j2" "c" "b", weld "j3" "b" "mast"] with
      | .ok _ => none
      | .error e => some e) = some (.cyclicLinkage "mast") := by decide +kernel
    revert this
    cases build [bare "base", bare "mast", bare "b", bare "c"]
        [weld "j1" "b" "c", weld "j2" "c" "b", weld "j3" "b" "mast"] with
    | ok _ => intro h; cases h
    | error e => intro h; cases h; rfl
  · intro y m hy hm
    match y, hy with
    | 0, hy => cases hy; exact absurd hm (by decide)
    | 1, hy => rfl
    | 2, hy => cases hy; exact absurd hm (by decide)
    | 3, hy => cases hy; exact absurd hm (by decide)
    | _ + 4, hy => cases hy
  · intro d hd hs
    obtain ⟨e, rfl⟩ : ∃ e, d = e + 1 := ⟨d - 1, by omega⟩
    obtain ⟨k, c, ⟨j, hj, ⟨⟨l, hl, hn⟩, -⟩, -⟩, -⟩ := hs.head
    cases hl
    match k, hj with
    | 0, hj => cases hj; exact absurd hn (by decide)
    | 1, hj => cases hj; exact absurd hn (by decide)
    | 2, hj => cases hj; exact absurd hn (by decide)
    | _ + 3, hj => cases hj

end Urdf
end Multicalc
