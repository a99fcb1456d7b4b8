import Verif.Model.Codegen
import Verif.Props.RobotModel
import Verif.Props.Attitude
import Verif.Props.Rotation
import Verif.Props.Urdf
import Verif.Model.XR

/-!
# Property theorems: a robot written out as Rust source

C113.
-/

namespace Multicalc
namespace Codegen

open KinematicTree RobotModel

/-! ### Trees of different capacities -/

section Capacities

variable {T : Type} [Zero T] [One T] [NatCast T] [Add T] [Sub T] [Mul T] [Div T] [Neg T] [LT T]
  [DecidableLT T] [LE T] [DecidableLE T] [BEq T] [Fns T]
variable {M C M' C' : ℕ}

/-- What a tree holds, without its capacities. -/
def held {M C : ℕ} (r : Except KinematicsError (KinematicTree M C T)) :
    Except KinematicsError (List (Joint T × JointParent)) := r.map (·.joints)

omit [Zero T] [One T] [NatCast T] [Add T] [Sub T] [Mul T] [Div T] [Neg T] [LT T]
  [DecidableLT T] [LE T] [DecidableLE T] [BEq T] [Fns T] in
theorem held_ok {r : Except KinematicsError (KinematicTree M C T)} {l : List (Joint T × JointParent)}
    (h : held r = .ok l) : r = .ok ⟨l⟩ := by
  cases r with
  | error e => cases h
  | ok t => cases h; rfl

theorem push_held {t : KinematicTree M C T} {t₂ : KinematicTree M' C T} (hj : t.joints = t₂.joints)
    (h : t.len ≠ M) (h₂ : t₂.len ≠ M') (j : Joint T) (p : JointParent) : held (t.push j p) = held (t₂.push j p) := by
  have hl : t.len = t₂.len := by simp only [len, hj]
  have hc : t.configLen = t₂.configLen := by
    cases t; cases t₂; cases hj; rfl
  unfold push
  rw [if_neg h, if_neg h₂, hl, hc]
  cases j.checkLimits with
  | error e => dsimp only; split_ifs <;> rfl
  | ok u =>
    cases j.normalizeAxis with
    | error e => dsimp only; split_ifs <;> rfl
    | ok j' =>
      dsimp only
      split_ifs <;> first | rfl | simp [held, Except.map, hj]

theorem fold_held (l : List (Joint T × JointParent)) : ∀ {t : KinematicTree M C T} {t₂ : KinematicTree M' C T},
    t.joints = t₂.joints → t.len + l.length ≤ M → t₂.len + l.length ≤ M' →
    held (l.foldlM (fun t p => t.push p.1 p.2) t) = held (l.foldlM (fun t p => t.push p.1 p.2) t₂) := by
  induction l with
  | nil => intro t t₂ hj _ _; simp [held, Except.map, pure, Except.pure, hj]
  | cons a l ih =>
    intro t t₂ hj h h₂
    simp only [List.length_cons] at h h₂
    have := push_held hj (by omega) (by omega) a.1 a.2
    rw [List.foldlM_cons, List.foldlM_cons]
    cases hp : t.push a.1 a.2 with
    | error e =>
      rw [hp] at this
      cases hp₂ : t₂.push a.1 a.2 with
      | error e' => rw [hp₂] at this; simp only [held, Except.map, Except.error.injEq] at this; rw [this]; rfl
      | ok t₂' => rw [hp₂] at this; cases this
    | ok t' =>
      rw [hp] at this
      cases hp₂ : t₂.push a.1 a.2 with
      | error e' => rw [hp₂] at this; cases this
      | ok t₂' =>
        rw [hp₂] at this
        simp only [held, Except.map, Except.ok.injEq] at this
        obtain ⟨-, -, -, -, -, -, j', -, -, ht⟩ := (push_cases _ _ _ _).1 hp
        obtain ⟨-, -, -, -, -, -, j₂', -, -, ht₂⟩ := (push_cases _ _ _ _).1 hp₂
        exact ih this (by rw [ht, len_append]; omega) (by rw [ht₂, len_append]; omega)

omit [Zero T] [One T] [NatCast T] [Add T] [Sub T] [Mul T] [Div T] [Neg T] [LT T]
  [DecidableLT T] [LE T] [DecidableLE T] [BEq T] [Fns T] in
theorem configLen_push (l : List (Joint T × JointParent)) (j : Joint T) (p : JointParent)
    (h : j.kind = .floating → l = []) : (⟨l ++ [(j, p)]⟩ : KinematicTree M C T).configLen =
      (⟨l⟩ : KinematicTree M C T).configLen + j.width := by
  cases l with
  | nil => by_cases hk : j.kind = .floating <;> simp [configLen, len, hasFloatingBase, Joint.width, hk]
  | cons a l =>
    have hk : j.kind ≠ .floating := fun hk => by simpa using h hk
    simp only [configLen, len, hasFloatingBase, Joint.width, List.length_append, List.cons_append, List.length_cons, hk, if_false]
    by_cases ha : a.1.kind = .floating <;> simp [ha] <;> omega

/-- A tree of some capacity is a tree of every capacity that holds its joints and readings. -/
theorem fold_ample (l : List (Joint T × JointParent)) (extra : ℕ) (hx : ∀ x ∈ l, x.1.kind = .floating → extra = 6) :
    ∀ {t t' : KinematicTree M C T} {t₂ : KinematicTree M' C' T}, t.joints = t₂.joints →
    l.foldlM (fun t p => t.push p.1 p.2) t = .ok t' → t₂.len + l.length ≤ M' → t₂.configLen ≤ t₂.len + extra →
    t₂.len + l.length + extra ≤ C' →
    l.foldlM (fun t p => t.push p.1 p.2) t₂ = .ok ⟨t'.joints⟩ := by
  induction l with
  | nil =>
    intro t t' t₂ hj h _ _ _
    cases h
    rw [hj]; rfl
  | cons a l ih =>
    intro t t' t₂ hj h hM hc hC
    simp only [List.length_cons] at hM hC
    rw [List.foldlM_cons] at h ⊢
    cases hp : t.push a.1 a.2 with
    | error e => rw [hp] at h; cases h
    | ok t₁ =>
      rw [hp] at h
      obtain ⟨h1, h2, h3, h4, h5, h6, j', h7, h8, ht⟩ := (push_cases _ _ _ _).1 hp
      have hl : t.len = t₂.len := by simp only [len, hj]
      have hk := (normalizeAxis_kind h7).1
      have hw : t₂.configLen + j'.width ≤ t₂.len + 1 + extra := by
        by_cases hf : a.1.kind = .floating
        · have h0 := (h3 hf).1
          rw [hl] at h0
          have he := hx a (by simp) hf
          have : t₂.configLen = 0 := by simp [configLen, h0]
          rw [this, Joint.width, hk, if_pos hf]; omega
        · rw [Joint.width, hk, if_neg hf]; omega
      have hp₂ : t₂.push a.1 a.2 = .ok ⟨t₂.joints ++ [(j', a.2)]⟩ :=
        (push_cases _ _ _ _).2 ⟨by omega, fun k e => by rw [← hl]; exact h2 k e, fun e => by rw [← hl]; exact h3 e, h4, h5, h6, j', h7,
          by omega, rfl⟩
      rw [hp₂]
      refine ih (fun x hx' => hx x (by simp [hx'])) (by rw [ht, hj]) h ?_ ?_ ?_
      · rw [len_append]; omega
      · rw [configLen_push _ _ _ (fun e => by
          have := (h3 (hk ▸ e)).1
          rw [hl] at this
          exact List.length_eq_zero_iff.1 this), len_append]
        exact hw.trans (by omega)
      · rw [len_append]; omega

theorem zip_unzip {α β : Type} (js : List (α × β)) : (js.map Prod.fst).zip (js.map Prod.snd) = js := by
  induction js with
  | nil => rfl
  | cons a l ih => simp [ih]

theorem tryFromJoints_pairs (js : List (Joint T × JointParent)) :
    tryFromJoints (maxJoints := M) (maxConfig := C) (js.map Prod.fst) (js.map Prod.snd) =
      js.foldlM (fun t p => t.push p.1 p.2) KinematicTree.new := by
  unfold tryFromJoints
  rw [if_neg (by simp), zip_unzip]

/-- Every joint of a tree was pushed. -/
theorem fold_pushed (l : List (Joint T × JointParent)) : ∀ {t t' : KinematicTree M C T},
    l.foldlM (fun t p => t.push p.1 p.2) t = .ok t' → ∀ x ∈ l, ∃ t₀ t₁ : KinematicTree M C T, t₀.push x.1 x.2 = .ok t₁ := by
  induction l with
  | nil => intro t t' _ x hx; cases hx
  | cons a l ih =>
    intro t t' h x hx
    rw [List.foldlM_cons] at h
    cases hp : t.push a.1 a.2 with
    | error e => rw [hp] at h; cases h
    | ok t₁ =>
      rw [hp] at h
      rcases List.mem_cons.1 hx with rfl | hx
      · exact ⟨_, _, hp⟩
      · exact ih h x hx

end Capacities

/-! ### What `to_rust_source` has checked -/

section Emitted

variable {T S : Type} [Zero T] [One T] [NatCast T] [Add T] [Sub T] [Mul T] [Div T] [Neg T] [LT T]
  [DecidableLT T] [LE T] [DecidableLE T] [BEq T] [Fns T]

/-- The tree the library itself builds from the same bodies. -/
def libraryTree (maxJoints maxConfig : ℕ) (bodies : List (BodyDescription T)) :
    Option String → Except ModelError (KinematicTree maxJoints maxConfig T)
  | some tip => kinematicTreeTo maxJoints maxConfig bodies tip
  | none => kinematicTree maxJoints maxConfig bodies

theorem libraryTree_eq (M C : ℕ) (bodies : List (BodyDescription T)) (tip : Option String) :
    libraryTree M C bodies tip = (slotsOf bodies tip).bind fun slots => buildTree M C bodies slots := by
  cases tip <;> rfl

theorem source_inv {bodies : List (BodyDescription T)} {floatingBase : Bool} {options : RustSourceOptions T S} {source : Source S}
    (h : toRustSource bodies floatingBase options = .ok source) :
    ∃ slots pairs chain t, slotsOf bodies options.tip = .ok slots ∧ rejectMimicJoints bodies slots = .ok () ∧
      slots.length ≤ source.capacity ∧ jointsAndParents bodies slots = .ok pairs ∧
      tryFromJoints (maxJoints := validationCapacity) (maxConfig := validationConfigurationCapacity) (pairs.map Prod.fst)
        (pairs.map Prod.snd) = .ok t ∧ slots.mapM (fun index => bodies[index]?) = some chain ∧
      source.capacity = (if options.capacity = 0 then slots.length else options.capacity) ∧
      source.configurationCapacity = (if options.configurationCapacity = 0 then
        source.capacity + (if floatingBase then 6 else 0) else options.configurationCapacity) ∧
      source.pushes = (pairs.zip (chain.map (·.name))).map fun entry => renderPush options.narrow entry.2 entry.1.1 entry.1.2 := by
  unfold toRustSource at h
  obtain ⟨slots, hs, h⟩ := Urdf.bind_ok.1 h
  obtain ⟨⟨⟩, hm, h⟩ := Urdf.bind_ok.1 h
  dsimp only at h
  by_cases hcap : (if options.capacity = 0 then slots.length else options.capacity) < slots.length
  · rw [if_pos hcap] at h; cases h
  rw [if_neg hcap] at h
  obtain ⟨pairs, hp, h⟩ := Urdf.bind_ok.1 h
  split at h
  · cases h
  · rename_i t ht
    split at h
    · cases h
    · rename_i chain hc
      cases h
      refine ⟨slots, pairs, chain, t, hs, hm, not_lt.1 hcap, hp, ht, hc, rfl, rfl, ?_⟩
      simp only [render, zip_unzip]

theorem buildTree_of {M C : ℕ} {bodies : List (BodyDescription T)} {slots : List ℕ} {pairs : List (Joint T × JointParent)}
    (hm : rejectMimicJoints bodies slots = .ok ()) (hc : slots.length ≤ M) (hp : jointsAndParents bodies slots = .ok pairs) :
    buildTree M C bodies slots = match pairs.foldlM (fun t p => t.push p.1 p.2) (KinematicTree.new (maxJoints := M) (maxConfig := C)) with
      | .error e => .error (.kinematics e)
      | .ok t => .ok t := by
  unfold buildTree
  rw [hm]
  simp only [bind, Except.bind, if_neg (not_lt.2 hc), pure, Except.pure, hp, tryFromJoints_pairs]
  cases List.foldlM (m := Except KinematicsError) _ _ pairs <;> rfl

omit [NatCast T] [Add T] [Sub T] [Mul T] [Div T] [Neg T] [LT T] [DecidableLT T] [LE T] [DecidableLE T] [BEq T] [Fns T] in
theorem pairs_spec {bodies : List (BodyDescription T)} {slots : List ℕ} {pairs : List (Joint T × JointParent)}
    (hp : jointsAndParents bodies slots = .ok pairs) :
    pairs.length = slots.length ∧ ∀ x ∈ pairs, ∃ b ∈ bodies, buildJoint b = some x.1 := by
  have hf := (Urdf.mapM_except_ok _ _ _).1 hp
  refine ⟨hf.length_eq.symm, fun x hx => ?_⟩
  obtain ⟨k, hk, rfl⟩ := List.getElem_of_mem hx
  have := List.Forall₂.get hf (i := k) (by rw [hf.length_eq]; exact hk) hk
  simp only [List.get_eq_getElem, jointAndParent] at this
  cases hb : bodies[slots[k]'(by rw [hf.length_eq]; exact hk)]? with
  | none => rw [hb] at this; cases this
  | some b =>
    rw [hb] at this
    cases hj : buildJoint b with
    | none => simp only [hj] at this; cases this
    | some j =>
      refine ⟨b, List.mem_of_getElem? hb, ?_⟩
      simp only [hj] at this ⊢
      split at this
      · simp only [Except.ok.injEq] at this
        rw [← this]
      · split at this
        · cases this
        · simp only [Except.ok.injEq] at this
          rw [← this]

/-- C113. `to_rust_source` refuses exactly what the tree builder refuses, with the same error, for models of at most 128
bodies: asking for source with `with_capacity` (or without) fails as building a tree of that many joints (or of 128) does. -/
theorem source_errors (bodies : List (BodyDescription T)) (floatingBase : Bool) (options : RustSourceOptions T S) (hord : Ordered bodies)
    (hsmall : bodies.length ≤ 128) (e : ModelError) :
    toRustSource bodies floatingBase options = .error e ↔
      libraryTree (if options.capacity = 0 then 128 else options.capacity) 134 bodies options.tip = .error e := by
  rw [libraryTree_eq]
  unfold toRustSource
  cases hs : slotsOf bodies options.tip with
  | error e' => simp [bind, Except.bind]
  | ok slots =>
    have hslots : slots.length ≤ 128 ∧ ∀ x ∈ slots, x < bodies.length := by
      cases ht : options.tip with
      | none =>
        rw [ht] at hs
        cases hs
        exact ⟨by simpa using hsmall, fun x hx => List.mem_range.1 hx⟩
      | some tip =>
        rw [ht] at hs
        rcases robot_path hord tip with ⟨-, h⟩ | ⟨path, x, b, h, -, -, -, -, hc, hpw⟩
        · rw [slotsOf, h] at hs; cases hs
        · rw [slotsOf, h] at hs
          cases hs
          have hv := (slots_path hc hpw).valid
          refine ⟨?_, hv⟩
          have := (List.Nodup.subperm (hpw.imp fun h => h.ne) (fun x hx => List.mem_range.2 (hv x hx) :
            slots ⊆ List.range bodies.length)).length_le
          rw [List.length_range] at this
          omega
    simp only [Except.bind, bind, pure, Except.pure]
    unfold buildTree
    cases hm : rejectMimicJoints bodies slots with
    | error e' => simp [bind, Except.bind]
    | ok u =>
      simp only [bind, Except.bind]
      by_cases hcap : (if options.capacity = 0 then slots.length else options.capacity) < slots.length
      · have h0 : options.capacity ≠ 0 := fun h => by simp [h] at hcap
        rw [if_neg h0] at hcap
        rw [if_neg h0, if_neg h0, if_pos hcap, if_pos hcap]
        simp only [Except.error.injEq]
      · have hcap' : ¬ (if options.capacity = 0 then 128 else options.capacity) < slots.length := by
          split_ifs at hcap ⊢ <;> omega
        rw [if_neg hcap, if_neg hcap']
        cases hp : jointsAndParents bodies slots with
        | error e' => simp
        | ok pairs =>
          have hlen := (pairs_spec hp).1
          have hheld := fold_held (C := 134) (M := validationCapacity)
            (M' := if options.capacity = 0 then 128 else options.capacity) pairs (t := KinematicTree.new) (t₂ := KinematicTree.new) rfl
            (by simp [len, KinematicTree.new, validationCapacity, hlen]; omega) (by simp only [len, KinematicTree.new, hlen, List.length_nil]; omega)
          have hchain : ∃ chain, slots.mapM (fun index => bodies[index]?) = some chain := by
            have := hslots.2
            clear hs hm hcap hcap' hp hheld hslots hlen
            induction slots with
            | nil => exact ⟨[], rfl⟩
            | cons a l ih =>
              obtain ⟨chain, hc⟩ := ih fun x hx => this x (by simp [hx])
              have ha := this a (by simp)
              exact ⟨bodies[a] :: chain, by rw [List.mapM_cons, hc, List.getElem?_eq_getElem ha]; rfl⟩
          obtain ⟨chain, hchain⟩ := hchain
          simp only [tryFromJoints_pairs, hchain]
          simp only [validationConfigurationCapacity, validationCapacity] at hheld ⊢
          generalize List.foldlM (m := Except KinematicsError) _ (KinematicTree.new (maxJoints := 128) (maxConfig := 134)) pairs = r at hheld ⊢
          generalize List.foldlM (m := Except KinematicsError) _ (KinematicTree.new (maxJoints := if options.capacity = 0 then 128 else options.capacity)
            (maxConfig := 134)) pairs = r₂ at hheld ⊢
          cases r with
          | error e' =>
            cases r₂ with
            | error e'' => simp only [held, Except.map, Except.error.injEq] at hheld; rw [hheld]; simp only [Except.error.injEq]
            | ok t => cases hheld
          | ok t =>
            cases r₂ with
            | error e'' => cases hheld
            | ok t₂ => simp

/-- C113 (finding). A model of more than 128 bodies is never written out, whatever capacities the options ask for, although
the library builds its tree: the check is made in a tree of a fixed size. -/
theorem source_limit {bodies : List (BodyDescription T)} {floatingBase : Bool} {options : RustSourceOptions T S} (ht : options.tip = none)
    (hbig : 128 < bodies.length) (source : Source S) : toRustSource bodies floatingBase options ≠ .ok source := by
  intro h
  obtain ⟨slots, pairs, chain, t, hs, -, -, hp, ht', -⟩ := source_inv h
  rw [ht] at hs
  cases hs
  obtain ⟨hb, hl, -⟩ := tryFromJoints_ok pairs ht'
  have := (built_wellFormed hb).1
  rw [hl, (pairs_spec hp).1, List.length_range] at this
  simp only [validationCapacity] at this
  omega

omit [Zero T] [One T] [NatCast T] [Add T] [Sub T] [Mul T] [Div T] [Neg T] [LT T]
  [DecidableLT T] [LE T] [DecidableLE T] [BEq T] in
theorem numbers_finite (j : Joint T) (name : String) (p : JointParent) (hfin : j.isFinite = true)
    (hlim : ∀ x y, j.limits = some (x, y) → Fns.isFinite x = true ∧ Fns.isFinite y = true) :
    ∀ x ∈ numbers (renderPush id name j p).joint, Fns.isFinite x = true := by
  simp only [Joint.isFinite, Bool.and_eq_true] at hfin
  obtain ⟨⟨⟨⟨⟨⟨⟨h1, ⟨⟨h2, h3⟩, h4⟩, h5⟩, h6⟩, h7⟩, h8⟩, h9⟩, h10⟩, h11⟩ := hfin
  have h1' : ∀ i, Fns.isFinite (j.origin.translation i) = true := by simpa [vecIsFinite] using h1
  have h6' : ∀ i, Fns.isFinite (j.axis i) = true := by simpa [vecIsFinite] using h6
  have h7' : ∀ i, Fns.isFinite (j.anchor i) = true := by simpa [vecIsFinite] using h7
  unfold renderPush narrowQuat
  cases hk : j.kind <;> cases hl : j.limits with
    | none => simp [numbers, or_imp, forall_and, h1', h6', h7', h2, h3, h4, h5, h8, h9, h10, h11]
    | some l =>
      obtain ⟨hx, hy⟩ := hlim l.1 l.2 hl
      simp [numbers, or_imp, forall_and, h1', h6', h7', h2, h3, h4, h5, h8, h9, h10, h11, hx, hy]

/-- C113. Every number in the emitted double-precision source is a literal: nothing is written as `inf` or `NaN`. -/
theorem source_compiles {bodies : List (BodyDescription T)} {floatingBase : Bool} {options : RustSourceOptions T T} {source : Source T}
    (hn : options.narrow = id) (h : toRustSource bodies floatingBase options = .ok source) : compiles source := by
  obtain ⟨slots, pairs, chain, t, hs, -, -, hp, ht', -, -, -, hpush⟩ := source_inv h
  intro statement hst
  rw [hpush] at hst
  obtain ⟨entry, he, rfl⟩ := List.mem_map.1 hst
  rw [tryFromJoints_pairs] at ht'
  obtain ⟨t₀, t₁, hpu⟩ := fold_pushed pairs ht' entry.1 (List.of_mem_zip he).1
  obtain ⟨-, -, -, hfin, hlim, -⟩ := (push_cases _ _ _ _).1 hpu
  have hlim' : ∀ x y, entry.1.1.limits = some (x, y) → Fns.isFinite x = true ∧ Fns.isFinite y = true := by
    intro x y hxy
    unfold Joint.checkLimits at hlim
    rw [hxy] at hlim
    dsimp only at hlim
    split_ifs at hlim with h1
    simpa [not_or] using h1
  rw [hn]
  exact numbers_finite _ _ _ hfin hlim'

end Emitted

/-! ### What the emitted function does -/

section Run

variable {T S : Type} [Zero S] [One S] [NatCast S] [Add S] [Sub S] [Mul S] [Div S] [Neg S] [LT S]
  [DecidableLT S] [LE S] [DecidableLE S] [BEq S] [Fns S]

/-- Running the statements pushes the joints they evaluate to. -/
theorem run_inv {M C : ℕ} (narrow : T → S) : ∀ (js : List (Joint T × JointParent)) (names : List String) (t t' : KinematicTree M C S),
    js.length = names.length →
    ((js.zip names).map fun entry => renderPush narrow entry.2 entry.1.1 entry.1.2).foldlM runPush t = some t' →
    ∃ es : List (Joint S × JointParent), es.foldlM (fun t p => t.push p.1 p.2) t = .ok t' ∧
      List.Forall₂ (fun x y => evaluate (renderPush narrow "" x.1 x.2).joint = some y.1 ∧ y.2 = x.2) js es := by
  intro js
  induction js with
  | nil =>
    intro names t t' _ h
    simp only [List.zip_nil_left, List.map_nil, List.foldlM_nil, pure, Option.some.injEq] at h
    subst h
    exact ⟨[], rfl, .nil⟩
  | cons a js ih =>
    intro names t t' hl h
    cases names with
    | nil => simp at hl
    | cons n names =>
      rw [List.zip_cons_cons, List.map_cons, List.foldlM_cons] at h
      have hr : evaluate (renderPush narrow n a.1 a.2).joint = evaluate (renderPush narrow "" a.1 a.2).joint := rfl
      have hq : (renderPush narrow n a.1 a.2).parent = a.2 := rfl
      unfold runPush at h
      dsimp only at h
      rw [hr, hq] at h
      cases he : evaluate (renderPush narrow "" a.1 a.2).joint with
      | none => rw [he] at h; cases h
      | some j =>
        rw [he] at h
        dsimp only at h
        cases hp : t.push j a.2 with
        | error e => rw [hp] at h; cases h
        | ok t₁ =>
          rw [hp] at h
          obtain ⟨es, h1, h2⟩ := ih names t₁ t' (by simpa using hl) h
          refine ⟨(j, a.2) :: es, ?_, .cons ⟨he, rfl⟩ h2⟩
          rw [List.foldlM_cons]
          dsimp only
          rw [hp]
          exact h1

/-- Running the statements of joints that evaluate to themselves is pushing the joints. -/
theorem run_same {M C : ℕ} : ∀ (js : List (Joint S × JointParent)) (names : List String) (t : KinematicTree M C S),
    js.length = names.length → (∀ x ∈ js, evaluate (renderPush id "" x.1 x.2).joint = some x.1) →
    ((js.zip names).map fun entry => renderPush id entry.2 entry.1.1 entry.1.2).foldlM runPush t =
      (js.foldlM (fun (t : KinematicTree M C S) p => t.push p.1 p.2) t).toOption := by
  intro js
  induction js with
  | nil => intro names t _ _; rfl
  | cons a js ih =>
    intro names t hl hx
    cases names with
    | nil => simp at hl
    | cons n names =>
      rw [List.zip_cons_cons, List.map_cons, List.foldlM_cons, List.foldlM_cons]
      have hr : evaluate (renderPush id n a.1 a.2).joint = some a.1 := hx a (by simp)
      have hq : (renderPush (T := S) id n a.1 a.2).parent = a.2 := rfl
      rw [runPush, hr, hq]
      dsimp only
      cases hp : t.push a.1 a.2 with
      | error e => rfl
      | ok t₁ => exact ih names t₁ (by simpa using hl) fun x hx' => hx x (by simp [hx'])

end Run

theorem buildJoint_free {b : BodyDescription ℝ} {j : Joint ℝ} (h : buildJoint b = some j) (hk : j.kind = .floating) : Free b := by
  unfold buildJoint at h
  cases hd : b.joint with
  | none => rw [hd] at h; cases h; cases hk
  | some d =>
    refine ⟨d, hd, ?_⟩
    rw [hd] at h
    cases hdk : d.kind <;> simp only [hdk] at h <;> cases h <;> cases hk
    rfl

/-- A joint a body describes is written so that it reads back. -/
theorem evaluate_buildJoint {b : BodyDescription ℝ} {j : Joint ℝ} (hu : b.pose.rotation.quaternion.IsUnit)
    (h : buildJoint b = some j) (p : JointParent) : evaluate (renderPush id "" j p).joint = some j := by
  have hpose : ∀ P : SE3 ℝ, P.rotation.quaternion.IsUnit → pose P.translation (narrowQuat id P.rotation.quaternion) = some P := by
    intro P hP
    unfold pose narrowQuat
    simp only [id]
    rw [tryNormalized_unit _ hP]
    simp only [SO3.fromQuaternion, quat_normalized_unit _ hP]
  unfold buildJoint at h
  cases hb : b.joint with
  | none =>
    rw [hb] at h
    cases h
    simp only [renderPush, Joint.fixed, Joint.fromKind, evaluate, id]
    rw [hpose _ hu]
    rfl
  | some d =>
    rw [hb] at h
    dsimp only at h
    cases hk : d.kind with
    | fixed => rw [hk] at h; cases h
    | floating =>
      rw [hk] at h
      cases h
      simp only [renderPush, Joint.floating, Joint.fromKind, evaluate, id]
      rw [hpose _ (by simp [SE3.identity, SO3.identity, Quat.identity, Quat.IsUnit])]
      rfl
    | revolute =>
      rw [hk] at h
      cases h
      cases hl : d.limits <;> simp [renderPush, Joint.fromKind, evaluate, hpose _ hu]
    | continuous =>
      rw [hk] at h
      cases h
      cases hl : d.limits <;> simp [renderPush, Joint.fromKind, evaluate, hpose _ hu]
    | prismatic =>
      rw [hk] at h
      cases h
      cases hl : d.limits <;> simp [renderPush, Joint.fromKind, evaluate, hpose _ hu]

/-- C113. The double-precision source of a model builds the tree the library builds from that model with the capacities
written in the source: the same joints, in the same order, on the same parents.  Where the library refuses those
capacities, the emitted function panics. -/
theorem source_rebuilds {bodies : List (BodyDescription ℝ)} {floatingBase : Bool} {options : RustSourceOptions ℝ ℝ} {source : Source ℝ}
    (hn : options.narrow = id) (hu : ∀ b ∈ bodies, b.pose.rotation.quaternion.IsUnit)
    (h : toRustSource bodies floatingBase options = .ok source) :
    run source = (libraryTree source.capacity source.configurationCapacity bodies options.tip).toOption := by
  obtain ⟨slots, pairs, chain, t, hs, hm, hc, hp, -, hch, -, -, hpush⟩ := source_inv h
  obtain ⟨hlen, hpairs⟩ := pairs_spec hp
  rw [libraryTree_eq, hs]
  simp only [Except.bind]
  rw [buildTree_of hm hc hp, run, hpush, hn, run_same pairs _ _ (by
    rw [hlen, List.length_map, ((Urdf.mapM_some _ _ _).1 hch).1]) (fun x hx => by
    obtain ⟨b, hb, hj⟩ := hpairs x hx
    exact evaluate_buildJoint (hu b hb) hj _)]
  cases List.foldlM (m := Except KinematicsError) _ _ pairs <;> rfl

/-- C113. With the configuration capacity left to the generator, or stated and large enough for every reading, the emitted
function never panics, and what it returns is the tree the library builds. -/
theorem source_runs {bodies : List (BodyDescription ℝ)} {floatingBase : Bool} {options : RustSourceOptions ℝ ℝ} {source : Source ℝ}
    (hn : options.narrow = id) (hu : ∀ b ∈ bodies, b.pose.rotation.quaternion.IsUnit) (hfree : ∀ b ∈ bodies, Free b → floatingBase = true)
    (hcap : options.configurationCapacity = 0 ∨ bodies.length + (if floatingBase then 6 else 0) ≤ options.configurationCapacity)
    (hord : Ordered bodies) (h : toRustSource bodies floatingBase options = .ok source) :
    ∃ t, run source = some t ∧ libraryTree source.capacity source.configurationCapacity bodies options.tip = .ok t := by
  have hrun := source_rebuilds hn hu h
  obtain ⟨slots, pairs, chain, t, hs, hm, hc, hp, ht, hch, hcap1, hcap2, hpush⟩ := source_inv h
  obtain ⟨hlen, hpairs⟩ := pairs_spec hp
  have hslots : slots.length ≤ bodies.length := by
    cases htip : options.tip with
    | none => rw [htip] at hs; cases hs; simp
    | some tip =>
      rw [htip] at hs
      rcases robot_path hord tip with ⟨-, h⟩ | ⟨path, x, b, h, -, -, -, -, hc, hpw⟩
      · rw [slotsOf, h] at hs; cases hs
      · rw [slotsOf, h] at hs
        cases hs
        have hv := (slots_path hc hpw).valid
        have := (List.Nodup.subperm (hpw.imp fun h => h.ne) (fun x hx => List.mem_range.2 (hv x hx) :
          slots ⊆ List.range bodies.length)).length_le
        rwa [List.length_range] at this
  rw [tryFromJoints_pairs] at ht
  have hfold := fold_ample (M' := source.capacity) (C' := source.configurationCapacity) pairs (if floatingBase then 6 else 0) (fun x hx hk => by
    obtain ⟨b, hb, hj⟩ := hpairs x hx
    rw [if_pos (hfree b hb (buildJoint_free hj hk))])
    (t := (KinematicTree.new : KinematicTree validationCapacity validationConfigurationCapacity ℝ)) (t₂ := KinematicTree.new) rfl ht
    (by simp only [len, KinematicTree.new, List.length_nil, hlen]; omega) (by simp [configLen, len, KinematicTree.new])
    (by
      simp only [len, KinematicTree.new, List.length_nil, hlen]
      rw [hcap2]
      split_ifs at hcap ⊢ <;> omega)
  have hlib : libraryTree source.capacity source.configurationCapacity bodies options.tip = .ok ⟨t.joints⟩ := by
    rw [libraryTree_eq, hs]
    simp only [Except.bind]
    rw [buildTree_of hm hc hp, hfold]
  exact ⟨_, by rw [hrun, hlib]; rfl, hlib⟩

/-! ### Source in another precision -/

section Narrowed

variable {T S : Type} [Zero T] [One T] [NatCast T] [Add T] [Sub T] [Mul T] [Div T] [Neg T] [LT T]
  [DecidableLT T] [LE T] [DecidableLE T] [BEq T] [Fns T]
  [Zero S] [One S] [NatCast S] [Add S] [Sub S] [Mul S] [Div S] [Neg S] [LT S]
  [DecidableLT S] [LE S] [DecidableLE S] [BEq S] [Fns S]

/-- Joint `j'` is joint `j` with every number converted: placed where the converted numbers say, and, if it moves, with the
converted limits, offset, armature, damping and friction, about the converted anchor if it turns. -/
def Converted (narrow : T → S) (j : Joint T) (j' : Joint S) : Prop :=
  j'.kind = j.kind ∧ (∀ i, j'.origin.translation i = narrow (j.origin.translation i)) ∧
  (∃ turn, (narrowQuat narrow j.origin.rotation.quaternion).tryNormalized = some turn ∧
    j'.origin.rotation = SO3.fromQuaternion turn) ∧
  (j.kind ≠ .fixed → j.kind ≠ .floating →
    j'.limits = j.limits.map (fun l => (narrow l.1, narrow l.2)) ∧ j'.zeroOffset = narrow j.zeroOffset ∧
    j'.armature = narrow j.armature ∧ j'.damping = narrow j.damping ∧ j'.frictionLoss = narrow j.frictionLoss ∧
    (j.kind ≠ .prismatic → ∀ i, j'.anchor i = narrow (j.anchor i)))

theorem normalizeAxis_rest {j j' : Joint S} (h : j.normalizeAxis = .ok j') : ∃ a, j' = { j with axis := a } := by
  unfold Joint.normalizeAxis at h
  split at h
  · cases h; exact ⟨_, rfl⟩
  · cases h; exact ⟨_, rfl⟩
  · split at h
    · cases h
    · cases h; exact ⟨_, rfl⟩

omit [Zero T] [One T] [NatCast T] [Add T] [Sub T] [Mul T] [Div T] [Neg T] [LT T]
  [DecidableLT T] [LE T] [DecidableLE T] [BEq T] [Fns T] [NatCast S] [Sub S] [Neg S] [LT S] [DecidableLT S] [BEq S] in
theorem evaluate_converted {narrow : T → S} {j : Joint T} {p : JointParent} {e : Joint S}
    (h : evaluate (renderPush narrow "" j p).joint = some e) : Converted narrow j e := by
  have hpose : ∀ P, pose (fun i => narrow (j.origin.translation i)) (narrowQuat narrow j.origin.rotation.quaternion) = some P →
      (∀ i, P.translation i = narrow (j.origin.translation i)) ∧
      ∃ turn, (narrowQuat narrow j.origin.rotation.quaternion).tryNormalized = some turn ∧ P.rotation = SO3.fromQuaternion turn := by
    intro P hP
    unfold pose at hP
    split at hP
    · cases hP
    · rename_i turn ht
      cases hP
      exact ⟨fun _ => rfl, turn, ht, rfl⟩
  unfold Converted
  simp only [renderPush] at h
  cases hk : j.kind <;> simp only [hk, evaluate, Option.map_eq_some_iff] at h <;> obtain ⟨P, hP, rfl⟩ := h <;>
    obtain ⟨h1, h2⟩ := hpose P hP
  · cases hl : j.limits <;> simp [Joint.fromKind, h1, h2]
  · cases hl : j.limits <;> simp [Joint.fromKind, h1, h2]
  · cases hl : j.limits <;> simp [Joint.fromKind, h1, h2]
  · simp [Joint.fixed, Joint.fromKind, h1, h2]
  · simp [Joint.floating, Joint.fromKind, h1, h2]

/-- C113. In any precision, what the emitted function returns has a joint for each joint of the library's tree, on the same
parent and of the same kind, with every number converted; only the axis and the rotation are made unit length again. -/
theorem source_converts {bodies : List (BodyDescription T)} {floatingBase : Bool} {options : RustSourceOptions T S} {source : Source S}
    (h : toRustSource bodies floatingBase options = .ok source)
    {t : KinematicTree source.capacity source.configurationCapacity S} (hr : run source = some t) {M C : ℕ} {t₀ : KinematicTree M C T}
    (h₀ : libraryTree M C bodies options.tip = .ok t₀) :
    t.len = t₀.len ∧ ∀ k j p, t₀.joint k = some j → t₀.parent k = some p →
      ∃ j', t.joint k = some j' ∧ t.parent k = some p ∧ Converted options.narrow j j' := by
  obtain ⟨slots, pairs, chain, t₁, hs, hm, hc, hp, ht, hch, hcap1, hcap2, hpush⟩ := source_inv h
  obtain ⟨hlen, hpairs⟩ := pairs_spec hp
  rw [libraryTree_eq, hs] at h₀
  simp only [Except.bind] at h₀
  have hM : slots.length ≤ M := by
    by_contra hlt
    unfold buildTree at h₀
    rw [hm] at h₀
    simp only [bind, Except.bind, if_pos (not_le.1 hlt)] at h₀
    cases h₀
  rw [buildTree_of hm hM hp] at h₀
  cases hf : List.foldlM (fun t p => t.push p.1 p.2) (KinematicTree.new (maxJoints := M) (maxConfig := C)) pairs with
  | error e => rw [hf] at h₀; cases h₀
  | ok t₂ =>
    rw [hf] at h₀
    cases h₀
    rw [run, hpush] at hr
    obtain ⟨es, he, hes⟩ := run_inv options.narrow pairs _ _ _ (by
      rw [hlen, List.length_map, ((Urdf.mapM_some _ _ _).1 hch).1]) hr
    rw [← tryFromJoints_pairs] at he hf
    obtain ⟨-, hl1, hk1⟩ := tryFromJoints_ok es he
    obtain ⟨-, hl2, hk2⟩ := tryFromJoints_ok pairs hf
    refine ⟨by rw [hl1, hl2, hes.length_eq], ?_⟩
    intro k j p hj hpar
    have hk : k < pairs.length := by
      rw [← hl2]
      by_contra hlt
      simp [joint, List.getElem?_eq_none (not_lt.1 hlt)] at hj
    have hk' : k < es.length := by rw [← hes.length_eq]; exact hk
    obtain ⟨j₂, hn2, hj2⟩ := hk2 k pairs[k].1 pairs[k].2 (List.getElem?_eq_getElem hk)
    obtain ⟨j₁, hn1, hj1⟩ := hk1 k es[k].1 es[k].2 (List.getElem?_eq_getElem hk')
    have hek := List.Forall₂.get hes hk hk'
    simp only [List.get_eq_getElem] at hek
    obtain ⟨hev, hpe⟩ := hek
    simp only [joint, parent, hj2, Option.map_some, Option.some.injEq] at hj hpar
    subst hj hpar
    refine ⟨j₁, by simp [joint, hj1], by simp [parent, hj1, hpe], ?_⟩
    obtain ⟨a, rfl⟩ := normalizeAxis_rest hn1
    obtain ⟨b, rfl⟩ := normalizeAxis_rest hn2
    have := evaluate_converted hev
    exact this

end Narrowed

/-! ### Findings -/

/-- A body welded to the world. -/
noncomputable def weld (name : String) (P : SE3 ℝ) : BodyDescription ℝ := ⟨name, none, P, none, none⟩

theorem weld_pairs (n : ℕ) (name : String) (P : SE3 ℝ) :
    jointsAndParents (List.replicate n (weld name P)) (List.range n) = .ok (List.replicate n (Joint.fixed P, JointParent.world)) := by
  refine (Urdf.mapM_except_ok _ _ _).2 (List.forall₂_iff_get.2 ⟨by simp, fun i h1 h2 => ?_⟩)
  have hi : i < n := by simpa using h1
  simp [jointAndParent, hi, buildJoint, weld, List.getElem_replicate]

theorem weld_fold {M C : ℕ} (P : SE3 ℝ) : ∀ (n m : ℕ), m + n ≤ M → m + n ≤ C →
    (List.replicate n (Joint.fixed P, JointParent.world)).foldlM (fun t p => t.push p.1 p.2)
      (⟨List.replicate m (Joint.fixed P, JointParent.world)⟩ : KinematicTree M C ℝ) =
    .ok ⟨List.replicate (m + n) (Joint.fixed P, JointParent.world)⟩ := by
  intro n
  induction n with
  | zero => intro m _ _; rfl
  | succ n ih =>
    intro m hM hC
    rw [List.replicate_succ, List.foldlM_cons]
    have hfin : (Joint.fixed P).isFinite = true := by
      simp [Joint.isFinite, vecIsFinite, Fns.isFinite]
    have hcl : (⟨List.replicate m (Joint.fixed P, JointParent.world)⟩ : KinematicTree M C ℝ).configLen = m := by
      cases m with
      | zero => rfl
      | succ m => simp [configLen, len, hasFloatingBase, List.replicate_succ, Joint.fixed, Joint.fromKind]
    have hp : (⟨List.replicate m (Joint.fixed P, JointParent.world)⟩ : KinematicTree M C ℝ).push (Joint.fixed P) .world =
        .ok ⟨List.replicate (m + 1) (Joint.fixed P, JointParent.world)⟩ :=
      (push_cases _ _ _ _).2 ⟨by simp [len]; omega, (fun k h => by cases h), (fun h => by cases h), hfin, rfl, (fun h => by cases h),
        Joint.fixed P, rfl, by rw [hcl]; simp [Joint.width, Joint.fixed, Joint.fromKind]; omega,
        by rw [List.replicate_succ']⟩
    dsimp only
    rw [hp]
    have := ih (m + 1) (by omega) (by omega)
    rw [show m + (n + 1) = m + 1 + n by omega]
    exact this

theorem weld_mimic (n : ℕ) (name : String) (P : SE3 ℝ) :
    rejectMimicJoints (List.replicate n (weld name P)) (List.range n) = .ok () := by
  rcases rejectMimicJoints_cases (List.replicate n (weld name P)) (List.range n) (by simp) with h | ⟨_, x, _, _, _, -, -, ⟨b, d, m, hb, hd, -⟩, -⟩
  · exact h.1
  · have := List.eq_of_mem_replicate (List.mem_of_getElem? hb)
    rw [this] at hd
    cases hd

theorem weld_tree {M C : ℕ} (n : ℕ) (name : String) (P : SE3 ℝ) (hM : n ≤ M) (hC : n ≤ C) :
    ∃ t, kinematicTree M C (List.replicate n (weld name P)) = .ok t := by
  unfold kinematicTree
  rw [List.length_replicate, buildTree_of (weld_mimic n name P) (by simpa using hM) (weld_pairs n name P)]
  have := weld_fold (M := M) (C := C) P n 0 (by omega) (by omega)
  rw [show (KinematicTree.new : KinematicTree M C ℝ) = ⟨List.replicate 0 (Joint.fixed P, JointParent.world)⟩ from rfl, this]
  exact ⟨_, rfl⟩

theorem weld_ordered (n : ℕ) (name : String) (P : SE3 ℝ) : Ordered (List.replicate n (weld name P)) := by
  intro i p b hb hp
  rw [List.eq_of_mem_replicate (List.mem_of_getElem? hb)] at hp
  cases hp

theorem weld_source {S : Type} (n : ℕ) (hn : n ≤ 128) (name : String) (P : SE3 ℝ) (narrow : ℝ → S) (c : ℕ) :
    ∃ source, toRustSource (List.replicate n (weld name P)) false ⟨narrow, 0, c, none⟩ = .ok source := by
  cases h : toRustSource (List.replicate n (weld name P)) false ⟨narrow, 0, c, none⟩ with
  | ok source => exact ⟨source, rfl⟩
  | error e =>
    have := (source_errors _ _ _ (weld_ordered n name P) (by simpa using hn) e).1 h
    obtain ⟨t, ht⟩ := weld_tree (M := 128) (C := 134) n name P hn (by omega)
    have h2 : kinematicTree 128 134 (List.replicate n (weld name P)) = .error e := this
    rw [ht] at h2
    cases h2

/-- C113 (finding). `source_limit` refuses models whose tree the library builds: 129 welded bodies. -/
theorem source_limit_witness : (∃ t, kinematicTree 129 129 (List.replicate 129 (weld "body" SE3.identity)) = .ok t) ∧
    ∀ source, toRustSource (List.replicate 129 (weld "body" SE3.identity)) false ⟨(id : ℝ → ℝ), 0, 0, none⟩ ≠ .ok source :=
  ⟨weld_tree 129 _ _ le_rfl le_rfl, source_limit rfl (by simp)⟩

/-- C113 (finding). A stated configuration capacity is not checked: with room for one reading, a model of two bodies is
written out without complaint, and calling the emitted function panics. -/
theorem source_panics : ∃ source, toRustSource (List.replicate 2 (weld "body" SE3.identity)) false ⟨(id : ℝ → ℝ), 0, 1, none⟩ = .ok source ∧
    run source = none := by
  obtain ⟨source, h⟩ := weld_source 2 (by norm_num) "body" SE3.identity (id : ℝ → ℝ) 1
  refine ⟨source, h, ?_⟩
  have hr := source_rebuilds rfl (by
    intro b hb
    rw [List.eq_of_mem_replicate hb]
    simp [weld, SE3.identity, SO3.identity, Quat.identity, Quat.IsUnit]) h
  obtain ⟨slots, pairs, chain, t, -, -, -, -, -, -, -, hcap, -⟩ := source_inv h
  rw [if_neg (by norm_num)] at hcap
  rw [hr]
  simp only [libraryTree]
  cases hk : kinematicTree source.capacity source.configurationCapacity (List.replicate 2 (weld "body" SE3.identity)) with
  | error e => rfl
  | ok t =>
    exfalso
    obtain ⟨hb, hl, -⟩ := robot_tree (weld_ordered _ _ _) (by
      intro b hb d hd
      rw [List.eq_of_mem_replicate hb] at hd
      cases hd) hk
    have hw := (built_wellFormed hb).config
    simp only [configLen, hl, List.length_replicate] at hw
    dsimp only at hcap
    split_ifs at hw <;> omega

/-- The conversion to single precision, without rounding: what is too large becomes infinite. -/
noncomputable def overflow (x : ℝ) : XR := open Classical in
  if |x| < 2 ^ 128 then .fin x else if 0 < x then .pinf else .ninf

/-- C113 (finding). Single-precision source, the default, need not compile: a length of `10^39` is finite in the model and is
written `inf`. -/
theorem source_infinite : ∃ source, toRustSource [weld "body" ⟨SO3.identity, ![10 ^ 39, 0, 0]⟩] false ⟨overflow, 0, 0, none⟩ = .ok source ∧
    ¬compiles source := by
  obtain ⟨source, h⟩ := weld_source 1 (by norm_num) "body" ⟨SO3.identity, ![10 ^ 39, 0, 0]⟩ overflow 0
  refine ⟨source, h, fun hc => ?_⟩
  obtain ⟨slots, pairs, chain, t, hs, -, -, hp, -, hch, -, -, hpush⟩ := source_inv h
  cases hs
  rw [List.length_replicate, weld_pairs] at hp
  cases hp
  have hl := ((Urdf.mapM_some _ _ _).1 hch).1
  simp only [List.length_range, List.length_replicate] at hl
  obtain ⟨b, rfl⟩ := List.length_eq_one_iff.1 hl
  have := hc (renderPush overflow b.name (Joint.fixed ⟨SO3.identity, ![10 ^ 39, 0, 0]⟩) .world) (by
    rw [hpush]; simp only [List.replicate, List.map_cons, List.zip_cons_cons, List.mem_cons, true_or]) (overflow (10 ^ 39)) (by
    simp [renderPush, Joint.fixed, Joint.fromKind, numbers])
  rw [overflow, if_neg (by rw [abs_of_pos (by positivity)]; norm_num), if_pos (by positivity)] at this
  simp [Fns.isFinite] at this

/-- C113 (finding). A name with a line break in it leaves its comment: the rest of the name is written as code. -/
theorem source_comment : ∃ source, toRustSource [weld "base\nlink" SE3.identity] false ⟨(id : ℝ → ℝ), 0, 0, none⟩ = .ok source ∧
    ∃ statement ∈ source.pushes, '\n' ∈ statement.comment.toList := by
  obtain ⟨source, h⟩ := weld_source 1 (by norm_num) "base\nlink" SE3.identity (id : ℝ → ℝ) 0
  refine ⟨source, h, ?_⟩
  obtain ⟨slots, pairs, chain, t, hs, -, -, hp, -, hch, -, -, hpush⟩ := source_inv h
  cases hs
  rw [List.length_replicate, weld_pairs] at hp
  cases hp
  have hc : chain = [weld "base\nlink" SE3.identity] := by
    have : (some [weld "base\nlink" SE3.identity] : Option (List (BodyDescription ℝ))) = some chain := by
      rw [← hch]; rfl
    simpa using this.symm
  rw [hpush, hc]
  exact ⟨_, by simp only [List.replicate, List.zip_cons_cons, List.map_cons, List.mem_cons]; left; rfl, by decide⟩

/-! ### A model the theorems speak of -/

/-- A base and an arm hinged to it. -/
noncomputable def hinged : List (BodyDescription ℝ) :=
  [weld "base" SE3.identity, ⟨"arm", some 0, ⟨SO3.identity, ![0, 0, 1]⟩, none, some ⟨"hinge", .revolute, ![0, 0, 2], ![0, 1, 0],
    some (-1, 1), 1 / 2, 1 / 10, 3, 4, 0, 0, none⟩⟩]

theorem hinged_ordered : Ordered hinged := by
  intro i p b hb hp
  have hi : i < 2 := (List.getElem?_eq_some_iff.1 hb).1
  interval_cases i
  · cases hb; cases hp
  · cases hb; cases hp; norm_num

theorem hinged_unit : ∀ b ∈ hinged, b.pose.rotation.quaternion.IsUnit := by
  intro b hb
  simp only [hinged, List.mem_cons, List.not_mem_nil, or_false] at hb
  rcases hb with rfl | rfl <;> simp [weld, SE3.identity, SO3.identity, Quat.identity, Quat.IsUnit]

theorem hinged_tree {M C : ℕ} (hM : 2 ≤ M) (hC : 2 ≤ C) : ∃ t, kinematicTree M C hinged = .ok t := by
  have hm : rejectMimicJoints hinged (List.range 2) = .ok () := rfl
  let hinge : Joint ℝ := ⟨.revolute, ![0, 0, 2], ![0, 1, 0], ⟨SO3.identity, ![0, 0, 1]⟩, 1 / 2, some (-1, 1), 1 / 10, 3, 4⟩
  have hp : jointsAndParents hinged (List.range 2) = .ok [(Joint.fixed SE3.identity, .world), (hinge, .joint 0)] := rfl
  unfold kinematicTree
  rw [show hinged.length = 2 from rfl, buildTree_of hm (by simpa using hM) hp]
  have h1 : (KinematicTree.new : KinematicTree M C ℝ).push (Joint.fixed SE3.identity) .world =
      .ok ⟨[(Joint.fixed SE3.identity, .world)]⟩ :=
    (push_cases _ _ _ _).2 ⟨by simp [len, KinematicTree.new]; omega, (fun k h => by cases h), (fun h => by cases h),
      by simp [Joint.isFinite, vecIsFinite, Fns.isFinite], rfl, (fun h => by cases h), Joint.fixed SE3.identity, rfl,
      by simp [configLen, len, KinematicTree.new, Joint.width, Joint.fixed, Joint.fromKind]; omega, rfl⟩
  have hne : (![0, 0, 2] : Fin 3 → ℝ) ≠ 0 := fun h => by have := congrFun h 2; simp at this
  have h2 : (⟨[(Joint.fixed SE3.identity, .world)]⟩ : KinematicTree M C ℝ).push hinge (.joint 0) =
      .ok ⟨[(Joint.fixed SE3.identity, .world), ({ hinge with axis := vnormalized ![0, 0, 2] }, .joint 0)]⟩ :=
    (push_cases _ _ _ _).2 ⟨by simp [len]; omega, (fun k h => by cases h; simp [len]), (fun h => by cases h),
      by simp [Joint.isFinite, vecIsFinite, Fns.isFinite], by simp [hinge, Joint.checkLimits, Fns.isFinite],
      (fun h => by cases h), _, by simp only [hinge, Joint.normalizeAxis]; rw [vtryNormalized_some hne],
      by simp [configLen, len, hasFloatingBase, hinge, Joint.width, Joint.fixed, Joint.fromKind, hC], rfl⟩
  rw [List.foldlM_cons]
  dsimp only
  rw [h1]
  simp only [bind, Except.bind, List.foldlM_cons, List.foldlM_nil, h2, pure, Except.pure]
  exact ⟨_, rfl⟩

theorem hinged_source {S : Type} (narrow : ℝ → S) (c : ℕ) : ∃ source, toRustSource hinged false ⟨narrow, 0, c, none⟩ = .ok source := by
  cases h : toRustSource hinged false ⟨narrow, 0, c, none⟩ with
  | ok source => exact ⟨source, rfl⟩
  | error e =>
    have := (source_errors _ _ _ hinged_ordered (by simp [hinged]) e).1 h
    obtain ⟨t, ht⟩ := hinged_tree (M := 128) (C := 134) (by norm_num) (by norm_num)
    have h2 : kinematicTree 128 134 hinged = .error e := this
    rw [ht] at h2
    cases h2

/-- A base and a hinged arm are written out, the emitted function runs, and its tree is the library's. -/
example : ∃ source, toRustSource hinged false ⟨(id : ℝ → ℝ), 0, 0, none⟩ = .ok source ∧ compiles source ∧
    ∃ t, run source = some t ∧ kinematicTree source.capacity source.configurationCapacity hinged = .ok t := by
  obtain ⟨source, h⟩ := hinged_source (id : ℝ → ℝ) 0
  refine ⟨source, h, source_compiles rfl h, ?_⟩
  exact source_runs rfl hinged_unit (by
    intro b hb ⟨d, hd, hk⟩
    simp only [hinged, List.mem_cons, List.not_mem_nil, or_false] at hb
    rcases hb with rfl | rfl
    · cases hd
    · cases hd; cases hk) (Or.inl rfl) hinged_ordered h

end Codegen
end Multicalc
