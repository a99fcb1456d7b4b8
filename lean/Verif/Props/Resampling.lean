import Verif.Model.ParticleFilter
import Verif.Lemmas.LinearAlgebra
import Mathlib.Tactic
import Mathlib.Analysis.SpecialFunctions.Integrals.Basic

/-!
# Resampling schemes
-/

namespace Multicalc

/-! ### Any scalar type -/

section LawFree

variable {T : Type} [Zero T] [One T] [NatCast T] [Add T] [Sub T] [Mul T] [Div T] [LT T] [LE T] [DecidableLT T]
  [DecidableLE T] [Fns T] {R : Type}

theorem drawMany_length {A : Type} (draw : R → A × R) (k : ℕ) (r : R) : (drawMany draw k r).1.length = k := by
  induction k generalizing r with
  | zero => rfl
  | succ k ih => simp [drawMany, ih]

theorem drawMany_mem {A : Type} (draw : R → A × R) (k : ℕ) (r : R) (P : A → Prop) (h : ∀ r, P (draw r).1) :
    ∀ a ∈ (drawMany draw k r).1, P a := by
  induction k generalizing r with
  | zero => intro a ha; simp [drawMany] at ha
  | succ k ih =>
    intro a ha
    simp only [drawMany, List.mem_cons] at ha
    rcases ha with rfl | ha
    · exact h r
    · exact ih _ a ha

theorem advanceSource_range (weights : List T) (count : ℕ) (position : T) (source : ℕ) (sum : T)
    (h : source < count) : source ≤ (advanceSource weights count position source sum).1 ∧
      (advanceSource weights count position source sum).1 < count := by
  induction source, sum using advanceSource.induct weights count position with
  | case1 source sum hc ih =>
    rw [advanceSource, if_pos hc]
    exact ⟨(Nat.le_succ _).trans (ih hc.2).1, (ih hc.2).2⟩
  | case2 source sum hc =>
    rw [advanceSource, if_neg hc]
    exact ⟨le_refl _, h⟩

theorem walkSources_length (weights : List T) (count : ℕ) (ps : List T) (source : ℕ) (sum : T) :
    (walkSources weights count ps source sum).length = ps.length := by
  induction ps generalizing source sum with
  | nil => rfl
  | cons p ps ih => simp [walkSources, ih]

theorem walkSources_range (weights : List T) (count : ℕ) (ps : List T) (source : ℕ) (sum : T) (h : source < count) :
    (∀ s ∈ walkSources weights count ps source sum, source ≤ s ∧ s < count) ∧
    (walkSources weights count ps source sum).Pairwise (· ≤ ·) := by
  induction ps generalizing source sum with
  | nil => simp [walkSources]
  | cons p ps ih =>
    obtain ⟨h1, h2⟩ := advanceSource_range weights count p source sum h
    obtain ⟨i1, i2⟩ := ih (advanceSource weights count p source sum).1 (advanceSource weights count p source sum).2 h2
    simp only [walkSources]
    constructor
    · intro s hs
      simp only [List.mem_cons] at hs
      rcases hs with rfl | hs
      · exact ⟨h1, h2⟩
      · exact ⟨h1.trans (i1 s hs).1, (i1 s hs).2⟩
    · exact List.pairwise_cons.2 ⟨fun s hs => (i1 s hs).1, i2⟩

theorem firstReaching_range (draw : T) (last : ℕ) (ws : List T) (source : ℕ) (sum : T) :
    firstReaching draw last ws source sum = last ∨ firstReaching draw last ws source sum < source + ws.length := by
  induction ws generalizing source sum with
  | nil => exact Or.inl rfl
  | cons w ws ih =>
    unfold firstReaching
    split_ifs with h
    · exact Or.inr (by simp)
    · rcases ih (source + 1) (sum + w) with h1 | h1
      · exact Or.inl h1
      · exact Or.inr (by simp only [List.length_cons]; omega)

theorem layCopies_le (target : T) (free : ℕ) (laid : T) : layCopies target free laid ≤ free := by
  induction free generalizing laid with
  | zero => exact le_refl _
  | succ free ih =>
    unfold layCopies
    split_ifs with h
    · have := ih (laid + 1); omega
    · omega

theorem layWhole_range (count : ℕ) (ws : List T) (source : ℕ) (filled : List ℕ) (h : filled.length ≤ count)
    (hf : ∀ s ∈ filled, s < source) : (layWhole count ws source filled).length ≤ count ∧
      ∀ s ∈ layWhole count ws source filled, s < source + ws.length := by
  induction ws generalizing source filled with
  | nil => exact ⟨h, hf⟩
  | cons w ws ih =>
    simp only [layWhole]
    have := layCopies_le (Fns.floor ((count : T) * w)) (count - filled.length) 0
    obtain ⟨a, b⟩ := ih (source + 1) (filled ++ List.replicate (layCopies (Fns.floor ((count : T) * w))
      (count - filled.length) 0) source) (by simp; omega) (by
        intro s hs
        simp only [List.mem_append, List.mem_replicate] at hs
        rcases hs with hs | ⟨_, rfl⟩
        · have := hf s hs; omega
        · omega)
    exact ⟨a, fun s hs => by have := b s hs; simp only [List.length_cons]; omega⟩

/-- C62. Whatever the weights, the draws and the rounding, every scheme gives exactly one source per particle and
every source names an existing particle; the systematic and stratified schemes give them in order. No weights: nothing
is picked and nothing drawn. -/
theorem resample_in_range (scheme : ResamplingScheme) (source : RandomSource R T) (weights : List T) (r : R) :
    (resampleIndices scheme source weights r).1.length = weights.length ∧
    (∀ s ∈ (resampleIndices scheme source weights r).1, s < weights.length) ∧
    (scheme = .systematic ∨ scheme = .stratified → (resampleIndices scheme source weights r).1.Pairwise (· ≤ ·)) ∧
    (weights = [] → resampleIndices scheme source weights r = ([], r)) := by
  by_cases hw : weights = []
  · subst hw; simp [resampleIndices]
  have hpos : 0 < weights.length := List.length_pos_of_ne_nil hw
  have he : weights.isEmpty = false := by simp [hw]
  have hdraw : ∀ d, drawFromWeights weights d < weights.length := by
    intro d
    unfold drawFromWeights
    rcases firstReaching_range d (weights.length - 1) weights 0 0 with h | h <;> omega
  have hrem : ∀ d, drawFromRemainders weights weights.length d < weights.length := by
    intro d
    unfold drawFromRemainders
    rcases firstReaching_range d (weights.length - 1)
      (weights.map fun weight => leftover weights.length weight / remainderSum weights.length weights) 0 0 with h | h
    · omega
    · simp at h; omega
  refine ⟨?_, ?_, ?_, fun h => absurd h hw⟩
  · unfold resampleIndices
    rw [he, if_neg (by simp)]
    cases scheme
    · simp [systematicIndices, walkSources_length]
    · simp [stratifiedIndices, walkSources_length, drawMany_length]
    · simp [multinomialIndices, drawMany_length]
    · have := (layWhole_range weights.length weights 0 [] (by simp) (by simp)).1
      simp [residualIndices, drawMany_length]
      omega
  · unfold resampleIndices
    rw [he, if_neg (by simp)]
    cases scheme
    · exact fun s hs => ((walkSources_range _ _ _ _ _ hpos).1 s hs).2
    · exact fun s hs => ((walkSources_range _ _ _ _ _ hpos).1 s hs).2
    · intro s hs
      simp only [multinomialIndices, List.mem_map] at hs
      obtain ⟨d, _, rfl⟩ := hs
      exact hdraw d
    · intro s hs
      simp only [residualIndices, List.mem_append, List.mem_map] at hs
      rcases hs with hs | ⟨d, _, rfl⟩
      · have := (layWhole_range weights.length weights 0 [] (by simp) (by simp)).2 s hs
        omega
      · exact hrem d
  · rintro (rfl | rfl)
    · unfold resampleIndices
      rw [he, if_neg (by simp)]
      exact (walkSources_range _ _ _ _ _ hpos).2
    · unfold resampleIndices
      rw [he, if_neg (by simp)]
      exact (walkSources_range _ _ _ _ _ hpos).2

end LawFree

/-! ### Exact arithmetic -/

/-- Weights that are not negative and sum to one. -/
def Normalized (ws : List ℝ) : Prop := (∀ w ∈ ws, 0 ≤ w) ∧ ws.sum = 1

/-- The total of the weights before a source: its interval on the unit line starts here. -/
def before (ws : List ℝ) (i : ℕ) : ℝ := (ws.take i).sum

theorem before_zero (ws : List ℝ) : before ws 0 = 0 := by simp [before]

theorem before_succ (ws : List ℝ) (i : ℕ) : before ws (i + 1) = before ws i + ws.getD i 0 := by
  unfold before
  by_cases h : i < ws.length
  · rw [List.take_succ_eq_append_getElem h, List.sum_append]; simp [h]
  · rw [List.take_of_length_le (by omega), List.take_of_length_le (by omega)]
    simp [List.getD, List.getElem?_eq_none (not_lt.1 h)]

theorem before_length (ws : List ℝ) {i : ℕ} (h : ws.length ≤ i) : before ws i = ws.sum := by
  unfold before; rw [List.take_of_length_le h]

theorem getD_nonneg {ws : List ℝ} (h : ∀ w ∈ ws, 0 ≤ w) (i : ℕ) : 0 ≤ ws.getD i 0 := by
  by_cases hi : i < ws.length
  · simp only [List.getD, List.getElem?_eq_getElem hi, Option.getD_some]; exact h _ (List.getElem_mem _)
  · simp [List.getD, List.getElem?_eq_none (not_lt.1 hi)]

theorem before_mono {ws : List ℝ} (h : ∀ w ∈ ws, 0 ≤ w) : Monotone (before ws) :=
  monotone_nat_of_le_succ fun i => by rw [before_succ]; linarith [getD_nonneg h i]

theorem before_bounds {ws : List ℝ} (h : Normalized ws) (i : ℕ) : 0 ≤ before ws i ∧ before ws i ≤ 1 := by
  constructor
  · rw [← before_zero ws]; exact before_mono h.1 (Nat.zero_le _)
  · rw [← h.2, ← before_length ws (le_max_right i ws.length)]
    exact before_mono h.1 (le_max_left _ _)

/-- The source whose interval holds a position. -/
def Catches (ws : List ℝ) (p : ℝ) (s : ℕ) : Prop := before ws s ≤ p ∧ p < before ws (s + 1)

theorem catches_unique {ws : List ℝ} (h : ∀ w ∈ ws, 0 ≤ w) {p : ℝ} {s t : ℕ} (hs : Catches ws p s)
    (ht : Catches ws p t) : s = t := by
  rcases lt_trichotomy s t with hlt | he | hlt
  · have := before_mono h (Nat.succ_le_of_lt hlt); exact absurd (hs.2.trans_le (this.trans ht.1)) (lt_irrefl _)
  · exact he
  · have := before_mono h (Nat.succ_le_of_lt hlt); exact absurd (ht.2.trans_le (this.trans hs.1)) (lt_irrefl _)

theorem advanceSource_catches {ws : List ℝ} (h : Normalized ws) {p : ℝ} (hp : p < 1) (source : ℕ) (sum : ℝ)
    (hlt : source < ws.length) (hsum : sum = before ws (source + 1)) (hle : before ws source ≤ p) :
    Catches ws p (advanceSource ws ws.length p source sum).1 ∧
    (advanceSource ws ws.length p source sum).2 = before ws ((advanceSource ws ws.length p source sum).1 + 1) ∧
    (advanceSource ws ws.length p source sum).1 < ws.length := by
  induction source, sum using advanceSource.induct ws ws.length p with
  | case1 source sum hc ih =>
    rw [advanceSource, if_pos hc]
    exact ih hc.2 (by rw [hsum, before_succ ws (source + 1)]) (hsum ▸ hc.1)
  | case2 source sum hc =>
    rw [advanceSource, if_neg hc]
    refine ⟨⟨hle, ?_⟩, hsum, hlt⟩
    by_contra hge
    have hge := not_lt.1 hge
    dsimp only at hge
    by_cases hl : source + 1 < ws.length
    · exact hc ⟨hsum ▸ hge, hl⟩
    · rw [before_length ws (not_lt.1 hl), h.2] at hge
      linarith

theorem walkSources_catches {ws : List ℝ} (h : Normalized ws) (ps : List ℝ) (hp : ∀ p ∈ ps, p < 1)
    (hs : ps.Pairwise (· ≤ ·)) (source : ℕ) (sum : ℝ) (hlt : source < ws.length)
    (hsum : sum = before ws (source + 1)) (hle : ∀ p ∈ ps, before ws source ≤ p) :
    List.Forall₂ (Catches ws) ps (walkSources ws ws.length ps source sum) := by
  induction ps generalizing source sum with
  | nil => exact List.Forall₂.nil
  | cons p ps ih =>
    simp only [walkSources]
    obtain ⟨a, b, c⟩ := advanceSource_catches h (hp p (by simp)) source sum hlt hsum (hle p (by simp))
    refine List.Forall₂.cons a (ih (fun q hq => hp q (by simp [hq])) (List.pairwise_cons.1 hs).2 _ _ c b fun q hq => ?_)
    exact a.1.trans ((List.pairwise_cons.1 hs).1 q hq)

theorem count_of_catches {ws : List ℝ} (h : ∀ w ∈ ws, 0 ≤ w) (ps : List ℝ) (ss : List ℕ)
    (hf : List.Forall₂ (Catches ws) ps ss) (i : ℕ) [DecidablePred fun p => Catches ws p i] :
    ss.count i = ps.countP fun p => decide (Catches ws p i) := by
  induction hf with
  | nil => rfl
  | @cons p s ps ss hps _ ih =>
    rw [List.count_cons, List.countP_cons, ih]
    congr 1
    by_cases hsi : s = i
    · subst hsi; simp [hps]
    · simp [hsi, show ¬ Catches ws p i from fun hc => hsi (catches_unique h hps hc)]

theorem countP_range_interval (A B n : ℕ) :
    (List.range n).countP (fun k => decide (A ≤ k ∧ k < B)) = min B n - A := by
  induction n with
  | zero => simp
  | succ n ih =>
    rw [List.range_succ, List.countP_append, ih, List.countP_cons, List.countP_nil]
    by_cases h : A ≤ n ∧ n < B
    · simp [h]; omega
    · simp [h]; omega

/-- The number of evenly spaced positions in a source's interval. -/
theorem systematic_count {ws : List ℝ} (h : Normalized ws) {u : ℝ} (h0 : 0 ≤ u) (h1 : u < 1) (i : ℕ)
    [DecidablePred fun p => Catches ws p i] :
    (((List.range ws.length).map fun k => (u + ((k : ℕ) : ℝ)) / (ws.length : ℝ)).countP fun p =>
      decide (Catches ws p i)) = ⌈ws.length * before ws (i + 1) - u⌉₊ - ⌈ws.length * before ws i - u⌉₊ := by
  have hpos : 0 < ws.length := by
    rcases Nat.eq_zero_or_pos ws.length with he | he
    · rw [List.length_eq_zero_iff] at he; rw [he] at h; have := h.2; simp at this
    · exact he
  have hn : (0 : ℝ) < ws.length := by exact_mod_cast hpos
  rw [List.countP_map]
  have e : ((fun p => decide (Catches ws p i)) ∘ fun k : ℕ => (u + (k : ℝ)) / (ws.length : ℝ)) =
      fun k => decide (⌈ws.length * before ws i - u⌉₊ ≤ k ∧ k < ⌈ws.length * before ws (i + 1) - u⌉₊) := by
    funext k
    simp only [Function.comp, decide_eq_decide, Catches, le_div_iff₀ hn, div_lt_iff₀ hn, Nat.ceil_le, Nat.lt_ceil]
    constructor
    · rintro ⟨a, b⟩; constructor <;> linarith
    · rintro ⟨a, b⟩; constructor <;> linarith
  rw [e, countP_range_interval]
  congr 1
  apply min_eq_left
  rw [Nat.ceil_le]
  have := (before_bounds h (i + 1)).2
  nlinarith

theorem ceil_diff_bounds {a b : ℝ} (ha : -1 < a) (hab : a ≤ b) :
    ⌊b - a⌋₊ ≤ ⌈b⌉₊ - ⌈a⌉₊ ∧ ⌈b⌉₊ - ⌈a⌉₊ ≤ ⌈b - a⌉₊ := by
  have hb1 : b ≤ ⌈b⌉₊ := Nat.le_ceil b
  have ha1 : a ≤ ⌈a⌉₊ := Nat.le_ceil a
  have up : ∀ x : ℝ, -1 < x → (⌈x⌉₊ : ℝ) < x + 1 := by
    intro x hx
    rcases le_or_gt x 0 with h | h
    · rw [Nat.ceil_eq_zero.2 h]; simp; linarith
    · exact Nat.ceil_lt_add_one h.le
  have ha2 := up a ha
  have hb2 := up b (lt_of_lt_of_le ha hab)
  have hmono : ⌈a⌉₊ ≤ ⌈b⌉₊ := Nat.ceil_mono hab
  constructor
  · have hf : (⌊b - a⌋₊ : ℝ) ≤ b - a := Nat.floor_le (by linarith)
    have : (⌊b - a⌋₊ : ℝ) + ⌈a⌉₊ < ⌈b⌉₊ + 1 := by linarith
    have : ⌊b - a⌋₊ + ⌈a⌉₊ < ⌈b⌉₊ + 1 := by exact_mod_cast this
    omega
  · have hc : b - a ≤ ⌈b - a⌉₊ := Nat.le_ceil _
    have : (⌈b⌉₊ : ℝ) < ⌈b - a⌉₊ + ⌈a⌉₊ + 1 := by linarith
    have : ⌈b⌉₊ < ⌈b - a⌉₊ + ⌈a⌉₊ + 1 := by exact_mod_cast this
    omega

theorem normalized_pos {ws : List ℝ} (h : Normalized ws) : 0 < ws.length := by
  rcases Nat.eq_zero_or_pos ws.length with he | he
  · rw [List.length_eq_zero_iff] at he; rw [he] at h; have := h.2; simp at this
  · exact he

variable {R : Type}

theorem systematic_catches {ws : List ℝ} (h : Normalized ws) {u : ℝ} (h0 : 0 ≤ u) (h1 : u < 1) :
    List.Forall₂ (Catches ws) ((List.range ws.length).map fun k => (u + ((k : ℕ) : ℝ)) / (ws.length : ℝ))
      (walkSources ws ws.length ((List.range ws.length).map fun k => (u + ((k : ℕ) : ℝ)) / (ws.length : ℝ)) 0
        (ws.getD 0 0)) := by
  have hpos := normalized_pos h
  have hn : (0 : ℝ) < ws.length := by exact_mod_cast hpos
  refine walkSources_catches h _ ?_ ?_ 0 _ hpos (by rw [before_succ, before_zero, zero_add]) ?_
  · intro p hp
    simp only [List.mem_map, List.mem_range] at hp
    obtain ⟨k, hk, rfl⟩ := hp
    rw [div_lt_one hn]
    have : (k : ℝ) + 1 ≤ ws.length := by exact_mod_cast hk
    linarith
  · rw [List.pairwise_map]
    refine List.pairwise_lt_range.imp fun {a b} hab => ?_
    have : (a : ℝ) ≤ b := by exact_mod_cast hab.le
    gcongr
  · intro p hp
    simp only [List.mem_map, List.mem_range] at hp
    obtain ⟨k, hk, rfl⟩ := hp
    rw [before_zero]
    positivity

/-- C62. Systematic resampling: with one offset in `[0, 1)`, each particle is copied the floor or the ceiling of the
particle count times its weight, and a particle of no weight is never picked. -/
theorem systematic_copies (source : RandomSource R ℝ) (ws : List ℝ) (h : Normalized ws) (r : R)
    (h0 : 0 ≤ (source.nextUnit r).1) (h1 : (source.nextUnit r).1 < 1) (i : ℕ) (hi : i < ws.length) :
    ⌊ws.length * ws[i]⌋₊ ≤ (resampleIndices .systematic source ws r).1.count i ∧
    (resampleIndices .systematic source ws r).1.count i ≤ ⌈ws.length * ws[i]⌉₊ := by
  classical
  have hne : ws.isEmpty = false := by
    rw [Bool.eq_false_iff]; intro he; rw [List.isEmpty_iff] at he; subst he; simp at hi
  have hx : ws.getD i 0 = ws[i] := by simp [List.getD, List.getElem?_eq_getElem hi]
  unfold resampleIndices
  rw [hne, if_neg (by simp)]
  simp only [systematicIndices]
  rw [count_of_catches h.1 _ _ (systematic_catches h h0 h1) i, systematic_count h h0 h1]
  have hn : (0 : ℝ) ≤ ws.length := Nat.cast_nonneg _
  have hb := (before_bounds h i).1
  have hw := getD_nonneg h.1 i
  have e : (ws.length : ℝ) * ws[i] = (ws.length * before ws (i + 1) - (source.nextUnit r).1) -
      (ws.length * before ws i - (source.nextUnit r).1) := by rw [before_succ, hx]; ring
  rw [e]
  refine ceil_diff_bounds ?_ ?_
  · have := mul_nonneg hn hb; linarith
  · rw [before_succ]; nlinarith

theorem integral_ceil_sub (x : ℝ) : ∫ u in (0 : ℝ)..1, ((⌈x - u⌉ : ℤ) : ℝ) = x := by
  set g := x - (⌈x⌉ - 1) with hg
  have hg0 : 0 < g := by have := Int.ceil_lt_add_one x; rw [hg]; linarith
  have hg1 : g ≤ 1 := by have := Int.le_ceil x; rw [hg]; linarith
  have h1 : ∫ u in (0 : ℝ)..g, ((⌈x - u⌉ : ℤ) : ℝ) = ∫ u in (0 : ℝ)..g, ((⌈x⌉ : ℤ) : ℝ) := by
    apply intervalIntegral.integral_congr_ae
    have hae : ∀ᵐ u : ℝ, u ≠ g := by simp [MeasureTheory.ae_iff]
    filter_upwards [hae] with u hne hu
    rw [Set.uIoc_of_le hg0.le] at hu
    have hlt : u < g := lt_of_le_of_ne hu.2 hne
    have : ⌈x - u⌉ = ⌈x⌉ := by
      rw [Int.ceil_eq_iff]
      constructor
      · rw [hg] at hlt; linarith
      · have := Int.le_ceil x; linarith [hu.1]
    rw [this]
  have h2 : ∫ u in g..(1 : ℝ), ((⌈x - u⌉ : ℤ) : ℝ) = ∫ u in g..(1 : ℝ), ((⌈x⌉ : ℤ) : ℝ) - 1 := by
    apply intervalIntegral.integral_congr_ae
    have hae : ∀ᵐ u : ℝ, u ≠ 1 := by simp [MeasureTheory.ae_iff]
    filter_upwards [hae] with u hne hu
    rw [Set.uIoc_of_le hg1] at hu
    have hlt : u < 1 := lt_of_le_of_ne hu.2 hne
    have : ⌈x - u⌉ = ⌈x⌉ - 1 := by
      rw [Int.ceil_eq_iff]
      push_cast
      constructor
      · have := Int.ceil_lt_add_one x
        have := Int.le_ceil x
        linarith
      · have := hu.1; rw [hg] at this; linarith
    rw [this]; push_cast; ring
  have m : ∀ a b : ℝ, IntervalIntegrable (fun u => ((⌈x - u⌉ : ℤ) : ℝ)) MeasureTheory.volume a b := by
    intro a b
    apply AntitoneOn.intervalIntegrable
    intro u _ v _ huv
    exact Int.cast_le.2 (Int.ceil_mono (sub_le_sub_left huv x))
  rw [← intervalIntegral.integral_add_adjacent_intervals (m 0 g) (m g 1), h1, h2,
    intervalIntegral.integral_const, intervalIntegral.integral_const]
  simp only [smul_eq_mul]
  rw [hg]; ring

/-- C62. Systematic resampling is fair: over an offset spread evenly on the unit interval, a particle is copied the
particle count times its weight on average. -/
theorem systematic_unbiased (ws : List ℝ) (h : Normalized ws) (i : ℕ) (hi : i < ws.length) :
    ∫ u in (0 : ℝ)..1, (((resampleIndices .systematic (⟨fun u => (u, u), fun u => (u, u)⟩ : RandomSource ℝ ℝ) ws u).1.count i
      : ℕ) : ℝ) = ws.length * ws[i] := by
  classical
  have hne : ws.isEmpty = false := by
    rw [Bool.eq_false_iff]; intro he; rw [List.isEmpty_iff] at he; subst he; simp at hi
  have hx : ws.getD i 0 = ws[i] := by simp [List.getD, List.getElem?_eq_getElem hi]
  have hn : (0 : ℝ) ≤ ws.length := Nat.cast_nonneg _
  have hb := (before_bounds h i).1
  have hw := getD_nonneg h.1 i
  have m : ∀ x a b : ℝ, IntervalIntegrable (fun u => ((⌈x - u⌉ : ℤ) : ℝ)) MeasureTheory.volume a b := by
    intro x a b
    apply AntitoneOn.intervalIntegrable
    intro u _ v _ huv
    exact Int.cast_le.2 (Int.ceil_mono (sub_le_sub_left huv x))
  have e : ∫ u in (0 : ℝ)..1, (((resampleIndices .systematic (⟨fun u => (u, u), fun u => (u, u)⟩ : RandomSource ℝ ℝ) ws
      u).1.count i : ℕ) : ℝ) = ∫ u in (0 : ℝ)..1, (((⌈ws.length * before ws (i + 1) - u⌉ : ℤ) : ℝ) -
        ((⌈ws.length * before ws i - u⌉ : ℤ) : ℝ)) := by
    apply intervalIntegral.integral_congr_ae
    have hae : ∀ᵐ u : ℝ, u ≠ 1 := by simp [MeasureTheory.ae_iff]
    filter_upwards [hae] with u hne1 hu
    rw [Set.uIoc_of_le zero_le_one] at hu
    have hlt : u < 1 := lt_of_le_of_ne hu.2 hne1
    unfold resampleIndices
    rw [hne, if_neg (by simp)]
    simp only [systematicIndices]
    rw [count_of_catches h.1 _ _ (systematic_catches h hu.1.le hlt) i, systematic_count h hu.1.le hlt]
    have key : ∀ y : ℝ, -1 < y → ((⌈y⌉₊ : ℕ) : ℝ) = ((⌈y⌉ : ℤ) : ℝ) := by
      intro y hy
      have : (0 : ℤ) ≤ ⌈y⌉ := by
        have : (-1 : ℤ) < ⌈y⌉ := Int.lt_ceil.2 (by push_cast; exact hy)
        omega
      rw [← natCast_ceil_eq_intCast_ceil_of_neg_one_lt hy]
    have h1 : -1 < ws.length * before ws i - u := by have := mul_nonneg hn hb; linarith
    have h2 : ws.length * before ws i - u ≤ ws.length * before ws (i + 1) - u := by rw [before_succ]; nlinarith
    rw [Nat.cast_sub (Nat.ceil_mono h2), key _ h1, key _ (lt_of_lt_of_le h1 h2)]
  rw [e, intervalIntegral.integral_sub (m _ _ _) (m _ _ _), integral_ceil_sub, integral_ceil_sub, before_succ, hx]
  ring

theorem zipWith_range (f : ℝ → ℕ → ℝ) (L : List ℝ) :
    List.zipWith f L (List.range L.length) = (List.range L.length).map fun k => f (L.getD k 0) k := by
  apply List.ext_getElem
  · simp
  · intro k h1 h2
    simp only [List.length_map, List.length_range] at h2
    simp [List.getD, h2]

/-- C62. Stratified resampling: with one draw in `[0, 1)` per stratum, a particle is copied between one less than the
floor and one more than the ceiling of the particle count times its weight; a particle of no weight is never picked. -/
theorem stratified_copies (source : RandomSource R ℝ) (ws : List ℝ) (h : Normalized ws) (r : R)
    (hu : ∀ r, 0 ≤ (source.nextUnit r).1 ∧ (source.nextUnit r).1 < 1) (i : ℕ) (hi : i < ws.length) :
    ⌊ws.length * ws[i]⌋₊ - 1 ≤ (resampleIndices .stratified source ws r).1.count i ∧
    (resampleIndices .stratified source ws r).1.count i ≤ ⌈ws.length * ws[i]⌉₊ + 1 ∧
    (ws[i] = 0 → (resampleIndices .stratified source ws r).1.count i = 0) := by
  classical
  have hne : ws.isEmpty = false := by
    rw [Bool.eq_false_iff]; intro he; rw [List.isEmpty_iff] at he; subst he; simp at hi
  have hx : ws.getD i 0 = ws[i] := by simp [List.getD, List.getElem?_eq_getElem hi]
  have hpos := normalized_pos h
  have hn : (0 : ℝ) < ws.length := by exact_mod_cast hpos
  set L := (drawMany source.nextUnit ws.length r).1 with hL
  have hLlen : L.length = ws.length := drawMany_length _ _ _
  have hLmem : ∀ a ∈ L, 0 ≤ a ∧ a < 1 := drawMany_mem _ _ _ (fun a => 0 ≤ a ∧ a < 1) hu
  have hLk : ∀ k, 0 ≤ L.getD k 0 ∧ L.getD k 0 < 1 := by
    intro k
    by_cases hk : k < L.length
    · simp only [List.getD, List.getElem?_eq_getElem hk, Option.getD_some]; exact hLmem _ (List.getElem_mem _)
    · simp [List.getD, List.getElem?_eq_none (not_lt.1 hk)]
  have hps : List.zipWith (fun offset (step : ℕ) => (offset + (step : ℝ)) / (ws.length : ℝ)) L (List.range ws.length) =
      (List.range ws.length).map fun k => (L.getD k 0 + (k : ℝ)) / (ws.length : ℝ) := by
    rw [← hLlen]; exact zipWith_range _ L
  have hcatch : List.Forall₂ (Catches ws) ((List.range ws.length).map fun k => (L.getD k 0 + (k : ℝ)) / (ws.length : ℝ))
      (walkSources ws ws.length ((List.range ws.length).map fun k => (L.getD k 0 + (k : ℝ)) / (ws.length : ℝ)) 0
        (ws.getD 0 0)) := by
    refine walkSources_catches h _ ?_ ?_ 0 _ hpos (by rw [before_succ, before_zero, zero_add]) ?_
    · intro p hp
      simp only [List.mem_map, List.mem_range] at hp
      obtain ⟨k, hk, rfl⟩ := hp
      rw [div_lt_one hn]
      have : (k : ℝ) + 1 ≤ ws.length := by exact_mod_cast hk
      linarith [(hLk k).2]
    · rw [List.pairwise_map]
      refine List.pairwise_lt_range.imp fun {a b} hab => ?_
      have : (a : ℝ) + 1 ≤ b := by exact_mod_cast hab
      have := (hLk a).2
      have := (hLk b).1
      apply div_le_div_of_nonneg_right _ hn.le
      linarith
    · intro p hp
      simp only [List.mem_map, List.mem_range] at hp
      obtain ⟨k, hk, rfl⟩ := hp
      rw [before_zero]
      have := (hLk k).1
      positivity
  have hres : (resampleIndices .stratified source ws r).1.count i = (List.range ws.length).countP
      fun k => decide (ws.length * before ws i ≤ L.getD k 0 + k ∧ L.getD k 0 + k < ws.length * before ws (i + 1)) := by
    unfold resampleIndices
    rw [hne, if_neg (by simp)]
    simp only [stratifiedIndices]
    rw [← hL, hps, count_of_catches h.1 _ _ hcatch i, List.countP_map]
    congr 1
    funext k
    simp only [Function.comp, decide_eq_decide, Catches, le_div_iff₀ hn, div_lt_iff₀ hn]
    constructor
    · rintro ⟨a, b⟩; constructor <;> linarith
    · rintro ⟨a, b⟩; constructor <;> linarith
  rw [hres]
  set A := ws.length * before ws i with hA
  set B := ws.length * before ws (i + 1) with hB
  have hA0 : 0 ≤ A := mul_nonneg hn.le (before_bounds h i).1
  have hBn : B ≤ ws.length := by
    rw [hB]; have := (before_bounds h (i + 1)).2; nlinarith
  have hAB : A ≤ B := mul_le_mul_of_nonneg_left (before_mono h.1 (Nat.le_succ i)) hn.le
  have hBA : ws.length * ws[i] = B - A := by rw [hA, hB, before_succ, hx]; ring
  rw [hBA]
  have fB := Nat.floor_le (hA0.trans hAB)
  have fB' := Nat.lt_floor_add_one B
  have cA := Nat.le_ceil A
  have cA' := Nat.ceil_lt_add_one hA0
  have fA := Nat.floor_le hA0
  have fA' := Nat.lt_floor_add_one A
  have cB := Nat.le_ceil B
  have cB' := Nat.ceil_lt_add_one (hA0.trans hAB)
  refine ⟨?_, ?_, ?_⟩
  · refine le_trans ?_ (List.countP_mono_left (p := fun k => decide (⌈A⌉₊ ≤ k ∧ k < ⌊B⌋₊)) ?_)
    · rw [countP_range_interval]
      have hmin : min ⌊B⌋₊ ws.length = ⌊B⌋₊ := min_eq_left (by
        have := hBn; exact_mod_cast (fB.trans hBn))
      rw [hmin]
      have hf := Nat.floor_le (show 0 ≤ B - A by linarith)
      have : (⌊B - A⌋₊ : ℝ) + ⌈A⌉₊ < ⌊B⌋₊ + 2 := by linarith
      have : ⌊B - A⌋₊ + ⌈A⌉₊ < ⌊B⌋₊ + 2 := by exact_mod_cast this
      omega
    · intro k _ hk
      simp only [decide_eq_true_eq] at hk ⊢
      have h1 : (⌈A⌉₊ : ℝ) ≤ k := by exact_mod_cast hk.1
      have h2 : (k : ℝ) + 1 ≤ ⌊B⌋₊ := by exact_mod_cast hk.2
      constructor <;> linarith [(hLk k).1, (hLk k).2]
  · refine le_trans (List.countP_mono_left (q := fun k => decide (⌊A⌋₊ ≤ k ∧ k < ⌈B⌉₊)) ?_) ?_
    · intro k _ hk
      simp only [decide_eq_true_eq] at hk ⊢
      constructor
      · have : (⌊A⌋₊ : ℝ) < k + 1 := by linarith [(hLk k).2]
        have : ⌊A⌋₊ < k + 1 := by exact_mod_cast this
        omega
      · have : (k : ℝ) < ⌈B⌉₊ := by linarith [(hLk k).1]
        exact_mod_cast this
    · rw [countP_range_interval]
      have hc := Nat.le_ceil (B - A)
      have : (⌈B⌉₊ : ℝ) < ⌈B - A⌉₊ + ⌊A⌋₊ + 2 := by linarith
      have : ⌈B⌉₊ < ⌈B - A⌉₊ + ⌊A⌋₊ + 2 := by exact_mod_cast this
      omega
  · intro hz
    have : A = B := by rw [hz, mul_zero] at hBA; linarith
    rw [List.countP_eq_zero]
    intro k _
    simp only [decide_eq_true_eq, not_and, not_lt]
    intro hk; rw [← this]; exact hk

/-! ### Independent draws -/

theorem firstReaching_spec (ws : List ℝ) (hw : ∀ w ∈ ws, 0 ≤ w) (d : ℝ) (last source : ℕ) (sum : ℝ) (hd : sum < d)
    (hle : d ≤ sum + ws.sum) : ∃ j < ws.length, firstReaching d last ws source sum = source + j ∧
      sum + before ws j < d ∧ d ≤ sum + before ws (j + 1) := by
  induction ws generalizing source sum with
  | nil => simp at hle; linarith
  | cons w ws ih =>
    unfold firstReaching
    split_ifs with h
    · exact ⟨0, by simp, by simp, by simpa [before] using hd, by simpa [before] using h⟩
    · obtain ⟨j, hj, e, a, b⟩ := ih (fun v hv => hw v (by simp [hv])) (source + 1) (sum + w) (not_le.1 h) (by
        simp only [List.sum_cons] at hle; linarith)
      refine ⟨j + 1, by simpa using hj, by rw [e]; omega, ?_, ?_⟩
      · simp only [before, List.take_succ_cons, List.sum_cons] at a ⊢; linarith
      · simp only [before, List.take_succ_cons, List.sum_cons] at b ⊢; linarith

/-- C62. One independent draw in `(0, 1)` picks the particle whose stretch of the unit line, as long as its weight,
holds the draw; so a particle of no weight is not picked. -/
theorem multinomial_pick (ws : List ℝ) (h : Normalized ws) (d : ℝ) (h0 : 0 < d) (h1 : d ≤ 1) (i : ℕ)
    (hi : i < ws.length) :
    (drawFromWeights ws d = i ↔ (ws.take i).sum < d ∧ d ≤ (ws.take i).sum + ws[i]) ∧
    (drawFromWeights ws d = i → 0 < ws[i]) := by
  have hx : ws.getD i 0 = ws[i] := by simp [List.getD, List.getElem?_eq_getElem hi]
  obtain ⟨j, hj, e, a, b⟩ := firstReaching_spec ws h.1 d (ws.length - 1) 0 0 h0 (by rw [h.2]; linarith)
  simp only [zero_add] at e a b
  have key : drawFromWeights ws d = i ↔ (ws.take i).sum < d ∧ d ≤ (ws.take i).sum + ws[i] := by
    rw [drawFromWeights, e]
    have hs : (ws.take i).sum + ws[i] = before ws (i + 1) := by rw [before_succ, hx]; rfl
    rw [hs]
    constructor
    · rintro rfl; exact ⟨a, b⟩
    · rintro ⟨c1, c2⟩
      rcases lt_trichotomy j i with hlt | he | hlt
      · have := before_mono h.1 (Nat.succ_le_of_lt hlt)
        exact absurd (c1.trans_le (b.trans this)) (lt_irrefl _)
      · exact he
      · have := before_mono h.1 (Nat.succ_le_of_lt hlt)
        exact absurd (a.trans_le (c2.trans this)) (lt_irrefl _)
  refine ⟨key, fun hp => ?_⟩
  have := key.1 hp
  linarith

theorem layCopies_nat (t free k : ℕ) : layCopies (t : ℝ) free (k : ℝ) = min free (t - k) := by
  induction free generalizing k with
  | zero => simp [layCopies]
  | succ free ih =>
    unfold layCopies
    have e : ((k : ℝ) + 1) = ((k + 1 : ℕ) : ℝ) := by push_cast; ring
    by_cases h : k < t
    · rw [if_pos (by exact_mod_cast h), e, ih]; omega
    · rw [if_neg (by exact_mod_cast h)]; omega

theorem real_floor_nat {x : ℝ} (h : 0 ≤ x) : (Fns.floor x : ℝ) = ((⌊x⌋₊ : ℕ) : ℝ) := by
  show ((⌊x⌋ : ℤ) : ℝ) = _
  rw [natCast_floor_eq_intCast_floor h]

/-- How many whole copies the weights are worth. -/
noncomputable def wholeCopies (count : ℕ) (ws : List ℝ) : ℕ := (ws.map fun w : ℝ => ⌊(count : ℝ) * w⌋₊).sum

theorem layWhole_spec (count : ℕ) (ws : List ℝ) (hw : ∀ w ∈ ws, 0 ≤ w) (source : ℕ) (filled : List ℕ)
    (hle : filled.length + wholeCopies count ws ≤ count) :
    (layWhole count ws source filled).length = filled.length + wholeCopies count ws ∧
    ∀ i, (layWhole count ws source filled).count i = filled.count i +
      if source ≤ i then ⌊count * ws.getD (i - source) 0⌋₊ else 0 := by
  induction ws generalizing source filled with
  | nil => simp [layWhole, wholeCopies]
  | cons w ws ih =>
    have hw0 : 0 ≤ (count : ℝ) * w := mul_nonneg (Nat.cast_nonneg _) (hw w (by simp))
    have hc : layCopies (Fns.floor ((count : ℝ) * w)) (count - filled.length) 0 = ⌊(count : ℝ) * w⌋₊ := by
      rw [real_floor_nat hw0]
      have := layCopies_nat ⌊(count : ℝ) * w⌋₊ (count - filled.length) 0
      rw [Nat.cast_zero] at this
      rw [this]
      simp only [wholeCopies, List.map_cons, List.sum_cons] at hle
      omega
    simp only [layWhole, hc]
    obtain ⟨a, b⟩ := ih (fun v hv => hw v (by simp [hv])) (source + 1)
      (filled ++ List.replicate ⌊(count : ℝ) * w⌋₊ source) (by
        simp only [wholeCopies, List.map_cons, List.sum_cons] at hle ⊢
        simp; omega)
    constructor
    · rw [a]; simp [wholeCopies]; omega
    · intro i
      rw [b, List.count_append, List.count_replicate]
      by_cases h1 : source + 1 ≤ i
      · rw [if_pos h1, if_pos (show source ≤ i by omega), if_neg (show ¬ (source == i) = true by simp; omega)]
        have : i - source = (i - (source + 1)) + 1 := by omega
        rw [this]; simp
      · rw [if_neg h1]
        by_cases h2 : source ≤ i
        · have : i = source := by omega
          subst this; simp
        · rw [if_neg h2, if_neg (by simp; omega)]

theorem foldl_add_sum {A : Type} (f : A → ℝ) (l : List A) (z : ℝ) :
    l.foldl (fun s a => s + f a) z = z + (l.map f).sum := by
  induction l generalizing z with
  | nil => simp
  | cons a l ih => simp [ih]; ring

theorem leftover_nonneg (count : ℕ) (w : ℝ) : 0 ≤ leftover count w := by
  have := Int.floor_le ((count : ℝ) * w)
  simp only [leftover, Fns.floor]
  linarith

theorem remainderSum_eq {ws : List ℝ} (h : Normalized ws) :
    remainderSum ws.length ws = ws.length - wholeCopies ws.length ws := by
  unfold remainderSum
  rw [foldl_add_sum, zero_add]
  have : ∀ (n : ℕ) (l : List ℝ), (∀ w ∈ l, 0 ≤ w) →
      (l.map (leftover n)).sum = n * l.sum - ((wholeCopies n l : ℕ) : ℝ) := by
    intro n l
    induction l with
    | nil => simp [wholeCopies]
    | cons w l ih =>
      intro hl
      have := ih fun v hv => hl v (by simp [hv])
      simp only [List.map_cons, List.sum_cons, wholeCopies, leftover] at this ⊢
      rw [real_floor_nat (mul_nonneg (Nat.cast_nonneg _) (hl w (by simp)))]
      push_cast at this ⊢
      linarith
  rw [this _ ws h.1, h.2, mul_one]

theorem wholeCopies_le {ws : List ℝ} (h : Normalized ws) : wholeCopies ws.length ws ≤ ws.length := by
  have h1 := remainderSum_eq h
  have h2 : 0 ≤ remainderSum ws.length ws := by
    unfold remainderSum
    rw [foldl_add_sum, zero_add]
    apply List.sum_nonneg
    intro x hx
    simp only [List.mem_map] at hx
    obtain ⟨w, _, rfl⟩ := hx
    exact leftover_nonneg _ _
  rw [h1] at h2
  have : (wholeCopies ws.length ws : ℝ) ≤ ws.length := by linarith
  exact_mod_cast this

/-- C62. Residual resampling with draws in `(0, 1)`: every particle is copied at least the floor of the particle count
times its weight, and exactly that often when the product is a whole number, so never without weight; the copies beyond
the floors number the leftover slots. -/
theorem residual_copies_partial (source : RandomSource R ℝ) (ws : List ℝ) (h : Normalized ws) (r : R)
    (hu : ∀ r, 0 < (source.nextUnit r).1 ∧ (source.nextUnit r).1 < 1) (i : ℕ) (hi : i < ws.length) :
    ⌊ws.length * ws[i]⌋₊ ≤ (resampleIndices .residual source ws r).1.count i ∧
    (resampleIndices .residual source ws r).1.count i ≤
      ⌊ws.length * ws[i]⌋₊ + (ws.length - (ws.map fun w : ℝ => ⌊(ws.length : ℝ) * w⌋₊).sum) ∧
    ((∃ k : ℕ, ws.length * ws[i] = k) →
      (resampleIndices .residual source ws r).1.count i = ⌊ws.length * ws[i]⌋₊) ∧
    (ws[i] = 0 → (resampleIndices .residual source ws r).1.count i = 0) := by
  have hne : ws.isEmpty = false := by
    rw [Bool.eq_false_iff]; intro he; rw [List.isEmpty_iff] at he; subst he; simp at hi
  have hx : ws.getD i 0 = ws[i] := by simp [List.getD, List.getElem?_eq_getElem hi]
  have hle := wholeCopies_le h
  obtain ⟨hl, hc⟩ := layWhole_spec ws.length ws h.1 0 [] (by simpa using hle)
  simp only [List.length_nil, zero_add] at hl
  set draws := (drawMany source.nextUnit (ws.length - (layWhole ws.length ws 0 []).length) r).1 with hdr
  have hmem := drawMany_mem source.nextUnit (ws.length - (layWhole ws.length ws 0 []).length) r
    (fun a => 0 < a ∧ a < 1) hu
  have hlen := drawMany_length source.nextUnit (ws.length - (layWhole ws.length ws 0 []).length) r
  have hres : (resampleIndices .residual source ws r).1.count i = ⌊ws.length * ws[i]⌋₊ +
      (draws.map (drawFromRemainders ws ws.length)).count i := by
    unfold resampleIndices
    rw [hne, if_neg (by simp)]
    simp only [residualIndices]
    rw [List.count_append, hc i]
    simp only [List.count_nil, Nat.zero_le, if_true, Nat.sub_zero, zero_add, hx]
    rfl
  have hzero : leftover ws.length ws[i] = 0 → (draws.map (drawFromRemainders ws ws.length)).count i = 0 := by
    intro hlo
    rw [List.count_eq_zero]
    intro hm
    simp only [List.mem_map] at hm
    obtain ⟨d, hd, e⟩ := hm
    obtain ⟨d0, d1⟩ := hmem d hd
    have hdpos : 0 < ws.length - (layWhole ws.length ws 0 []).length := by
      rw [← hlen]; exact List.length_pos_of_mem hd
    have hrs : 0 < remainderSum ws.length ws := by
      rw [remainderSum_eq h, sub_pos]
      have : wholeCopies ws.length ws < ws.length := by omega
      exact_mod_cast this
    have hnn : ∀ w ∈ ws.map (fun w => leftover ws.length w / remainderSum ws.length ws), 0 ≤ w := by
      intro w hw
      simp only [List.mem_map] at hw
      obtain ⟨v, _, rfl⟩ := hw
      exact div_nonneg (leftover_nonneg _ _) hrs.le
    have hsum : (ws.map fun w => leftover ws.length w / remainderSum ws.length ws).sum = 1 := by
      have e1 : (ws.map fun w => leftover ws.length w / remainderSum ws.length ws) =
          (ws.map (leftover ws.length)).map fun x => x * (remainderSum ws.length ws)⁻¹ := by
        rw [List.map_map]; rfl
      rw [e1, List.sum_map_mul_right]
      have e2 : ((ws.map (leftover ws.length)).map fun x : ℝ => x).sum = remainderSum ws.length ws := by
        have := foldl_add_sum (leftover ws.length) ws 0
        rw [zero_add] at this
        rw [List.map_id']; exact this.symm
      rw [e2, mul_inv_cancel₀ hrs.ne']
    obtain ⟨j, hj, ej, a, b⟩ := firstReaching_spec _ hnn d (ws.length - 1) 0 0 d0 (by rw [hsum]; linarith)
    rw [show firstReaching d (ws.length - 1) (ws.map fun w => leftover ws.length w / remainderSum ws.length ws) 0 0 = i
      from e] at ej
    simp only [zero_add] at ej a b
    subst ej
    rw [before_succ] at b
    have : (ws.map fun w => leftover ws.length w / remainderSum ws.length ws).getD i 0 = 0 := by
      simp [List.getD, hi, hlo]
    rw [this] at b
    linarith
  have hwhole : (∃ k : ℕ, ws.length * ws[i] = k) → leftover ws.length ws[i] = 0 := by
    rintro ⟨k, hk⟩
    simp [leftover, Fns.floor, hk]
  rw [hres]
  refine ⟨by omega, ?_, fun hk => by rw [hzero (hwhole hk)]; omega, fun hz => ?_⟩
  · have h1 : (draws.map (drawFromRemainders ws ws.length)).count i ≤ draws.length := by
      have := List.count_le_length (a := i) (l := draws.map (drawFromRemainders ws ws.length))
      simpa using this
    rw [hlen, hl] at h1
    unfold wholeCopies at h1
    omega
  · rw [hzero (hwhole ⟨0, by rw [hz]; simp⟩), hz]; simp

/-- C62. Multinomial resampling with draws in `(0, 1)` never picks a particle of no weight. -/
theorem multinomial_never_zero_partial (source : RandomSource R ℝ) (ws : List ℝ) (h : Normalized ws) (r : R)
    (hu : ∀ r, 0 < (source.nextUnit r).1 ∧ (source.nextUnit r).1 < 1) (i : ℕ) (hi : i < ws.length) (hz : ws[i] = 0) :
    (resampleIndices .multinomial source ws r).1.count i = 0 := by
  have hne : ws.isEmpty = false := by
    rw [Bool.eq_false_iff]; intro he; rw [List.isEmpty_iff] at he; subst he; simp at hi
  unfold resampleIndices
  rw [hne, if_neg (by simp)]
  simp only [multinomialIndices]
  rw [List.count_eq_zero]
  intro hm
  simp only [List.mem_map] at hm
  obtain ⟨d, hd, e⟩ := hm
  have hd' := drawMany_mem source.nextUnit ws.length r (fun a => 0 < a ∧ a < 1) hu d hd
  have := (multinomial_pick ws h d hd'.1 hd'.2.le i hi).2 e
  linarith

/-- C62 (finding). A draw of exactly zero, which `[0, 1)` allows, picks the first particle even if it has no weight, both
in the multinomial scheme and in the residual scheme's leftover draws. -/
theorem multinomial_zero_draw_partial :
    Normalized [0, 1 / 2, 1 / 2] ∧ drawFromWeights ([0, 1 / 2, 1 / 2] : List ℝ) 0 = 0 ∧
    drawFromRemainders ([0, 1 / 2, 1 / 2] : List ℝ) 3 0 = 0 := by
  refine ⟨⟨by simp, by norm_num⟩, ?_, ?_⟩
  · simp [drawFromWeights, firstReaching]
  · have e : leftover 3 (0 : ℝ) = 0 := by simp [leftover, Fns.floor]
    simp [drawFromRemainders, firstReaching, e]

/-! ### The hypotheses are met -/

example : Normalized [1 / 2, 0, 1 / 3, 1 / 6] ∧ (1 : ℕ) < [1 / 2, (0 : ℝ), 1 / 3, 1 / 6].length :=
  ⟨⟨by intro w hw; simp at hw; rcases hw with rfl | rfl | rfl | rfl <;> norm_num, by norm_num⟩, by simp⟩

/-- A source whose draws lie strictly between zero and one. -/
example : ∀ r : ℕ, 0 < ((⟨fun r => (1 / (r + 2 : ℝ), r + 1), fun r => (0, r)⟩ : RandomSource ℕ ℝ).nextUnit r).1 ∧
    ((⟨fun r => (1 / (r + 2 : ℝ), r + 1), fun r => (0, r)⟩ : RandomSource ℕ ℝ).nextUnit r).1 < 1 := by
  intro r
  have : (0 : ℝ) ≤ r := Nat.cast_nonneg r
  refine ⟨by positivity, ?_⟩
  show (1 : ℝ) / (r + 2) < 1
  rw [div_lt_one (by positivity)]
  linarith

end Multicalc
