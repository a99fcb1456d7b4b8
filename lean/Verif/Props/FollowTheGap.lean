import Verif.Model.FollowTheGap
import Verif.Model.XR
import Mathlib.Tactic
import Mathlib.Analysis.SpecialFunctions.Trigonometric.Arctan
import Mathlib.Analysis.SpecialFunctions.Complex.Arg
import Mathlib.Analysis.Real.Pi.Bounds

/-!
# Gap following (C38)
-/

namespace Multicalc
namespace FollowTheGap

section lawfree
variable {T : Type} [Zero T] [One T] [NatCast T] [Add T] [Sub T] [Neg T] [Mul T] [Div T] [LT T] [LE T] [BEq T]
  [DecidableLT T] [DecidableLE T] [Max T] [Min T] [Fns T] {beams : ℕ}

/-- C38. A reading that is not a finite positive number counts as open space out to the sensor's range, and one
beyond that range as a reading of the range: two scans that agree up to that are answered alike, whatever the
scalar. -/
theorem compute_sanitized (f : FollowTheGap T) (a b : Fin beams → T)
    (h : ∀ i, (if Fns.isFinite (a i) && decide (0 < a i) then min (a i) f.maximumRange else f.maximumRange)
      = (if Fns.isFinite (b i) && decide (0 < b i) then min (b i) f.maximumRange else f.maximumRange))
    (goal : T) : f.compute a goal = f.compute b goal := by
  have h' : f.sanitizedRange a = f.sanitizedRange b := by
    funext k
    unfold sanitizedRange
    split_ifs with hk <;> first | rfl | exact h ⟨k, hk⟩
  have h1 : f.isFree a = f.isFree b := by funext k; unfold isFree; rw [h']
  have h2 : f.inset a = f.inset b := by funext k; unfold inset; rw [h']
  have h3 : f.aimBounds a = f.aimBounds b := by funext s e; unfold aimBounds; rw [h2]
  have h4 : f.gapWidth a = f.gapWidth b := by funext s e; unfold gapWidth; rw [h']
  have h5 : f.tooNarrow a = f.tooNarrow b := by funext s e; unfold tooNarrow; rw [h4]
  have h6 : f.aimOf a goal = f.aimOf b goal := by funext s e; unfold aimOf; rw [h3]
  have h7 : f.scoreOf a goal = f.scoreOf b goal := by funext s e; unfold scoreOf; rw [h3, h6]
  have h8 : f.searchStep a goal = f.searchStep b goal := by
    funext s i; unfold searchStep; rw [h1, h5, h6, h7]
  have h9 : f.clearance a = f.clearance b := by funext k; unfold clearance; rw [h']
  unfold compute
  rw [h8, h9]

end lawfree

section search
variable {T : Type} [LinearOrder T] [Zero T] [One T] [NatCast T] [Add T] [Sub T] [Neg T] [Mul T] [Div T]
  [Fns T] {beams : ℕ}

/-- What the scan says beam `k` reads: out to the sensor's range unless it is a finite positive number. -/
def Reads (f : FollowTheGap T) (ranges : Fin beams → T) (k : Fin beams) (r : T) : Prop :=
  r = if Fns.isFinite (ranges k) = true ∧ 0 < ranges k then min (ranges k) f.maximumRange else f.maximumRange

theorem reads_iff (f : FollowTheGap T) (ranges : Fin beams → T) (k : Fin beams) (r : T) :
    f.Reads ranges k r ↔ f.sanitizedRange ranges k = r := by
  unfold Reads sanitizedRange
  rw [dif_pos k.2]
  simp only [Fin.eta, Bool.and_eq_true, decide_eq_true_eq]
  exact eq_comm

/-- A stretch of beams, as long as can be, that all read at least the threshold. -/
structure IsGap (f : FollowTheGap T) (ranges : Fin beams → T) (start stop : ℕ) : Prop where
  order : start ≤ stop
  bound : stop < beams
  free : ∀ k : Fin beams, start ≤ k → k ≤ stop → ∀ r, f.Reads ranges k r → f.freeRangeThreshold ≤ r
  left : ∀ k : Fin beams, k + 1 = start → ∀ r, f.Reads ranges k r → r < f.freeRangeThreshold
  right : ∀ k : Fin beams, stop + 1 = k → ∀ r, f.Reads ranges k r → r < f.freeRangeThreshold

theorem isFree_iff (f : FollowTheGap T) (ranges : Fin beams → T) (k : ℕ) :
    f.isFree ranges k = true ↔ k < beams ∧ f.freeRangeThreshold ≤ f.sanitizedRange ranges k := by
  simp [isFree]

theorem isGap_iff (f : FollowTheGap T) (ranges : Fin beams → T) (start stop : ℕ) :
    f.IsGap ranges start stop ↔ start ≤ stop ∧ (∀ k, start ≤ k → k ≤ stop → f.isFree ranges k = true)
      ∧ (start = 0 ∨ f.isFree ranges (start - 1) = false) ∧ f.isFree ranges (stop + 1) = false := by
  constructor
  · rintro ⟨h1, h2, h3, h4, h5⟩
    refine ⟨h1, fun k hk hk' => ?_, ?_, ?_⟩
    · rw [isFree_iff]
      exact ⟨by omega, h3 ⟨k, by omega⟩ hk hk' _ ((reads_iff _ _ _ _).2 rfl)⟩
    · rcases Nat.eq_zero_or_pos start with h | h
      · exact Or.inl h
      · right
        rw [← Bool.not_eq_true, isFree_iff]
        rintro ⟨_, hc⟩
        exact absurd hc (not_le.2 (h4 ⟨start - 1, by omega⟩ (by simp; omega) _ ((reads_iff _ _ _ _).2 rfl)))
    · rw [← Bool.not_eq_true, isFree_iff]
      rintro ⟨hb, hc⟩
      exact absurd hc (not_le.2 (h5 ⟨stop + 1, hb⟩ rfl _ ((reads_iff _ _ _ _).2 rfl)))
  · rintro ⟨h1, h2, h3, h4⟩
    have hb := ((isFree_iff _ _ _).1 (h2 stop h1 le_rfl)).1
    refine ⟨h1, hb, fun k hk hk' r hr => ?_, fun k hk r hr => ?_, fun k hk r hr => ?_⟩
    · have := ((isFree_iff _ _ _).1 (h2 k hk hk')).2
      rwa [(reads_iff _ _ _ _).1 hr] at this
    · rcases h3 with h | h
      · omega
      · rw [← Bool.not_eq_true, isFree_iff, ← hk, Nat.add_sub_cancel] at h
        rw [← (reads_iff _ _ _ _).1 hr]
        exact not_le.1 fun hc => h ⟨k.2, hc⟩
    · rw [← Bool.not_eq_true, isFree_iff, hk] at h4
      rw [← (reads_iff _ _ _ _).1 hr]
      exact not_le.1 fun hc => h4 ⟨k.2, hc⟩

/-- A gap the robot fits through: one closed on both sides is at least as wide as the chassis. -/
def Passable (f : FollowTheGap T) (ranges : Fin beams → T) (start stop : ℕ) : Prop :=
  f.IsGap ranges start stop ∧ ∀ w, f.gapWidth ranges start stop = some w → f.chassisWidth ≤ w

theorem tooNarrow_iff (f : FollowTheGap T) (ranges : Fin beams → T) (start stop : ℕ) :
    f.tooNarrow ranges start stop = false ↔ ∀ w, f.gapWidth ranges start stop = some w → f.chassisWidth ≤ w := by
  unfold tooNarrow
  cases h : f.gapWidth ranges start stop <;> simp

/-- The first gap is as good as the second: it scores more, or the same and turns no more. -/
def AsGood (f : FollowTheGap T) (ranges : Fin beams → T) (goal : T) (p q : ℕ × ℕ) : Prop :=
  f.scoreOf ranges goal q.1 q.2 < f.scoreOf ranges goal p.1 p.2
  ∨ (f.scoreOf ranges goal q.1 q.2 = f.scoreOf ranges goal p.1 p.2
    ∧ Fns.abs (f.aimOf ranges goal p.1 p.2) ≤ Fns.abs (f.aimOf ranges goal q.1 q.2))

/-- What the search knows after the beams before `n`. -/
structure Searched (f : FollowTheGap T) (ranges : Fin beams → T) (goal : T) (n : ℕ) (s : GapSearch T) : Prop where
  run : ∀ a, s.runStart = some a → a < n ∧ (∀ k, a ≤ k → k < n → f.isFree ranges k = true)
    ∧ (a = 0 ∨ f.isFree ranges (a - 1) = false)
  noRun : s.runStart = none → n = 0 ∨ f.isFree ranges (n - 1) = false
  none : s.bestGap = none → ∀ a b, f.Passable ranges a b → n ≤ b + 1
  some : ∀ a b h, s.bestGap = some (a, b, h) → f.Passable ranges a b ∧ b + 1 < n ∧ h = f.aimOf ranges goal a b
    ∧ s.bestScore = f.scoreOf ranges goal a b
    ∧ ∀ a' b', f.Passable ranges a' b' → b' + 1 < n → f.AsGood ranges goal (a, b) (a', b')

theorem gap_unique (f : FollowTheGap T) (ranges : Fin beams → T) {a a' b : ℕ} (h : f.IsGap ranges a b)
    (h' : f.IsGap ranges a' b) : a = a' := by
  obtain ⟨o, fr, l, -⟩ := (isGap_iff _ _ _ _).1 h
  obtain ⟨o', fr', l', -⟩ := (isGap_iff _ _ _ _).1 h'
  rcases lt_trichotomy a a' with g | g | g
  · rcases l' with l' | l'
    · omega
    · rw [fr (a' - 1) (by omega) (by omega)] at l'; cases l'
  · exact g
  · rcases l with l | l
    · omega
    · rw [fr' (a - 1) (by omega) (by omega)] at l; cases l

theorem search_spec (f : FollowTheGap T) (ranges : Fin beams → T) (goal : T) (n : ℕ) :
    f.Searched ranges goal n
      ((List.range n).foldl (f.searchStep ranges goal) ⟨Fns.negInfinity, Option.none, Option.none⟩) := by
  induction n with
  | zero =>
    exact ⟨fun a h => (by cases h), fun _ => Or.inl rfl, fun _ a b _ => (by omega), fun a b h e => (by cases e)⟩
  | succ n ih =>
    rw [List.range_succ, List.foldl_append]
    simp only [List.foldl_cons, List.foldl_nil]
    generalize (List.range n).foldl (f.searchStep ranges goal) ⟨Fns.negInfinity, Option.none, Option.none⟩ = s at ih
    obtain ⟨hrun, hno, hnone, hsome⟩ := ih
    -- a gap ending just before `n` is one whose run the loop is closing
    have hclose : ∀ a b, f.Passable ranges a b → b + 1 < n + 1 → ¬ b + 1 < n →
        f.isFree ranges n = false ∧ s.runStart = some a ∧ b = n - 1 := by
      intro a b hp h1 h2
      obtain ⟨o, fr, l, r⟩ := (isGap_iff _ _ _ _).1 hp.1
      have hb : b + 1 = n := by omega
      rw [hb] at r
      refine ⟨r, ?_, by omega⟩
      cases hr : s.runStart with
      | none =>
        rcases hno hr with h | h
        · omega
        · rw [fr (n - 1) (by omega) (by omega)] at h; cases h
      | some a' =>
        obtain ⟨g1, g2, g3⟩ := hrun a' hr
        have : f.IsGap ranges a' b := (isGap_iff _ _ _ _).2
          ⟨by omega, fun k hk hk' => g2 k hk (by omega), g3, by rw [hb]; exact r⟩
        rw [gap_unique f ranges this hp.1]
    unfold searchStep
    cases hf : f.isFree ranges n with
    | true =>
      have keepNone : s.bestGap = Option.none → ∀ a b, f.Passable ranges a b → n + 1 ≤ b + 1 := by
        intro h a b hp
        by_contra hc
        have := hnone h a b hp
        have := (hclose a b hp (by omega) (by omega)).1
        rw [hf] at this; cases this
      have keepSome : ∀ a b h, s.bestGap = some (a, b, h) → f.Passable ranges a b ∧ b + 1 < n + 1
          ∧ h = f.aimOf ranges goal a b ∧ s.bestScore = f.scoreOf ranges goal a b
          ∧ ∀ a' b', f.Passable ranges a' b' → b' + 1 < n + 1 → f.AsGood ranges goal (a, b) (a', b') := by
        intro a b h e
        obtain ⟨e1, e2, e3, e4, e5⟩ := hsome a b h e
        refine ⟨e1, by omega, e3, e4, fun a' b' hp hb => ?_⟩
        by_cases hb' : b' + 1 < n
        · exact e5 a' b' hp hb'
        · have := (hclose a' b' hp hb hb').1
          rw [hf] at this; cases this
      cases hr : s.runStart with
      | none =>
        refine ⟨fun a h => ?_, fun h => (by cases h), keepNone, keepSome⟩
        cases h
        refine ⟨by omega, fun k h1 h2 => by rw [show k = n by omega]; exact hf, ?_⟩
        rcases hno hr with h | h
        · exact Or.inl h
        · exact Or.inr h
      | some a' =>
        refine ⟨fun a h => ?_, fun h => (by rw [hr] at h; cases h), keepNone, keepSome⟩
        obtain ⟨g1, g2, g3⟩ := hrun a h
        refine ⟨by omega, fun k h1 h2 => ?_, g3⟩
        rcases Nat.lt_or_ge k n with g | g
        · exact g2 k h1 g
        · rw [show k = n by omega]; exact hf
    | false =>
      have closed : n + 1 = 0 ∨ f.isFree ranges (n + 1 - 1) = false := Or.inr (by simpa using hf)
      cases hr : s.runStart with
      | none =>
        refine ⟨fun a h => (by rw [hr] at h; cases h), fun _ => closed, fun h a b hp => ?_, fun a b h e => ?_⟩
        · by_contra hc
          have := hnone h a b hp
          have := (hclose a b hp (by omega) (by omega)).2.1
          rw [hr] at this; cases this
        · obtain ⟨e1, e2, e3, e4, e5⟩ := hsome a b h e
          refine ⟨e1, by omega, e3, e4, fun a' b' hp hb => ?_⟩
          by_cases hb' : b' + 1 < n
          · exact e5 a' b' hp hb'
          · have := (hclose a' b' hp hb hb').2.1
            rw [hr] at this; cases this
      | some a₀ =>
        obtain ⟨g1, g2, g3⟩ := hrun a₀ hr
        have hgap : f.IsGap ranges a₀ (n - 1) := (isGap_iff _ _ _ _).2
          ⟨by omega, fun k hk hk' => g2 k hk (by omega), g3, by rw [show n - 1 + 1 = n by omega]; exact hf⟩
        dsimp only
        cases hn : f.tooNarrow ranges a₀ (n - 1) with
        | true =>
          have hnp : ∀ a b, f.Passable ranges a b → b + 1 < n + 1 → b + 1 < n := by
            intro a b hp h1
            by_contra h2
            obtain ⟨-, c2, rfl⟩ := hclose a b hp h1 h2
            rw [hr] at c2
            cases c2
            rw [(tooNarrow_iff _ _ _ _).2 hp.2] at hn
            cases hn
          rw [if_pos rfl]
          refine ⟨fun a h => (by cases h), fun _ => closed, fun h a b hp => ?_, fun a b h e => ?_⟩
          · by_contra hc
            have := hnone h a b hp
            have := hnp a b hp (by omega)
            omega
          · obtain ⟨e1, e2, e3, e4, e5⟩ := hsome a b h e
            exact ⟨e1, by omega, e3, e4, fun a' b' hp hb => e5 a' b' hp (hnp a' b' hp hb)⟩
        | false =>
          rw [if_neg (by simp)]
          have hpass : f.Passable ranges a₀ (n - 1) := ⟨hgap, (tooNarrow_iff _ _ _ _).1 hn⟩
          have hnew : ∀ a b, f.Passable ranges a b → b + 1 < n + 1 → ¬ b + 1 < n → a = a₀ ∧ b = n - 1 := by
            intro a b hp h1 h2
            obtain ⟨-, c2, c3⟩ := hclose a b hp h1 h2
            rw [hr] at c2
            cases c2
            exact ⟨rfl, c3⟩
          cases hb : s.bestGap with
          | none =>
            have hw : wins s (f.scoreOf ranges goal a₀ (n - 1)) (f.aimOf ranges goal a₀ (n - 1)) = true := by
              unfold wins; rw [hb]
            rw [if_pos hw]
            refine ⟨fun a h => (by cases h), fun _ => closed, fun h => (by cases h), fun a b h e => ?_⟩
            cases e
            refine ⟨hpass, by omega, rfl, rfl, fun a' b' hp h1 => ?_⟩
            have := hnone hb a' b' hp
            obtain ⟨rfl, rfl⟩ := hnew a' b' hp h1 (by omega)
            exact Or.inr ⟨rfl, le_rfl⟩
          | some g =>
            obtain ⟨a, b, h⟩ := g
            obtain ⟨e1, e2, e3, e4, e5⟩ := hsome a b h hb
            have hw : wins s (f.scoreOf ranges goal a₀ (n - 1)) (f.aimOf ranges goal a₀ (n - 1)) = true ↔
                s.bestScore < f.scoreOf ranges goal a₀ (n - 1) ∨ (f.scoreOf ranges goal a₀ (n - 1) = s.bestScore
                  ∧ Fns.abs (f.aimOf ranges goal a₀ (n - 1)) < Fns.abs h) := by
              unfold wins; rw [hb]; simp
            by_cases hww : wins s (f.scoreOf ranges goal a₀ (n - 1)) (f.aimOf ranges goal a₀ (n - 1)) = true
            · rw [if_pos hww]
              rw [hw, e3, e4] at hww
              refine ⟨fun a h => (by cases h), fun _ => closed, fun h => (by cases h), fun a b h e => ?_⟩
              cases e
              refine ⟨hpass, by omega, rfl, rfl, fun a' b' hp h1 => ?_⟩
              by_cases hb' : b' + 1 < n
              · rcases e5 a' b' hp hb' with h2 | ⟨h2, h3⟩ <;> rcases hww with h4 | ⟨h4, h5⟩
                · exact Or.inl (h2.trans h4)
                · exact Or.inl (by simpa only [h4] using h2)
                · exact Or.inl (by simpa only [h2] using h4)
                · exact Or.inr ⟨h2.trans h4.symm, h5.le.trans h3⟩
              · obtain ⟨rfl, rfl⟩ := hnew a' b' hp h1 hb'
                exact Or.inr ⟨rfl, le_rfl⟩
            · rw [if_neg hww]
              rw [hw, e3, e4] at hww
              push Not at hww
              refine ⟨fun a h => (by cases h), fun _ => closed, fun h => (by cases h), fun a1 b1 h1 e => ?_⟩
              cases e
              refine ⟨e1, by omega, e3, e4, fun a' b' hp h1 => ?_⟩
              by_cases hb' : b' + 1 < n
              · exact e5 a' b' hp hb'
              · obtain ⟨rfl, rfl⟩ := hnew a' b' hp h1 hb'
                rcases hww.1.lt_or_eq with h6 | h6
                · exact Or.inl h6
                · exact Or.inr ⟨h6, hww.2 h6⟩

theorem passable_bound {f : FollowTheGap T} {ranges : Fin beams → T} {a b : ℕ} (h : f.Passable ranges a b) :
    b + 1 < beams + 1 := by have := h.1.bound; omega

/-- C38. Whatever the arithmetic, the controller steers into a longest stretch of open beams that the robot fits
through, and no such stretch scores better or, scoring the same, asks for a smaller turn; it aims inside that
stretch as the aim rule says and the turn command is the gain times the aim.  It reports being blocked, and then
commands no motion at all, exactly when there is no such stretch. -/
theorem compute_gap (f : FollowTheGap T) (ranges : Fin beams → T) (goal : T) (hg : Fns.isFinite goal = true) :
    ∃ out, f.compute ranges goal = .ok out
      ∧ (out.blocked = true ↔ ∀ a b, ¬ f.Passable ranges a b)
      ∧ (out.blocked = true → out.bodyTwist = ⟨0, 0⟩ ∧ out.heading = 0 ∧ out.gapStartIndex = 0
        ∧ out.gapEndIndex = 0)
      ∧ (out.blocked = false →
        f.Passable ranges out.gapStartIndex out.gapEndIndex
        ∧ (∀ a b, f.Passable ranges a b → f.AsGood ranges goal (out.gapStartIndex, out.gapEndIndex) (a, b))
        ∧ out.heading = f.aimOf ranges goal out.gapStartIndex out.gapEndIndex
        ∧ out.bodyTwist.angular = f.steeringGain * out.heading) := by
  have hs := search_spec f ranges goal (beams + 1)
  unfold compute
  rw [if_neg (by simp [hg])]
  dsimp only
  generalize (List.range (beams + 1)).foldl (f.searchStep ranges goal) ⟨Fns.negInfinity, Option.none, Option.none⟩
    = s at hs
  obtain ⟨-, -, hnone, hsome⟩ := hs
  cases hb : s.bestGap with
  | none =>
    refine ⟨_, rfl, ⟨fun _ a b hp => ?_, fun _ => rfl⟩, fun _ => ⟨rfl, rfl, rfl, rfl⟩, fun h => by cases h⟩
    have := hnone hb a b hp
    have := passable_bound hp
    omega
  | some g =>
    obtain ⟨a, b, h⟩ := g
    obtain ⟨e1, e2, e3, e4, e5⟩ := hsome a b h hb
    refine ⟨_, rfl, ⟨fun h => (by cases h), fun h => absurd e1 (h a b)⟩, fun h => (by cases h), fun _ =>
      ⟨e1, fun a' b' hp => e5 a' b' hp (passable_bound hp), e3, rfl⟩⟩

theorem foldl_least (g : ℕ → T) (keep : ℕ → Bool) (m : T) (l : List ℕ) :
    let out := l.foldl (fun least index => if keep index && decide (g index < least) then g index else least) m
    out ≤ m ∧ (∀ k ∈ l, keep k = true → out ≤ g k) ∧ (out = m ∨ ∃ k ∈ l, keep k = true ∧ out = g k) := by
  induction l generalizing m with
  | nil => exact ⟨le_rfl, fun k hk => by simp at hk, Or.inl rfl⟩
  | cons x l ih =>
    obtain ⟨i1, i2, i3⟩ := ih (if keep x && decide (g x < m) then g x else m)
    simp only [List.foldl_cons]
    refine ⟨i1.trans ?_, fun k hk hkk => ?_, ?_⟩
    · split_ifs with h
      · simp at h; exact h.2.le
      · exact le_rfl
    · rcases List.mem_cons.1 hk with rfl | hk
      · refine i1.trans ?_
        split_ifs with h
        · exact le_rfl
        · simp [hkk] at h; exact h
      · exact i2 k hk hkk
    · rcases i3 with h | ⟨k, hk, h⟩
      · rw [h]
        split_ifs with hx
        · simp at hx; exact Or.inr ⟨x, by simp, hx.1, rfl⟩
        · exact Or.inl rfl
      · exact Or.inr ⟨k, List.mem_cons_of_mem _ hk, h⟩

theorem sanitized_le (f : FollowTheGap T) (ranges : Fin beams → T) (k : ℕ) :
    f.sanitizedRange ranges k ≤ f.maximumRange := by
  unfold sanitizedRange
  dsimp only
  split_ifs <;> first | exact min_le_right _ _ | exact le_rfl

/-- C38. The reported clearance is the least reading of the scan: no beam reads less, and some beam reads just
that. -/
theorem compute_clearance (f : FollowTheGap T) (ranges : Fin beams → T) (goal : T) (hb : 0 < beams)
    (out : FollowTheGapOutput T) (h : f.compute ranges goal = .ok out) :
    (∀ k r, f.Reads ranges k r → out.minimumClearance ≤ r) ∧ ∃ k, f.Reads ranges k out.minimumClearance := by
  have hm : out.minimumClearance = f.clearance ranges fun _ => true := by
    unfold compute at h
    split_ifs at h
    dsimp only at h
    split at h <;> cases h <;> rfl
  obtain ⟨l1, l2, l3⟩ := foldl_least (f.sanitizedRange ranges) (fun _ => true) f.maximumRange (List.range beams)
  rw [hm]
  refine ⟨fun k r hr => ?_, ?_⟩
  · rw [← (reads_iff _ _ _ _).1 hr]
    exact l2 k (List.mem_range.2 k.2) rfl
  · rcases l3 with h3 | ⟨k, hk, -, h3⟩
    · refine ⟨⟨0, hb⟩, (reads_iff _ _ _ _).2 ?_⟩
      refine le_antisymm ?_ (l2 0 (List.mem_range.2 hb) rfl)
      unfold clearance
      dsimp only at h3 ⊢
      rw [h3]
      exact sanitized_le _ _ _
    · exact ⟨⟨k, List.mem_range.1 hk⟩, (reads_iff _ _ _ _).2 h3.symm⟩

end search

section real
variable {beams : ℕ}

/-- What the constructor and the builders guarantee. -/
structure Valid (beams : ℕ) (f : FollowTheGap ℝ) : Prop where
  beams : 2 ≤ beams
  fov : 0 < f.fieldOfView
  fov_le : f.fieldOfView ≤ 2 * Real.pi
  range : 0 < f.maximumRange
  threshold : 0 < f.freeRangeThreshold
  threshold_le : f.freeRangeThreshold ≤ f.maximumRange
  width : 0 < f.chassisWidth
  width_lt : f.chassisWidth / 2 < f.maximumRange
  cruise : 0 < f.cruiseSpeed
  gain : 0 < f.steeringGain
  bias : 0 ≤ f.goalBias
  stopping : 0 ≤ f.stoppingDistance
  clear : f.stoppingDistance < f.clearDistance
  frontal : 0 < f.frontalHalfAngle
  frontal_le : f.frontalHalfAngle ≤ f.fieldOfView / 2

/-- C38. The constructor accepts exactly the settings that make sense, and every builder keeps them so. -/
theorem tryNew_valid (beams : ℕ) (fov r w t v : ℝ) :
    ((∃ f, tryNew beams fov r w t v = .ok f) ↔ 2 ≤ beams ∧ 0 < fov ∧ fov ≤ 2 * Real.pi ∧ 0 < r ∧ 0 < t ∧ t ≤ r
      ∧ 0 < w ∧ w / 2 < r ∧ 0 < v)
    ∧ (∀ f, tryNew beams fov r w t v = .ok f → f.Valid beams ∧ f.fieldOfView = fov ∧ f.maximumRange = r
      ∧ f.chassisWidth = w ∧ f.freeRangeThreshold = t ∧ f.cruiseSpeed = v)
    ∧ ∀ f : FollowTheGap ℝ, f.Valid beams → (∀ x g, f.withSteeringGain x = .ok g → g.Valid beams)
      ∧ (∀ x g, f.withGoalBias x = .ok g → g.Valid beams)
      ∧ (∀ x y g, f.withSpeedScaling x y = .ok g → g.Valid beams)
      ∧ (∀ x g, f.withFrontalHalfAngle x = .ok g → g.Valid beams) := by
  have hp : (((2 : ℕ) : ℝ) * Fns.pi) = 2 * Real.pi := by push_cast; rfl
  have hh : ∀ x : ℝ, x * (1 / ((2 : ℕ) : ℝ)) = x / 2 := fun x => by push_cast; ring
  have l1 : (Fns.lit (3 / 2) : ℝ) = 3 / 2 := by show ((3 / 2 : ℚ) : ℝ) = _; push_cast; rfl
  have l2 : (Fns.lit (1 / 2) : ℝ) = 1 / 2 := by show ((1 / 2 : ℚ) : ℝ) = _; push_cast; rfl
  have l3 : (Fns.lit 4 : ℝ) = 4 := by show ((4 : ℚ) : ℝ) = _; push_cast; rfl
  have key : ∀ f, tryNew beams fov r w t v = .ok f → (2 ≤ beams ∧ 0 < fov ∧ fov ≤ 2 * Real.pi ∧ 0 < r ∧ 0 < t
      ∧ t ≤ r ∧ 0 < w ∧ w / 2 < r ∧ 0 < v) ∧ (f.Valid beams ∧ f.fieldOfView = fov ∧ f.maximumRange = r
      ∧ f.chassisWidth = w ∧ f.freeRangeThreshold = t ∧ f.cruiseSpeed = v) := by
    intro f h
    unfold tryNew at h
    rw [hp, hh] at h
    split_ifs at h with h1 h2 h3 h4 h5 h6
    cases h
    push Not at h1 h3 h4 h5 h6
    refine ⟨⟨h1, h3.1, h3.2, h4.1, h4.2.1, h4.2.2, h5.1, h5.2, h6⟩, ⟨h1, h3.1, h3.2, h4.1, h4.2.1, h4.2.2, h5.1,
      h5.2, h6, ?_, ?_, ?_, ?_, ?_, ?_⟩, rfl, rfl, rfl, rfl, rfl⟩
    · show (0 : ℝ) < Fns.lit (3 / 2); rw [l1]; norm_num
    · show (0 : ℝ) ≤ Fns.lit (1 / 2); rw [l2]; norm_num
    · show 0 ≤ w / 2; linarith [h5.1]
    · exact h5.2
    · show 0 < fov / Fns.lit 4; rw [l3]; linarith [h3.1]
    · show fov / Fns.lit 4 ≤ fov / 2; rw [l3]; linarith [h3.1]
  refine ⟨⟨fun ⟨f, h⟩ => (key f h).1, fun h => ?_⟩, fun f h => (key f h).2, fun f hf => ⟨?_, ?_, ?_, ?_⟩⟩
  · unfold tryNew
    rw [hp, hh, if_neg (by omega), if_neg (by simp [Fns.isFinite]), if_neg (by push Not; exact ⟨h.2.1, h.2.2.1⟩),
      if_neg (by push Not; exact ⟨h.2.2.2.1, h.2.2.2.2.1, h.2.2.2.2.2.1⟩),
      if_neg (by push Not; exact ⟨h.2.2.2.2.2.2.1, h.2.2.2.2.2.2.2.1⟩),
      if_neg (by push Not; exact h.2.2.2.2.2.2.2.2)]
    exact ⟨_, rfl⟩
  · intro x g h
    unfold withSteeringGain at h
    split_ifs at h with h1 h2
    cases h
    exact { hf with gain := not_le.1 h2 }
  · intro x g h
    unfold withGoalBias at h
    split_ifs at h with h1 h2
    cases h
    exact { hf with bias := not_lt.1 h2 }
  · intro x y g h
    unfold withSpeedScaling at h
    split_ifs at h with h1 h2
    cases h
    push Not at h2
    exact { hf with stopping := h2.1, clear := h2.2 }
  · intro x g h
    unfold withFrontalHalfAngle at h
    rw [hh] at h
    split_ifs at h with h1 h2
    cases h
    push Not at h2
    exact { hf with frontal := h2.1, frontal_le := h2.2 }

theorem sanitized_pos {f : FollowTheGap ℝ} (hr : 0 < f.maximumRange) (ranges : Fin beams → ℝ) (k : ℕ) :
    0 < f.sanitizedRange ranges k := by
  unfold sanitizedRange
  dsimp only
  split_ifs with h1 h2
  · simp at h2; exact lt_min h2.2 hr
  · exact hr
  · exact hr

theorem angle_range {f : FollowTheGap ℝ} (hf : f.Valid beams) {k : ℕ} (hk : k < beams) :
    -(f.fieldOfView / 2) ≤ f.beamAngle beams k ∧ f.beamAngle beams k ≤ f.fieldOfView / 2 := by
  have h2 := hf.beams
  have hn : (0 : ℝ) < ((beams - 1 : ℕ) : ℝ) := by exact_mod_cast (show 0 < beams - 1 by omega)
  have hk' : (k : ℝ) ≤ ((beams - 1 : ℕ) : ℝ) := by exact_mod_cast (show k ≤ beams - 1 by omega)
  have hfov := hf.fov
  have e : f.beamAngle beams k = -(f.fieldOfView / 2) + f.fieldOfView * (k / ((beams - 1 : ℕ) : ℝ)) := by
    unfold beamAngle beamAngleAcross; push_cast; ring
  have h0 : 0 ≤ (k : ℝ) / ((beams - 1 : ℕ) : ℝ) := by positivity
  have h1 : (k : ℝ) / ((beams - 1 : ℕ) : ℝ) ≤ 1 := by rw [div_le_one hn]; exact hk'
  rw [e]
  constructor <;> nlinarith

theorem real_atan (x : ℝ) : atan x = Real.arctan x := by
  show Complex.arg ⟨1, x⟩ = _
  rw [Complex.arg_of_re_nonneg (by norm_num)]
  rw [Real.arctan_eq_arcsin]
  congr 1
  rw [Complex.norm_def, Complex.normSq_mk]
  congr 2
  ring

theorem inset_nonneg {f : FollowTheGap ℝ} (hf : f.Valid beams) (ranges : Fin beams → ℝ) (k : ℕ) :
    0 ≤ f.inset ranges k := by
  unfold inset
  rw [real_atan]
  have h1 := hf.width
  have h2 := sanitized_pos hf.range ranges k
  rw [← Real.arctan_zero]
  exact Real.arctan_mono (by positivity)

theorem aim_range {f : FollowTheGap ℝ} (hf : f.Valid beams) (ranges : Fin beams → ℝ) (goal : ℝ) {a b : ℕ}
    (ha : a ≤ b) (hb : b < beams) : |f.aimOf ranges goal a b| ≤ f.fieldOfView / 2 := by
  have h1 := angle_range hf (k := a) (by omega)
  have h2 := angle_range hf hb
  have hl : -(f.fieldOfView / 2) ≤ (f.aimBounds ranges a b).1 := by
    unfold aimBounds
    dsimp only
    split_ifs
    · linarith
    · linarith [inset_nonneg hf ranges (a - 1)]
  have hh : (f.aimBounds ranges a b).2 ≤ f.fieldOfView / 2 := by
    unfold aimBounds
    dsimp only
    split_ifs
    · linarith [inset_nonneg hf ranges (b + 1)]
    · linarith
  rw [abs_le]
  unfold aimOf
  dsimp only
  split_ifs with hc
  · have e : (f.beamAngle beams a + f.beamAngle beams b) * (1 / ((2 : ℕ) : ℝ))
        = (f.beamAngle beams a + f.beamAngle beams b) / 2 := by push_cast; ring
    rw [e]
    constructor <;> linarith
  · push Not at hc
    exact ⟨le_min (hl.trans (le_max_right _ _)) (hl.trans hc), (min_le_right _ _).trans hh⟩

/-- C38. On any scan of real readings the commanded speed lies between zero and the cruise speed, the aim lies in
the sensor's arc and so the turn command is at most the steering gain times half the arc.  An unblocked robot stops
when a beam ahead reads no more than the stopping distance, and drives at the cruise speed when all of them read at
least the clear distance. -/
theorem compute_limits (f : FollowTheGap ℝ) (hf : f.Valid beams) (ranges : Fin beams → ℝ) (goal : ℝ) :
    ∃ out, f.compute ranges goal = .ok out
      ∧ 0 ≤ out.bodyTwist.linear ∧ out.bodyTwist.linear ≤ f.cruiseSpeed
      ∧ |out.heading| ≤ f.fieldOfView / 2
      ∧ |out.bodyTwist.angular| ≤ f.steeringGain * (f.fieldOfView / 2)
      ∧ (∀ k r, f.Reads ranges k r → |f.beamAngle beams k| ≤ f.frontalHalfAngle → r ≤ f.stoppingDistance →
        out.bodyTwist.linear = 0)
      ∧ (f.clearDistance ≤ f.maximumRange → out.blocked = false →
        (∀ k r, f.Reads ranges k r → |f.beamAngle beams k| ≤ f.frontalHalfAngle → f.clearDistance ≤ r) →
        out.bodyTwist.linear = f.cruiseSpeed) := by
  obtain ⟨out, ho, -, hb, hu⟩ := compute_gap f ranges goal rfl
  refine ⟨out, ho, ?_⟩
  have hfov := hf.fov
  have hg := hf.gain
  have hv := hf.cruise
  cases hbl : out.blocked with
  | true =>
    obtain ⟨e1, e2, -, -⟩ := hb hbl
    rw [e1, e2]
    refine ⟨le_rfl, hv.le, ?_, ?_, fun _ _ _ _ _ => rfl, fun _ h => by cases h⟩
    · rw [abs_zero]; positivity
    · rw [show ((⟨0, 0⟩ : BodyTwist ℝ).angular) = 0 from rfl, abs_zero]; positivity
  | false =>
    obtain ⟨p1, -, p3, p4⟩ := hu hbl
    have hh : |out.heading| ≤ f.fieldOfView / 2 := by rw [p3]; exact aim_range hf ranges goal p1.1.order p1.1.bound
    have hlin : out.bodyTwist.linear = f.cruiseSpeed * min (max ((f.clearance ranges (fun index =>
        decide (Fns.abs (f.beamAngle beams index) ≤ f.frontalHalfAngle)) - f.stoppingDistance)
        / (f.clearDistance - f.stoppingDistance)) 0) 1 := by
      unfold compute at ho
      split_ifs at ho
      dsimp only at ho
      split at ho
      · cases ho; cases hbl
      · cases ho; rfl
    obtain ⟨-, l2, l3⟩ := foldl_least (f.sanitizedRange ranges) (fun index =>
      decide (Fns.abs (f.beamAngle beams index) ≤ f.frontalHalfAngle)) f.maximumRange (List.range beams)
    change ∀ k ∈ List.range beams, decide (|f.beamAngle beams k| ≤ f.frontalHalfAngle) = true →
      f.clearance ranges (fun index => decide (Fns.abs (f.beamAngle beams index) ≤ f.frontalHalfAngle))
        ≤ f.sanitizedRange ranges k at l2
    change f.clearance ranges (fun index => decide (Fns.abs (f.beamAngle beams index) ≤ f.frontalHalfAngle))
        = f.maximumRange ∨ ∃ k ∈ List.range beams, decide (|f.beamAngle beams k| ≤ f.frontalHalfAngle) = true ∧
      f.clearance ranges (fun index => decide (Fns.abs (f.beamAngle beams index) ≤ f.frontalHalfAngle))
        = f.sanitizedRange ranges k at l3
    generalize f.clearance ranges (fun index =>
      decide (Fns.abs (f.beamAngle beams index) ≤ f.frontalHalfAngle)) = c at hlin l2 l3
    have hsp : 0 < f.clearDistance - f.stoppingDistance := sub_pos.2 hf.clear
    rw [hlin, p4]
    refine ⟨?_, ?_, hh, ?_, fun k r hr hk hd => ?_, fun hcl _ hall => ?_⟩
    · exact mul_nonneg hv.le (le_min (le_max_right _ _) zero_le_one)
    · exact mul_le_of_le_one_right hv.le (min_le_right _ _)
    · rw [abs_mul, abs_of_pos hg]
      exact mul_le_mul_of_nonneg_left hh hg.le
    · have h1 := l2 k (List.mem_range.2 k.2) (by simpa using hk)
      rw [(reads_iff _ _ _ _).1 hr] at h1
      rw [max_eq_right (div_nonpos_of_nonpos_of_nonneg (by linarith) hsp.le), min_eq_left zero_le_one, mul_zero]
    · have hc : f.clearDistance ≤ c := by
        rcases l3 with h | ⟨k, hk, h1, h2⟩
        · rw [h]; exact hcl
        · rw [h2]
          exact hall ⟨k, List.mem_range.1 hk⟩ _ ((reads_iff _ _ _ _).2 rfl) (by simpa using h1)
      have : 1 ≤ (c - f.stoppingDistance) / (f.clearDistance - f.stoppingDistance) := by
        rw [le_div_iff₀ hsp]; linarith
      rw [min_eq_right (this.trans (le_max_left _ _)), mul_one]

/-- C38. The width that is compared with the chassis is the distance between the two obstacles that close the gap;
a stretch that reaches the edge of the scan has none. -/
theorem gap_width (f : FollowTheGap ℝ) (ranges : Fin beams → ℝ) (a b : ℕ) (ra rb : ℝ)
    (ha : 0 < a) (hb : b + 1 < beams) (hab : a ≤ b) (hra : f.Reads ranges ⟨a - 1, by omega⟩ ra)
    (hrb : f.Reads ranges ⟨b + 1, hb⟩ rb) :
    let α := f.beamAngle beams (a - 1)
    let β := f.beamAngle beams (b + 1)
    f.gapWidth ranges a b = some (Real.sqrt ((ra * Real.cos α - rb * Real.cos β) ^ 2
      + (ra * Real.sin α - rb * Real.sin β) ^ 2))
    ∧ f.gapWidth ranges 0 b = none ∧ f.gapWidth ranges a (beams - 1) = none := by
  have e1 : f.sanitizedRange ranges (a - 1) = ra := (reads_iff f ranges ⟨a - 1, by omega⟩ ra).1 hra
  have e2 : f.sanitizedRange ranges (b + 1) = rb := (reads_iff f ranges ⟨b + 1, hb⟩ rb).1 hrb
  refine ⟨?_, ?_, ?_⟩
  · unfold gapWidth
    rw [if_neg (by omega), if_pos hb]
    dsimp only
    rw [e1, e2]
    show some (Real.sqrt (max (ra * ra + rb * rb - ((2 : ℕ) : ℝ) * ra * rb *
      Real.cos (f.beamAngle beams (b + 1) - f.beamAngle beams (a - 1))) 0)) = _
    have : ra * ra + rb * rb - ((2 : ℕ) : ℝ) * ra * rb *
        Real.cos (f.beamAngle beams (b + 1) - f.beamAngle beams (a - 1))
        = (ra * Real.cos (f.beamAngle beams (a - 1)) - rb * Real.cos (f.beamAngle beams (b + 1))) ^ 2
          + (ra * Real.sin (f.beamAngle beams (a - 1)) - rb * Real.sin (f.beamAngle beams (b + 1))) ^ 2 := by
      rw [Real.cos_sub]
      push_cast
      have h1 := Real.sin_sq_add_cos_sq (f.beamAngle beams (a - 1))
      have h2 := Real.sin_sq_add_cos_sq (f.beamAngle beams (b + 1))
      linear_combination (-ra ^ 2) * h1 - rb ^ 2 * h2
    rw [this, max_eq_left (by positivity)]
  · unfold gapWidth; rw [if_pos rfl]
  · unfold gapWidth; rw [if_neg (by omega), if_neg (by omega)]

/-- `m` is the angle by which the aim must keep off the end of a gap next to the beam at `k`: none when that beam
is outside the scan, else the angle that half the chassis fills at the distance the beam reads. -/
def Margin (f : FollowTheGap ℝ) (ranges : Fin beams → ℝ) (k : ℤ) (m : ℝ) : Prop :=
  (∀ j : Fin beams, (j : ℤ) = k → ∀ r, f.Reads ranges j r → m = Real.arctan (f.chassisWidth / 2 / r))
  ∧ ((k < 0 ∨ (beams : ℤ) ≤ k) → m = 0)

/-- C38. The aim keeps off both ends of the gap by their margins, and among such directions is the one nearest the
goal; if the margins cross it is the middle of the gap.  The score is the room left between the margins less the
goal bias times the distance of the aim from the goal. -/
theorem aim_rule (f : FollowTheGap ℝ) (ranges : Fin beams → ℝ) (goal : ℝ) (a b : ℕ) (hab : a ≤ b) (hb : b < beams)
    (l m : ℝ) (hl : f.Margin ranges (a - 1) l) (hm : f.Margin ranges (b + 1) m) :
    let low := f.beamAngle beams a + l
    let high := f.beamAngle beams b - m
    (low ≤ high → f.aimOf ranges goal a b ∈ Set.Icc low high
      ∧ (∀ θ ∈ Set.Icc low high, |f.aimOf ranges goal a b - goal| ≤ |θ - goal|)
      ∧ f.scoreOf ranges goal a b = (high - low) - f.goalBias * |f.aimOf ranges goal a b - goal|)
    ∧ (high < low → f.aimOf ranges goal a b = (f.beamAngle beams a + f.beamAngle beams b) / 2
      ∧ f.scoreOf ranges goal a b = -(f.goalBias * |f.aimOf ranges goal a b - goal|)) := by
  intro low high
  have hh : f.chassisWidth * (1 / ((2 : ℕ) : ℝ)) = f.chassisWidth / 2 := by push_cast; ring
  have hbd : f.aimBounds ranges a b = (low, high) := by
    unfold aimBounds
    have e1 : (if a = 0 then 0 else f.inset ranges (a - 1)) = l := by
      split_ifs with h
      · exact (hl.2 (Or.inl (by omega))).symm
      · rw [hl.1 ⟨a - 1, by omega⟩ (by simp; omega) _ ((reads_iff _ _ _ _).2 rfl)]
        unfold inset
        rw [real_atan, hh]
    have e2 : (if b + 1 < beams then f.inset ranges (b + 1) else 0) = m := by
      split_ifs with h
      · rw [hm.1 ⟨b + 1, h⟩ (by simp) _ ((reads_iff _ _ _ _).2 rfl)]
        unfold inset
        rw [real_atan, hh]
      · exact (hm.2 (Or.inr (by omega))).symm
    rw [e1, e2]
  have hsc : f.scoreOf ranges goal a b = max (high - low) 0 - f.goalBias * |f.aimOf ranges goal a b - goal| := by
    unfold scoreOf
    rw [hbd]
    rfl
  refine ⟨fun hle => ?_, fun hlt => ?_⟩
  · have ha : f.aimOf ranges goal a b = min (max goal low) high := by
      unfold aimOf
      rw [hbd]
      dsimp only
      rw [if_neg (not_lt.2 hle)]
    rw [hsc, max_eq_left (sub_nonneg.2 hle)]
    rw [ha]
    refine ⟨⟨le_min (le_max_right _ _) hle, min_le_right _ _⟩, fun θ hθ => ?_, rfl⟩
    rcases le_total goal low with h | h
    · rw [max_eq_right h, min_eq_left hle, abs_of_nonneg (by linarith), abs_of_nonneg (by linarith [hθ.1])]
      linarith [hθ.1]
    · rw [max_eq_left h]
      rcases le_total goal high with h' | h'
      · rw [min_eq_left h', sub_self, abs_zero]; exact abs_nonneg _
      · rw [min_eq_right h', abs_of_nonpos (by linarith), abs_of_nonpos (by linarith [hθ.2])]
        linarith [hθ.2]
  · rw [hsc, max_eq_right (by linarith), zero_sub]
    refine ⟨?_, rfl⟩
    unfold aimOf
    rw [hbd]
    dsimp only
    rw [if_pos hlt]
    push_cast
    ring

/-- A controller and a scan with an obstacle between two openings: the left one is aimed at. -/
noncomputable def demo : FollowTheGap ℝ :=
  { fieldOfView := 2, maximumRange := 10, chassisWidth := 1, freeRangeThreshold := 5, cruiseSpeed := 1
    steeringGain := 1, goalBias := 0, stoppingDistance := 1, clearDistance := 2, frontalHalfAngle := 1 / 2 }

theorem demo_valid : demo.Valid 5 := by
  have := Real.pi_gt_three
  constructor <;> norm_num [demo]
  linarith

example : demo.Reads (![0, 10, 3, 7, 20] : Fin 5 → ℝ) 0 10 ∧ demo.Reads (![0, 10, 3, 7, 20] : Fin 5 → ℝ) 2 3
    ∧ demo.Passable (![0, 10, 3, 7, 20] : Fin 5 → ℝ) 0 1 := by
  have h0 : demo.Reads (![0, 10, 3, 7, 20] : Fin 5 → ℝ) 0 10 := by norm_num [Reads, demo]
  have h1 : demo.Reads (![0, 10, 3, 7, 20] : Fin 5 → ℝ) 1 10 := by norm_num [Reads, demo, Fns.isFinite]
  have h2 : demo.Reads (![0, 10, 3, 7, 20] : Fin 5 → ℝ) 2 3 := by
    have e : (![0, 10, 3, 7, 20] : Fin 5 → ℝ) 2 = 3 := rfl
    norm_num [Reads, demo, Fns.isFinite, e]
  refine ⟨h0, h2, ⟨by norm_num, by norm_num, ?_, ?_, ?_⟩, ?_⟩
  · intro k _ hk r hr
    have : k = 0 ∨ k = 1 := by
      rcases k with ⟨k, hk'⟩
      simp only [Fin.ext_iff] at *
      simp at hk ⊢
      omega
    rcases this with rfl | rfl
    · rw [hr.trans h0.symm]; norm_num [demo]
    · rw [hr.trans h1.symm]; norm_num [demo]
  · intro k hk; omega
  · intro k hk r hr
    have : k = 2 := by apply Fin.ext; simpa using hk.symm
    subst this
    rw [hr.trans h2.symm]; norm_num [demo]
  · intro w hw
    unfold gapWidth at hw
    rw [if_pos rfl] at hw
    cases hw

end real

section special
variable {beams : ℕ}
open XR

/-- The same settings as special-value scalars. -/
noncomputable def toXR (f : FollowTheGap ℝ) : FollowTheGap XR :=
  { fieldOfView := fin f.fieldOfView, maximumRange := fin f.maximumRange, chassisWidth := fin f.chassisWidth
    freeRangeThreshold := fin f.freeRangeThreshold, cruiseSpeed := fin f.cruiseSpeed
    steeringGain := fin f.steeringGain, goalBias := fin f.goalBias, stoppingDistance := fin f.stoppingDistance
    clearDistance := fin f.clearDistance, frontalHalfAngle := fin f.frontalHalfAngle }

/-- A scan of special-value readings with every NaN and infinity replaced by zero. -/
def zeroed (ranges : Fin beams → XR) (k : Fin beams) : ℝ :=
  match ranges k with
  | fin x => x
  | _ => 0

/-- The same answer as special-value scalars. -/
noncomputable def outXR (o : FollowTheGapOutput ℝ) : FollowTheGapOutput XR :=
  ⟨⟨fin o.bodyTwist.linear, fin o.bodyTwist.angular⟩, fin o.heading, o.gapStartIndex, o.gapEndIndex,
    fin o.minimumClearance, o.blocked⟩

theorem xr_sanitized (f : FollowTheGap ℝ) (ranges : Fin beams → XR) (k : ℕ) :
    f.toXR.sanitizedRange ranges k = fin (f.sanitizedRange (zeroed ranges) k) := by
  unfold sanitizedRange
  split_ifs with h
  · dsimp only
    unfold zeroed
    cases hr : ranges ⟨k, h⟩ with
    | fin x =>
      by_cases hx : 0 < x
      · rw [if_pos (by simp [Fns.isFinite, hx]), if_pos (by simp [Fns.isFinite, hx])]
        exact fin_min _ _
      · rw [if_neg (by simp [Fns.isFinite, not_lt.1 hx]), if_neg (by simp [Fns.isFinite, not_lt.1 hx])]
        rfl
    | pinf => simp [Fns.isFinite, toXR]
    | ninf => simp [Fns.isFinite, toXR]
    | nan => simp [Fns.isFinite, toXR]
  · rfl

theorem xr_half : (1 : XR) / ((2 : ℕ) : XR) = fin (1 / ((2 : ℕ) : ℝ)) := by
  rw [one_def, natCast_def, fin_div _ _ (by norm_num)]

theorem xr_angle (f : FollowTheGap ℝ) (hb : 2 ≤ beams) (k : ℕ) :
    f.toXR.beamAngle beams k = fin (f.beamAngle beams k) := by
  unfold beamAngle beamAngleAcross
  have : (((beams - 1 : ℕ)) : ℝ) ≠ 0 := by exact_mod_cast (show beams - 1 ≠ 0 by omega)
  rw [xr_half]
  simp only [toXR, natCast_def, fin_mul, fin_neg]
  rw [fin_div _ _ this, fin_add]

theorem xr_inset (f : FollowTheGap ℝ) (hr : 0 < f.maximumRange) (ranges : Fin beams → XR) (k : ℕ) :
    f.toXR.inset ranges k = fin (f.inset (zeroed ranges) k) := by
  unfold inset
  rw [xr_half, xr_sanitized]
  show atan (fin (f.chassisWidth) * fin (1 / ((2 : ℕ) : ℝ)) / _) = _
  rw [fin_mul, fin_div _ _ (sanitized_pos hr _ _).ne']
  rfl

theorem xr_bounds (f : FollowTheGap ℝ) (hb : 2 ≤ beams) (hr : 0 < f.maximumRange) (ranges : Fin beams → XR)
    (a b : ℕ) : f.toXR.aimBounds ranges a b
      = (fin (f.aimBounds (zeroed ranges) a b).1, fin (f.aimBounds (zeroed ranges) a b).2) := by
  unfold aimBounds
  rw [xr_angle f hb, xr_angle f hb, xr_inset f hr, xr_inset f hr]
  split_ifs <;> simp

theorem xr_narrow (f : FollowTheGap ℝ) (hb : 2 ≤ beams) (ranges : Fin beams → XR)
    (a b : ℕ) : f.toXR.tooNarrow ranges a b = f.tooNarrow (zeroed ranges) a b := by
  unfold tooNarrow
  have : f.toXR.gapWidth ranges a b = (f.gapWidth (zeroed ranges) a b).map fin := by
    unfold gapWidth
    split_ifs with h1 h2
    · rfl
    · dsimp only
      rw [xr_angle f hb, xr_angle f hb, xr_sanitized, xr_sanitized, fin_sub]
      have hc : ∀ x : ℝ, (Fns.cos (fin x) : XR) = fin (Fns.cos x) := fun _ => rfl
      have hs : ∀ x : ℝ, (Fns.sqrt (max (fin x) (0 : XR)) : XR) = fin (Fns.sqrt (max x 0)) := by
        intro x
        rw [zero_def, fin_max]
        show (if max x 0 < 0 then XR.nan else fin (Real.sqrt (max x 0))) = _
        rw [if_neg (not_lt.2 (le_max_right _ _))]
        rfl
      simp only [hc, natCast_def, fin_mul, fin_add, fin_sub]
      rw [hs]
      rfl
    · rfl
  rw [this]
  cases f.gapWidth (zeroed ranges) a b with
  | none => rfl
  | some w => simp [toXR]

theorem xr_aim (f : FollowTheGap ℝ) (hb : 2 ≤ beams) (hr : 0 < f.maximumRange) (ranges : Fin beams → XR)
    (goal : ℝ) (a b : ℕ) : f.toXR.aimOf ranges (fin goal) a b = fin (f.aimOf (zeroed ranges) goal a b) := by
  unfold aimOf
  rw [xr_bounds f hb hr, xr_angle f hb, xr_angle f hb, xr_half]
  dsimp only
  simp only [fin_lt, fin_add, fin_mul, fin_max, fin_min]
  split_ifs <;> rfl

theorem xr_score (f : FollowTheGap ℝ) (hb : 2 ≤ beams) (hr : 0 < f.maximumRange) (ranges : Fin beams → XR)
    (goal : ℝ) (a b : ℕ) : f.toXR.scoreOf ranges (fin goal) a b = fin (f.scoreOf (zeroed ranges) goal a b) := by
  unfold scoreOf
  rw [xr_bounds f hb hr, xr_aim f hb hr]
  dsimp only
  have ha : ∀ x : ℝ, (Fns.abs (fin x) : XR) = fin (Fns.abs x) := fun _ => rfl
  rw [fin_sub, zero_def, fin_max, fin_sub, ha]
  show _ - fin f.goalBias * _ = _
  rw [fin_mul, fin_sub]

theorem xr_clearance (f : FollowTheGap ℝ) (ranges : Fin beams → XR) (keep : ℕ → Bool) :
    f.toXR.clearance ranges keep = fin (f.clearance (zeroed ranges) keep) := by
  unfold clearance
  show List.foldl _ (fin f.maximumRange) _ = _
  generalize f.maximumRange = m
  generalize List.range beams = l
  induction l generalizing m with
  | nil => rfl
  | cons x l ih =>
    simp only [List.foldl_cons]
    rw [← ih, xr_sanitized]
    congr 1
    simp only [fin_lt]
    split_ifs <;> rfl

/-- The two searches hold the same gap, and the same score once there is one. -/
def SameSearch (s : GapSearch XR) (t : GapSearch ℝ) : Prop :=
  s.runStart = t.runStart ∧ s.bestGap = t.bestGap.map (fun g => (g.1, g.2.1, fin g.2.2))
    ∧ (t.bestGap ≠ none → s.bestScore = fin t.bestScore)

theorem xr_step (f : FollowTheGap ℝ) (hb : 2 ≤ beams) (hr : 0 < f.maximumRange) (ranges : Fin beams → XR)
    (goal : ℝ) (s : GapSearch XR) (t : GapSearch ℝ) (h : SameSearch s t) (k : ℕ) :
    SameSearch (f.toXR.searchStep ranges (fin goal) s k) (f.searchStep (zeroed ranges) goal t k) := by
  obtain ⟨h1, h2, h3⟩ := h
  have hfree : f.toXR.isFree ranges k = f.isFree (zeroed ranges) k := by
    unfold isFree
    rw [xr_sanitized]
    simp [toXR]
  unfold searchStep
  rw [hfree, h1]
  cases f.isFree (zeroed ranges) k <;> cases hrun : t.runStart
  · exact ⟨h1, h2, h3⟩
  · dsimp only
    rw [xr_narrow f hb, xr_aim f hb hr, xr_score f hb hr]
    rename_i a
    have hw : wins s (fin (f.scoreOf (zeroed ranges) goal a (k - 1))) (fin (f.aimOf (zeroed ranges) goal a (k - 1)))
        = wins t (f.scoreOf (zeroed ranges) goal a (k - 1)) (f.aimOf (zeroed ranges) goal a (k - 1)) := by
      unfold wins
      rw [h2]
      cases hg : t.bestGap with
      | none => rfl
      | some g =>
        rw [h3 (by rw [hg]; simp)]
        have ha : ∀ x : ℝ, (Fns.abs (fin x) : XR) = fin (Fns.abs x) := fun _ => rfl
        simp only [Option.map_some, fin_lt, fin_beq, ha]
        rfl
    rw [hw]
    split_ifs
    · exact ⟨rfl, h2, h3⟩
    · exact ⟨rfl, rfl, fun _ => rfl⟩
    · exact ⟨rfl, h2, h3⟩
  · exact ⟨rfl, h2, h3⟩
  · exact ⟨h1, h2, h3⟩

/-- C38. With NaN and infinite readings anywhere in the scan the answer is exactly the one for the scan of real
readings in which each of them is replaced by zero, and every number in it is finite. -/
theorem compute_special (f : FollowTheGap ℝ) (hf : f.Valid beams) (ranges : Fin beams → XR) (goal : ℝ) :
    ∃ out, f.compute (zeroed ranges) goal = .ok out
      ∧ f.toXR.compute ranges (fin goal) = .ok (outXR out) := by
  have hb := hf.beams
  have hr := hf.range
  have hs : SameSearch
      ((List.range (beams + 1)).foldl (f.toXR.searchStep ranges (fin goal)) ⟨Fns.negInfinity, none, none⟩)
      ((List.range (beams + 1)).foldl (f.searchStep (zeroed ranges) goal) ⟨Fns.negInfinity, none, none⟩) := by
    have : SameSearch ⟨Fns.negInfinity, none, none⟩ ⟨Fns.negInfinity, none, none⟩ :=
      ⟨rfl, rfl, fun h => absurd rfl h⟩
    revert this
    generalize (⟨Fns.negInfinity, none, none⟩ : GapSearch XR) = s
    generalize (⟨Fns.negInfinity, none, none⟩ : GapSearch ℝ) = t
    generalize List.range (beams + 1) = l
    intro h
    induction l generalizing s t with
    | nil => exact h
    | cons x l ih => exact ih _ _ (xr_step f hb hr ranges goal s t h x)
  unfold compute
  rw [if_neg (by simp [Fns.isFinite]), if_neg (by simp [Fns.isFinite])]
  dsimp only
  obtain ⟨-, h2, -⟩ := hs
  rw [h2]
  cases ((List.range (beams + 1)).foldl (f.searchStep (zeroed ranges) goal)
    ⟨Fns.negInfinity, none, none⟩).bestGap with
  | none =>
    refine ⟨_, rfl, ?_⟩
    simp only [Option.map_none]
    rw [xr_clearance]
    rfl
  | some g =>
    refine ⟨_, rfl, ?_⟩
    simp only [Option.map_some]
    have hk : (fun index => decide (Fns.abs (f.toXR.beamAngle beams index) ≤ f.toXR.frontalHalfAngle))
        = fun index => decide (Fns.abs (f.beamAngle beams index) ≤ f.frontalHalfAngle) := by
      funext k
      rw [xr_angle f hb]
      have ha : ∀ x : ℝ, (Fns.abs (fin x) : XR) = fin (Fns.abs x) := fun _ => rfl
      rw [ha]
      simp [toXR]
    rw [xr_clearance, hk, xr_clearance]
    have hsp : f.clearDistance - f.stoppingDistance ≠ 0 := (sub_pos.2 hf.clear).ne'
    simp only [toXR, fin_sub, fin_div _ _ hsp, zero_def, one_def, fin_max, fin_min, fin_mul]
    rfl

/-- C38. So for every scan, NaN and infinite readings included, the commanded speed is a finite number between
zero and the cruise speed and the turn command a finite number within its limit. -/
theorem compute_limits_special (f : FollowTheGap ℝ) (hf : f.Valid beams) (ranges : Fin beams → XR) (goal : ℝ) :
    ∃ out, f.toXR.compute ranges (fin goal) = .ok out
      ∧ (∃ v, out.bodyTwist.linear = fin v ∧ 0 ≤ v ∧ v ≤ f.cruiseSpeed)
      ∧ (∃ w, out.bodyTwist.angular = fin w ∧ |w| ≤ f.steeringGain * (f.fieldOfView / 2)) := by
  obtain ⟨o, h1, h2⟩ := compute_special f hf ranges goal
  obtain ⟨o', h3, h4, h5, -, h6, -⟩ := compute_limits f hf (zeroed ranges) goal
  rw [h1] at h3
  cases h3
  exact ⟨_, h2, ⟨_, rfl, h4, h5⟩, ⟨_, rfl, h6⟩⟩

/-- C38. A goal that is not a finite number is refused. -/
theorem compute_refuses (f : FollowTheGap XR) (ranges : Fin beams → XR) (goal : XR) (h : ∀ x, goal ≠ fin x) :
    f.compute ranges goal = .error .nonFinite := by
  unfold compute
  rw [if_pos]
  cases goal <;> simp [Fns.isFinite]
  exact h _ rfl

example : ∃ out, demo.toXR.compute (![XR.nan, fin 10, fin 3, pinf, ninf] : Fin 5 → XR) (fin 0) = .ok out
    ∧ (∃ v, out.bodyTwist.linear = fin v ∧ 0 ≤ v ∧ v ≤ 1) := by
  obtain ⟨out, h1, h2, -⟩ := compute_limits_special demo demo_valid (![XR.nan, fin 10, fin 3, pinf, ninf]) 0
  exact ⟨out, h1, h2⟩

end special
end FollowTheGap
end Multicalc
