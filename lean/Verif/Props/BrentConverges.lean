import Verif.Props.RootFinding

/-!
# Brent's method always converges

For every function with a sign change, however badly behaved.
-/

namespace Multicalc

/-- What one trial of Brent's method is: a bisection, or an interpolated point that passed all five tests. -/
theorem brentTrial_cases (xtol : ℝ) (s : BrentState ℝ) :
    ((brentTrial xtol s).2 = true ∧ (brentTrial xtol s).1 = s.a * (1 / 2) + s.b * (1 / 2)) ∨
    ((brentTrial xtol s).2 = false ∧
      (s.fa ≠ s.fc → s.fb ≠ s.fc → (brentTrial xtol s).1 = inverseQuadratic s.a s.fa s.b s.fb s.c s.fc) ∧
      min ((3 * s.a + s.b) / 4) s.b ≤ (brentTrial xtol s).1 ∧ (brentTrial xtol s).1 ≤ max ((3 * s.a + s.b) / 4) s.b ∧
      (s.mflag = false → |(brentTrial xtol s).1 - s.b| < |s.c - s.prevStep| / 2 ∧
        xtol * (1 + |s.b|) ≤ |s.c - s.prevStep|)) := by
  have hiq : s.fa ≠ s.fc → s.fb ≠ s.fc → (s.fa != s.fc && s.fb != s.fc) = true := by
    intro h1 h2; simp [h1, h2]
  unfold brentTrial
  simp only
  generalize ht : (if (s.fa != s.fc && s.fb != s.fc) = true then
    inverseQuadratic s.a s.fa s.b s.fb s.c s.fc
    else s.b - s.fb * (s.b - s.a) / (s.fb - s.fa)) = t
  generalize hP : (!Fns.isFinite t || _ || _ || _ || _ || _) = P
  cases P with
  | true => left; exact ⟨rfl, rfl⟩
  | false =>
    right
    simp only [Bool.or_eq_false_iff, decide_eq_false_iff_not, not_lt] at hP
    obtain ⟨⟨⟨⟨⟨-, h1, h2⟩, -⟩, h3⟩, -⟩, h5⟩ := hP
    have e : s.a * (1 / 2) * (1 / 2) * 3 + s.b * (1 / 2) * (1 / 2) = (3 * s.a + s.b) / 4 := by ring
    rw [e] at h1 h2
    refine ⟨rfl, fun a1 a2 => ?_, ?_, ?_, fun hm => ?_⟩
    · simp only [Bool.false_eq_true, if_false]
      rw [← ht, if_pos (hiq a1 a2)]
    · simp only [Bool.false_eq_true, if_false]
      split at h1
      · exact (min_le_left _ _).trans h1
      · exact (min_le_right _ _).trans h1
    · simp only [Bool.false_eq_true, if_false]
      split at h2
      · exact h2.trans (le_max_right _ _)
      · exact h2.trans (le_max_left _ _)
    · simp only [Bool.false_eq_true, if_false]
      rw [hm] at h3 h5
      simp only [Bool.not_false, Bool.true_and, decide_eq_false_iff_not, not_le, not_lt, Fns.abs] at h3 h5
      exact ⟨by linarith, h5⟩

/-- After a swap the third point lies beyond the far end, on its side of the axis and with the smallest value. -/
structure AfterSwap (s : BrentState ℝ) : Prop where
  side : sameSign s.fc s.fa = true
  pos : 0 < |s.fc|
  small : |s.fc| ≤ |s.fb|
  best : |s.fb| < |s.fa|
  beyond : 0 ≤ (s.c - s.a) * (s.a - s.b)

/-- There the interpolated point is at least half the bracket away from the best point. -/
theorem interpolated_far {a b c A B C : ℝ} (hC : 0 < C) (hBC : C ≤ B) (hAB : B < A) (h : 0 ≤ (c - a) * (a - b)) :
    |a - b| / 2 ≤ |inverseQuadratic a A b (-B) c C - b| := by
  have hB : 0 < B := hC.trans_le hBC
  have hA : 0 < A := hB.trans hAB
  have h1 : 0 < A - C := by linarith
  have h2 : 0 < A + B := by linarith
  have h3 : 0 < B + C := by linarith
  have e : inverseQuadratic a A b (-B) c C - b =
      (1 - A * C / ((A + B) * (B + C))) * (a - b) +
        A * B / ((A - C) * (B + C)) * (c - a) := by
    unfold inverseQuadratic
    rw [show A - -B = A + B by ring, show -B - A = -(A + B) by ring, show -B - C = -(B + C) by ring,
      show C - A = -(A - C) by ring, show C - -B = B + C by ring]
    field_simp
    ring
  have hw : 1 / 2 ≤ 1 - A * C / ((A + B) * (B + C)) := by
    rw [le_sub_comm, div_le_iff₀ (by positivity)]
    nlinarith [mul_le_mul_of_nonneg_left hBC hA.le, mul_pos hB hC, mul_pos hB hB]
  have hk : 0 ≤ A * B / ((A - C) * (B + C)) := by positivity
  rw [e]
  generalize 1 - A * C / ((A + B) * (B + C)) = w at *
  generalize A * B / ((A - C) * (B + C)) = k at *
  rcases lt_trichotomy (a - b) 0 with hx | hx | hx
  · have hy : c - a ≤ 0 := by
      by_contra hy
      push Not at hy
      nlinarith
    rw [abs_of_neg hx]
    refine le_trans ?_ (neg_le_abs _)
    nlinarith [mul_nonneg hk (neg_nonneg.2 hy)]
  · rw [hx]; simp [abs_nonneg, mul_nonneg]
  · have hy : 0 ≤ c - a := by
      by_contra hy
      push Not at hy
      nlinarith
    rw [abs_of_pos hx]
    refine le_trans ?_ (le_abs_self _)
    nlinarith [mul_nonneg hk hy]

theorem inverseQuadratic_neg (a fa b fb c fc : ℝ) :
    inverseQuadratic a (-fa) b (-fb) c (-fc) = inverseQuadratic a fa b fb c fc := by
  unfold inverseQuadratic
  rw [show (-fa - -fb) * (-fa - -fc) = (fa - fb) * (fa - fc) by ring,
    show (-fb - -fa) * (-fb - -fc) = (fb - fa) * (fb - fc) by ring,
    show (-fc - -fa) * (-fc - -fb) = (fc - fa) * (fc - fb) by ring]
  congr 1
  · congr 1 <;> · congr 1; ring
  · congr 1; ring

theorem afterSwap_far {s : BrentState ℝ} (h : AfterSwap s) (hs : sameSign s.fa s.fb = false) :
    s.fa ≠ s.fc ∧ s.fb ≠ s.fc ∧ |s.a - s.b| / 2 ≤ |inverseQuadratic s.a s.fa s.b s.fb s.c s.fc - s.b| := by
  obtain ⟨h1, h2, h3, h4, h5⟩ := h
  simp only [sameSign, beq_iff_eq, decide_eq_decide] at h1
  simp only [sameSign, beq_eq_false_iff_ne, ne_eq, decide_eq_decide] at hs
  refine ⟨fun e => ?_, fun e => ?_, ?_⟩
  · rw [e] at h4; exact absurd h4 (not_lt.2 h3)
  · rw [e] at hs; exact hs h1.symm
  · by_cases ha : 0 ≤ s.fa
    · have hc := h1.2 ha
      have hb : s.fb < 0 := by
        by_contra hb
        exact hs ⟨fun _ => not_lt.1 hb, fun _ => ha⟩
      rw [abs_of_nonneg hc] at h2 h3
      rw [abs_of_neg hb] at h3 h4
      rw [abs_of_nonneg ha] at h4
      have := interpolated_far (a := s.a) (b := s.b) (c := s.c) h2 h3 h4 h5
      rwa [neg_neg] at this
    · have hc : s.fc < 0 := by
        by_contra hc
        exact ha (h1.1 (not_lt.1 hc))
      push Not at ha
      have hb : 0 ≤ s.fb := by
        by_contra hb
        exact hs ⟨fun h => absurd h (not_le.2 ha), fun h => absurd h hb⟩
      rw [abs_of_neg hc] at h2 h3
      rw [abs_of_nonneg hb] at h3 h4
      rw [abs_of_neg ha] at h4
      have := interpolated_far (a := s.a) (b := s.b) (c := s.c) h2 h3 h4 h5
      rw [← inverseQuadratic_neg] at this
      simpa using this

/-- One pass: the bracket shrinks by a quarter, or the best point moved to the trial by less than half the step before
last, or the ends were swapped and the next pass will shrink it. -/
theorem brent_pass (xtol : ℝ) (s : BrentState ℝ) (ft : ℝ) (hs : sameSign s.fa s.fb = false) (hpos : 0 < |s.fb|)
    (hbest : |s.fb| ≤ |s.fa|) :
    let t := brentTrial xtol s
    let s' := brentUpdate s t.1 ft t.2
    s'.c = s.b ∧ s'.prevStep = s.c ∧
    (|s'.a - s'.b| ≤ 3 / 4 * |s.a - s.b| ∨
      (s'.mflag = false ∧ ¬ AfterSwap s ∧ |s'.a - s'.b| ≤ |s.a - s.b| ∧
        (AfterSwap s' ∨
          (s.mflag = false → |s'.b - s'.c| < |s.c - s.prevStep| / 2 ∧ xtol * (1 + |s.b|) ≤ |s.c - s.prevStep|)))) := by
  intro t s'
  have hc : s'.c = s.b ∧ s'.prevStep = s.c ∧ s'.fc = s.fb ∧ s'.mflag = t.2 := by
    simp only [s', brentUpdate, brentSwap]
    split <;> split <;> exact ⟨rfl, rfl, rfl, rfl⟩
  refine ⟨hc.1, hc.2.1, ?_⟩
  -- where the ends are
  have hends : (sameSign s.fa ft = true ∧ |s'.a - s'.b| = |t.1 - s.b|) ∨
      (sameSign s.fa ft = false ∧ |s'.a - s'.b| = |s.a - t.1| ∧
        ((s'.b = t.1) ∨ (s'.a = t.1 ∧ s'.b = s.a ∧ s'.fa = ft ∧ s'.fb = s.fa ∧ |s.fa| < |ft|))) := by
    simp only [s', brentUpdate, brentSwap, Fns.abs]
    cases hsg : sameSign s.fa ft
    · right
      refine ⟨rfl, ?_⟩
      simp only [Bool.false_eq_true, if_false]
      split
      · next h => exact ⟨abs_sub_comm _ _, Or.inr ⟨rfl, rfl, rfl, rfl, h⟩⟩
      · exact ⟨rfl, Or.inl rfl⟩
    · left
      refine ⟨rfl, ?_⟩
      simp only [if_true]
      split
      · exact abs_sub_comm _ _
      · rfl
  have hw := abs_nonneg (s.a - s.b)
  rcases brentTrial_cases xtol s with ⟨-, hm⟩ | ⟨hf, hi, h1, h2, h3⟩
  · left
    have e1 : |t.1 - s.b| = |s.a - s.b| / 2 := by
      rw [show t.1 - s.b = (s.a - s.b) / 2 by rw [show t.1 = _ from hm]; ring, abs_div, abs_of_pos (by norm_num : (0 : ℝ) < 2)]
    have e2 : |s.a - t.1| = |s.a - s.b| / 2 := by
      rw [show s.a - t.1 = (s.a - s.b) / 2 by rw [show t.1 = _ from hm]; ring, abs_div, abs_of_pos (by norm_num : (0 : ℝ) < 2)]
    rcases hends with ⟨-, h⟩ | ⟨-, h, -⟩
    · rw [h, e1]; linarith
    · rw [h, e2]; linarith
  · have hbt : |t.1 - s.b| ≤ 3 / 4 * |s.a - s.b| ∧ |s.a - t.1| = |s.a - s.b| - |t.1 - s.b| ∧
        0 ≤ (s.b - t.1) * (t.1 - s.a) := by
      change _ ≤ t.1 at h1
      change t.1 ≤ _ at h2
      rcases le_total s.a s.b with hab | hab
      · have : (3 * s.a + s.b) / 4 ≤ s.b := by linarith
        rw [min_eq_left this] at h1
        rw [max_eq_right this] at h2
        rw [abs_of_nonpos (by linarith : t.1 - s.b ≤ 0), abs_of_nonpos (by linarith : s.a - s.b ≤ 0),
          abs_of_nonpos (by linarith : s.a - t.1 ≤ 0)]
        exact ⟨by linarith, by ring, mul_nonneg (by linarith) (by linarith)⟩
      · have : s.b ≤ (3 * s.a + s.b) / 4 := by linarith
        rw [min_eq_right this] at h1
        rw [max_eq_left this] at h2
        rw [abs_of_nonneg (by linarith : 0 ≤ t.1 - s.b), abs_of_nonneg (by linarith : 0 ≤ s.a - s.b),
          abs_of_nonneg (by linarith : 0 ≤ s.a - t.1)]
        exact ⟨by linarith, by ring, mul_nonneg_of_nonpos_of_nonpos (by linarith) (by linarith)⟩
    obtain ⟨b1, b2, b3⟩ := hbt
    rcases hends with ⟨-, h⟩ | ⟨hsg, h, hb⟩
    · left; rw [h]; exact b1
    · by_cases hslow : |s.a - s.b| / 4 ≤ |t.1 - s.b|
      · left; rw [h, b2]; linarith
      · push Not at hslow
        right
        have hd := abs_nonneg (t.1 - s.b)
        refine ⟨hc.2.2.2.trans hf, fun hsw => ?_, by rw [h, b2]; linarith, ?_⟩
        · obtain ⟨f1, f2, f3⟩ := afterSwap_far hsw hs
          rw [← hi f1 f2] at f3
          change _ ≤ |t.1 - s.b| at f3
          linarith
        · rcases hb with hb | ⟨g1, g2, g3, g4, g5⟩
          · right
            intro hmf
            rw [hb, hc.1]
            exact h3 hmf
          · left
            refine ⟨?_, ?_, ?_, ?_, ?_⟩
            · rw [hc.2.2.1, g3]
              simp only [sameSign, beq_eq_false_iff_ne, ne_eq, beq_iff_eq] at hsg hs ⊢
              revert hsg hs
              generalize decide (0 ≤ s.fa) = x
              generalize decide (0 ≤ s.fb) = y
              generalize decide (0 ≤ ft) = z
              cases x <;> cases y <;> cases z <;> simp
            · rw [hc.2.2.1]; exact hpos
            · rw [hc.2.2.1, g4]; exact hbest
            · rw [g3, g4]; exact g5
            · rw [hc.1, g1, g2]; exact b3

/-- What the loop keeps: the invariant of the report, and all points of the history inside the bracket. -/
structure BrentHistory (f : ℝ → ℝ) (lo hi : ℝ) (s : BrentState ℝ) : Prop where
  inv : BrentInv f lo hi s
  c_mem : lo ≤ s.c ∧ s.c ≤ hi
  d_mem : s.mflag = false → lo ≤ s.prevStep ∧ s.prevStep ≤ hi

/-- C120. Brent's method converges on every function with a sign change, continuous or not, once the budget allows for
it: with `L` such that `(3/4)^L` of the bracket is within the tolerance and `M` such that the bracket is narrower than
`2^M` tolerances, `1 + L (2M + 3)` iterations always suffice. -/
theorem brent_converges (xtol ftol : ℝ) (hx : 0 < xtol) (hf : 0 ≤ ftol) (f : ℝ → ℝ) (a b : ℝ)
    (hs : f a * f b ≤ 0) (L M n : ℕ) (hL : |a - b| * (3 / 4) ^ L ≤ xtol) (hM : |a - b| < 2 ^ M * xtol)
    (hn : 1 + L * (2 * M + 3) ≤ n) : ∃ r, brentSolve xtol ftol n f a b = .ok r := by
  set lo := min a b with hlo
  set hi := max a b with hhi
  have hwid : ∀ x y, (lo ≤ x ∧ x ≤ hi) → (lo ≤ y ∧ y ≤ hi) → |x - y| < 2 ^ M * xtol := by
    intro x y h1 h2
    refine lt_of_le_of_lt ?_ hM
    have hd : hi - lo = |a - b| := max_sub_min_eq_abs' a b
    rw [abs_le]
    constructor <;> linarith [h1.1, h1.2, h2.1, h2.2]
  -- one pass of the loop
  have pass : ∀ (fuel iter : ℕ) (s : BrentState ℝ), BrentHistory f lo hi s →
      (∃ r, brentLoop f xtol ftol (fuel + 1) iter s = .ok r) ∨
      (xtol < |s.a - s.b| ∧ ∃ s', BrentHistory f lo hi s' ∧
        brentLoop f xtol ftol (fuel + 1) iter s = brentLoop f xtol ftol fuel (iter + 1) s' ∧
        s'.c = s.b ∧ s'.prevStep = s.c ∧
        (|s'.a - s'.b| ≤ 3 / 4 * |s.a - s.b| ∨
          (s'.mflag = false ∧ ¬ AfterSwap s ∧ |s'.a - s'.b| ≤ |s.a - s.b| ∧
            (AfterSwap s' ∨ (s.mflag = false → |s'.b - s'.c| < |s.c - s.prevStep| / 2 ∧
              xtol * (1 + |s.b|) ≤ |s.c - s.prevStep|))))) := by
    intro fuel iter s hh
    rw [brentLoop]
    cases ht : brentTest xtol ftol (iter - 1) s with
    | some r => left; exact ⟨r, rfl⟩
    | none =>
      have htest : ftol < |s.fb| ∧ xtol * (1 + |s.b|) < |s.b - s.a| := by
        unfold brentTest at ht
        simp only [Fns.abs] at ht
        split at ht
        · cases ht
        · next h1 =>
          split at ht
          · cases ht
          · next h => exact ⟨not_le.1 h1, not_le.1 (not_or.1 h).2⟩
      simp only [Fns.isFinite, Bool.not_true, Bool.false_eq_true, if_false]
      set s' := brentUpdate s (brentTrial xtol s).1 (f (brentTrial xtol s).1) (brentTrial xtol s).2 with hs'
      cases ht' : brentTest xtol ftol iter s' with
      | some r => left; exact ⟨r, rfl⟩
      | none =>
        right
        have hp := brent_pass xtol s (f (brentTrial xtol s).1) hh.inv.sign (hf.trans_lt htest.1) hh.inv.best
        refine ⟨?_, s', ⟨?_, ?_, fun _ => ?_⟩, rfl, hp.1, hp.2.1, hp.2.2⟩
        · rw [abs_sub_comm]
          refine lt_of_le_of_lt ?_ htest.2
          nlinarith [abs_nonneg s.b]
        · exact brentUpdate_inv f lo hi xtol s hh.inv _
        · rw [show s'.c = s.b from hp.1]; exact hh.inv.b_mem
        · rw [show s'.prevStep = s.c from hp.2.1]; exact hh.c_mem
  have loop : ∀ (L : ℕ) (fuel iter : ℕ) (s : BrentState ℝ), BrentHistory f lo hi s →
      |s.a - s.b| * (3 / 4) ^ L ≤ xtol → 1 + L * (2 * M + 3) ≤ fuel →
      ∃ r, brentLoop f xtol ftol fuel iter s = .ok r := by
    intro L
    induction L with
    | zero =>
      intro fuel iter s hh hw hfuel
      obtain ⟨fuel, rfl⟩ : ∃ k, fuel = k + 1 := ⟨fuel - 1, by omega⟩
      rcases pass fuel iter s hh with h | ⟨h, -⟩
      · exact h
      · simp at hw; linarith
    | succ L ihL =>
      have shrink : ∀ s s' : BrentState ℝ, |s.a - s.b| * (3 / 4) ^ (L + 1) ≤ xtol →
          |s'.a - s'.b| ≤ 3 / 4 * |s.a - s.b| → |s'.a - s'.b| * (3 / 4) ^ L ≤ xtol := by
        intro s s' h1 h2
        refine le_trans ?_ h1
        calc |s'.a - s'.b| * (3 / 4) ^ L ≤ 3 / 4 * |s.a - s.b| * (3 / 4) ^ L := by gcongr
          _ = _ := by ring
      have keep : ∀ s s' : BrentState ℝ, |s.a - s.b| * (3 / 4) ^ (L + 1) ≤ xtol →
          |s'.a - s'.b| ≤ |s.a - s.b| → |s'.a - s'.b| * (3 / 4) ^ (L + 1) ≤ xtol := by
        intro s s' h1 h2
        refine le_trans ?_ h1
        gcongr
      -- right after a swap
      have swapped : ∀ (fuel iter : ℕ) (s : BrentState ℝ), BrentHistory f lo hi s → AfterSwap s →
          |s.a - s.b| * (3 / 4) ^ (L + 1) ≤ xtol → 1 + L * (2 * M + 3) + 1 ≤ fuel →
          ∃ r, brentLoop f xtol ftol fuel iter s = .ok r := by
        intro fuel iter s hh hsw hw hfuel
        obtain ⟨fuel, rfl⟩ : ∃ k, fuel = k + 1 := ⟨fuel - 1, by omega⟩
        rcases pass fuel iter s hh with h | ⟨-, s', hh', he, -, -, h | h⟩
        · exact h
        · rw [he]; exact ihL fuel _ s' hh' (shrink s s' hw h) (by omega)
        · exact absurd hsw h.2.1
      -- a run of short steps
      have run : ∀ (k : ℕ) (fuel iter : ℕ) (s : BrentState ℝ) (p q : ℕ), BrentHistory f lo hi s → s.mflag = false →
          |s.b - s.c| < 2 ^ p * xtol → |s.c - s.prevStep| < 2 ^ q * xtol → p + q ≤ k →
          |s.a - s.b| * (3 / 4) ^ (L + 1) ≤ xtol → 1 + L * (2 * M + 3) + k + 2 ≤ fuel →
          ∃ r, brentLoop f xtol ftol fuel iter s = .ok r := by
        intro k
        induction k with
        | zero =>
          intro fuel iter s p q hh hmf hu hv hpq hw hfuel
          obtain ⟨fuel, rfl⟩ : ∃ k, fuel = k + 1 := ⟨fuel - 1, by omega⟩
          rcases pass fuel iter s hh with h | ⟨-, s', hh', he, -, -, h | ⟨-, -, h1, h | h⟩⟩
          · exact h
          · rw [he]; exact ihL fuel _ s' hh' (shrink s s' hw h) (by omega)
          · rw [he]; exact swapped fuel _ s' hh' h (keep s s' hw h1) (by omega)
          · exfalso
            have := (h hmf).2
            obtain rfl : q = 0 := by omega
            nlinarith [abs_nonneg s.b, mul_nonneg hx.le (abs_nonneg s.b)]
        | succ k ihk =>
          intro fuel iter s p q hh hmf hu hv hpq hw hfuel
          obtain ⟨fuel, rfl⟩ : ∃ k, fuel = k + 1 := ⟨fuel - 1, by omega⟩
          rcases pass fuel iter s hh with h | ⟨-, s', hh', he, hc, hd, h | ⟨h0, -, h1, h | h⟩⟩
          · exact h
          · rw [he]; exact ihL fuel _ s' hh' (shrink s s' hw h) (by omega)
          · rw [he]; exact swapped fuel _ s' hh' h (keep s s' hw h1) (by omega)
          · obtain ⟨j1, j2⟩ := h hmf
            cases q with
            | zero =>
              exfalso
              nlinarith [abs_nonneg s.b, mul_nonneg hx.le (abs_nonneg s.b)]
            | succ q =>
              rw [he]
              refine ihk fuel _ s' q p hh' h0 ?_ ?_ (by omega) (keep s s' hw h1) (by omega)
              · rw [pow_succ] at hv; linarith
              · rw [hc, hd]; exact hu
      intro fuel iter s hh hw hfuel
      have hfuel' : 1 + L * (2 * M + 3) + (2 * M + 3) ≤ fuel := by
        rw [Nat.succ_mul] at hfuel; omega
      have start : ∀ (fuel iter : ℕ) (s : BrentState ℝ), BrentHistory f lo hi s → s.mflag = false →
          |s.a - s.b| * (3 / 4) ^ (L + 1) ≤ xtol → 1 + L * (2 * M + 3) + (M + M) + 2 ≤ fuel →
          ∃ r, brentLoop f xtol ftol fuel iter s = .ok r := fun fuel iter s hh hmf hw hfuel =>
        run (M + M) fuel iter s M M hh hmf (hwid _ _ hh.inv.b_mem hh.c_mem) (hwid _ _ hh.c_mem (hh.d_mem hmf)) le_rfl hw hfuel
      obtain ⟨fuel, rfl⟩ : ∃ k, fuel = k + 1 := ⟨fuel - 1, by omega⟩
      rcases pass fuel iter s hh with h | ⟨-, s', hh', he, -, -, h | ⟨h0, -, h1, -⟩⟩
      · exact h
      · rw [he]; exact ihL fuel _ s' hh' (shrink s s' hw h) (by omega)
      · rw [he]; exact start fuel _ s' hh' h0 (keep s s' hw h1) (by omega)
  unfold brentSolve
  simp only [Fns.isFinite, Bool.not_true, Bool.or_self, Bool.false_eq_true, if_false]
  split
  · exact ⟨_, rfl⟩
  next ha =>
    split
    · exact ⟨_, rfl⟩
    next hb =>
      have ha' : f a ≠ 0 := by simpa using ha
      have hb' : f b ≠ 0 := by simpa using hb
      have hsign : sameSign (f a) (f b) = false := by
        have hlt : f a * f b < 0 := lt_of_le_of_ne hs (mul_ne_zero ha' hb')
        simp only [sameSign]
        rcases mul_neg_iff.1 hlt with ⟨h1, h2⟩ | ⟨h1, h2⟩
        · simp [h1.le, not_le.2 h2]
        · simp [h2.le, not_le.2 h1]
      rw [if_neg (by rw [hsign]; decide)]
      have ham : lo ≤ a ∧ a ≤ hi := ⟨min_le_left _ _, le_max_left _ _⟩
      have hbm : lo ≤ b ∧ b ≤ hi := ⟨min_le_right _ _, le_max_right _ _⟩
      have hinv := brentSwap_inv f lo hi ⟨a, f a, b, f b, a, f a, b - a, true⟩ rfl rfl hsign ham hbm
      have hmf : (brentSwap ⟨a, f a, b, f b, a, f a, b - a, true⟩ : BrentState ℝ).mflag = true := by
        unfold brentSwap; split <;> rfl
      have hab : |(brentSwap ⟨a, f a, b, f b, a, f a, b - a, true⟩ : BrentState ℝ).a -
          (brentSwap ⟨a, f a, b, f b, a, f a, b - a, true⟩ : BrentState ℝ).b| = |a - b| := by
        unfold brentSwap
        split
        · exact abs_sub_comm _ _
        · rfl
      generalize (brentSwap ⟨a, f a, b, f b, a, f a, b - a, true⟩ : BrentState ℝ) = s at *
      refine loop L n 1 _ ⟨⟨hinv.fa, hinv.fb, hinv.sign, hinv.a_mem, hinv.b_mem, hinv.best⟩, hinv.a_mem, ?_⟩ ?_ hn
      · intro h
        simp only [hmf] at h
        cases h
      · simp only [hab]; exact hL

example : |(0 : ℝ) - 1| * (3 / 4) ^ 3 ≤ 1 / 2 ∧ |(0 : ℝ) - 1| < 2 ^ 2 * (1 / 2) := by norm_num

end Multicalc
