import Verif.Lemmas.Signal

/-!
# Properties C24, C25, C27–C29: windows, conditioning, one-pole filter
-/

namespace Multicalc
variable {T : Type}

/-! ## Windows (C24, C25) -/

/-- Specification: the last `W` samples of a history, where the time before the first sample counts
as the first sample. -/
def paddedWindow (W : ℕ) : List T → List T
  | [] => []
  | x :: rest => (List.replicate W x ++ rest).drop rest.length

theorem paddedWindow_snoc (W : ℕ) (hW : 0 < W) (xs : List T) (hxs : xs ≠ []) (y : T) :
    paddedWindow W (xs ++ [y]) = (paddedWindow W xs).tail ++ [y] := by
  match xs, hxs with
  | x :: rest, _ =>
    simp only [paddedWindow, List.cons_append, List.length_append, List.length_singleton,
      List.tail_drop]
    rw [← List.append_assoc, List.drop_append_of_le_length (by simp; omega)]

/-- A ring holds the padded window, from its read position on. -/
theorem ring_spec [Zero T] (W : ℕ) (hW : 0 < W) (xs : List T) (hxs : xs ≠ []) :
    let r := xs.foldl (Ring.push W) (Ring.empty W)
    r.initialized = true ∧ r.samples.length = W ∧ r.next < W ∧
      r.samples.rotate r.next = paddedWindow W xs := by
  induction xs using List.reverseRecOn with
  | nil => exact absurd rfl hxs
  | append_singleton xs y ih =>
    rcases List.eq_nil_or_concat' xs with rfl | ⟨zs, z, rfl⟩
    · simp [Ring.push, Ring.empty, paddedWindow, hW]
    · obtain ⟨h1, h2, h3, h4⟩ := ih (by simp)
      rw [List.foldl_append, List.foldl_cons, List.foldl_nil]
      generalize (zs ++ [z]).foldl (Ring.push W) (Ring.empty W) = r at h1 h2 h3 h4 ⊢
      simp only [Ring.push, h1, if_true]
      refine ⟨trivial, by simp [h2], Nat.mod_lt _ hW, ?_⟩
      rw [paddedWindow_snoc W hW _ (by simp), ← h4]
      exact set_rotate _ _ _ _ h2 h3

theorem ring_perm [Zero T] (W : ℕ) (hW : 0 < W) (xs : List T) (hxs : xs ≠ []) :
    (xs.foldl (Ring.push W) (Ring.empty W)).samples.Perm (paddedWindow W xs) ∧
    (xs.foldl (Ring.push W) (Ring.empty W)).samples.length = W := by
  obtain ⟨_, h2, _, h4⟩ := ring_spec W hW xs hxs
  exact ⟨h4 ▸ (List.rotate_perm _ _).symm, h2⟩

theorem getD_of_lt (l : List T) (d : T) {k : ℕ} (h : k < l.length) : l.getD k d = l[k] := by
  rw [List.getD_eq_getElem?_getD, List.getElem?_eq_getElem h, Option.getD_some]

theorem foldl_add_eq_sum {M : Type} [AddMonoid M] (l : List M) (a : M) :
    l.foldl (fun t x => t + x) a = a + l.sum := by
  induction l generalizing a with
  | nil => simp
  | cons x l ih => rw [List.foldl_cons, ih, List.sum_cons, add_assoc]

/-- C24. After any history ending in `y`, from a fresh or reset filter, the moving average returns
the mean of the last `W` samples (padded before the first). -/
theorem movingAverage_mean {K : Type} [Field K] (W : ℕ) (f : Ring K)
    (hf : movingAverageNew W = .ok f) (xs : List K) (y : K) :
    let f' := (runFilter (movingAverageFilter W) f xs).2
    (movingAverageFilter W f' y).1 = (paddedWindow W (xs ++ [y])).sum / W := by
  have hW : 0 < W := by
    unfold movingAverageNew at hf; split at hf
    · simp at hf
    · omega
  have hf' : f = Ring.empty W := by
    unfold movingAverageNew at hf; split at hf
    · simp at hf
    · simpa using hf.symm
  have e : ∀ (f : Ring K) (xs : List K),
      (runFilter (movingAverageFilter W) f xs).2 = xs.foldl (Ring.push W) f := by
    intro f xs; rw [runFilter_snd]; rfl
  simp only [e, movingAverageFilter, movingAverageValue, foldl_add_eq_sum, zero_add, hf']
  have := (ring_perm W hW (xs ++ [y]) (by simp)).1
  rw [List.foldl_append] at this
  simp only [List.foldl_cons, List.foldl_nil] at this
  rw [this.sum_eq]

/-- C24. A window of zero is refused, every other window is accepted. -/
theorem movingAverageNew_ok_iff [Zero T] (W : ℕ) :
    (∃ f : Ring T, movingAverageNew W = .ok f) ↔ 0 < W := by
  unfold movingAverageNew
  split
  · simp; omega
  · simp; omega

example : (∃ f : Ring ℚ, movingAverageNew 3 = .ok f) ∧
    paddedWindow 3 [1, 2, 3, 4, (5 : ℚ)] = [3, 4, 5] ∧ paddedWindow 3 [1, (2 : ℚ)] = [1, 1, 2] := by
  refine ⟨(movingAverageNew_ok_iff 3).mpr (by norm_num), by rfl, by rfl⟩

/-- C24. A constant input is returned unchanged from the first sample on. -/
theorem movingAverage_const {K : Type} [Field K] [CharZero K] (W : ℕ) (f : Ring K)
    (hf : movingAverageNew W = .ok f) (n : ℕ) (c : K) :
    let f' := (runFilter (movingAverageFilter W) f (List.replicate n c)).2
    (movingAverageFilter W f' c).1 = c := by
  have hW : 0 < W := (movingAverageNew_ok_iff W).mp ⟨f, hf⟩
  have h := movingAverage_mean W f hf (List.replicate n c) c
  simp only at h ⊢
  rw [h, ← List.replicate_succ']
  simp only [List.replicate_succ, paddedWindow, List.length_replicate]
  rw [List.replicate_append_replicate, List.drop_replicate, List.sum_replicate]
  have : (W : K) ≠ 0 := by exact_mod_cast hW.ne'
  simp only [Nat.add_sub_cancel, nsmul_eq_mul]
  field_simp

/-- C25. Whatever the comparison does (NaN included), the running median returns one of the samples
in the padded window. -/
theorem runningMedian_mem [Zero T] [LT T] [DecidableLT T] (W : ℕ) (f : Ring T)
    (hf : runningMedianNew W = .ok f) (xs : List T) (y : T) :
    let f' := (runFilter (runningMedianFilter W) f xs).2
    (runningMedianFilter W f' y).1 ∈ paddedWindow W (xs ++ [y]) := by
  obtain ⟨hW, hf'⟩ : 0 < W ∧ f = Ring.empty W := by
    unfold runningMedianNew at hf; split at hf
    · simp at hf
    · split at hf
      · simp at hf
      · exact ⟨by omega, by simpa using hf.symm⟩
  have e : ∀ (f : Ring T) (xs : List T),
      (runFilter (runningMedianFilter W) f xs).2 = xs.foldl (Ring.push W) f := by
    intro f xs; rw [runFilter_snd]; rfl
  simp only [e, runningMedianFilter, runningMedianValue, hf']
  obtain ⟨hp, hl⟩ := ring_perm W hW (xs ++ [y]) (by simp)
  rw [List.foldl_append] at hp hl
  simp only [List.foldl_cons, List.foldl_nil] at hp hl
  set r := Ring.push W (xs.foldl (Ring.push W) (Ring.empty W)) y
  have hs := windowSort_perm r.samples
  rw [hl] at hs
  have hlen : (windowSort W r.samples).length = W := by rw [hs.length_eq, hl]
  rw [getD_of_lt _ _ (by rw [hlen]; omega)]
  exact hp.mem_iff.mp (hs.mem_iff.mp (List.getElem_mem _))

/-- C25. With ordered samples the result is a median of the window: fewer than half of the samples
are below it and fewer than half above. -/
theorem runningMedian_median [Zero T] [LinearOrder T] (W : ℕ) (f : Ring T)
    (hf : runningMedianNew W = .ok f) (xs : List T) (y : T) :
    let f' := (runFilter (runningMedianFilter W) f xs).2
    let m := (runningMedianFilter W f' y).1
    let w := paddedWindow W (xs ++ [y])
    2 * w.countP (fun x => decide (x < m)) < W ∧ 2 * w.countP (fun x => decide (m < x)) < W := by
  obtain ⟨hW, hodd, hf'⟩ : 0 < W ∧ W % 2 = 1 ∧ f = Ring.empty W := by
    unfold runningMedianNew at hf; split at hf
    · simp at hf
    · split at hf
      · simp at hf
      · exact ⟨by omega, by omega, by simpa using hf.symm⟩
  have e : ∀ (f : Ring T) (xs : List T),
      (runFilter (runningMedianFilter W) f xs).2 = xs.foldl (Ring.push W) f := by
    intro f xs; rw [runFilter_snd]; rfl
  simp only [e, runningMedianFilter, runningMedianValue, hf']
  obtain ⟨hp, hl⟩ := ring_perm W hW (xs ++ [y]) (by simp)
  rw [List.foldl_append] at hp hl
  simp only [List.foldl_cons, List.foldl_nil] at hp hl
  set r := Ring.push W (xs.foldl (Ring.push W) (Ring.empty W)) y
  have hs := windowSort_perm r.samples
  have hsort := windowSort_sorted r.samples
  rw [hl] at hs hsort
  have hlen : (windowSort W r.samples).length = W := by rw [hs.length_eq, hl]
  rw [getD_of_lt _ _ (by rw [hlen]; omega)]
  have hc := countP_lt_sorted _ hsort (W / 2) (by rw [hlen]; omega)
  have hpp := hs.trans hp
  rw [← hpp.countP_eq, ← hpp.countP_eq]
  omega

/-- C25. Spike rejection: if more than half of the window lies in `[a, b]`, so does the output. -/
theorem runningMedian_rejects_spikes [Zero T] [LinearOrder T] (W : ℕ) (f : Ring T)
    (hf : runningMedianNew W = .ok f) (xs : List T) (y a b : T)
    (hmaj : W < 2 * (paddedWindow W (xs ++ [y])).countP (fun x => decide (a ≤ x ∧ x ≤ b))) :
    let f' := (runFilter (runningMedianFilter W) f xs).2
    a ≤ (runningMedianFilter W f' y).1 ∧ (runningMedianFilter W f' y).1 ≤ b := by
  have h := runningMedian_median W f hf xs y
  simp only at h ⊢
  set m := (runningMedianFilter W (runFilter (runningMedianFilter W) f xs).2 y).1
  constructor
  · by_contra hc
    have hlt := not_le.mp hc
    have : (paddedWindow W (xs ++ [y])).countP (fun x => decide (a ≤ x ∧ x ≤ b)) ≤
        (paddedWindow W (xs ++ [y])).countP (fun x => decide (m < x)) := by
      apply List.countP_mono_left
      intro x _ hx
      simp only [decide_eq_true_eq] at hx ⊢
      exact lt_of_lt_of_le hlt hx.1
    omega
  · by_contra hc
    have hlt := not_le.mp hc
    have : (paddedWindow W (xs ++ [y])).countP (fun x => decide (a ≤ x ∧ x ≤ b)) ≤
        (paddedWindow W (xs ++ [y])).countP (fun x => decide (x < m)) := by
      apply List.countP_mono_left
      intro x _ hx
      simp only [decide_eq_true_eq] at hx ⊢
      exact lt_of_le_of_lt hx.2 hlt
    omega

/-- A window of three with one spike. -/
example : (∃ f : Ring ℤ, runningMedianNew 3 = .ok f) ∧
    3 < 2 * (paddedWindow 3 [1, 900, (2 : ℤ)]).countP (fun x => decide (0 ≤ x ∧ x ≤ 5)) := by
  refine ⟨⟨_, rfl⟩, by decide⟩

/-! ## Slew-rate limiter (C27) -/

/-- C27. In an ordered field: after the first sample, one step moves by at most the rate times the
time step in each direction, and a target within reach is hit exactly. -/
theorem slew_step {K : Type} [Field K] [LinearOrder K] [IsStrictOrderedRing K]
    (s : SlewRateLimiter K) (hr : 0 < s.risePerSecond) (hfall : 0 < s.fallPerSecond)
    (hdt : 0 < s.timestep) (hi : s.initialized = true) (target : K) :
    (s.filter target).1 - s.state ≤ s.risePerSecond * s.timestep ∧
    s.state - (s.filter target).1 ≤ s.fallPerSecond * s.timestep ∧
    (target - s.state ≤ s.risePerSecond * s.timestep →
      s.state - target ≤ s.fallPerSecond * s.timestep → (s.filter target).1 = target) ∧
    (s.filter target).2.state = (s.filter target).1 := by
  have h1 : 0 < s.risePerSecond * s.timestep := by positivity
  have h2 : 0 < s.fallPerSecond * s.timestep := by positivity
  simp only [SlewRateLimiter.filter, hi, Bool.not_true, Bool.false_eq_true, if_false]
  refine ⟨?_, ?_, ?_, trivial⟩
  · split
    · linarith
    · split <;> linarith
  · split
    · linarith
    · split <;> linarith
  · intro ha hb
    rw [if_neg (by linarith), if_neg (by linarith)]; ring

/-- C27. The first sample is passed through, so the output starts at the input. -/
theorem slew_first [Add T] [Sub T] [Mul T] [Neg T] [LT T] [DecidableLT T]
    (s : SlewRateLimiter T) (hi : s.initialized = false) (target : T) :
    (s.filter target).1 = target ∧ (s.filter target).2.state = target ∧
      (s.filter target).2.initialized = true := by
  simp [SlewRateLimiter.filter, hi]

/-- C27. Every output lies between the previous output and the target: no overshoot. -/
theorem slew_between {K : Type} [Field K] [LinearOrder K] [IsStrictOrderedRing K]
    (s : SlewRateLimiter K) (hr : 0 < s.risePerSecond) (hfall : 0 < s.fallPerSecond)
    (hdt : 0 < s.timestep) (hi : s.initialized = true) (target : K) :
    min s.state target ≤ (s.filter target).1 ∧ (s.filter target).1 ≤ max s.state target := by
  have h1 : 0 < s.risePerSecond * s.timestep := by positivity
  have h2 : 0 < s.fallPerSecond * s.timestep := by positivity
  simp only [SlewRateLimiter.filter, hi, Bool.not_true, Bool.false_eq_true, if_false]
  rw [min_le_iff, le_max_iff]
  split
  · constructor
    · left; linarith
    · right; linarith
  · split
    · constructor
      · right; linarith
      · left; linarith
    · constructor
      · right; linarith
      · right; linarith

/-- Pushing the same target `n` times. -/
def SlewRateLimiter.hold {K : Type} [Field K] [LinearOrder K] (s : SlewRateLimiter K) (target : K) :
    ℕ → SlewRateLimiter K
  | 0 => s
  | n + 1 => ((s.hold target n).filter target).2

/-- C27. Holding the input, the output reaches it once `n` steps of the slower rate cover the
distance, and stays there. -/
theorem slew_converges {K : Type} [Field K] [LinearOrder K] [IsStrictOrderedRing K]
    (s : SlewRateLimiter K) (hr : 0 < s.risePerSecond) (hfall : 0 < s.fallPerSecond)
    (hdt : 0 < s.timestep) (hi : s.initialized = true) (target : K) (n : ℕ)
    (hn : |target - s.state| ≤ n * (min s.risePerSecond s.fallPerSecond * s.timestep)) :
    (s.hold target n).state = target := by
  set q := min s.risePerSecond s.fallPerSecond * s.timestep with hq
  have hqp : 0 < q := by have := lt_min hr hfall; positivity
  have hq1 : q ≤ s.risePerSecond * s.timestep := by
    rw [hq]; have := min_le_left s.risePerSecond s.fallPerSecond; gcongr
  have hq2 : q ≤ s.fallPerSecond * s.timestep := by
    rw [hq]; have := min_le_right s.risePerSecond s.fallPerSecond; gcongr
  have key : ∀ n : ℕ, (s.hold target n).risePerSecond = s.risePerSecond ∧
      (s.hold target n).fallPerSecond = s.fallPerSecond ∧
      (s.hold target n).timestep = s.timestep ∧ (s.hold target n).initialized = true ∧
      (target = (s.hold target n).state ∨
        |target - (s.hold target n).state| ≤ |target - s.state| - n * q) := by
    intro n
    induction n with
    | zero => exact ⟨rfl, rfl, rfl, hi, by right; simp [SlewRateLimiter.hold]⟩
    | succ n ih =>
      obtain ⟨i1, i2, i3, i4, i5⟩ := ih
      simp only [SlewRateLimiter.hold]
      set t := s.hold target n
      have hf : t.filter target = (_, _) := rfl
      simp only [SlewRateLimiter.filter, i4, Bool.not_true, Bool.false_eq_true, if_false, i1, i2,
        i3]
      refine ⟨trivial, trivial, trivial, trivial, ?_⟩
      push_cast
      split
      · next h =>
        rcases i5 with i5 | i5
        · exfalso; rw [i5] at h; simp only [sub_self] at h; nlinarith
        · right
          rw [abs_of_pos (by linarith)] at i5
          rw [abs_of_pos (by linarith)]; linarith
      · split
        · next h =>
          rcases i5 with i5 | i5
          · exfalso; rw [i5] at h; simp only [sub_self] at h; nlinarith
          · right
            rw [abs_of_neg (by nlinarith)] at i5
            rw [abs_of_neg (by linarith)]; linarith
        · left; ring
  obtain ⟨_, _, _, _, h⟩ := key n
  rcases h with h | h
  · exact h.symm
  · have : |target - (s.hold target n).state| ≤ 0 := by linarith
    have := abs_nonpos_iff.mp this
    linarith

/-- C27. The constructor accepts exactly positive rates and a positive time step. -/
theorem slewNew_ok_iff (rise fall dt : ℝ) :
    (∃ s, SlewRateLimiter.new rise fall dt = .ok s) ↔ 0 < rise ∧ 0 < fall ∧ 0 < dt := by
  unfold SlewRateLimiter.new
  simp only [Fns.isFinite, Bool.not_true, Bool.or_self, Bool.false_eq_true, if_false]
  split
  · constructor
    · rintro ⟨s, h⟩; simp at h
    · intro h; linarith
  · split
    · constructor
      · rintro ⟨s, h⟩; simp at h
      · rintro ⟨a, b, c⟩
        rename_i h1 h2
        rcases h2 with h2 | h2 <;> linarith
    · next h1 h2 =>
      constructor
      · intro _
        push Not at h1 h2
        exact ⟨h2.1, h2.2, h1⟩
      · intro _; exact ⟨_, rfl⟩

example : (0 : ℚ) < (⟨2, 1, 1, 0, true⟩ : SlewRateLimiter ℚ).risePerSecond ∧
    |(5 : ℚ) - 0| ≤ (5 : ℕ) * (min (2 : ℚ) 1 * 1) := by norm_num

/-! ## Deadband and hysteresis (C28) -/

/-- C28. Deadband: the output is zero exactly on the band (for the plain form when the threshold is
not negative, and also for the recentred form). -/
theorem deadband_zero_iff (d : Deadband ℝ) (hd : 0 ≤ d.threshold) (x : ℝ) :
    d.apply x = 0 ↔ |x| ≤ d.threshold := by
  unfold Deadband.apply
  simp only [Fns.abs, Fns.copysign]
  by_cases h : |x| ≤ d.threshold
  · simp [h]
  · simp only [h, if_false, iff_false]
    push Not at h
    by_cases hr : d.recentered = true
    · simp only [hr, if_true]
      split
      · next hx => rw [abs_of_nonneg hd]; rw [abs_of_neg hx] at h; intro hc; linarith
      · next hx => rw [abs_of_nonneg hd]; rw [abs_of_nonneg (not_lt.mp hx)] at h; intro hc; linarith
    · simp only [hr, Bool.false_eq_true, if_false]
      intro hc; rw [hc] at h; simp at h; linarith

/-- C28. The recentred deadband is the map that shrinks every value towards zero by the threshold:
odd, non-decreasing and moving by no more than its input does (so it has no jump). -/
theorem deadband_recentered (t : ℝ) (ht : 0 ≤ t) :
    (∀ x, (⟨t, true⟩ : Deadband ℝ).apply x = max (x - t) 0 + min (x + t) 0) ∧
    (∀ x, (⟨t, true⟩ : Deadband ℝ).apply (-x) = -(⟨t, true⟩ : Deadband ℝ).apply x) ∧
    (∀ x y, x ≤ y → (⟨t, true⟩ : Deadband ℝ).apply x ≤ (⟨t, true⟩ : Deadband ℝ).apply y ∧
      (⟨t, true⟩ : Deadband ℝ).apply y - (⟨t, true⟩ : Deadband ℝ).apply x ≤ y - x) := by
  have key : ∀ x, (⟨t, true⟩ : Deadband ℝ).apply x = max (x - t) 0 + min (x + t) 0 := by
    intro x
    unfold Deadband.apply
    simp only [Fns.abs, Fns.copysign, if_true]
    rw [abs_of_nonneg ht]
    split
    · next h =>
      obtain ⟨h1, h2⟩ := abs_le.mp h
      rw [max_eq_right (by linarith), min_eq_right (by linarith)]; ring
    · next h =>
      push Not at h
      split
      · next hx =>
        rw [abs_of_neg hx] at h
        rw [max_eq_right (by linarith), min_eq_left (by linarith)]; ring
      · next hx =>
        rw [abs_of_nonneg (not_lt.mp hx)] at h
        rw [max_eq_left (by linarith), min_eq_right (by linarith)]; ring
  refine ⟨key, ?_, ?_⟩
  · intro x
    rw [key, key]
    rcases le_total (x - t) 0 with h1 | h1 <;> rcases le_total (x + t) 0 with h2 | h2 <;>
    rcases le_total (-x - t) 0 with h3 | h3 <;> rcases le_total (-x + t) 0 with h4 | h4 <;>
    simp only [max_eq_left, max_eq_right, min_eq_left, min_eq_right, h1, h2, h3, h4] <;> linarith
  · intro x y hxy
    rw [key, key]
    rcases le_total (x - t) 0 with h1 | h1 <;> rcases le_total (x + t) 0 with h2 | h2 <;>
    rcases le_total (y - t) 0 with h3 | h3 <;> rcases le_total (y + t) 0 with h4 | h4 <;>
    simp only [max_eq_left, max_eq_right, min_eq_left, min_eq_right, h1, h2, h3, h4] <;>
    constructor <;> linarith

/-- C28. The plain deadband passes everything outside the band unchanged. -/
theorem deadband_plain (t x : ℝ) (h : t < |x|) : (⟨t, false⟩ : Deadband ℝ).apply x = x := by
  unfold Deadband.apply
  simp only [Fns.abs]
  rw [if_neg (by linarith)]
  simp

/-- Specification of hysteresis on a history, newest sample first: the most recent sample outside
the band decides. -/
def hysteresisSpec [LT T] [DecidableLT T] (lower upper : T) (start : Bool) : List T → Bool
  | [] => start
  | x :: older =>
    if upper < x then true else if x < lower then false
    else hysteresisSpec lower upper start older

/-- C28. For every history and any comparison (NaN samples change nothing), the output is decided by
the most recent sample strictly outside the band. -/
theorem hysteresis_history [LT T] [DecidableLT T] (h : Hysteresis T) (xs : List T) :
    (runFilter Hysteresis.update h xs).2 =
      { h with isHigh := hysteresisSpec h.lower h.upper h.isHigh xs.reverse } := by
  induction xs using List.reverseRecOn with
  | nil => rfl
  | append_singleton xs y ih =>
    rw [runFilter_append]
    simp only [runFilter, ih, List.reverse_append, List.reverse_cons, List.reverse_nil,
      List.nil_append, List.cons_append, hysteresisSpec, Hysteresis.update]
    split
    · rfl
    · split <;> rfl

/-- C28. Samples that stay between the thresholds never change the output. -/
theorem hysteresis_inside [LT T] [DecidableLT T] (h : Hysteresis T) (xs : List T)
    (hx : ∀ x ∈ xs, ¬ h.upper < x ∧ ¬ x < h.lower) :
    (runFilter Hysteresis.update h xs).2 = h ∧
    ∀ o ∈ (runFilter Hysteresis.update h xs).1, o = h.isHigh := by
  induction xs with
  | nil => simp [runFilter]
  | cons x xs ih =>
    have hx1 := hx x (by simp)
    have hstep : Hysteresis.update h x = (h.isHigh, h) := by
      simp [Hysteresis.update, hx1.1, hx1.2]
    have := ih (fun y hy => hx y (by simp [hy]))
    simp only [runFilter, hstep]
    exact ⟨this.1, by intro o ho; rcases List.mem_cons.mp ho with rfl | ho; rfl; exact this.2 o ho⟩

example : ∀ x ∈ [(2 : ℝ), 3, 2.5], ¬ (4 : ℝ) < x ∧ ¬ x < 1 := by
  intro x hx; simp at hx; rcases hx with rfl | rfl | rfl <;> norm_num

/-! ## One-pole low-pass (C29) -/

/-- C29. Bounded by the input: if every input lies in `[lo, hi]`, so does every output. -/
theorem onePole_bounded {K : Type} [Field K] [LinearOrder K] [IsStrictOrderedRing K]
    (f : OnePole K) (h0 : 0 ≤ f.smoothing) (h1 : f.smoothing ≤ 1) (lo hi : K) (xs : List K)
    (hx : ∀ x ∈ xs, lo ≤ x ∧ x ≤ hi)
    (hs : f.initialized = true → lo ≤ f.state ∧ f.state ≤ hi) :
    ∀ y ∈ (runFilter OnePole.filter f xs).1, lo ≤ y ∧ y ≤ hi := by
  induction xs generalizing f with
  | nil => simp [runFilter]
  | cons x xs ih =>
    have hx1 := hx x (by simp)
    intro y hy
    simp only [runFilter] at hy
    have hstep : lo ≤ (f.filter x).1 ∧ (f.filter x).1 ≤ hi := by
      simp only [OnePole.filter]
      split
      · next hi' =>
        obtain ⟨a, b⟩ := hs hi'
        simp only
        constructor
        · nlinarith [mul_le_mul_of_nonneg_left hx1.1 h0,
            mul_le_mul_of_nonneg_left a (sub_nonneg.mpr h1)]
        · nlinarith [mul_le_mul_of_nonneg_left hx1.2 h0,
            mul_le_mul_of_nonneg_left b (sub_nonneg.mpr h1)]
      · exact hx1
    rcases List.mem_cons.mp hy with rfl | hy
    · exact hstep
    · have hst : (f.filter x).2.state = (f.filter x).1 := rfl
      have hsm : (f.filter x).2.smoothing = f.smoothing := by
        simp only [OnePole.filter]; split <;> rfl
      exact ih (f.filter x).2 (by rw [hsm]; exact h0) (by rw [hsm]; exact h1)
        (fun z hz => hx z (by simp [hz])) (fun _ => by rw [hst]; exact hstep) y hy

/-- C29. Step response: `n` repeats of the input `c` leave exactly `(1-α)^n` of the initial
difference.  With `n` arbitrary and `c` equal to the state this is also the unit DC gain. -/
theorem onePole_step_response {K : Type} [Field K] (f : OnePole K) (hi : f.initialized = true)
    (c : K) (n : ℕ) :
    (runFilter OnePole.filter f (List.replicate n c)).2.state =
      c + (1 - f.smoothing) ^ n * (f.state - c) := by
  have : (runFilter OnePole.filter f (List.replicate n c)).2 =
      ⟨f.smoothing, c + (1 - f.smoothing) ^ n * (f.state - c), true⟩ := by
    induction n with
    | zero =>
      rcases f with ⟨a, b, i⟩
      simp only at hi; subst hi
      simp [runFilter]
    | succ n ih =>
      rw [List.replicate_succ', runFilter_append]
      simp only [runFilter, ih, OnePole.filter, if_true]
      congr 1
      ring
  rw [this]

/-- C29. With a positive coefficient the step response converges to the input. -/
theorem onePole_converges (f : OnePole ℝ) (hi : f.initialized = true) (h0 : 0 < f.smoothing)
    (h1 : f.smoothing ≤ 1) (c : ℝ) :
    Filter.Tendsto (fun n => (runFilter OnePole.filter f (List.replicate n c)).2.state)
      Filter.atTop (nhds c) := by
  simp only [onePole_step_response f hi]
  have := (tendsto_pow_atTop_nhds_zero_of_lt_one (show 0 ≤ 1 - f.smoothing by linarith)
    (by linarith)).mul_const (f.state - c)
  simpa using this.const_add c

/-- C29. The coefficient built from a cutoff frequency is always accepted and in `[0, 1)`, for every
accepted cutoff and time step. -/
theorem onePole_fromCutoff (cutoff dt : ℝ) :
    (∃ f, OnePole.fromCutoff cutoff dt = .ok f) ↔ 0 < dt ∧ 0 ≤ cutoff := by
  unfold OnePole.fromCutoff OnePole.new
  simp only [Fns.isFinite, Fns.pi, Bool.not_true, Bool.or_self, Bool.false_eq_true, if_false]
  by_cases hdt : dt ≤ 0
  · simp only [hdt, if_true]; constructor
    · rintro ⟨s, h⟩; simp at h
    · intro h; linarith
  · simp only [hdt, if_false]
    by_cases hc : cutoff < 0
    · simp only [hc, if_true]; constructor
      · rintro ⟨s, h⟩; simp at h
      · intro h; linarith
    · simp only [hc, if_false]
      push Not at hdt hc
      have ha : 0 ≤ 2 * Real.pi * cutoff * dt := by have := Real.pi_pos; positivity
      set a := 2 * Real.pi * cutoff * dt
      rw [if_neg]
      · exact ⟨fun _ => ⟨hdt, hc⟩, fun _ => ⟨_, rfl⟩⟩
      · push Not
        constructor
        · positivity
        · rw [div_le_one (by positivity)]; linarith

/-- C29. The coefficient `from_cutoff` stores lies in `[0, 1)`. -/
theorem onePole_fromCutoff_range (cutoff dt : ℝ) (f : OnePole ℝ)
    (h : OnePole.fromCutoff cutoff dt = .ok f) : 0 ≤ f.smoothing ∧ f.smoothing < 1 := by
  obtain ⟨h1, h2⟩ := (onePole_fromCutoff cutoff dt).mp ⟨f, h⟩
  unfold OnePole.fromCutoff OnePole.new at h
  simp only [Fns.isFinite, Fns.pi, Bool.not_true, Bool.or_self, Bool.false_eq_true, if_false,
    not_le.mpr h1, not_lt.mpr h2] at h
  have ha : 0 ≤ 2 * Real.pi * cutoff * dt := by have := Real.pi_pos; positivity
  split at h
  · simp at h
  · simp only [Except.ok.injEq] at h
    subst h
    refine ⟨by simp only; positivity, ?_⟩
    simp only
    rw [div_lt_one (by positivity)]; linarith

example : ∃ f, OnePole.new (1 / 2 : ℝ) = .ok f ∧ 0 ≤ f.smoothing ∧ f.smoothing ≤ 1 := by
  refine ⟨⟨1 / 2, 0, false⟩, ?_, by norm_num, by norm_num⟩
  unfold OnePole.new
  simp only [Fns.isFinite]
  norm_num

/-- C27, C29. Reset after any run returns each filter to exactly the state it was built in, so later
outputs do not depend on what was seen before the reset. -/
theorem reset_is_fresh (rise fall dt a : ℝ) (s : SlewRateLimiter ℝ) (f : OnePole ℝ)
    (hs : SlewRateLimiter.new rise fall dt = .ok s) (hf : OnePole.new a = .ok f) (xs : List ℝ) :
    (runFilter SlewRateLimiter.filter s xs).2.reset = s ∧
    (runFilter OnePole.filter f xs).2.reset = f := by
  constructor
  · have h0 : s.reset = s := by
      unfold SlewRateLimiter.new at hs
      split at hs
      · simp at hs
      · split at hs
        · simp at hs
        · split at hs
          · simp at hs
          · simp only [Except.ok.injEq] at hs; subst hs; rfl
    have key : ∀ t : SlewRateLimiter ℝ,
        (runFilter SlewRateLimiter.filter t xs).2.reset = t.reset := by
      induction xs with
      | nil => intro t; rfl
      | cons x xs ih =>
        intro t
        simp only [runFilter]
        rw [ih]
        simp only [SlewRateLimiter.filter]
        split <;> rfl
    rw [key, h0]
  · have h0 : f.reset = f := by
      unfold OnePole.new at hf
      split at hf
      · simp at hf
      · split at hf
        · simp at hf
        · simp only [Except.ok.injEq] at hf; subst hf; rfl
    have key : ∀ t : OnePole ℝ, (runFilter OnePole.filter t xs).2.reset = t.reset := by
      induction xs with
      | nil => intro t; rfl
      | cons x xs ih =>
        intro t
        simp only [runFilter]
        rw [ih]
        simp only [OnePole.filter]
        split <;> rfl
    rw [key, h0]

end Multicalc
