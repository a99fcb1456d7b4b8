import Verif.Lemmas.RandomTermination

/-!
# Properties C01–C04: the random number generator
-/

namespace Multicalc.Pcg32

/-! ## Reachable generators -/

/-- Generators a user can hold: built by `with_stream` and advanced by any draws. -/
inductive Reachable : Pcg32 ℝ → Prop
  | start (seed stream : BitVec 64) : Reachable (withStream seed stream)
  | u32 {g} : Reachable g → Reachable g.nextU32.2
  | u64 {g} : Reachable g → Reachable g.nextU64.2
  | unit64 {g} : Reachable g → Reachable g.nextUnit64.2
  | unit32 {g} : Reachable g → Reachable g.nextUnit32.2
  | normal {g fuel z g'} : Reachable g → standardNormal fuel g = some (z, g') → Reachable g'

theorem nextU32_eq (g : Pcg32 ℝ) :
    g.nextU32 = (output g.state, ⟨stepState g.increment g.state, g.increment, g.cache⟩) := by
  rw [stepState]; rfl

theorem nextU64_eq (g : Pcg32 ℝ) :
    g.nextU64 = (((output g.state).setWidth 64 <<< 32) |||
      (output (stepState g.increment g.state)).setWidth 64,
      ⟨stepState g.increment (stepState g.increment g.state), g.increment, g.cache⟩) := by
  simp only [nextU64, nextU32_eq]

theorem nextUnit64_eq (g : Pcg32 ℝ) :
    g.nextUnit64 = (unit64OfWord g.nextU64.1,
      ⟨stepState g.increment (stepState g.increment g.state), g.increment, g.cache⟩) := by
  simp only [nextUnit64, nextU64_eq]

theorem nextUnit32_eq (g : Pcg32 ℝ) :
    g.nextUnit32 = (unit32OfWord g.nextU32.1,
      ⟨stepState g.increment g.state, g.increment, g.cache⟩) := by
  simp only [nextUnit32, nextU32_eq]

theorem increment_normalLoop (fuel : ℕ) (g g' : Pcg32 ℝ) (z : ℝ)
    (h : normalLoop fuel g = some (z, g')) : g'.increment = g.increment := by
  induction fuel generalizing g with
  | zero => simp [normalLoop] at h
  | succ n ih =>
    simp only [normalLoop, nextUnit64_eq] at h
    split at h
    · simp only [Option.some.injEq, Prod.mk.injEq] at h
      rw [← h.2]
    · rw [ih _ h]

theorem increment_withStream (seed stream : BitVec 64) :
    (withStream seed stream : Pcg32 ℝ).increment = (stream <<< 1) ||| 1#64 := by
  unfold withStream nextU32; dsimp only; rfl

theorem odd_increment (stream : BitVec 64) : ((stream <<< 1) ||| 1#64).toNat % 2 = 1 := by
  rw [BitVec.toNat_or, BitVec.toNat_shiftLeft, Nat.or_mod_two_eq_one]
  right; rfl

theorem increment_nextU32 (g : Pcg32 ℝ) : g.nextU32.2.increment = g.increment := by
  simp only [nextU32_eq]
theorem increment_nextU64 (g : Pcg32 ℝ) : g.nextU64.2.increment = g.increment := by
  simp only [nextU64_eq]
theorem increment_nextUnit64 (g : Pcg32 ℝ) : g.nextUnit64.2.increment = g.increment := by
  simp only [nextUnit64_eq]
theorem increment_nextUnit32 (g : Pcg32 ℝ) : g.nextUnit32.2.increment = g.increment := by
  simp only [nextUnit32_eq]

theorem increment_standardNormal {fuel : ℕ} {g g' : Pcg32 ℝ} {z : ℝ}
    (h : standardNormal fuel g = some (z, g')) : g'.increment = g.increment := by
  simp only [standardNormal] at h
  split at h
  · simp only [Option.some.injEq, Prod.mk.injEq] at h
    rw [← h.2]
  · exact increment_normalLoop _ _ _ _ h

theorem reachable_increment {g : Pcg32 ℝ} (h : Reachable g) :
    ∃ stream : BitVec 64, g.increment = (stream <<< 1) ||| 1#64 := by
  induction h with
  | start seed stream => exact ⟨stream, increment_withStream seed stream⟩
  | u32 _ ih => rw [increment_nextU32]; exact ih
  | u64 _ ih => rw [increment_nextU64]; exact ih
  | unit64 _ ih => rw [increment_nextUnit64]; exact ih
  | unit32 _ ih => rw [increment_nextUnit32]; exact ih
  | normal _ hn ih => rw [increment_standardNormal hn]; exact ih

theorem increment_odd {g : Pcg32 ℝ} (h : Reachable g) : g.increment.toNat % 2 = 1 := by
  obtain ⟨stream, hs⟩ := reachable_increment h
  rw [hs]; exact odd_increment stream

/-! ## C01 period -/

/-- The generator after `n` raw draws. -/
def after (n : ℕ) (g : Pcg32 ℝ) : Pcg32 ℝ := (fun h : Pcg32 ℝ => h.nextU32.2)^[n] g

theorem after_succ (n : ℕ) (g : Pcg32 ℝ) : after (n + 1) g = (after n g).nextU32.2 := by
  simp only [after, Function.iterate_succ_apply']

theorem state_nextU32 (g : Pcg32 ℝ) : g.nextU32.2.state = stepState g.increment g.state := by
  simp only [nextU32_eq]

theorem cache_nextU32 (g : Pcg32 ℝ) : g.nextU32.2.cache = g.cache := by
  simp only [nextU32_eq]

theorem fst_nextU32 (g : Pcg32 ℝ) : g.nextU32.1 = output g.state := by
  simp only [nextU32_eq]

attribute [irreducible] after
attribute [local irreducible] nextU32 nextU64 nextUnit64 nextUnit32

theorem after_zero (g : Pcg32 ℝ) : after 0 g = g := by
  unfold after; rfl

theorem after_add (m n : ℕ) (g : Pcg32 ℝ) : after (m + n) g = after n (after m g) := by
  induction n with
  | zero => rw [after_zero, Nat.add_zero]
  | succ n ih => rw [← Nat.add_assoc, after_succ, after_succ, ih]

theorem after_state (n : ℕ) (g : Pcg32 ℝ) :
    (after n g).state = (stepState g.increment)^[n] g.state ∧
    (after n g).increment = g.increment ∧ (after n g).cache = g.cache := by
  induction n with
  | zero => rw [after_zero]; exact ⟨rfl, rfl, rfl⟩
  | succ n ih =>
    obtain ⟨h1, h2, h3⟩ := ih
    refine ⟨?_, ?_, ?_⟩
    · rw [after_succ, state_nextU32, Function.iterate_succ_apply', h1, h2]
    · rw [after_succ, increment_nextU32, h2]
    · rw [after_succ, cache_nextU32, h3]

/-- C01. From every generator a user can hold, the position comes back to where it was after `n`
draws exactly when `n` is a multiple of `2^64`. -/
theorem pcg_period {g : Pcg32 ℝ} (hg : Reachable g) (n : ℕ) :
    after n g = g ↔ 2 ^ 64 ∣ n := by
  rw [← iterate_stepState_eq_self_iff (increment_odd hg) g.state n]
  obtain ⟨h1, h2, h3⟩ := after_state n g
  constructor
  · intro h; rw [← h1, h]
  · intro h
    rcases hA : after n g with ⟨a, b, c⟩
    rw [hA] at h1 h2 h3
    rcases g with ⟨a', b', c'⟩
    simp only at h1 h2 h3 h
    rw [h1, h, h2, h3]

example : Reachable (withStream 42#64 54#64) := .start _ _

/-- C01. Within one period every one of the `2^64` positions is visited (exactly once). -/
theorem pcg_visits_every_position {g : Pcg32 ℝ} (hg : Reachable g) (s : BitVec 64) :
    ∃! n, n < 2 ^ 64 ∧ (after n g).state = s := by
  have hinj := position_injOn (increment_odd hg) g.state
  have hbij : Function.Bijective
      (fun n : Fin (2 ^ 64) => (stepState g.increment)^[n.1] g.state) := by
    rw [Fintype.bijective_iff_injective_and_card]
    refine ⟨fun m n h => Fin.ext (hinj m.2 n.2 h), ?_⟩
    rw [card_bitVec, Fintype.card_fin]
  obtain ⟨n, hn⟩ := hbij.2 s
  refine ⟨n.1, ⟨n.2, by rw [(after_state _ _).1]; exact hn⟩, ?_⟩
  rintro m ⟨hm, hms⟩
  rw [(after_state _ _).1] at hms
  exact hinj hm n.2 (hms.trans hn.symm)

/-- C01. Over one full period every 32-bit word is drawn exactly `2^32` times. -/
theorem pcg_equidistributed {g : Pcg32 ℝ} (hg : Reachable g) (w : BitVec 32) :
    ((Finset.range (2 ^ 64)).filter (fun n => (after n g).nextU32.1 = w)).card = 2 ^ 32 := by
  rw [← card_output_fibre w]
  have hinj := position_injOn (increment_odd hg) g.state
  have hout : ∀ n, (after n g).nextU32.1 = output ((stepState g.increment)^[n] g.state) := by
    intro n; rw [← (after_state n g).1, fst_nextU32]
  apply Finset.card_bij (fun n _ => (stepState g.increment)^[n] g.state)
  · intro n hn
    simp only [Finset.mem_filter, Finset.mem_univ, true_and] at hn ⊢
    rw [← hout]; exact hn.2
  · intro m hm n hn h
    simp only [Finset.mem_filter, Finset.mem_range] at hm hn
    exact hinj hm.1 hn.1 h
  · intro s hs
    simp only [Finset.mem_filter, Finset.mem_univ, true_and] at hs
    obtain ⟨n, ⟨hn, hns⟩, -⟩ := pcg_visits_every_position hg s
    rw [(after_state _ _).1] at hns
    refine ⟨n, ?_, hns⟩
    simp only [Finset.mem_filter, Finset.mem_range]
    exact ⟨hn, by rw [hout, hns, hs]⟩

theorem withStream_congr (seed s t : BitVec 64) (h : s <<< 1 = t <<< 1) :
    (withStream seed s : Pcg32 ℝ) = withStream seed t := by
  have key : ∀ i j : BitVec 64, i = j →
      (let g : Pcg32 ℝ := { state := 0, increment := i ||| 1, cache := none }
       let g := g.nextU32.2
       let g := { g with state := g.state + seed }
       g.nextU32.2) =
      (let g : Pcg32 ℝ := { state := 0, increment := j ||| 1, cache := none }
       let g := g.nextU32.2
       let g := { g with state := g.state + seed }
       g.nextU32.2) := by
    intro i j hij; rw [hij]
  exact key _ _ h

/-- C01 (finding). The top bit of the stream selector is shifted out, so different streams can give
the very same generator: streams that agree on their low 63 bits coincide for every seed. -/
theorem pcg_stream_top_bit_ignored (seed s t : BitVec 64)
    (h : s.toNat % 2 ^ 63 = t.toNat % 2 ^ 63) :
    (withStream seed s : Pcg32 ℝ) = withStream seed t := by
  apply withStream_congr
  apply BitVec.eq_of_toNat_eq
  rw [BitVec.toNat_shiftLeft, BitVec.toNat_shiftLeft, Nat.shiftLeft_eq, Nat.shiftLeft_eq]
  omega

example : (5#64).toNat % 2 ^ 63 = (9223372036854775813#64).toNat % 2 ^ 63 ∧
    (5#64) ≠ 9223372036854775813#64 := by decide

/-! ## C02 uniform draws -/

/-- C02. A 64-bit uniform draw is in `[0, 1)` and is a multiple of `2^-53`, for every generator. -/
theorem nextUnit64_range (g : Pcg32 ℝ) :
    0 ≤ g.nextUnit64.1 ∧ g.nextUnit64.1 < 1 ∧ ∃ k < 2 ^ 53, g.nextUnit64.1 = (k : ℕ) / 2 ^ 53 := by
  have h : ∀ w : BitVec 64, ∃ k < 2 ^ 53, unit64OfWord w = (k : ℕ) / 2 ^ 53 := by
    intro w
    refine ⟨(w >>> 11).toNat, ?_, by simp [unit64OfWord]; ring⟩
    have := w.isLt
    rw [BitVec.toNat_ushiftRight, Nat.shiftRight_eq_div_pow]; omega
  obtain ⟨k, hk, e⟩ := h g.nextU64.1
  have e' : g.nextUnit64.1 = (k : ℕ) / 2 ^ 53 := by rw [nextUnit64_eq]; exact e
  have hk' : (k : ℚ) < 2 ^ 53 := by exact_mod_cast hk
  refine ⟨?_, ?_, k, hk, e'⟩
  · rw [e']; positivity
  · rw [e', div_lt_one (by positivity)]; exact hk'

/-- C02. Same for the 32-bit draw, on the `2^-24` grid. -/
theorem nextUnit32_range (g : Pcg32 ℝ) :
    0 ≤ g.nextUnit32.1 ∧ g.nextUnit32.1 < 1 ∧ ∃ k < 2 ^ 24, g.nextUnit32.1 = (k : ℕ) / 2 ^ 24 := by
  have h : ∀ w : BitVec 32, ∃ k < 2 ^ 24, unit32OfWord w = (k : ℕ) / 2 ^ 24 := by
    intro w
    refine ⟨(w >>> 8).toNat, ?_, by simp [unit32OfWord]; ring⟩
    have := w.isLt
    rw [BitVec.toNat_ushiftRight, Nat.shiftRight_eq_div_pow]; omega
  obtain ⟨k, hk, e⟩ := h g.nextU32.1
  have e' : g.nextUnit32.1 = (k : ℕ) / 2 ^ 24 := by rw [nextUnit32_eq]; exact e
  have hk' : (k : ℚ) < 2 ^ 24 := by exact_mod_cast hk
  refine ⟨?_, ?_, k, hk, e'⟩
  · rw [e']; positivity
  · rw [e', div_lt_one (by positivity)]; exact hk'

/-- C02. The whole grid is reachable: each multiple of `2^-53` in `[0,1)` is the image of exactly
`2^11` 64-bit words. -/
theorem unit64_uniform (k : ℕ) (hk : k < 2 ^ 53) :
    (Finset.univ.filter (fun w : BitVec 64 => unit64OfWord w = (k : ℕ) / 2 ^ 53)).card = 2 ^ 11 := by
  have h1 : (Finset.univ.filter (fun w : BitVec 64 => unit64OfWord w = (k : ℕ) / 2 ^ 53)) =
      (Finset.univ.filter (fun w : BitVec 64 => w.toNat / 2 ^ 11 = k)) := by
    ext w
    simp only [Finset.mem_filter, Finset.mem_univ, true_and, unit64OfWord,
      BitVec.toNat_ushiftRight, Nat.shiftRight_eq_div_pow]
    rw [mul_one_div, div_left_inj' (by positivity)]
    exact_mod_cast Iff.rfl
  rw [h1]
  have h2 : (Finset.univ.filter (fun w : BitVec 64 => w.toNat / 2 ^ 11 = k)).card =
      (Finset.range (2 ^ 11)).card := by
    apply Finset.card_bij (fun w _ => w.toNat % 2 ^ 11)
    · intro w _; simp only [Finset.mem_range]; exact Nat.mod_lt _ (by norm_num)
    · intro a ha b hb hab
      simp only [Finset.mem_filter, Finset.mem_univ, true_and] at ha hb
      apply BitVec.eq_of_toNat_eq; omega
    · intro b hb
      simp only [Finset.mem_range] at hb
      refine ⟨BitVec.ofNat 64 (k * 2 ^ 11 + b), ?_, ?_⟩
      · simp only [Finset.mem_filter, Finset.mem_univ, true_and, BitVec.toNat_ofNat]; omega
      · simp only [BitVec.toNat_ofNat]; omega
  rw [h2, Finset.card_range]

/-! ## C03 draws are a function of the word stream -/

/-- The raw draws a user can interleave. -/
inductive Op | u32 | u64 | unit64 | unit32

/-- Their results. -/
inductive Out | word32 (w : BitVec 32) | word64 (w : ℕ) | unit (q : ℚ)

/-- One call on the generator. -/
def exec (g : Pcg32 ℝ) : Op → Out × Pcg32 ℝ
  | .u32 => (.word32 g.nextU32.1, g.nextU32.2)
  | .u64 => (.word64 g.nextU64.1.toNat, g.nextU64.2)
  | .unit64 => (.unit g.nextUnit64.1, g.nextUnit64.2)
  | .unit32 => (.unit g.nextUnit32.1, g.nextUnit32.2)

/-- A sequence of calls. -/
def execAll (g : Pcg32 ℝ) : List Op → List Out × Pcg32 ℝ
  | [] => ([], g)
  | op :: ops =>
    let r := exec g op
    let rs := execAll r.2 ops
    (r.1 :: rs.1, rs.2)

/-- Words an operation uses up. -/
def cost : Op → ℕ
  | .u32 => 1 | .u64 => 2 | .unit64 => 2 | .unit32 => 1

/-- Specification: what an operation returns when it starts at word `k` of the stream. -/
def specOut (stream : ℕ → BitVec 32) (k : ℕ) : Op → Out
  | .u32 => .word32 (stream k)
  | .u64 => .word64 ((stream k).toNat * 2 ^ 32 + (stream (k + 1)).toNat)
  | .unit64 => .unit
      ((((stream k).toNat * 2 ^ 32 + (stream (k + 1)).toNat) / 2 ^ 11 : ℕ) / 2 ^ 53)
  | .unit32 => .unit ((((stream k).toNat / 2 ^ 8 : ℕ) : ℚ) / 2 ^ 24)

/-- Specification of a sequence of calls. -/
def specAll (stream : ℕ → BitVec 32) (k : ℕ) : List Op → List Out
  | [] => []
  | op :: ops => specOut stream k op :: specAll stream (k + cost op) ops

theorem nextU64_toNat (g : Pcg32 ℝ) :
    g.nextU64.1.toNat = (output g.state).toNat * 2 ^ 32 +
      (output (stepState g.increment g.state)).toNat := by
  rw [nextU64_eq]
  dsimp only
  rw [BitVec.toNat_or, BitVec.toNat_shiftLeft, BitVec.toNat_setWidth, BitVec.toNat_setWidth]
  have h1 := (output g.state).isLt
  have h2 := (output (stepState g.increment g.state)).isLt
  rw [Nat.mod_eq_of_lt (by omega), Nat.mod_eq_of_lt (a := BitVec.toNat (output (stepState _ _)))
    (by omega), Nat.shiftLeft_eq, Nat.mod_eq_of_lt (by omega), mul_comm,
    Nat.two_pow_add_eq_or_of_lt h2]

/-- C03. Whatever calls a user interleaves, every result is the one read off the single stream of
raw 32-bit words at the position reached so far, with 64-bit draws taking two words, the first one
high; the generator ends exactly at the position after the words used, and a pending cached normal
neither changes the draws nor is lost. -/
theorem draws_follow_stream (g : Pcg32 ℝ) (ops : List Op) :
    (execAll g ops).1 = specAll (fun i => (after i g).nextU32.1) 0 ops ∧
    (execAll g ops).2 = after ((ops.map cost).sum) g := by
  have hword : ∀ (g : Pcg32 ℝ) i, (after i g).nextU32.1 =
      output ((stepState g.increment)^[i] g.state) := by
    intro g n; rw [← (after_state n g).1, fst_nextU32]
  have hshift : ∀ (ops : List Op) (s : ℕ → BitVec 32) (k : ℕ),
      specAll s k ops = specAll (fun i => s (k + i)) 0 ops := by
    intro ops
    induction ops with
    | nil => intros; rfl
    | cons op ops ih =>
      intro s k
      simp only [specAll]
      have e : specOut s k op = specOut (fun i => s (k + i)) 0 op := by cases op <;> rfl
      rw [ih s, ih (fun i => s (k + i)), e]; simp [add_assoc]
  induction ops generalizing g with
  | nil => exact ⟨rfl, (after_zero g).symm⟩
  | cons op ops ih =>
    obtain ⟨ih1, ih2⟩ := ih (exec g op).2
    have hafter : (exec g op).2 = after (cost op) g := by
      cases op <;>
        simp only [exec, cost, after_succ, after_zero, nextU64_eq, nextUnit64_eq, nextUnit32_eq,
          nextU32_eq]
    simp only [execAll, specAll, List.map_cons, List.sum_cons]
    constructor
    · congr 1
      · cases op with
        | u32 => simp only [exec, specOut, after_zero]
        | u64 =>
          simp only [exec, specOut, nextU64_toNat, hword]; rfl
        | unit64 =>
          simp only [exec, specOut, hword]
          rw [nextUnit64_eq]
          dsimp only
          rw [unit64OfWord, BitVec.toNat_ushiftRight, nextU64_toNat,
            Nat.shiftRight_eq_div_pow, mul_one_div]
          rfl
        | unit32 =>
          simp only [exec, specOut, hword]
          rw [nextUnit32_eq, nextU32_eq]
          dsimp only
          rw [unit32OfWord, BitVec.toNat_ushiftRight, Nat.shiftRight_eq_div_pow, mul_one_div]
          rfl
      · rw [ih1, hshift ops (fun i => (after i g).nextU32.1), hafter]
        congr 1
        funext i
        simp only [after, zero_add]
        rw [← Function.iterate_add_apply, add_comm]
    · rw [ih2, hafter]
      simp only [after]
      rw [← Function.iterate_add_apply, add_comm]

/-! ## C04 normal pairs -/

/-- C04. When a normal draw generates a pair, it does so from an accepted point `(x, y)` of the
open unit disc other than the centre; the value returned and the one kept for the next call satisfy
the polar identities. -/
theorem standardNormal_pair {fuel : ℕ} {g g1 : Pcg32 ℝ} {z0 : ℝ} (hc : g.cache = none)
    (h : standardNormal fuel g = some (z0, g1)) :
    ∃ x y s z1 : ℝ, -1 ≤ x ∧ x < 1 ∧ -1 ≤ y ∧ y < 1 ∧ s = x ^ 2 + y ^ 2 ∧ 0 < s ∧ s < 1 ∧
      g1.cache = some z1 ∧ z0 ^ 2 + z1 ^ 2 = -2 * Real.log s ∧ z0 * y = z1 * x ∧
      0 ≤ z0 * x ∧ 0 ≤ z1 * y := by
  simp only [standardNormal, hc] at h
  induction fuel generalizing g with
  | zero => simp [normalLoop] at h
  | succ n ih =>
    simp only [normalLoop] at h
    split at h
    · next hacc =>
      simp only [Option.some.injEq, Prod.mk.injEq] at h
      have hu := nextUnit64_range g
      have hv := nextUnit64_range g.nextUnit64.2
      set u := g.nextUnit64.1
      set v := g.nextUnit64.2.nextUnit64.1
      have cu1 : (0 : ℝ) ≤ u := by exact_mod_cast hu.1
      have cu2 : (u : ℝ) < 1 := by exact_mod_cast hu.2.1
      have cv1 : (0 : ℝ) ≤ v := by exact_mod_cast hv.1
      have cv2 : (v : ℝ) < 1 := by exact_mod_cast hv.2.1
      simp only [powi_eq_sq, Fns.lit, Fns.sqrt, Fns.log] at h hacc
      set x : ℝ := 2 * (u : ℝ) - 1 with hx
      set y : ℝ := 2 * (v : ℝ) - 1 with hy
      obtain ⟨h1, h2⟩ := hacc
      set s := x ^ 2 + y ^ 2 with hs
      have hlog : Real.log s < 0 := Real.log_neg h1 h2
      have hq : 0 ≤ -2 * Real.log s / s := by
        apply div_nonneg _ h1.le; linarith
      have hsq : Real.sqrt (-2 * Real.log s / s) ^ 2 = -2 * Real.log s / s := Real.sq_sqrt hq
      refine ⟨x, y, s, y * Real.sqrt (-2 * Real.log s / s), by linarith, by linarith, by linarith,
        by linarith, rfl, h1, h2, ?_, ?_, ?_, ?_, ?_⟩
      · rw [← h.2]
      · rw [← h.1, mul_pow, mul_pow, hsq, ← add_mul, ← hs]
        field_simp
      · rw [← h.1]; ring
      · rw [← h.1, mul_right_comm, ← sq]; positivity
      · rw [mul_right_comm, ← sq]; positivity
    · exact ih (by simp only [nextUnit64_eq]; exact hc) h
where
  powi_eq_sq : ∀ x : ℝ, powi x 2 = x ^ 2 := by
    intro x
    simp [powi, powiLoop]; ring

theorem nextUnit64_val (g : Pcg32 ℝ) : g.nextUnit64.1 =
    ((((output g.state).toNat * 2 ^ 32 + (output (stepState g.increment g.state)).toNat) / 2 ^ 11
      : ℕ) : ℚ) / 2 ^ 53 := by
  rw [nextUnit64_eq]
  dsimp only
  rw [unit64OfWord, BitVec.toNat_ushiftRight, nextU64_toNat, Nat.shiftRight_eq_div_pow, mul_one_div]

theorem middle_range {g : Pcg32 ℝ} (h : output g.state ∈ middle) :
    |2 * (g.nextUnit64.1 : ℝ) - 1| ≤ 5 / 8 ∧ 2 * (g.nextUnit64.1 : ℝ) - 1 ≠ 0 := by
  simp only [middle, Finset.mem_filter, Finset.mem_univ, true_and] at h
  obtain ⟨h1, h2, h3⟩ := h
  rw [nextUnit64_val]
  set a := (output g.state).toNat
  have hb := (output (stepState g.increment g.state)).isLt
  set b := (output (stepState g.increment g.state)).toNat
  obtain ⟨m, hm⟩ : ∃ m, m = (a * 2 ^ 32 + b) / 2 ^ 11 := ⟨_, rfl⟩
  rw [← hm]
  have e1 : 3 * 2 ^ 49 ≤ m := by omega
  have e2 : m ≤ 13 * 2 ^ 49 := by omega
  have e3 : m ≠ 2 ^ 52 := by omega
  clear_value a b
  clear hm h1 h2 h3 hb
  have e1' : (3 * 2 ^ 49 : ℝ) ≤ m := by exact_mod_cast e1
  have e2' : (m : ℝ) ≤ 13 * 2 ^ 49 := by exact_mod_cast e2
  push_cast
  constructor
  · rw [abs_le]; constructor <;> linarith
  · intro h
    apply e3
    have : (m : ℝ) = 2 ^ 52 := by linarith
    exact_mod_cast this

/-- C04. A normal draw always returns: whatever generator a user holds, the rejection loop ends. -/
theorem standardNormal_terminates {g : Pcg32 ℝ} (hg : Reachable g) :
    ∃ fuel z g', standardNormal fuel g = some (z, g') := by
  have hc := increment_odd hg
  rcases hcache : g.cache with _ | c
  swap
  · exact ⟨0, c, { g with cache := none }, by simp [standardNormal, hcache]⟩
  simp only [standardNormal, hcache]
  obtain ⟨k, hk1, hk2⟩ := exists_middle_pair hc g.state
  refine ⟨k + 1, ?_⟩
  clear hcache hg
  induction k generalizing g with
  | zero =>
    simp only [Nat.mul_zero, Function.iterate_zero, id] at hk1 hk2
    simp only [normalLoop]
    rw [if_pos]
    · exact ⟨_, _, rfl⟩
    · have r1 := middle_range hk1
      have r2 := middle_range (g := g.nextUnit64.2) (by rw [nextUnit64_eq]; exact hk2)
      simp only [standardNormal_pair.powi_eq_sq, Fns.lit]
      have b1 := abs_le.mp r1.1
      have b2 := abs_le.mp r2.1
      constructor
      · have := r1.2; positivity
      · nlinarith
  | succ k ih =>
    simp only [normalLoop]
    split
    · exact ⟨_, _, rfl⟩
    · have e : g.nextUnit64.2.nextUnit64.2.state = (stepState g.increment)^[4] g.state := by
        simp only [nextUnit64_eq]; rfl
      have e' : g.nextUnit64.2.nextUnit64.2.increment = g.increment := by
        simp only [nextUnit64_eq]
      apply ih
      · rw [e']; exact hc
      · rw [e, e', ← Function.iterate_add_apply]; exact hk1
      · rw [e, e', ← Function.iterate_add_apply]; exact hk2

/-- The hypotheses of `standardNormal_pair` are met by every freshly built generator. -/
example (seed stream : BitVec 64) : ∃ fuel z0 g1,
    (withStream seed stream : Pcg32 ℝ).cache = none ∧
    standardNormal fuel (withStream seed stream : Pcg32 ℝ) = some (z0, g1) := by
  obtain ⟨fuel, z, g', h⟩ := standardNormal_terminates (.start seed stream)
  exact ⟨fuel, z, g', by unfold withStream nextU32; rfl, h⟩

/-- C04. The kept value is served by the next call, exactly once, and without moving the generator:
the call after that generates a new pair. -/
theorem standardNormal_serves_cache (fuel : ℕ) (g : Pcg32 ℝ) (z1 : ℝ) (hc : g.cache = some z1) :
    standardNormal fuel g = some (z1, { g with cache := none }) := by
  simp [standardNormal, hc]

/-- C04. Raw draws in between do not disturb the kept value. -/
theorem cache_survives_raw_draws (g : Pcg32 ℝ) (ops : List Op) :
    (execAll g ops).2.cache = g.cache := by
  rw [(draws_follow_stream g ops).2]; exact (after_state _ _).2.2

end Multicalc.Pcg32
