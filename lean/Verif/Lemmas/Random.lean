import Verif.Model.Random
import Mathlib.Tactic
import Mathlib.Data.BitVec

namespace Multicalc.Pcg32

/-- `1 + a + ... + a^(n-1)`. -/
def geom (a : ℕ) : ℕ → ℕ
  | 0 => 0
  | n + 1 => a * geom a n + 1

theorem geom_add (a m n : ℕ) : geom a (m + n) = a ^ m * geom a n + geom a m := by
  induction m with
  | zero => simp [geom]
  | succ m ih =>
    rw [Nat.succ_add, geom, ih, geom, pow_succ]; ring

theorem pow_mod4 {a : ℕ} (ha : a % 4 = 1) (m : ℕ) : a ^ m % 4 = 1 := by
  rw [Nat.pow_mod, ha]; simp

theorem geom_parity {a : ℕ} (ha : a % 4 = 1) (n : ℕ) : geom a n % 2 = n % 2 := by
  induction n with
  | zero => rfl
  | succ n ih =>
    have : a % 2 = 1 := by omega
    rw [geom, Nat.add_mod, Nat.mul_mod, ih, this]; omega

theorem two_pow_dvd_geom {a : ℕ} (ha : a % 4 = 1) (k n : ℕ) :
    2 ^ k ∣ geom a n ↔ 2 ^ k ∣ n := by
  induction k generalizing n with
  | zero => simp
  | succ k ih =>
    rcases Nat.even_or_odd' n with ⟨m, rfl | rfl⟩
    · rw [two_mul, geom_add]
      have h4 := pow_mod4 ha m
      obtain ⟨q, hq⟩ : ∃ q, a ^ m + 1 = 2 * (2 * q + 1) := ⟨a ^ m / 4, by omega⟩
      have e : a ^ m * geom a m + geom a m = 2 * ((2 * q + 1) * geom a m) := by
        rw [← mul_assoc, ← hq]; ring
      rw [e, pow_succ', Nat.mul_dvd_mul_iff_left (by norm_num), ← two_mul,
        Nat.mul_dvd_mul_iff_left (by norm_num), ← ih m]
      have hc : Nat.Coprime (2 ^ k) (2 * q + 1) := by
        apply Nat.Coprime.pow_left
        rw [Nat.coprime_two_left]; exact ⟨q, rfl⟩
      exact hc.dvd_mul_left
    · have hodd := geom_parity ha (2 * m + 1)
      have hd : 2 ∣ 2 ^ (k + 1) := dvd_pow_self 2 (by omega)
      constructor
      · intro h; have := hd.trans h; omega
      · intro h; have := hd.trans h; omega

/-- The state map. -/
def stepState (c s : BitVec 64) : BitVec 64 := s * pcgMultiplier + c

theorem iterate_stepState (c s : BitVec 64) (n : ℕ) :
    (stepState c)^[n] s =
      s + (BitVec.ofNat 64 (geom pcgMultiplier.toNat n)) * ((pcgMultiplier - 1) * s + c) := by
  induction n with
  | zero => simp [geom]
  | succ n ih =>
    rw [Function.iterate_succ_apply', ih, stepState, geom]
    have : BitVec.ofNat 64 (pcgMultiplier.toNat * geom pcgMultiplier.toNat n + 1)
        = pcgMultiplier * BitVec.ofNat 64 (geom pcgMultiplier.toNat n) + 1 := by
      rw [BitVec.ofNat_add, BitVec.ofNat_mul]; simp
    rw [this]; ring

theorem iterate_stepState_eq_self_iff {c : BitVec 64} (hc : c.toNat % 2 = 1) (s : BitVec 64)
    (n : ℕ) : (stepState c)^[n] s = s ↔ 2 ^ 64 ∣ n := by
  rw [iterate_stepState]
  have hu : ((pcgMultiplier - 1) * s + c).toNat % 2 = 1 := by
    have h1 : (pcgMultiplier - 1).toNat = 6364136223846793004 := by decide
    rw [BitVec.toNat_add, BitVec.toNat_mul, h1]
    omega
  set u := (pcgMultiplier - 1) * s + c
  have hcop : Nat.Coprime (2 ^ 64) u.toNat := by
    apply Nat.Coprime.pow_left
    rw [Nat.coprime_two_left, Nat.odd_iff]; exact hu
  rw [add_eq_left]
  rw [← two_pow_dvd_geom (a := pcgMultiplier.toNat) (by decide) 64 n]
  rw [← BitVec.toNat_inj, BitVec.toNat_mul, BitVec.toNat_ofNat]
  simp only [Nat.mod_mul_mod]
  show _ = 0 ↔ _
  rw [← Nat.dvd_iff_mod_eq_zero]
  exact hcop.dvd_mul_right

theorem rotateRight_injective (r : ℕ) {x y : BitVec 32} (h : x.rotateRight r = y.rotateRight r) :
    x = y := by
  apply BitVec.eq_of_getLsbD_eq
  intro j hj
  have hr : r % 32 < 32 := Nat.mod_lt _ (by norm_num)
  by_cases hjr : r % 32 ≤ j
  · have := congrArg (fun w => BitVec.getLsbD w (j - r % 32)) h
    simp only [BitVec.getLsbD_rotateRight, show j - r % 32 < 32 - r % 32 by omega, if_true,
      show r % 32 + (j - r % 32) = j by omega, cond_true, decide_true] at this
    exact this
  · have := congrArg (fun w => BitVec.getLsbD w (j + 32 - r % 32)) h
    simp only [BitVec.getLsbD_rotateRight, show ¬ (j + 32 - r % 32 < 32 - r % 32) by omega,
      show (j + 32 - r % 32 < 32) by omega, 
      show j + 32 - r % 32 - (32 - r % 32) = j by omega, cond_false, decide_false, decide_true,
      Bool.true_and] at this
    exact this

/-- A state is determined by its output word, its top five bits and its low twenty-seven bits. -/
theorem output_injective_on_fibre {s t : BitVec 64} (ho : output s = output t)
    (htop : s >>> 59 = t >>> 59) (hlow : s.setWidth 27 = t.setWidth 27) : s = t := by
  have hx : (((s >>> 18) ^^^ s) >>> 27).setWidth 32 = (((t >>> 18) ^^^ t) >>> 27).setWidth 32 := by
    simp only [output, htop] at ho
    exact rotateRight_injective _ ho
  have hxi : ∀ i < 32, ((s.getLsbD (45 + i)) ^^ (s.getLsbD (27 + i))) =
      ((t.getLsbD (45 + i)) ^^ (t.getLsbD (27 + i))) := by
    intro i hi
    have := congrArg (fun w => BitVec.getLsbD w i) hx
    simp only [BitVec.getLsbD_setWidth, BitVec.getLsbD_ushiftRight, BitVec.getLsbD_xor, hi,
      decide_true, Bool.true_and] at this
    rw [show 18 + (27 + i) = 45 + i by omega] at this
    exact this
  have htopi : ∀ i, 59 ≤ i → s.getLsbD i = t.getLsbD i := by
    intro i hi
    have := congrArg (fun w => BitVec.getLsbD w (i - 59)) htop
    simp only [BitVec.getLsbD_ushiftRight] at this
    rwa [show 59 + (i - 59) = i by omega] at this
  have hlowi : ∀ i < 27, s.getLsbD i = t.getLsbD i := by
    intro i hi
    have := congrArg (fun w => BitVec.getLsbD w i) hlow
    simpa [BitVec.getLsbD_setWidth, hi] using this
  have hall : ∀ k j, 64 ≤ j + k → s.getLsbD j = t.getLsbD j := by
    intro k
    induction k with
    | zero =>
      intro j hj
      rw [BitVec.getLsbD_of_ge _ _ (by omega), BitVec.getLsbD_of_ge _ _ (by omega)]
    | succ k ih =>
      intro j hj
      by_cases h1 : 59 ≤ j
      · exact htopi j h1
      · by_cases h2 : j < 27
        · exact hlowi j h2
        · have h3 := hxi (j - 27) (by omega)
          rw [show 45 + (j - 27) = j + 18 by omega, show 27 + (j - 27) = j by omega,
            ih (j + 18) (by omega)] at h3
          exact Bool.xor_right_inj.mp h3
  exact BitVec.eq_of_getLsbD_eq (fun i _ => hall 64 i (by omega))

instance : Fintype (BitVec n) := Fintype.ofEquiv (Fin (2 ^ n))
  ⟨BitVec.ofFin, BitVec.toFin, fun _ => rfl, fun _ => rfl⟩

theorem card_bitVec (n : ℕ) : Fintype.card (BitVec n) = 2 ^ n := by
  rw [Fintype.ofEquiv_card]; simp

/-- Splitting a state into its output word and the bits that select the fibre. -/
def split (s : BitVec 64) : BitVec 32 × (BitVec 5 × BitVec 27) :=
  (output s, ((s >>> 59).setWidth 5, s.setWidth 27))

theorem split_bijective : Function.Bijective split := by
  rw [Fintype.bijective_iff_injective_and_card]
  constructor
  · intro s t h
    simp only [split, Prod.mk.injEq] at h
    obtain ⟨h1, h2, h3⟩ := h
    refine output_injective_on_fibre h1 ?_ h3
    apply BitVec.eq_of_toNat_eq
    have := congrArg BitVec.toNat h2
    simp only [BitVec.toNat_setWidth, BitVec.toNat_ushiftRight, Nat.shiftRight_eq_div_pow] at this ⊢
    have hs := s.isLt; have ht := t.isLt
    omega
  · simp only [Fintype.card_prod, card_bitVec]; norm_num

theorem card_output_fibre (w : BitVec 32) :
    (Finset.univ.filter (fun s : BitVec 64 => output s = w)).card = 2 ^ 32 := by
  have h : (Finset.univ.filter (fun s : BitVec 64 => output s = w)).card =
      (Finset.univ : Finset (BitVec 5 × BitVec 27)).card := by
    apply Finset.card_bij (fun s _ => (split s).2)
    · simp
    · intro a ha b hb hab
      simp only [Finset.mem_filter, Finset.mem_univ, true_and] at ha hb
      apply split_bijective.1
      exact Prod.ext (by simp [split, ha, hb]) hab
    · intro b _
      obtain ⟨s, hs⟩ := split_bijective.2 (w, b)
      refine ⟨s, ?_, by rw [hs]⟩
      simp only [Finset.mem_filter, Finset.mem_univ, true_and]
      have := congrArg Prod.fst hs
      exact this
  rw [h, Finset.card_univ, Fintype.card_prod, card_bitVec, card_bitVec]; norm_num

attribute [irreducible] stepState

end Multicalc.Pcg32
