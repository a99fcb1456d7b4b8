import Verif.Lemmas.Random

/-!
# Along the stream, two words in the middle range always turn up

Used to show that the rejection loop of the normal draw ends.
-/

namespace Multicalc.Pcg32

theorem stepState_injective (c : BitVec 64) (hc : c.toNat % 2 = 1) :
    Function.Injective (stepState c) := by
  obtain ⟨p, hp⟩ : ∃ p, 2 ^ 64 = p + 1 := ⟨2 ^ 64 - 1, by norm_num⟩
  intro s t h
  have e : ∀ s, (stepState c)^[p] (stepState c s) = s := by
    intro s
    rw [← Function.iterate_succ_apply]
    exact (iterate_stepState_eq_self_iff hc s (p + 1)).mpr (by rw [hp])
  rw [← e s, h, e t]

theorem position_injOn {c : BitVec 64} (hc : c.toNat % 2 = 1) (s : BitVec 64) :
    Set.InjOn (fun n => (stepState c)^[n] s) (Set.Iio (2 ^ 64)) := by
  have key : ∀ m n, m ≤ n → n < 2 ^ 64 → (stepState c)^[m] s = (stepState c)^[n] s → m = n := by
    intro m n hmn hn h
    have h2 : (stepState c)^[n - m] s = s := by
      have := (stepState_injective c hc).iterate m
      apply this
      rw [← Function.iterate_add_apply, show m + (n - m) = n by omega, h]
    have := (iterate_stepState_eq_self_iff hc s _).mp h2
    have := Nat.eq_zero_of_dvd_of_lt this (by omega)
    omega
  intro m hm n hn h
  simp only [Set.mem_Iio] at hm hn
  rcases le_total m n with hle | hle
  · exact key m n hle hn h
  · exact (key n m hle hm h.symm).symm

/-- The states with a given residue modulo four. -/
def resClass (r : ℕ) : Finset (BitVec 64) := Finset.univ.filter (fun t => t.toNat % 4 = r)

theorem card_low (r : ℕ) (hr : r < 4) :
    (Finset.univ.filter (fun b : BitVec 27 => b.toNat % 4 = r)).card = 2 ^ 25 := by
  rw [← Finset.card_range (2 ^ 25)]
  apply Finset.card_bij (fun b _ => b.toNat / 4)
  · intro b _; simp only [Finset.mem_range]; have := b.isLt; omega
  · intro a ha b hb hab
    simp only [Finset.mem_filter, Finset.mem_univ, true_and] at ha hb
    apply BitVec.eq_of_toNat_eq; omega
  · intro k hk
    simp only [Finset.mem_range] at hk
    refine ⟨BitVec.ofNat 27 (4 * k + r), ?_, ?_⟩
    · simp only [Finset.mem_filter, Finset.mem_univ, true_and, BitVec.toNat_ofNat]; omega
    · simp only [BitVec.toNat_ofNat]; omega

theorem card_class_fibre (r : ℕ) (hr : r < 4) (w : BitVec 32) :
    ((resClass r).filter (fun s => output s = w)).card = 2 ^ 30 := by
  have h : ((resClass r).filter (fun s => output s = w)).card =
      ((Finset.univ : Finset (BitVec 5)) ×ˢ
        (Finset.univ.filter (fun b : BitVec 27 => b.toNat % 4 = r))).card := by
    apply Finset.card_bij (fun s _ => (split s).2)
    · intro s hs
      simp only [resClass, Finset.mem_filter, Finset.mem_univ, true_and, Finset.mem_product,
        split, BitVec.toNat_setWidth] at hs ⊢
      omega
    · intro a ha b hb hab
      simp only [resClass, Finset.mem_filter, Finset.mem_univ, true_and] at ha hb
      apply split_bijective.1
      exact Prod.ext (by simp [split, ha, hb]) hab
    · intro b hb
      simp only [Finset.mem_filter, Finset.mem_univ, true_and, Finset.mem_product] at hb
      obtain ⟨s, hs⟩ := split_bijective.2 (w, b)
      refine ⟨s, ?_, by rw [hs]⟩
      have h1 := congrArg Prod.fst hs
      have h2 := congrArg (fun p => p.2.2.toNat) hs
      simp only [split, BitVec.toNat_setWidth] at h1 h2
      simp only [resClass, Finset.mem_filter, Finset.mem_univ, true_and]
      exact ⟨by omega, h1⟩
  rw [h, Finset.card_product, card_low r hr, Finset.card_univ, card_bitVec]; norm_num

theorem card_class_output (r : ℕ) (hr : r < 4) (W : Finset (BitVec 32)) :
    ((resClass r).filter (fun s => output s ∈ W)).card = W.card * 2 ^ 30 := by
  rw [Finset.card_eq_sum_card_fiberwise (f := output) (t := W)]
  · rw [Finset.sum_const_nat (m := 2 ^ 30)]
    intro w hw
    rw [← card_class_fibre r hr w, Finset.filter_filter]
    apply congrArg Finset.card
    apply Finset.filter_congr
    intro s _
    constructor
    · rintro ⟨_, h⟩; exact h
    · intro h; exact ⟨h ▸ hw, h⟩
  · intro s hs
    simp only [Finset.coe_filter, Set.mem_ofPred_eq] at hs
    exact hs.2

theorem card_class (r : ℕ) (hr : r < 4) : (resClass r).card = 2 ^ 62 := by
  have := card_class_output r hr Finset.univ
  rw [Finset.card_univ, card_bitVec] at this
  simp only [Finset.mem_univ, Finset.filter_true] at this
  rw [this]; norm_num

theorem stepState_mod4 (c t : BitVec 64) :
    (stepState c t).toNat % 4 = (t.toNat + c.toNat) % 4 := by
  have h1 : pcgMultiplier.toNat = 6364136223846793005 := by decide
  rw [stepState, BitVec.toNat_add, BitVec.toNat_mul, h1]
  omega

theorem iterate4_mod4 (c t : BitVec 64) (k : ℕ) :
    ((stepState c)^[4 * k] t).toNat % 4 = t.toNat % 4 := by
  induction k with
  | zero => rfl
  | succ k ih =>
    rw [show 4 * (k + 1) = (4 * k) + 1 + 1 + 1 + 1 by ring]
    simp only [Function.iterate_succ_apply', stepState_mod4, Nat.add_mod, Nat.mod_mod] at *
    omega

/-- Every state of a residue class lies on the orbit taken four steps at a time. -/
theorem orbit4 {c : BitVec 64} (hc : c.toNat % 2 = 1) (s t : BitVec 64)
    (h : t.toNat % 4 = s.toNat % 4) : ∃ k, (stepState c)^[4 * k] s = t := by
  have hS : (Finset.range (2 ^ 62)).image (fun k => (stepState c)^[4 * k] s) =
      resClass (s.toNat % 4) := by
    apply Finset.eq_of_subset_of_card_le
    · intro t ht
      simp only [Finset.mem_image, Finset.mem_range] at ht
      obtain ⟨k, -, rfl⟩ := ht
      simp only [resClass, Finset.mem_filter, Finset.mem_univ, true_and]
      exact iterate4_mod4 c s k
    · rw [card_class _ (Nat.mod_lt _ (by norm_num)), Finset.card_image_of_injOn, Finset.card_range]
      intro a ha b hb hab
      simp only [Finset.coe_range, Set.mem_Iio] at ha hb
      have := position_injOn hc s (x₁ := 4 * a) (x₂ := 4 * b)
        (by simp only [Set.mem_Iio]; omega) (by simp only [Set.mem_Iio]; omega) hab
      omega
  have ht : t ∈ resClass (s.toNat % 4) := by
    simp only [resClass, Finset.mem_filter, Finset.mem_univ, true_and]; exact h
  rw [← hS] at ht
  simp only [Finset.mem_image] at ht
  obtain ⟨k, -, hk⟩ := ht
  exact ⟨k, hk⟩

/-- The middle range of words, without the exact middle. -/
def middle : Finset (BitVec 32) := Finset.univ.filter
  (fun w => 3 * 2 ^ 28 ≤ w.toNat ∧ w.toNat < 13 * 2 ^ 28 ∧ w.toNat ≠ 2 ^ 31)

theorem card_middle : middle.card = 10 * 2 ^ 28 - 1 := by
  have h : middle.card = ((Finset.Ico (3 * 2 ^ 28) (13 * 2 ^ 28)).erase (2 ^ 31)).card := by
    apply Finset.card_bij (fun w _ => w.toNat)
    · intro w hw
      simp only [middle, Finset.mem_filter, Finset.mem_univ, true_and] at hw
      simp only [Finset.mem_erase, Finset.mem_Ico]; exact ⟨hw.2.2, hw.1, hw.2.1⟩
    · intro a _ b _ hab; exact BitVec.eq_of_toNat_eq hab
    · intro k hk
      simp only [Finset.mem_erase, Finset.mem_Ico] at hk
      refine ⟨BitVec.ofNat 32 k, ?_, ?_⟩
      · simp only [middle, Finset.mem_filter, Finset.mem_univ, true_and, BitVec.toNat_ofNat]; omega
      · simp only [BitVec.toNat_ofNat]; omega
  rw [h, Finset.card_erase_of_mem, Nat.card_Ico]
  · norm_num
  · simp only [Finset.mem_Ico]; norm_num

/-- From every state, some multiple of four steps ahead, the next word and the word two after it
are both in the middle range. -/
theorem exists_middle_pair {c : BitVec 64} (hc : c.toNat % 2 = 1) (s : BitVec 64) :
    ∃ k, output ((stepState c)^[4 * k] s) ∈ middle ∧
      output (stepState c (stepState c ((stepState c)^[4 * k] s))) ∈ middle := by
  set r := s.toNat % 4 with hr
  have hr4 : r < 4 := Nat.mod_lt _ (by norm_num)
  suffices ∃ t ∈ resClass r, output t ∈ middle ∧ output (stepState c (stepState c t)) ∈ middle by
    obtain ⟨t, ht, h⟩ := this
    simp only [resClass, Finset.mem_filter, Finset.mem_univ, true_and] at ht
    obtain ⟨k, hk⟩ := orbit4 hc s t ht
    exact ⟨k, by rw [hk]; exact h⟩
  by_contra hno
  push Not at hno
  set r' := (r + c.toNat + c.toNat) % 4 with hr'
  have hr4' : r' < 4 := Nat.mod_lt _ (by norm_num)
  have h1 : ((resClass r).filter (fun t => output t ∈ middle)).card ≤
      ((resClass r').filter (fun t => output t ∈ middleᶜ)).card := by
    apply Finset.card_le_card_of_injOn (fun t => stepState c (stepState c t))
    · intro t ht
      simp only [Finset.coe_filter, Set.mem_ofPred_eq] at ht ⊢
      refine ⟨?_, by rw [Finset.mem_compl]; exact hno t ht.1 ht.2⟩
      have h2 := ht.1
      simp only [resClass, Finset.mem_filter, Finset.mem_univ, true_and] at h2 ⊢
      rw [stepState_mod4, Nat.add_mod, stepState_mod4]
      omega
    · intro a _ b _ hab
      exact stepState_injective c hc (stepState_injective c hc hab)
  rw [card_class_output r hr4, card_class_output r' hr4', Finset.card_compl, card_middle,
    card_bitVec] at h1
  norm_num at h1

end Multicalc.Pcg32
