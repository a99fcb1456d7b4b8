import Verif.Lemmas.Summation

/-!
# Properties C14, C15, C81: running sums
-/

namespace Multicalc

namespace PairwiseSum

/-- In exact arithmetic: a partial sum is the sum of its terms. -/
def exactClaims {T : Type} [AddCommMonoid T] (all : Multiset T) : Claims T all where
  blk _ v A := v = A.sum
  slot _ v A := v = A.sum
  fin _ v A := v = A.sum
  blk_zero := by simp
  blk_add := by intro n v A x h; simp [h]
  blk_full := by intro v A h; exact h
  slot_carry := by intro k a b A B ha hb; simp [ha, hb]
  slot_top := by intro v A h _; exact h
  fin_start := by intro n v A _ h; exact h
  fin_add := by intro k s t A B hs ht; simp [hs, ht]
  fin_skip := by intro k s A h; exact h

/-- C14. In exact arithmetic the pairwise accumulator loses no term and counts none twice: after
any series, of any length, the total is the sum of the series. -/
theorem pairwise_total_eq_sum {T : Type} [AddCommMonoid T] (xs : List T) :
    (xs.foldl add new).total = xs.sum := by
  have h := inv_foldl (exactClaims (xs : Multiset T)) xs new 0 (inv_new _) (by simp)
  have := (total_spec _ _ _ h).1
  simpa [exactClaims] using this

/-- C14. The occupancy word never uses a level that the slot array does not have, for any number of
terms, so no carry is dropped. -/
theorem pairwise_levels_in_range {T : Type} [AddCommMonoid T] (xs : List T) (k : ℕ)
    (hk : (xs.foldl add new).occupied.getLsbD k = true) : k < sumLevels := by
  have h := inv_foldl (exactClaims (xs : Multiset T)) xs new 0 (inv_new _) (by simp)
  obtain ⟨_, S, A, hS, _⟩ := h
  by_contra hc
  rw [hS.low k (by omega)] at hk; simp at hk

/-- Non-trivial case: 300 terms fill two blocks and leave a partial one. -/
example : ((List.replicate 300 (1 : ℕ)).foldl add new).total = 300 := by
  rw [pairwise_total_eq_sum, List.sum_replicate]; rfl

/-- The rounding-error claim: a partial sum at depth `d` is off by at most
`((1+u)^d - 1) * Σ|x|`. -/
def Near {T : Type} (val : T → ℝ) (u : ℝ) (d : ℕ) (v : T) (A : Multiset T) : Prop :=
  |val v - (A.map val).sum| ≤ ((1 + u) ^ d - 1) * (A.map (fun x => |val x|)).sum

theorem abs_sum_le {T : Type} (val : T → ℝ) (A : Multiset T) :
    |(A.map val).sum| ≤ (A.map (fun x => |val x|)).sum := by
  induction A using Multiset.induction with
  | empty => simp
  | cons a A ih =>
    simp only [Multiset.map_cons, Multiset.sum_cons]
    exact (abs_add_le _ _).trans (by gcongr)

theorem sum_abs_nonneg {T : Type} (val : T → ℝ) (A : Multiset T) :
    0 ≤ (A.map (fun x => |val x|)).sum := by
  apply Multiset.sum_nonneg; intro x hx
  obtain ⟨y, _, rfl⟩ := Multiset.mem_map.mp hx
  exact abs_nonneg _

theorem Near.mono {T : Type} {val : T → ℝ} {u : ℝ} (hu : 0 ≤ u) {d e : ℕ} {v : T}
    {A : Multiset T} (h : Near val u d v A) (hde : d ≤ e) : Near val u e v A := by
  refine le_trans h ?_
  have := pow_le_pow_right₀ (show (1 : ℝ) ≤ 1 + u by linarith) hde
  have := sum_abs_nonneg val A
  gcongr

theorem Near.add {T : Type} [Add T] {val : T → ℝ} {u : ℝ} (hu : 0 ≤ u)
    (hadd : ∀ a b : T, |val (a + b) - (val a + val b)| ≤ u * |val a + val b|) {d : ℕ} {v w : T}
    {A B : Multiset T} (h1 : Near val u d v A) (h2 : Near val u d w B) :
    Near val u (d + 1) (v + w) (A + B) := by
  unfold Near at *
  simp only [Multiset.map_add, Multiset.sum_add]
  set SA := (A.map val).sum
  set SB := (B.map val).sum
  set NA := (A.map (fun x => |val x|)).sum
  set NB := (B.map (fun x => |val x|)).sum
  have a1 : |SA| ≤ NA := abs_sum_le val A
  have a2 : |SB| ≤ NB := abs_sum_le val B
  have e1 : |(val v + val w) - (SA + SB)| ≤ ((1 + u) ^ d - 1) * (NA + NB) := by
    calc |(val v + val w) - (SA + SB)| = |(val v - SA) + (val w - SB)| := by ring_nf
      _ ≤ |val v - SA| + |val w - SB| := abs_add_le _ _
      _ ≤ ((1 + u) ^ d - 1) * (NA + NB) := by linarith
  have e2 : |val v + val w| ≤ (1 + u) ^ d * (NA + NB) := by
    have : |val v + val w| ≤ |(val v + val w) - (SA + SB)| + |SA + SB| := by
      have := abs_add_le ((val v + val w) - (SA + SB)) (SA + SB)
      simpa using this
    have := abs_add_le SA SB
    nlinarith
  calc |val (v + w) - (SA + SB)|
      = |(val (v + w) - (val v + val w)) + ((val v + val w) - (SA + SB))| := by ring_nf
    _ ≤ |val (v + w) - (val v + val w)| + |(val v + val w) - (SA + SB)| := abs_add_le _ _
    _ ≤ u * |val v + val w| + ((1 + u) ^ d - 1) * (NA + NB) := add_le_add (hadd v w) e1
    _ ≤ u * ((1 + u) ^ d * (NA + NB)) + ((1 + u) ^ d - 1) * (NA + NB) := by gcongr
    _ = ((1 + u) ^ (d + 1) - 1) * (NA + NB) := by ring

theorem near_single {T : Type} (val : T → ℝ) (u : ℝ) (x : T) : Near val u 0 x {x} := by
  simp [Near]

/-- The claims of the rounding-error analysis, for a series shorter than `128 * 2^32` terms. -/
def roundClaims {T : Type} [Zero T] [Add T] (all : Multiset T) (val : T → ℝ) (u : ℝ) (hu : 0 ≤ u)
    (h0 : val 0 = 0) (hadd : ∀ a b : T, |val (a + b) - (val a + val b)| ≤ u * |val a + val b|)
    (hn : Multiset.card all < sumBlock * 2 ^ sumLevels) : Claims T all where
  blk n v A := Near val u n v A ∧ Multiset.card A = n
  slot k v A := Near val u (sumBlock + k) v A ∧ Multiset.card A = sumBlock * 2 ^ k
  fin k v A := Near val u (sumBlock + k) v A
  blk_zero := by simp [Near, h0]
  blk_add := by
    intro n v A x ⟨h, hc⟩
    exact ⟨h.add hu hadd ((near_single val u x).mono hu (Nat.zero_le _)), by simp [hc]⟩
  blk_full := by
    intro v A ⟨h, hc⟩
    exact ⟨h.mono hu (by simp), by simp [hc]⟩
  slot_carry := by
    intro k a b A B ⟨ha, hca⟩ ⟨hb, hcb⟩
    exact ⟨ha.add hu hadd hb, by rw [Multiset.card_add, hca, hcb]; ring⟩
  slot_top := by
    intro v A ⟨_, hc⟩ hA
    have := Multiset.card_le_card hA
    omega
  fin_start := by
    intro n v A hlt ⟨h, _⟩
    exact h.mono hu (by omega)
  fin_add := by
    intro k s t A B hs ⟨ht, _⟩
    exact hs.add hu hadd ht
  fin_skip := by
    intro k s A h
    exact h.mono hu (by omega)

/-- C81. Rounding error of the pairwise accumulator.  For any scalar whose addition has relative
error at most `u` (such as floating point without overflow), the total of `n` terms is off by at
most `((1+u)^(128 + bits) - 1) * Σ|x|` where `bits` is the bit length of `n / 128`: the error grows
with the logarithm of the number of terms, not with the number.  The hypothesis `n < 128 * 2^32` is
the range where the level array is not exhausted. -/
theorem pairwise_error_bound {T : Type} [Zero T] [Add T] (val : T → ℝ) (u : ℝ) (hu : 0 ≤ u)
    (h0 : val 0 = 0) (hadd : ∀ a b : T, |val (a + b) - (val a + val b)| ≤ u * |val a + val b|)
    (xs : List T) (hn : xs.length < 128 * 2 ^ 32) :
    |val (xs.foldl add new).total - (xs.map val).sum| ≤
      ((1 + u) ^ (128 + (xs.length / 128).size) - 1) * (xs.map (fun x => |val x|)).sum := by
  let C := roundClaims (xs : Multiset T) val u hu h0 hadd (by simpa [sumBlock, sumLevels] using hn)
  have h := inv_foldl C xs new 0 (inv_new _) (by simp)
  obtain ⟨h1, h2, h3⟩ := total_spec _ _ _ h
  set sz := (xs.foldl add new).occupied.toNat.size
  have hsz : sz ≤ (xs.length / 128).size := by
    rcases Nat.eq_zero_or_pos sz with h | h
    · omega
    · obtain ⟨v, B, ⟨_, hc⟩, hB⟩ := h3 h
      have hle := Multiset.card_le_card hB
      rw [hc] at hle
      simp only [zero_add, Multiset.coe_card, sumBlock] at hle
      have : 2 ^ (sz - 1) ≤ xs.length / 128 := by
        rw [Nat.le_div_iff_mul_le (by norm_num)]; linarith
      have := Nat.lt_size.mpr this
      omega
  have h4 : Near val u (sumBlock + sz) (xs.foldl add new).total (0 + (xs : Multiset T)) := h1
  have h5 := h4.mono hu (show sumBlock + sz ≤ 128 + (xs.length / 128).size by
    simp only [sumBlock]; omega)
  simpa [Near] using h5

/-- A scalar whose addition is always wrong by one part in a thousand. -/
structure Sloppy where
  x : ℝ

instance : Zero Sloppy := ⟨⟨0⟩⟩
noncomputable instance : Add Sloppy := ⟨fun a b => ⟨(a.x + b.x) * (1 + 1 / 1000)⟩⟩

/-- The hypotheses of the error bound hold for it. -/
example : (0 : Sloppy).x = 0 ∧
    ∀ a b : Sloppy, |(a + b).x - (a.x + b.x)| ≤ (1 / 1000) * |a.x + b.x| := by
  refine ⟨rfl, fun a b => ?_⟩
  show |(a.x + b.x) * (1 + 1 / 1000) - (a.x + b.x)| ≤ _
  rw [show (a.x + b.x) * (1 + 1 / 1000) - (a.x + b.x) = (1 / 1000) * (a.x + b.x) by ring, abs_mul]
  norm_num

end PairwiseSum

/-- C15. In exact arithmetic the compensated accumulator's total is the sum of the series and its
compensation stays zero, for every series. -/
theorem kahan_total_eq_sum {T : Type} [AddCommGroup T] (xs : List T) :
    (xs.foldl KahanSum.add KahanSum.new).total = xs.sum ∧
    (xs.foldl KahanSum.add KahanSum.new).compensation = 0 := by
  have key : ∀ (xs : List T) (s : T),
      xs.foldl KahanSum.add ⟨s, 0⟩ = (⟨s + xs.sum, 0⟩ : KahanSum T) := by
    intro xs
    induction xs with
    | nil => intro s; simp
    | cons x xs ih =>
      intro s
      rw [List.foldl_cons]
      have : KahanSum.add ⟨s, 0⟩ x = (⟨s + x, 0⟩ : KahanSum T) := by simp [KahanSum.add]
      rw [this, ih, List.sum_cons, add_assoc]
  have := key xs 0
  simp only [KahanSum.new, this, KahanSum.total, zero_add, and_self]

/-- One step of the compensated sum with every operation off by a relative `u`: the corrected total
`sum - compensation` picks up an error of order `u` in the new term only, the rest being of order
`u²`. -/
theorem kahan_step {u A S s c x y s' d c' E η σ γ δ : ℝ} (hu : 0 ≤ u) (hu1 : u ≤ 1 / 64)
    (hη : |η| ≤ u) (hσ : |σ| ≤ u) (hγ : |γ| ≤ u) (hδ : |δ| ≤ u)
    (hy : y = (x - c) * (1 + η)) (hs' : s' = (s + y) * (1 + σ)) (hd : d = (s' - s) * (1 + γ))
    (hc' : c' = (d - y) * (1 + δ))
    (hA : 0 ≤ A) (hS : |S + x| ≤ A) (hx : |x| ≤ A) (hc : |c| ≤ 3 * u * A)
    (hE : |(s - c) - S| ≤ E) (hE1 : E ≤ A / 16) :
    |c'| ≤ 3 * u * A ∧ |(s' - c') - (S + x)| ≤ E + 2 * u * |x| + 11 * u ^ 2 * A := by
  have hsq : (1 + u) ^ 2 ≤ 1 + 1 / 30 := by
    have : (1 + u) ^ 2 ≤ (1 + 1 / 64) ^ 2 := by gcongr
    linarith
  have hxc : |x - c| ≤ |x| + 3 * u * A := (abs_sub _ _).trans (by linarith)
  have hxc2 : |x - c| ≤ 67 / 64 * A := by nlinarith
  have h1η : |1 + η| ≤ 1 + u := (abs_add_le _ _).trans (by rw [abs_one]; linarith)
  have h1δ : |1 + δ| ≤ 1 + u := (abs_add_le _ _).trans (by rw [abs_one]; linarith)
  have h1γ : |1 + γ| ≤ 1 + u := (abs_add_le _ _).trans (by rw [abs_one]; linarith)
  have hy1 : |y| ≤ |x - c| * (1 + u) := by
    rw [hy, abs_mul]; exact mul_le_mul_of_nonneg_left h1η (abs_nonneg _)
  have hy2 : |y| ≤ 11 / 10 * A := by nlinarith [abs_nonneg (x - c)]
  have hsy : s + y = (S + x) + ((s - c) - S) + (x - c) * η := by rw [hy]; ring
  have hxη : |(x - c) * η| ≤ |x - c| * u := by
    rw [abs_mul]; exact mul_le_mul_of_nonneg_left hη (abs_nonneg _)
  have hsy2 : |s + y| ≤ 11 / 10 * A := by
    rw [hsy]
    refine (abs_add_le _ _).trans ?_
    have := abs_add_le (S + x) ((s - c) - S)
    nlinarith [abs_nonneg (x - c)]
  have hσs : |σ * (s + y)| ≤ u * (11 / 10 * A) := by
    rw [abs_mul]; exact mul_le_mul hσ hsy2 (abs_nonneg _) hu
  have hγy : |γ * y| ≤ u * |y| := by
    rw [abs_mul]; exact mul_le_mul_of_nonneg_right hγ (abs_nonneg _)
  have hc'' : c' = (σ * (s + y) * (1 + γ) + γ * y) * (1 + δ) := by
    rw [hc', hd, hs']; ring
  have huA : 0 ≤ u * A := mul_nonneg hu hA
  have hin : |σ * (s + y) * (1 + γ)| ≤ u * (11 / 10 * A) * (1 + u) := by
    rw [abs_mul]; exact mul_le_mul hσs h1γ (abs_nonneg _) (by positivity)
  constructor
  · rw [hc'', abs_mul]
    have h1 : |σ * (s + y) * (1 + γ) + γ * y| ≤ 223 / 100 * (u * A) := by
      refine (abs_add_le _ _).trans ?_
      have e1 : u * |y| ≤ u * (11 / 10 * A) := mul_le_mul_of_nonneg_left hy2 hu
      have e2 : u * (11 / 10 * A) * (1 + u) ≤ u * (11 / 10 * A) * (65 / 64) :=
        mul_le_mul_of_nonneg_left (by linarith) (by positivity)
      linarith
    calc _ ≤ 223 / 100 * (u * A) * (1 + u) := mul_le_mul h1 h1δ (abs_nonneg _) (by positivity)
      _ ≤ 223 / 100 * (u * A) * (65 / 64) := mul_le_mul_of_nonneg_left (by linarith) (by positivity)
      _ ≤ 3 * u * A := by linarith
  · have heq : (s' - c') - (S + x) = ((s - c) - S) + (x - c) * η - (1 + δ) * (γ * y)
        - (γ + δ * (1 + γ)) * (σ * (s + y)) := by
      rw [hc'', hs', hy]; ring
    have hγδ : |γ + δ * (1 + γ)| ≤ u * (2 + u) := by
      refine (abs_add_le _ _).trans ?_
      have : |δ * (1 + γ)| ≤ u * (1 + u) := by
        rw [abs_mul]; exact mul_le_mul hδ h1γ (abs_nonneg _) hu
      linarith
    have t1 : |(1 + δ) * (γ * y)| ≤ (1 + u) * (u * |y|) := by
      rw [abs_mul]; exact mul_le_mul h1δ hγy (abs_nonneg _) (by linarith)
    have t2 : |(γ + δ * (1 + γ)) * (σ * (s + y))| ≤ u * (2 + u) * (u * (11 / 10 * A)) := by
      rw [abs_mul]; exact mul_le_mul hγδ hσs (abs_nonneg _) (by positivity)
    have t3 : |((s - c) - S) + (x - c) * η - (1 + δ) * (γ * y)
        - (γ + δ * (1 + γ)) * (σ * (s + y))| ≤ |(s - c) - S| + |(x - c) * η| + |(1 + δ) * (γ * y)|
        + |(γ + δ * (1 + γ)) * (σ * (s + y))| := by
      refine (abs_sub _ _).trans (add_le_add_left ?_ _)
      refine (abs_sub _ _).trans (add_le_add_left ?_ _)
      exact abs_add_le _ _
    rw [heq]
    refine t3.trans ?_
    have hxn := abs_nonneg x
    -- first-order terms
    have f1 : |x - c| * u ≤ u * |x| + 3 * u ^ 2 * A :=
      (mul_le_mul_of_nonneg_right hxc hu).trans (le_of_eq (by ring))
    have f2 : (1 + u) * (u * |y|) ≤ u * |x| + (u ^ 2 * A) * (2 + 1 / 64) +
        3 * (u ^ 2 * A) * (1 + 1 / 30) := by
      have g1 : (1 + u) * (u * |y|) ≤ (1 + u) * (u * ((|x| + 3 * u * A) * (1 + u))) := by
        have : |y| ≤ (|x| + 3 * u * A) * (1 + u) :=
          hy1.trans (mul_le_mul_of_nonneg_right hxc (by linarith))
        gcongr
      have g2 : (1 + u) * (u * ((|x| + 3 * u * A) * (1 + u))) =
          u * |x| + u ^ 2 * |x| * (2 + u) + 3 * (u ^ 2 * A) * (1 + u) ^ 2 := by ring
      have g3 : u ^ 2 * |x| * (2 + u) ≤ u ^ 2 * A * (2 + 1 / 64) :=
        mul_le_mul (mul_le_mul_of_nonneg_left hx (sq_nonneg u)) (by linarith) (by linarith)
          (by positivity)
      have g4 : 3 * (u ^ 2 * A) * (1 + u) ^ 2 ≤ 3 * (u ^ 2 * A) * (1 + 1 / 30) := by
        exact mul_le_mul_of_nonneg_left hsq (by positivity)
      linarith
    have f3 : u * (2 + u) * (u * (11 / 10 * A)) ≤ (u ^ 2 * A) * (5 / 2) := by
      have : u * (2 + u) * (u * (11 / 10 * A)) = (u ^ 2 * A) * (11 / 10 * (2 + u)) := by ring
      rw [this]
      have : 11 / 10 * (2 + u) ≤ 5 / 2 := by linarith
      gcongr
    have hu2A : 0 ≤ u ^ 2 * A := by positivity
    linarith

/-- C86. Rounding error of the compensated accumulator.  For any scalar whose addition and
subtraction have relative error at most `u`, the total of `n` terms is off by at most
`(5u + 11nu²) Σ|x|` as long as `nu ≤ 1/16` (for double precision, up to 2⁴⁹ terms): the part of
order `u` does not grow with the number of terms at all. -/
theorem kahan_error_bound {T : Type} [Zero T] [Add T] [Sub T] (val : T → ℝ) (u : ℝ) (hu : 0 ≤ u)
    (hu1 : u ≤ 1 / 64) (h0 : val 0 = 0)
    (hadd : ∀ a b : T, |val (a + b) - (val a + val b)| ≤ u * |val a + val b|)
    (hsub : ∀ a b : T, |val (a - b) - (val a - val b)| ≤ u * |val a - val b|)
    (xs : List T) (hn : xs.length * u ≤ 1 / 16) :
    |val (xs.foldl KahanSum.add KahanSum.new).total - (xs.map val).sum| ≤
      (5 * u + 11 * xs.length * u ^ 2) * (xs.map (fun x => |val x|)).sum := by
  have rel : ∀ v w : ℝ, |v - w| ≤ u * |w| → ∃ η, |η| ≤ u ∧ v = w * (1 + η) := by
    intro v w h
    rcases eq_or_ne w 0 with rfl | hw
    · refine ⟨0, by simpa using hu, ?_⟩
      rw [abs_zero, mul_zero, sub_zero] at h
      rw [abs_nonpos_iff.mp h]; ring
    · refine ⟨(v - w) / w, ?_, by field_simp; ring⟩
      rw [abs_div, div_le_iff₀ (abs_pos.mpr hw)]; exact h
  set A := (xs.map (fun x => |val x|)).sum with hA
  have hnn : ∀ l : List T, 0 ≤ (l.map (fun x => |val x|)).sum := by
    intro l
    apply List.sum_nonneg
    intro a ha
    obtain ⟨x, -, rfl⟩ := List.mem_map.mp ha
    exact abs_nonneg _
  have habs : ∀ l : List T, |(l.map val).sum| ≤ (l.map (fun x => |val x|)).sum := by
    intro l
    induction l with
    | nil => simp
    | cons a l ih =>
      simp only [List.map_cons, List.sum_cons]
      exact (abs_add_le _ _).trans (by linarith)
  have key : ∀ (rest done : List T) (st : KahanSum T), done ++ rest = xs →
      |val st.compensation| ≤ 3 * u * A →
      |(val st.sum - val st.compensation) - (done.map val).sum| ≤
        2 * u * (done.map (fun x => |val x|)).sum + 11 * done.length * u ^ 2 * A →
      let r := rest.foldl KahanSum.add st
      |val r.compensation| ≤ 3 * u * A ∧
      |(val r.sum - val r.compensation) - (xs.map val).sum| ≤ 2 * u * A + 11 * xs.length * u ^ 2 * A
      := by
    intro rest
    induction rest with
    | nil =>
      intro done st h1 h2 h3
      rw [List.append_nil] at h1
      subst h1
      exact ⟨h2, h3⟩
    | cons x rest ih =>
      intro done st h1 h2 h3
      rw [List.foldl_cons]
      have h1' : (done ++ [x]) ++ rest = xs := by rw [← h1]; simp
      have hlen : (done.length : ℝ) + 1 ≤ xs.length := by
        rw [← h1, List.length_append, List.length_cons]; push_cast
        have := (Nat.cast_nonneg rest.length : (0 : ℝ) ≤ _)
        linarith
      have hAsum : (done.map (fun x => |val x|)).sum + |val x| +
          (rest.map (fun x => |val x|)).sum = A := by
        rw [hA, ← h1]; simp [add_assoc]
      have hr0 := hnn rest
      have hd0 := hnn done
      have hx0 := abs_nonneg (val x)
      have hA0 : 0 ≤ A := hnn xs
      obtain ⟨η, hη, ey⟩ := rel _ _ (hsub x st.compensation)
      obtain ⟨σ, hσ, es⟩ := rel _ _ (hadd st.sum (x - st.compensation))
      obtain ⟨γ, hγ, ed⟩ := rel _ _ (hsub (st.sum + (x - st.compensation)) st.sum)
      obtain ⟨δ, hδ, ec⟩ := rel _ _ (hsub (st.sum + (x - st.compensation) - st.sum)
        (x - st.compensation))
      have hstep := kahan_step (A := A) (S := (done.map val).sum) hu hu1 hη hσ hγ hδ ey es ed ec hA0
        (by
          have e : (done.map val).sum + val x = ((done ++ [x]).map val).sum := by simp
          rw [e]
          refine (habs _).trans ?_
          simp only [List.map_append, List.sum_append, List.map_cons, List.map_nil, List.sum_cons,
            List.sum_nil, add_zero]
          linarith)
        (by linarith) h2 h3 (by
          have e1 : 2 * u * (done.map (fun x => |val x|)).sum ≤ 2 * (1 / 64) * A := by
            gcongr; linarith
          have e2 : 11 * (done.length : ℝ) * u ^ 2 * A ≤ 11 * (1 / 16) * (1 / 64) * A := by
            have : (done.length : ℝ) * u ≤ 1 / 16 := by nlinarith
            have e3 : (done.length : ℝ) * u * u ≤ 1 / 16 * (1 / 64) := by gcongr
            have : 11 * (done.length : ℝ) * u ^ 2 * A = 11 * ((done.length : ℝ) * u * u) * A := by
              ring
            rw [this]
            have : 11 * ((done.length : ℝ) * u * u) * A ≤ 11 * (1 / 16 * (1 / 64)) * A := by gcongr
            linarith
          linarith)
      refine ih (done ++ [x]) (st.add x) h1' hstep.1 ?_
      have h4 := hstep.2
      simp only [List.map_append, List.sum_append, List.map_cons, List.map_nil, List.sum_cons,
        List.sum_nil, add_zero, List.length_append, List.length_singleton]
      push_cast
      refine h4.trans (le_of_eq ?_)
      ring
  have h := key xs [] KahanSum.new rfl (by
    simp only [KahanSum.new, h0, abs_zero]
    exact mul_nonneg (by linarith) (hnn xs)) (by simp [KahanSum.new, h0])
  obtain ⟨h1, h2⟩ := h
  generalize xs.foldl KahanSum.add KahanSum.new = r at h1 h2 ⊢
  have e : val r.total - (xs.map val).sum =
      (val r.sum - val r.compensation - (xs.map val).sum) + val r.compensation := by
    simp only [KahanSum.total]; ring
  rw [e]
  refine (abs_add_le _ _).trans ?_
  nlinarith

noncomputable instance : Sub PairwiseSum.Sloppy := ⟨fun a b => ⟨(a.x - b.x) * (1 + 1 / 1000)⟩⟩

/-- The hypotheses of the compensated bound hold for a scalar whose operations are always wrong by
one part in a thousand, for series of up to sixty terms. -/
example : (1 / 1000 : ℝ) ≤ 1 / 64 ∧ (60 : ℕ) * (1 / 1000 : ℝ) ≤ 1 / 16 ∧
    ∀ a b : PairwiseSum.Sloppy, |(a - b).x - (a.x - b.x)| ≤ (1 / 1000) * |a.x - b.x| := by
  refine ⟨by norm_num, by norm_num, fun a b => ?_⟩
  show |(a.x - b.x) * (1 + 1 / 1000) - (a.x - b.x)| ≤ _
  rw [show (a.x - b.x) * (1 + 1 / 1000) - (a.x - b.x) = (1 / 1000) * (a.x - b.x) by ring, abs_mul]
  norm_num

/-- C14, C15. Both accumulators compute the same sum in exact arithmetic. -/
theorem accSum_eq_sum {T : Type} [AddCommGroup T] (m : SummationMethod) (xs : List T) :
    accSum m xs = xs.sum := by
  cases m
  · exact PairwiseSum.pairwise_total_eq_sum xs
  · exact (kahan_total_eq_sum xs).1

end Multicalc
