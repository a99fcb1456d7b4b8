import Verif.Model.Scalar
import Mathlib.Tactic

/-!
# Properties C05–C08: scalar helpers
-/

namespace Multicalc

/-! ## C05 wrap_to_pi -/

theorem roundHalfAway_isInt (x : ℝ) : ∃ n : ℤ, roundHalfAway x = n := by
  unfold roundHalfAway
  split
  · exact ⟨-⌊-x + 1 / 2⌋, by push_cast; ring⟩
  · exact ⟨_, rfl⟩

theorem abs_sub_roundHalfAway_le (x : ℝ) : |x - roundHalfAway x| ≤ 1 / 2 := by
  unfold roundHalfAway
  split
  · have h1 := Int.floor_le (-x + 1 / 2)
    have h2 := Int.lt_floor_add_one (-x + 1 / 2)
    rw [abs_le]; constructor <;> linarith
  · have h1 := Int.floor_le (x + 1 / 2)
    have h2 := Int.lt_floor_add_one (x + 1 / 2)
    rw [abs_le]; constructor <;> linarith

/-- C05. The wrapped angle is in `[-π, π]`, is the same angle modulo `2π`, and so has the same
sine and cosine. -/
theorem wrapToPi_spec (x : ℝ) :
    -Real.pi ≤ wrapToPi x ∧ wrapToPi x ≤ Real.pi ∧
    (∃ n : ℤ, x = wrapToPi x + n * (2 * Real.pi)) ∧
    Real.sin (wrapToPi x) = Real.sin x ∧ Real.cos (wrapToPi x) = Real.cos x := by
  have hpi := Real.pi_pos
  obtain ⟨n, hn⟩ := roundHalfAway_isInt (x / (Real.pi * 2))
  have hab := abs_sub_roundHalfAway_le (x / (Real.pi * 2))
  have hw : wrapToPi x = x - n * (2 * Real.pi) := by
    simp only [wrapToPi, Fns.pi, Fns.round]; rw [hn]; ring
  rw [hn, abs_le] at hab
  obtain ⟨h1, h2⟩ := hab
  have h3 : x = (x / (Real.pi * 2)) * (Real.pi * 2) := by field_simp
  have hpp : 0 < Real.pi * 2 := by positivity
  have b1 := mul_le_mul_of_nonneg_right h1 hpp.le
  have b2 := mul_le_mul_of_nonneg_right h2 hpp.le
  rw [sub_mul, ← h3] at b1 b2
  refine ⟨by rw [hw]; linarith, by rw [hw]; linarith, ⟨n, by rw [hw]; ring⟩, ?_, ?_⟩
  · rw [hw]; exact Real.sin_sub_int_mul_two_pi x n
  · rw [hw]; exact Real.cos_sub_int_mul_two_pi x n

/-- C05. Angles already strictly inside are left alone, so wrapping twice there is wrapping once. -/
theorem wrapToPi_id {x : ℝ} (h1 : -Real.pi < x) (h2 : x < Real.pi) : wrapToPi x = x := by
  have hpi := Real.pi_pos
  obtain ⟨l, u, ⟨n, hn⟩, -, -⟩ := wrapToPi_spec x
  have hn0 : n = 0 := by
    have e : (n : ℝ) * (2 * Real.pi) = x - wrapToPi x := by linarith
    have a1 : (n : ℝ) * (2 * Real.pi) < 1 * (2 * Real.pi) := by linarith
    have a2 : (-1 : ℝ) * (2 * Real.pi) < n * (2 * Real.pi) := by linarith
    have c1 := lt_of_mul_lt_mul_right a1 (by positivity)
    have c2 := lt_of_mul_lt_mul_right a2 (by positivity)
    have c1' : n < 1 := by exact_mod_cast c1
    have c2' : -1 < n := by exact_mod_cast c2
    omega
  subst hn0
  simp at hn
  exact hn.symm

example : -Real.pi < (1 : ℝ) ∧ (1 : ℝ) < Real.pi := by
  have := Real.two_le_pi; constructor <;> linarith

/-! ## C06 powi -/

theorem powiLoop_eq {T : Type} [CommMonoid T] (e : Nat) (b acc : T) :
    powiLoop e b acc = acc * b ^ e := by
  induction e using Nat.strongRecOn generalizing b acc with
  | _ e ih =>
    rw [powiLoop]
    split
    · next h => simp [h]
    · next h =>
      have hlt : e / 2 < e := by omega
      simp only
      rw [ih _ hlt]
      have hb : (if e / 2 > 0 then b * b else b) ^ (e / 2) = b ^ (2 * (e / 2)) := by
        split
        · rw [pow_mul, sq]
        · next h0 => have : e / 2 = 0 := by omega
                     simp [this]
      rw [hb]
      split
      · next h1 =>
        rw [mul_assoc, ← pow_succ']
        congr 2; omega
      · next h1 => congr 2; omega

/-- C06. `powi` is the integer power, over every field, for every exponent. -/
theorem powi_eq_zpow {K : Type} [Field K] (x : K) (n : ℤ) : powi x n = x ^ n := by
  unfold powi
  simp only [powiLoop_eq, one_mul]
  split
  · next h =>
    obtain ⟨m, rfl⟩ : ∃ m : ℕ, n = -m := ⟨n.natAbs, by omega⟩
    simp
  · next h =>
    obtain ⟨m, rfl⟩ : ∃ m : ℕ, n = m := ⟨n.natAbs, by omega⟩
    simp

/-! ## C07 hypot -/

/-- C07. `hypot` is the Euclidean length for every pair of reals. -/
theorem hypot_eq (x y : ℝ) : hypot x y = Real.sqrt (x ^ 2 + y ^ 2) := by
  have key : ∀ a b : ℝ, 0 ≤ b → b ≤ a → 0 < a →
      a * Real.sqrt (1 + b / a * (b / a)) = Real.sqrt (a ^ 2 + b ^ 2) := by
    intro a b _ _ ha
    rw [← Real.sqrt_sq ha.le, ← Real.sqrt_mul (by positivity), Real.sqrt_sq ha.le]
    congr 1; field_simp
  simp only [hypot, Fns.abs, Fns.sqrt]
  split_ifs with h1 h2 h2
  · simp at h2; subst h2; simp at h1
    exact absurd h1 (not_lt.mpr (abs_nonneg y))
  · simp at h2
    rw [key _ _ (abs_nonneg _) h1.le (by positivity), sq_abs, sq_abs]
  · simp at h2; subst h2
    have : x = 0 := by
      have := abs_nonneg x; simp at h1; exact h1
    simp [this]
  · simp at h2
    rw [key _ _ (abs_nonneg _) (not_lt.mp h1) (by positivity), sq_abs, sq_abs, add_comm]

/-- C07. `hypot` does not depend on argument order or signs. -/
theorem hypot_symm (x y : ℝ) :
    hypot x y = hypot y x ∧ hypot (-x) y = hypot x y ∧ hypot x (-y) = hypot x y := by
  simp [hypot_eq, add_comm]

/-! ## C08 max, min, clamp: for every linear order, arithmetic plays no role -/

section
variable {T : Type} [LinearOrder T]

/-- C08. `max` returns one of its arguments and bounds both. -/
theorem smax_spec (a b : T) : (smax a b = a ∨ smax a b = b) ∧ a ≤ smax a b ∧ b ≤ smax a b := by
  unfold smax; split <;> simp_all [le_of_lt]

/-- C08. `min` returns one of its arguments and is below both. -/
theorem smin_spec (a b : T) : (smin a b = a ∨ smin a b = b) ∧ smin a b ≤ a ∧ smin a b ≤ b := by
  unfold smin; split <;> simp_all [le_of_lt]

/-- C08. Clamping fails exactly on a reversed range; otherwise the result is in range, and a value
already in range is unchanged, and a value outside goes to the nearest end. -/
theorem sclamp_spec (x lo hi : T) :
    (sclamp x lo hi = none ↔ hi < lo) ∧
    ∀ y, sclamp x lo hi = some y →
      lo ≤ y ∧ y ≤ hi ∧ (lo ≤ x → x ≤ hi → y = x) ∧ (x < lo → y = lo) ∧ (hi < x → y = hi) := by
  unfold sclamp
  constructor
  · split <;> simp_all
  · intro y hy
    split at hy
    · next h =>
      simp only [Option.some.injEq] at hy
      subst hy
      split_ifs with h1 h2 h2
      · exact absurd h2 (not_lt.mpr h)
      · refine ⟨le_rfl, h, fun h3 => absurd h1 (not_lt.mpr h3), fun _ => rfl, fun h3 => ?_⟩
        exact absurd (lt_trans h1 (lt_of_le_of_lt h h3)) (lt_irrefl _)
      · exact ⟨h, le_rfl, fun _ h3 => absurd h2 (not_lt.mpr h3), fun h3 => absurd h3 h1, fun _ => rfl⟩
      · exact ⟨not_lt.mp h1, not_lt.mp h2, fun _ _ => rfl, fun h3 => absurd h3 h1, fun h3 => absurd h3 h2⟩
    · exact absurd hy (by simp)

example : sclamp (5 : ℤ) 0 3 = some 3 ∧ sclamp (5 : ℤ) 3 0 = none := by decide
end

end Multicalc
