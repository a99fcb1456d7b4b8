import Verif.Model.Mapping
import Mathlib.Tactic

/-!
# The directions of a range scan (C65)
-/

namespace Multicalc
namespace ScanGeometry
variable {n : ℕ}

/-- What `try_new` and `with_minimum_range` guarantee of a scan. -/
structure Valid (s : ScanGeometry n ℝ) : Prop where
  beams : 2 ≤ n
  fov : 0 < s.fieldOfView
  fov' : s.fieldOfView ≤ 2 * Real.pi
  minimum : 0 ≤ s.minimumRange
  range : s.minimumRange < s.maximumRange

section lawfree
variable {T : Type} [Zero T] [One T] [NatCast T] [Add T] [Sub T] [Neg T] [Mul T] [Div T] [LT T] [LE T]
  [DecidableLT T] [DecidableLE T] [Fns T] [AsUsize T]

/-- C65. `try_new` refuses exactly what it documents, in order, for every scalar type. -/
theorem tryNew_cases (fov r : T) :
    (n < 2 → tryNew n fov r = .error .tooFewBeams) ∧
    (2 ≤ n → (Fns.isFinite fov = false ∨ Fns.isFinite r = false) → tryNew n fov r = .error .nonFinite) ∧
    (2 ≤ n → Fns.isFinite fov = true → Fns.isFinite r = true →
      ((fov ≤ 0 ∨ ((2 : ℕ) : T) * Fns.pi < fov) → tryNew n fov r = .error .invalidFieldOfView) ∧
      (¬ (fov ≤ 0 ∨ ((2 : ℕ) : T) * Fns.pi < fov) →
        (r ≤ 0 → tryNew n fov r = .error .nonPositiveRange) ∧
        (¬ r ≤ 0 → tryNew n fov r = .ok ⟨fov, 0, r⟩))) := by
  unfold tryNew
  refine ⟨fun h => if_pos h, fun h h' => ?_, fun h a b => ⟨fun h' => ?_, fun h' => ⟨fun h'' => ?_, fun h'' => ?_⟩⟩⟩
  · rw [if_neg (by omega), if_pos]; rcases h' with h' | h' <;> simp [h']
  · rw [if_neg (by omega), if_neg (by simp [a, b]), if_pos h']
  · rw [if_neg (by omega), if_neg (by simp [a, b]), if_neg h', if_pos h'']
  · rw [if_neg (by omega), if_neg (by simp [a, b]), if_neg h', if_neg h'']

/-- C65. `range_is_valid` accepts exactly the finite readings between the two limits, for every scalar type. -/
theorem rangeIsValid_iff (s : ScanGeometry n T) (x : T) :
    s.rangeIsValid x = true ↔ Fns.isFinite x = true ∧ s.minimumRange ≤ x ∧ x ≤ s.maximumRange := by
  unfold rangeIsValid
  simp [and_assoc]

end lawfree

/-- C65. Every scan the constructors return is valid. -/
theorem constructed_valid (fov r lo : ℝ) (s s' : ScanGeometry n ℝ) (h : tryNew n fov r = .ok s) :
    s.Valid ∧ s.fieldOfView = fov ∧ s.maximumRange = r ∧ s.minimumRange = 0 ∧
    (s.withMinimumRange lo = .ok s' → s'.Valid ∧ s'.minimumRange = lo ∧ s'.fieldOfView = fov ∧ s'.maximumRange = r) := by
  unfold tryNew at h
  split_ifs at h with h1 h2 h3 h4
  cases h
  push Not at h1 h3 h4
  have hp : (((2 : ℕ) : ℝ) * Fns.pi) = 2 * Real.pi := by push_cast; rfl
  rw [hp] at h3
  have hv : Valid (⟨fov, 0, r⟩ : ScanGeometry n ℝ) := ⟨h1, h3.1, h3.2, le_rfl, h4⟩
  refine ⟨hv, rfl, rfl, rfl, fun h => ?_⟩
  unfold withMinimumRange at h
  split_ifs at h with g1 g2
  cases h
  push Not at g2
  exact ⟨⟨h1, h3.1, h3.2, g2.1, g2.2⟩, rfl, rfl, rfl⟩

theorem beamAngle_eq (s : ScanGeometry n ℝ) (hs : s.Valid) (i : ℕ) :
    beamAngleAcross s.fieldOfView n i = -(s.fieldOfView / 2) + i * s.angleIncrement := by
  unfold beamAngleAcross angleIncrement
  push_cast; ring

theorem increment_pos (s : ScanGeometry n ℝ) (hs : s.Valid) : 0 < s.angleIncrement ∧
    ((n - 1 : ℕ) : ℝ) * s.angleIncrement = s.fieldOfView := by
  have h := hs.beams
  have : (0 : ℝ) < ((n - 1 : ℕ) : ℝ) := by exact_mod_cast (show 0 < n - 1 by omega)
  have hf := hs.fov
  unfold angleIncrement
  exact ⟨by positivity, by field_simp⟩

/-- C65. The beams run from the right edge of the arc to the left one, evenly and in order; there is no beam
past the last; with an odd number of them the middle one points straight ahead. -/
theorem beam_angles (s : ScanGeometry n ℝ) (hs : s.Valid) :
    s.beamAngle 0 = some (-(s.fieldOfView / 2)) ∧ s.beamAngle (n - 1) = some (s.fieldOfView / 2) ∧
    (∀ i, n ≤ i → s.beamAngle i = none) ∧
    (∀ i a b, s.beamAngle i = some a → s.beamAngle (i + 1) = some b → b - a = s.angleIncrement ∧ a < b) ∧
    (∀ k, n = 2 * k + 1 → s.beamAngle k = some 0) ∧
    (∀ i a, s.beamAngle i = some a → ∀ j, i + j = n - 1 → s.beamAngle j = some (-a)) := by
  obtain ⟨hp, hm⟩ := increment_pos s hs
  have hb := hs.beams
  have hval : ∀ i, i < n → s.beamAngle i = some (-(s.fieldOfView / 2) + i * s.angleIncrement) := fun i hi => by
    unfold beamAngle; rw [if_pos hi, beamAngle_eq s hs]
  refine ⟨?_, ?_, fun i hi => if_neg (by omega), fun i a b ha hb' => ?_, fun k hk => ?_, fun i a ha j hj => ?_⟩
  · rw [hval 0 (by omega)]; simp
  · rw [hval _ (by omega), hm]; congr 1; ring
  · have hi : i + 1 < n := by
      by_contra h; unfold beamAngle at hb'; rw [if_neg (by omega)] at hb'; cases hb'
    rw [hval i (by omega)] at ha; rw [hval _ hi] at hb'
    cases ha; cases hb'
    push_cast
    constructor <;> linarith
  · rw [hval k (by omega)]
    have : ((n - 1 : ℕ) : ℝ) = 2 * k := by rw [hk]; push_cast; simp
    rw [this] at hm; congr 1; linarith
  · have hi : i < n := by by_contra h; unfold beamAngle at ha; rw [if_neg h] at ha; cases ha
    rw [hval i hi] at ha; cases ha
    rw [hval j (by omega)]
    have : ((n - 1 : ℕ) : ℝ) = i + j := by rw [← hj]; push_cast; ring
    rw [this] at hm; congr 1; linarith

/-- C65. `nearest_beam_index` answers exactly for directions inside the arc, always with an existing beam, and
no beam is closer to the direction; the number of beams is any that fits a machine word. -/
theorem nearest_beam (s : ScanGeometry n ℝ) (hs : s.Valid) (hn : n ≤ usizeMax) (angle : ℝ) :
    (¬ (-(s.fieldOfView / 2) ≤ angle ∧ angle ≤ s.fieldOfView / 2) → s.nearestBeamIndex angle = none) ∧
    (-(s.fieldOfView / 2) ≤ angle → angle ≤ s.fieldOfView / 2 →
      ∃ i a, s.nearestBeamIndex angle = some i ∧ s.beamAngle i = some a ∧
        |angle - a| ≤ s.angleIncrement / 2 ∧
        ∀ j b, s.beamAngle j = some b → |angle - a| ≤ |angle - b|) := by
  obtain ⟨hp, hm⟩ := increment_pos s hs
  have hb := hs.beams
  have hhalf : s.fieldOfView * (1 / ((2 : ℕ) : ℝ)) = s.fieldOfView / 2 := by push_cast; ring
  have hfin : (Fns.isFinite angle : Bool) = true := rfl
  unfold nearestBeamIndex
  simp only [hhalf, hfin, Bool.not_true, Bool.false_or]
  constructor
  · intro h
    rw [if_pos]
    by_contra hc
    apply h
    simp at hc
    exact hc
  · intro h1 h2
    rw [if_neg (by simp; exact ⟨h1, h2⟩)]
    set q := (angle + s.fieldOfView / 2) / s.angleIncrement with hq
    have hq0 : 0 ≤ q := div_nonneg (by linarith) hp.le
    have hqm : q * s.angleIncrement = angle + s.fieldOfView / 2 := by rw [hq]; field_simp
    have hqn : q ≤ ((n - 1 : ℕ) : ℝ) := by
      rw [hq, div_le_iff₀ hp, hm]; linarith
    have hr : (Fns.round q : ℝ) = ((⌊q + 1 / 2⌋ : ℤ) : ℝ) := by
      show roundHalfAway q = _
      unfold roundHalfAway; rw [if_neg (by linarith)]
    have hf0 : 0 ≤ ⌊q + 1 / 2⌋ := Int.floor_nonneg.2 (by linarith)
    have hfn : ⌊q + 1 / 2⌋ ≤ ((n - 1 : ℕ) : ℤ) := by
      have : ⌊q + 1 / 2⌋ < ((n - 1 : ℕ) : ℤ) + 1 := by
        rw [Int.floor_lt]; push_cast; linarith
      omega
    have hus : asUsize (Fns.round q) = ⌊q + 1 / 2⌋.toNat := by
      rw [hr]
      show min ⌊((⌊q + 1 / 2⌋ : ℤ) : ℝ)⌋₊ usizeMax = _
      rw [← Int.floor_toNat, Int.floor_intCast]
      omega
    rw [if_neg (by rw [hr]; push Not; exact_mod_cast hf0), hus, min_eq_left (by omega)]
    set k := ⌊q + 1 / 2⌋.toNat with hk
    have hkr : ((k : ℕ) : ℝ) = ((⌊q + 1 / 2⌋ : ℤ) : ℝ) := by
      have : ((k : ℕ) : ℤ) = ⌊q + 1 / 2⌋ := Int.toNat_of_nonneg hf0
      exact_mod_cast congrArg (fun z : ℤ => (z : ℝ)) this
    have g1 : (k : ℝ) ≤ q + 1 / 2 := by rw [hkr]; exact Int.floor_le _
    have g2 : q < k + 1 / 2 := by have := Int.lt_floor_add_one (q + 1 / 2); rw [hkr]; linarith
    have hval : ∀ i, i < n → s.beamAngle i = some (-(s.fieldOfView / 2) + i * s.angleIncrement) := fun i hi => by
      unfold beamAngle; rw [if_pos hi, beamAngle_eq s hs]
    have hdist : ∀ i : ℕ, |angle - (-(s.fieldOfView / 2) + i * s.angleIncrement)| = |q - i| * s.angleIncrement := by
      intro i
      rw [← abs_of_pos hp, ← abs_mul, abs_of_pos hp]; congr 1; linarith
    refine ⟨k, _, rfl, hval k (by omega), ?_, fun j b hj => ?_⟩
    · rw [hdist]
      have : |q - k| ≤ 1 / 2 := by rw [abs_le]; constructor <;> linarith
      nlinarith
    · have hjn : j < n := by by_contra h; unfold beamAngle at hj; rw [if_neg h] at hj; cases hj
      rw [hval j hjn] at hj; cases hj
      rw [hdist, hdist]
      refine mul_le_mul_of_nonneg_right ?_ hp.le
      have hk2 : |q - k| ≤ 1 / 2 := by rw [abs_le]; constructor <;> linarith
      by_cases hjk : j = k
      · rw [hjk]
      · have : 1 / 2 ≤ |q - j| := by
          rcases lt_or_gt_of_ne hjk with h | h
          · have : (j : ℝ) + 1 ≤ k := by exact_mod_cast h
            rw [le_abs]; left; linarith
          · have : (k : ℝ) + 1 ≤ j := by exact_mod_cast h
            rw [le_abs]; right; linarith
        linarith

/-- C65. The two directions undo each other: a beam's own direction is answered with that beam. -/
theorem nearest_beam_angle (s : ScanGeometry n ℝ) (hs : s.Valid) (hn : n ≤ usizeMax) (i : ℕ) (a : ℝ)
    (ha : s.beamAngle i = some a) : s.nearestBeamIndex a = some i := by
  obtain ⟨hp, hm⟩ := increment_pos s hs
  have hi : i < n := by by_contra h; unfold beamAngle at ha; rw [if_neg h] at ha; cases ha
  have hval : ∀ i, i < n → s.beamAngle i = some (-(s.fieldOfView / 2) + i * s.angleIncrement) := fun i hi => by
    unfold beamAngle; rw [if_pos hi, beamAngle_eq s hs]
  have ha' := ha
  rw [hval i hi] at ha'; cases ha'
  have hi0 : (0 : ℝ) ≤ i * s.angleIncrement := by positivity
  have hi1 : (i : ℝ) * s.angleIncrement ≤ s.fieldOfView := by
    rw [← hm]; refine mul_le_mul_of_nonneg_right ?_ hp.le
    exact_mod_cast (show i ≤ n - 1 by omega)
  obtain ⟨j, b, h1, h2, -, h4⟩ := (nearest_beam s hs hn (-(s.fieldOfView / 2) + i * s.angleIncrement)).2
    (by linarith) (by linarith)
  have h5 := h4 i _ ha
  rw [sub_self, abs_zero, abs_nonpos_iff] at h5
  have hj : j < n := by by_contra h; unfold beamAngle at h2; rw [if_neg h] at h2; cases h2
  rw [hval j hj] at h2; cases h2
  have : (i : ℝ) = j := by
    have : ((i : ℝ) - j) * s.angleIncrement = 0 := by linarith
    rcases mul_eq_zero.1 this with h | h
    · linarith
    · exact absurd h hp.ne'
  rw [h1]; congr 1; exact_mod_cast this.symm

/-- A five-beam scan over a quarter turn is a valid scan. -/
example : ∃ s : ScanGeometry 5 ℝ, tryNew 5 (Real.pi / 2) 4 = .ok s ∧ s.Valid := by
  have hpi := Real.pi_pos
  have h := ((tryNew_cases (n := 5) (Real.pi / 2) (4 : ℝ)).2.2 (by norm_num) rfl rfl).2 (by
    have hp : (((2 : ℕ) : ℝ) * Fns.pi) = 2 * Real.pi := by push_cast; rfl
    rw [hp]; push Not; constructor <;> linarith)
  have h' := h.2 (by norm_num)
  exact ⟨_, h', (constructed_valid _ _ 0 _ ⟨0, 0, 0⟩ h').1⟩

end ScanGeometry
end Multicalc
