import Verif.Model.Plant
import Verif.Model.XR
import Verif.Lemmas.LinearAlgebra
import Verif.Lemmas.Spatial
import Mathlib.Tactic
import Mathlib.Analysis.SpecialFunctions.ExpDeriv

/-!
# Rotor lag and multirotor mixing
-/

namespace Multicalc

/-! ## Rotor lag -/

section Lag
variable {n : ℕ}

/-- C51. Which models can be built, for every scalar: both numbers finite, lag time and tick positive,
with the errors in that order. -/
theorem rotorLag_new_errors {T : Type} [Zero T] [Add T] [Mul T] [Neg T] [Div T] [LE T] [DecidableLE T]
    [Fns T]
    (tau dt : T) :
    ((Fns.isFinite tau = false ∨ Fns.isFinite dt = false) →
      (RotorLag.new tau dt : Except _ (RotorLag n T)) = .error .nonFinite) ∧
    (Fns.isFinite tau = true → Fns.isFinite dt = true → tau ≤ 0 →
      (RotorLag.new tau dt : Except _ (RotorLag n T)) = .error .nonPositiveTimeConstant) ∧
    (Fns.isFinite tau = true → Fns.isFinite dt = true → ¬ tau ≤ 0 → dt ≤ 0 →
      (RotorLag.new tau dt : Except _ (RotorLag n T)) = .error .nonPositiveTimestep) ∧
    (Fns.isFinite tau = true → Fns.isFinite dt = true → ¬ tau ≤ 0 → ¬ dt ≤ 0 →
      ∃ r, (RotorLag.new tau dt : Except _ (RotorLag n T)) = .ok r ∧ r.timeConstant = tau ∧
        r.timestep = dt ∧ (∀ i, r.thrusts i = 0) ∧
        ∀ (x c : Fin n → T), (r.withThrusts x).stepped c = (r.withThrusts x).steppedOver c dt) := by
  unfold RotorLag.new
  refine ⟨?_, ?_, ?_, ?_⟩
  · rintro (h | h) <;> simp [h]
  · intro h1 h2 h3; simp [h1, h2, h3]
  · intro h1 h2 h3 h4; simp [h1, h2, h3, h4]
  · intro h1 h2 h3 h4
    simp only [h1, h2, h3, h4, Bool.not_true, Bool.or_false, Bool.false_eq_true, if_false]
    exact ⟨_, rfl, rfl, rfl, fun _ => rfl, fun _ _ => rfl⟩

theorem steppedOver_eq (r : RotorLag n ℝ) (c : Fin n → ℝ) (t : ℝ) (i : Fin n) :
    (r.steppedOver c t).thrusts i =
      c i + Real.exp (-t / r.timeConstant) * (r.thrusts i - c i) := by
  change Real.exp (-t / r.timeConstant) * r.thrusts i + -(Real.exp (-t / r.timeConstant) - 1) * c i = _
  ring

/-- C51. Stepping over a time with the command held is the exact flow of `τ x' = command - x`: it
starts at the present thrust, its rate of change at every instant is the one `rate` reports for the
thrust there, and stepping over two times is stepping over their sum. -/
theorem rotorLag_flow (r : RotorLag n ℝ) (hτ : 0 < r.timeConstant) (c : Fin n → ℝ) (i : Fin n) :
    (r.steppedOver c 0).thrusts i = r.thrusts i ∧
    (∀ t, HasDerivAt (fun s => (r.steppedOver c s).thrusts i) ((r.steppedOver c t).rate c i) t) ∧
    (∀ s t, ((r.steppedOver c s).steppedOver c t) = r.steppedOver c (s + t)) := by
  refine ⟨?_, ?_, ?_⟩
  · rw [steppedOver_eq]; simp
  · intro t
    simp only [steppedOver_eq]
    have h1 : HasDerivAt (fun s : ℝ => -s / r.timeConstant) (-1 / r.timeConstant) t :=
      ((hasDerivAt_id t).neg).div_const _
    have h2 := ((h1.exp).mul_const (r.thrusts i - c i)).const_add (c i)
    refine h2.congr_deriv ?_
    change _ = (c i - (r.steppedOver c t).thrusts i) / r.timeConstant
    rw [steppedOver_eq]
    field_simp
    ring
  · intro s t
    have : ((r.steppedOver c s).steppedOver c t).thrusts = (r.steppedOver c (s + t)).thrusts := by
      funext j
      rw [steppedOver_eq, steppedOver_eq, steppedOver_eq]
      change c j + Real.exp (-t / r.timeConstant) *
        (c j + Real.exp (-s / r.timeConstant) * (r.thrusts j - c j) - c j) = _
      rw [show -(s + t) / r.timeConstant = -t / r.timeConstant + -s / r.timeConstant by ring, Real.exp_add]
      ring
    unfold RotorLag.steppedOver at this ⊢
    simp only [RotorLag.mk.injEq, true_and]
    exact this

/-- C51. The thrust never overshoots and never swings about the command: after any nonnegative time it
lies between the old thrust and the command, the gap shrinks by `exp(-t/τ)`, and after `k` ticks of a
held command by `exp(-k dt/τ)`. -/
theorem rotorLag_no_overshoot (r : RotorLag n ℝ) (hτ : 0 < r.timeConstant) (c : Fin n → ℝ) (t : ℝ)
    (ht : 0 ≤ t) (i : Fin n) :
    (r.steppedOver c t).thrusts i ∈ Set.uIcc (r.thrusts i) (c i) ∧
    c i - (r.steppedOver c t).thrusts i = Real.exp (-t / r.timeConstant) * (c i - r.thrusts i) ∧
    ∀ k : ℕ, c i - ((fun q : RotorLag n ℝ => q.steppedOver c t)^[k] r).thrusts i =
      Real.exp (-(k * t) / r.timeConstant) * (c i - r.thrusts i) := by
  have hgap : ∀ (q : RotorLag n ℝ) (s : ℝ), c i - (q.steppedOver c s).thrusts i =
      Real.exp (-s / q.timeConstant) * (c i - q.thrusts i) := by
    intro q s; rw [steppedOver_eq]; ring
  refine ⟨?_, hgap r t, ?_⟩
  · have he : Real.exp (-t / r.timeConstant) ≤ 1 := by
      rw [Real.exp_le_one_iff]
      exact div_nonpos_of_nonpos_of_nonneg (by linarith) hτ.le
    have he0 := Real.exp_pos (-t / r.timeConstant)
    rw [steppedOver_eq, Set.mem_uIcc]
    rcases le_total (r.thrusts i) (c i) with h | h
    · left; constructor <;> nlinarith
    · right; constructor <;> nlinarith
  · intro k
    have htc : ∀ k : ℕ, ((fun q : RotorLag n ℝ => q.steppedOver c t)^[k] r).timeConstant = r.timeConstant := by
      intro k
      induction k with
      | zero => rfl
      | succ k ih => rw [Function.iterate_succ_apply']; exact ih
    induction k with
    | zero => simp
    | succ k ih =>
      rw [Function.iterate_succ_apply', hgap, ih, htc k, ← mul_assoc, ← Real.exp_add]
      congr 2
      push_cast
      ring

/-- C51. For every history of commands and nonnegative steps, thrusts that start inside a range stay in
it as long as the commands do. -/
theorem rotorLag_history (r : RotorLag n ℝ) (hτ : 0 < r.timeConstant) (lo hi : ℝ)
    (hr : ∀ i, r.thrusts i ∈ Set.Icc lo hi) (history : List ((Fin n → ℝ) × ℝ))
    (hh : ∀ h ∈ history, 0 ≤ h.2 ∧ ∀ i, h.1 i ∈ Set.Icc lo hi) (i : Fin n) :
    (history.foldl (fun q h => q.steppedOver h.1 h.2) r).thrusts i ∈ Set.Icc lo hi := by
  induction history generalizing r with
  | nil => exact hr i
  | cons h history ih =>
    rw [List.foldl_cons]
    obtain ⟨h1, h2⟩ := hh h List.mem_cons_self
    refine ih (r.steppedOver h.1 h.2) hτ (fun j => ?_) fun g hg => hh g (List.mem_cons_of_mem _ hg)
    have := (rotorLag_no_overshoot r hτ h.1 h.2 h1 j).1
    exact Set.uIcc_subset_Icc (hr j) (h2 j) this

example : (0 : ℝ) < (⟨2, 1, 0, 0, fun _ => 3⟩ : RotorLag 4 ℝ).timeConstant ∧
    ∀ h ∈ [((fun _ => 1 : Fin 4 → ℝ), (1 : ℝ)), (fun _ => 4, 0)], 0 ≤ h.2 ∧ ∀ i, h.1 i ∈ Set.Icc (0 : ℝ) 5 := by
  refine ⟨by norm_num, ?_⟩
  intro h hh
  simp only [List.mem_cons, List.not_mem_nil, or_false] at hh
  rcases hh with rfl | rfl <;> norm_num

end Lag

/-! ## Mixer -/

section Mixer
variable {n : ℕ}

/-- C52. The thrusts in any ordered scalar, rounding included: every one lies within the limits, the
flag is raised exactly when some rotor's share was outside them, and when it is not raised every rotor
gets exactly its share. -/
theorem mixer_limits {T : Type} [LinearOrder T] [Zero T] [Add T] [Mul T]
    (m : MultirotorMixer n T) (hm : m.minimumThrust ≤ m.maximumThrust) (collective : T)
    (torque : Fin 3 → T) :
    let share := mmulVec m.distribution ![collective, torque 0, torque 1, torque 2]
    let c := m.rotorThrusts collective torque
    (∀ i, m.minimumThrust ≤ c.thrusts i ∧ c.thrusts i ≤ m.maximumThrust) ∧
    (c.saturated = true ↔ ∃ i, share i < m.minimumThrust ∨ m.maximumThrust < share i) ∧
    (∀ i, c.thrusts i = max m.minimumThrust (min m.maximumThrust (share i))) ∧
    (c.saturated = false → c.thrusts = share) := by
  intro share c
  have hsat : c.saturated = true ↔ ∃ i, share i < m.minimumThrust ∨ m.maximumThrust < share i := by
    simp [c, MultirotorMixer.rotorThrusts, share]
  have hval : ∀ i, c.thrusts i = if share i < m.minimumThrust then m.minimumThrust
      else if m.maximumThrust < share i then m.maximumThrust else share i := fun i => rfl
  refine ⟨fun i => ?_, hsat, fun i => ?_, fun h => ?_⟩
  · rw [hval]
    split_ifs with h1 h2
    · exact ⟨le_rfl, hm⟩
    · exact ⟨hm, le_rfl⟩
    · exact ⟨not_lt.1 h1, not_lt.1 h2⟩
  · rw [hval]
    split_ifs with h1 h2
    · rw [max_eq_left]; exact (min_le_right _ _).trans h1.le
    · rw [min_eq_left h2.le, max_eq_right hm]
    · rw [min_eq_right (not_lt.1 h2), max_eq_right (not_lt.1 h1)]
  · funext i
    have hn : ¬ ∃ i, share i < m.minimumThrust ∨ m.maximumThrust < share i := by
      rw [← hsat, h]; simp
    push Not at hn
    rw [hval, if_neg (not_lt.2 (hn i).1), if_neg (not_lt.2 (hn i).2)]

/-- C52. The wrench of a set of thrusts is the sum of what each rotor does: a push along z through its
position, with the moment arm's cross product, and the reaction about z against its spin. -/
theorem mixer_wrench_physical (pinv : Matrix (Fin 4) (Fin n) ℝ → Except LinalgError (Matrix (Fin n) (Fin 4) ℝ))
    (positions : Fin n → Fin 3 → ℝ) (spins : Fin n → RotorSpin) (k lo hi : ℝ)
    (m : MultirotorMixer n ℝ) (h : MultirotorMixer.new pinv positions spins k lo hi = .ok m)
    (thrusts : Fin n → ℝ) :
    (m.wrench thrusts).force = ![0, 0, ∑ i, thrusts i] ∧
    (m.wrench thrusts).torque = fun j => ∑ i, (cross (positions i) ![0, 0, thrusts i] j
      + (![0, 0, match spins i with | .clockwise => k * thrusts i | .counterClockwise => -k * thrusts i] :
          Fin 3 → ℝ) j) := by
  have hm : m.allocation = mixerAllocation positions spins k := by
    unfold MultirotorMixer.new at h
    split_ifs at h
    dsimp only at h
    split at h
    · cases h
    · split_ifs at h
      cases h
      rfl
  have hprod : ∀ row, mmulVec m.allocation thrusts row = ∑ i, mixerAllocation positions spins k row i * thrusts i := by
    intro row
    rw [mmulVec_eq, hm]; rfl
  constructor
  · funext j
    fin_cases j
    · rfl
    · rfl
    · change mmulVec m.allocation thrusts 0 = ∑ i, thrusts i
      rw [hprod]
      simp [mixerAllocation]
  · funext j
    fin_cases j
    · change mmulVec m.allocation thrusts 1 = _
      rw [hprod]
      simp [mixerAllocation, cross]
    · change mmulVec m.allocation thrusts 2 = _
      rw [hprod]
      simp [mixerAllocation, cross]
    · change mmulVec m.allocation thrusts 3 = _
      rw [hprod]
      refine Finset.sum_congr rfl fun i _ => ?_
      simp [mixerAllocation, cross]
      cases spins i <;> simp

/-- C52. For every accepted layout and whatever the pseudo-inverse returned: when no rotor saturates,
the body gets the wanted push and turn to one part in ten thousand of the command's size in each
component, with no sideways push. -/
theorem mixer_achieves (pinv : Matrix (Fin 4) (Fin n) ℝ → Except LinalgError (Matrix (Fin n) (Fin 4) ℝ))
    (positions : Fin n → Fin 3 → ℝ) (spins : Fin n → RotorSpin) (k lo hi : ℝ)
    (m : MultirotorMixer n ℝ) (h : MultirotorMixer.new pinv positions spins k lo hi = .ok m)
    (collective : ℝ) (torque : Fin 3 → ℝ)
    (hs : (m.rotorThrusts collective torque).saturated = false) :
    let w := m.wrench (m.rotorThrusts collective torque).thrusts
    let size := |collective| + |torque 0| + |torque 1| + |torque 2|
    w.force 0 = 0 ∧ w.force 1 = 0 ∧ |w.force 2 - collective| ≤ size / 10000 ∧
      ∀ j, |w.torque j - torque j| ≤ size / 10000 := by
  intro w size
  have hfacts : m.minimumThrust ≤ m.maximumThrust ∧
      ∀ row col, |(m.allocation * m.distribution) row col - (if row = col then 1 else 0)| ≤ 1 / 10000 := by
    unfold MultirotorMixer.new at h
    split_ifs at h with h1 h2 h3
    dsimp only at h
    split at h
    · cases h
    next D hD =>
      split_ifs at h with h4
      cases h
      refine ⟨(not_le.1 h3).le, fun row col => ?_⟩
      dsimp only
      simp only [List.any_eq_true, List.mem_finRange, true_and, not_exists, decide_eq_true_eq, not_lt,
        mmul_eq, real_abs, real_lit] at h4
      have := h4 row col
      push_cast at this
      exact this
  have hthr := (mixer_limits m hfacts.1 collective torque).2.2.2 hs
  set u : Fin 4 → ℝ := ![collective, torque 0, torque 1, torque 2] with hu
  have hprod : ∀ row, |mmulVec m.allocation (m.rotorThrusts collective torque).thrusts row - u row|
      ≤ size / 10000 := by
    intro row
    rw [hthr, mmulVec_eq, mmulVec_eq, Matrix.mulVec_mulVec]
    have e : ((m.allocation * m.distribution).mulVec u) row - u row =
        ∑ col, ((m.allocation * m.distribution) row col - (if row = col then 1 else 0)) * u col := by
      simp only [sub_mul, Finset.sum_sub_distrib, ite_mul, one_mul, zero_mul, Finset.sum_ite_eq,
        Finset.mem_univ, if_true]
      rfl
    rw [e]
    calc _ ≤ ∑ col, |((m.allocation * m.distribution) row col - (if row = col then 1 else 0)) * u col| :=
          Finset.abs_sum_le_sum_abs _ _
      _ ≤ ∑ col, 1 / 10000 * |u col| := by
          refine Finset.sum_le_sum fun col _ => ?_
          rw [abs_mul]
          exact mul_le_mul_of_nonneg_right (hfacts.2 row col) (abs_nonneg _)
      _ = size / 10000 := by
          rw [← Finset.mul_sum, Fin.sum_univ_four]
          simp only [hu, size, Matrix.cons_val_zero, Matrix.cons_val_one, Matrix.cons_val]
          ring
  refine ⟨rfl, rfl, hprod 0, fun j => ?_⟩
  fin_cases j
  · exact hprod 1
  · exact hprod 2
  · exact hprod 3

theorem quadrotor_allocation (arm k : ℝ) :
    mixerAllocation (quadrotorPositions arm) quadrotorSpins k =
      !![1, 1, 1, 1;
         -(arm / Real.sqrt 2), arm / Real.sqrt 2, arm / Real.sqrt 2, -(arm / Real.sqrt 2);
         -(arm / Real.sqrt 2), arm / Real.sqrt 2, -(arm / Real.sqrt 2), arm / Real.sqrt 2;
         k, k, -k, -k] := by
  have e : (Fns.sqrt (((2 : ℕ) : ℝ)) : ℝ) = Real.sqrt 2 := by rw [real_sqrt]; norm_num
  ext i j
  fin_cases i <;> fin_cases j <;> simp [mixerAllocation, quadrotorPositions, quadrotorSpins, real_sqrt]

/-- C52. The X layout: with any arm length and torque ratio it is accepted once the pseudo-inverse
returns an inverse, that inverse is the only one, and a pure push is then shared out evenly. -/
theorem quadrotor_even (pinv : Matrix (Fin 4) (Fin 4) ℝ → Except LinalgError (Matrix (Fin 4) (Fin 4) ℝ))
    (arm k lo hi : ℝ) (ha : 0 < arm) (hk : 0 < k) (hlim : lo < hi)
    (hpinv : ∀ M : Matrix (Fin 4) (Fin 4) ℝ, M.det ≠ 0 → pinv M = .ok M⁻¹) :
    ∃ m, MultirotorMixer.quadrotorX pinv arm k lo hi = .ok m ∧ m.allocation.det ≠ 0 ∧
      ∀ w, lo ≤ w / 4 → w / 4 ≤ hi → (m.rotorThrusts w 0).saturated = false ∧
        ∀ i, (m.rotorThrusts w 0).thrusts i = w / 4 := by
  set g := arm / Real.sqrt 2 with hg
  have hg0 : 0 < g := by positivity
  set A : Matrix (Fin 4) (Fin 4) ℝ := mixerAllocation (quadrotorPositions arm) quadrotorSpins k with hA
  have hA' : A = !![1, 1, 1, 1; -g, g, g, -g; -g, g, -g, g; k, k, -k, -k] := quadrotor_allocation arm k
  set B : Matrix (Fin 4) (Fin 4) ℝ := !![1 / 4, -1 / (4 * g), -1 / (4 * g), 1 / (4 * k);
    1 / 4, 1 / (4 * g), 1 / (4 * g), 1 / (4 * k); 1 / 4, 1 / (4 * g), -1 / (4 * g), -1 / (4 * k);
    1 / 4, -1 / (4 * g), 1 / (4 * g), -1 / (4 * k)] with hB
  have hAB : A * B = 1 := by
    rw [hA', hB]
    ext i j
    fin_cases i <;> fin_cases j <;> simp [Matrix.mul_apply, Fin.sum_univ_four] <;> field_simp <;> norm_num
  have hdet : A.det ≠ 0 := by
    intro h0
    have := congrArg Matrix.det hAB
    rw [Matrix.det_mul, h0, zero_mul, Matrix.det_one] at this
    exact zero_ne_one this
  have hinv : A⁻¹ = B := Matrix.inv_eq_right_inv hAB
  have hnew : MultirotorMixer.quadrotorX pinv arm k lo hi = .ok ⟨A, B, lo, hi⟩ := by
    unfold MultirotorMixer.quadrotorX MultirotorMixer.new
    have hfin : ∀ v : Fin 3 → ℝ, vecIsFinite v = true := by intro v; simp [vecIsFinite, Fns.isFinite]
    simp only [Fns.isFinite, hfin, Bool.not_true, Bool.or_false, Bool.false_eq_true, if_false,
      if_neg (not_le.2 ha), if_neg (not_le.2 hk), if_neg (not_le.2 hlim), show ((List.finRange 4).any fun _ => false) = false from by simp]
    rw [← hA, hpinv A hdet, hinv]
    dsimp only
    rw [if_neg]
    simp only [mmul_eq, hAB, Matrix.one_apply, sub_self, real_abs, abs_zero, real_lit]
    simp
  refine ⟨_, hnew, hdet, fun w h1 h2 => ?_⟩
  have hshare : mmulVec B ![w, (0 : Fin 3 → ℝ) 0, (0 : Fin 3 → ℝ) 1, (0 : Fin 3 → ℝ) 2] = fun _ => w / 4 := by
    rw [mmulVec_eq]
    funext i
    fin_cases i <;> simp [hB, Matrix.mulVec, dotProduct, Fin.sum_univ_four] <;> ring
  have hl := mixer_limits (⟨A, B, lo, hi⟩ : MultirotorMixer 4 ℝ) hlim.le w 0
  dsimp only at hl
  rw [hshare] at hl
  have hns : ((⟨A, B, lo, hi⟩ : MultirotorMixer 4 ℝ).rotorThrusts w 0).saturated = false := by
    rw [← Bool.not_eq_true, hl.2.1]
    rintro ⟨_, h | h⟩ <;> linarith
  exact ⟨hns, fun i => congrFun (hl.2.2.2 hns) i⟩

example : ∃ pinv : Matrix (Fin 4) (Fin 4) ℝ → Except LinalgError (Matrix (Fin 4) (Fin 4) ℝ),
    ∀ M : Matrix (Fin 4) (Fin 4) ℝ, M.det ≠ 0 → pinv M = .ok M⁻¹ := ⟨fun M => .ok M⁻¹, fun _ _ => rfl⟩

/-- A quadrotor whose layout is accepted and which hovers without any rotor at its limit. -/
example : ∃ pinv, ∃ m : MultirotorMixer 4 ℝ,
    MultirotorMixer.new pinv (quadrotorPositions (1 / 4)) quadrotorSpins (1 / 50) 0 5 = .ok m ∧
      (m.rotorThrusts 10 0).saturated = false := by
  obtain ⟨m, hm, -, h⟩ := quadrotor_even (fun M => .ok M⁻¹) (1 / 4) (1 / 50) 0 5 (by norm_num) (by norm_num)
    (by norm_num) fun _ _ => rfl
  refine ⟨fun M => .ok M⁻¹, m, ?_, (h 10 (by norm_num) (by norm_num)).1⟩
  unfold MultirotorMixer.quadrotorX at hm
  rwa [if_neg (by simp [Fns.isFinite]), if_neg (by norm_num)] at hm

/-- C52 (finding). The documentation says a command that is not finite comes back not finite.  An
infinite push does not: it is held at the limit like any other, and every thrust is finite.  (A NaN does
come back as NaN, and is not reported as saturation.) -/
theorem mixer_infinite_command :
    let m : MultirotorMixer 1 XR := ⟨fun _ _ => 1, fun _ _ => 1, .fin 0, .fin 5⟩
    (m.rotorThrusts .pinf (fun _ => 0)).thrusts 0 = .fin 5 ∧
    (m.rotorThrusts .pinf (fun _ => 0)).saturated = true ∧
    (m.rotorThrusts .nan (fun _ => 0)).thrusts 0 = .nan ∧
    (m.rotorThrusts .nan (fun _ => 0)).saturated = false := by
  intro m
  have h1 : mmulVec m.distribution ![XR.pinf, 0, 0, 0] 0 = XR.pinf := by
    have e1 : (0 : XR) + XR.fin 1 * XR.pinf = XR.pinf := by
      change XR.add (XR.fin 0) (XR.mul (XR.fin 1) XR.pinf) = _
      simp [XR.mul, XR.infTimes, XR.add]
    have e2 : XR.pinf + XR.fin 1 * XR.fin 0 = XR.pinf := rfl
    simp [m, mmulVec, sumLoop, List.finRange_succ, e2]
    rw [show (XR.fin 0 : XR) = 0 from rfl, e1]
    rfl
  have h2 : mmulVec m.distribution ![XR.nan, 0, 0, 0] 0 = XR.nan := by
    simp [m, mmulVec, sumLoop, List.finRange_succ]
  have a1 : ¬ XR.pinf < XR.fin 0 := id
  have a2 : XR.fin 5 < XR.pinf := trivial
  refine ⟨?_, ?_, ?_, ?_⟩
  · simp only [MultirotorMixer.rotorThrusts]
    rw [h1]
    simp [m]
  · simp only [MultirotorMixer.rotorThrusts, List.finRange_succ, List.any_cons]
    simp only [h1]
    simp [m]
  · simp only [MultirotorMixer.rotorThrusts]
    rw [h2]
    simp [m]
  · simp only [MultirotorMixer.rotorThrusts, List.finRange_succ, List.any_cons]
    simp only [h2]
    simp [m]

end Mixer

end Multicalc
