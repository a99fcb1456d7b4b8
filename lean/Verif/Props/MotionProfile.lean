import Verif.Lemmas.MotionProfile
import Verif.Lemmas.Autodiff

/-!
# Motion profiles reach the target within their limits
-/

namespace Multicalc

open Set Filter Topology MotionProfile

theorem fromPhasePlan_pos (plan : List (ℝ × ℝ × ℝ)) (sign : ℝ) :
    Chained ProfilePhase.positionAt (fromPhasePlan plan sign).distance (fromPhasePlan plan sign).phases 0 :=
  planLoop_chain sign plan 0 0 0

theorem fromPhasePlan_total (plan : List (ℝ × ℝ × ℝ)) (sign : ℝ) :
    (fromPhasePlan plan sign).duration = ((fromPhasePlan plan sign).phases.map (·.duration)).sum := by
  have := planLoop_total sign plan 0 0 0
  rw [zero_add] at this
  exact this

set_option maxHeartbeats 1000000 in
theorem trapezoid_good (D V A sign : ℝ) (j : Option ℝ) (hD : 0 ≤ D) (hV : 0 < V) (hA : 0 < A)
    (hs : sign * sign = 1) : GoodProfile (planTrapezoidal D ⟨V, A, j⟩ sign) D sign V A 0 := by
  unfold planTrapezoidal
  dsimp only
  set vp := min V (Fns.sqrt (D * A) : ℝ) with hvp
  have hsq : (Fns.sqrt (D * A) : ℝ) * Fns.sqrt (D * A) = D * A := Real.mul_self_sqrt (by positivity)
  have hs0 : 0 ≤ (Fns.sqrt (D * A) : ℝ) := Real.sqrt_nonneg _
  split_ifs with h
  · have h0 : (Fns.sqrt (D * A) : ℝ) = 0 := by
      rcases min_le_iff.1 h with h1 | h1
      · linarith
      · linarith
    have : D = 0 := by
      rw [h0] at hsq
      have : D * A = 0 := by linarith
      rcases mul_eq_zero.1 this with h1 | h1
      · exact h1
      · linarith
    rw [this]
    exact (planStill_good sign V A 0 hV hA le_rfl).1
  · have hp : 0 < vp := not_le.1 h
    have hle : vp ≤ V := min_le_left _ _
    have hle2 : vp * vp ≤ D * A := by
      have : vp ≤ Fns.sqrt (D * A) := min_le_right _ _
      rw [← hsq]; nlinarith
    have hc : 0 ≤ (D - vp * (vp / A)) / vp := by
      apply div_nonneg _ hp.le
      rw [← mul_div_assoc, sub_nonneg, div_le_iff₀ hA]; exact hle2
    rw [max_eq_left hc]
    set ta := vp / A with hta
    have hta0 : 0 ≤ ta := by positivity
    have hAt : A * ta = vp := by rw [hta]; field_simp
    set tc := (D - vp * ta) / vp with htc
    have hDc : vp * tc = D - vp * ta := by rw [htc]; field_simp
    clear_value ta tc
    refine ⟨?_, fromPhasePlan_total _ _, ?_, fromPhasePlan_pos _ _, ?_, ?_, ?_, ?_⟩
    · intro q hq
      simp only [fromPhasePlan, planLoop, List.mem_cons, List.not_mem_nil, or_false] at hq
      rcases hq with rfl | rfl | rfl | rfl | rfl | rfl | rfl <;> first | exact le_rfl | assumption
    · simp only [fromPhasePlan, planLoop, ProfilePhase.positionAt, ProfilePhase.velocityAt]
      push_cast
      linear_combination (sign * ta + sign * tc) * hAt + sign * hDc
    · simp only [fromPhasePlan, planLoop, Chained, ProfilePhase.velocityAt]
      refine ⟨?_, ?_, ?_, ?_, ?_, ?_, ?_, ?_⟩ <;> ring
    · intro q hq e he0 he1
      simp only [fromPhasePlan, planLoop, List.mem_cons, List.not_mem_nil, or_false] at hq
      rcases hq with rfl | rfl | rfl | rfl | rfl | rfl | rfl <;>
        simp only [ProfilePhase.velocityAt] at he1 ⊢ <;> push_cast
      · linarith
      · have e1 : sign * (0 + 0 * sign * 0 * 0 * (1 / 2) + 0) = 0 := by ring
        have : ∀ y, y = A * e → 0 ≤ y ∧ y ≤ V := by
          rintro y rfl
          exact ⟨by positivity, le_trans (by nlinarith) hle⟩
        apply this
        linear_combination (A * e) * hs
      · linarith
      · have : ∀ y, y = vp → 0 ≤ y ∧ y ≤ V := by
          rintro y rfl
          exact ⟨hp.le, hle⟩
        apply this
        linear_combination (A * ta) * hs + hAt
      · linarith
      · have : ∀ y, y = vp - A * e → 0 ≤ y ∧ y ≤ V := by
          rintro y rfl
          exact ⟨by nlinarith, by nlinarith⟩
        apply this
        linear_combination (A * ta - A * e) * hs + hAt
      · linarith
    · have habs : |sign| = 1 := by
        rw [← abs_mul_abs_self] at hs
        nlinarith [abs_nonneg sign]
      intro q hq e he0 he1
      simp only [fromPhasePlan, planLoop, List.mem_cons, List.not_mem_nil, or_false] at hq
      rcases hq with rfl | rfl | rfl | rfl | rfl | rfl | rfl <;>
        simp [accelerationOf, abs_mul, habs, abs_of_pos hA, hA.le]
    · intro q hq
      simp only [fromPhasePlan, planLoop, List.mem_cons, List.not_mem_nil, or_false] at hq
      rcases hq with rfl | rfl | rfl | rfl | rfl | rfl | rfl <;> simp

/-- The ramp times multiply out to the peak speed, and stay within the acceleration limit. -/
theorem ramp_spec (v A J : ℝ) (hv : 0 < v) (hA : 0 < A) (hJ : 0 < J) :
    0 ≤ (accelerationRamp v A J).1 ∧ 0 ≤ (accelerationRamp v A J).2
      ∧ J * (accelerationRamp v A J).1 * ((accelerationRamp v A J).1 + (accelerationRamp v A J).2) = v
      ∧ J * (accelerationRamp v A J).1 ≤ A := by
  unfold accelerationRamp
  split_ifs with h
  · have h1 : 0 ≤ v / A - A / J := by
      rw [sub_nonneg, div_le_div_iff₀ hJ hA]; exact h
    dsimp only
    rw [max_eq_left h1]
    refine ⟨by positivity, h1, ?_, ?_⟩
    · field_simp; ring
    · rw [mul_div_cancel₀ _ hJ.ne']
  · have hq : (Fns.sqrt (v / J) : ℝ) * Fns.sqrt (v / J) = v / J := Real.mul_self_sqrt (by positivity)
    have h0 : 0 ≤ (Fns.sqrt (v / J) : ℝ) := Real.sqrt_nonneg _
    refine ⟨h0, le_rfl, ?_, ?_⟩
    · dsimp only
      rw [add_zero, mul_assoc, hq]; field_simp
    · dsimp only
      set s := (Fns.sqrt (v / J) : ℝ) with hsdef
      clear_value s
      have h2 : J * s * s = v := by rw [mul_assoc, hq]; field_simp
      rw [not_le] at h
      have : (J * s) * (J * s) < A * A := by nlinarith
      nlinarith [mul_nonneg hJ.le h0]

theorem cbrt_cube (x : ℝ) : (Fns.cbrt x : ℝ) ^ 3 = x := realCbrt_cube x

/-- Any speed not above the reachable one can be taken up and shed within the distance. -/
theorem ramp_fits (D v A J : ℝ) (hD : 0 ≤ D) (hv : 0 < v) (hA : 0 < A) (hJ : 0 < J)
    (h : v ≤ speedReachable D A J) :
    v * ((accelerationRamp v A J).1 + (accelerationRamp v A J).1 + (accelerationRamp v A J).2) ≤ D := by
  unfold speedReachable at h
  dsimp only at h
  set st := (Fns.cbrt (D * D * J / ((4 : ℕ) : ℝ)) : ℝ) with hst
  have hst3 : st ^ 3 = D * D * J / 4 := by rw [hst, cbrt_cube]; norm_num
  clear_value st
  unfold accelerationRamp
  by_cases hsat : A * A ≤ v * J
  · rw [if_pos hsat]
    have h1 : 0 ≤ v / A - A / J := by
      rw [sub_nonneg, div_le_div_iff₀ hJ hA]; exact hsat
    dsimp only
    rw [max_eq_left h1]
    split_ifs at h with hb
    · nlinarith
    · set r := A * A / J with hr
      have hrr : r * J = A * A := by rw [hr]; field_simp
      have hr0 : 0 < r := by positivity
      set w := (Fns.sqrt (r * r + A * D * ((4 : ℕ) : ℝ)) : ℝ) with hw
      have hw2 : w * w = r * r + A * D * 4 := by
        have : (0 : ℝ) ≤ r * r + A * D * ((4 : ℕ) : ℝ) := by positivity
        rw [hw]; exact (Real.mul_self_sqrt this).trans (by norm_num)
      have hw0 : 0 ≤ w := Real.sqrt_nonneg _
      clear_value w
      push_cast at h
      have h2 : 2 * v + r ≤ w := by linarith
      have h3 : (2 * v + r) * (2 * v + r) ≤ r * r + A * D * 4 := by
        rw [← hw2]; exact mul_le_mul h2 h2 (by positivity) hw0
      have h4 : v * v + v * r ≤ A * D := by nlinarith
      have h5 : A * (v * (A / J + A / J + (v / A - A / J))) = v * v + v * r := by
        rw [hr]; field_simp; ring
      by_contra hcon
      rw [not_le] at hcon
      have := mul_lt_mul_of_pos_left hcon hA
      linarith
  · rw [if_neg hsat]
    dsimp only
    rw [not_le] at hsat
    have hvst : v ≤ st := by
      split_ifs at h with hb
      · exact h
      · rw [not_lt] at hb
        by_contra hcon
        rw [not_le] at hcon
        nlinarith
    have hq : (Fns.sqrt (v / J) : ℝ) * Fns.sqrt (v / J) = v / J := Real.mul_self_sqrt (by positivity)
    have h0 : 0 ≤ (Fns.sqrt (v / J) : ℝ) := Real.sqrt_nonneg _
    set s := (Fns.sqrt (v / J) : ℝ) with hsdef
    clear_value s
    have h2 : J * (s * s) = v := by rw [hq]; field_simp
    have h3 : v ^ 3 ≤ st ^ 3 := pow_le_pow_left₀ hv.le hvst 3
    rw [hst3] at h3
    have h4 : (2 * v * s) ^ 2 ≤ D ^ 2 := by
      have : J * (2 * v * s) ^ 2 ≤ J * D ^ 2 := by
        have e : J * (2 * v * s) ^ 2 = 4 * v ^ 3 := by
          linear_combination (4 * v ^ 2) * h2
        rw [e]; nlinarith
      exact le_of_mul_le_mul_left this hJ
    have h5 := abs_le_of_sq_le_sq' h4 hD
    rw [add_zero]
    linarith [h5.2]

theorem speedReachable_pos (D A J : ℝ) (hD : 0 < D) (hA : 0 < A) (hJ : 0 < J) : 0 < speedReachable D A J := by
  unfold speedReachable
  dsimp only
  split_ifs with h
  · by_contra hcon
    rw [not_lt] at hcon
    have h3 := cbrt_cube (D * D * J / ((4 : ℕ) : ℝ))
    have : (0 : ℝ) < D * D * J / ((4 : ℕ) : ℝ) := by positivity
    rw [← h3] at this
    have h4 : (Fns.cbrt (D * D * J / ((4 : ℕ) : ℝ)) : ℝ) ^ 3 ≤ 0 := by
      have := sq_nonneg (Fns.cbrt (D * D * J / ((4 : ℕ) : ℝ)) : ℝ)
      nlinarith
    linarith
  · have h0 : (0 : ℝ) ≤ A * A / J := by positivity
    have : A * A / J < (Fns.sqrt (A * A / J * (A * A / J) + A * D * ((4 : ℕ) : ℝ)) : ℝ) := by
      apply Real.lt_sqrt_of_sq_lt
      have : (0 : ℝ) < A * D * ((4 : ℕ) : ℝ) := by positivity
      nlinarith
    push_cast at this ⊢
    linarith

set_option maxHeartbeats 2000000 in
theorem jerk_good (D V A J sign : ℝ) (j : Option ℝ) (hD : 0 ≤ D) (hV : 0 < V) (hA : 0 < A) (hJ : 0 < J)
    (hs : sign * sign = 1) : GoodProfile (planJerkLimited D ⟨V, A, j⟩ J sign) D sign V A J
      ∧ Chained accelerationOf 0 (planJerkLimited D ⟨V, A, j⟩ J sign).phases 0 := by
  unfold planJerkLimited
  dsimp only
  set vp := min V (speedReachable D A J) with hvp
  split_ifs with h
  · have : D = 0 := by
      rcases hD.eq_or_lt with h1 | h1
      · exact h1.symm
      · have := lt_min hV (speedReachable_pos D A J h1 hA hJ)
        rw [← hvp] at this
        linarith
    rw [this]
    exact planStill_good sign V A J hV hA hJ.le
  · have hp : 0 < vp := not_le.1 h
    have hle : vp ≤ V := min_le_left _ _
    have hfit := ramp_fits D vp A J hD hp hA hJ (min_le_right _ _)
    obtain ⟨ht0, hh0, hpk, hacc⟩ := ramp_spec vp A J hp hA hJ
    set tj := (accelerationRamp vp A J).1 with htj
    set th := (accelerationRamp vp A J).2 with hth
    have hc : 0 ≤ (D - vp * (tj + tj + th)) / vp := div_nonneg (by linarith) hp.le
    rw [max_eq_left hc]
    set tc := (D - vp * (tj + tj + th)) / vp with htc
    have hDc : vp * tc = D - vp * (tj + tj + th) := by rw [htc]; field_simp
    have habs : |sign| = 1 := by
      rw [← abs_mul_abs_self] at hs
      nlinarith [abs_nonneg sign]
    clear_value tc tj th
    have hJt : 0 ≤ J * tj := by positivity
    refine ⟨⟨?_, fromPhasePlan_total _ _, ?_, fromPhasePlan_pos _ _, ?_, ?_, ?_, ?_⟩, ?_⟩
    · intro q hq
      simp only [fromPhasePlan, planLoop, List.mem_cons, List.not_mem_nil, or_false] at hq
      rcases hq with rfl | rfl | rfl | rfl | rfl | rfl | rfl <;> first | exact le_rfl | assumption
    · simp only [fromPhasePlan, planLoop, ProfilePhase.positionAt, ProfilePhase.velocityAt]
      push_cast
      linear_combination (sign * (tj + tj + th) + sign * tc) * hpk + sign * hDc
    · simp only [fromPhasePlan, planLoop, Chained, ProfilePhase.velocityAt]
      refine ⟨?_, ?_, ?_, ?_, ?_, ?_, ?_, ?_⟩ <;> push_cast <;> ring
    · intro q hq e he0 he1
      simp only [fromPhasePlan, planLoop, List.mem_cons, List.not_mem_nil, or_false] at hq
      rcases hq with rfl | rfl | rfl | rfl | rfl | rfl | rfl <;>
        simp only [ProfilePhase.velocityAt] at he1 ⊢ <;> push_cast
      · have : ∀ y, y = J * e * e / 2 → 0 ≤ y ∧ y ≤ V := by
          rintro y rfl
          refine ⟨by positivity, le_trans ?_ hle⟩
          have : J * e * e ≤ J * tj * tj := by gcongr
          nlinarith [mul_nonneg hJt hh0, mul_nonneg hJt ht0]
        apply this
        linear_combination (J * e * e / 2) * hs
      · have : ∀ y, y = J * tj * tj / 2 + J * tj * e → 0 ≤ y ∧ y ≤ V := by
          rintro y rfl
          refine ⟨by positivity, le_trans ?_ hle⟩
          have : J * tj * e ≤ J * tj * th := by gcongr
          nlinarith [mul_nonneg hJt hh0, mul_nonneg hJt ht0]
        apply this
        linear_combination (J * tj * tj / 2 + J * tj * e) * hs
      · have : ∀ y, y = vp - J * (tj - e) * (tj - e) / 2 → 0 ≤ y ∧ y ≤ V := by
          rintro y rfl
          have h1 : 0 ≤ tj - e := by linarith
          have h2 : J * (tj - e) * (tj - e) ≤ J * tj * tj := by
            have : tj - e ≤ tj := by linarith
            gcongr
          have h3 : 0 ≤ J * (tj - e) * (tj - e) := by positivity
          refine ⟨?_, by linarith⟩
          nlinarith [mul_nonneg hJt hh0, mul_nonneg hJt ht0]
        apply this
        linear_combination (J * tj * tj / 2 + J * tj * th + J * tj * e - J * e * e / 2) * hs + hpk
      · have : ∀ y, y = vp → 0 ≤ y ∧ y ≤ V := by
          rintro y rfl
          exact ⟨hp.le, hle⟩
        apply this
        linear_combination (J * tj * tj + J * tj * th) * hs + hpk
      · have : ∀ y, y = vp - J * e * e / 2 → 0 ≤ y ∧ y ≤ V := by
          rintro y rfl
          have : J * e * e ≤ J * tj * tj := by gcongr
          have h3 : 0 ≤ J * e * e := by positivity
          refine ⟨?_, by linarith⟩
          nlinarith [mul_nonneg hJt hh0, mul_nonneg hJt ht0]
        apply this
        linear_combination (J * tj * tj + J * tj * th - J * e * e / 2) * hs + hpk
      · have : ∀ y, y = J * tj * tj / 2 + J * tj * (th - e) → 0 ≤ y ∧ y ≤ V := by
          rintro y rfl
          have h1 : 0 ≤ th - e := by linarith
          refine ⟨by positivity, le_trans ?_ hle⟩
          have : J * tj * (th - e) ≤ J * tj * th := by
            have : th - e ≤ th := by linarith
            gcongr
          nlinarith [mul_nonneg hJt hh0, mul_nonneg hJt ht0]
        apply this
        linear_combination (J * tj * tj / 2 + J * tj * (th - e)) * hs
      · have : ∀ y, y = J * (tj - e) * (tj - e) / 2 → 0 ≤ y ∧ y ≤ V := by
          rintro y rfl
          have h1 : 0 ≤ tj - e := by linarith
          refine ⟨by positivity, le_trans ?_ hle⟩
          have h2 : J * (tj - e) * (tj - e) ≤ J * tj * tj := by
            have : tj - e ≤ tj := by linarith
            gcongr
          nlinarith [mul_nonneg hJt hh0, mul_nonneg hJt ht0]
        apply this
        linear_combination (J * (tj - e) * (tj - e) / 2) * hs
    · intro q hq e he0 he1
      simp only [fromPhasePlan, planLoop, List.mem_cons, List.not_mem_nil, or_false] at hq
      have key : ∀ y z : ℝ, y = z * sign → -A ≤ z → z ≤ A → |y| ≤ A := by
        rintro y z rfl h1 h2
        rw [abs_mul, habs, mul_one]
        exact abs_le.2 ⟨h1, h2⟩
      rcases hq with rfl | rfl | rfl | rfl | rfl | rfl | rfl <;>
        simp only [accelerationOf] at he1 ⊢
      · exact key _ (J * e) (by ring) (by nlinarith) (by nlinarith)
      · exact key _ (J * tj) (by ring) (by nlinarith) (by nlinarith)
      · exact key _ (J * (tj - e)) (by ring) (by nlinarith) (by nlinarith)
      · exact key _ 0 (by ring) (by nlinarith) (by nlinarith)
      · exact key _ (-(J * e)) (by ring) (by nlinarith) (by nlinarith)
      · exact key _ (-(J * tj)) (by ring) (by nlinarith) (by nlinarith)
      · exact key _ (-(J * (tj - e))) (by ring) (by nlinarith) (by nlinarith)
    · intro q hq
      simp only [fromPhasePlan, planLoop, List.mem_cons, List.not_mem_nil, or_false] at hq
      rcases hq with rfl | rfl | rfl | rfl | rfl | rfl | rfl <;>
        simp [abs_mul, habs, abs_of_pos hJ, hJ.le]
    · simp only [fromPhasePlan, planLoop, Chained, accelerationOf]
      refine ⟨?_, ?_, ?_, ?_, ?_, ?_, ?_, ?_⟩ <;> ring

/-! ### What a planner hands back -/

/-- The limits a caller can hold: `try_new` refuses everything else. -/
theorem limits_tryNew (V A : ℝ) (j : Option ℝ) (l : ProfileLimits ℝ)
    (h : ProfileLimits.tryNew V A j = .ok l) :
    l = ⟨V, A, j⟩ ∧ 0 < V ∧ 0 < A ∧ ∀ J, j = some J → 0 < J := by
  have hf : ∀ x : ℝ, isPositiveLimit x = decide (0 < x) := fun x => by simp [isPositiveLimit, Fns.isFinite]
  unfold ProfileLimits.tryNew at h
  rw [hf, hf] at h
  split_ifs at h with h1
  simp only [Bool.or_eq_true, Bool.not_eq_true', decide_eq_false_iff_not, not_or, not_not] at h1
  cases j with
  | none => cases h; exact ⟨rfl, h1.1, h1.2, fun J hJ => nomatch hJ⟩
  | some J =>
    dsimp only at h
    rw [hf] at h
    split_ifs at h with h2
    cases h
    simp only [Bool.not_eq_true', decide_eq_false_iff_not, not_not] at h2
    exact ⟨rfl, h1.1, h1.2, fun J' hJ => by cases hJ; exact h2⟩

theorem plan_good (planner : MotionProfilePlanner ℝ) (V A D : ℝ) (j : Option ℝ) (p : MotionProfile ℝ)
    (hl : ProfileLimits.tryNew V A j = .ok planner.limits) (h : planner.plan D = .ok p) :
    ∃ sign : ℝ, sign * sign = 1 ∧ sign * |D| = D ∧ ∃ J', GoodProfile p |D| sign V A J' ∧
      ((planner.strategy = .trapezoidal ∨ j = none) ∧ p = planTrapezoidal |D| planner.limits sign ∧ J' = 0 ∨
        ∃ J, planner.strategy ≠ .trapezoidal ∧ j = some J ∧ p = planJerkLimited |D| planner.limits J sign ∧ J' = J
          ∧ Chained accelerationOf 0 p.phases 0) := by
  obtain ⟨hlim, hV, hA, hJ⟩ := limits_tryNew V A j _ hl
  obtain ⟨limits, strategy⟩ := planner
  dsimp only at hlim
  subst hlim
  unfold MotionProfilePlanner.plan at h
  rw [if_neg (by simp [Fns.isFinite])] at h
  dsimp only at h
  set sign : ℝ := if D < 0 then -1 else 1 with hsign
  have hs : sign * sign = 1 := by rw [hsign]; split_ifs <;> norm_num
  have hsD : sign * |D| = D := by
    rw [hsign]; split_ifs with hd
    · rw [abs_of_neg hd]; ring
    · rw [abs_of_nonneg (not_lt.1 hd)]; ring
  have habs : (Fns.abs D : ℝ) = |D| := rfl
  rw [habs] at h
  refine ⟨sign, hs, hsD, ?_⟩
  cases strategy <;> cases j <;> dsimp only at h
  · cases h
    exact ⟨0, trapezoid_good _ _ _ _ _ (abs_nonneg D) hV hA hs, .inl ⟨.inr rfl, rfl, rfl⟩⟩
  · cases h
    rename_i J0
    have := jerk_good |D| V A J0 sign (some J0) (abs_nonneg D) hV hA (hJ _ rfl) hs
    exact ⟨_, this.1, .inr ⟨_, by simp, rfl, rfl, rfl, this.2⟩⟩
  · cases h
    exact ⟨0, trapezoid_good _ _ _ _ _ (abs_nonneg D) hV hA hs, .inl ⟨.inl rfl, rfl, rfl⟩⟩
  · cases h
    exact ⟨0, trapezoid_good _ _ _ _ _ (abs_nonneg D) hV hA hs, .inl ⟨.inl rfl, rfl, rfl⟩⟩
  · cases h
  · cases h
    rename_i J0
    have := jerk_good |D| V A J0 sign (some J0) (abs_nonneg D) hV hA (hJ _ rfl) hs
    exact ⟨_, this.1, .inr ⟨_, by simp, rfl, rfl, rfl, this.2⟩⟩

theorem stateAt_real (p : MotionProfile ℝ) (hl : ∀ q ∈ p.phases, 0 ≤ q.duration)
    (ht : p.duration = (p.phases.map (·.duration)).sum) (t : ℝ) :
    p.stateAt t = .ok ⟨walk ProfilePhase.positionAt p.distance p.phases 0 (max t 0),
      walk ProfilePhase.velocityAt 0 p.phases 0 (max t 0), walk accelerationOf 0 p.phases 0 (max t 0),
      walk jerkOf 0 p.phases 0 (max t 0)⟩ := by
  unfold MotionProfile.stateAt
  rw [if_neg (by simp [Fns.isFinite]), stateLoop_walk]
  have key : ∀ (g : ProfilePhase ℝ → ℝ → ℝ) (c : ℝ),
      walk g c p.phases 0 (min (max t 0) p.duration) = walk g c p.phases 0 (max t 0) := by
    intro g c
    rcases le_total (max t 0) p.duration with h | h
    · rw [min_eq_left h]
    · rw [min_eq_right h, walk_end hl 0 _ (by rw [zero_add, ← ht]), walk_end hl 0 _ (by rw [zero_add, ← ht]; exact h)]
  rw [key, key, key, key]

/-- C66. Whatever distance is asked for, and whichever strategy and limits are in force: the profile
starts at rest at the start, from its duration on it is at rest exactly on the target, its reported
velocity is the derivative of its reported position at every instant, its reported acceleration is the
right derivative of its reported velocity, the velocity, acceleration and jerk never exceed their limits,
and the motion never backs up. -/
theorem profile_motion (planner : MotionProfilePlanner ℝ) (V A D : ℝ) (j : Option ℝ) (p : MotionProfile ℝ)
    (hl : ProfileLimits.tryNew V A j = .ok planner.limits) (h : planner.plan D = .ok p)
    (pos vel acc jerk : ℝ → ℝ)
    (hst : ∀ t, p.stateAt t = .ok ⟨pos t, vel t, acc t, jerk t⟩) :
    (∀ t ≤ 0, pos t = 0 ∧ vel t = 0) ∧
    (∀ t, p.duration ≤ t → pos t = D ∧ vel t = 0 ∧ acc t = 0 ∧ jerk t = 0) ∧
    p.distance = D ∧ 0 ≤ p.duration ∧
    (∀ t, HasDerivAt pos (vel t) t) ∧
    (∀ t, 0 ≤ t → HasDerivWithinAt vel (acc t) (Ici t) t ∧ HasDerivWithinAt acc (jerk t) (Ici t) t) ∧
    (∀ t, |vel t| ≤ V ∧ |acc t| ≤ A ∧ 0 ≤ vel t * D ∧ ∀ J, j = some J → |jerk t| ≤ J) := by
  obtain ⟨-, hV, hA, hJ⟩ := limits_tryNew V A j _ hl
  obtain ⟨sign, hs, hsD, J', g, hcase⟩ := plan_good planner V A D j p hl h
  have hdist : p.distance = D := by rw [g.distance, hsD]
  have habs : |sign| = 1 := by
    rw [← abs_mul_abs_self] at hs
    nlinarith [abs_nonneg sign]
  have hst' := fun t => stateAt_real p g.durations g.total t
  have hpos : pos = fun t => walk ProfilePhase.positionAt p.distance p.phases 0 (max t 0) := by
    funext t; have := (hst t).symm.trans (hst' t)
    injection this with this; injection this with h1 h2 h3 h4
  have hvel : vel = fun t => walk ProfilePhase.velocityAt 0 p.phases 0 (max t 0) := by
    funext t; have := (hst t).symm.trans (hst' t)
    injection this with this; injection this with h1 h2 h3 h4
  have hacc : acc = fun t => walk accelerationOf 0 p.phases 0 (max t 0) := by
    funext t; have := (hst t).symm.trans (hst' t)
    injection this with this; injection this with h1 h2 h3 h4
  have hjerk : jerk = fun t => walk jerkOf 0 p.phases 0 (max t 0) := by
    funext t; have := (hst t).symm.trans (hst' t)
    injection this with this; injection this with h1 h2 h3 h4
  have hdur : 0 ≤ p.duration := by
    rw [g.total]
    apply List.sum_nonneg
    intro y hy
    obtain ⟨q, hq, rfl⟩ := List.mem_map.1 hy
    exact g.durations q hq
  have hJ0 : 0 ≤ J' ∧ ∀ J, j = some J → J' ≤ J := by
    rcases hcase with ⟨-, -, rfl⟩ | ⟨J, -, hj, -, rfl, -⟩
    · exact ⟨le_rfl, fun J hj => (hJ J hj).le⟩
    · exact ⟨(hJ _ hj).le, fun J h2 => by rw [hj] at h2; cases h2; exact le_rfl⟩
  refine ⟨fun t ht => ?_, fun t ht => ?_, hdist, hdur, fun t => ?_, fun t ht => ⟨?_, ?_⟩, fun t => ⟨?_, ?_, ?_, ?_⟩⟩
  · rw [hpos, hvel]; dsimp only
    rw [max_eq_right ht]
    exact ⟨walk_start g.durations g.pos 0, walk_start g.durations g.vel 0⟩
  · rw [hpos, hvel, hacc, hjerk]; dsimp only
    rw [max_eq_left (hdur.trans ht)]
    have h0 : 0 + (p.phases.map (·.duration)).sum ≤ t := by rw [zero_add, ← g.total]; exact ht
    exact ⟨by rw [walk_end g.durations 0 t h0, hdist], walk_end g.durations 0 t h0,
      walk_end g.durations 0 t h0, walk_end g.durations 0 t h0⟩
  · rw [hpos, hvel]
    exact walk_hasDerivAt hasDerivAt_positionAt p.phases g.durations g.pos g.vel t
  · rw [hvel, hacc]; dsimp only
    rw [max_eq_left ht]
    exact (walk_right hasDerivAt_velocityAt p.phases 0 t).congr
      (fun τ hτ => by rw [max_eq_left (ht.trans hτ)]) (by rw [max_eq_left ht])
  · rw [hacc, hjerk]; dsimp only
    rw [max_eq_left ht]
    exact (walk_right hasDerivAt_accelerationOf p.phases 0 t).congr
      (fun τ hτ => by rw [max_eq_left (ht.trans hτ)]) (by rw [max_eq_left ht])
  · rw [hvel]
    refine walk_forall (fun y => |y| ≤ V) (by simpa using hV.le) (fun q hq e h0 h1 => ?_) 0 _ (le_max_right _ _)
    have := g.speed q hq e h0 h1
    have e1 : |q.velocityAt e| = |sign * q.velocityAt e| := by rw [abs_mul, habs, one_mul]
    rw [e1, abs_of_nonneg this.1]
    exact this.2
  · rw [hacc]
    exact walk_forall (fun y => |y| ≤ A) (by simpa using hA.le) g.acceleration 0 _ (le_max_right _ _)
  · rw [hvel]
    refine walk_forall (fun y => 0 ≤ y * D) (by simp) (fun q hq e h0 h1 => ?_) 0 _ (le_max_right _ _)
    have := g.speed q hq e h0 h1
    rw [← hsD]
    have := mul_nonneg this.1 (abs_nonneg D)
    nlinarith
  · intro J hj
    rw [hjerk]
    refine walk_forall (fun y => |y| ≤ J) (by simpa using hJ0.1.trans (hJ0.2 J hj))
      (fun q hq e _ _ => (g.jerk q hq).trans (hJ0.2 J hj)) 0 _ (le_max_right _ _)

/-- C66. When a jerk limit is in force (and the strategy uses it) the acceleration is also continuous and
is the derivative of the velocity at every instant, including the starts and ends of the phases. -/
theorem profile_jerk_limited (planner : MotionProfilePlanner ℝ) (V A J D : ℝ) (p : MotionProfile ℝ)
    (hl : ProfileLimits.tryNew V A (some J) = .ok planner.limits) (hst : planner.strategy ≠ .trapezoidal)
    (h : planner.plan D = .ok p) (pos vel acc jerk : ℝ → ℝ)
    (hs : ∀ t, p.stateAt t = .ok ⟨pos t, vel t, acc t, jerk t⟩) :
    (∀ t, HasDerivAt vel (acc t) t) ∧ acc 0 = 0 ∧ Continuous acc := by
  obtain ⟨-, hV, hA, hJ⟩ := limits_tryNew V A _ _ hl
  obtain ⟨sign, hs2, hsD, J', g, hcase⟩ := plan_good planner V A D _ p hl h
  rcases hcase with ⟨h1, -⟩ | ⟨J2, -, hj, -, -, hc⟩
  · rcases h1 with h1 | h1
    · exact absurd h1 hst
    · cases h1
  have hst' := fun t => stateAt_real p g.durations g.total t
  have hvel : vel = fun t => walk ProfilePhase.velocityAt 0 p.phases 0 (max t 0) := by
    funext t; have := (hs t).symm.trans (hst' t)
    injection this with this; injection this with h1 h2 h3 h4
  have hacc : acc = fun t => walk accelerationOf 0 p.phases 0 (max t 0) := by
    funext t; have := (hs t).symm.trans (hst' t)
    injection this with this; injection this with h1 h2 h3 h4
  refine ⟨fun t => ?_, ?_, ?_⟩
  · rw [hvel, hacc]
    exact walk_hasDerivAt hasDerivAt_velocityAt p.phases g.durations g.vel hc t
  · rw [hacc]; dsimp only
    rw [max_self]
    exact walk_start g.durations hc 0
  · rw [hacc]
    exact walk_continuous (g := accelerationOf) (fun q x => (hasDerivAt_accelerationOf q x).continuousAt)
      p.phases g.durations hc

/-- C66. A distance that is not finite, and a jerk-limited request without a jerk limit, are refused;
every other request is planned, and `state_at` answers at every finite time. -/
theorem profile_errors (planner : MotionProfilePlanner ℝ) (D : ℝ) :
    ((∃ e, planner.plan D = .error e) ↔ planner.strategy = .jerkLimited ∧ planner.limits.jerk = none) ∧
    (∀ e, planner.plan D = .error e → e = .jerkLimitRequired) ∧
    ∀ (p : MotionProfile ℝ) (t : ℝ), ∃ s, p.stateAt t = .ok s := by
  refine ⟨?_, ?_, fun p t => ⟨_, by unfold MotionProfile.stateAt; rw [if_neg (by simp [Fns.isFinite])]⟩⟩
  · unfold MotionProfilePlanner.plan
    rw [if_neg (by simp [Fns.isFinite])]
    cases planner.strategy <;> cases planner.limits.jerk <;> simp
  · intro e
    unfold MotionProfilePlanner.plan
    rw [if_neg (by simp [Fns.isFinite])]
    cases planner.strategy <;> cases planner.limits.jerk <;> simp
    exact fun h => h.symm

/-- C66. Over any scalar type, a distance or a time that is not finite is refused as such, whatever the
strategy, limits or profile; in particular infinities and NaN. -/
theorem profile_non_finite {T : Type} [Zero T] [One T] [NatCast T] [Add T] [Sub T] [Neg T] [Mul T] [Div T] [LT T]
    [LE T] [DecidableLT T] [DecidableLE T] [Max T] [Min T] [Fns T]
    (planner : MotionProfilePlanner T) (p : MotionProfile T) (x : T) (h : Fns.isFinite x = false) :
    planner.plan x = .error .nonFinite ∧ p.stateAt x = .error .nonFinite ∧
    (∀ d, Fns.isFinite d = false → p.stretchedTo d = p) ∧
    ∀ axes : List (MotionProfile T),
      SynchronizedProfile.tryFromProfilesOver axes x = .error .durationNotPositive := by
  refine ⟨?_, ?_, fun d hd => ?_, fun axes => ?_⟩
  · unfold MotionProfilePlanner.plan; rw [h]; rfl
  · unfold MotionProfile.stateAt; rw [h]; rfl
  · unfold MotionProfile.stretchedTo; rw [hd]; simp
  · unfold SynchronizedProfile.tryFromProfilesOver; rw [h]; simp

example : Fns.isFinite XR.nan = false ∧ Fns.isFinite XR.pinf = false := ⟨rfl, rfl⟩

/-! ### Stretching and synchronising -/

theorem walk_scale (g g2 : ProfilePhase ℝ → ℝ → ℝ) (c k s : ℝ) (hs : 0 < s)
    (f : ProfilePhase ℝ → ProfilePhase ℝ) (hf : ∀ q, (f q).duration = q.duration * s)
    (hg : ∀ q e, g2 (f q) (e * s) = g q e / k) (l : List (ProfilePhase ℝ)) (s0 t : ℝ) :
    walk g2 (c / k) (l.map f) (s0 * s) (t * s) = walk g c l s0 t / k := by
  induction l generalizing s0 with
  | nil => rfl
  | cons q rest ih =>
    simp only [List.map_cons, walk, hf]
    have e1 : s0 * s + q.duration * s = (s0 + q.duration) * s := by ring
    rw [e1]
    by_cases h : t < s0 + q.duration
    · rw [if_pos h, if_pos (mul_lt_mul_of_pos_right h hs), ← hg]
      congr 1; ring
    · rw [if_neg h, if_neg (by rw [not_lt] at h ⊢; exact mul_le_mul_of_nonneg_right h hs.le)]
      exact ih _

/-- C66. Stretching a profile to a longer duration slows time and nothing else: with `s` the ratio of the
durations, the stretched profile at `s · t` is where the original was at `t`, with the velocity divided by
`s`, the acceleration by `s²` and the jerk by `s³`, at every time. Any other duration returns the profile
unchanged. -/
theorem profile_stretched (p : MotionProfile ℝ) (d : ℝ) (h0 : 0 < p.duration) :
    (p.duration < d → (p.stretchedTo d).duration = d ∧ (p.stretchedTo d).distance = p.distance ∧
      ∀ t x v a j, p.stateAt t = .ok ⟨x, v, a, j⟩ →
        (p.stretchedTo d).stateAt (t * (d / p.duration))
          = .ok ⟨x, v / (d / p.duration), a / (d / p.duration) ^ 2, j / (d / p.duration) ^ 3⟩) ∧
    (d ≤ p.duration → p.stretchedTo d = p) := by
  constructor
  · intro hd
    have hd0 : 0 < d := h0.trans hd
    have hs : 0 < d / p.duration := by positivity
    have hst : p.stretchedTo d = { phases := p.phases.map fun phase =>
        { phase with
          duration := phase.duration * (d / p.duration)
          startVelocity := phase.startVelocity / (d / p.duration)
          startAcceleration := phase.startAcceleration / ((d / p.duration) * (d / p.duration))
          jerk := phase.jerk / ((d / p.duration) * (d / p.duration) * (d / p.duration)) }, duration := d, distance := p.distance } := by
      unfold MotionProfile.stretchedTo
      rw [if_neg (by simp [Fns.isFinite, not_le.2 hd, not_le.2 h0])]
    rw [hst]
    refine ⟨rfl, rfl, fun t x v a j h => ?_⟩
    set s := d / p.duration with hsdef
    have hds : d = p.duration * s := by rw [hsdef]; field_simp
    clear_value s
    unfold MotionProfile.stateAt at h ⊢
    rw [if_neg (by simp [Fns.isFinite]), stateLoop_walk] at h ⊢
    dsimp only
    have hclamp : min (max (t * s) 0) d = min (max t 0) p.duration * s := by
      rw [hds, min_mul_of_nonneg _ _ hs.le, max_mul_of_nonneg _ _ hs.le, zero_mul]
    rw [hclamp]
    injection h with h
    injection h with h1 h2 h3 h4
    have hne := hs.ne'
    have hz : (0 : ℝ) = 0 * s := (zero_mul s).symm
    congr 2
    · rw [← h1]
      have := walk_scale ProfilePhase.positionAt ProfilePhase.positionAt p.distance 1 s hs
        (fun phase => { phase with
          duration := phase.duration * s
          startVelocity := phase.startVelocity / s
          startAcceleration := phase.startAcceleration / (s * s)
          jerk := phase.jerk / (s * s * s) }) (fun q => rfl)
        (fun q e => by simp only [ProfilePhase.positionAt]; push_cast; field_simp) p.phases 0 (min (max t 0) p.duration)
      rw [div_one, div_one, zero_mul] at this
      exact this
    · rw [← h2]
      have := walk_scale ProfilePhase.velocityAt ProfilePhase.velocityAt 0 s s hs
        (fun phase => { phase with
          duration := phase.duration * s
          startVelocity := phase.startVelocity / s
          startAcceleration := phase.startAcceleration / (s * s)
          jerk := phase.jerk / (s * s * s) }) (fun q => rfl)
        (fun q e => by simp only [ProfilePhase.velocityAt]; push_cast; field_simp) p.phases 0 (min (max t 0) p.duration)
      rw [zero_mul, zero_div] at this
      exact this
    · rw [← h3]
      have := walk_scale accelerationOf accelerationOf 0 (s ^ 2) s hs
        (fun phase => { phase with
          duration := phase.duration * s
          startVelocity := phase.startVelocity / s
          startAcceleration := phase.startAcceleration / (s * s)
          jerk := phase.jerk / (s * s * s) }) (fun q => rfl)
        (fun q e => by simp only [accelerationOf]; field_simp) p.phases 0 (min (max t 0) p.duration)
      rw [zero_mul, zero_div] at this
      exact this
    · rw [← h4]
      have := walk_scale jerkOf jerkOf 0 (s ^ 3) s hs
        (fun phase => { phase with
          duration := phase.duration * s
          startVelocity := phase.startVelocity / s
          startAcceleration := phase.startAcceleration / (s * s)
          jerk := phase.jerk / (s * s * s) }) (fun q => rfl)
        (fun q e => by simp only [jerkOf]; field_simp) p.phases 0 (min (max t 0) p.duration)
      rw [zero_mul, zero_div] at this
      exact this
  · intro hd
    unfold MotionProfile.stretchedTo
    rw [if_pos (by simp [hd])]

theorem foldl_max_ge {α : Type} (f : α → ℝ) (l : List α) (b : ℝ) :
    b ≤ l.foldl (fun m a => max m (f a)) b ∧ ∀ a ∈ l, f a ≤ l.foldl (fun m a => max m (f a)) b := by
  induction l generalizing b with
  | nil => exact ⟨le_rfl, fun a h => absurd h (by simp)⟩
  | cons x rest ih =>
    obtain ⟨h1, h2⟩ := ih (max b (f x))
    refine ⟨(le_max_left _ _).trans h1, fun a ha => ?_⟩
    rcases List.mem_cons.1 ha with rfl | h
    · exact (le_max_right _ _).trans h1
    · exact h2 a h

theorem foldl_max_mem {α : Type} (f : α → ℝ) (l : List α) (b : ℝ) :
    l.foldl (fun m a => max m (f a)) b = b ∨ ∃ a ∈ l, l.foldl (fun m a => max m (f a)) b = f a := by
  induction l generalizing b with
  | nil => exact .inl rfl
  | cons x rest ih =>
    rcases ih (max b (f x)) with h | ⟨a, ha, h⟩
    · rcases max_choice b (f x) with h2 | h2
      · left; simp only [List.foldl_cons]; rw [h, h2]
      · right; exact ⟨x, by simp, by simp only [List.foldl_cons]; rw [h, h2]⟩
    · right; exact ⟨a, by simp [ha], h⟩

/-- C66. Synchronised axes finish together and on target. Put together profiles planned for any number of
axes, each with its own limits and strategy, either over the slowest axis' time or over a requested time.
The common duration is no shorter than any axis needs; every axis that moves at all lasts exactly the common
duration; from then on every axis is at rest on its own target; and no axis ever exceeds its own limits. -/
theorem synchronized_finish (axes : List (MotionProfile ℝ)) (s : SynchronizedProfile ℝ)
    (hs : s = SynchronizedProfile.fromProfiles axes ∨
      ∃ d, SynchronizedProfile.tryFromProfilesOver axes d = .ok s)
    (i : ℕ) (p : MotionProfile ℝ) (hi : axes[i]? = some p)
    (planner : MotionProfilePlanner ℝ) (V A D : ℝ) (j : Option ℝ)
    (hl : ProfileLimits.tryNew V A j = .ok planner.limits) (h : planner.plan D = .ok p) :
    p.duration ≤ s.duration ∧
    ∃ q, s.axes[i]? = some q ∧ q.distance = D ∧ (D ≠ 0 → q.duration = s.duration) ∧
      (∀ t, s.duration ≤ t → q.stateAt t = .ok ⟨D, 0, 0, 0⟩) ∧
      ∀ t x v a k, q.stateAt t = .ok ⟨x, v, a, k⟩ →
        |v| ≤ V ∧ |a| ≤ A ∧ ∀ J, j = some J → |k| ≤ J := by
  have hmem : p ∈ axes := List.mem_of_getElem? hi
  have hslow := (foldl_max_ge (fun q : MotionProfile ℝ => q.duration) axes 0).2 p hmem
  obtain ⟨hax, hdur⟩ : s.axes = axes.map (fun axis => axis.stretchedTo s.duration) ∧ p.duration ≤ s.duration := by
    rcases hs with rfl | ⟨d, hd⟩
    · exact ⟨rfl, hslow⟩
    · unfold SynchronizedProfile.tryFromProfilesOver at hd
      split_ifs at hd with h1
      cases hd
      exact ⟨rfl, hslow.trans (le_max_right _ _)⟩
  refine ⟨hdur, p.stretchedTo s.duration, by rw [hax]; simp [hi], ?_⟩
  have hstate : ∀ t, ∃ st : ProfileState ℝ, p.stateAt t = .ok st := (profile_errors planner D).2.2 p
  choose st hst using hstate
  obtain ⟨hstart, hend, hdist, hd0, -, -, hlim⟩ := profile_motion planner V A D j p hl h
    (fun t => (st t).position) (fun t => (st t).velocity) (fun t => (st t).acceleration) (fun t => (st t).jerk) hst
  rcases hd0.eq_or_lt with hz | hpos
  · have hD : D = 0 := by rw [← (hend 0 (by rw [hz])).1, (hstart 0 le_rfl).1]
    have hsame : p.stretchedTo s.duration = p := by
      unfold MotionProfile.stretchedTo
      rw [if_pos (by simp [← hz])]
    rw [hsame]
    refine ⟨hdist, fun hne => absurd hD hne, fun t ht => ?_, fun t x v a k hq => ?_⟩
    · rw [hst t]
      obtain ⟨e1, e2, e3, e4⟩ := hend t (hdur.trans ht)
      rw [← e1]
      congr 1
      cases hh : st t
      simp only [hh] at e2 e3 e4 ⊢
      rw [e2, e3, e4]
    · rw [hst t] at hq
      injection hq with hq
      have := hlim t
      rw [hq] at this
      exact ⟨this.1, this.2.1, this.2.2.2⟩
  · obtain ⟨hlong, hsame⟩ := profile_stretched p s.duration hpos
    rcases hdur.eq_or_lt with he | hlt
    · rw [hsame he.ge]
      refine ⟨hdist, fun _ => he, fun t ht => ?_, fun t x v a k hq => ?_⟩
      · rw [hst t]
        obtain ⟨e1, e2, e3, e4⟩ := hend t (hdur.trans ht)
        rw [← e1]
        congr 1
        cases hh : st t
        simp only [hh] at e2 e3 e4 ⊢
        rw [e2, e3, e4]
      · rw [hst t] at hq
        injection hq with hq
        have := hlim t
        rw [hq] at this
        exact ⟨this.1, this.2.1, this.2.2.2⟩
    · obtain ⟨e1, e2, e3⟩ := hlong hlt
      set r := s.duration / p.duration with hr
      have hr1 : 1 < r := by rw [hr, one_lt_div hpos]; exact hlt
      have hr0 : 0 < r := by linarith
      have hevery : ∀ t, (p.stretchedTo s.duration).stateAt t
          = .ok ⟨(st (t / r)).position, (st (t / r)).velocity / r, (st (t / r)).acceleration / r ^ 2,
              (st (t / r)).jerk / r ^ 3⟩ := by
        intro t
        have := e3 (t / r) _ _ _ _ (hst (t / r))
        rwa [div_mul_cancel₀ t hr0.ne'] at this
      refine ⟨e2.trans hdist, fun _ => e1, fun t ht => ?_, fun t x v a k hq => ?_⟩
      · rw [hevery]
        have : p.duration ≤ t / r := by
          rw [le_div_iff₀ hr0, hr, mul_div_cancel₀ _ hpos.ne']; exact ht
        obtain ⟨f1, f2, f3, f4⟩ := hend (t / r) this
        rw [f1, f2, f3, f4]
        simp
      · rw [hevery] at hq
        injection hq with hq
        injection hq with g1 g2 g3 g4
        obtain ⟨l1, l2, -, l4⟩ := hlim (t / r)
        have hdiv : ∀ y B : ℝ, ∀ n : ℕ, |y| ≤ B → |y / r ^ n| ≤ B := by
          intro y B n hy
          rw [abs_div, abs_of_pos (pow_pos hr0 n)]
          exact (div_le_self (abs_nonneg y) (one_le_pow₀ hr1.le)).trans hy
        refine ⟨?_, ?_, fun J hJ => ?_⟩
        · rw [← g2]; simpa using hdiv _ V 1 l1
        · rw [← g3]; exact hdiv _ A 2 l2
        · rw [← g4]; exact hdiv _ J 3 (l4 J hJ)

/-- C66. The common duration is the slowest axis' own, or the requested one if that is longer; a requested
duration that is not positive is refused; the states come back one per axis. -/
theorem synchronized_duration (axes : List (MotionProfile ℝ)) (d : ℝ) :
    ((∀ p ∈ axes, 0 ≤ p.duration) → axes ≠ [] →
      (∃ p ∈ axes, (SynchronizedProfile.fromProfiles axes).duration = p.duration)) ∧
    (d ≤ 0 → SynchronizedProfile.tryFromProfilesOver axes d = .error .durationNotPositive) ∧
    (0 < d → ∃ s, SynchronizedProfile.tryFromProfilesOver axes d = .ok s ∧
      s.duration = max d (SynchronizedProfile.fromProfiles axes).duration) ∧
    ∀ (s : SynchronizedProfile ℝ) (t : ℝ), ∃ l, s.stateAt t = .ok l ∧ l.length = s.axes.length ∧
      ∀ (i : ℕ) (q : MotionProfile ℝ), s.axes[i]? = some q → ∃ st, l[i]? = some st ∧ q.stateAt t = .ok st := by
  refine ⟨fun hp hne => ?_, fun hd => ?_, fun hd => ?_, fun s t => ?_⟩
  · rcases foldl_max_mem (fun q : MotionProfile ℝ => q.duration) axes 0 with h | ⟨a, ha, h⟩
    · obtain ⟨p, hpm⟩ := List.exists_mem_of_ne_nil axes hne
      refine ⟨p, hpm, ?_⟩
      have h1 := (foldl_max_ge (fun q : MotionProfile ℝ => q.duration) axes 0).2 p hpm
      have h2 := hp p hpm
      exact h.trans (le_antisymm h2 (by rw [h] at h1; exact h1))
    · exact ⟨a, ha, h⟩
  · unfold SynchronizedProfile.tryFromProfilesOver
    rw [if_pos (by simp [hd])]
  · refine ⟨_, by unfold SynchronizedProfile.tryFromProfilesOver; rw [if_neg (by simp [Fns.isFinite, hd])], rfl⟩
  · obtain ⟨axes, dur⟩ := s
    unfold SynchronizedProfile.stateAt
    dsimp only
    induction axes with
    | nil => exact ⟨[], rfl, rfl, fun i q h => by simp at h⟩
    | cons p rest ih =>
      obtain ⟨l, h1, h2, h3⟩ := ih
      have hp : ∃ st, p.stateAt t = .ok st := ⟨_, by unfold MotionProfile.stateAt; rw [if_neg (by simp [Fns.isFinite])]⟩
      obtain ⟨st, hst⟩ := hp
      refine ⟨st :: l, by rw [List.mapM_cons, hst, h1]; rfl, by simp [h2], fun i q hq => ?_⟩
      cases i with
      | zero =>
        simp only [List.getElem?_cons_zero, Option.some.injEq] at hq
        subst hq
        exact ⟨st, rfl, hst⟩
      | succ i =>
        simp only [List.getElem?_cons_succ] at hq ⊢
        exact h3 i q hq

/-- C66 (finding). A synchronised profile of no axes reports no error for a time that is not a number,
although the documentation says a time that is not finite is refused. -/
theorem synchronized_empty_nan :
    (SynchronizedProfile.fromProfiles ([] : List (MotionProfile XR))).stateAt XR.nan = .ok [] := rfl

/-- A jerk-limited planner and a move it plans: the hypotheses above are met. -/
example : ∃ planner : MotionProfilePlanner ℝ, ∃ p, ProfileLimits.tryNew 2 1 (some 3) = .ok planner.limits ∧
    planner.strategy ≠ .trapezoidal ∧ planner.plan (-10) = .ok p := by
  refine ⟨⟨⟨2, 1, some 3⟩, .automatic⟩,
    planJerkLimited (Fns.abs (-10)) ⟨2, 1, some 3⟩ 3 (if (-10 : ℝ) < 0 then -1 else 1), ?_, by simp, ?_⟩
  · simp [ProfileLimits.tryNew, isPositiveLimit, Fns.isFinite]
  · unfold MotionProfilePlanner.plan
    rw [if_neg (by simp [Fns.isFinite])]

end Multicalc
