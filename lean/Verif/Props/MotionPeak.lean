import Verif.Props.MotionProfile
import Mathlib.Tactic

/-!
# The peak speed of a motion profile
-/

namespace Multicalc

open MotionProfile Set

theorem walk_skip (g : ProfilePhase ℝ → ℝ → ℝ) (c : ℝ) (l r : List (ProfilePhase ℝ))
    (hl : ∀ x ∈ l, 0 ≤ x.duration) (s t : ℝ) (ht : s + (l.map (·.duration)).sum ≤ t) :
    walk g c (l ++ r) s t = walk g c r (s + (l.map (·.duration)).sum) t := by
  induction l generalizing s with
  | nil => simp
  | cons x l ih =>
    have h1 : 0 ≤ (l.map (·.duration)).sum := List.sum_nonneg fun y hy => by
      obtain ⟨z, hz, rfl⟩ := List.mem_map.1 hy
      exact hl z (by simp [hz])
    simp only [List.cons_append, List.map_cons, List.sum_cons, walk] at ht ⊢
    rw [if_neg (by linarith), ih (fun y hy => hl y (by simp [hy])) _ (by linarith), add_assoc]

/-- The peak of a trapezoidal plan, and that lowering the speed limit to it changes nothing. -/
theorem trapezoid_peak (D V A sign : ℝ) (j : Option ℝ) (hD : 0 < D) (hV : 0 < V) (hA : 0 < A) :
    ∃ vp, 0 < vp ∧ vp ≤ V ∧ (planTrapezoidal D ⟨V, A, j⟩ sign).peakSpeed = sign * vp ∧
      planTrapezoidal D ⟨V, A, j⟩ sign = planTrapezoidal D ⟨vp, A, j⟩ sign := by
  set vp := min V (Fns.sqrt (D * A) : ℝ) with hvp
  have hs : 0 < (Fns.sqrt (D * A) : ℝ) := Real.sqrt_pos.2 (by positivity)
  have hp : 0 < vp := lt_min hV hs
  have hmin : min vp (Fns.sqrt (D * A) : ℝ) = vp := min_eq_left (min_le_right _ _)
  refine ⟨vp, hp, min_le_left _ _, ?_, ?_⟩
  · unfold planTrapezoidal
    dsimp only
    rw [← hvp, if_neg (not_le.2 hp)]
    simp only [fromPhasePlan, planLoop, peakSpeed, List.getElem?_cons_succ, List.getElem?_cons_zero,
      ProfilePhase.velocityAt]
    field_simp
    ring
  · unfold planTrapezoidal
    dsimp only
    rw [← hvp, hmin]

theorem jerk_peak (D V A J sign : ℝ) (j : Option ℝ) (hD : 0 < D) (hV : 0 < V) (hA : 0 < A) (hJ : 0 < J) :
    ∃ vp, 0 < vp ∧ vp ≤ V ∧ (planJerkLimited D ⟨V, A, j⟩ J sign).peakSpeed = sign * vp ∧
      planJerkLimited D ⟨V, A, j⟩ J sign = planJerkLimited D ⟨vp, A, j⟩ J sign := by
  set vp := min V (speedReachable D A J) with hvp
  have hp : 0 < vp := lt_min hV (speedReachable_pos D A J hD hA hJ)
  have hmin : min vp (speedReachable D A J) = vp := min_eq_left (min_le_right _ _)
  refine ⟨vp, hp, min_le_left _ _, ?_, ?_⟩
  · obtain ⟨-, -, hpk, -⟩ := ramp_spec vp A J hp hA hJ
    unfold planJerkLimited
    dsimp only
    rw [← hvp, if_neg (not_le.2 hp)]
    set tj := (accelerationRamp vp A J).1
    set th := (accelerationRamp vp A J).2
    simp only [fromPhasePlan, planLoop, peakSpeed, List.getElem?_cons_succ, List.getElem?_cons_zero,
      ProfilePhase.velocityAt]
    push_cast
    linear_combination sign * hpk
  · unfold planJerkLimited
    dsimp only
    rw [← hvp, hmin]

/-- C66. The peak speed of a planned move is its largest speed: no instant is faster, some instant
between the start and the end reaches it with its sign, it is within the speed limit, it points towards
the target, and it is zero exactly for a move of no displacement. -/
theorem profile_peak (planner : MotionProfilePlanner ℝ) (V A D : ℝ) (j : Option ℝ) (p : MotionProfile ℝ)
    (hl : ProfileLimits.tryNew V A j = .ok planner.limits) (h : planner.plan D = .ok p)
    (pos vel acc jerk : ℝ → ℝ)
    (hst : ∀ t, p.stateAt t = .ok ⟨pos t, vel t, acc t, jerk t⟩) :
    (∀ t, |vel t| ≤ |p.peakSpeed|) ∧ (∃ t ∈ Icc 0 p.duration, vel t = p.peakSpeed) ∧
    |p.peakSpeed| ≤ V ∧ 0 ≤ p.peakSpeed * D ∧ (p.peakSpeed = 0 ↔ D = 0) := by
  obtain ⟨hlim, hV, hA, hJ⟩ := limits_tryNew V A j _ hl
  obtain ⟨sign, hs, hsD, J', g, hcase⟩ := plan_good planner V A D j p hl h
  have hm := profile_motion planner V A D j p hl h pos vel acc jerk hst
  have habs : |sign| = 1 := by
    have := hs
    rw [← abs_mul_abs_self] at this
    nlinarith [abs_nonneg sign]
  have hvel : vel = fun t => walk ProfilePhase.velocityAt 0 p.phases 0 (max t 0) := by
    funext t; have := (hst t).symm.trans (stateAt_real p g.durations g.total t)
    injection this with this; injection this with h1 h2 h3 h4
  by_cases hD0 : D = 0
  · -- no displacement: planned as standing still
    have hstill : p = planStill sign := by
      have hz : |D| = 0 := by rw [hD0]; simp
      rcases hcase with ⟨-, hp, -⟩ | ⟨J, -, -, hp, -, -⟩
      · rw [hp, hlim, hz]
        unfold planTrapezoidal
        dsimp only
        rw [if_pos]
        exact (min_le_right _ _).trans (by rw [zero_mul]; simp [Fns.sqrt])
      · rw [hp, hlim, hz]
        unfold planJerkLimited
        dsimp only
        rw [if_pos]
        refine (min_le_right _ _).trans ?_
        unfold speedReachable
        have hc : (Fns.cbrt ((0 : ℝ) * 0 * J / ((4 : ℕ) : ℝ)) : ℝ) = 0 := by
          have := cbrt_cube ((0 : ℝ) * 0 * J / ((4 : ℕ) : ℝ))
          rw [zero_mul, zero_mul, zero_div] at this ⊢
          exact pow_eq_zero_iff (by norm_num) |>.1 this
        dsimp only
        rw [hc, zero_mul, if_pos (by positivity)]
    have hpk : p.peakSpeed = 0 := by
      rw [hstill]
      simp [planStill, fromPhasePlan, planLoop, peakSpeed, List.replicate, ProfilePhase.velocityAt]
    have hdur : p.duration = 0 := by
      rw [hstill]
      simp [planStill, fromPhasePlan, planLoop, List.replicate]
    have hv0 : ∀ t, vel t = 0 := fun t => by
      rcases le_total t 0 with ht | ht
      · exact (hm.1 t ht).2
      · exact (hm.2.1 t (by rw [hdur]; exact ht)).2.1
    rw [hpk]
    refine ⟨fun t => by rw [hv0 t], ⟨0, ⟨le_rfl, hdur.ge⟩, hv0 0⟩, by simpa using hV.le, by simp, by simp [hD0]⟩
  · have hDpos : 0 < |D| := abs_pos.2 hD0
    obtain ⟨vp, hvp, hle, hpk, g2⟩ : ∃ vp, 0 < vp ∧ vp ≤ V ∧ p.peakSpeed = sign * vp ∧
        ∃ J', GoodProfile p |D| sign vp A J' := by
      rcases hcase with ⟨-, hp, -⟩ | ⟨J, -, hj, hp, -, -⟩
      · rw [hlim] at hp
        obtain ⟨vp, h1, h2, h3, h4⟩ := trapezoid_peak |D| V A sign j hDpos hV hA
        exact ⟨vp, h1, h2, by rw [hp, h3], 0, by
          rw [hp, h4]; exact trapezoid_good _ _ _ _ _ (abs_nonneg D) h1 hA hs⟩
      · rw [hlim] at hp
        obtain ⟨vp, h1, h2, h3, h4⟩ := jerk_peak |D| V A J sign j hDpos hV hA (hJ J hj)
        exact ⟨vp, h1, h2, by rw [hp, h3], J, by
          rw [hp, h4]; exact (jerk_good _ _ _ _ _ _ (abs_nonneg D) h1 hA (hJ J hj) hs).1⟩
    obtain ⟨J2, g2⟩ := g2
    have habspk : |p.peakSpeed| = vp := by rw [hpk, abs_mul, habs, one_mul, abs_of_pos hvp]
    have hne : sign ≠ 0 := by intro h0; rw [h0] at hs; norm_num at hs
    refine ⟨fun t => ?_, ?_, by rw [habspk]; exact hle, ?_, ?_⟩
    · rw [hvel, habspk]
      refine walk_forall (fun y => |y| ≤ vp) (by simpa using hvp.le) (fun q hq e h0 h1 => ?_) 0 _
        (le_max_right _ _)
      have := g2.speed q hq e h0 h1
      have e1 : |q.velocityAt e| = |sign * q.velocityAt e| := by rw [abs_mul, habs, one_mul]
      rw [e1, abs_of_nonneg this.1]
      exact this.2
    · obtain ⟨p0, p1, p2, p3, rest, hph⟩ : ∃ p0 p1 p2 p3 rest, p.phases = p0 :: p1 :: p2 :: p3 :: rest := by
        have : p.peakSpeed ≠ 0 := by
          rw [hpk]; exact mul_ne_zero hne hvp.ne'
        unfold peakSpeed at this
        match hq : p.phases with
        | [] => rw [hq] at this; simp at this
        | [_] => rw [hq] at this; simp at this
        | [_, _] => rw [hq] at this; simp at this
        | [_, _, _] => rw [hq] at this; simp at this
        | a :: b :: c :: d :: r => exact ⟨a, b, c, d, r, rfl⟩
      have hch := g.vel
      rw [hph] at hch
      obtain ⟨-, -, -, hch⟩ := hch
      have hstart : p3.velocityAt 0 = p2.velocityAt p2.duration := hch.1
      have hpeak : p.peakSpeed = p3.velocityAt 0 := by
        unfold peakSpeed
        rw [hph]
        simp [ProfilePhase.velocityAt]
      have hdd : ∀ q ∈ [p0, p1, p2, p3] ++ rest, 0 ≤ q.duration := fun q hq =>
        g.durations q (by rw [hph]; simpa using hq)
      have d0 := hdd p0 (by simp)
      have d1 := hdd p1 (by simp)
      have d2 := hdd p2 (by simp)
      have hrest : 0 ≤ ((p3 :: rest).map (·.duration)).sum := List.sum_nonneg fun y hy => by
        obtain ⟨z, hz, rfl⟩ := List.mem_map.1 hy
        exact hdd z (by simp only [List.mem_cons] at hz; simp; tauto)
      refine ⟨p0.duration + p1.duration + p2.duration, ⟨by linarith, ?_⟩, ?_⟩
      · rw [g.total, hph]
        simp only [List.map_cons, List.sum_cons] at hrest ⊢
        linarith
      · rw [hvel]
        dsimp only
        rw [max_eq_left (by linarith), hph]
        have := walk_skip ProfilePhase.velocityAt 0 [p0, p1, p2] (p3 :: rest)
          (fun q hq => hdd q (by simp only [List.mem_cons, List.not_mem_nil, or_false] at hq; simp; tauto))
          0 (p0.duration + p1.duration + p2.duration) (by simp; linarith)
        rw [show p0 :: p1 :: p2 :: p3 :: rest = [p0, p1, p2] ++ p3 :: rest from rfl, this]
        have hsum : 0 + (([p0, p1, p2] : List (ProfilePhase ℝ)).map (·.duration)).sum =
            p0.duration + p1.duration + p2.duration := by simp; ring
        rw [hsum, walk_start (fun q hq => hdd q (by
          simp only [List.mem_cons] at hq; simp; tauto)) hch, hpeak, hstart]
    · rw [hpk, ← hsD]
      have : sign * vp * (sign * |D|) = sign * sign * (vp * |D|) := by ring
      rw [this, hs, one_mul]
      positivity
    · rw [hpk]
      constructor
      · intro h0
        rcases mul_eq_zero.1 h0 with h1 | h1
        · exact absurd h1 hne
        · exact absurd h1 hvp.ne'
      · exact fun h0 => absurd h0 hD0

/-- A move back by ten under a speed limit of two. -/
example : ∃ p, (⟨⟨2, 1, none⟩, .automatic⟩ : MotionProfilePlanner ℝ).plan (-10) = .ok p ∧
    ProfileLimits.tryNew (2 : ℝ) 1 none = .ok ⟨2, 1, none⟩ := by
  refine ⟨planTrapezoidal (Fns.abs (-10)) ⟨2, 1, none⟩ (if (-10 : ℝ) < 0 then -1 else 1), ?_, ?_⟩
  · unfold MotionProfilePlanner.plan
    rw [if_neg (by simp [Fns.isFinite])]
  · simp [ProfileLimits.tryNew, isPositiveLimit, Fns.isFinite]

end Multicalc
