import Verif.Model.MotionProfile
import Verif.Props.Screw
import Mathlib.Analysis.Calculus.Deriv.Basic
import Mathlib.Analysis.Calculus.Deriv.Pow
import Mathlib.Analysis.Calculus.Deriv.Comp
import Mathlib.Analysis.Calculus.MeanValue
import Mathlib.Tactic

/-!
# Piecewise evaluation of motion profiles
-/

namespace Multicalc

open Set Filter Topology

/-- The phase walk of `state_at` for one component `g` of the state, with `c` past the last phase. -/
noncomputable def walk (g : ProfilePhase ℝ → ℝ → ℝ) (c : ℝ) : List (ProfilePhase ℝ) → ℝ → ℝ → ℝ
  | [], _, _ => c
  | p :: rest, s, t => if t < s + p.duration then g p (t - s) else walk g c rest (s + p.duration) t

/-- Each phase starts where the previous one ended, and the last one ends at `c`. -/
def Chained (g : ProfilePhase ℝ → ℝ → ℝ) (c : ℝ) : List (ProfilePhase ℝ) → ℝ → Prop
  | [], x => x = c
  | p :: rest, x => g p 0 = x ∧ Chained g c rest (g p p.duration)

noncomputable def accelerationOf (p : ProfilePhase ℝ) (e : ℝ) : ℝ := p.startAcceleration + p.jerk * e
noncomputable def jerkOf (p : ProfilePhase ℝ) (_e : ℝ) : ℝ := p.jerk

theorem stateLoop_walk (D t : ℝ) (l : List (ProfilePhase ℝ)) (s : ℝ) :
    MotionProfile.stateLoop D t l s
      = ⟨walk ProfilePhase.positionAt D l s t, walk ProfilePhase.velocityAt 0 l s t,
          walk accelerationOf 0 l s t, walk jerkOf 0 l s t⟩ := by
  induction l generalizing s with
  | nil => rfl
  | cons p rest ih =>
    simp only [MotionProfile.stateLoop, walk]
    split_ifs
    · rfl
    · exact ih _

variable {g g' : ProfilePhase ℝ → ℝ → ℝ} {c : ℝ}

theorem walk_start {l : List (ProfilePhase ℝ)} (hl : ∀ p ∈ l, 0 ≤ p.duration) {x : ℝ}
    (h : Chained g c l x) (s : ℝ) : walk g c l s s = x := by
  induction l generalizing s x with
  | nil => exact h.symm
  | cons p rest ih =>
    have hp := hl p (by simp)
    simp only [walk]
    split_ifs with hs
    · rw [sub_self]; exact h.1
    · have h0 : p.duration = 0 := by linarith
      have := ih (fun q hq => hl q (by simp [hq])) h.2 (s + p.duration)
      rw [h0] at this ⊢
      rw [add_zero] at this ⊢
      rw [this, h.1]

theorem walk_forall (Q : ℝ → Prop) (hc : Q c) {l : List (ProfilePhase ℝ)}
    (h : ∀ p ∈ l, ∀ e, 0 ≤ e → e < p.duration → Q (g p e)) (s t : ℝ) (ht : s ≤ t) :
    Q (walk g c l s t) := by
  induction l generalizing s with
  | nil => exact hc
  | cons p rest ih =>
    simp only [walk]
    split_ifs with hs
    · exact h p (by simp) _ (by linarith) (by linarith)
    · exact ih (fun q hq => h q (by simp [hq])) _ (not_lt.1 hs)

theorem walk_end {l : List (ProfilePhase ℝ)} (hl : ∀ p ∈ l, 0 ≤ p.duration) (s t : ℝ)
    (ht : s + (l.map (·.duration)).sum ≤ t) : walk g c l s t = c := by
  induction l generalizing s with
  | nil => rfl
  | cons p rest ih =>
    have hsum : 0 ≤ (rest.map (·.duration)).sum := by
      apply List.sum_nonneg
      intro y hy
      obtain ⟨q, hq, rfl⟩ := List.mem_map.1 hy
      exact hl q (by simp [hq])
    simp only [List.map_cons, List.sum_cons] at ht
    simp only [walk]
    rw [if_neg (by linarith)]
    exact ih (fun q hq => hl q (by simp [hq])) _ (by linarith)

theorem walk_right (hg : ∀ p x, HasDerivAt (g p) (g' p x) x) (l : List (ProfilePhase ℝ)) (s t : ℝ) :
    HasDerivWithinAt (walk g c l s) (walk g' 0 l s t) (Ici t) t := by
  induction l generalizing s with
  | nil => exact hasDerivWithinAt_const _ _ _
  | cons p rest ih =>
    by_cases h : t < s + p.duration
    · have e1 : walk g' 0 (p :: rest) s t = g' p (t - s) := by simp only [walk]; rw [if_pos h]
      rw [e1]
      have hd : HasDerivAt (fun τ => g p (τ - s)) (g' p (t - s)) t := (hg p (t - s)).comp_sub_const t s
      refine (hd.congr_of_eventuallyEq ?_).hasDerivWithinAt
      filter_upwards [Iio_mem_nhds h] with τ hτ
      simp only [walk]; rw [if_pos (mem_Iio.1 hτ)]
    · have e1 : walk g' 0 (p :: rest) s t = walk g' 0 rest (s + p.duration) t := by
        simp only [walk]; rw [if_neg h]
      rw [e1]
      refine (ih (s + p.duration)).congr (fun τ hτ => ?_) ?_
      · simp only [walk]; rw [if_neg (not_lt.2 ((not_lt.1 h).trans hτ))]
      · simp only [walk]; rw [if_neg h]

theorem walk_left (hg : ∀ p x, HasDerivAt (g p) (g' p x) x) (l : List (ProfilePhase ℝ))
    (hl : ∀ p ∈ l, 0 ≤ p.duration) {x x' : ℝ} (hc : Chained g c l x) (hc' : Chained g' 0 l x') (s t : ℝ)
    (hst : s < t) : HasDerivWithinAt (walk g c l s) (walk g' 0 l s t) (Iic t) t := by
  induction l generalizing s x x' with
  | nil => exact hasDerivWithinAt_const _ _ _
  | cons p rest ih =>
    have hp := hl p (by simp)
    have hr : ∀ q ∈ rest, 0 ≤ q.duration := fun q hq => hl q (by simp [hq])
    rcases lt_trichotomy t (s + p.duration) with h | h | h
    · have e1 : walk g' 0 (p :: rest) s t = g' p (t - s) := by simp only [walk]; rw [if_pos h]
      rw [e1]
      have hd : HasDerivAt (fun τ => g p (τ - s)) (g' p (t - s)) t := (hg p (t - s)).comp_sub_const t s
      refine (hd.congr_of_eventuallyEq ?_).hasDerivWithinAt
      filter_upwards [Iio_mem_nhds h] with τ hτ
      simp only [walk]; rw [if_pos (mem_Iio.1 hτ)]
    · have hd : HasDerivAt (fun τ => g p (τ - s)) (g' p (t - s)) t := (hg p (t - s)).comp_sub_const t s
      have e1 : walk g' 0 (p :: rest) s t = g' p (t - s) := by
        simp only [walk]; rw [if_neg (by linarith), h, walk_start hr hc'.2]
        congr 1; ring
      have e2 : walk g c (p :: rest) s t = g p (t - s) := by
        simp only [walk]; rw [if_neg (by linarith), h, walk_start hr hc.2]
        congr 1; ring
      rw [e1]
      refine hd.hasDerivWithinAt.congr (fun τ hτ => ?_) e2
      rcases lt_or_eq_of_le (show τ ≤ t from hτ) with h1 | h1
      · simp only [walk]; rw [if_pos (by linarith)]
      · rw [h1]; exact e2
    · have e1 : walk g' 0 (p :: rest) s t = walk g' 0 rest (s + p.duration) t := by
        simp only [walk]; rw [if_neg (by linarith)]
      rw [e1]
      refine (ih hr hc.2 hc'.2 (s + p.duration) h).congr_of_eventuallyEq ?_ ?_
      · refine mem_nhdsWithin_of_mem_nhds ?_
        filter_upwards [Ioi_mem_nhds h] with τ hτ
        simp only [walk]; rw [if_neg (not_lt.2 (le_of_lt hτ))]
      · simp only [walk]; rw [if_neg (by linarith)]

theorem walk_hasDerivAt (hg : ∀ p x, HasDerivAt (g p) (g' p x) x) (l : List (ProfilePhase ℝ))
    (hl : ∀ p ∈ l, 0 ≤ p.duration) {x : ℝ} (hc : Chained g c l x) (hc' : Chained g' 0 l 0) (t : ℝ) :
    HasDerivAt (fun τ => walk g c l 0 (max τ 0)) (walk g' 0 l 0 (max t 0)) t := by
  rcases lt_trichotomy t 0 with h | h | h
  · rw [max_eq_right h.le, walk_start hl hc']
    refine (hasDerivAt_const t (walk g c l 0 0)).congr_of_eventuallyEq ?_
    filter_upwards [Iio_mem_nhds h] with τ hτ
    rw [max_eq_right (le_of_lt hτ)]
  · subst h
    rw [max_self]
    have hr := walk_right (c := c) hg l 0 0
    have hr' : HasDerivWithinAt (fun τ => walk g c l 0 (max τ 0)) (walk g' 0 l 0 0) (Ici 0) 0 :=
      hr.congr (fun τ hτ => by rw [max_eq_left hτ]) (by rw [max_self])
    have hl' : HasDerivWithinAt (fun τ => walk g c l 0 (max τ 0)) (walk g' 0 l 0 0) (Iic 0) 0 := by
      rw [walk_start hl hc']
      refine (hasDerivWithinAt_const (0 : ℝ) (Iic 0) (walk g c l 0 0)).congr (fun τ hτ => ?_) ?_
      · rw [max_eq_right hτ]
      · rw [max_self]
    have := hl'.union hr'
    rwa [Iic_union_Ici, hasDerivWithinAt_univ] at this
  · rw [max_eq_left h.le]
    have := (walk_left (c := c) hg l hl hc hc' 0 t h).union (walk_right (c := c) hg l 0 t)
    rw [Iic_union_Ici, hasDerivWithinAt_univ] at this
    refine this.congr_of_eventuallyEq ?_
    filter_upwards [Ioi_mem_nhds h] with τ hτ
    rw [max_eq_left (le_of_lt hτ)]

theorem walk_continuous_aux (hg : ∀ p x, ContinuousAt (g p) x) (l : List (ProfilePhase ℝ))
    (hl : ∀ p ∈ l, 0 ≤ p.duration) {x : ℝ} (hc : Chained g c l x) (s : ℝ) :
    ContinuousOn (walk g c l s) (Ici s) := by
  induction l generalizing s x with
  | nil => exact continuousOn_const
  | cons p rest ih =>
    have hp := hl p (by simp)
    have hr : ∀ q ∈ rest, 0 ≤ q.duration := fun q hq => hl q (by simp [hq])
    have hcont : Continuous (fun τ => g p (τ - s)) :=
      (continuous_iff_continuousAt.2 (hg p)).comp (continuous_id.sub continuous_const)
    have h2 := ih hr hc.2 (s + p.duration)
    have hstart := walk_start hr hc.2 (s + p.duration)
    have hunion : Ici s = Icc s (s + p.duration) ∪ Ici (s + p.duration) := by
      rw [Icc_union_Ici_eq_Ici (by linarith)]
    rw [hunion]
    refine ContinuousOn.union_of_isClosed ?_ ?_ isClosed_Icc isClosed_Ici
    · refine hcont.continuousOn.congr fun τ hτ => ?_
      simp only [walk]
      rcases lt_or_eq_of_le hτ.2 with h | h
      · rw [if_pos h]
      · rw [if_neg (by linarith), h, hstart]
        congr 1; ring
    · refine h2.congr fun τ hτ => ?_
      simp only [walk]
      rw [if_neg (not_lt.2 hτ)]

theorem walk_continuous (hg : ∀ p x, ContinuousAt (g p) x) (l : List (ProfilePhase ℝ))
    (hl : ∀ p ∈ l, 0 ≤ p.duration) {x : ℝ} (hc : Chained g c l x) :
    Continuous (fun τ => walk g c l 0 (max τ 0)) :=
  (walk_continuous_aux hg l hl hc 0).comp_continuous (continuous_id.max continuous_const)
    (fun τ => le_max_right τ 0)

theorem hasDerivAt_positionAt (p : ProfilePhase ℝ) (x : ℝ) :
    HasDerivAt p.positionAt (p.velocityAt x) x := by
  have h := (((hasDerivAt_const x p.startPosition).add ((hasDerivAt_id x).const_mul p.startVelocity)).add
    ((((hasDerivAt_id x).pow 2).const_mul (p.startAcceleration / 2)))).add
    (((hasDerivAt_id x).pow 3).const_mul (p.jerk / 6))
  refine HasDerivAt.congr_deriv (f := p.positionAt) (h.congr_of_eventuallyEq (Eventually.of_forall fun y => ?_)) ?_
  · simp only [ProfilePhase.positionAt, Pi.add_apply, Pi.pow_apply, id]; push_cast; ring
  · simp only [ProfilePhase.velocityAt, id]; push_cast; ring

theorem hasDerivAt_velocityAt (p : ProfilePhase ℝ) (x : ℝ) :
    HasDerivAt p.velocityAt (accelerationOf p x) x := by
  have h := (((hasDerivAt_const x p.startVelocity).add ((hasDerivAt_id x).const_mul p.startAcceleration)).add
    ((((hasDerivAt_id x).pow 2).const_mul (p.jerk / 2))))
  refine HasDerivAt.congr_deriv (f := p.velocityAt) (h.congr_of_eventuallyEq (Eventually.of_forall fun y => ?_)) ?_
  · simp only [ProfilePhase.velocityAt, Pi.add_apply, Pi.pow_apply, id]; push_cast; ring
  · simp only [accelerationOf, id]; push_cast; ring

theorem hasDerivAt_accelerationOf (p : ProfilePhase ℝ) (x : ℝ) :
    HasDerivAt (accelerationOf p) (jerkOf p x) x := by
  have h := ((hasDerivAt_id x).const_mul p.jerk).const_add p.startAcceleration
  refine HasDerivAt.congr_deriv h ?_
  simp [jerkOf]

/-! ### Plans -/

open MotionProfile

theorem planLoop_chain (sign : ℝ) (plan : List (ℝ × ℝ × ℝ)) (total x v : ℝ) :
    Chained ProfilePhase.positionAt (planLoop sign plan total x v).2.2 (planLoop sign plan total x v).1 x := by
  induction plan generalizing total x v with
  | nil => rfl
  | cons q rest ih =>
    obtain ⟨d, j, a⟩ := q
    simp only [planLoop, Chained]
    exact ⟨by simp [ProfilePhase.positionAt], ih _ _ _⟩

theorem planLoop_total (sign : ℝ) (plan : List (ℝ × ℝ × ℝ)) (total x v : ℝ) :
    (planLoop sign plan total x v).2.1
      = total + ((planLoop sign plan total x v).1.map (·.duration)).sum := by
  induction plan generalizing total x v with
  | nil => simp [planLoop]
  | cons q rest ih =>
    obtain ⟨d, j, a⟩ := q
    simp only [planLoop, List.map_cons, List.sum_cons]
    rw [ih]; ring

/-- What a planned profile satisfies, phase by phase. -/
structure GoodProfile (p : MotionProfile ℝ) (target sign V A J : ℝ) : Prop where
  durations : ∀ q ∈ p.phases, 0 ≤ q.duration
  total : p.duration = (p.phases.map (·.duration)).sum
  distance : p.distance = sign * target
  pos : Chained ProfilePhase.positionAt p.distance p.phases 0
  vel : Chained ProfilePhase.velocityAt 0 p.phases 0
  speed : ∀ q ∈ p.phases, ∀ e, 0 ≤ e → e < q.duration → 0 ≤ sign * q.velocityAt e ∧ sign * q.velocityAt e ≤ V
  acceleration : ∀ q ∈ p.phases, ∀ e, 0 ≤ e → e < q.duration → |accelerationOf q e| ≤ A
  jerk : ∀ q ∈ p.phases, |q.jerk| ≤ J

theorem planStill_good (sign V A J : ℝ) (hV : 0 < V) (hA : 0 < A) (hJ : 0 ≤ J) :
    GoodProfile (planStill sign) 0 sign V A J ∧ Chained accelerationOf 0 (planStill sign : MotionProfile ℝ).phases 0 := by
  refine ⟨⟨?_, ?_, ?_, ?_, ?_, ?_, ?_, ?_⟩, ?_⟩
  · simp [planStill, fromPhasePlan, planLoop, List.replicate]
  · simp [planStill, fromPhasePlan, planLoop, List.replicate]
  · simp [planStill, fromPhasePlan, planLoop, List.replicate, ProfilePhase.positionAt]
  · exact planLoop_chain sign _ 0 0 0
  · simp [planStill, fromPhasePlan, planLoop, List.replicate, ProfilePhase.velocityAt, Chained]
  · simp [planStill, fromPhasePlan, planLoop, List.replicate, ProfilePhase.velocityAt, hV.le]
  · simp [planStill, fromPhasePlan, planLoop, List.replicate, accelerationOf, hA.le]
  · simp [planStill, fromPhasePlan, planLoop, List.replicate, hJ]
  · simp [planStill, fromPhasePlan, planLoop, List.replicate, accelerationOf, Chained]

end Multicalc
