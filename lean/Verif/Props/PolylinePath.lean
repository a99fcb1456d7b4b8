import Verif.Model.PolylinePath
import Verif.Props.Rotation
import Verif.Props.RotationMaps
import Mathlib.Tactic

/-!
# Nearest points and look-ahead points on waypoint paths
-/

namespace Multicalc

open PolylinePath

variable {n : ℕ}

/-- The stored running lengths are the sums of the leg lengths. -/
def Synced (p : PolylinePath n ℝ) : Prop :=
  p.cumulative.length = p.points.length ∧ (∀ c, p.cumulative[0]? = some c → c = 0) ∧
  ∀ i a b c d, p.points[i]? = some a → p.points[i + 1]? = some b → p.cumulative[i]? = some c →
    p.cumulative[i + 1]? = some d → d = c + vnorm (vsub b a)

/-- `x` is on leg `k` of the path, at the fraction `u` of the way. -/
def OnLeg (p : PolylinePath n ℝ) (k : ℕ) (u : ℝ) (x : Fin n → ℝ) : Prop :=
  ∃ a b, p.points[k]? = some a ∧ p.points[k + 1]? = some b ∧ 0 ≤ u ∧ u ≤ 1 ∧
    x = fun i => a i + (b i - a i) * u

/-- `x` is on the path: it is a waypoint or on a leg. -/
def OnPath (p : PolylinePath n ℝ) (x : Fin n → ℝ) : Prop := x ∈ p.points ∨ ∃ k u, OnLeg p k u x

/-- `x` is on the path at the arc length `s` from its start. -/
def AtArc (p : PolylinePath n ℝ) (s : ℝ) (x : Fin n → ℝ) : Prop :=
  ∃ k u a b c, p.points[k]? = some a ∧ p.points[k + 1]? = some b ∧ p.cumulative[k]? = some c ∧
    0 ≤ u ∧ u ≤ 1 ∧ (x = fun i => a i + (b i - a i) * u) ∧ s = c + vnorm (vsub b a) * u

/-! ### Building paths -/

section
variable {T : Type} [Zero T] [One T] [Add T] [Sub T] [Mul T] [Div T] [LT T] [LE T] [BEq T]
  [DecidableLT T] [DecidableLE T] [Max T] [Min T] [Fns T]

theorem cumulativeFrom_length (acc : T) (a : Fin n → T) (l : List (Fin n → T)) :
    (cumulativeFrom acc a l).length = l.length + 1 := by
  induction l generalizing acc a with
  | nil => rfl
  | cons b rest ih => simp [cumulativeFrom, ih]

theorem cumulativeFrom_append (acc : T) (a : Fin n → T) (l : List (Fin n → T)) (x last : Fin n → T)
    (hlast : (a :: l)[l.length]? = some last) :
    ∃ c, (cumulativeFrom acc a l)[l.length]? = some c ∧
      cumulativeFrom acc a (l ++ [x]) = cumulativeFrom acc a l ++ [c + vnorm (vsub x last)] := by
  induction l generalizing acc a with
  | nil =>
    simp only [List.length_nil, List.getElem?_cons_zero, Option.some.injEq] at hlast
    subst hlast
    exact ⟨acc, rfl, rfl⟩
  | cons b rest ih =>
    have h2 : (b :: rest)[rest.length]? = some last := by simpa using hlast
    obtain ⟨c, h3, h4⟩ := ih (acc + vnorm (vsub b a)) b h2
    refine ⟨c, by simpa [cumulativeFrom] using h3, ?_⟩
    simp only [List.cons_append, cumulativeFrom]
    rw [h4]

/-- C67. Over any scalar type, pushing waypoints one at a time onto a path built from a slice gives the path
built from the longer slice, errors included: a path depends only on its waypoints. -/
theorem push_eq_tryFromPoints (cap : ℕ) (l : List (Fin n → T)) (x : Fin n → T) (p : PolylinePath n T)
    (h : tryFromPoints cap l = .ok p) : push cap p x = tryFromPoints cap (l ++ [x]) := by
  unfold tryFromPoints at h
  split_ifs at h with h1 h2
  rw [Bool.not_eq_true] at h2
  have hany : ((l ++ [x]).any fun point => !vecIsFinite point) = !vecIsFinite x := by
    rw [List.any_append, h2]; simp
  cases l with
  | nil =>
    cases h
    unfold push tryFromPoints
    rw [hany]
    by_cases h3 : cap = 0
    · subst h3; rfl
    · have e1 : ¬ ((new : PolylinePath n T).points.length = cap) := fun h => h3 h.symm
      have e2 : ¬ (cap < ([] ++ [x] : List (Fin n → T)).length) := by simp; omega
      rw [if_neg e1, if_neg e2]
      rfl
  | cons a r =>
    cases h
    unfold push tryFromPoints
    rw [hany]
    dsimp only
    have hlen : (a :: r ++ [x]).length = (a :: r).length + 1 := by simp
    rw [hlen]
    by_cases h3 : (a :: r).length = cap
    · rw [if_pos h3, if_pos (by omega)]
    · rw [if_neg h3, if_neg (show ¬ cap < (a :: r).length + 1 by omega)]
      by_cases h4 : (!vecIsFinite x) = true
      · rw [if_pos h4, if_pos h4]
      · rw [if_neg h4, if_neg h4, if_neg (by simp)]
        have hlast : ∃ last, (a :: r)[r.length]? = some last :=
          ⟨(a :: r)[r.length]'(by simp), List.getElem?_eq_getElem _⟩
        obtain ⟨last, hl⟩ := hlast
        obtain ⟨c, h6, h7⟩ := cumulativeFrom_append (0 : T) a r x last hl
        have e : (a :: r).length - 1 = r.length := by simp
        rw [e, hl, h6]
        simp only [List.cons_append]
        rw [h7]

end

theorem cumulativeFrom_zero (acc : ℝ) (a : Fin n → ℝ) (l : List (Fin n → ℝ)) :
    (cumulativeFrom acc a l)[0]? = some acc := by
  cases l <;> rfl

theorem cumulativeFrom_step (acc : ℝ) (a : Fin n → ℝ) (l : List (Fin n → ℝ)) (i : ℕ) (x y : Fin n → ℝ) (c d : ℝ)
    (hx : (a :: l)[i]? = some x) (hy : (a :: l)[i + 1]? = some y) (hc : (cumulativeFrom acc a l)[i]? = some c)
    (hd : (cumulativeFrom acc a l)[i + 1]? = some d) : d = c + vnorm (vsub y x) := by
  induction l generalizing acc a i with
  | nil => simp at hy
  | cons b rest ih =>
    simp only [cumulativeFrom] at hc hd
    cases i with
    | zero =>
      simp only [List.getElem?_cons_zero, Option.some.injEq] at hx hc
      rw [zero_add, List.getElem?_cons_succ, List.getElem?_cons_zero, Option.some.injEq] at hy
      rw [zero_add, List.getElem?_cons_succ, cumulativeFrom_zero, Option.some.injEq] at hd
      rw [← hd, hx, hy, hc]
    | succ i =>
      rw [List.getElem?_cons_succ] at hx hy hc hd
      exact ih _ b i hx hy hc hd

/-- Every path that can be built is in sync, in either end-of-path mode. -/
theorem tryFromPoints_synced (cap : ℕ) (l : List (Fin n → ℝ)) (p : PolylinePath n ℝ) (mode : EndOfPath)
    (h : tryFromPoints cap l = .ok p) : Synced (p.withEndOfPath mode) ∧ (p.withEndOfPath mode).points = l := by
  unfold tryFromPoints at h
  split_ifs at h with h1 h2
  cases l with
  | nil =>
    cases h
    exact ⟨⟨rfl, fun c hc => by simp [withEndOfPath, new] at hc,
      fun i a b c d ha => by simp [withEndOfPath, new] at ha⟩, rfl⟩
  | cons a r =>
    cases h
    refine ⟨⟨cumulativeFrom_length _ _ _, fun c hc => ?_, fun i x y c d hx hy hc hd => ?_⟩, rfl⟩
    · simp only [withEndOfPath, cumulativeFrom_zero, Option.some.injEq] at hc
      exact hc.symm
    · exact cumulativeFrom_step 0 a r i x y c d hx hy hc hd

/-- C67. Over the reals a path is refused exactly when it has more waypoints than the capacity, and a push
exactly when the path is full. -/
theorem path_errors (cap : ℕ) (l : List (Fin n → ℝ)) :
    ((∃ q, tryFromPoints cap l = .ok q) ↔ l.length ≤ cap) ∧
    ∀ p x, tryFromPoints cap l = .ok p → ((∃ q, push cap p x = .ok q) ↔ l.length < cap) := by
  have hfin : ∀ y : Fin n → ℝ, vecIsFinite y = true := fun y => by simp [vecIsFinite, Fns.isFinite]
  have h1 : ∀ l' : List (Fin n → ℝ), (∃ q, tryFromPoints cap l' = .ok q) ↔ l'.length ≤ cap := by
    intro l'
    unfold tryFromPoints
    have hany : (l'.any fun point => !vecIsFinite point) = false := by
      rw [List.any_eq_false]; intro y _; simp [hfin]
    rw [hany]
    constructor
    · rintro ⟨q, hq⟩
      split_ifs at hq with h
      omega
    · intro h
      rw [if_neg (by omega)]
      cases l' <;> exact ⟨_, rfl⟩
  refine ⟨h1 l, fun p x hp => ?_⟩
  rw [push_eq_tryFromPoints cap l x p hp, h1]
  simp only [List.length_append, List.length_cons, List.length_nil]
  omega

/-! ### The nearest point -/

theorem vdot_sum (a b : Fin n → ℝ) : vdot a b = ∑ i, a i * b i := by
  rw [vdot_eq]; rfl

theorem vnorm_le_iff (a b : Fin n → ℝ) : vnorm a ≤ vnorm b ↔ vdot a a ≤ vdot b b := by
  have h : ∀ v : Fin n → ℝ, 0 ≤ vdot v v := fun v => by
    rw [vdot_sum]; exact Finset.sum_nonneg fun i _ => mul_self_nonneg _
  exact Real.sqrt_le_sqrt_iff (h b)

theorem vnorm_zero_iff (a : Fin n → ℝ) : vnorm a = 0 ↔ ∀ i, a i = 0 := by
  rw [← mul_self_eq_zero, vnorm_sq, vdot_sum, Finset.sum_eq_zero_iff_of_nonneg (fun i _ => mul_self_nonneg _)]
  simp

/-- The squared distance to a point of a leg is a quadratic in its fraction. -/
theorem leg_quadratic (q a b : Fin n → ℝ) (u : ℝ) :
    vdot (vsub q fun i => a i + (b i - a i) * u) (vsub q fun i => a i + (b i - a i) * u)
      = vdot (vsub q a) (vsub q a) - 2 * u * vdot (vsub q a) (vsub b a)
        + u * u * vdot (vsub b a) (vsub b a) := by
  simp only [vdot_sum, vsub, Finset.mul_sum, ← Finset.sum_sub_distrib, ← Finset.sum_add_distrib]
  exact Finset.sum_congr rfl fun i _ => by ring

theorem candidate_spec (q a b : Fin n → ℝ) :
    0 ≤ (segmentCandidate q a b).2 ∧ (segmentCandidate q a b).2 ≤ 1 ∧
    (segmentCandidate q a b).1 = (fun i => a i + (b i - a i) * (segmentCandidate q a b).2) ∧
    ∀ u, 0 ≤ u → u ≤ 1 → vnorm (vsub q (segmentCandidate q a b).1)
      ≤ vnorm (vsub q fun i => a i + (b i - a i) * u) := by
  unfold segmentCandidate
  dsimp only
  have hnn : 0 ≤ vdot (vsub b a) (vsub b a) := by
    rw [vdot_sum]; exact Finset.sum_nonneg fun i _ => mul_self_nonneg _
  by_cases h : (vnormSquared (vsub b a) == 0) = true
  · rw [if_pos h]
    have h0 : vnormSquared (vsub b a) = 0 := by simpa using h
    have hz : ∀ i, b i - a i = 0 := by
      rw [vnormSquared, vdot_sum, Finset.sum_eq_zero_iff_of_nonneg (fun i _ => mul_self_nonneg _)] at h0
      intro i
      have := h0 i (Finset.mem_univ i)
      simpa [vsub] using this
    refine ⟨le_rfl, zero_le_one, by simp, fun u _ _ => ?_⟩
    simp only [hz, zero_mul, add_zero]
    exact le_rfl
  · rw [if_neg h]
    have hne : vdot (vsub b a) (vsub b a) ≠ 0 := by
      intro h0; exact h (by simpa [vnormSquared] using h0)
    have hpos : 0 < vdot (vsub b a) (vsub b a) := lt_of_le_of_ne hnn (Ne.symm hne)
    dsimp only
    simp only [vnormSquared]
    set m := vdot (vsub b a) (vsub b a) with hm
    set s := vdot (vsub q a) (vsub b a) with hs
    set k := min (max (s / m) 0) 1 with hk
    have hk0 : 0 ≤ k := le_min (le_max_right _ _) zero_le_one
    have hk1 : k ≤ 1 := min_le_right _ _
    refine ⟨hk0, hk1, rfl, fun u hu0 hu1 => ?_⟩
    rw [vnorm_le_iff]
    have e1 : vadd a (vscaleBy (vsub b a) k) = fun i => a i + (b i - a i) * k := rfl
    rw [e1, leg_quadratic, leg_quadratic, ← hm, ← hs]
    -- the clamped minimiser of a quadratic
    have hsm : s = m * (s / m) := by field_simp
    set t := s / m with ht
    clear_value t
    rw [hsm]
    have key : (k - t) ^ 2 ≤ (u - t) ^ 2 := by
      rcases le_total t 0 with h1 | h1
      · have : k = 0 := by rw [hk, max_eq_right h1]; exact min_eq_left zero_le_one
        rw [this]; nlinarith
      · rcases le_total t 1 with h2 | h2
        · have : k = t := by rw [hk, max_eq_left h1, min_eq_left h2]
          rw [this]; nlinarith [sq_nonneg (u - t)]
        · have : k = 1 := by rw [hk, max_eq_left h1, min_eq_right h2]
          rw [this]; nlinarith
    nlinarith

/-- What `closest_point` has after the first `i` legs. -/
def BestSoFar (p : PolylinePath n ℝ) (q : Fin n → ℝ) (i : ℕ) : Option (PathProjection n ℝ) → Prop
  | none => i = 0
  | some r => (∃ u a b c, p.points[r.segmentIndex]? = some a ∧ p.points[r.segmentIndex + 1]? = some b ∧
      p.cumulative[r.segmentIndex]? = some c ∧ 0 ≤ u ∧ u ≤ 1 ∧ (r.point = fun i => a i + (b i - a i) * u) ∧
      r.arcLength = c + vnorm (vsub b a) * u) ∧ r.distance = vnorm (vsub q r.point) ∧
      ∀ k < i, ∀ u x, OnLeg p k u x → r.distance ≤ vnorm (vsub q x)

theorem closestLoop_spec (p : PolylinePath n ℝ) (hp : p.cumulative.length = p.points.length) (q : Fin n → ℝ)
    (l : List (Fin n → ℝ)) (i : ℕ) (best : Option (PathProjection n ℝ)) (hl : l = p.points.drop i) (hne : l ≠ [])
    (hb : BestSoFar p q i best) :
    ∃ best', closestLoop p.cumulative q l i best = .ok best' ∧ BestSoFar p q (p.points.length - 1) best' := by
  induction l generalizing i best with
  | nil => exact absurd rfl hne
  | cons a rest ih =>
    have hlen : (a :: rest).length = p.points.length - i := by rw [hl, List.length_drop]
    cases rest with
    | nil =>
      refine ⟨best, rfl, ?_⟩
      have : i = p.points.length - 1 := by simp at hlen; omega
      rwa [← this]
    | cons b rest =>
      have ha : p.points[i]? = some a := by
        have := congrArg (fun l => l[0]?) hl
        simpa using this.symm
      have hbb : p.points[i + 1]? = some b := by
        have := congrArg (fun l => l[1]?) hl
        simpa using this.symm
      have hdrop : b :: rest = p.points.drop (i + 1) := by
        have := congrArg List.tail hl
        simpa using this
      obtain ⟨c, hc⟩ : ∃ c, p.cumulative[i]? = some c := by
        have : i < p.cumulative.length := by
          rw [hp]; simp at hlen; omega
        exact ⟨_, List.getElem?_eq_getElem this⟩
      obtain ⟨s1, s2, s3, s4⟩ := candidate_spec q a b
      have hleg : ∀ u x, OnLeg p i u x → vnorm (vsub q (segmentCandidate q a b).1) ≤ vnorm (vsub q x) := by
        rintro u x ⟨a', b', h1, h2, h3, h4, rfl⟩
        rw [ha] at h1; rw [hbb] at h2
        cases h1; cases h2
        exact s4 u h3 h4
      simp only [closestLoop]
      cases best with
      | none =>
        have hi : i = 0 := hb
        rw [show improved (vnorm (vsub q (segmentCandidate q a b).1)) (none : Option (PathProjection n ℝ)) = true from rfl,
          if_pos rfl, hc]
        refine ih (i + 1) _ hdrop (by simp) ⟨⟨_, a, b, c, ha, hbb, hc, s1, s2, s3, rfl⟩, rfl, fun k hk u x hx => ?_⟩
        have : k = i := by omega
        subst this
        exact hleg u x hx
      | some r =>
        by_cases hlt : vnorm (vsub q (segmentCandidate q a b).1) < r.distance
        · have e : improved (vnorm (vsub q (segmentCandidate q a b).1)) (some r) = true := by
            simp only [improved, decide_eq_true_eq]; exact hlt
          rw [e, if_pos rfl, hc]
          refine ih (i + 1) _ hdrop (by simp) ⟨⟨_, a, b, c, ha, hbb, hc, s1, s2, s3, rfl⟩, rfl, fun k hk u x hx => ?_⟩
          rcases Nat.lt_succ_iff_lt_or_eq.1 hk with h | h
          · exact hlt.le.trans (hb.2.2 k h u x hx)
          · subst h; exact hleg u x hx
        · have e : improved (vnorm (vsub q (segmentCandidate q a b).1)) (some r) = false := by
            simp only [improved, decide_eq_false_iff_not]; exact hlt
          rw [e]
          refine ih (i + 1) _ hdrop (by simp) ⟨hb.1, hb.2.1, fun k hk u x hx => ?_⟩
          rcases Nat.lt_succ_iff_lt_or_eq.1 hk with h | h
          · exact hb.2.2 k h u x hx
          · subst h; exact (not_lt.1 hlt).trans (hleg u x hx)

/-- C67. On a path of any number of waypoints (at least one) in any dimension, the closest point is a point of
the path, the reported distance is its distance from the query, and no point of the path is nearer. -/
theorem closestPoint_nearest (cap : ℕ) (l : List (Fin n → ℝ)) (p : PolylinePath n ℝ) (mode : EndOfPath)
    (h : tryFromPoints cap l = .ok p) (hne : l ≠ []) (q : Fin n → ℝ) :
    ∃ r, (p.withEndOfPath mode).closestPoint q = .ok r ∧ OnPath (p.withEndOfPath mode) r.point ∧
      r.distance = vnorm (vsub q r.point) ∧
      (∀ x, OnPath (p.withEndOfPath mode) x → r.distance ≤ vnorm (vsub q x)) ∧
      (2 ≤ l.length → (∃ u, OnLeg (p.withEndOfPath mode) r.segmentIndex u r.point) ∧
        AtArc (p.withEndOfPath mode) r.arcLength r.point) := by
  obtain ⟨⟨hs1, hs2, hs3⟩, hpts⟩ := tryFromPoints_synced cap l p mode h
  set P := p.withEndOfPath mode with hP
  clear_value P
  unfold PolylinePath.closestPoint
  match hl : P.points with
  | [] => exact absurd (hpts.symm.trans hl) hne
  | [a] =>
    refine ⟨_, rfl, .inl (by rw [hl]; simp), rfl, fun x hx => ?_, fun h2 => ?_⟩
    · rcases hx with hx | ⟨k, u, a', b', -, h2, -⟩
      · rw [hl] at hx; simp at hx; rw [hx]
      · rw [hl] at h2; simp at h2
    · rw [← hpts, hl] at h2; simp at h2
  | a :: b :: rest =>
    obtain ⟨best, hok, hbest⟩ := closestLoop_spec P hs1 q P.points 0 none (by simp) (by rw [hl]; simp) rfl
    rw [hl] at hok
    dsimp only
    rw [hok]
    cases best with
    | none =>
      have : P.points.length - 1 = 0 := hbest
      rw [hl] at this
      simp at this
    | some r =>
      obtain ⟨⟨u, a', b', c, h1, h2, h3, h4, h5, h6, h7⟩, h8, h9⟩ := hbest
      have hleg : OnLeg P r.segmentIndex u r.point := ⟨a', b', h1, h2, h4, h5, h6⟩
      refine ⟨r, rfl, .inr ⟨_, u, hleg⟩, h8, fun x hx => ?_, fun _ => ⟨⟨u, hleg⟩, _, u, a', b', c, h1, h2, h3, h4, h5, h6, h7⟩⟩
      rcases hx with hx | ⟨k, w, hx⟩
      · obtain ⟨k, hk⟩ := List.mem_iff_getElem?.1 hx
        have hklt : k < P.points.length := by
          by_contra hcon
          rw [List.getElem?_eq_none (by omega)] at hk
          cases hk
        have hlen2 : 2 ≤ P.points.length := by rw [hl]; simp
        by_cases hlast : k < P.points.length - 1
        · have hk1 : k + 1 < P.points.length := by omega
          refine h9 k hlast 0 x ⟨x, P.points[k + 1], hk, List.getElem?_eq_getElem hk1, le_rfl, zero_le_one, ?_⟩
          funext i; simp
        · have hk0 : k - 1 < P.points.length := by omega
          refine h9 (k - 1) (by omega) 1 x ⟨P.points[k - 1], x, List.getElem?_eq_getElem hk0,
            by rw [show k - 1 + 1 = k by omega]; exact hk, zero_le_one, le_rfl, ?_⟩
          funext i; ring
      · have hk : k < P.points.length - 1 := by
          obtain ⟨a2, b2, -, g2, -⟩ := hx
          by_contra hcon
          rw [List.getElem?_eq_none (by omega)] at g2
          cases g2
        exact h9 k hk w x hx

/-! ### Arc length and look-ahead -/

/-- The running length is monotone, and constant only across legs of no length. -/
theorem cumulative_mono (p : PolylinePath n ℝ) (hp : Synced p) (k m : ℕ) (hkm : k ≤ m) (a b : Fin n → ℝ) (c d : ℝ)
    (ha : p.points[k]? = some a) (hb : p.points[m]? = some b) (hc : p.cumulative[k]? = some c)
    (hd : p.cumulative[m]? = some d) : c ≤ d ∧ (c = d → a = b) := by
  induction m generalizing b d with
  | zero =>
    have : k = 0 := by omega
    subst this
    rw [hc] at hd; rw [ha] at hb
    cases hd; cases hb
    exact ⟨le_rfl, fun _ => rfl⟩
  | succ m ih =>
    rcases Nat.lt_or_eq_of_le hkm with h | h
    · have hm1 : m + 1 < p.points.length := by
        by_contra hcon
        rw [List.getElem?_eq_none (by omega)] at hb
        cases hb
      have hm : m < p.points.length := by omega
      have hmc : m < p.cumulative.length := by rw [hp.1]; exact hm
      have e1 := List.getElem?_eq_getElem hm
      have e2 := List.getElem?_eq_getElem hmc
      obtain ⟨h1, h2⟩ := ih (by omega) _ _ e1 e2
      have h3 := hp.2.2 m _ b _ d e1 hb e2 hd
      have h4 := vnorm_nonneg (vsub b p.points[m])
      refine ⟨by linarith, fun he => ?_⟩
      have h5 : vnorm (vsub b p.points[m]) = 0 := by linarith
      rw [h2 (by linarith)]
      funext i
      have := (vnorm_zero_iff _).1 h5 i
      simp only [vsub] at this
      linarith
    · subst h
      rw [hc] at hd; rw [ha] at hb
      cases hd; cases hb
      exact ⟨le_rfl, fun _ => rfl⟩

theorem atArc_le (p : PolylinePath n ℝ) (hp : Synced p) (k k' : ℕ) (hk : k < k') (u u' c c' : ℝ) (a b a' b' : Fin n → ℝ)
    (ha : p.points[k]? = some a) (hb : p.points[k + 1]? = some b) (hc : p.cumulative[k]? = some c)
    (hu0 : 0 ≤ u) (hu1 : u ≤ 1) (ha' : p.points[k']? = some a') (_hb' : p.points[k' + 1]? = some b')
    (hc' : p.cumulative[k']? = some c') (hu0' : 0 ≤ u') (_hu1' : u' ≤ 1)
    (he : c + vnorm (vsub b a) * u = c' + vnorm (vsub b' a') * u') :
    (fun i => a i + (b i - a i) * u) = fun i => a' i + (b' i - a' i) * u' := by
  have hk1 : k + 1 < p.cumulative.length := by
    rw [hp.1]
    by_contra hcon
    rw [List.getElem?_eq_none (by omega)] at hb
    cases hb
  have e2 := List.getElem?_eq_getElem hk1
  have h3 := hp.2.2 k a b c _ ha hb hc e2
  obtain ⟨h4, h5⟩ := cumulative_mono p hp (k + 1) k' hk b a' _ c' hb ha' e2 hc'
  have n1 := vnorm_nonneg (vsub b a)
  have n2 := vnorm_nonneg (vsub b' a')
  have m1 : vnorm (vsub b a) * u ≤ vnorm (vsub b a) := by nlinarith
  have m2 : 0 ≤ vnorm (vsub b' a') * u' := mul_nonneg n2 hu0'
  have z2 : vnorm (vsub b' a') * u' = 0 := by linarith
  have z1 : vnorm (vsub b a) * (1 - u) = 0 := by nlinarith
  have hba := h5 (by linarith)
  have f1 : ∀ i, (b i - a i) * u = b i - a i := by
    intro i
    rcases mul_eq_zero.1 z1 with h | h
    · have := (vnorm_zero_iff _).1 h i
      simp only [vsub] at this
      rw [this]; ring
    · have : u = 1 := by linarith
      rw [this]; ring
  have f2 : ∀ i, (b' i - a' i) * u' = 0 := by
    intro i
    rcases mul_eq_zero.1 z2 with h | h
    · have := (vnorm_zero_iff _).1 h i
      simp only [vsub] at this
      rw [this]; ring
    · rw [h]; ring
  funext i
  rw [f1, f2, hba]
  ring

/-- C67. An arc length names at most one point of the path, whatever repeated waypoints it has. -/
theorem atArc_unique (p : PolylinePath n ℝ) (hp : Synced p) (s : ℝ) (x y : Fin n → ℝ) (hx : AtArc p s x)
    (hy : AtArc p s y) : x = y := by
  obtain ⟨k, u, a, b, c, h1, h2, h3, h4, h5, rfl, h7⟩ := hx
  obtain ⟨k', u', a', b', c', g1, g2, g3, g4, g5, rfl, g7⟩ := hy
  rcases lt_trichotomy k k' with h | h | h
  · exact atArc_le p hp k k' h u u' c c' a b a' b' h1 h2 h3 h4 h5 g1 g2 g3 g4 g5 (h7.symm.trans g7)
  · subst h
    rw [h1] at g1; rw [h2] at g2; rw [h3] at g3
    cases g1; cases g2; cases g3
    have e : vnorm (vsub b a) * (u - u') = 0 := by linarith [h7.symm.trans g7]
    funext i
    rcases mul_eq_zero.1 e with h | h
    · have := (vnorm_zero_iff _).1 h i
      simp only [vsub] at this
      rw [this]; ring
    · have : u = u' := by linarith
      rw [this]
  · exact (atArc_le p hp k' k h u' u c' c a' b' a b g1 g2 g3 g4 g5 h1 h2 h3 h4 h5 (g7.symm.trans h7)).symm

theorem lookaheadLoop_spec (p : PolylinePath n ℝ) (hp : Synced p) (target : ℝ) (last : Fin n → ℝ)
    (ht : ∀ c, p.cumulative[p.points.length - 1]? = some c → target < c)
    (l : List (Fin n → ℝ)) (i : ℕ) (hl : l = p.points.drop i) (hne : l ≠ [])
    (hi : ∀ c, p.cumulative[i]? = some c → c ≤ target) :
    ∃ x, lookaheadLoop p.cumulative target last l i = .ok x ∧ AtArc p target x := by
  induction l generalizing i with
  | nil => exact absurd rfl hne
  | cons a rest ih =>
    have hlen : (a :: rest).length = p.points.length - i := by rw [hl, List.length_drop]
    cases rest with
    | nil =>
      have hi' : i = p.points.length - 1 := by simp at hlen; omega
      have hlt : i < p.cumulative.length := by rw [hp.1]; simp at hlen; omega
      have e := List.getElem?_eq_getElem hlt
      have h1 := hi _ e
      have h2 := ht _ (by rw [← hi']; exact e)
      linarith
    | cons b rest =>
      have ha : p.points[i]? = some a := by
        have := congrArg (fun l => l[0]?) hl
        simpa using this.symm
      have hb : p.points[i + 1]? = some b := by
        have := congrArg (fun l => l[1]?) hl
        simpa using this.symm
      have hdrop : b :: rest = p.points.drop (i + 1) := by
        have := congrArg List.tail hl
        simpa using this
      have hilt : i < p.cumulative.length := by rw [hp.1]; simp at hlen; omega
      have hc := List.getElem?_eq_getElem hilt
      have hci := hi _ hc
      simp only [lookaheadLoop]
      have hnn := vnorm_nonneg (vsub b a)
      by_cases hz : vnorm (vsub b a) = 0
      · rw [if_pos (by simpa using hz)]
        refine ih (i + 1) hdrop (by simp) fun d hd => ?_
        rw [hp.2.2 i a b _ d ha hb hc hd, hz, add_zero]
        exact hci
      · rw [if_neg (by simpa using hz), hc]
        have hpos : 0 < vnorm (vsub b a) := lt_of_le_of_ne hnn (Ne.symm hz)
        dsimp only
        split_ifs with h1
        · refine ⟨_, rfl, i, (target - p.cumulative[i]) / vnorm (vsub b a), a, b, _, ha, hb, hc,
            div_nonneg (by linarith) hnn, ?_, rfl, ?_⟩
          · rw [div_le_one hpos]; linarith
          · field_simp; ring
        · refine ih (i + 1) hdrop (by simp) fun d hd => ?_
          rw [hp.2.2 i a b _ d ha hb hc hd]
          exact (not_le.1 h1).le

theorem total_eq (p : PolylinePath n ℝ) (hp : Synced p) (hne : p.points ≠ []) :
    p.cumulative[p.points.length - 1]? = some p.totalArcLength := by
  have h0 : p.points.length ≠ 0 := fun h => hne (List.length_eq_zero_iff.1 h)
  have hlt : p.points.length - 1 < p.cumulative.length := by rw [hp.1]; omega
  unfold totalArcLength
  rw [if_neg h0, List.getElem?_eq_getElem hlt]
  rfl

theorem last_atArc (p : PolylinePath n ℝ) (hp : Synced p) (a b : Fin n → ℝ) (rest : List (Fin n → ℝ))
    (hl : p.points = a :: b :: rest) : AtArc p p.totalArcLength ((a :: b :: rest).getLastD a) := by
  have ht := total_eq p hp (by rw [hl]; simp)
  have hlen : p.points.length = rest.length + 2 := by rw [hl]; simp
  have hlast : p.points[rest.length + 1]? = some ((a :: b :: rest).getLastD a) := by
    rw [hl, List.getLastD_eq_getLast?, List.getLast?_eq_getElem?]
    simp
  have h1 : rest.length < p.points.length := by omega
  have h2 : rest.length < p.cumulative.length := by rw [hp.1]; exact h1
  have e1 := List.getElem?_eq_getElem h1
  have e2 := List.getElem?_eq_getElem h2
  rw [hlen] at ht
  have h3 := hp.2.2 rest.length _ _ _ _ e1 hlast e2 ht
  refine ⟨rest.length, 1, _, _, _, e1, hlast, e2, zero_le_one, le_rfl, ?_, ?_⟩
  · funext i; ring
  · rw [h3]; ring

/-- C67. Look-ahead in stop mode, from any arc length by any amount: a target at or past the end of the path
gives the last waypoint, and a target between the two ends gives exactly the point of the path at that arc
length. (Targets before the start are missing: see `lookahead_before_start`.) -/
theorem lookahead_stop_partial (cap : ℕ) (l : List (Fin n → ℝ)) (p : PolylinePath n ℝ)
    (h : tryFromPoints cap l = .ok p) (h2 : 2 ≤ l.length) (s d : ℝ) :
    (p.totalArcLength ≤ s + d → ∃ x, p.lookaheadPoint s d = .ok x ∧ l.getLast? = some x ∧
      AtArc p p.totalArcLength x) ∧
    (0 ≤ s + d → s + d ≤ p.totalArcLength → ∃ x, p.lookaheadPoint s d = .ok x ∧ AtArc p (s + d) x) := by
  obtain ⟨hp, hpts⟩ := tryFromPoints_synced cap l p .stop h
  have hmode : p.withEndOfPath .stop = p := by
    unfold tryFromPoints at h
    split_ifs at h
    cases l <;> cases h <;> rfl
  rw [hmode] at hp hpts
  have hm2 : p.endOfPath = .stop := by rw [← hmode]; rfl
  match hl : p.points with
  | [] => rw [← hpts, hl] at h2; simp at h2
  | [a] => rw [← hpts, hl] at h2; simp at h2
  | a :: b :: rest =>
    have hlast := last_atArc p hp a b rest hl
    have hgl : l.getLast? = some ((a :: b :: rest).getLastD a) := by
      rw [← hpts, hl, List.getLastD_eq_getLast?]
      cases hq : (a :: b :: rest).getLast? with
      | none => simp at hq
      | some y => rfl
    constructor
    · intro ht
      refine ⟨_, ?_, hgl, hlast⟩
      unfold lookaheadPoint
      rw [hl]; dsimp only
      rw [hm2]; dsimp only
      rw [if_pos ht]
    · intro h0 ht
      unfold lookaheadPoint
      rw [hl]; dsimp only
      rw [hm2]; dsimp only
      by_cases he : p.totalArcLength ≤ s + d
      · rw [if_pos he]
        refine ⟨_, rfl, ?_⟩
        rw [le_antisymm ht he]
        exact hlast
      · rw [if_neg he]
        refine lookaheadLoop_spec p hp (s + d) _ (fun c hc => ?_) _ 0 (by rw [hl]; rfl) (by simp) (fun c hc => ?_)
        · rw [total_eq p hp (by rw [hl]; simp)] at hc
          cases hc
          exact not_le.1 he
        · rw [hp.2.1 c hc]; exact h0

/-- C67. Look-ahead in loop mode, from any arc length by any amount, forwards or backwards: the result is the
point of the path at the target arc length reduced by whole laps. -/
theorem lookahead_loop (cap : ℕ) (l : List (Fin n → ℝ)) (p : PolylinePath n ℝ)
    (h : tryFromPoints cap l = .ok p) (h2 : 2 ≤ l.length) (s d : ℝ) :
    (0 < p.totalArcLength → ∃ (x : Fin n → ℝ) (laps : ℤ) (r : ℝ),
      (p.withEndOfPath .loop).lookaheadPoint s d = .ok x ∧ 0 ≤ r ∧ r < p.totalArcLength ∧
        s + d = laps * p.totalArcLength + r ∧ AtArc (p.withEndOfPath .loop) r x) ∧
    (p.totalArcLength ≤ 0 → ∃ x, (p.withEndOfPath .loop).lookaheadPoint s d = .ok x ∧ l.head? = some x) := by
  obtain ⟨hp, hpts⟩ := tryFromPoints_synced cap l p .loop h
  have htot : p.totalArcLength = (p.withEndOfPath .loop).totalArcLength := rfl
  rw [htot]
  have hm2 : (p.withEndOfPath .loop).endOfPath = .loop := rfl
  generalize p.withEndOfPath .loop = P at *
  match hl : P.points with
  | [] => rw [← hpts, hl] at h2; simp at h2
  | [a] => rw [← hpts, hl] at h2; simp at h2
  | a :: b :: rest =>
    constructor
    · intro h0
      set L := P.totalArcLength with hL
      have hfl : (Fns.floor ((s + d) / L) : ℝ) = (⌊(s + d) / L⌋ : ℝ) := rfl
      set r := s + d - L * (⌊(s + d) / L⌋ : ℝ) with hr
      have e1 : L * ((s + d) / L) = s + d := by field_simp
      have hr0 : 0 ≤ r := by
        have := mul_le_mul_of_nonneg_left (Int.floor_le ((s + d) / L)) h0.le
        rw [e1] at this; linarith
      have hr1 : r < L := by
        have := mul_lt_mul_of_pos_left (Int.lt_floor_add_one ((s + d) / L)) h0
        rw [e1] at this; linarith
      obtain ⟨x, hx, harc⟩ := lookaheadLoop_spec P hp r ((a :: b :: rest).getLastD a) (fun c hc => by
        rw [total_eq P hp (by rw [hl]; simp)] at hc
        cases hc
        exact hr1) (a :: b :: rest) 0 (by rw [hl]; rfl) (by simp) (fun c hc => by rw [hp.2.1 c hc]; exact hr0)
      refine ⟨x, ⌊(s + d) / L⌋, r, ?_, hr0, hr1, by rw [hr]; ring, harc⟩
      unfold lookaheadPoint
      rw [hl]; dsimp only
      rw [hm2]; dsimp only
      rw [← hL, if_pos h0, hfl]
      exact hx
    · intro h0
      refine ⟨a, ?_, by rw [← hpts, hl]; rfl⟩
      unfold lookaheadPoint
      rw [hl]; dsimp only
      rw [hm2]; dsimp only
      rw [if_neg (not_lt.2 h0)]

/-- C67. The arc length a projection reports leads back to the projected point. -/
theorem closest_then_lookahead (cap : ℕ) (l : List (Fin n → ℝ)) (p : PolylinePath n ℝ)
    (h : tryFromPoints cap l = .ok p) (h2 : 2 ≤ l.length) (q : Fin n → ℝ) (r : PathProjection n ℝ)
    (hr : p.closestPoint q = .ok r) : p.lookaheadPoint r.arcLength 0 = .ok r.point := by
  obtain ⟨hp, hpts⟩ := tryFromPoints_synced cap l p .stop h
  have hmode : p.withEndOfPath .stop = p := by
    unfold tryFromPoints at h
    split_ifs at h
    cases l <;> cases h <;> rfl
  obtain ⟨r', h1, -, -, -, h5⟩ := closestPoint_nearest cap l p .stop h (by rintro rfl; simp at h2) q
  rw [hmode] at h1 h5 hp hpts
  rw [hr] at h1
  cases h1
  have harc := (h5 h2).2
  have hne : p.points ≠ [] := by rw [hpts]; rintro rfl; simp at h2
  obtain ⟨k, u, a, b, c, g1, g2, g3, g4, g5, g6, g7⟩ := id harc
  have htot := total_eq p hp hne
  have n1 := vnorm_nonneg (vsub b a)
  have hkl : k + 1 < p.points.length := by
    by_contra hcon
    rw [List.getElem?_eq_none (by omega)] at g2
    cases g2
  have h0 : 0 ≤ r.arcLength := by
    have hz : 0 < p.points.length := by omega
    have hzc : 0 < p.cumulative.length := by rw [hp.1]; omega
    have m := (cumulative_mono p hp 0 k (Nat.zero_le _) _ a _ c (List.getElem?_eq_getElem hz) g1
      (List.getElem?_eq_getElem hzc) g3).1
    rw [hp.2.1 _ (List.getElem?_eq_getElem hzc)] at m
    have := mul_nonneg n1 g4
    linarith
  have h1 : r.arcLength ≤ p.totalArcLength := by
    have hk1 : k + 1 < p.cumulative.length := by rw [hp.1]; exact hkl
    have e1 := List.getElem?_eq_getElem hk1
    have e2 := hp.2.2 k a b c _ g1 g2 g3 e1
    have hlast : p.points.length - 1 < p.points.length := by omega
    have m := (cumulative_mono p hp (k + 1) (p.points.length - 1) (by omega) b _ _ _ g2
      (List.getElem?_eq_getElem hlast) e1 htot).1
    have : vnorm (vsub b a) * u ≤ vnorm (vsub b a) := by nlinarith
    linarith
  obtain ⟨x, hx, hxa⟩ := (lookahead_stop_partial cap l p h h2 r.arcLength 0).2 (by linarith) (by linarith)
  rw [hx]
  rw [add_zero] at hxa
  rw [atArc_unique p hp _ x _ hxa harc]

/-- C67. An empty path answers neither query. -/
theorem path_too_short (q : Fin n → ℝ) (s d : ℝ) :
    (new : PolylinePath n ℝ).closestPoint q = .error .pathTooShort ∧
    (new : PolylinePath n ℝ).lookaheadPoint s d = .error .pathTooShort := ⟨rfl, rfl⟩

theorem vnorm_one (f : Fin 1 → ℝ) : vnorm f = |f 0| := by
  rw [show vnorm f = Real.sqrt (vdot f f) from rfl, vdot_sum]
  simp [Real.sqrt_mul_self_eq_abs]

/-- C67 (finding). In stop mode a target before the start of the path (a negative starting arc length, or a
negative look-ahead) is not clamped to the first waypoint: the first leg is prolonged backwards, and the result
is not on the path. -/
theorem lookahead_before_start : ∃ p : PolylinePath 1 ℝ, tryFromPoints 2 [![0], ![1]] = .ok p ∧
    ∃ x, p.lookaheadPoint 0 (-5) = .ok x ∧ x = ![-5] ∧ ¬ OnPath p x := by
  have hok : tryFromPoints 2 [(![0] : Fin 1 → ℝ), ![1]] = .ok ⟨[![0], ![1]], [0, 0 + vnorm (vsub ![1] ![0])], .stop⟩ := by
    unfold tryFromPoints
    rw [if_neg (by simp), if_neg (by simp [vecIsFinite, Fns.isFinite])]
    rfl
  have hn : vnorm (vsub ![1] ![0] : Fin 1 → ℝ) = 1 := by rw [vnorm_one]; simp [vsub]
  refine ⟨_, hok, ![-5], ?_, rfl, ?_⟩
  · unfold lookaheadPoint
    dsimp only
    have ht : totalArcLength (⟨[![0], ![1]], [0, 0 + vnorm (vsub ![1] ![0])], .stop⟩ : PolylinePath 1 ℝ) = 1 := by
      simp [totalArcLength, hn]
    rw [ht, if_neg (by norm_num)]
    simp only [lookaheadLoop]
    rw [hn, if_neg (by simp)]
    simp only [List.getElem?_cons_zero]
    rw [if_pos (by norm_num)]
    congr 1
    funext i
    fin_cases i
    simp [vadd, vscaleBy, vsub]
  · rintro (h | ⟨k, u, a, b, h1, h2, h3, h4, h5⟩)
    · simp only [List.mem_cons, List.not_mem_nil, or_false] at h
      rcases h with h | h
      · have := congrFun h 0; norm_num at this
      · have := congrFun h 0; norm_num at this
    · cases k with
      | zero =>
        simp only [List.getElem?_cons_zero, Option.some.injEq] at h1
        rw [zero_add, List.getElem?_cons_succ, List.getElem?_cons_zero, Option.some.injEq] at h2
        subst h1; subst h2
        have := congrFun h5 0
        simp at this
        linarith
      | succ k => simp at h2

/-- A path that meets the hypotheses above: an L of three waypoints in the plane. -/
example : (∃ p, tryFromPoints 3 [![0, 0], ![3, 0], (![3, 4] : Fin 2 → ℝ)] = .ok p) ∧
    2 ≤ [![0, 0], ![3, 0], (![3, 4] : Fin 2 → ℝ)].length :=
  ⟨(path_errors 3 _).1.2 (by simp), by simp⟩

end Multicalc
