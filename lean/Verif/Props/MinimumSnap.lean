import Verif.Lemmas.SnapAssembly
import Verif.Props.Directions

/-!
# C105: minimum-snap paths
-/

namespace Multicalc

open Poly Matrix Snap

variable {d : ℕ}

/-- When a path with these segment times reaches its waypoint number `i`. -/
def clock (durations : List ℝ) (i : ℕ) : ℝ := (durations.take i).sum

/-- The total squared fourth derivative over the whole path. -/
noncomputable def totalSnap (durations : List ℝ) (f : ℝ → ℝ) : ℝ := ∫ t in (0)..durations.sum, iteratedDeriv 4 f t ^ 2

/-- A path along one axis that does what a planner is asked: it has three continuous derivatives from start to end and a
fourth along each segment, it is at every waypoint on time, and it starts and ends with the derivatives asked for. -/
structure Answers (p : MinimumSnapPlanner d ℝ) (waypoints : List (Fin d → ℝ)) (durations : List ℝ) (axis : Fin d)
    (f : ℝ → ℝ) : Prop where
  smooth : ContDiffOn ℝ 3 f (Set.Icc 0 durations.sum)
  segments : ∀ i < durations.length, ∃ g : ℝ → ℝ, ContDiff ℝ 4 g ∧
    Set.EqOn f g (Set.Icc (clock durations i) (clock durations (i + 1)))
  through : ∀ (i : ℕ) (h : i < waypoints.length), f (clock durations i) = waypoints[i] axis
  startVelocity : iteratedDerivWithin 1 f (Set.Icc 0 durations.sum) 0 = p.start.velocity axis
  startAcceleration : iteratedDerivWithin 2 f (Set.Icc 0 durations.sum) 0 = p.start.acceleration axis
  startJerk : iteratedDerivWithin 3 f (Set.Icc 0 durations.sum) 0 = p.start.jerk axis
  endVelocity : iteratedDerivWithin 1 f (Set.Icc 0 durations.sum) durations.sum = p.finish.velocity axis
  endAcceleration : iteratedDerivWithin 2 f (Set.Icc 0 durations.sum) durations.sum = p.finish.acceleration axis
  endJerk : iteratedDerivWithin 3 f (Set.Icc 0 durations.sum) durations.sum = p.finish.jerk axis

theorem getD_lt {α : Type} {l : List α} {a : α} {i : ℕ} (h : i < l.length) : l.getD i a = l[i] := by
  simp [List.getD, h]

namespace MinimumSnapPlanner

theorem collectAxes_ok {α ε : Type} {f : Fin d → Except ε (List α)} {g : Fin d → List α} (h : collectAxes f = .ok g)
    (axis : Fin d) : f axis = .ok (g axis) := by
  unfold collectAxes at h
  split at h
  · cases h
  · rename_i hn
    simp only [Except.ok.injEq] at h
    subst h
    rw [List.findSome?_eq_none_iff] at hn
    have := hn axis (List.mem_finRange axis)
    cases hf : f axis with
    | error e => rw [hf] at this; cases this
    | ok v => dsimp only; rw [hf]

theorem buildPieces_ok (largest : ℝ) (block : ℕ → Fin d → Fin 4 → ℝ) : ∀ (rest : List ℝ) (segment : ℕ)
    (pieces : List (Fin d → List ℝ)), buildPieces largest block segment rest = .ok pieces →
    pieces.length = rest.length ∧ ∀ (k : ℕ) (h : k < rest.length) (h' : k < pieces.length) (axis : Fin d),
      fromEndpointDerivatives largest (block (segment + k) axis) (block (segment + k + 1) axis) rest[k] =
        .ok (pieces[k] axis) := by
  intro rest
  induction rest with
  | nil =>
    intro segment pieces h
    simp only [buildPieces, Except.ok.injEq] at h
    subst h
    simp
  | cons x rest ih =>
    intro segment pieces h
    simp only [buildPieces] at h
    cases hc : collectAxes (fun axis => fromEndpointDerivatives largest (block segment axis) (block (segment + 1) axis) x) with
    | error e => rw [hc] at h; cases h
    | ok piece =>
      rw [hc] at h
      cases hb : buildPieces largest block (segment + 1) rest with
      | error e => rw [hb] at h; cases h
      | ok pieces' =>
        rw [hb] at h
        simp only [Except.ok.injEq] at h
        subst h
        obtain ⟨h1, h2⟩ := ih (segment + 1) pieces' hb
        refine ⟨by simp [h1], fun k hk hk' axis => ?_⟩
        cases k with
        | zero => simpa using collectAxes_ok hc axis
        | succ k =>
          have := h2 k (by simpa using hk) (by simpa using hk') axis
          simpa [show segment + 1 + k = segment + (k + 1) by omega] using this

theorem fromEndpointDerivatives_ok {largest span : ℝ} {start finish : Fin 4 → ℝ} {q : List ℝ} (hs : 0 < span)
    (h : fromEndpointDerivatives largest start finish span = .ok q) :
    q = List.ofFn (septicInverse span *ᵥ Fin.append start finish) := by
  have hfin : ¬ ((!Fns.isFinite span || (List.ofFn start ++ List.ofFn finish).any (fun value => !Fns.isFinite value)) =
      true) := by
    simp [Fns.isFinite]
  unfold fromEndpointDerivatives at h
  rw [if_neg hfin, if_neg (not_le.2 hs)] at h
  dsimp only at h
  cases hi : endpointMappingInverse largest span with
  | error e' => rw [hi] at h; cases h
  | ok Y =>
    rw [hi] at h
    simp only [Except.ok.injEq] at h
    rw [← h, mmulVec_eq, endpointMappingInverse_ok hs.ne' hi]

theorem append_ends (D : ℕ → ℕ → ℝ) (i : ℕ) :
    Fin.append (fun k : Fin 4 => D i k.val) (fun k : Fin 4 => D (i + 1) k.val) = ends D i := by
  funext l
  refine Fin.addCases (m := 4) (n := 4) (motive := fun l => Fin.append (fun k : Fin 4 => D i k.val)
    (fun k : Fin 4 => D (i + 1) k.val) l = ends D i l) (fun k => ?_) (fun k => ?_) l
  · rw [Fin.append_left, ends]
    have := k.isLt
    simp only [Fin.val_castAdd]
    rw [show k.val / 4 = 0 by omega, show k.val % 4 = k.val by omega, add_zero]
  · rw [Fin.append_right, ends]
    have := k.isLt
    simp only [Fin.val_natAdd]
    rw [show (4 + k.val) / 4 = 1 by omega, show (4 + k.val) % 4 = k.val by omega]

/-- What a successful plan has gone through. -/
theorem plan_ok {p : MinimumSnapPlanner d ℝ} {largest : ℝ} {maxSegments n : ℕ} {waypoints : List (Fin d → ℝ)}
    {durations : List ℝ} {curve : List (Piece d ℝ)}
    (h : p.plan largest maxSegments n waypoints durations = .ok curve) :
    2 ≤ waypoints.length ∧ waypoints.length = durations.length + 1 ∧ durations.length ≤ maxSegments ∧
    (∀ x ∈ durations, 0 < x) ∧ 3 * (durations.length - 1) ≤ n ∧
    ∃ (s : SnapSystem n d ℝ) (solved : Matrix (Fin n) (Fin d) ℝ) (pieces : List (Fin d → List ℝ)),
      p.assemble largest waypoints durations.length 0 durations ⟨fun _ _ => 0, fun _ _ => 0⟩ = .ok s ∧
      (3 * (durations.length - 1) ≠ 0 →
        paddedSystem (3 * (durations.length - 1)) s.reduced * solved = s.knownSide) ∧
      buildPieces largest (p.waypointBlock waypoints durations.length solved) 0 durations = .ok pieces ∧
      curve.map Piece.polys = pieces ∧ curve.map Piece.span = durations := by
  unfold plan at h
  by_cases h1 : waypoints.length < 2
  · rw [if_pos h1] at h; cases h
  rw [if_neg h1] at h
  dsimp only at h
  by_cases h2 : maxSegments < waypoints.length - 1
  · rw [if_pos h2] at h; cases h
  rw [if_neg h2] at h
  by_cases h3 : durations.length ≠ waypoints.length - 1
  · rw [if_pos h3] at h; cases h
  rw [if_neg h3] at h
  rw [not_not] at h3
  rw [← h3] at h h2
  split at h
  · cases h
  rename_i h4
  split at h
  · cases h
  by_cases h6 : n < 3 * (durations.length - 1)
  · rw [if_pos h6] at h; cases h
  rw [if_neg h6] at h
  have hpos : ∀ x ∈ durations, 0 < x := by
    intro x hx
    simp only [List.any_eq_true, not_exists, not_and] at h4
    have := h4 x hx
    simpa [Fns.isFinite] using this
  refine ⟨by omega, by omega, by omega, hpos, by omega, ?_⟩
  cases hs : p.assemble (n := n) largest waypoints durations.length 0 durations ⟨fun _ _ => 0, fun _ _ => 0⟩ with
  | error e => rw [hs] at h; cases h
  | ok s =>
    rw [hs] at h
    dsimp only at h
    split at h
    · cases h
    rename_i solved hS
    have hsol : 3 * (durations.length - 1) ≠ 0 →
        paddedSystem (3 * (durations.length - 1)) s.reduced * solved = s.knownSide := by
      intro h7
      rw [if_neg h7] at hS
      split at hS
      · cases hS
      · rename_i f hl
        simp only [Except.ok.injEq] at hS
        rw [← hS, ← mmul_eq]
        exact (lu_solves largest _ f hl).2.1 s.knownSide
    split at h
    · cases h
    rename_i pieces hb
    split at h
    · cases h
    rename_i c ht
    simp only [Except.ok.injEq] at h
    subst h
    have := (piecewise_accepted maxSegments pieces durations c).1 ht
    exact ⟨s, solved, pieces, rfl, hsol, hb, this.2.2.2.1, this.2.2.2.2⟩

end MinimumSnapPlanner

theorem clock_succ {durations : List ℝ} {i : ℕ} (h : i < durations.length) :
    clock durations (i + 1) = clock durations i + durations.getD i 0 := by
  unfold clock
  rw [List.sum_take_succ _ _ h, getD_lt h]

theorem clock_monotone {durations : List ℝ} (h : ∀ x ∈ durations, 0 < x) : Monotone (clock durations) := by
  refine monotone_nat_of_le_succ fun i => ?_
  rcases Nat.lt_or_ge i durations.length with hi | hi
  · rw [clock_succ hi, getD_lt hi]
    linarith [h _ (List.getElem_mem hi)]
  · unfold clock
    rw [List.take_of_length_le hi, List.take_of_length_le (by omega)]

open MinimumSnapPlanner in
/-- The planner's path is the degree-seven pieces through the settled data. -/
theorem plan_path {p : MinimumSnapPlanner d ℝ} {largest : ℝ} {n : ℕ} {waypoints : List (Fin d → ℝ)}
    {durations : List ℝ} {curve : List (Piece d ℝ)} (hpos : ∀ x ∈ durations, 0 < x) (hne : 0 < durations.length)
    {solved : Matrix (Fin n) (Fin d) ℝ} {pieces : List (Fin d → List ℝ)}
    (hb : buildPieces largest (p.waypointBlock waypoints durations.length solved) 0 durations = .ok pieces)
    (hc1 : curve.map Piece.polys = pieces) (hc2 : curve.map Piece.span = durations) (axis : Fin d) :
    ∀ i < durations.length, Set.EqOn (curveValue curve axis)
      (hermite (p.settled waypoints durations.length solved axis) i (clock durations i) (durations.getD i 0))
      (Set.Icc (clock durations i) (clock durations (i + 1))) := by
  subst hc1
  obtain ⟨hlen, hpc⟩ := buildPieces_ok largest _ durations 0 _ hb
  have hcl : curve.length = durations.length := by rw [← hc2, List.length_map]
  have hcpos : ∀ q ∈ curve, 0 < q.span := by
    intro q hq
    exact hpos _ (by rw [← hc2]; exact List.mem_map_of_mem hq)
  have hspan : ∀ (i : ℕ) (h : i < curve.length), curve[i].span = durations.getD i 0 := by
    intro i h
    rw [getD_lt (by omega)]
    simp [← hc2]
  have hstart : ∀ i, startOf (curve.take i) = clock durations i := by
    intro i
    unfold startOf clock
    rw [List.map_take, hc2]
  have hpoly : ∀ (i : ℕ) (h : i < curve.length), curve[i].polys axis =
      List.ofFn (septicInverse (durations.getD i 0) *ᵥ ends (p.settled waypoints durations.length solved axis) i) := by
    intro i h
    have h1 := hpc i (by omega) (by omega) axis
    rw [getD_lt (by omega)]
    rw [List.getElem_map] at h1
    rw [fromEndpointDerivatives_ok (hpos _ (List.getElem_mem _)) h1, ← append_ends]
    congr 3
    · funext k; rw [waypointBlock_eq]; simp
    · funext k; rw [waypointBlock_eq]; simp
  have hsplit : ∀ (i : ℕ) (h : i < curve.length), curve = curve.take i ++ curve[i] :: curve.drop (i + 1) := by
    intro i h
    rw [List.getElem_cons_drop, List.take_append_drop]
  have hin : ∀ i < durations.length, ∀ t, clock durations i ≤ t → t < clock durations (i + 1) → curveValue curve axis t =
      hermite (p.settled waypoints durations.length solved axis) i (clock durations i) (durations.getD i 0) t := by
    intro i hi t h1 h2
    have hi' : i < curve.length := by omega
    have h := curveValue_inside (before := curve.take i) (after := curve.drop (i + 1)) (piece := curve[i]) (t := t)
      (by rw [← hsplit i hi']; exact hcpos) (by rw [hstart]; exact h1)
      (by rw [hstart, hspan i hi', ← clock_succ hi]; exact h2) axis
    rw [← hsplit i hi', hstart, hspan i hi', hpoly i hi'] at h
    exact h
  intro i hi t ht
  rcases lt_or_eq_of_le ht.2 with h | h
  · exact hin i hi t ht.1 h
  · have hpi : 0 < durations.getD i 0 := by rw [getD_lt hi]; exact hpos _ (List.getElem_mem hi)
    have hright := (hermite_ends (p.settled waypoints durations.length solved axis) i (clock durations i) hpi.ne'
      (k := 0) (by norm_num)).2
    rw [← clock_succ hi, iteratedDeriv_zero] at hright
    rw [h, hright]
    rcases Nat.lt_or_ge (i + 1) durations.length with hi2 | hi2
    · have hpi2 : 0 < durations.getD (i + 1) 0 := by
        rw [getD_lt hi2]; exact hpos _ (List.getElem_mem hi2)
      rw [hin (i + 1) hi2 _ le_rfl (by rw [clock_succ hi2]; linarith)]
      have hleft := (hermite_ends (p.settled waypoints durations.length solved axis) (i + 1) (clock durations (i + 1)) hpi2.ne'
        (k := 0) (by norm_num)).1
      rwa [iteratedDeriv_zero] at hleft
    · have hi' : i < curve.length := by omega
      have hlast : curve = curve.take i ++ [curve[i]] := by
        conv_lhs => rw [hsplit i hi']
        rw [List.drop_of_length_le (by omega)]
      have hend : startOf curve ≤ clock durations (i + 1) := by
        rw [← hstart, List.take_of_length_le (by omega)]
      have hev := (piecewise_evaluate curve hcpos (clock durations (i + 1))).2.2.1 _ _ hlast hend
      unfold curveValue
      rw [hev]
      dsimp only
      rw [← hright, hpoly i hi', hermite, piece, clock_succ hi, add_sub_cancel_left, div_self hpi.ne']
      rfl

/-- C105. A successful plan does what was asked, at the least cost there is: along every axis the returned curve has three
continuous derivatives, is at every waypoint at the running total of the times, and starts and ends with the derivatives
given; every other path that does all that has at least as much total squared snap, and only the curve itself has as
little. -/
theorem minimum_snap_optimal (p : MinimumSnapPlanner d ℝ) (largest : ℝ) (maxSegments n : ℕ) (waypoints : List (Fin d → ℝ))
    (durations : List ℝ) (curve : List (Piece d ℝ))
    (h : p.plan largest maxSegments n waypoints durations = .ok curve) (axis : Fin d) :
    Answers p waypoints durations axis (curveValue curve axis) ∧
    ∀ f, Answers p waypoints durations axis f →
      totalSnap durations (curveValue curve axis) ≤ totalSnap durations f ∧
      (totalSnap durations f = totalSnap durations (curveValue curve axis) →
        Set.EqOn f (curveValue curve axis) (Set.Icc 0 durations.sum)) := by
  obtain ⟨h2, hw, hm, hpos, hn, s, solved, pieces, hs, hsol, hb, hc1, hc2⟩ := MinimumSnapPlanner.plan_ok h
  have hN : 0 < durations.length := by omega
  have hx := plan_path hpos hN hb hc1 hc2 axis
  have hbal := fun E => MinimumSnapPlanner.balance p waypoints durations.length largest durations rfl hpos hn s hs solved hsol
    axis E
  have hdpos : ∀ i < durations.length, 0 < durations.getD i 0 := by
    intro i hi
    rw [getD_lt hi]; exact hpos _ (List.getElem_mem hi)
  obtain ⟨g1, g2, g3⟩ := path_optimal hN (clock_monotone hpos) (s := fun i => durations.getD i 0) hdpos
    (fun i hi => clock_succ hi) _ hbal hx
  have t0 : clock durations 0 = 0 := by simp [clock]
  have tN : clock durations durations.length = durations.sum := by simp [clock]
  rw [t0, tN] at g1 g2 g3
  have hD0 : ∀ (w : ℕ) (hw' : w < waypoints.length), p.settled waypoints durations.length solved axis w 0 = waypoints[w] axis := by
    intro w hw'
    simp [MinimumSnapPlanner.settled, MinimumSnapPlanner.slotFixed, MinimumSnapPlanner.slotFree, MinimumSnapPlanner.classify,
      hw']
  have hDs : ∀ o, o ≠ 0 → p.settled waypoints durations.length solved axis 0 o = p.start.atOrder o axis := by
    intro o ho
    simp [MinimumSnapPlanner.settled, MinimumSnapPlanner.slotFixed, MinimumSnapPlanner.slotFree, MinimumSnapPlanner.classify, ho]
  have hDe : ∀ o, o ≠ 0 → p.settled waypoints durations.length solved axis durations.length o = p.finish.atOrder o axis := by
    intro o ho
    simp [MinimumSnapPlanner.settled, MinimumSnapPlanner.slotFixed, MinimumSnapPlanner.slotFree, MinimumSnapPlanner.classify, ho,
      hN.ne']
  have e0 : ∀ k < 4, iteratedDerivWithin k (curveValue curve axis) (Set.Icc 0 durations.sum) 0 =
      p.settled waypoints durations.length solved axis 0 k := by
    intro k hk; have := g2 0 (by omega) k hk; rwa [t0] at this
  have eN : ∀ k < 4, iteratedDerivWithin k (curveValue curve axis) (Set.Icc 0 durations.sum) durations.sum =
      p.settled waypoints durations.length solved axis durations.length k := by
    intro k hk; have := g2 durations.length le_rfl k hk; rwa [tN] at this
  refine ⟨⟨g1, fun i hi => ⟨_, piece_smooth _ _ _ (n := 4), hx i hi⟩, fun i hi => ?_, ?_, ?_, ?_, ?_, ?_, ?_⟩, fun f hf => ?_⟩
  · have := g2 i (by omega) 0 (by omega)
    rw [iteratedDerivWithin_zero, hD0 i hi] at this
    exact this
  · rw [e0 1 (by omega), hDs 1 (by omega)]; rfl
  · rw [e0 2 (by omega), hDs 2 (by omega)]; rfl
  · rw [e0 3 (by omega), hDs 3 (by omega)]; rfl
  · rw [eN 1 (by omega), hDe 1 (by omega)]; rfl
  · rw [eN 2 (by omega), hDe 2 (by omega)]; rfl
  · rw [eN 3 (by omega), hDe 3 (by omega)]; rfl
  · refine g3 f hf.smooth hf.segments (fun w hw' => ?_) (fun k hk => ?_) (fun k hk => ?_)
    · rw [hf.through w (by omega), hD0 w (by omega)]
    · interval_cases k
      · have := hf.through 0 (by omega)
        rw [t0] at this
        rw [iteratedDerivWithin_zero, this, hD0 0 (by omega)]
      · rw [hDs 1 (by omega), hf.startVelocity]; rfl
      · rw [hDs 2 (by omega), hf.startAcceleration]; rfl
      · rw [hDs 3 (by omega), hf.startJerk]; rfl
    · interval_cases k
      · have := hf.through durations.length (by omega)
        rw [tN] at this
        rw [iteratedDerivWithin_zero, this, hD0 durations.length (by omega)]
      · rw [hDe 1 (by omega), hf.endVelocity]; rfl
      · rw [hDe 2 (by omega), hf.endAcceleration]; rfl
      · rw [hDe 3 (by omega), hf.endJerk]; rfl

namespace MinimumSnapPlanner

theorem collectAxes_succeeds {α ε : Type} {f : Fin d → Except ε (List α)} (h : ∀ axis, ∃ v, f axis = .ok v) :
    ∃ g, collectAxes f = .ok g := by
  unfold collectAxes
  split
  · rename_i e he
    obtain ⟨axis, -, ha⟩ := List.exists_of_findSome?_eq_some he
    obtain ⟨v, hv⟩ := h axis
    rw [hv] at ha
    cases ha
  · exact ⟨_, rfl⟩

theorem buildPieces_succeeds (largest : ℝ) (block : ℕ → Fin d → Fin 4 → ℝ) : ∀ (rest : List ℝ) (segment : ℕ),
    (∀ x ∈ rest, 0 < x ∧ ∃ Y, endpointMappingInverse largest x = .ok Y) →
    ∃ pieces, buildPieces largest block segment rest = .ok pieces := by
  intro rest
  induction rest with
  | nil => intro segment _; exact ⟨_, rfl⟩
  | cons x rest ih =>
    intro segment h
    obtain ⟨hx, Y, hY⟩ := h x (by simp)
    obtain ⟨g, hg⟩ := collectAxes_succeeds (f := fun axis =>
      fromEndpointDerivatives largest (block segment axis) (block (segment + 1) axis) x) (fun axis => by
        unfold fromEndpointDerivatives
        rw [if_neg (by simp [Fns.isFinite]), if_neg (not_le.2 hx)]
        dsimp only
        rw [hY]
        exact ⟨_, rfl⟩)
    obtain ⟨pieces, hp⟩ := ih (segment + 1) fun y hy => h y (by simp [hy])
    simp only [buildPieces, hg, hp]
    exact ⟨_, rfl⟩

theorem assemble_succeeds {n : ℕ} (p : MinimumSnapPlanner d ℝ) (largest : ℝ) (waypoints : List (Fin d → ℝ)) (segments : ℕ) :
    ∀ (rest : List ℝ) (segment : ℕ) (s : SnapSystem n d ℝ),
    (∀ x ∈ rest, ∃ Y, endpointMappingInverse largest x = .ok Y) →
    ∃ s', p.assemble largest waypoints segments segment rest s = .ok s' := by
  intro rest
  induction rest with
  | nil => intro segment s _; exact ⟨_, rfl⟩
  | cons x rest ih =>
    intro segment s h
    obtain ⟨Y, hY⟩ := h x (by simp)
    simp only [assemble, hY]
    exact ih _ _ fun y hy => h y (by simp [hy])

theorem assemble_fails {n : ℕ} (p : MinimumSnapPlanner d ℝ) (largest : ℝ) (waypoints : List (Fin d → ℝ)) (segments : ℕ) :
    ∀ (rest : List ℝ) (segment : ℕ) (s : SnapSystem n d ℝ) (e : MotionError),
    p.assemble largest waypoints segments segment rest s = .error e → e = .linalg := by
  intro rest
  induction rest with
  | nil => intro segment s e h; cases h
  | cons x rest ih =>
    intro segment s e h
    simp only [assemble] at h
    split at h
    · simp only [Except.error.injEq] at h; exact h.symm
    · exact ih _ _ _ h

theorem assemble_inverses {n : ℕ} (p : MinimumSnapPlanner d ℝ) (largest : ℝ) (waypoints : List (Fin d → ℝ)) (segments : ℕ) :
    ∀ (rest : List ℝ) (segment : ℕ) (s s' : SnapSystem n d ℝ),
    p.assemble largest waypoints segments segment rest s = .ok s' →
    ∀ x ∈ rest, ∃ Y, endpointMappingInverse largest x = .ok Y := by
  intro rest
  induction rest with
  | nil => intro segment s s' _ x hx; cases hx
  | cons y rest ih =>
    intro segment s s' h x hx
    simp only [assemble] at h
    split at h
    · cases h
    · rename_i Y hY
      rcases List.mem_cons.1 hx with rfl | hx
      · exact ⟨Y, hY⟩
      · exact ih _ _ _ h x hx

theorem tryFromPieces_succeeds {maxSegments : ℕ} {pieces : List (Fin d → List ℝ)} {durations : List ℝ}
    (h1 : pieces.length = durations.length) (h2 : 0 < durations.length) (h3 : durations.length ≤ maxSegments)
    (h4 : ∀ x ∈ durations, 0 < x) : ∃ curve, tryFromPieces maxSegments pieces durations = .ok curve := by
  refine ⟨List.zipWith Piece.mk pieces durations, (piecewise_accepted maxSegments pieces durations _).2 ⟨?_, by omega, h4, ?_, ?_⟩⟩
  · intro h; rw [h] at h1; simp at h1; omega
  · apply List.ext_getElem <;> simp [h1]
  · apply List.ext_getElem <;> simp [h1]

/-- C105. What each refusal of `plan` means, in order: fewer than two waypoints, more segments than the planner holds, a
count of times that does not match, a time that is not positive, too little room for the chosen derivatives.  A request with
none of these faults is only ever refused as an ill-conditioned solve. -/
theorem minimum_snap_verdicts (p : MinimumSnapPlanner d ℝ) (largest : ℝ) (maxSegments n : ℕ) (waypoints : List (Fin d → ℝ))
    (durations : List ℝ) :
    (waypoints.length < 2 → p.plan largest maxSegments n waypoints durations = .error .pathTooShort) ∧
    (2 ≤ waypoints.length → maxSegments < waypoints.length - 1 →
      p.plan largest maxSegments n waypoints durations = .error .capacityExceeded) ∧
    (2 ≤ waypoints.length → waypoints.length - 1 ≤ maxSegments → durations.length ≠ waypoints.length - 1 →
      p.plan largest maxSegments n waypoints durations = .error .segmentCountMismatch) ∧
    (2 ≤ waypoints.length → waypoints.length - 1 ≤ maxSegments → durations.length = waypoints.length - 1 →
      (∃ x ∈ durations, x ≤ 0) → p.plan largest maxSegments n waypoints durations = .error .durationNotPositive) ∧
    (2 ≤ waypoints.length → waypoints.length - 1 ≤ maxSegments → durations.length = waypoints.length - 1 →
      (∀ x ∈ durations, 0 < x) → n < 3 * (waypoints.length - 2) →
      p.plan largest maxSegments n waypoints durations = .error .workspaceTooSmall) ∧
    (2 ≤ waypoints.length → waypoints.length - 1 ≤ maxSegments → durations.length = waypoints.length - 1 →
      (∀ x ∈ durations, 0 < x) → 3 * (waypoints.length - 2) ≤ n →
      (∃ curve, p.plan largest maxSegments n waypoints durations = .ok curve) ∨
        p.plan largest maxSegments n waypoints durations = .error .linalg) := by
  have hfin : (waypoints.any (fun waypoint => !vIsFinite waypoint) || !p.start.allFinite || !p.finish.allFinite) = false := by
    simp [BoundaryDerivatives.allFinite, vIsFinite, Fns.isFinite]
  have hdur : ∀ l : List ℝ, (l.any fun duration => !Fns.isFinite duration || decide (duration ≤ 0)) = true ↔ ∃ x ∈ l, x ≤ 0 := by
    intro l
    simp [Fns.isFinite]
  unfold plan
  refine ⟨fun h1 => by rw [if_pos h1], fun h1 h2 => ?_, fun h1 h2 h3 => ?_, fun h1 h2 h3 h4 => ?_, fun h1 h2 h3 h4 h5 => ?_,
    fun h1 h2 h3 h4 h5 => ?_⟩
  · rw [if_neg (by omega), if_pos h2]
  · rw [if_neg (by omega), if_neg (by omega), if_pos h3]
  · rw [if_neg (by omega), if_neg (by omega), if_neg (by simpa using h3), if_pos ((hdur _).2 h4)]
  · rw [if_neg (by omega), if_neg (by omega), if_neg (by simpa using h3),
      if_neg (fun hc => by obtain ⟨x, hx, hx0⟩ := (hdur _).1 hc; exact absurd (h4 x hx) (not_lt.2 hx0)),
      if_neg (by rw [hfin]; simp), if_pos (by omega)]
  · rw [if_neg (by omega), if_neg (by omega), if_neg (by simpa using h3),
      if_neg (fun hc => by obtain ⟨x, hx, hx0⟩ := (hdur _).1 hc; exact absurd (h4 x hx) (not_lt.2 hx0)),
      if_neg (by rw [hfin]; simp), if_neg (by omega)]
    dsimp only
    cases hs : p.assemble (n := n) largest waypoints (waypoints.length - 1) 0 durations ⟨fun _ _ => 0, fun _ _ => 0⟩ with
    | error e => right; rw [assemble_fails p largest waypoints _ _ _ _ _ hs]
    | ok s =>
      dsimp only
      have hinv := assemble_inverses p largest waypoints _ _ _ _ _ hs
      split
      · rename_i e he
        right
        split at he
        · cases he
        · split at he
          · simp only [Except.error.injEq] at he; rw [he]
          · cases he
      · rename_i solved _
        left
        obtain ⟨pieces, hp⟩ := buildPieces_succeeds largest (p.waypointBlock waypoints (waypoints.length - 1) solved) durations 0
          fun x hx => ⟨h4 x hx, hinv x hx⟩
        rw [hp]
        dsimp only
        obtain ⟨curve, hc⟩ := tryFromPieces_succeeds (maxSegments := maxSegments) (buildPieces_ok _ _ _ _ _ hp).1 (by omega)
          (by omega) h4
        rw [hc]
        exact ⟨_, rfl⟩

/-- C105. A request over one segment succeeds for every time from a four-thousandth to four thousand. -/
theorem minimum_snap_one_segment (p : MinimumSnapPlanner d ℝ) (largest : ℝ) (hl : 1 ≤ largest) (maxSegments n : ℕ)
    (hm : 1 ≤ maxSegments) (first last : Fin d → ℝ) (duration : ℝ) (h1 : 1 / 4000 ≤ duration) (h2 : duration ≤ 4000) :
    ∃ curve, p.plan largest maxSegments n [first, last] [duration] = .ok curve := by
  have hfin : ([first, last].any (fun waypoint => !vIsFinite waypoint) || !p.start.allFinite || !p.finish.allFinite) = false := by
    simp [BoundaryDerivatives.allFinite, vIsFinite, Fns.isFinite]
  have hpos : 0 < duration := by linarith
  have hinv : ∀ x ∈ [duration], ∃ Y, endpointMappingInverse largest x = .ok Y := by
    intro x hx
    obtain rfl : x = duration := by simpa using hx
    exact ⟨_, endpointMappingInverse_accepts hl h1 h2⟩
  unfold plan
  rw [if_neg (by simp), if_neg (by simp; omega), if_neg (by simp), if_neg (by simp [Fns.isFinite, hpos]),
    if_neg (by rw [hfin]; simp), if_neg (by simp)]
  dsimp only
  obtain ⟨s, hs⟩ := assemble_succeeds (n := n) p largest [first, last] ([first, last].length - 1) [duration] 0
    ⟨fun _ _ => 0, fun _ _ => 0⟩ hinv
  rw [hs]
  dsimp only
  rw [if_pos (by simp)]
  dsimp only
  obtain ⟨pieces, hp⟩ := buildPieces_succeeds largest (p.waypointBlock (n := n) [first, last] ([first, last].length - 1)
    (fun _ _ => 0)) [duration] 0 fun x hx => ⟨by rw [List.mem_singleton.1 hx]; exact hpos, hinv x hx⟩
  rw [hp]
  dsimp only
  obtain ⟨curve, hc⟩ := tryFromPieces_succeeds (maxSegments := maxSegments) (buildPieces_ok _ _ _ _ _ hp).1 (by simp)
    (by simpa using hm) (by simpa using hpos)
  rw [hc]
  exact ⟨_, rfl⟩

/-- C105 (finding). Every request with a segment of a thirty-thousandth or less is refused, although it has an answer: the
refusal is the conditioning check on the endpoint equations, which compares entries of different units. -/
theorem minimum_snap_short (p : MinimumSnapPlanner d ℝ) (largest : ℝ) (maxSegments n : ℕ) (waypoints : List (Fin d → ℝ))
    (durations : List ℝ) (hd : 0 < d) (x : ℝ) (hx : x ∈ durations) (h0 : 0 < x) (h1 : x ≤ 1 / 30000) :
    ∀ curve, p.plan largest maxSegments n waypoints durations ≠ .ok curve := by
  intro curve h
  obtain ⟨-, -, -, -, -, s, solved, pieces, -, -, hb, -, -⟩ := plan_ok h
  obtain ⟨hl, hp⟩ := buildPieces_ok _ _ _ _ _ hb
  obtain ⟨k, hk, rfl⟩ := List.getElem_of_mem hx
  have := hp k hk (by omega) ⟨0, hd⟩
  rw [fromEndpointDerivatives_short _ _ _ _ h0 h1] at this
  cases this

theorem snapCost_one : mscale (snapCost (T := ℝ)) (powi 1 (-7)) * septicInverse 1 =
    !![0, 0, 0, 0, 0, 0, 0, 0; 0, 0, 0, 0, 0, 0, 0, 0; 0, 0, 0, 0, 0, 0, 0, 0; 0, 0, 0, 0, 0, 0, 0, 0;
      0, 0, 0, -24, 0, 0, 0, 24; 0, 0, 120, 0, 0, 0, -120, 120; 0, -720, 0, 0, 0, 720, -720, 360;
      5040, 0, 0, 0, -5040, 5040, -2520, 840] := by
  have hS : mscale (snapCost (T := ℝ)) (powi 1 (-7)) = !![0, 0, 0, 0, 0, 0, 0, 0; 0, 0, 0, 0, 0, 0, 0, 0;
      0, 0, 0, 0, 0, 0, 0, 0; 0, 0, 0, 0, 0, 0, 0, 0; 0, 0, 0, 0, 576, 1440, 2880, 5040; 0, 0, 0, 0, 1440, 4800, 10800, 20160;
      0, 0, 0, 0, 2880, 10800, 25920, 50400; 0, 0, 0, 0, 5040, 20160, 50400, 100800] := by
    have hp : powi (1 : ℝ) (-7) = 1 := by simp [powi, powiLoop]
    rw [hp]
    ext i j
    fin_cases i <;> fin_cases j <;> simp [mscale, snapCost, waysAfterFourDerivatives, List.range_succ] <;> norm_num
  rw [hS]
  ext i j
  rw [Matrix.mul_apply, Fin.sum_univ_eight]
  fin_cases i <;> fin_cases j <;> simp [septicInverse] <;> norm_num

/-- What the middle waypoint of two segments of one second contributes. -/
noncomputable def middle : Matrix (Fin 3) (Fin 3) ℝ := !![51840, 0, 960; 0, 2400, 0; 960, 0, 32]

noncomputable def middleInverse : Matrix (Fin 3) (Fin 3) ℝ := !![1 / 23040, 0, -1 / 768; 0, 1 / 2400, 0; -1 / 768, 0, 9 / 128]

theorem middle_mul : middle * middleInverse = 1 := by
  unfold middle middleInverse
  ext i j
  rw [Matrix.mul_apply, Fin.sum_univ_three]
  fin_cases i <;> fin_cases j <;> simp <;> norm_num

theorem middle_le (i j : Fin 3) : |middle i j| ≤ 51840 := by
  unfold middle
  fin_cases i <;> fin_cases j <;> simp <;> norm_num

theorem middleInverse_sum (i : Fin 3) : ∑ j, |middleInverse i j| ≤ 1 := by
  unfold middleInverse
  rw [Fin.sum_univ_three]
  fin_cases i <;> simp <;> norm_num [abs_of_pos, abs_of_neg, abs_div]

/-- The system for two segments of one second, with `k` unused rows. -/
theorem twoSegments {k : ℕ} (p : MinimumSnapPlanner d ℝ) (w : List (Fin d → ℝ)) (largest : ℝ) (s : SnapSystem (3 + k) d ℝ)
    (h : p.assemble largest w 2 0 [1, 1] ⟨fun _ _ => 0, fun _ _ => 0⟩ = .ok s) :
    paddedSystem 3 s.reduced = (Matrix.fromBlocks middle 0 0 1).submatrix finSumFinEquiv.symm finSumFinEquiv.symm := by
  have hs := fun i => (assemble_spec p w 2 largest [1, 1] 0 _ s (by simp) h i).1
  have hst : ∀ i j : Fin 3, s.reduced (Fin.castAdd k i) (Fin.castAdd k j) = stiffness 1 (Fin.natAdd 5 i) (Fin.natAdd 5 j) +
      stiffness 1 ⟨1 + i.val, by omega⟩ ⟨1 + j.val, by omega⟩ := by
    intro i j
    rw [hs]
    fin_cases i <;> fin_cases j <;>
      simp [Finset.sum_range_succ, Fin.sum_univ_eight, slotFree, classify, Fin.natAdd]
  have hval : ∀ i j : Fin 3, s.reduced (Fin.castAdd k i) (Fin.castAdd k j) = middle i j := by
    intro i j
    rw [hst]
    unfold middle
    simp only [stiffness, Matrix.mul_assoc, snapCost_one]
    simp only [Matrix.mul_apply, Matrix.transpose_apply, Fin.sum_univ_eight]
    fin_cases i <;> fin_cases j <;> simp [septicInverse, Fin.natAdd] <;> norm_num
  have hrow : ∀ (i : Fin k) (j : Fin (3 + k)), s.reduced (Fin.natAdd 3 i) j = 0 := by
    intro i j
    rw [hs]
    have h0 : ¬ 3 + i.val = 0 := by omega
    have h1 : ¬ 3 + i.val = 1 := by omega
    have h2 : ¬ 3 + i.val = 2 := by omega
    simp [Finset.sum_range_succ, Fin.sum_univ_eight, slotFree, classify, Fin.natAdd, h0, h1, h2]
  have hcol : ∀ (i : Fin (3 + k)) (j : Fin k), s.reduced i (Fin.natAdd 3 j) = 0 := by
    intro i j
    rw [hs]
    have h0 : ¬ 3 + j.val = 0 := by omega
    have h1 : ¬ 3 + j.val = 1 := by omega
    have h2 : ¬ 3 + j.val = 2 := by omega
    simp [Finset.sum_range_succ, Fin.sum_univ_eight, slotFree, classify, Fin.natAdd, h0, h1, h2]
  have hsymm : ∀ i j, middle i j = middle j i := by
    intro i j
    unfold middle
    fin_cases i <;> fin_cases j <;> simp
  ext i j
  unfold paddedSystem
  simp only [mscale, madd, mtranspose, Matrix.submatrix_apply]
  induction i using Fin.addCases with
  | left i =>
    rw [if_neg (by simp)]
    induction j using Fin.addCases with
    | left j =>
      rw [hval, hval, hsymm j i]
      simp only [finSumFinEquiv_symm_apply_castAdd, Matrix.fromBlocks_apply₁₁]
      push_cast
      ring
    | right j =>
      rw [hcol, hrow]
      simp
  | right i =>
    induction j using Fin.addCases with
    | left j =>
      rw [if_neg (by rintro ⟨e, -⟩; have := congrArg Fin.val e; simp at this; omega), hrow, hcol]
      simp
    | right j =>
      rw [hrow, hcol]
      by_cases e : i = j
      · subst e
        simp
      · rw [if_neg (by rintro ⟨e', -⟩; exact e (by simpa using e'))]
        simp [Matrix.one_apply, e]

/-- C105. A request over two segments of one second is answered, whatever the waypoints, the derivatives asked at the ends,
and the room left over for unused segments and unused unknowns. -/
theorem minimum_snap_two_segments (p : MinimumSnapPlanner d ℝ) (largest : ℝ) (hl : 1 ≤ largest) (maxSegments n : ℕ)
    (hm : 2 ≤ maxSegments) (hn : 3 ≤ n) (a b c : Fin d → ℝ) :
    ∃ curve, p.plan largest maxSegments n [a, b, c] [1, 1] = .ok curve := by
  obtain ⟨k, rfl⟩ : ∃ k, n = 3 + k := ⟨n - 3, by omega⟩
  rcases (minimum_snap_verdicts p largest maxSegments (3 + k) [a, b, c] [1, 1]).2.2.2.2.2 (by simp) (by simpa using hm)
    (by simp) (by simp) (by simp) with h | h
  · exact h
  exfalso
  have hfin : ([a, b, c].any (fun waypoint => !vIsFinite waypoint) || !p.start.allFinite || !p.finish.allFinite) = false := by
    simp [BoundaryDerivatives.allFinite, vIsFinite, Fns.isFinite]
  have hinv : ∀ x ∈ [(1 : ℝ), 1], ∃ Y, endpointMappingInverse largest x = .ok Y := by
    intro x hx
    obtain rfl : x = 1 := by simpa using hx
    exact ⟨_, endpointMappingInverse_accepts hl (by norm_num) (by norm_num)⟩
  obtain ⟨s, hs⟩ := assemble_succeeds (n := 3 + k) p largest [a, b, c] 2 [1, 1] 0 ⟨fun _ _ => 0, fun _ _ => 0⟩ hinv
  have hpad := twoSegments p _ _ s hs
  have hmax : maxAbs (paddedSystem 3 s.reduced) ≤ 51840 := by
    rw [hpad]
    refine maxAbs_le _ (by norm_num) fun i j => ?_
    induction i using Fin.addCases with
    | left i =>
      induction j using Fin.addCases with
      | left j => simpa using middle_le i j
      | right j => simp
    | right i =>
      induction j using Fin.addCases with
      | left j => simp
      | right j =>
        by_cases e : i = j
        · subst e; simp
        · simp [Matrix.one_apply, e]
  obtain ⟨f, hf⟩ := lu_accepts largest (paddedSystem 3 s.reduced)
    ((Matrix.fromBlocks middleInverse 0 0 1).submatrix finSumFinEquiv.symm finSumFinEquiv.symm) (by
      rw [hpad, mmul_eq, midentity_eq, Matrix.submatrix_mul_equiv, Matrix.fromBlocks_multiply, middle_mul]
      simp) (by
      norm_num at hmax ⊢
      linarith) (by
      intro i
      have hsum : ∑ j, |((Matrix.fromBlocks middleInverse 0 0 (1 : Matrix (Fin k) (Fin k) ℝ)).submatrix finSumFinEquiv.symm
          finSumFinEquiv.symm) i j| ≤ 1 := by
        rw [Fin.sum_univ_add]
        induction i using Fin.addCases with
        | left i => simpa using middleInverse_sum i
        | right i =>
          simp only [Matrix.submatrix_apply, finSumFinEquiv_symm_apply_castAdd, finSumFinEquiv_symm_apply_natAdd,
            Matrix.fromBlocks_apply₂₁, Matrix.fromBlocks_apply₂₂, Matrix.zero_apply, abs_zero, Finset.sum_const_zero, zero_add]
          rw [Finset.sum_eq_single i (fun j _ hj => by simp [Matrix.one_apply, hj.symm]) (by simp)]
          simp
      have h0 := Finset.sum_nonneg fun (j : Fin (3 + k)) (_ : j ∈ Finset.univ) => abs_nonneg
        (((Matrix.fromBlocks middleInverse 0 0 (1 : Matrix (Fin k) (Fin k) ℝ)).submatrix finSumFinEquiv.symm
          finSumFinEquiv.symm) i j)
      generalize ∑ j, |((Matrix.fromBlocks middleInverse 0 0 (1 : Matrix (Fin k) (Fin k) ℝ)).submatrix finSumFinEquiv.symm
          finSumFinEquiv.symm) i j| = S at hsum h0 ⊢
      have := mul_le_mul hmax hsum h0 (by norm_num)
      linarith)
  unfold plan at h
  rw [if_neg (by simp), if_neg (by simp; omega), if_neg (by simp), if_neg (by simp [Fns.isFinite]), if_neg (by rw [hfin]; simp),
    if_neg (by simp)] at h
  dsimp only at h
  rw [show [a, b, c].length - 1 = 2 from rfl, hs] at h
  dsimp only at h
  rw [if_neg (by norm_num), show 3 * (2 - 1) = 3 from rfl, hf] at h
  dsimp only at h
  split at h
  · cases h
  · split at h <;> cases h

end MinimumSnapPlanner

/-- Reaching eleven at one second and four at two, from rest to rest, is a request that is answered; so is any other
with those times. -/
example : ∃ curve, (MinimumSnapPlanner.new (d := 1) (T := ℝ)).plan (10 ^ 30) 2 3 [![0], ![11], ![4]] [1, 1] = .ok curve :=
  MinimumSnapPlanner.minimum_snap_two_segments _ _ (by norm_num) _ _ (by norm_num) (by norm_num) _ _ _

/-- A request with a segment too short for the conditioning check. -/
example : (1 / 50000 : ℝ) ∈ [1, 1 / 50000] ∧ (0 : ℝ) < 1 / 50000 ∧ (1 / 50000 : ℝ) ≤ 1 / 30000 := by norm_num

/-- The times that are filled in when every two neighbouring waypoints differ. -/
theorem fillDurations_spec {speed : ℝ} (hs : 0 < speed) : ∀ (waypoints : List (Fin d → ℝ)) (durations : List ℝ),
    durations.length + 1 = waypoints.length →
    (fillDurations speed waypoints durations).1.length = durations.length ∧
    ((fillDurations speed waypoints durations).2 = .ok () ↔ waypoints.IsChain (· ≠ ·)) ∧
    ((fillDurations speed waypoints durations).2 = .ok () ∨
      (fillDurations speed waypoints durations).2 = .error .durationNotPositive) ∧
    ((fillDurations speed waypoints durations).2 = .ok () → ∀ (i : ℕ) (h1 : i < waypoints.length) (h2 : i + 1 < waypoints.length),
      0 < (fillDurations speed waypoints durations).1.getD i 0 ∧
      (fillDurations speed waypoints durations).1.getD i 0 * speed = vnorm (vsub waypoints[i + 1] waypoints[i])) := by
  intro waypoints
  induction waypoints with
  | nil => intro durations h; simp at h
  | cons a rest ih =>
    intro durations h
    cases durations with
    | nil =>
      obtain rfl : rest = [] := by simpa using h
      simp [fillDurations]
    | cons slot durations =>
      cases rest with
      | nil => simp at h
      | cons b rest =>
        obtain ⟨g1, g2, g3, g4⟩ := ih durations (by simpa using h)
        have hz : vnorm (vsub b a) ≤ 0 ↔ a = b := by
          have hq : ∀ x : ℝ, √x ≤ 0 ↔ x ≤ 0 := fun x => ⟨fun h => Real.sqrt_eq_zero'.1 (le_antisymm h (Real.sqrt_nonneg x)),
            fun h => (Real.sqrt_eq_zero'.2 h).le⟩
          rw [vnorm, real_sqrt, hq, vnormSquared, vdot_eq]
          constructor
          · intro hle
            have h0 := (Finset.sum_eq_zero_iff_of_nonneg fun i _ => mul_self_nonneg (vsub b a i)).1
              (le_antisymm hle (Finset.sum_nonneg fun i _ => mul_self_nonneg _))
            funext k
            have := mul_self_eq_zero.1 (h0 k (Finset.mem_univ k))
            simp only [vsub] at this
            linarith
          · rintro rfl
            simp [vsub, dotProduct]
        simp only [fillDurations]
        by_cases hd : vnorm (vsub b a) ≤ 0
        · rw [if_pos hd]
          refine ⟨rfl, ⟨(by intro h; cases h), fun hc => ?_⟩, Or.inr rfl, (by intro h; cases h)⟩
          rw [List.isChain_cons_cons] at hc
          exact absurd (hz.1 hd) hc.1
        · rw [if_neg hd]
          refine ⟨by simpa using g1, ?_, g3, fun hc i h1 h2 => ?_⟩
          · rw [g2, List.isChain_cons_cons]
            exact ⟨fun hc => ⟨fun e => hd (hz.2 e), hc⟩, fun hc => hc.2⟩
          · cases i with
            | zero =>
              refine ⟨?_, ?_⟩
              · simpa using div_pos (not_le.1 hd) hs
              · simp [hs.ne']
            | succ i =>
              simp only [List.getElem_cons_succ, List.getD_cons_succ]
              exact g4 hc i (by simpa using h1) (by simpa using h2)

/-- C105. Times from an average speed: they are given exactly when there are at least two waypoints, room for one time per
segment, a positive speed, and no two neighbouring waypoints in the same place; each is then positive and covers its
straight-line distance at that speed.  A place repeated is reported as a time that is not positive. -/
theorem durations_from_average_speed (waypoints : List (Fin d → ℝ)) (speed : ℝ) (durations : List ℝ) :
    ((durationsFromAverageSpeed waypoints speed durations).2 = .ok () ↔ 2 ≤ waypoints.length ∧
      durations.length = waypoints.length - 1 ∧ 0 < speed ∧ waypoints.IsChain (· ≠ ·)) ∧
    (durationsFromAverageSpeed waypoints speed durations).1.length = durations.length ∧
    ((durationsFromAverageSpeed waypoints speed durations).2 = .ok () →
      ∀ (i : ℕ) (h1 : i < waypoints.length) (h2 : i + 1 < waypoints.length),
      0 < (durationsFromAverageSpeed waypoints speed durations).1.getD i 0 ∧
      (durationsFromAverageSpeed waypoints speed durations).1.getD i 0 * speed = vnorm (vsub waypoints[i + 1] waypoints[i])) ∧
    (2 ≤ waypoints.length → durations.length = waypoints.length - 1 → 0 < speed → ¬ waypoints.IsChain (· ≠ ·) →
      (durationsFromAverageSpeed waypoints speed durations).2 = .error .durationNotPositive) := by
  have hfin : ¬ ((waypoints.any fun waypoint => !vIsFinite waypoint) = true) := by
    simp [vIsFinite, Fns.isFinite]
  unfold durationsFromAverageSpeed
  by_cases h1 : waypoints.length < 2
  · rw [if_pos h1]
    refine ⟨⟨(by intro h; cases h), fun h => absurd h.1 (by omega)⟩, rfl, (by intro h; cases h), fun h => absurd h (by omega)⟩
  rw [if_neg h1]
  by_cases h2 : durations.length ≠ waypoints.length - 1
  · rw [if_pos h2]
    refine ⟨⟨(by intro h; cases h), fun h => absurd h.2.1 h2⟩, rfl, (by intro h; cases h), fun _ h => absurd h h2⟩
  rw [if_neg h2]
  by_cases h3 : speed ≤ 0
  · rw [if_pos (by simp [h3])]
    refine ⟨⟨(by intro h; cases h), fun h => absurd h.2.2.1 (not_lt.2 h3)⟩, rfl, (by intro h; cases h),
      fun _ _ h => absurd h (not_lt.2 h3)⟩
  rw [if_neg (by simp [Fns.isFinite]; exact not_le.1 h3), if_neg hfin]
  rw [not_not] at h2
  obtain ⟨g1, g2, g3, g4⟩ := fillDurations_spec (not_le.1 h3) waypoints durations (by omega)
  refine ⟨by rw [g2]; exact ⟨fun h => ⟨by omega, h2, not_le.1 h3, h⟩, fun h => h.2.2.2⟩, g1, g4, fun _ _ _ h => ?_⟩
  rcases g3 with h' | h'
  · exact absurd (g2.1 h') h
  · exact h'

example : (durationsFromAverageSpeed [![0], ![3], ![1]] (2 : ℝ) [0, 0]).2 = .ok () := by
  rw [(durations_from_average_speed _ _ _).1]
  refine ⟨by simp, by simp, by norm_num, ?_⟩
  simp [funext_iff]

section finite
variable {T : Type} [Zero T] [One T] [NatCast T] [Add T] [Sub T] [Mul T] [Div T] [Neg T] [LT T] [DecidableLT T]
  [LE T] [DecidableLE T] [BEq T] [Max T] [Min T] [Fns T]

theorem vIsFinite_all {n : ℕ} {v : Fin n → T} (h : vIsFinite v = true) (i : Fin n) : Fns.isFinite (v i) = true := by
  rw [vIsFinite, List.all_eq_true] at h
  exact h i (List.mem_finRange i)

theorem vIsFinite_none {n : ℕ} {v : Fin n → T} (h : ∃ i, Fns.isFinite (v i) = false) : vIsFinite v = false := by
  obtain ⟨i, hi⟩ := h
  rw [← Bool.not_eq_true]
  intro hc
  rw [vIsFinite_all hc i] at hi
  cases hi

/-- C105, C59. For every scalar type: an entry that is not finite, wherever it is, is refused.  `plan` reports such a time
as not positive and everything else as not finite; `durations_from_average_speed` and the endpoint construction likewise,
leaving the times alone. -/
theorem snap_refuses_nonfinite (p : MinimumSnapPlanner d T) (largest : T) (maxSegments n : ℕ) (waypoints : List (Fin d → T))
    (durations : List T) (speed span : T) (start finish : Fin 4 → T) (hw : 2 ≤ waypoints.length)
    (hd : durations.length = waypoints.length - 1) (hm : waypoints.length - 1 ≤ maxSegments) :
    ((∃ x ∈ durations, Fns.isFinite x = false) →
      p.plan largest maxSegments n waypoints durations = .error .durationNotPositive) ∧
    ((∀ x ∈ durations, Fns.isFinite x = true ∧ ¬ x ≤ 0) →
      (∃ w ∈ waypoints, ∃ i, Fns.isFinite (w i) = false) ∨ (∃ i, Fns.isFinite (p.start.velocity i) = false) ∨
      (∃ i, Fns.isFinite (p.start.acceleration i) = false) ∨ (∃ i, Fns.isFinite (p.start.jerk i) = false) ∨
      (∃ i, Fns.isFinite (p.finish.velocity i) = false) ∨ (∃ i, Fns.isFinite (p.finish.acceleration i) = false) ∨
      (∃ i, Fns.isFinite (p.finish.jerk i) = false) →
      p.plan largest maxSegments n waypoints durations = .error .nonFinite) ∧
    (Fns.isFinite speed = false →
      durationsFromAverageSpeed waypoints speed durations = (durations, .error .durationNotPositive)) ∧
    (Fns.isFinite speed = true → ¬ speed ≤ 0 → (∃ w ∈ waypoints, ∃ i, Fns.isFinite (w i) = false) →
      durationsFromAverageSpeed waypoints speed durations = (durations, .error .nonFinite)) ∧
    (Fns.isFinite span = false ∨ (∃ i, Fns.isFinite (start i) = false) ∨ (∃ i, Fns.isFinite (finish i) = false) →
      fromEndpointDerivatives largest start finish span = .error .nonFinite) := by
  have hany : (∃ w ∈ waypoints, ∃ i, Fns.isFinite (w i) = false) →
      (waypoints.any fun waypoint => !vIsFinite waypoint) = true := by
    rintro ⟨w, hw, h⟩
    rw [List.any_eq_true]
    exact ⟨w, hw, by rw [vIsFinite_none h]; rfl⟩
  refine ⟨fun h => ?_, fun h1 h2 => ?_, fun h => ?_, fun h1 h2 h3 => ?_, fun h => ?_⟩
  · unfold MinimumSnapPlanner.plan
    rw [if_neg (by omega), if_neg (by omega), if_neg (by simpa using hd), if_pos]
    obtain ⟨x, hx, hf⟩ := h
    rw [List.any_eq_true]
    exact ⟨x, hx, by rw [hf]; rfl⟩
  · unfold MinimumSnapPlanner.plan
    rw [if_neg (by omega), if_neg (by omega), if_neg (by simpa using hd), if_neg, if_pos]
    · rcases h2 with h | h | h | h | h | h | h
      · rw [hany h]; rfl
      all_goals simp [BoundaryDerivatives.allFinite, vIsFinite_none h]
    · rw [List.any_eq_true]
      rintro ⟨x, hx, hb⟩
      obtain ⟨a, b⟩ := h1 x hx
      rw [a] at hb
      simp [b] at hb
  · unfold durationsFromAverageSpeed
    rw [if_neg (by omega), if_neg (by simpa using hd), if_pos (by rw [h]; rfl)]
  · unfold durationsFromAverageSpeed
    rw [if_neg (by omega), if_neg (by simpa using hd), if_neg (by rw [h1]; simp [h2]), if_pos (hany h3)]
  · unfold fromEndpointDerivatives
    rw [if_pos]
    rcases h with h | ⟨i, h⟩ | ⟨i, h⟩
    · rw [h]; rfl
    · rw [Bool.or_eq_true, List.any_eq_true]
      exact Or.inr ⟨start i, List.mem_append_left _ (List.mem_ofFn.2 ⟨i, rfl⟩), by rw [h]; rfl⟩
    · rw [Bool.or_eq_true, List.any_eq_true]
      exact Or.inr ⟨finish i, List.mem_append_right _ (List.mem_ofFn.2 ⟨i, rfl⟩), by rw [h]; rfl⟩

end finite

/-- Two waypoints, one of which is not a number. -/
example : 2 ≤ [![XR.fin 0], ![XR.nan]].length ∧ ∃ w ∈ [![XR.fin 0], ![XR.nan]], ∃ i, Fns.isFinite (w i) = false :=
  ⟨by simp, ![XR.nan], by simp, 0, rfl⟩

end Multicalc
