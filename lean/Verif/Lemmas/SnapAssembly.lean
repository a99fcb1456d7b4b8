import Verif.Lemmas.SnapPaths

/-!
# The system the minimum-snap planner assembles
-/

namespace Multicalc
namespace MinimumSnapPlanner

open Poly Matrix Snap

variable {d n : ℕ}

/-- One where a slot is the unknown numbered `i`. -/
noncomputable def slotFree (p : MinimumSnapPlanner d ℝ) (waypoints : List (Fin d → ℝ)) (segments waypoint order i : ℕ) : ℝ :=
  match p.classify waypoints segments waypoint order with
  | .free row => if i = row then 1 else 0
  | .fixed _ => 0

/-- The value asked at a slot, and nothing where the planner chooses. -/
noncomputable def slotFixed (p : MinimumSnapPlanner d ℝ) (waypoints : List (Fin d → ℝ)) (segments waypoint order : ℕ)
    (axis : Fin d) : ℝ :=
  match p.classify waypoints segments waypoint order with
  | .free _ => 0
  | .fixed value => value axis

section
variable (p : MinimumSnapPlanner d ℝ) (waypoints : List (Fin d → ℝ)) (segments : ℕ)

theorem assembleEntry_spec (segment : ℕ) (terms : Matrix (Fin 8) (Fin 8) ℝ) (lr : Fin 8) (freeRow : ℕ) (s : SnapSystem n d ℝ)
    (lc : Fin 8) (i : Fin n) :
    (∀ j, (p.assembleEntry waypoints segments segment terms lr freeRow s lc).reduced i j = s.reduced i j +
      (if i.val = freeRow then 1 else 0) * terms lr lc *
        p.slotFree waypoints segments (segment + lc.val / 4) (lc.val % 4) j.val) ∧
    ∀ a, (p.assembleEntry waypoints segments segment terms lr freeRow s lc).knownSide i a = s.knownSide i a -
      (if i.val = freeRow then 1 else 0) * terms lr lc *
        p.slotFixed waypoints segments (segment + lc.val / 4) (lc.val % 4) a := by
  unfold assembleEntry slotFree slotFixed
  cases p.classify waypoints segments (segment + lc.val / 4) (lc.val % 4) with
  | free c =>
    refine ⟨fun j => ?_, fun a => by simp⟩
    by_cases h1 : i.val = freeRow <;> by_cases h2 : j.val = c <;> simp [h1, h2]
  | fixed v =>
    refine ⟨fun j => by simp, fun a => ?_⟩
    by_cases h1 : i.val = freeRow <;> simp [h1]

theorem assembleEntry_fold (segment : ℕ) (terms : Matrix (Fin 8) (Fin 8) ℝ) (lr : Fin 8) (freeRow : ℕ) (i : Fin n)
    (l : List (Fin 8)) : ∀ s : SnapSystem n d ℝ,
    (∀ j, (l.foldl (p.assembleEntry waypoints segments segment terms lr freeRow) s).reduced i j = s.reduced i j +
      (l.map fun lc => (if i.val = freeRow then 1 else 0) * terms lr lc *
        p.slotFree waypoints segments (segment + lc.val / 4) (lc.val % 4) j.val).sum) ∧
    ∀ a, (l.foldl (p.assembleEntry waypoints segments segment terms lr freeRow) s).knownSide i a = s.knownSide i a -
      (l.map fun lc => (if i.val = freeRow then 1 else 0) * terms lr lc *
        p.slotFixed waypoints segments (segment + lc.val / 4) (lc.val % 4) a).sum := by
  induction l with
  | nil => intro s; simp
  | cons x l ih =>
    intro s
    rw [List.foldl_cons]
    obtain ⟨h1, h2⟩ := ih (p.assembleEntry waypoints segments segment terms lr freeRow s x)
    obtain ⟨g1, g2⟩ := assembleEntry_spec p waypoints segments segment terms lr freeRow s x i
    refine ⟨fun j => ?_, fun a => ?_⟩
    · rw [h1, g1, List.map_cons, List.sum_cons]; ring
    · rw [h2, g2, List.map_cons, List.sum_cons]; ring

theorem assembleRow_spec (segment : ℕ) (terms : Matrix (Fin 8) (Fin 8) ℝ) (s : SnapSystem n d ℝ) (lr : Fin 8) (i : Fin n) :
    (∀ j, (p.assembleRow waypoints segments segment terms s lr).reduced i j = s.reduced i j +
      ∑ lc, p.slotFree waypoints segments (segment + lr.val / 4) (lr.val % 4) i.val * terms lr lc *
        p.slotFree waypoints segments (segment + lc.val / 4) (lc.val % 4) j.val) ∧
    ∀ a, (p.assembleRow waypoints segments segment terms s lr).knownSide i a = s.knownSide i a -
      ∑ lc, p.slotFree waypoints segments (segment + lr.val / 4) (lr.val % 4) i.val * terms lr lc *
        p.slotFixed waypoints segments (segment + lc.val / 4) (lc.val % 4) a := by
  unfold assembleRow
  rw [slotFree]
  cases p.classify waypoints segments (segment + lr.val / 4) (lr.val % 4) with
  | fixed v => simp
  | free r =>
    simp only [Fin.sum_univ_def]
    exact assembleEntry_fold p waypoints segments segment terms lr r i _ s

theorem assembleRow_fold (segment : ℕ) (terms : Matrix (Fin 8) (Fin 8) ℝ) (i : Fin n) (l : List (Fin 8)) :
    ∀ s : SnapSystem n d ℝ,
    (∀ j, (l.foldl (p.assembleRow waypoints segments segment terms) s).reduced i j = s.reduced i j +
      (l.map fun lr => ∑ lc, p.slotFree waypoints segments (segment + lr.val / 4) (lr.val % 4) i.val * terms lr lc *
        p.slotFree waypoints segments (segment + lc.val / 4) (lc.val % 4) j.val).sum) ∧
    ∀ a, (l.foldl (p.assembleRow waypoints segments segment terms) s).knownSide i a = s.knownSide i a -
      (l.map fun lr => ∑ lc, p.slotFree waypoints segments (segment + lr.val / 4) (lr.val % 4) i.val * terms lr lc *
        p.slotFixed waypoints segments (segment + lc.val / 4) (lc.val % 4) a).sum := by
  induction l with
  | nil => intro s; simp
  | cons x l ih =>
    intro s
    rw [List.foldl_cons]
    obtain ⟨h1, h2⟩ := ih (p.assembleRow waypoints segments segment terms s x)
    obtain ⟨g1, g2⟩ := assembleRow_spec p waypoints segments segment terms s x i
    refine ⟨fun j => ?_, fun a => ?_⟩
    · rw [h1, g1, List.map_cons, List.sum_cons]; ring
    · rw [h2, g2, List.map_cons, List.sum_cons]; ring

theorem assemble_spec (largest : ℝ) : ∀ (rest : List ℝ) (segment : ℕ) (s s' : SnapSystem n d ℝ), (∀ x ∈ rest, 0 < x) →
    p.assemble largest waypoints segments segment rest s = .ok s' → ∀ i,
    (∀ j, s'.reduced i j = s.reduced i j + ∑ k ∈ Finset.range rest.length,
      ∑ lr : Fin 8, ∑ lc : Fin 8, p.slotFree waypoints segments (segment + k + lr.val / 4) (lr.val % 4) i.val *
        stiffness (rest.getD k 0) lr lc * p.slotFree waypoints segments (segment + k + lc.val / 4) (lc.val % 4) j.val) ∧
    ∀ a, s'.knownSide i a = s.knownSide i a - ∑ k ∈ Finset.range rest.length,
      ∑ lr : Fin 8, ∑ lc : Fin 8, p.slotFree waypoints segments (segment + k + lr.val / 4) (lr.val % 4) i.val *
        stiffness (rest.getD k 0) lr lc * p.slotFixed waypoints segments (segment + k + lc.val / 4) (lc.val % 4) a := by
  intro rest
  induction rest with
  | nil =>
    intro segment s s' _ h i
    simp only [assemble, Except.ok.injEq] at h
    subst h
    simp
  | cons x rest ih =>
    intro segment s s' hp h i
    simp only [assemble] at h
    cases hi : endpointMappingInverse largest x with
    | error e => rw [hi] at h; cases h
    | ok Y =>
      rw [hi] at h
      obtain rfl := endpointMappingInverse_ok (hp x (by simp)).ne' hi
      simp only [mmul_eq] at h
      rw [show mtranspose (septicInverse x) * mscale snapCost (powi x (-7)) * septicInverse x = stiffness x from rfl] at h
      obtain ⟨h1, h2⟩ := ih (segment + 1) _ s' (fun y hy => hp y (by simp [hy])) h i
      obtain ⟨g1, g2⟩ := assembleRow_fold p waypoints segments segment (stiffness x) i (List.finRange 8) s
      rw [List.length_cons]
      refine ⟨fun j => ?_, fun a => ?_⟩
      · rw [h1, g1, Finset.sum_range_succ', Fin.sum_univ_def (n := 8)]
        simp only [add_zero, List.getD_cons_zero, List.getD_cons_succ]
        rw [add_assoc, add_comm (List.sum _)]
        simp only [show ∀ k, segment + 1 + k = segment + (k + 1) from fun k => by omega]
      · rw [h2, g2, Finset.sum_range_succ', Fin.sum_univ_def (n := 8)]
        simp only [add_zero, List.getD_cons_zero, List.getD_cons_succ]
        rw [sub_sub, add_comm (List.sum _)]
        simp only [show ∀ k, segment + 1 + k = segment + (k + 1) from fun k => by omega]

end

theorem stiffness_symm (s : ℝ) (i j : Fin 8) : stiffness s i j = stiffness s j i := by
  have h : (mscale (snapCost (T := ℝ)) (powi s (-7)))ᵀ = mscale snapCost (powi s (-7)) := by
    ext i j
    simp only [Matrix.transpose_apply, mscale, snapCost]
    rw [mul_comm (waysAfterFourDerivatives j.val), add_comm j.val]
    by_cases hi : 4 ≤ i.val <;> by_cases hj : 4 ≤ j.val <;> simp [hi, hj]
  have : (stiffness s)ᵀ = stiffness s := by
    unfold stiffness
    rw [Matrix.transpose_mul, Matrix.transpose_mul, h, Matrix.transpose_transpose, Matrix.mul_assoc]
  conv_lhs => rw [← this]
  rfl

/-- The value and derivatives the planner settles on, at every waypoint. -/
noncomputable def settled (p : MinimumSnapPlanner d ℝ) (waypoints : List (Fin d → ℝ)) (segments : ℕ)
    (solved : Matrix (Fin n) (Fin d) ℝ) (axis : Fin d) (waypoint order : ℕ) : ℝ :=
  p.slotFixed waypoints segments waypoint order axis +
    ∑ j : Fin n, p.slotFree waypoints segments waypoint order j.val * solved j axis

theorem waypointBlock_eq (p : MinimumSnapPlanner d ℝ) (waypoints : List (Fin d → ℝ)) (segments : ℕ)
    (solved : Matrix (Fin n) (Fin d) ℝ) (waypoint : ℕ) (axis : Fin d) (order : Fin 4) :
    p.waypointBlock waypoints segments solved waypoint axis order = p.settled waypoints segments solved axis waypoint order.val := by
  unfold waypointBlock settled slotFixed slotFree
  cases p.classify waypoints segments waypoint order.val with
  | fixed v => simp
  | free r =>
    dsimp only
    by_cases h : r < n
    · rw [dif_pos h, zero_add, Finset.sum_eq_single ⟨r, h⟩]
      · simp
      · intro j _ hj
        have : j.val ≠ r := fun e => hj (Fin.ext e)
        simp [this]
      · simp
    · rw [dif_neg h, zero_add, Finset.sum_eq_zero]
      intro j _
      have : j.val ≠ r := by have := j.isLt; omega
      simp [this]

/-- What solving the assembled system achieves: the settled data balance against every change that leaves the fixed slots
alone. -/
theorem balance (p : MinimumSnapPlanner d ℝ) (waypoints : List (Fin d → ℝ)) (segments : ℕ) (largest : ℝ) (durations : List ℝ)
    (hlen : durations.length = segments) (hpos : ∀ x ∈ durations, 0 < x) (hn : 3 * (segments - 1) ≤ n) (s : SnapSystem n d ℝ)
    (hs : p.assemble largest waypoints segments 0 durations ⟨fun _ _ => 0, fun _ _ => 0⟩ = .ok s)
    (solved : Matrix (Fin n) (Fin d) ℝ)
    (hsol : 3 * (segments - 1) ≠ 0 → paddedSystem (3 * (segments - 1)) s.reduced * solved = s.knownSide)
    (axis : Fin d) (E : ℕ → ℕ → ℝ) (h0 : ∀ w ≤ segments, E w 0 = 0) (h1 : ∀ o < 4, E 0 o = 0)
    (h2 : ∀ o < 4, E segments o = 0) :
    ∑ i ∈ Finset.range segments, ends E i ⬝ᵥ
      (stiffness (durations.getD i 0) *ᵥ ends (p.settled waypoints segments solved axis) i) = 0 := by
  have hspec := assemble_spec p waypoints segments largest durations 0 _ s hpos hs
  rw [hlen] at hspec
  simp only [zero_add, zero_sub] at hspec
  have hsym : ∀ i j, s.reduced i j = s.reduced j i := by
    intro i j
    rw [(hspec i).1, (hspec j).1]
    refine Finset.sum_congr rfl fun k _ => ?_
    rw [Finset.sum_comm]
    refine Finset.sum_congr rfl fun a _ => Finset.sum_congr rfl fun b _ => ?_
    rw [stiffness_symm]
    ring
  -- the row of every unknown
  have hrow : ∀ i : Fin n, i.val < 3 * (segments - 1) → ∑ k ∈ Finset.range segments, ∑ lr : Fin 8,
      p.slotFree waypoints segments (k + lr.val / 4) (lr.val % 4) i.val *
        (stiffness (durations.getD k 0) *ᵥ ends (p.settled waypoints segments solved axis) k) lr = 0 := by
    intro i hi
    have h := congrFun (congrFun (hsol (by omega)) i) axis
    rw [Matrix.mul_apply, (hspec i).2] at h
    have hp : ∀ j, paddedSystem (3 * (segments - 1)) s.reduced i j = s.reduced i j := by
      intro j
      unfold paddedSystem
      rw [if_neg (by omega)]
      simp only [mscale, madd, mtranspose]
      rw [hsym j i]
      push_cast
      ring
    simp only [hp, (hspec i).1] at h
    rw [eq_neg_iff_add_eq_zero] at h
    refine Eq.trans ?_ h
    symm
    simp only [Finset.sum_mul]
    rw [Finset.sum_comm, ← Finset.sum_add_distrib]
    refine Finset.sum_congr rfl fun k _ => ?_
    rw [Finset.sum_comm, ← Finset.sum_add_distrib]
    refine Finset.sum_congr rfl fun lr _ => ?_
    rw [Finset.sum_comm, ← Finset.sum_add_distrib]
    simp only [Matrix.mulVec, dotProduct, Finset.mul_sum, ends, settled]
    refine Finset.sum_congr rfl fun lc _ => ?_
    rw [mul_add, mul_add, Finset.mul_sum, Finset.mul_sum, add_comm]
    congr 1
    · ring
    · exact Finset.sum_congr rfl fun j _ => by ring
  -- a change that leaves the fixed slots alone is a combination of those rows
  have hE : ∀ w ≤ segments, ∀ o < 4, E w o = ∑ i : Fin n, E (i.val / 3 + 1) (i.val % 3 + 1) *
      (if i.val < 3 * (segments - 1) then 1 else 0) * p.slotFree waypoints segments w o i.val := by
    intro w hw o ho
    unfold slotFree classify
    by_cases e0 : o = 0
    · subst e0; rw [h0 w hw]; simp
    by_cases e1 : w = 0
    · subst e1; rw [h1 o ho]; simp [e0]
    by_cases e2 : w = segments
    · subst e2; rw [h2 o ho]; simp [e0, e1]
    simp only [e0, e1, e2, if_false]
    have hlt : 3 * (w - 1) + (o - 1) < 3 * (segments - 1) := by omega
    rw [Finset.sum_eq_single ⟨3 * (w - 1) + (o - 1), by omega⟩]
    · simp only [if_true, mul_one]
      rw [if_pos hlt, mul_one]
      congr 1 <;> omega
    · intro i _ hi
      have : i.val ≠ 3 * (w - 1) + (o - 1) := fun e => hi (Fin.ext e)
      simp [this]
    · simp
  have hends : ∀ k ∈ Finset.range segments, ∀ lr : Fin 8, ends E k lr = ∑ i : Fin n, E (i.val / 3 + 1) (i.val % 3 + 1) *
      (if i.val < 3 * (segments - 1) then 1 else 0) * p.slotFree waypoints segments (k + lr.val / 4) (lr.val % 4) i.val := by
    intro k hk lr
    have := Finset.mem_range.1 hk
    exact hE _ (by have := lr.isLt; omega) _ (by omega)
  have : ∑ k ∈ Finset.range segments, ends E k ⬝ᵥ
      (stiffness (durations.getD k 0) *ᵥ ends (p.settled waypoints segments solved axis) k) =
      ∑ i : Fin n, E (i.val / 3 + 1) (i.val % 3 + 1) * (if i.val < 3 * (segments - 1) then 1 else 0) *
        ∑ k ∈ Finset.range segments, ∑ lr : Fin 8, p.slotFree waypoints segments (k + lr.val / 4) (lr.val % 4) i.val *
          (stiffness (durations.getD k 0) *ᵥ ends (p.settled waypoints segments solved axis) k) lr := by
    simp only [Finset.mul_sum]
    rw [Finset.sum_comm]
    refine Finset.sum_congr rfl fun k hk => ?_
    rw [Finset.sum_comm]
    unfold dotProduct
    refine Finset.sum_congr rfl fun lr _ => ?_
    rw [hends k hk lr, Finset.sum_mul]
    exact Finset.sum_congr rfl fun i _ => by ring
  rw [this]
  refine Finset.sum_eq_zero fun i _ => ?_
  by_cases hi : i.val < 3 * (segments - 1)
  · rw [hrow i hi, mul_zero]
  · simp [hi]

end MinimumSnapPlanner
end Multicalc
