import Verif.Props.ParticleFilter

/-!
# Particle filter: which draws go where
-/

namespace Multicalc

namespace ParticleFilter

section LawFree

variable {R A : Type}

/-- The source after that many draws. -/
def afterDraws (draw : R → A × R) (count : ℕ) (r : R) : R := (fun r => (draw r).2)^[count] r

theorem afterDraws_add (draw : R → A × R) (a b : ℕ) (r : R) :
    afterDraws draw (a + b) r = afterDraws draw b (afterDraws draw a r) := by
  rw [afterDraws, Nat.add_comm, Function.iterate_add_apply]
  rfl

theorem drawMany_state (draw : R → A × R) (count : ℕ) (r : R) :
    (drawMany draw count r).2 = afterDraws draw count r := by
  induction count generalizing r with
  | zero => rfl
  | succ k ih => rw [drawMany, afterDraws, Function.iterate_succ_apply]; exact ih _

theorem drawMany_getElem (draw : R → A × R) (count : ℕ) (r : R) (i : ℕ) (hi : i < (drawMany draw count r).1.length) :
    (drawMany draw count r).1[i] = (draw (afterDraws draw i r)).1 := by
  induction count generalizing r i with
  | zero => simp [drawMany] at hi
  | succ k ih =>
    cases i with
    | zero => simp [drawMany, afterDraws]
    | succ i =>
      simp only [drawMany, List.getElem_cons_succ]
      rw [ih]
      rw [afterDraws, afterDraws, Function.iterate_succ_apply]

/-- C61. Several draws are successive draws: each starts from the source as the one before left it, and the source is
left where the last one left it. -/
theorem draws_successive (draw : R → A × R) (count : ℕ) (r : R) :
    (drawMany draw count r).1.length = count ∧
    (∀ i < count, (drawMany draw count r).1[i]? = some (draw ((fun r => (draw r).2)^[i] r)).1) ∧
    (drawMany draw count r).2 = (fun r => (draw r).2)^[count] r := by
  refine ⟨drawMany_length _ _ _, fun i hi => ?_, drawMany_state _ _ _⟩
  have hi' : i < (drawMany draw count r).1.length := by rw [drawMany_length]; exact hi
  rw [List.getElem?_eq_getElem hi', drawMany_getElem]
  rfl

end LawFree

section Real

variable {n : ℕ} {R : Type} (source : RandomSource R ℝ)

/-- The normal draw number `k` from a source. -/
noncomputable def normalAt (r : R) (k : ℕ) : ℝ := (source.standardNormal (afterDraws source.standardNormal k r)).1

theorem foldl_low (l : List (Fin n → ℝ)) (a : Fin n) (x lo : ℝ)
    (h : IsLeast ({x} ∪ {y | ∃ p ∈ l, y = p a}) lo) :
    l.foldl (fun low p => if p a < low then p a else low) x = lo := by
  induction l generalizing x with
  | nil =>
    obtain ⟨h, -⟩ := h
    rcases h with h | ⟨q, hq, -⟩
    · exact h.symm
    · cases hq
  | cons p l ih =>
    rw [List.foldl_cons]
    apply ih
    obtain ⟨h1, h2⟩ := h
    have hx := h2 (show x ∈ _ by simp)
    have hp := h2 (show p a ∈ _ from Or.inr ⟨p, by simp, rfl⟩)
    refine ⟨?_, ?_⟩
    · rcases h1 with rfl | ⟨q, hq, rfl⟩
      · left
        by_cases hc : p a < lo
        · exact absurd hp (not_le.2 hc)
        · simp [hc]
      · rcases List.mem_cons.1 hq with rfl | hq
        · left
          by_cases hc : q a < x
          · simp [hc]
          · simp only [if_neg hc, Set.mem_singleton_iff]
            linarith
        · exact Or.inr ⟨q, hq, rfl⟩
    · rintro y (rfl | ⟨q, hq, rfl⟩)
      · split_ifs
        · exact hp
        · exact hx
      · exact h2 (Or.inr ⟨q, by simp [hq], rfl⟩)

theorem foldl_high (l : List (Fin n → ℝ)) (a : Fin n) (x hi : ℝ)
    (h : IsGreatest ({x} ∪ {y | ∃ p ∈ l, y = p a}) hi) :
    l.foldl (fun high p => if high < p a then p a else high) x = hi := by
  induction l generalizing x with
  | nil =>
    obtain ⟨h, -⟩ := h
    rcases h with h | ⟨q, hq, -⟩
    · exact h.symm
    · cases hq
  | cons p l ih =>
    rw [List.foldl_cons]
    apply ih
    obtain ⟨h1, h2⟩ := h
    have hx := h2 (show x ∈ _ by simp)
    have hp := h2 (show p a ∈ _ from Or.inr ⟨p, by simp, rfl⟩)
    refine ⟨?_, ?_⟩
    · rcases h1 with rfl | ⟨q, hq, rfl⟩
      · left
        by_cases hc : hi < p a
        · exact absurd hp (not_le.2 hc)
        · simp [hc]
      · rcases List.mem_cons.1 hq with rfl | hq
        · left
          by_cases hc : x < q a
          · simp [hc]
          · simp only [if_neg hc, Set.mem_singleton_iff]
            linarith
        · exact Or.inr ⟨q, hq, rfl⟩
    · rintro y (rfl | ⟨q, hq, rfl⟩)
      · split_ifs
        · exact hp
        · exact hx
      · exact h2 (Or.inr ⟨q, by simp [hq], rfl⟩)

theorem roughenAxis_spec (k : ℝ) (ps : List (Fin n → ℝ)) (r : R) (a : Fin n) (lo hi : ℝ)
    (hlo : IsLeast {y | ∃ p ∈ ps, y = p a} lo) (hhi : IsGreatest {y | ∃ p ∈ ps, y = p a} hi) :
    roughenAxis source k (ps, r) a = if k * (hi - lo) ≤ 0 then (ps, r) else
      (List.zipWith (fun p z => Function.update p a (p a + k * (hi - lo) * z)) ps
        (drawMany source.standardNormal ps.length r).1, afterDraws source.standardNormal ps.length r) := by
  cases ps with
  | nil => obtain ⟨⟨p, hp, -⟩, -⟩ := hlo; simp at hp
  | cons p ps =>
    have hs : ({p a} ∪ {y | ∃ q ∈ p :: ps, y = q a} : Set ℝ) = {y | ∃ q ∈ p :: ps, y = q a} := by
      apply Set.union_eq_self_of_subset_left
      rintro y rfl
      exact ⟨p, by simp, rfl⟩
    rw [← hs] at hlo hhi
    simp only [roughenAxis]
    rw [foldl_low (p :: ps) a (p a) lo hlo, foldl_high (p :: ps) a (p a) hi hhi]
    split_ifs with h
    · rfl
    · rw [drawMany_state]

set_option maxHeartbeats 1000000 in
/-- C61. Roughening moves every coordinate of every particle by a fresh normal draw times the roughening factor times
how far the cloud spreads along that axis, the spread being that of the cloud as resampled: the axes are taken in turn,
one draw per particle each, and an axis along which the cloud has no spread is left alone and uses no draws. -/
theorem roughening_moves (f : ParticleFilter n ℝ R) (hk : 0 ≤ f.roughening) (lo hi : Fin n → ℝ)
    (hlo : ∀ a, IsLeast {y | ∃ p ∈ f.particles, y = p a} (lo a))
    (hhi : ∀ a, IsGreatest {y | ∃ p ∈ f.particles, y = p a} (hi a)) :
    let used := fun m : ℕ => ((List.finRange n).take m).countP fun b => decide (0 < f.roughening * (hi b - lo b))
    (f.roughen source).particles.length = f.particles.length ∧
    (∀ i (h : i < f.particles.length) a, (f.roughen source).particles[i]?.map (fun p => p a) =
      some (f.particles[i] a + f.roughening * (hi a - lo a) *
        normalAt source f.random (used a * f.particles.length + i))) ∧
    (f.roughen source).random = afterDraws source.standardNormal (used n * f.particles.length) f.random ∧
    (f.roughen source).weights = f.weights := by
  intro used
  have key : ∀ m ≤ n, ∃ ps, ((List.finRange n).take m).foldl (roughenAxis source f.roughening) (f.particles, f.random) =
      (ps, afterDraws source.standardNormal (used m * f.particles.length) f.random) ∧
      ps.length = f.particles.length ∧
      ∀ i (h : i < f.particles.length) (h' : i < ps.length) (a : Fin n), ps[i] a = if (a : ℕ) < m then
        f.particles[i] a + f.roughening * (hi a - lo a) *
          normalAt source f.random (used a * f.particles.length + i) else f.particles[i] a := by
    intro m
    induction m with
    | zero => intro _; exact ⟨f.particles, by simp [used, afterDraws], rfl, by simp⟩
    | succ m ih =>
      intro hm
      obtain ⟨ps, h1, h2, h3⟩ := ih (by omega)
      have ht : (List.finRange n).take (m + 1) = (List.finRange n).take m ++ [⟨m, by omega⟩] := by
        rw [List.take_add_one, List.getElem?_eq_getElem (by simpa using hm)]
        simp
      set a₀ : Fin n := ⟨m, by omega⟩ with ha₀
      have hset : {y | ∃ p ∈ ps, y = p a₀} = {y | ∃ p ∈ f.particles, y = p a₀} := by
        ext y
        constructor
        · rintro ⟨p, hp, rfl⟩
          obtain ⟨i, hi', rfl⟩ := List.getElem_of_mem hp
          refine ⟨f.particles[i]'(by omega), List.getElem_mem _, ?_⟩
          rw [h3 i (by omega) hi' a₀, if_neg (by simp [ha₀])]
        · rintro ⟨p, hp, rfl⟩
          obtain ⟨i, hi', rfl⟩ := List.getElem_of_mem hp
          refine ⟨ps[i]'(by omega), List.getElem_mem _, ?_⟩
          rw [h3 i (by omega) (by omega) a₀, if_neg (by simp [ha₀])]
      have hu : used (m + 1) = used m + if 0 < f.roughening * (hi a₀ - lo a₀) then 1 else 0 := by
        simp only [used]
        rw [ht, List.countP_append]
        simp [List.countP_cons, ha₀]
      rw [ht, List.foldl_append, h1, List.foldl_cons, List.foldl_nil,
        roughenAxis_spec source f.roughening ps _ a₀ (lo a₀) (hi a₀) (hset ▸ hlo a₀) (hset ▸ hhi a₀)]
      by_cases hs : f.roughening * (hi a₀ - lo a₀) ≤ 0
      · rw [if_pos hs]
        refine ⟨ps, by rw [hu, if_neg (not_lt.2 hs), Nat.add_zero], h2, fun i h h' a => ?_⟩
        rw [h3 i h h' a]
        by_cases h4 : (a : ℕ) < m
        · rw [if_pos h4, if_pos (by omega)]
        · rw [if_neg h4]
          by_cases h5 : (a : ℕ) < m + 1
          · have : a = a₀ := Fin.ext (by simp [ha₀]; omega)
            rw [this] at h5 ⊢
            have h0 : f.roughening * (hi a₀ - lo a₀) = 0 := le_antisymm hs (mul_nonneg hk (by
              have := (hlo a₀).2 (hhi a₀).1
              linarith))
            rw [if_pos h5, h0]
            ring
          · rw [if_neg h5]
      · rw [if_neg hs]
        refine ⟨_, Prod.ext rfl ?_, by simp [h2, drawMany_length], fun i h h' a => ?_⟩
        · show afterDraws _ _ (afterDraws _ _ _) = _
          rw [← afterDraws_add, hu, if_pos (not_le.1 hs), h2, Nat.add_mul, Nat.one_mul]
        · rw [List.getElem_zipWith, drawMany_getElem, ← afterDraws_add]
          by_cases h4 : a = a₀
          · subst h4
            rw [Function.update_self, h3 i h (by omega), if_neg (by simp [ha₀]), if_pos (by simp [ha₀])]
            rfl
          · rw [Function.update_of_ne h4, h3 i h (by omega)]
            have : (a : ℕ) ≠ m := fun h => h4 (Fin.ext h)
            by_cases h5 : (a : ℕ) < m
            · rw [if_pos h5, if_pos (by omega)]
            · rw [if_neg h5, if_neg (by omega)]
  obtain ⟨ps, h1, h2, h3⟩ := key n le_rfl
  have ht : (List.finRange n).take n = List.finRange n := List.take_of_length_le (by simp)
  rw [ht] at h1
  have hr : f.roughen source = { f with particles := ps, random := afterDraws source.standardNormal (used n * f.particles.length) f.random } := by
    simp only [roughen]
    rw [h1]
  rw [hr]
  refine ⟨h2, fun i h a => ?_, rfl, rfl⟩
  show (ps[i]?).map _ = _
  rw [List.getElem?_eq_getElem (by omega), Option.map_some, h3 i h (by omega) a, if_pos a.2]

theorem normalVector_spec (r : R) :
    (normalVector source n r).1 = (fun j : Fin n => normalAt source r j) ∧
    (normalVector source n r).2 = afterDraws source.standardNormal n r := by
  refine ⟨?_, by simp only [normalVector]; rw [drawMany_state]⟩
  funext j
  have hj : (j : ℕ) < (drawMany source.standardNormal n r).1.length := by rw [drawMany_length]; exact j.2
  simp only [normalVector]
  rw [List.getD_eq_getElem?_getD, List.getElem?_eq_getElem hj, drawMany_getElem]
  rfl

theorem afterDraws_vector (k : ℕ) (r : R) :
    afterDraws (normalVector source n) k r = afterDraws source.standardNormal (k * n) r := by
  induction k generalizing r with
  | zero => simp [afterDraws]
  | succ k ih =>
    rw [Nat.add_comm k 1, afterDraws_add, ih, Nat.add_mul, Nat.one_mul, afterDraws_add]
    congr 1
    exact (normalVector_spec source r).2

/-- C61. A new filter and a prediction use one normal draw per coordinate and particle, each draw once: particle `k` is
built from draws `k n` to `k n + n - 1`, and the source is left past the last of them. -/
theorem particle_draws (count : ℕ) (hc : 0 < count) (x : Fin n → ℝ) (P Q : Matrix (Fin n) (Fin n) ℝ) (hP : Pd P)
    (hQ : Pd Q) (r : R) :
    ∃ f LP LQ, fromRandom source count x P Q r = .ok f ∧ LP * LP.transpose = P ∧ LQ * LQ.transpose = Q ∧
      (∀ k < count, f.particles[k]? =
        some (x + LP.mulVec fun j => normalAt source r (k * n + j))) ∧
      f.random = afterDraws source.standardNormal (count * n) r ∧
      ∀ (g : ParticleFilter n ℝ R) (process : (Fin n → ℝ) → Fin n → ℝ), g.processNoiseFactor = f.processNoiseFactor →
        (∀ k (hk : k < g.particles.length), (g.predict source process).1.particles[k]? =
          some (process g.particles[k] + LQ.mulVec fun j => normalAt source g.random (k * n + j))) ∧
        (g.predict source process).1.random = afterDraws source.standardNormal (g.particles.length * n) g.random := by
  obtain ⟨LP, hLP⟩ := cholesky_ok_of_pd P hP.1 hP.2
  obtain ⟨LQ, hLQ⟩ := cholesky_ok_of_pd Q hQ.1 hQ.2
  have fP := (cholesky_factors (k := n) P LP hP.1 hLP).1
  have fQ := (cholesky_factors (k := n) Q LQ hQ.1 hLQ).1
  rw [mmul_eq, mtranspose_eq] at fP fQ
  have hz : ∀ (c k : ℕ) (r : R) (h : k < (drawMany (normalVector source n) c r).1.length),
      (drawMany (normalVector source n) c r).1[k] = fun j : Fin n => normalAt source r (k * n + j) := by
    intro c k r h
    rw [drawMany_getElem, (normalVector_spec source _).1, afterDraws_vector]
    funext j
    rw [normalAt, normalAt, ← afterDraws_add]
  refine ⟨_, LP, LQ, by
    unfold fromRandom
    rw [if_neg hc.ne', hLP]
    simp only [hLQ]
    rfl, fP, fQ, ?_, ?_, ?_⟩
  · intro k hk
    have hk' : k < (drawMany (normalVector source n) count r).1.length := by rw [drawMany_length]; exact hk
    rw [List.getElem?_map, List.getElem?_eq_getElem hk', Option.map_some, hz]
    simp only [mmulVec_eq]
    rfl
  · show (drawMany _ _ _).2 = _
    rw [drawMany_state, afterDraws_vector]
  · intro g process hg
    refine ⟨fun k hk => ?_, ?_⟩
    · simp only [predict]
      rw [List.getElem?_eq_getElem (by simp [drawMany_length, hk]), List.getElem_zipWith, hg, hz]
      simp only [mmulVec_eq]
      rfl
    · simp only [predict]
      rw [drawMany_state, afterDraws_vector]

/-- Two particles a distance four apart, to be roughened by a tenth of that. -/
noncomputable def spreadPair : ParticleFilter 1 ℝ ℕ :=
  ⟨[fun _ => -1, fun _ => 3], [1 / 2, 1 / 2], fun _ _ => 0, .residual, 0, 1 / 10, 5⟩

example : 0 ≤ spreadPair.roughening ∧ (∀ a, IsLeast {y | ∃ p ∈ spreadPair.particles, y = p a} (-1 : ℝ)) ∧
    ∀ a, IsGreatest {y | ∃ p ∈ spreadPair.particles, y = p a} (3 : ℝ) := by
  refine ⟨by norm_num [spreadPair], fun a => ⟨⟨fun _ => -1, by simp [spreadPair], rfl⟩, ?_⟩, fun a =>
    ⟨⟨fun _ => 3, by simp [spreadPair], rfl⟩, ?_⟩⟩
  · rintro y ⟨p, hp, rfl⟩
    simp only [spreadPair, List.mem_cons, List.not_mem_nil, or_false] at hp
    rcases hp with rfl | rfl <;> norm_num
  · rintro y ⟨p, hp, rfl⟩
    simp only [spreadPair, List.mem_cons, List.not_mem_nil, or_false] at hp
    rcases hp with rfl | rfl <;> norm_num

end Real

end ParticleFilter

end Multicalc
