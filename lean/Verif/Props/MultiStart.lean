import Verif.Props.JacobianInverse

/-!
# Inverse kinematics from several seeds (C99)
-/

namespace Multicalc

open KinematicTree

variable {maxJoints maxConfig maxStarts : ℕ}

section structural

variable {T : Type} [Zero T] [One T] [NatCast T] [Add T] [Sub T] [Mul T] [Div T] [Neg T] [LT T]
  [DecidableLT T] [LE T] [DecidableLE T] [BEq T] [Max T] [Min T] [Fns T]

theorem multi_start_fold (m : MultiStart maxStarts maxConfig T) (t : KinematicTree maxJoints maxConfig T) (toolIndex : ℕ)
    (target : SE3 T) (seeds : List (Fin maxConfig → T)) (r0 r : MultiStartReport maxConfig T)
    (hlen : r0.solutions.length + seeds.length ≤ maxStarts)
    (hpair : r0.solutions.Pairwise fun a b =>
      ¬ t.configurationDistance a.jointPositions b.jointPositions < m.distinctThreshold)
    (h : seeds.foldlM (m.attempt t toolIndex target) r0 = .ok r) :
    ∃ results, List.Forall₂ (fun seed result => m.solver.solve t toolIndex target seed = .ok result) seeds results
      ∧ r.attempts = r0.attempts + seeds.length
      ∧ (∃ kept, r.solutions = r0.solutions ++ kept
        ∧ kept.Sublist (results.filter fun x => decide (x.termination = .converged)))
      ∧ r.solutions.Pairwise (fun a b =>
        ¬ t.configurationDistance a.jointPositions b.jointPositions < m.distinctThreshold)
      ∧ ∀ x ∈ results, x.termination = .converged → x ∈ r.solutions ∨ ∃ y ∈ r.solutions,
        t.configurationDistance y.jointPositions x.jointPositions < m.distinctThreshold := by
  induction seeds generalizing r0 with
  | nil =>
    simp only [List.foldlM_nil, pure, Except.pure, Except.ok.injEq] at h
    subst h
    exact ⟨[], .nil, rfl, ⟨[], by simp, by simp⟩, hpair, by simp⟩
  | cons seed seeds ih =>
    rw [List.foldlM_cons] at h
    cases ha : m.attempt t toolIndex target r0 seed with
    | error e => rw [ha] at h; cases h
    | ok r1 =>
      rw [ha] at h
      simp only [bind, Except.bind] at h
      have h1 : ∃ result, m.solver.solve t toolIndex target seed = .ok result
          ∧ r1 = if result.termination = .converged then
              ({ r0 with attempts := r0.attempts + 1 } : MultiStartReport maxConfig T).insert maxStarts t result
                m.distinctThreshold
            else { r0 with attempts := r0.attempts + 1 } := by
        unfold MultiStart.attempt at ha
        cases hs : m.solver.solve t toolIndex target seed with
        | error e => rw [hs] at ha; cases ha
        | ok result =>
          rw [hs] at ha
          injection ha with ha
          exact ⟨result, rfl, ha.symm⟩
      obtain ⟨result, hs, hr1⟩ := h1
      simp only [List.length_cons] at hlen
      -- what the report looks like after this start
      have h2 : r1.attempts = r0.attempts + 1 ∧ ∃ kept, r1.solutions = r0.solutions ++ kept
          ∧ kept.Sublist (if result.termination = .converged then [result] else [])
          ∧ (result.termination = .converged → result ∈ r1.solutions ∨ ∃ y ∈ r1.solutions,
            t.configurationDistance y.jointPositions result.jointPositions < m.distinctThreshold)
          ∧ r1.solutions.Pairwise (fun a b =>
            ¬ t.configurationDistance a.jointPositions b.jointPositions < m.distinctThreshold) := by
        by_cases hc : result.termination = .converged
        · rw [if_pos hc] at hr1 ⊢
          unfold MultiStartReport.insert at hr1
          dsimp only at hr1
          by_cases hany : (r0.solutions.any fun existing =>
              decide (t.configurationDistance existing.jointPositions result.jointPositions < m.distinctThreshold)) = true
          · rw [if_pos hany] at hr1
            subst hr1
            rw [List.any_eq_true] at hany
            obtain ⟨y, hy, hd⟩ := hany
            exact ⟨rfl, [], by simp, by simp, fun _ => Or.inr ⟨y, hy, of_decide_eq_true hd⟩, hpair⟩
          · rw [if_neg hany, if_pos (by omega)] at hr1
            subst hr1
            refine ⟨rfl, [result], rfl, by simp, fun _ => Or.inl (by simp), ?_⟩
            dsimp only
            rw [List.pairwise_append]
            refine ⟨hpair, by simp, fun a hmem b hb => ?_⟩
            rw [List.mem_singleton] at hb
            subst hb
            intro hd
            exact hany (List.any_eq_true.2 ⟨a, hmem, decide_eq_true hd⟩)
        · rw [if_neg hc] at hr1 ⊢
          subst hr1
          exact ⟨rfl, [], by simp, by simp, fun h => absurd h hc, hpair⟩
      obtain ⟨g1, kept, g2, g3, g4, g5⟩ := h2
      have hk : kept.length ≤ 1 := by
        refine g3.length_le.trans ?_
        split_ifs <;> simp
      obtain ⟨results, f1, f2, ⟨kept', f3, f4⟩, f5, f6⟩ := ih r1 (by rw [g2, List.length_append]; omega) g5 h
      refine ⟨result :: results, .cons hs f1, by rw [f2, g1, List.length_cons]; omega, ⟨kept ++ kept', ?_, ?_⟩, f5, ?_⟩
      · rw [f3, g2, List.append_assoc]
      · rw [List.filter_cons]
        by_cases hc : result.termination = .converged
        · rw [if_pos (by simpa using hc)]
          rw [if_pos hc] at g3
          exact g3.append f4
        · rw [if_neg (by simpa using hc)]
          rw [if_neg hc] at g3
          rw [List.sublist_nil.1 g3]
          exact f4
      · intro x hx hc
        rcases List.mem_cons.1 hx with rfl | hx
        · rcases g4 hc with h | ⟨y, hy, hd⟩
          · exact Or.inl (by rw [f3]; exact List.mem_append_left _ h)
          · exact Or.inr ⟨y, by rw [f3]; exact List.mem_append_left _ hy, hd⟩
        · exact f6 x hx hc

/-- C99. `solve_from_seeds` solves from every seed in turn.  It keeps converged answers only, in the order of their seeds,
no two within the threshold of each other, and every converged answer is kept or within the threshold of one that is.
In any arithmetic. -/
theorem multi_start_report (m : MultiStart maxStarts maxConfig T) (t : KinematicTree maxJoints maxConfig T) (toolIndex : ℕ)
    (target : SE3 T) (seeds : List (Fin maxConfig → T)) (r : MultiStartReport maxConfig T)
    (h : m.solveFromSeeds t toolIndex target seeds = .ok r) :
    r.attempts = seeds.length ∧ seeds.length ≤ maxStarts ∧ r.solutions.length ≤ r.attempts
    ∧ ∃ results, List.Forall₂ (fun seed result => m.solver.solve t toolIndex target seed = .ok result) seeds results
      ∧ r.solutions.Sublist (results.filter fun x => decide (x.termination = .converged))
      ∧ r.solutions.Pairwise (fun a b =>
        ¬ t.configurationDistance a.jointPositions b.jointPositions < m.distinctThreshold)
      ∧ ∀ x ∈ results, x.termination = .converged → x ∈ r.solutions ∨ ∃ y ∈ r.solutions,
        t.configurationDistance y.jointPositions x.jointPositions < m.distinctThreshold := by
  unfold MultiStart.solveFromSeeds at h
  split_ifs at h with hc
  obtain ⟨results, f1, f2, ⟨kept, f3, f4⟩, f5, f6⟩ := multi_start_fold m t toolIndex target seeds ⟨[], 0⟩ r
    (by simpa using hc) (by simp) h
  simp only [List.nil_append] at f3
  subst f3
  refine ⟨by simpa using f2, by omega, ?_, results, f1, f4, f5, f6⟩
  rw [f2, zero_add, f1.length_eq]
  exact f4.length_le.trans (List.length_filter_le _ _)

/-- C99. More seeds than `MAX_STARTS` are refused before any is tried; the first seed `solve` refuses stops the run with
that error. -/
theorem multi_start_refusals (m : MultiStart maxStarts maxConfig T) (t : KinematicTree maxJoints maxConfig T)
    (toolIndex : ℕ) (target : SE3 T) :
    (∀ seeds, maxStarts < seeds.length → m.solveFromSeeds t toolIndex target seeds = .error .startCapacityExceeded)
    ∧ ∀ before seed after e r, (before ++ seed :: after).length ≤ maxStarts →
      m.solveFromSeeds t toolIndex target before = .ok r → m.solver.solve t toolIndex target seed = .error e →
      m.solveFromSeeds t toolIndex target (before ++ seed :: after) = .error e := by
  refine ⟨fun seeds h => if_pos h, fun before seed after e r hlen hb he => ?_⟩
  unfold MultiStart.solveFromSeeds at hb ⊢
  rw [if_neg (by omega)]
  split_ifs at hb
  rw [List.foldlM_append, hb]
  simp only [bind, Except.bind, List.foldlM_cons]
  unfold MultiStart.attempt
  rw [he]

/-- C99. `solve_seeded` is `solve_from_seeds` on `count` seeds, the first of them the base seed itself. -/
theorem solve_seeded_seeds {R : Type} (m : MultiStart maxStarts maxConfig T) (next : R → T × R)
    (t : KinematicTree maxJoints maxConfig T) (toolIndex : ℕ) (target : SE3 T) (base : Fin maxConfig → T) (source : R)
    (count : ℕ) :
    ∃ seeds : List (Fin maxConfig → T), seeds.length = count ∧ (0 < count → seeds.head? = some base)
      ∧ (∀ seed ∈ seeds.tail, ∃ s, seed = (jitteredSeed next t base s m.jitterSpan).1)
      ∧ m.solveSeeded next t toolIndex target base source count = m.solveFromSeeds t toolIndex target seeds := by
  have hseeds : ∀ n (s : R), (m.seeds next t base n s).1.length = n
      ∧ ∀ seed ∈ (m.seeds next t base n s).1, ∃ s, seed = (jitteredSeed next t base s m.jitterSpan).1 := by
    intro n
    induction n with
    | zero => intro s; simp [MultiStart.seeds]
    | succ n ih =>
      intro s
      rw [MultiStart.seeds]
      obtain ⟨h1, h2⟩ := ih (jitteredSeed next t base s m.jitterSpan).2
      refine ⟨by simp [h1], fun seed hs => ?_⟩
      rcases List.mem_cons.1 hs with rfl | hs
      · exact ⟨s, rfl⟩
      · exact h2 seed hs
  unfold MultiStart.solveSeeded MultiStart.solveFromSeeds
  rcases Nat.eq_zero_or_pos count with rfl | hpos
  · exact ⟨[], rfl, by simp, by simp, by simp⟩
  · obtain ⟨h1, h2⟩ := hseeds (count - 1) source
    refine ⟨base :: (m.seeds next t base (count - 1) source).1, by simp [h1]; omega, by simp, h2, ?_⟩
    rw [List.length_cons, h1, Nat.sub_add_cancel hpos, if_neg (show ¬ count = 0 by omega)]

end structural

theorem fold_closest {A T : Type} [LinearOrder T] (D : A → T) (f : Option (A × T) → A → Option (A × T))
    (h0 : ∀ z, f none z = some (z, D z)) (h1 : ∀ x z, f (some (x, D x)) z = if D z < D x then some (z, D z) else some (x, D x))
    (l : List A) : (l = [] ∧ l.foldl f none = none) ∨
      ∃ before x after, l = before ++ x :: after ∧ l.foldl f none = some (x, D x)
        ∧ (∀ y ∈ before, D x < D y) ∧ ∀ y ∈ after, D x ≤ D y := by
  induction l using List.reverseRecOn with
  | nil => exact Or.inl ⟨rfl, rfl⟩
  | append_singleton l z ih =>
    right
    rw [List.foldl_append, List.foldl_cons, List.foldl_nil]
    rcases ih with ⟨rfl, h⟩ | ⟨before, x, after, g1, g2, g3, g4⟩
    · rw [h, h0]
      exact ⟨[], z, [], rfl, rfl, by simp, by simp⟩
    · rw [g2, h1]
      by_cases hz : D z < D x
      · rw [if_pos hz]
        refine ⟨l, z, [], by simp, rfl, fun y hy => ?_, by simp⟩
        rw [g1] at hy
        rcases List.mem_append.1 hy with hy | hy
        · exact hz.trans (g3 y hy)
        · rcases List.mem_cons.1 hy with rfl | hy
          · exact hz
          · exact hz.trans_le (g4 y hy)
      · rw [if_neg hz]
        refine ⟨before, x, after ++ [z], by rw [g1]; simp, rfl, g3, fun y hy => ?_⟩
        rcases List.mem_append.1 hy with hy | hy
        · exact g4 y hy
        · rw [List.mem_singleton] at hy
          subst hy
          exact not_lt.1 hz

/-- C99. `closest_to` gives the kept solution nearest the reference, the first of them if several are equally near, and
nothing only when nothing was kept.  In any arithmetic with a linear order. -/
theorem closest_to_least {T : Type} [LinearOrder T] [Zero T] [One T] [NatCast T] [Add T] [Sub T] [Mul T] [Div T] [Neg T]
    [BEq T] [Fns T] (r : MultiStartReport maxConfig T) (t : KinematicTree maxJoints maxConfig T)
    (reference : Fin maxConfig → T) :
    (r.closestTo t reference = none ↔ r.solutions = [])
    ∧ ∀ x, r.closestTo t reference = some x → ∃ before after, r.solutions = before ++ x :: after
      ∧ (∀ y ∈ before, t.configurationDistance x.jointPositions reference < t.configurationDistance y.jointPositions reference)
      ∧ ∀ y ∈ after, t.configurationDistance x.jointPositions reference ≤ t.configurationDistance y.jointPositions reference := by
  unfold MultiStartReport.closestTo
  generalize hf : (fun (best : Option (IkReport maxConfig T × T)) (solution : IkReport maxConfig T) => _) = f
  rcases fold_closest (fun x : IkReport maxConfig T => t.configurationDistance x.jointPositions reference) f
    (fun z => by rw [← hf]) (fun x z => by rw [← hf]) r.solutions with ⟨h0, h⟩ | ⟨before, x, after, h1, h2, h3, h4⟩
  · rw [h]; simp [h0]
  · rw [h2]
    refine ⟨by simp [h1], fun y hy => ?_⟩
    simp only [Option.map_some, Option.some.injEq] at hy
    subst hy
    exact ⟨before, after, h1, h3, h4⟩

/-- C99. A jittered seed draws each joint with limits inside them, each unlimited one within `jitter_span` of the base
seed, and leaves fixed and floating joints as they were, for any source with draws in `[0, 1]`. -/
theorem jittered_seed_range {R : Type} {t : KinematicTree maxJoints maxConfig ℝ} (hb : Built t) (next : R → ℝ × R)
    (hnext : ∀ s, 0 ≤ (next s).1 ∧ (next s).1 ≤ 1) (base : Fin maxConfig → ℝ) (source : R) (span : ℝ) :
    (∀ i j o, t.joint i = some j → t.configOffset i = some o → j.kind ≠ .fixed → j.kind ≠ .floating →
      ∃ h : o < maxConfig,
        match j.limits with
        | some (lower, upper) => lower ≤ (jitteredSeed next t base source span).1 ⟨o, h⟩
          ∧ (jitteredSeed next t base source span).1 ⟨o, h⟩ ≤ upper
        | none => |(jitteredSeed next t base source span).1 ⟨o, h⟩ - base ⟨o, h⟩| ≤ |span|)
    ∧ ∀ k : Fin maxConfig, (∀ i j, t.joint i = some j → t.configOffset i = some k.val →
        j.kind = .fixed ∨ j.kind = .floating) → (jitteredSeed next t base source span).1 k = base k := by
  have hfit : ∀ i j o, t.joint i = some j → t.configOffset i = some o → o < maxConfig := by
    intro i j o hj ho
    obtain ⟨-, h2, -, -, h5, -⟩ := offsets_partition hb
    have := h2 i j o hj ho
    split_ifs at this <;> omega
  unfold jitteredSeed
  suffices key : ∀ n ≤ t.len, (∀ i < n, ∀ j o, t.joint i = some j → t.configOffset i = some o → j.kind ≠ .fixed →
      j.kind ≠ .floating → ∃ h : o < maxConfig,
        match j.limits with
        | some (lower, upper) => lower ≤ ((List.range n).foldl _ (base, source)).1 ⟨o, h⟩
          ∧ ((List.range n).foldl _ (base, source)).1 ⟨o, h⟩ ≤ upper
        | none => |((List.range n).foldl _ (base, source)).1 ⟨o, h⟩ - base ⟨o, h⟩| ≤ |span|)
      ∧ ∀ k : Fin maxConfig, (∀ i j, t.joint i = some j → t.configOffset i = some k.val →
        j.kind = .fixed ∨ j.kind = .floating) → ((List.range n).foldl _ (base, source)).1 k = base k by
    obtain ⟨h1, h2⟩ := key t.len le_rfl
    exact ⟨fun i j o hj => h1 i (joint_some_lt hj) j o hj, h2⟩
  intro n
  induction n with
  | zero => intro _; exact ⟨fun i hi => by omega, fun k _ => rfl⟩
  | succ n ih =>
    intro hn
    obtain ⟨ih1, ih2⟩ := ih (by omega)
    rw [List.range_succ, List.foldl_append, List.foldl_cons, List.foldl_nil]
    generalize (List.range n).foldl _ (base, source) = d at ih1 ih2 ⊢
    obtain ⟨jn, hjn⟩ := joint_exists (show n < t.len by omega)
    obtain ⟨on, hon⟩ : ∃ on, t.configOffset n = some on := ⟨_, configOffset_some.2 ⟨by omega, rfl⟩⟩
    rw [hjn, hon]
    dsimp only
    by_cases hk : jn.kind = .fixed ∨ jn.kind = .floating
    · rw [if_pos hk]
      refine ⟨fun i hi j o hj ho hf hfl => ?_, ih2⟩
      by_cases hin : i = n
      · subst hin
        rw [hjn] at hj
        cases hj
        rcases hk with h | h
        · exact absurd h hf
        · exact absurd h hfl
      · exact ih1 i (by omega) j o hj ho hf hfl
    · rw [if_neg hk, reading, dif_pos (hfit n jn on hjn hon)]
      dsimp only
      constructor
      · intro i hi j o hj ho hf hfl
        have hlt := hfit i j o hj ho
        by_cases hin : i = n
        · subst hin
          rw [hjn] at hj
          cases hj
          rw [hon] at ho
          cases ho
          refine ⟨hlt, ?_⟩
          obtain ⟨d0, d1⟩ := hnext d.2
          cases hl : jn.limits with
          | none =>
            dsimp only [writeAt]
            rw [if_pos rfl, add_sub_cancel_left, abs_mul]
            have : |(next d.2).1 * ((2 : ℕ) : ℝ) - 1| ≤ 1 := by
              rw [abs_le]; push_cast; constructor <;> linarith
            exact mul_le_of_le_one_left (abs_nonneg _) this
          | some lu =>
            have hlu := built_limits hb hjn (lower := lu.1) (upper := lu.2) hl
            dsimp only [writeAt]
            rw [if_pos rfl]
            constructor
            · have := mul_nonneg d0 (sub_nonneg.2 hlu)
              linarith
            · have := mul_le_of_le_one_left (sub_nonneg.2 hlu) d1
              linarith
        · obtain ⟨_, h⟩ := ih1 i (by omega) j o hj ho hf hfl
          refine ⟨hlt, ?_⟩
          have hne : ¬ o = on := fun e => hin (configOffset_injective ho (by rw [hon, ← e]))
          simp only [writeAt, if_neg hne]
          exact h
      · intro k hk'
        have hne : ¬ k.val = on := fun e => hk (hk' n jn hjn (by rw [hon, ← e]))
        simp only [writeAt, if_neg hne]
        exact ih2 k hk'

/-- The two-link arm from two seeds: used by the examples below. -/
theorem multi_start_example : ∃ (t : KinematicTree 2 2 ℝ) (r : MultiStartReport 2 ℝ), Built t
    ∧ (⟨.new, 1 / 1000, Real.pi⟩ : MultiStart 4 2 ℝ).solveFromSeeds t 1 SE3.identity [fun _ => 0, fun _ => 1] = .ok r := by
  obtain ⟨t, hb, hl, -, ⟨j, hj, hk⟩, -⟩ := arm_exists
  have hf : t.hasFloatingBase = false := by
    by_contra h
    obtain ⟨j', hj', hk'⟩ := (hasFloatingBase_iff t).1 (by simpa using h)
    rw [hj] at hj'; cases hj'
    rw [hk] at hk'; cases hk'
  have hsolve := fun seed => ik_total hb hf InverseKinematics.new (fun _ => by simp [InverseKinematics.new]) 1 (by omega)
    SE3.identity seed
  obtain ⟨r0, h0⟩ := hsolve fun _ => 0
  obtain ⟨r1, h1⟩ := hsolve fun _ => 1
  refine ⟨t, ?_⟩
  refine exists_and_left.2 ⟨hb, ?_⟩
  unfold MultiStart.solveFromSeeds
  rw [if_neg (by simp)]
  simp only [List.foldlM_cons, List.foldlM_nil, MultiStart.attempt, h0, h1, bind, Except.bind, pure, Except.pure]
  exact ⟨_, rfl⟩

example : ∃ (t : KinematicTree 2 2 ℝ) (r : MultiStartReport 2 ℝ), (⟨.new, 1 / 1000, Real.pi⟩ : MultiStart 4 2 ℝ).solveFromSeeds
    t 1 SE3.identity [fun _ => 0, fun _ => 1] = .ok r ∧ r.attempts = 2 := by
  obtain ⟨t, r, -, h⟩ := multi_start_example
  exact ⟨t, r, h, (multi_start_report _ t 1 _ _ r h).1⟩

example : ∃ t : KinematicTree 2 2 ℝ, Built t ∧ t.len = 2 ∧ ∀ s : Unit, 0 ≤ ((fun s : Unit => ((1 / 2 : ℝ), s)) s).1
    ∧ ((fun s : Unit => ((1 / 2 : ℝ), s)) s).1 ≤ 1 := by
  obtain ⟨t, hb, hl, -⟩ := arm_exists
  exact ⟨t, hb, hl, fun _ => by norm_num⟩

end Multicalc
