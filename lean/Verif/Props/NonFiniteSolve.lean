import Verif.Props.LinearAlgebra
import Verif.Model.XR

/-!
# Entries that are not finite in linear systems (C126)

The factorisations take any matrix, NaN and infinities included.  Here: nothing that is not a number gets
lost on the way.  The laws about NaN hold in every arithmetic in which NaN is absorbing — rounding and
overflow included — and the laws about infinities in `XR`.
-/

namespace Multicalc

variable {T : Type} {n : ℕ}

/-- Arithmetic in which NaN is absorbing, as IEEE 754 prescribes. -/
structure NanSticks (T : Type) [Add T] [Sub T] [Mul T] [Div T] [Neg T] [Fns T] : Prop where
  add_left : ∀ a b : T, Fns.isNan a = true → Fns.isNan (a + b) = true
  add_right : ∀ a b : T, Fns.isNan b = true → Fns.isNan (a + b) = true
  sub_left : ∀ a b : T, Fns.isNan a = true → Fns.isNan (a - b) = true
  sub_right : ∀ a b : T, Fns.isNan b = true → Fns.isNan (a - b) = true
  mul_left : ∀ a b : T, Fns.isNan a = true → Fns.isNan (a * b) = true
  mul_right : ∀ a b : T, Fns.isNan b = true → Fns.isNan (a * b) = true
  div_left : ∀ a b : T, Fns.isNan a = true → Fns.isNan (a / b) = true
  div_right : ∀ a b : T, Fns.isNan b = true → Fns.isNan (a / b) = true
  sqrt : ∀ a : T, Fns.isNan a = true → Fns.isNan (Fns.sqrt a) = true

theorem XR.isNan_iff (a : XR) : Fns.isNan a = true ↔ a = .nan := by
  cases a <;> simp [Fns.isNan]

theorem nanSticks_xr : NanSticks XR where
  add_left a b h := by rw [XR.isNan_iff] at *; subst h; exact XR.nan_add b
  add_right a b h := by rw [XR.isNan_iff] at *; subst h; exact XR.add_nan a
  sub_left a b h := by rw [XR.isNan_iff] at *; subst h; exact XR.nan_sub b
  sub_right a b h := by rw [XR.isNan_iff] at *; subst h; exact XR.sub_nan a
  mul_left a b h := by rw [XR.isNan_iff] at *; subst h; exact XR.nan_mul b
  mul_right a b h := by rw [XR.isNan_iff] at *; subst h; exact XR.mul_nan a
  div_left a b h := by rw [XR.isNan_iff] at *; subst h; exact XR.nan_div b
  div_right a b h := by rw [XR.isNan_iff] at *; subst h; exact XR.div_nan a
  sqrt a h := by rw [XR.isNan_iff] at *; subst h; rfl

section substitution
variable [Add T] [Sub T] [Mul T] [Div T] [Neg T] [Fns T]

theorem fold_sub_start (hT : NanSticks T) (l : List (Fin n)) (c x : Fin n → T) (s : T) (hs : Fns.isNan s = true) :
    Fns.isNan (l.foldl (fun sum j => sum - c j * x j) s) = true := by
  induction l generalizing s with
  | nil => exact hs
  | cons a l ih => exact ih _ (hT.sub_left _ _ hs)

theorem fold_sub_coeff (hT : NanSticks T) (l : List (Fin n)) (c x : Fin n → T) (s : T) (j : Fin n) (hj : j ∈ l)
    (hc : Fns.isNan (c j) = true) : Fns.isNan (l.foldl (fun sum j => sum - c j * x j) s) = true := by
  induction l generalizing s with
  | nil => cases hj
  | cons a l ih =>
    rcases List.mem_cons.1 hj with rfl | hj
    · exact fold_sub_start hT l c x _ (hT.sub_right _ _ (hT.mul_left _ _ hc))
    · exact ih _ hj

/-- A position that every write makes NaN is NaN once it has been written. -/
theorem substitute_nan (coeff : Fin n → Fin n → T) (used : Fin n → Fin n → Bool) (finish : Fin n → T → T) (i : Fin n)
    (h : ∀ x : Fin n → T, Fns.isNan (substituteStep (coeff i) (used i) (finish i) x i i) = true) (l : List (Fin n))
    (hi : i ∈ l) (x : Fin n → T) :
    Fns.isNan (l.foldl (fun x i => substituteStep (coeff i) (used i) (finish i) x i) x i) = true := by
  induction l using List.reverseRecOn generalizing x with
  | nil => cases hi
  | append_singleton l a ih =>
    rw [List.foldl_append, List.foldl_cons, List.foldl_nil]
    by_cases ha : a = i
    · subst ha; exact h _
    · have hil : i ∈ l := by
        rcases List.mem_append.1 hi with h | h
        · exact h
        · exact absurd (List.mem_singleton.1 h).symm ha
      rw [substituteStep, Function.update_of_ne (Ne.symm ha)]
      exact ih hil x

/-- A position that holds NaN keeps it. -/
theorem substitute_keeps (hT : NanSticks T) (coeff : Fin n → Fin n → T) (used : Fin n → Fin n → Bool)
    (finish : Fin n → T → T) (hf : ∀ i s, Fns.isNan s = true → Fns.isNan (finish i s) = true) (i : Fin n)
    (l : List (Fin n)) (x : Fin n → T) (hx : Fns.isNan (x i) = true) :
    Fns.isNan (l.foldl (fun x i => substituteStep (coeff i) (used i) (finish i) x i) x i) = true := by
  induction l generalizing x with
  | nil => exact hx
  | cons a l ih =>
    refine ih _ ?_
    by_cases ha : a = i
    · subst ha
      simp only [substituteStep, Function.update_self]
      exact hf _ _ (fold_sub_start hT _ _ _ _ hx)
    · simp only [substituteStep, Function.update_of_ne (Ne.symm ha)]
      exact hx

theorem substituteStep_coeff_nan (hT : NanSticks T) (coeff : Fin n → T) (used : Fin n → Bool) (finish : T → T)
    (hf : ∀ s, Fns.isNan s = true → Fns.isNan (finish s) = true) (x : Fin n → T) (i j : Fin n) (hu : used j = true)
    (hc : Fns.isNan (coeff j) = true) : Fns.isNan (substituteStep coeff used finish x i i) = true := by
  rw [substituteStep, Function.update_self]
  exact hf _ (fold_sub_coeff hT _ _ _ _ j (List.mem_filter.2 ⟨List.mem_finRange j, hu⟩) hc)

theorem LuState.solve_nan_coeff (hT : NanSticks T) (f : LuState n T) (i j : Fin n) (h : Fns.isNan (f.a i j) = true)
    (b : Fin n → T) : Fns.isNan (f.solve b i) = true := by
  unfold LuState.solve
  have hback : ∀ (i : Fin n) (s : T), Fns.isNan s = true → Fns.isNan (s / f.a i i) = true :=
    fun i s hs => hT.div_left _ _ hs
  rcases lt_trichotomy j i with hj | rfl | hj
  · refine substitute_keeps hT (fun i j => f.a i j) (fun i j => decide (i < j)) (fun i s => s / f.a i i) hback i _ _ ?_
    exact substitute_nan (fun i j => f.a i j) (fun i j => decide (j < i)) (fun _ s => s) i
      (fun x => substituteStep_coeff_nan hT _ _ _ (fun s hs => hs) x i j (by simpa using hj) h) _ (List.mem_finRange i) _
  · refine substitute_nan (fun i j => f.a i j) (fun i j => decide (i < j)) (fun i s => s / f.a i i) j (fun x => ?_) _
      (List.mem_reverse.2 (List.mem_finRange j)) _
    rw [substituteStep, Function.update_self]
    exact hT.div_right _ _ h
  · exact substitute_nan (fun i j => f.a i j) (fun i j => decide (i < j)) (fun i s => s / f.a i i) i
      (fun x => substituteStep_coeff_nan hT _ _ _ (fun s hs => hT.div_left _ _ hs) x i j (by simpa using hj) h) _
      (List.mem_reverse.2 (List.mem_finRange i)) _

theorem LuState.solve_nan_rhs (hT : NanSticks T) (f : LuState n T) (b : Fin n → T) (i : Fin n)
    (h : Fns.isNan (b (f.perm i)) = true) : Fns.isNan (f.solve b i) = true := by
  unfold LuState.solve
  refine substitute_keeps hT (fun i j => f.a i j) (fun i j => decide (i < j)) (fun i s => s / f.a i i)
    (fun i s hs => hT.div_left _ _ hs) i _ _ ?_
  exact substitute_keeps hT (fun i j => f.a i j) (fun i j => decide (j < i)) (fun _ s => s) (fun _ s hs => hs) i _ _ h

theorem choleskySolve_nan_coeff (hT : NanSticks T) (lower : Matrix (Fin n) (Fin n) T) (i j : Fin n) (hj : j ≤ i)
    (h : Fns.isNan (lower i j) = true) (b : Fin n → T) : Fns.isNan (choleskySolve lower b i) = true := by
  unfold choleskySolve
  refine substitute_keeps hT (fun i j => lower j i) (fun i j => decide (i < j)) (fun i s => s / lower i i)
    (fun i s hs => hT.div_left _ _ hs) i _ _ ?_
  refine substitute_nan (fun i j => lower i j) (fun i j => decide (j < i)) (fun i s => s / lower i i) i (fun x => ?_) _
    (List.mem_finRange i) _
  rcases hj.lt_or_eq with hj | rfl
  · exact substituteStep_coeff_nan hT _ _ _ (fun s hs => hT.div_left _ _ hs) x i j (by simpa using hj) h
  · rw [substituteStep, Function.update_self]
    exact hT.div_right _ _ h

theorem choleskySolve_nan_rhs (hT : NanSticks T) (lower : Matrix (Fin n) (Fin n) T) (b : Fin n → T) (i : Fin n)
    (h : Fns.isNan (b i) = true) : Fns.isNan (choleskySolve lower b i) = true := by
  unfold choleskySolve
  refine substitute_keeps hT (fun i j => lower j i) (fun i j => decide (i < j)) (fun i s => s / lower i i)
    (fun i s hs => hT.div_left _ _ hs) i _ _ ?_
  exact substitute_keeps hT (fun i j => lower i j) (fun i j => decide (j < i)) (fun i s => s / lower i i)
    (fun i s hs => hT.div_left _ _ hs) i _ _ h

end substitution

/-! ### LU -/

section lu
variable [Zero T] [One T] [Add T] [Sub T] [Mul T] [Div T] [Neg T] [LT T] [DecidableLT T] [LE T]
  [DecidableLE T] [BEq T] [Max T] [Min T] [Fns T]

theorem eliminate_nan (hT : NanSticks T) (a : Matrix (Fin n) (Fin n) T) (k i j : Fin n) (h : Fns.isNan (a i j) = true) :
    Fns.isNan (eliminate a k i j) = true := by
  unfold eliminate
  dsimp only
  split_ifs with h1 h2 h3
  · subst h2; exact hT.div_left _ _ h
  · exact hT.sub_left _ _ h
  · exact h
  · exact h

theorem luStep_nan (hT : NanSticks T) {s s' : LuState n T} {k : Fin n} (hs : luStep s k = .ok s') :
    ((∃ i j, Fns.isNan (s.a i j) = true) → ∃ i j, Fns.isNan (s'.a i j) = true) ∧
    (Function.Surjective s.perm → Function.Surjective s'.perm) := by
  unfold luStep at hs
  dsimp only at hs
  split_ifs at hs with h1 h2
  · cases hs
    exact ⟨fun ⟨i, j, h⟩ => ⟨i, j, eliminate_nan hT _ _ _ _ h⟩, fun h => h⟩
  · cases hs
    refine ⟨fun ⟨i, j, h⟩ => ⟨Equiv.swap k (pivotSearch s.a k).2 i, j, eliminate_nan hT _ _ _ _ ?_⟩, fun h => ?_⟩
    · simpa using h
    · exact h.comp (Equiv.swap k (pivotSearch s.a k).2).surjective

theorem luLoop_nan (hT : NanSticks T) (l : List (Fin n)) (s s' : LuState n T) (hs : luLoop l s = .ok s') :
    ((∃ i j, Fns.isNan (s.a i j) = true) → ∃ i j, Fns.isNan (s'.a i j) = true) ∧
    (Function.Surjective s.perm → Function.Surjective s'.perm) := by
  induction l generalizing s with
  | nil => cases hs; exact ⟨id, id⟩
  | cons k l ih =>
    rw [luLoop] at hs
    split at hs
    · cases hs
    next s1 h1 =>
      have a := luStep_nan hT h1
      have b := ih s1 hs
      exact ⟨b.1 ∘ a.1, b.2 ∘ a.2⟩

theorem luDecompose_nan (hT : NanSticks T) {largest : T} {m : Matrix (Fin n) (Fin n) T} {f : LuState n T}
    (h : luDecompose largest m = .ok f) :
    ((∃ i j, Fns.isNan (m i j) = true) → ∃ i j, Fns.isNan (f.a i j) = true) ∧ Function.Surjective f.perm := by
  unfold luDecompose at h
  split at h
  · cases h
  next s hs =>
    split_ifs at h
    cases h
    have := luLoop_nan hT _ _ _ hs
    exact ⟨this.1, this.2 Function.surjective_id⟩

/-- C126. A NaN never gets lost in `Matrix::solve` and its parts: if any entry of the matrix is NaN and the
factorisation is nevertheless handed back, then some component is NaN in the solution for every right-hand
side, and so in every column of the inverse; and a NaN in the right-hand side leaves one in the solution.
So a solution free of NaN vouches for its inputs.  True in every arithmetic in which NaN is absorbing,
whatever the rounding. -/
theorem solve_keeps_nan (hT : NanSticks T) (largest : T) (m : Matrix (Fin n) (Fin n) T) (f : LuState n T)
    (h : luDecompose largest m = .ok f) :
    ((∃ i j, Fns.isNan (m i j) = true) →
      (∃ i, ∀ b, Fns.isNan (f.solve b i) = true) ∧ ∃ i, ∀ j, Fns.isNan (f.inverse i j) = true) ∧
    (∀ b, (∃ i, Fns.isNan (b i) = true) → ∃ i, Fns.isNan (f.solve b i) = true) ∧
    ∀ b x, msolve largest m b = .ok x → (∀ i, Fns.isNan (x i) = false) →
      (∀ i j, Fns.isNan (m i j) = false) ∧ ∀ i, Fns.isNan (b i) = false := by
  obtain ⟨h1, h2⟩ := luDecompose_nan hT h
  have key : (∃ i j, Fns.isNan (m i j) = true) → ∃ i, ∀ b, Fns.isNan (f.solve b i) = true := by
    intro hm
    obtain ⟨i, j, hij⟩ := h1 hm
    exact ⟨i, fun b => f.solve_nan_coeff hT i j hij b⟩
  have key2 : ∀ b, (∃ i, Fns.isNan (b i) = true) → ∃ i, Fns.isNan (f.solve b i) = true := by
    rintro b ⟨r, hr⟩
    obtain ⟨i, rfl⟩ := h2 r
    exact ⟨i, f.solve_nan_rhs hT b i hr⟩
  refine ⟨fun hm => ⟨key hm, ?_⟩, key2, fun b x hx hn => ?_⟩
  · obtain ⟨i, hi⟩ := key hm
    exact ⟨i, fun j => hi fun row => midentity n row j⟩
  · unfold msolve at hx
    rw [h] at hx
    cases hx
    constructor
    · intro i j
      by_contra hne
      obtain ⟨i', hi'⟩ := key ⟨i, j, by simpa using hne⟩
      have := hn i'
      rw [hi' b] at this
      cases this
    · intro i
      by_contra hne
      obtain ⟨i', hi'⟩ := key2 b ⟨i, by simpa using hne⟩
      have := hn i'
      rw [hi'] at this
      cases this

end lu

/-! ### Cholesky -/

section chol
variable [Zero T] [Add T] [Sub T] [Mul T] [Div T] [Neg T] [LE T] [DecidableLE T] [Fns T]

theorem choleskyLoop_nan (hT : NanSticks T) (a : Matrix (Fin n) (Fin n) T) (l : List (Fin n))
    (lower lower' : Matrix (Fin n) (Fin n) T) (h : choleskyLoop a l lower = .ok lower') (i j : Fin n) (hji : j ≤ i)
    (hn : Fns.isNan (a i j) = true) (hl : j ∈ l ∨ Fns.isNan (lower i j) = true) : Fns.isNan (lower' i j) = true := by
  induction l generalizing lower with
  | nil =>
    cases h
    rcases hl with hl | hl
    · cases hl
    · exact hl
  | cons k l ih =>
    rw [choleskyLoop] at h
    split at h
    · cases h
    next l1 h1 =>
      unfold choleskyStep at h1
      dsimp only at h1
      split_ifs at h1 with h2
      cases h1
      refine ih _ h ?_
      by_cases hk : j = k
      · subst hk
        right
        rw [if_pos rfl]
        have hres : Fns.isNan (choleskyResidual a lower i j) = true := by
          unfold choleskyResidual
          exact fold_sub_start hT _ (fun k => lower i k) (fun k => lower j k) _ hn
        split_ifs with e1 e2
        · subst e1; exact hT.sqrt _ hres
        · exact hT.div_left _ _ hres
        · exact absurd (lt_of_le_of_ne hji (Ne.symm e1)) e2
      · rcases hl with hl | hl
        · rcases List.mem_cons.1 hl with hl | hl
          · exact absurd hl hk
          · exact Or.inl hl
        · right
          rw [if_neg hk]
          exact hl

/-- C126. Nor does a NaN get lost in `Matrix::cholesky`: a NaN in the triangle that is read stays at its
place in the factor, and it, or a NaN in the right-hand side, leaves a NaN in every solution. -/
theorem cholesky_keeps_nan (hT : NanSticks T) (m lower : Matrix (Fin n) (Fin n) T) (h : cholesky m = .ok lower) :
    (∀ i j, j ≤ i → Fns.isNan (m i j) = true →
      Fns.isNan (lower i j) = true ∧ ∀ b, Fns.isNan (choleskySolve lower b i) = true) ∧
    ∀ b i, Fns.isNan (b i) = true → Fns.isNan (choleskySolve lower b i) = true := by
  refine ⟨fun i j hji hn => ?_, fun b i hb => choleskySolve_nan_rhs hT lower b i hb⟩
  have := choleskyLoop_nan hT m _ _ _ h i j hji hn (Or.inl (List.mem_finRange j))
  exact ⟨this, fun b => choleskySolve_nan_coeff hT lower i j hji this b⟩

end chol

/-! ### Closed-form inverses -/

section closed
variable [Zero T] [One T] [NatCast T] [Add T] [Sub T] [Mul T] [Div T] [Neg T] [LT T]
    [DecidableLT T] [LE T] [DecidableLE T] [BEq T] [Max T] [Min T] [Fns T]

theorem determinant2_nan (hT : NanSticks T) (m : Matrix (Fin 2) (Fin 2) T) (h : ∃ i j, Fns.isNan (m i j) = true) :
    Fns.isNan (determinant2 m) = true := by
  obtain ⟨i, j, h⟩ := h
  unfold determinant2
  fin_cases i <;> fin_cases j
  · exact hT.sub_left _ _ (hT.mul_left _ _ h)
  · exact hT.sub_right _ _ (hT.mul_left _ _ h)
  · exact hT.sub_right _ _ (hT.mul_right _ _ h)
  · exact hT.sub_left _ _ (hT.mul_right _ _ h)

theorem determinant3_nan (hT : NanSticks T) (m : Matrix (Fin 3) (Fin 3) T) (h : ∃ i j, Fns.isNan (m i j) = true) :
    Fns.isNan (determinant3 m) = true := by
  obtain ⟨i, j, h⟩ := h
  unfold determinant3
  fin_cases i <;> fin_cases j
  · exact hT.add_left _ _ (hT.sub_left _ _ (hT.mul_left _ _ h))
  · exact hT.add_left _ _ (hT.sub_right _ _ (hT.mul_left _ _ h))
  · exact hT.add_right _ _ (hT.mul_left _ _ h)
  · exact hT.add_right _ _ (hT.mul_right _ _ (hT.sub_left _ _ (hT.mul_left _ _ h)))
  · exact hT.add_right _ _ (hT.mul_right _ _ (hT.sub_right _ _ (hT.mul_left _ _ h)))
  · exact hT.add_left _ _ (hT.sub_right _ _ (hT.mul_right _ _ (hT.sub_right _ _ (hT.mul_left _ _ h))))
  · exact hT.add_right _ _ (hT.mul_right _ _ (hT.sub_right _ _ (hT.mul_right _ _ h)))
  · exact hT.add_right _ _ (hT.mul_right _ _ (hT.sub_left _ _ (hT.mul_right _ _ h)))
  · exact hT.add_left _ _ (hT.sub_left _ _ (hT.mul_right _ _ (hT.sub_left _ _ (hT.mul_right _ _ h))))

theorem determinant4_nan (hT : NanSticks T) (m : Matrix (Fin 4) (Fin 4) T) (h : ∃ i j, Fns.isNan (m i j) = true) :
    Fns.isNan (determinant4 m) = true := by
  have t0 : ∀ k, k = 0 ∨ k = 5 → Fns.isNan ((rowPairMinors m).1 k) = true → Fns.isNan (determinant4 m) = true := by
    rintro k (rfl | rfl) h
    · exact hT.add_left _ _ (hT.sub_left _ _ (hT.add_left _ _ (hT.add_left _ _ (hT.sub_left _ _ (hT.mul_left _ _ h)))))
    · exact hT.add_right _ _ (hT.mul_left _ _ h)
  have b0 : ∀ k, k = 0 ∨ k = 5 → Fns.isNan ((rowPairMinors m).2 k) = true → Fns.isNan (determinant4 m) = true := by
    rintro k (rfl | rfl) h
    · exact hT.add_right _ _ (hT.mul_right _ _ h)
    · exact hT.add_left _ _ (hT.sub_left _ _ (hT.add_left _ _ (hT.add_left _ _ (hT.sub_left _ _ (hT.mul_right _ _ h)))))
  have two : ∀ a b c d : T, (Fns.isNan a = true ∨ Fns.isNan b = true ∨ Fns.isNan c = true ∨ Fns.isNan d = true) →
      Fns.isNan (a * b - c * d) = true := by
    rintro a b c d (h | h | h | h)
    · exact hT.sub_left _ _ (hT.mul_left _ _ h)
    · exact hT.sub_left _ _ (hT.mul_right _ _ h)
    · exact hT.sub_right _ _ (hT.mul_left _ _ h)
    · exact hT.sub_right _ _ (hT.mul_right _ _ h)
  obtain ⟨i, j, h⟩ := h
  fin_cases i <;> fin_cases j
  · exact t0 0 (Or.inl rfl) (two _ _ _ _ (Or.inl h))
  · exact t0 0 (Or.inl rfl) (two _ _ _ _ (Or.inr (Or.inr (Or.inl h))))
  · exact t0 5 (Or.inr rfl) (two _ _ _ _ (Or.inl h))
  · exact t0 5 (Or.inr rfl) (two _ _ _ _ (Or.inr (Or.inr (Or.inl h))))
  · exact t0 0 (Or.inl rfl) (two _ _ _ _ (Or.inr (Or.inr (Or.inr h))))
  · exact t0 0 (Or.inl rfl) (two _ _ _ _ (Or.inr (Or.inl h)))
  · exact t0 5 (Or.inr rfl) (two _ _ _ _ (Or.inr (Or.inr (Or.inr h))))
  · exact t0 5 (Or.inr rfl) (two _ _ _ _ (Or.inr (Or.inl h)))
  · exact b0 0 (Or.inl rfl) (two _ _ _ _ (Or.inl h))
  · exact b0 0 (Or.inl rfl) (two _ _ _ _ (Or.inr (Or.inr (Or.inl h))))
  · exact b0 5 (Or.inr rfl) (two _ _ _ _ (Or.inl h))
  · exact b0 5 (Or.inr rfl) (two _ _ _ _ (Or.inr (Or.inr (Or.inl h))))
  · exact b0 0 (Or.inl rfl) (two _ _ _ _ (Or.inr (Or.inr (Or.inr h))))
  · exact b0 0 (Or.inl rfl) (two _ _ _ _ (Or.inr (Or.inl h)))
  · exact b0 5 (Or.inr rfl) (two _ _ _ _ (Or.inr (Or.inr (Or.inr h))))
  · exact b0 5 (Or.inr rfl) (two _ _ _ _ (Or.inr (Or.inl h)))

/-- C126. At every size, an inverse handed back for a matrix with a NaN in it has a row of NaN; up to four
rows the determinant of such a matrix is NaN. -/
theorem inverse_keeps_nan (hT : NanSticks T) (largest : T) (m r : Matrix (Fin n) (Fin n) T)
    (hm : ∃ i j, Fns.isNan (m i j) = true) :
    (minverse largest m = .ok r → ∃ i, ∀ j, Fns.isNan (r i j) = true) ∧
    (n ≤ 4 → Fns.isNan (mdeterminant largest m) = true) := by
  have one : ∀ a b : T, Fns.isNan a = true → Fns.isNan (b * (1 / a)) = true :=
    fun a b h => hT.mul_right _ _ (hT.div_right _ _ h)
  match n, m, r, hm with
  | 0, m, r, ⟨i, _⟩ => exact i.elim0
  | 1, m, r, ⟨i, j, h⟩ =>
    have h : Fns.isNan (m 0 0) = true := by rwa [Subsingleton.elim i 0, Subsingleton.elim j 0] at h
    refine ⟨fun hr => ?_, fun _ => h⟩
    simp only [minverse, inverse1] at hr
    split_ifs at hr
    cases hr
    exact ⟨0, fun _ => hT.div_right _ _ h⟩
  | 2, m, r, hm =>
    have hd := determinant2_nan hT m hm
    refine ⟨fun hr => ?_, fun _ => hd⟩
    simp only [minverse, inverse2] at hr
    split_ifs at hr
    cases hr
    exact ⟨0, fun j => by fin_cases j <;> exact one _ _ hd⟩
  | 3, m, r, hm =>
    have hd := determinant3_nan hT m hm
    refine ⟨fun hr => ?_, fun _ => hd⟩
    simp only [minverse, inverse3] at hr
    split_ifs at hr
    cases hr
    exact ⟨0, fun j => one _ _ hd⟩
  | 4, m, r, hm =>
    have hd := determinant4_nan hT m hm
    refine ⟨fun hr => ?_, fun _ => hd⟩
    simp only [minverse, inverse4] at hr
    split_ifs at hr
    cases hr
    exact ⟨0, fun j => one _ _ hd⟩
  | _ + 5, m, r, hm =>
    refine ⟨fun hr => ?_, fun h => by omega⟩
    simp only [minverse] at hr
    split at hr
    · cases hr
    next f hf =>
      cases hr
      exact ((solve_keeps_nan hT largest m f hf).1 hm).2

end closed

/-! ### Infinite entries -/

namespace NonFinite

theorem max_pinf (a : XR) : max a XR.pinf = .pinf := by
  cases a with
  | nan => exact XR.nan_max _
  | fin x => rw [XR.max_of_ne (by simp) (by simp), if_pos (XR.fin_lt_pinf x)]
  | pinf => rw [XR.max_of_ne (by simp) (by simp)]; split_ifs <;> rfl
  | ninf => rw [XR.max_of_ne (by simp) (by simp), if_pos (show XR.ninf < XR.pinf from trivial)]

theorem pinf_max (a : XR) : max XR.pinf a = .pinf := by
  by_cases ha : a = .nan
  · subst ha; exact XR.max_nan _
  · rw [XR.max_of_ne (by simp) ha, if_neg (XR.not_pinf_lt a)]

theorem abs_infinite {a : XR} (h : a = .pinf ∨ a = .ninf) : Fns.abs a = XR.pinf := by
  rcases h with rfl | rfl <;> rfl

theorem fold_pinf {ι : Type} (g : XR → ι → XR) (hg : ∀ i, g .pinf i = .pinf) (l : List ι) : l.foldl g .pinf = .pinf := by
  induction l with
  | nil => rfl
  | cons a l ih => rw [List.foldl_cons, hg]; exact ih

theorem fold_reaches {ι : Type} (g : XR → ι → XR) (hg : ∀ i, g .pinf i = .pinf) (i : ι) (hi : ∀ s, g s i = .pinf)
    (l : List ι) (hl : i ∈ l) (s : XR) : l.foldl g s = .pinf := by
  induction l generalizing s with
  | nil => cases hl
  | cons a l ih =>
    rw [List.foldl_cons]
    rcases List.mem_cons.1 hl with rfl | hl
    · rw [hi]; exact fold_pinf g hg l
    · exact ih hl _

theorem maxAbs_infinite {r c : ℕ} (m : Matrix (Fin r) (Fin c) XR) (h : ∃ i j, m i j = .pinf ∨ m i j = .ninf) :
    maxAbs m = .pinf := by
  obtain ⟨i, j, hij⟩ := h
  unfold maxAbs
  refine fold_reaches (fun best i => (List.finRange c).foldl (fun best j => max best (Fns.abs (m i j))) best)
    (fun i => fold_pinf (fun best j => max best (Fns.abs (m i j))) (fun j => pinf_max _) _) i (fun s => ?_) _
    (List.mem_finRange i) _
  refine fold_reaches (fun best j => max best (Fns.abs (m i j))) (fun j => pinf_max _) j (fun s => ?_) _
    (List.mem_finRange j) _
  show max s (Fns.abs (m i j)) = _
  rw [abs_infinite hij]; exact max_pinf s

theorem min_ne_nan {a b : XR} (ha : a ≠ .nan) : min a b ≠ .nan := by
  by_cases hb : b = .nan
  · subst hb; rw [XR.min_nan]; exact ha
  · rw [XR.min_of_ne ha hb]; split_ifs <;> assumption

theorem luLoop_pivot (l : List (Fin n)) (s s' : LuState n XR) (hs : luLoop l s = .ok s') (h : s.smallestPivot ≠ .nan) :
    s'.smallestPivot ≠ .nan := by
  induction l generalizing s with
  | nil => cases hs; exact h
  | cons k l ih =>
    rw [luLoop] at hs
    split at hs
    · cases hs
    next s1 h1 =>
      refine ih s1 hs ?_
      unfold luStep at h1
      dsimp only at h1
      split_ifs at h1 <;> cases h1 <;> exact min_ne_nan h

theorem luLoop_error (l : List (Fin n)) (s : LuState n XR) (e : LinalgError) (h : luLoop l s = .error e) : e = .singular := by
  induction l generalizing s with
  | nil => cases h
  | cons k l ih =>
    rw [luLoop] at h
    split at h
    next e' h1 =>
      cases h
      unfold luStep at h1
      dsimp only at h1
      split_ifs at h1
      all_goals cases h1
      rfl
    next s1 h1 => exact ih s1 h

theorem le_pinf {a : XR} (h : a ≠ .nan) : a ≤ .pinf := by
  cases a <;> first | exact absurd rfl h | trivial

theorem eps_pinf : (Fns.epsilon * XR.pinf : XR) = .pinf := by
  show XR.infTimes _ = _
  rw [XR.infTimes, if_neg (by norm_num), if_pos (by norm_num)]

theorem luDecompose_infinite (largest : XR) (hl : largest ≠ .nan) (m : Matrix (Fin n) (Fin n) XR)
    (h : ∃ i j, m i j = .pinf ∨ m i j = .ninf) :
    luDecompose largest m = .error .singular ∨ luDecompose largest m = .error .illConditioned := by
  unfold luDecompose
  split
  next e he => left; rw [luLoop_error _ _ _ he]
  next s hs =>
    right
    rw [maxAbs_infinite m h, eps_pinf, if_pos (le_pinf (luLoop_pivot _ _ _ hs hl))]

theorem near_infinite (det : XR) (k : ℕ) (hk : 1 ≤ k ∧ k ≤ 4) (h : det ≠ .nan) : detNearSingular det XR.pinf k = true := by
  have hp : powi XR.pinf (k : ℤ) = XR.pinf := by
    have e1 : XR.pinf * XR.pinf = XR.pinf := rfl
    have e2 : XR.fin 1 * XR.pinf = XR.pinf := by
      show XR.infTimes 1 = _
      rw [XR.infTimes, if_neg (by norm_num), if_pos (by norm_num)]
    obtain ⟨h1, h4⟩ := hk
    interval_cases k <;> simp [powi, powiLoop, e1, e2]
  have hk0 : (0 : ℝ) < k := by exact_mod_cast hk.1
  unfold detNearSingular
  rw [hp]
  have e3 : (Fns.epsilon * ((k : ℕ) : XR) * XR.pinf : XR) = .pinf := by
    show XR.infTimes (_ * (k : ℝ)) = _
    rw [XR.infTimes, if_neg (by positivity), if_pos (by positivity)]
  rw [e3, decide_eq_true_eq]
  refine le_pinf ?_
  cases det <;> simp [Fns.abs] at h ⊢

end NonFinite

open NonFinite in
/-- C126. What an answer vouches for: a solution without a NaN was computed from a matrix all of whose
entries are finite and from a right-hand side without a NaN; an inverse without a NaN is the inverse of a
matrix of finite entries; and a matrix with an infinite entry is never factorised. -/
theorem solve_vouches (largest : XR) (hl : largest ≠ .nan) (m : Matrix (Fin n) (Fin n) XR) :
    (∀ b x, msolve largest m b = .ok x → (∀ i, x i ≠ .nan) →
      (∀ i j, Fns.isFinite (m i j) = true) ∧ ∀ i, b i ≠ .nan) ∧
    (∀ r, minverse largest m = .ok r → (∀ i j, r i j ≠ .nan) → ∀ i j, Fns.isFinite (m i j) = true) ∧
    ((∃ i j, m i j = .pinf ∨ m i j = .ninf) →
      luDecompose largest m = .error .singular ∨ luDecompose largest m = .error .illConditioned) := by
  have split : ∀ a : XR, Fns.isFinite a = true ∨ (a = .pinf ∨ a = .ninf) ∨ a = .nan := by
    intro a; cases a <;> simp [Fns.isFinite]
  have nn : ∀ a : XR, a ≠ .nan → Fns.isNan a = false := by
    intro a h; cases a <;> simp [Fns.isNan] at h ⊢
  refine ⟨fun b x hx hn => ?_, fun r hr hn i j => ?_, luDecompose_infinite largest hl m⟩
  · have hf : ∃ f, luDecompose largest m = .ok f := by
      unfold msolve at hx
      split at hx
      · cases hx
      next f hf => exact ⟨f, hf⟩
    obtain ⟨f, hf⟩ := hf
    have hv := (solve_keeps_nan nanSticks_xr largest m f hf).2.2 b x hx fun i => nn _ (hn i)
    refine ⟨fun i j => ?_, fun i hb => ?_⟩
    · rcases split (m i j) with h | h | h
      · exact h
      · rcases luDecompose_infinite largest hl m ⟨i, j, h⟩ with h | h <;> rw [h] at hf <;> cases hf
      · have := hv.1 i j
        rw [h] at this
        cases this
    · have := hv.2 i
      rw [hb] at this
      cases this
  · rcases split (m i j) with h | h | h
    · exact h
    · exfalso
      have hinf : ∃ i j, m i j = .pinf ∨ m i j = .ninf := ⟨i, j, h⟩
      have one : ∀ b : XR, b * (1 / XR.nan) = .nan := fun b => by rw [XR.div_nan, XR.mul_nan]
      have hmax := maxAbs_infinite m hinf
      match n, m, r, i, j, h, hr, hn, hinf, hmax with
      | 0, _, _, i, _, _, _, _, _, _ => exact i.elim0
      | 1, m, r, i, j, h, hr, hn, _, hmax =>
        have h : m 0 0 = .pinf ∨ m 0 0 = .ninf := by rwa [Subsingleton.elim i 0, Subsingleton.elim j 0] at h
        simp only [minverse, inverse1] at hr
        rw [abs_infinite h, near_infinite _ 1 (by omega) (by rcases h with h | h <;> rw [h] <;> simp)] at hr
        cases hr
      | 2, m, r, i, j, h, hr, hn, _, hmax =>
        simp only [minverse, inverse2] at hr
        rw [hmax] at hr
        by_cases hd : determinant2 m = .nan
        · split_ifs at hr
          cases hr
          exact hn 0 0 (by rw [hd]; exact one _)
        · rw [near_infinite _ 2 (by omega) hd] at hr
          cases hr
      | 3, m, r, i, j, h, hr, hn, _, hmax =>
        simp only [minverse, inverse3] at hr
        rw [hmax] at hr
        by_cases hd : determinant3 m = .nan
        · split_ifs at hr
          cases hr
          exact hn 0 0 (by rw [hd]; exact one _)
        · rw [near_infinite _ 3 (by omega) hd] at hr
          cases hr
      | 4, m, r, i, j, h, hr, hn, _, hmax =>
        have hr : (if detNearSingular (determinant4 m) (maxAbs m) 4 then Except.error LinalgError.singular else
            inverse4 m) = .ok r := by
          rw [← hr]
          simp only [minverse, inverse4, determinant4]
          split_ifs <;> rfl
        rw [hmax] at hr
        by_cases hd : determinant4 m = .nan
        · split_ifs at hr
          simp only [inverse4] at hr
          split_ifs at hr
          cases hr
          refine hn 0 0 ?_
          show _ * (1 / determinant4 m) = _
          rw [hd]; exact one _
        · rw [near_infinite _ 4 (by omega) hd] at hr
          cases hr
      | k + 5, m, r, i, j, h, hr, hn, hinf, _ =>
        simp only [minverse] at hr
        rcases luDecompose_infinite largest hl m hinf with h | h <;> rw [h] at hr <;> cases hr
    · exfalso
      obtain ⟨i', hi'⟩ := (inverse_keeps_nan nanSticks_xr largest m r ⟨i, j, by rw [h]; rfl⟩).1 hr
      exact hn i' j ((XR.isNan_iff _).1 (hi' j))

/-- C126 (finding). The documentation of `cholesky` promises a factor with a strictly positive diagonal
and a refusal of everything else.  The comparison lets NaN through: the one-by-one matrix NaN is factorised,
its diagonal is not positive, and so is infinity, for which `solve` then answers zero whatever the finite
right-hand side. -/
theorem cholesky_positive_partial :
    (∃ lower, cholesky (fun _ _ => XR.nan : Matrix (Fin 1) (Fin 1) XR) = .ok lower ∧ ¬ 0 < lower 0 0) ∧
    ∃ lower, cholesky (fun _ _ => XR.pinf : Matrix (Fin 1) (Fin 1) XR) = .ok lower ∧
      ∀ b : ℝ, choleskySolve lower (fun _ => .fin b) 0 = .fin 0 := by
  constructor
  · refine ⟨fun _ _ => .nan, ?_, XR.not_lt_nan _⟩
    simp only [cholesky, List.finRange_succ, List.finRange_zero, List.map_nil, choleskyLoop, choleskyStep, choleskyResidual]
    simp
    congr 1
    funext i j
    fin_cases i; fin_cases j; rfl
  · refine ⟨fun _ _ => .pinf, ?_, fun b => ?_⟩
    · have h : ¬ XR.pinf ≤ XR.fin 0 := id
      simp only [cholesky, List.finRange_succ, List.finRange_zero, List.map_nil, choleskyLoop, choleskyStep, choleskyResidual]
      simp [h]
      congr 1
      funext i j
      fin_cases i; fin_cases j; rfl
    · have h0 : (XR.fin b / XR.pinf : XR) = .fin 0 := rfl
      have h1 : (XR.fin 0 / XR.pinf : XR) = .fin 0 := rfl
      simp [choleskySolve, List.finRange_succ, substituteStep, h0, h1]

/-- C126 (finding). `Singular` is documented as a pivot column that is entirely zero, and `determinant` as
zero only then.  A column that begins with zero and goes on with NaN counts as one: at every size the matrix
is called singular, and from five rows on its determinant is zero (below, it is NaN). -/
theorem singular_means_zero_column_partial (k : ℕ) (m : Matrix (Fin (k + 1)) (Fin (k + 1)) XR) (h0 : m 0 0 = .fin 0)
    (hn : ∀ i, i ≠ 0 → m i 0 = .nan) (largest : XR) :
    luDecompose largest m = .error .singular ∧ (4 ≤ k → mdeterminant largest m = .fin 0) := by
  have hp : pivotSearch m 0 = (.fin 0, 0) := by
    unfold pivotSearch
    have habs : Fns.abs (XR.fin 0) = .fin 0 := by show XR.fin |0| = _; rw [abs_zero]
    rw [h0, habs]
    induction List.finRange (k + 1) with
    | nil => rfl
    | cons a l ih =>
      rw [List.foldl_cons, if_neg]
      · exact ih
      · rintro ⟨ha, hlt⟩
        rw [hn a ha.ne'] at hlt
        exact XR.not_lt_nan _ hlt
  have hf : ∀ l, factorLu l m = .error .singular := by
    intro l
    unfold factorLu
    rw [List.finRange_succ, luLoop]
    simp only [luStep, hp]
    simp
  constructor
  · unfold luDecompose; rw [hf]
  · intro hk
    obtain ⟨k', rfl⟩ : ∃ k', k = k' + 4 := ⟨k - 4, by omega⟩
    simp only [mdeterminant, hf]
    rfl

/-- The hypotheses on systems that are accepted: a NaN next to ordinary numbers is factorised. -/
example : NanSticks XR ∧ ∃ lower, cholesky (fun i j => if i = j then XR.fin 4 else .nan : Matrix (Fin 2) (Fin 2) XR) =
    .ok lower ∧ lower 1 0 = .nan := by
  refine ⟨nanSticks_xr, ?_⟩
  cases h : cholesky (fun i j => if i = j then XR.fin 4 else .nan : Matrix (Fin 2) (Fin 2) XR) with
  | ok lower =>
    exact ⟨lower, rfl, (XR.isNan_iff _).1 ((cholesky_keeps_nan nanSticks_xr _ lower h).1 1 0 (by decide) rfl).1⟩
  | error e =>
    exfalso
    have h4 : ¬ XR.fin 4 ≤ XR.fin 0 := by rw [XR.fin_le]; norm_num
    simp [cholesky, List.finRange_succ, choleskyLoop, choleskyStep, choleskyResidual, h4] at h

/-- A solve that succeeds, and a column that is called singular. -/
example : (∃ f, luDecompose (XR.fin 1000) (fun _ _ => XR.nan : Matrix (Fin 1) (Fin 1) XR) = .ok f) ∧
    luDecompose (XR.fin 1000) (fun i j => if i = 0 then (if j = 0 then .fin 0 else .fin 1) else if j = 0 then .nan else .fin 2 :
      Matrix (Fin 2) (Fin 2) XR) = .error .singular := by
  constructor
  · cases h : luDecompose (XR.fin 1000) (fun _ _ => XR.nan : Matrix (Fin 1) (Fin 1) XR) with
    | ok f => exact ⟨f, rfl⟩
    | error e =>
      exfalso
      have hb : (XR.nan == XR.fin 0) = false := rfl
      have hab : Fns.abs XR.nan = XR.nan := rfl
      have hle : ¬ XR.fin 1000 ≤ (Fns.epsilon * XR.fin 0 : XR) := by
        show ¬ (1000 : ℝ) ≤ _ * 0
        norm_num
      simp [luDecompose, factorLu, List.finRange_succ, luLoop, luStep, pivotSearch, maxAbs, hb, hab, hle] at h
  · exact (singular_means_zero_column_partial 1 _ rfl (fun i hi => by simp [hi]) _).1

end Multicalc
