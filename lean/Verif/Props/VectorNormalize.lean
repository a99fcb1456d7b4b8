import Verif.Model.VectorNormalize
import Verif.Props.PolylinePath
import Verif.Props.Expm

/-!
C125: normalising a vector.
-/

namespace Multicalc

variable {n : ℕ}

/-- C125. In any arithmetic, normalising in place and normalising a copy agree: either both decline, and the
vector is left as it was, or the vector becomes the copy. -/
theorem try_normalize_in_place {T : Type} [Zero T] [Add T] [Mul T] [Div T] [LT T] [DecidableLT T] [BEq T]
    [Fns T] (a : Fin n → T) :
    (vtryNormalized a = none → vtryNormalize a = (none, a)) ∧
    ∀ v, vtryNormalized a = some v → vtryNormalize a = (some (), v) ∧ vnormalize a = v := by
  unfold vtryNormalized vtryNormalize
  split
  · exact ⟨fun _ => rfl, fun v h => by cases h⟩
  · next h =>
    refine ⟨fun h' => (by cases h'), fun v hv => ?_⟩
    cases hv
    have hz : (vnorm a == 0) = false := by
      simp only [Bool.or_eq_true, not_or, Bool.not_eq_true] at h
      exact h.2
    have e : vdoNormalize a (vnorm a) = vdivBy a (vnorm a) := by
      funext i
      unfold vdoNormalize safeDiv vdivBy
      rw [hz]; rfl
    exact ⟨by rw [e], by unfold vnormalize; rw [e]⟩

/-- C125. Over the reals: exactly the zero vector is declined; any other comes back with length one, pointing
the same way. -/
theorem try_normalized_spec (a : Fin n → ℝ) :
    (vtryNormalized a = none ↔ ∀ i, a i = 0) ∧
    ∀ v, vtryNormalized a = some v →
      ∑ i, v i ^ 2 = 1 ∧ ∃ s, 0 < s ∧ (∀ i, a i = s * v i) ∧ s ^ 2 = ∑ i, a i ^ 2 := by
  have hsq : vnorm a ^ 2 = ∑ i, a i ^ 2 := by
    rw [sq, vnorm_sq, vdot_sum]; exact Finset.sum_congr rfl fun i _ => (sq _).symm
  have hnn : 0 ≤ vnorm a := Real.sqrt_nonneg _
  have hc : (Fns.isNan (vnorm a) || vnorm a == 0) = true ↔ vnorm a = 0 := by
    simp [Fns.isNan]
  unfold vtryNormalized
  constructor
  · rw [← vnorm_zero_iff, ← hc]
    split <;> simp_all
  · intro v hv
    split at hv
    · cases hv
    next h =>
    rw [hc] at h
    cases hv
    have hpos : 0 < vnorm a := lt_of_le_of_ne hnn (Ne.symm h)
    refine ⟨?_, vnorm a, hpos, fun i => ?_, hsq⟩
    · simp only [vdivBy, div_pow]
      rw [← Finset.sum_div, ← hsq, div_self (by positivity)]
    · simp only [vdivBy]; field_simp

/-- Three, four, five. -/
example : ∃ v, vtryNormalized (![3, 4] : Fin 2 → ℝ) = some v := by
  rcases h : vtryNormalized (![3, 4] : Fin 2 → ℝ) with _ | v
  · have := ((try_normalized_spec _).1.1 h) 0
    norm_num at this
  · exact ⟨v, rfl⟩

/-! ### Special values -/

theorem xr_fold_nan (l : List (Fin n)) (f : Fin n → XR) :
    l.foldl (fun acc i => acc + f i) XR.nan = XR.nan := by
  induction l with
  | nil => rfl
  | cons x l ih => exact ih

/-- The sum of squares with special values. -/
theorem xr_sum_squares (a : Fin n → XR) :
    ((∃ i, a i = .nan) → vnormSquared a = .nan) ∧
    ((∀ i, a i ≠ .nan) → (∃ i, a i = .pinf ∨ a i = .ninf) → vnormSquared a = .pinf) ∧
    ∀ x : Fin n → ℝ, (∀ i, a i = .fin (x i)) → vnormSquared a = .fin (∑ i, x i ^ 2) := by
  have key : ∀ (l : List (Fin n)) (s : XR), (s = .pinf ∨ ∃ r, s = .fin r) →
      ((∃ i ∈ l, a i = .nan) → l.foldl (fun acc i => acc + a i * a i) s = .nan) ∧
      ((∀ i, a i ≠ .nan) → (s = .pinf ∨ ∃ i ∈ l, a i = .pinf ∨ a i = .ninf) →
        l.foldl (fun acc i => acc + a i * a i) s = .pinf) ∧
      ∀ x : Fin n → ℝ, (∀ i, a i = .fin (x i)) → ∀ r, s = .fin r →
        l.foldl (fun acc i => acc + a i * a i) s = .fin (r + (l.map fun i => x i ^ 2).sum) := by
    intro l
    induction l with
    | nil =>
      intro s hs
      refine ⟨by simp, fun _ h => ?_, fun x _ r h => by simp [h]⟩
      rcases h with h | ⟨i, hi, -⟩
      · exact h
      · simp at hi
    | cons j l ih =>
      intro s hs
      rw [List.foldl_cons]
      rcases ha : a j with x | _ | _ | _
      · have hm : (XR.fin x : XR) * XR.fin x = XR.fin (x * x) := rfl
        rw [hm]
        rcases hs with rfl | ⟨r, rfl⟩
        · have e : (XR.pinf : XR) + XR.fin (x * x) = XR.pinf := rfl
          rw [e]
          obtain ⟨i1, i2, i3⟩ := ih .pinf (.inl rfl)
          refine ⟨fun ⟨i, hi, h⟩ => i1 ⟨i, ?_, h⟩, fun hn _ => i2 hn (.inl rfl), fun _ _ r h => by cases h⟩
          rcases List.mem_cons.1 hi with rfl | hi
          · rw [ha] at h; cases h
          · exact hi
        · have e : (XR.fin r : XR) + XR.fin (x * x) = XR.fin (r + x * x) := rfl
          rw [e]
          obtain ⟨i1, i2, i3⟩ := ih (.fin (r + x * x)) (.inr ⟨_, rfl⟩)
          refine ⟨fun ⟨i, hi, h⟩ => i1 ⟨i, ?_, h⟩, fun hn h => i2 hn ?_, fun y hy r' h => ?_⟩
          · rcases List.mem_cons.1 hi with rfl | hi
            · rw [ha] at h; cases h
            · exact hi
          · rcases h with h | ⟨i, hi, h⟩
            · cases h
            · refine .inr ⟨i, ?_, h⟩
              rcases List.mem_cons.1 hi with rfl | hi
              · rw [ha] at h; rcases h with h | h <;> cases h
              · exact hi
          · cases h
            rw [i3 y hy _ rfl, List.map_cons, List.sum_cons]
            have := hy j
            rw [ha] at this
            cases this
            congr 1; ring
      · have e : s + (XR.pinf : XR) * XR.pinf = XR.pinf := by
          rcases hs with rfl | ⟨r, rfl⟩ <;> rfl
        rw [e]
        obtain ⟨i1, i2, i3⟩ := ih .pinf (.inl rfl)
        refine ⟨fun ⟨i, hi, h⟩ => i1 ⟨i, ?_, h⟩, fun hn _ => i2 hn (.inl rfl), fun x hx => ?_⟩
        · rcases List.mem_cons.1 hi with rfl | hi
          · rw [ha] at h; cases h
          · exact hi
        · have := hx j
          rw [ha] at this; cases this
      · have e : s + (XR.ninf : XR) * XR.ninf = XR.pinf := by
          rcases hs with rfl | ⟨r, rfl⟩ <;> rfl
        rw [e]
        obtain ⟨i1, i2, i3⟩ := ih .pinf (.inl rfl)
        refine ⟨fun ⟨i, hi, h⟩ => i1 ⟨i, ?_, h⟩, fun hn _ => i2 hn (.inl rfl), fun x hx => ?_⟩
        · rcases List.mem_cons.1 hi with rfl | hi
          · rw [ha] at h; cases h
          · exact hi
        · have := hx j
          rw [ha] at this; cases this
      · have e : s + (XR.nan : XR) * XR.nan = XR.nan := by
          rcases hs with rfl | ⟨r, rfl⟩ <;> rfl
        rw [e, xr_fold_nan]
        refine ⟨fun _ => rfl, fun hn => absurd ha (hn j), fun x hx => ?_⟩
        have := hx j
        rw [ha] at this; cases this
  obtain ⟨k1, k2, k3⟩ := key (List.finRange n) (.fin 0) (.inr ⟨0, rfl⟩)
  refine ⟨fun ⟨i, h⟩ => k1 ⟨i, List.mem_finRange i, h⟩,
    fun hn ⟨i, h⟩ => k2 hn (.inr ⟨i, List.mem_finRange i, h⟩), fun x hx => ?_⟩
  refine (k3 x hx 0 rfl).trans ?_
  rw [zero_add, ← List.ofFn_eq_map, List.sum_ofFn]

/-- C125. With special values: a vector with a NaN entry, and the zero vector, are declined; a finite vector is
treated as over the reals. -/
theorem try_normalized_special (a : Fin n → XR) :
    ((∃ i, a i = .nan) → vtryNormalized a = none) ∧
    ∀ x : Fin n → ℝ, (∀ i, a i = .fin (x i)) →
      vtryNormalized a = (vtryNormalized x).map fun v i => .fin (v i) := by
  obtain ⟨h1, -, h3⟩ := xr_sum_squares a
  refine ⟨fun h => ?_, fun x hx => ?_⟩
  · have e : vnorm a = .nan := by unfold vnorm; rw [h1 h]; rfl
    unfold vtryNormalized
    rw [e]; rfl
  · have hs : ∑ i, x i ^ 2 = vnormSquared x := by
      rw [vnormSquared, vdot_sum]; exact Finset.sum_congr rfl fun i _ => sq _
    have e : vnorm a = .fin (vnorm x) := by
      have h0 : ¬ (∑ i, x i ^ 2 : ℝ) < 0 := not_lt.2 (Finset.sum_nonneg fun i _ => sq_nonneg _)
      unfold vnorm
      rw [h3 x hx]
      show (if (∑ i, x i ^ 2 : ℝ) < 0 then XR.nan else XR.fin (Real.sqrt (∑ i, x i ^ 2))) = _
      rw [if_neg h0, hs]; rfl
    unfold vtryNormalized
    rw [e]
    by_cases hz : vnorm x = 0
    · have c1 : (Fns.isNan (XR.fin (vnorm x)) || XR.fin (vnorm x) == (0 : XR)) = true := by
        rw [show (XR.fin (vnorm x) == (0 : XR)) = decide (vnorm x = 0) from rfl]; simp [hz]
      have c2 : (Fns.isNan (vnorm x) || vnorm x == 0) = true := by simp [hz]
      rw [if_pos c1, if_pos c2]; rfl
    · have c1 : ¬ (Fns.isNan (XR.fin (vnorm x)) || XR.fin (vnorm x) == (0 : XR)) = true := by
        rw [show (XR.fin (vnorm x) == (0 : XR)) = decide (vnorm x = 0) from rfl,
          show Fns.isNan (XR.fin (vnorm x)) = false from rfl]
        simp [hz]
      have c2 : ¬ (Fns.isNan (vnorm x) || vnorm x == 0) = true := by simp [hz, Fns.isNan]
      rw [if_neg c1, if_neg c2]
      show some _ = some _
      congr 1
      funext i
      unfold vdivBy
      rw [hx i]
      show XR.div _ _ = _
      rw [XR.div, if_neg hz]

/-- C125 (finding). The documentation names the zero vector and NaN entries as the only refusals, and length one
otherwise.  A vector with an infinite entry is accepted too: its infinite entries become NaN and the rest zero. -/
theorem try_normalized_infinite_partial (a : Fin n → XR) (hn : ∀ i, a i ≠ .nan)
    (hi : ∃ i, a i = .pinf ∨ a i = .ninf) :
    ∃ v, vtryNormalized a = some v ∧
      (∀ i, a i = .pinf ∨ a i = .ninf → v i = .nan) ∧ ∀ i x, a i = .fin x → v i = .fin 0 := by
  obtain ⟨-, h2, -⟩ := xr_sum_squares a
  have e : vnorm a = .pinf := by unfold vnorm; rw [h2 hn hi]; rfl
  refine ⟨vdivBy a .pinf, ?_, fun i h => ?_, fun i x h => ?_⟩
  · unfold vtryNormalized
    rw [e, if_neg]
    rw [show Fns.isNan (XR.pinf : XR) = false from rfl, show ((XR.pinf : XR) == (0 : XR)) = false from rfl]
    simp
  · unfold vdivBy
    rcases h with h | h <;> rw [h] <;> rfl
  · unfold vdivBy
    rw [h]; rfl

/-- Infinity in the first of two places. -/
example : ∃ v, vtryNormalized (![.pinf, .fin 2] : Fin 2 → XR) = some v ∧ v 0 = .nan ∧ v 1 = .fin 0 := by
  obtain ⟨v, h, h1, h2⟩ := try_normalized_infinite_partial (![.pinf, .fin 2] : Fin 2 → XR)
    (by intro i; fin_cases i <;> simp) ⟨0, .inl rfl⟩
  exact ⟨v, h, h1 0 (.inl rfl), h2 1 2 rfl⟩

/-- A finite value of the overflowing arithmetic. -/
noncomputable def overflowFin (x : ℝ) : OverflowXR := XR.fin x

/-- C125 (finding). A finite vector can come back as zero instead of length one: the squares are summed without
scaling, so once the square of an entry overflows the length is infinite and every entry divided by it is zero. -/
theorem try_normalized_overflow_partial (x : ℝ) (h1 : |x| < OverflowXR.bound) (h2 : OverflowXR.bound ≤ x * x) :
    vtryNormalized (fun _ => overflowFin x : Fin 1 → OverflowXR) = some fun _ => overflowFin 0 := by
  have hb := OverflowXR.one_lt_bound
  have hm : overflowFin x * overflowFin x = OverflowXR.inf := by
    show OverflowXR.clip (XR.fin (x * x)) = XR.pinf
    rw [OverflowXR.clip, if_pos h2]
  have hs : vnormSquared (fun _ => overflowFin x : Fin 1 → OverflowXR) = OverflowXR.inf := by
    show (0 : OverflowXR) + overflowFin x * overflowFin x = _
    rw [hm]; rfl
  have e : vnorm (fun _ => overflowFin x : Fin 1 → OverflowXR) = OverflowXR.inf := by
    unfold vnorm; rw [hs]; rfl
  unfold vtryNormalized
  rw [e, if_neg]
  · congr 1
    funext i
    show OverflowXR.clip (XR.fin 0) = XR.fin 0
    exact OverflowXR.clip_fin le_rfl (by linarith)
  · rw [show Fns.isNan OverflowXR.inf = false from rfl,
      show (OverflowXR.inf == (0 : OverflowXR)) = false from rfl]
    simp

/-- Such entries exist. -/
example : |(2 : ℝ) ^ 600| < OverflowXR.bound ∧ OverflowXR.bound ≤ (2 : ℝ) ^ 600 * 2 ^ 600 := by
  rw [OverflowXR.bound, abs_of_pos (by positivity), ← pow_add]
  exact ⟨pow_lt_pow_right₀ (by norm_num) (by norm_num), pow_le_pow_right₀ (by norm_num) (by norm_num)⟩

end Multicalc
