import Verif.Model.EigenCondition
import Verif.Model.XR
import Mathlib.Tactic

/-!
# The condition number of a symmetric eigendecomposition
-/

namespace Multicalc

theorem ends_fold (n : ℕ) (v : Fin n → ℝ) (l : List (Fin n)) (hi : ℝ) (lo : XR) (hhi : 0 ≤ hi)
    (hlo : lo = .pinf ∨ ∃ x, lo = .fin x) :
    ∃ hi' lo', l.foldl (fun (s : XR × XR) index => (max s.1 (Fns.abs (XR.fin (v index))),
        min s.2 (Fns.abs (XR.fin (v index))))) (.fin hi, lo) = (.fin hi', lo') ∧
      (hi' = hi ∨ ∃ i ∈ l, hi' = |v i|) ∧ hi ≤ hi' ∧ (∀ i ∈ l, |v i| ≤ hi') ∧
      (l = [] → lo' = lo) ∧ (∀ x, lo = .fin x → ∃ y, lo' = .fin y ∧ y ≤ x) ∧
      (l ≠ [] → ∃ y, lo' = .fin y ∧ (∀ i ∈ l, y ≤ |v i|)) ∧
      (lo' = lo ∨ ∃ i ∈ l, lo' = .fin |v i|) := by
  have habs : ∀ x : ℝ, (Fns.abs (XR.fin x) : XR) = .fin |x| := fun _ => rfl
  have hmax : ∀ a b : ℝ, max (XR.fin a) (XR.fin b) = XR.fin (max a b) := fun a b => by
    show (if XR.fin a < XR.fin b then XR.fin b else XR.fin a) = _
    by_cases h : a < b
    · rw [if_pos (show XR.fin a < XR.fin b from h), max_eq_right h.le]
    · rw [if_neg (show ¬ XR.fin a < XR.fin b from h), max_eq_left (not_lt.1 h)]
  have hmin : ∀ a b : ℝ, min (XR.fin a) (XR.fin b) = XR.fin (min a b) := fun a b => by
    show (if XR.fin b < XR.fin a then XR.fin b else XR.fin a) = _
    by_cases h : b < a
    · rw [if_pos (show XR.fin b < XR.fin a from h), min_eq_right h.le]
    · rw [if_neg (show ¬ XR.fin b < XR.fin a from h), min_eq_left (not_lt.1 h)]
  have hmin2 : ∀ b : ℝ, min XR.pinf (XR.fin b) = XR.fin b := fun b =>
    if_pos (show XR.fin b < XR.pinf from trivial)
  induction l generalizing hi lo with
  | nil => exact ⟨hi, lo, rfl, .inl rfl, le_rfl, by simp, fun _ => rfl, fun x h => ⟨x, h, le_rfl⟩,
      fun h => absurd rfl h, .inl rfl⟩
  | cons i l ih =>
    obtain ⟨y, hy, hyle, hylo⟩ : ∃ y, min lo (XR.fin |v i|) = XR.fin y ∧ y ≤ |v i| ∧
        ((∀ x, lo = .fin x → y ≤ x) ∧ (lo = .fin y ∨ y = |v i|)) := by
      clear ih
      rcases hlo with rfl | ⟨x, rfl⟩
      · exact ⟨|v i|, hmin2 _, le_rfl, ⟨(fun x h => by cases h), .inr rfl⟩⟩
      · refine ⟨min x |v i|, hmin _ _, min_le_right _ _, ⟨(fun z h => by cases h; exact min_le_left _ _), ?_⟩⟩
        rcases min_choice x |v i| with h | h
        · exact .inl (by rw [h])
        · exact .inr h
    obtain ⟨hi', lo', h1, h2, h3, h4, h5, h6, h7, h8⟩ := ih (max hi |v i|) (.fin y)
      (hhi.trans (le_max_left _ _)) (.inr ⟨y, rfl⟩)
    refine ⟨hi', lo', ?_, ?_, (le_max_left _ _).trans h3, ?_, by simp, ?_, ?_, ?_⟩
    · rw [List.foldl_cons, habs, hmax, hy, h1]
    · rcases h2 with h2 | ⟨k, hk, h2⟩
      · rcases max_choice hi |v i| with h | h
        · exact .inl (h2.trans h)
        · exact .inr ⟨i, by simp, h2.trans h⟩
      · exact .inr ⟨k, by simp [hk], h2⟩
    · intro k hk
      rcases List.mem_cons.1 hk with rfl | hk
      · exact (le_max_right _ _).trans h3
      · exact h4 k hk
    · intro x hx
      obtain ⟨z, hz, hzy⟩ := h6 y rfl
      exact ⟨z, hz, hzy.trans (hylo.1 x hx)⟩
    · intro _
      obtain ⟨z, hz, hzy⟩ := h6 y rfl
      refine ⟨z, hz, fun k hk => ?_⟩
      rcases List.mem_cons.1 hk with rfl | hk
      · exact hzy.trans hyle
      · obtain ⟨w, hw, hall⟩ := h7 (List.ne_nil_of_mem hk)
        rw [hz] at hw
        cases hw
        exact hall k hk
    · rcases h8 with h8 | ⟨k, hk, h8⟩
      · rcases hylo.2 with h | h
        · exact .inl (h8.trans h.symm)
        · exact .inr ⟨i, by simp, by rw [h8, h]⟩
      · exact .inr ⟨k, by simp [hk], h8⟩

/-- C43. The condition number of a decomposition with finite eigenvalues of either sign is infinite for an
empty matrix and when an eigenvalue is zero; otherwise it is finite and is the largest magnitude over the
smallest, wherever in the list they are, and so at least one. -/
theorem eigen_condition_number {n : ℕ} (v : Fin n → ℝ) (V : Matrix (Fin n) (Fin n) XR) :
    let d : SymmetricEigen n XR := ⟨fun i => .fin (v i), V⟩
    (n = 0 → d.conditionNumber = .pinf) ∧ ((∃ i, v i = 0) → d.conditionNumber = .pinf) ∧
    (n ≠ 0 → (∀ i, v i ≠ 0) → ∃ i j, (∀ k, |v k| ≤ |v i| ∧ |v j| ≤ |v k|) ∧
      d.conditionNumber = .fin (|v i| / |v j|) ∧ 1 ≤ |v i| / |v j|) := by
  intro d
  by_cases hn : n = 0
  · refine ⟨fun _ => ?_, fun ⟨i, _⟩ => absurd i.2 (by omega), fun h => absurd hn h⟩
    show SymmetricEigen.conditionNumber d = _
    unfold SymmetricEigen.conditionNumber
    rw [if_pos hn]
    rfl
  have hne : List.finRange n ≠ [] := by simpa [← List.length_eq_zero_iff] using hn
  obtain ⟨hi, lo, h1, h2, h3, h4, -, -, h7, h8⟩ := ends_fold n v (List.finRange n) 0 .pinf le_rfl (.inl rfl)
  obtain ⟨y, rfl, hy⟩ := h7 hne
  obtain ⟨j, -, hj⟩ : ∃ i ∈ List.finRange n, XR.fin y = .fin |v i| := by
    rcases h8 with h | h
    · cases h
    · exact h
  have hyj : y = |v j| := by injection hj
  have hval : d.conditionNumber = if XR.fin y ≤ 0 then Fns.infinity else XR.fin hi / XR.fin y := by
    unfold SymmetricEigen.conditionNumber
    rw [if_neg hn]
    exact congrArg (fun s : XR × XR => if s.2 ≤ 0 then (Fns.infinity : XR) else s.1 / s.2) h1
  have hle : (XR.fin y ≤ (0 : XR)) = (y ≤ 0) := rfl
  refine ⟨fun h => absurd h hn, ?_, fun _ hnz => ?_⟩
  · rintro ⟨i, hi0⟩
    have : y ≤ 0 := by
      have := hy i (List.mem_finRange i)
      rwa [hi0, abs_zero] at this
    rw [hval, if_pos (by rw [hle]; exact this)]
    rfl
  · have hpos : 0 < y := by rw [hyj]; exact abs_pos.2 (hnz j)
    obtain ⟨i, hii⟩ : ∃ i, hi = |v i| := by
      rcases h2 with h2 | ⟨i, -, h2⟩
      · exfalso
        have := h4 j (List.mem_finRange j)
        rw [h2] at this
        linarith [abs_pos.2 (hnz j)]
      · exact ⟨i, h2⟩
    refine ⟨i, j, fun k => ⟨hii ▸ h4 k (List.mem_finRange k), hyj ▸ hy k (List.mem_finRange k)⟩, ?_, ?_⟩
    · rw [hval, if_neg (by rw [hle]; exact not_le.2 hpos), hii, hyj]
      show XR.div _ _ = _
      unfold XR.div
      simp [hnz j]
    · rw [one_le_div (abs_pos.2 (hnz j)), ← hyj, hyj]
      exact hii ▸ h4 j (List.mem_finRange j)

/-- Eigenvalues 3 and -1, as in the documentation. -/
example : (2 : ℕ) ≠ 0 ∧ ∀ i, (![3, -1] : Fin 2 → ℝ) i ≠ 0 := by
  refine ⟨by norm_num, fun i => ?_⟩
  fin_cases i <;> norm_num

end Multicalc
