import Verif.Props.Ode
import Mathlib.Analysis.Calculus.MeanValue
import Mathlib.Analysis.Calculus.Deriv.Prod
import Mathlib.Analysis.SpecialFunctions.ExpDeriv
import Mathlib.Analysis.SpecialFunctions.Trigonometric.Deriv

/-!
# Property C121: RK4 converges to the solution of the differential equation

Distances between states are measured by the largest difference of a component, the norm of
`Fin n → ℝ`.
-/

namespace Multicalc
open Matrix
variable {n : ℕ}

private theorem vscale_eq (v : Fin n → ℝ) (c : ℝ) : vscale v c = c • v := by
  funext i; simp [vscale, mul_comm]

/-- The step in the usual notation. -/
theorem rk4Step_eq (f : ℝ → (Fin n → ℝ) → (Fin n → ℝ)) (t : ℝ) (y : Fin n → ℝ) (h : ℝ) :
    ∃ k₁ k₂ k₃ k₄ : Fin n → ℝ, k₁ = f t y ∧ k₂ = f (t + h / 2) (y + (h / 2) • k₁) ∧
      k₃ = f (t + h / 2) (y + (h / 2) • k₂) ∧ k₄ = f (t + h) (y + h • k₃) ∧
      rk4Step f t y h = y + (h / 6) • (k₁ + (2 : ℝ) • k₂ + (2 : ℝ) • k₃ + k₄) := by
  refine ⟨_, _, _, _, rfl, rfl, rfl, rfl, ?_⟩
  have e : (1 / 2 * h : ℝ) = h / 2 := by ring
  simp only [rk4Step, vscale_eq, e]
  push_cast
  rfl

/-- One step of RK4 spreads two states apart by at most the degree-four Taylor polynomial of
`exp (h L)`. -/
theorem rk4Step_lipschitz (f : ℝ → (Fin n → ℝ) → (Fin n → ℝ)) (L : ℝ) (hL : 0 ≤ L)
    (hf : ∀ t y z, ‖f t y - f t z‖ ≤ L * ‖y - z‖) (t h : ℝ) (hh : 0 ≤ h) (y z : Fin n → ℝ) :
    ‖rk4Step f t y h - rk4Step f t z h‖ ≤ Real.exp (h * L) * ‖y - z‖ := by
  obtain ⟨k₁, k₂, k₃, k₄, e1, e2, e3, e4, ek⟩ := rk4Step_eq f t y h
  obtain ⟨l₁, l₂, l₃, l₄, g1, g2, g3, g4, gl⟩ := rk4Step_eq f t z h
  set d := ‖y - z‖ with hd
  have hd0 : 0 ≤ d := norm_nonneg _
  set x := h * L with hx
  have hx0 : 0 ≤ x := mul_nonneg hh hL
  have stage : ∀ (c : ℝ), 0 ≤ c → ∀ (s : ℝ) (p q p' q' : Fin n → ℝ), p' = f s (y + c • p) → q' = f s (z + c • q) →
      ‖p' - q'‖ ≤ L * (d + c * ‖p - q‖) := by
    intro c hc s p q p' q' hp hq
    rw [hp, hq]
    refine (hf _ _ _).trans (mul_le_mul_of_nonneg_left ?_ hL)
    have : y + c • p - (z + c • q) = (y - z) + c • (p - q) := by rw [smul_sub]; abel
    rw [this]
    refine (norm_add_le _ _).trans ?_
    rw [norm_smul, Real.norm_of_nonneg hc]
  have b1 : ‖k₁ - l₁‖ ≤ L * d := by rw [e1, g1]; exact hf _ _ _
  have hh2 : 0 ≤ h / 2 := by positivity
  have b2 := stage (h / 2) hh2 _ _ _ _ _ e2 g2
  have b3 := stage (h / 2) hh2 _ _ _ _ _ e3 g3
  have b4 := stage h hh _ _ _ _ _ e4 g4
  have c2 : ‖k₂ - l₂‖ ≤ L * d * (1 + x / 2) := by
    refine b2.trans ?_
    have : h / 2 * ‖k₁ - l₁‖ ≤ h / 2 * (L * d) := mul_le_mul_of_nonneg_left b1 hh2
    calc L * (d + h / 2 * ‖k₁ - l₁‖) ≤ L * (d + h / 2 * (L * d)) := mul_le_mul_of_nonneg_left (by linarith) hL
      _ = L * d * (1 + x / 2) := by rw [hx]; ring
  have c3 : ‖k₃ - l₃‖ ≤ L * d * (1 + x / 2 + x ^ 2 / 4) := by
    refine b3.trans ?_
    have := mul_le_mul_of_nonneg_left c2 hh2
    calc L * (d + h / 2 * ‖k₂ - l₂‖) ≤ L * (d + h / 2 * (L * d * (1 + x / 2))) :=
          mul_le_mul_of_nonneg_left (by linarith) hL
      _ = L * d * (1 + x / 2 + x ^ 2 / 4) := by rw [hx]; ring
  have c4 : ‖k₄ - l₄‖ ≤ L * d * (1 + x + x ^ 2 / 2 + x ^ 3 / 4) := by
    refine b4.trans ?_
    have := mul_le_mul_of_nonneg_left c3 hh
    calc L * (d + h * ‖k₃ - l₃‖) ≤ L * (d + h * (L * d * (1 + x / 2 + x ^ 2 / 4))) :=
          mul_le_mul_of_nonneg_left (by linarith) hL
      _ = L * d * (1 + x + x ^ 2 / 2 + x ^ 3 / 4) := by rw [hx]; ring
  have key : rk4Step f t y h - rk4Step f t z h = (y - z) + (h / 6) • ((k₁ - l₁) + (2 : ℝ) • (k₂ - l₂) +
      (2 : ℝ) • (k₃ - l₃) + (k₄ - l₄)) := by
    rw [ek, gl]; funext i; simp; ring
  have sum : ‖(k₁ - l₁) + (2 : ℝ) • (k₂ - l₂) + (2 : ℝ) • (k₃ - l₃) + (k₄ - l₄)‖ ≤
      ‖k₁ - l₁‖ + 2 * ‖k₂ - l₂‖ + 2 * ‖k₃ - l₃‖ + ‖k₄ - l₄‖ := by
    refine (norm_add_le _ _).trans (add_le_add ((norm_add_le _ _).trans (add_le_add ((norm_add_le _ _).trans
      (add_le_add le_rfl ?_)) ?_)) le_rfl) <;> rw [norm_smul] <;> norm_num
  have h6 : 0 ≤ h / 6 := by positivity
  calc ‖rk4Step f t y h - rk4Step f t z h‖ ≤ d + h / 6 * (‖k₁ - l₁‖ + 2 * ‖k₂ - l₂‖ + 2 * ‖k₃ - l₃‖ + ‖k₄ - l₄‖) := by
        rw [key]
        refine (norm_add_le _ _).trans (add_le_add le_rfl ?_)
        rw [norm_smul, Real.norm_of_nonneg h6]
        exact mul_le_mul_of_nonneg_left sum h6
    _ ≤ d + h / 6 * (L * d + 2 * (L * d * (1 + x / 2)) + 2 * (L * d * (1 + x / 2 + x ^ 2 / 4)) +
          L * d * (1 + x + x ^ 2 / 2 + x ^ 3 / 4)) := by
        have := mul_le_mul_of_nonneg_left (add_le_add (add_le_add (add_le_add b1
          (mul_le_mul_of_nonneg_left c2 (by norm_num : (0:ℝ) ≤ 2))) (mul_le_mul_of_nonneg_left c3 (by norm_num : (0:ℝ) ≤ 2))) c4) h6
        linarith
    _ = (1 + x + x ^ 2 / 2 + x ^ 3 / 6 + x ^ 4 / 24) * d := by rw [hx]; ring
    _ ≤ Real.exp x * d := by
        refine mul_le_mul_of_nonneg_right ?_ hd0
        have := Real.sum_le_exp_of_nonneg hx0 5
        simp only [Finset.sum_range_succ, Finset.sum_range_zero, Nat.factorial] at this
        norm_num at this
        linarith

/-- C121. Two runs of RK4 on a right-hand side with Lipschitz constant `L` stay within
`exp (L · elapsed time)` of each other, the same factor by which the true solutions may part, for every
step size and every number of steps. -/
theorem rk4_stable (f : ℝ → (Fin n → ℝ) → (Fin n → ℝ)) (L : ℝ) (hL : 0 ≤ L)
    (hf : ∀ t y z, ‖f t y - f t z‖ ≤ L * ‖y - z‖) (t h : ℝ) (hh : 0 ≤ h) (steps : ℕ) (y z : Fin n → ℝ) :
    ‖(rk4Integrate f t y h steps).2 - (rk4Integrate f t z h steps).2‖ ≤
      Real.exp (L * (steps * h)) * ‖y - z‖ := by
  rw [(rk4_observer f t y h steps).2, (rk4_observer f t z h steps).2]
  induction steps with
  | zero => simp
  | succ k ih =>
    simp only [Function.iterate_succ_apply', rk4_times]
    refine (rk4Step_lipschitz f L hL hf _ h hh _ _).trans ?_
    calc _ ≤ Real.exp (h * L) * (Real.exp (L * (k * h)) * ‖y - z‖) :=
          mul_le_mul_of_nonneg_left ih (Real.exp_pos _).le
      _ = _ := by rw [← mul_assoc, ← Real.exp_add]; congr 2; push_cast; ring

/-- What one step of RK4 started on the solution leaves out. -/
theorem rk4_local (f : ℝ → (Fin n → ℝ) → (Fin n → ℝ)) (L K M : ℝ) (hL : 0 ≤ L) (hK : 0 ≤ K)
    (hf : ∀ t s y z, ‖f t y - f s z‖ ≤ L * ‖y - z‖ + K * |t - s|) (y : ℝ → Fin n → ℝ) (t h : ℝ) (hh : 0 ≤ h)
    (hy : ∀ s ∈ Set.Icc t (t + h), HasDerivWithinAt y (f s (y s)) (Set.Icc t (t + h)) s)
    (hM : ∀ s ∈ Set.Icc t (t + h), ‖f s (y s)‖ ≤ M) (hs : h * L ≤ 1) :
    ‖rk4Step f t (y t) h - y (t + h)‖ ≤ 2 * (K + L * M) * h ^ 2 := by
  obtain ⟨k₁, k₂, k₃, k₄, e1, e2, e3, e4, ek⟩ := rk4Step_eq f t (y t) h
  have ht : t ∈ Set.Icc t (t + h) := ⟨le_rfl, by linarith⟩
  have ht' : t + h ∈ Set.Icc t (t + h) := ⟨by linarith, le_rfl⟩
  have hM0 : 0 ≤ M := (norm_nonneg _).trans (hM t ht)
  set D := K + L * M with hD
  have hD0 : 0 ≤ D := by positivity
  have b1 : ‖k₁‖ ≤ M := by rw [e1]; exact hM t ht
  -- the solution moves at most `M` per unit time, so its rate changes by at most `D` per unit time
  have hmove : ∀ s ∈ Set.Icc t (t + h), ‖y s - y t‖ ≤ M * (s - t) := by
    intro s hs'
    have := (convex_Icc t (t + h)).norm_image_sub_le_of_norm_hasDerivWithin_le hy hM ht hs'
    rwa [Real.norm_of_nonneg (by linarith [hs'.1])] at this
  have hrate : ∀ s ∈ Set.Icc t (t + h), ‖f s (y s) - k₁‖ ≤ D * h := by
    intro s hs'
    rw [e1]
    refine (hf _ _ _ _).trans ?_
    rw [abs_of_nonneg (by linarith [hs'.1] : 0 ≤ s - t)]
    have h1 := mul_le_mul_of_nonneg_left (hmove s hs') hL
    have h2 : s - t ≤ h := by linarith [hs'.2]
    calc _ ≤ L * (M * (s - t)) + K * (s - t) := by linarith
      _ = D * (s - t) := by rw [hD]; ring
      _ ≤ D * h := mul_le_mul_of_nonneg_left h2 hD0
  have hexact : ‖y (t + h) - y t - h • k₁‖ ≤ D * h * h := by
    have hg : ∀ s ∈ Set.Icc t (t + h), HasDerivWithinAt (fun s => y s - (s - t) • k₁) (f s (y s) - k₁)
        (Set.Icc t (t + h)) s := by
      intro s hs'
      have h1 : HasDerivWithinAt (fun s : ℝ => (s - t) • k₁) ((1 : ℝ) • k₁) (Set.Icc t (t + h)) s :=
        ((hasDerivWithinAt_id s _).sub_const t).smul_const k₁
      have h2 := (hy s hs').sub h1
      rw [one_smul] at h2
      exact h2
    have := (convex_Icc t (t + h)).norm_image_sub_le_of_norm_hasDerivWithin_le hg hrate ht ht'
    rw [Real.norm_of_nonneg (by linarith)] at this
    have e : y (t + h) - (t + h - t) • k₁ - (y t - (t - t) • k₁) = y (t + h) - y t - h • k₁ := by
      rw [sub_self, zero_smul, add_sub_cancel_left]; abel
    rw [e, add_sub_cancel_left] at this
    exact this
  have stage : ∀ (c : ℝ), 0 ≤ c → ∀ (p p' : Fin n → ℝ) (w : ℝ), p' = f (t + c) (y t + c • p) → ‖p - k₁‖ ≤ w →
      ‖p' - k₁‖ ≤ c * (D + L * w) := by
    intro c hc p p' w hp hw
    rw [hp, e1]
    refine (hf _ _ _ _).trans ?_
    rw [add_sub_cancel_left, add_sub_cancel_left, abs_of_nonneg hc, norm_smul, Real.norm_of_nonneg hc]
    have h1 : ‖p‖ ≤ M + w := by
      have := norm_add_le (p - k₁) k₁
      rw [sub_add_cancel] at this
      linarith
    have h2 : L * (c * ‖p‖) ≤ L * (c * (M + w)) := mul_le_mul_of_nonneg_left (mul_le_mul_of_nonneg_left h1 hc) hL
    calc _ ≤ L * (c * (M + w)) + K * c := by linarith
      _ = c * (D + L * w) := by rw [hD]; ring
  have hh2 : 0 ≤ h / 2 := by positivity
  have c2 : ‖k₂ - k₁‖ ≤ D * h / 2 := by
    have := stage (h / 2) hh2 _ _ 0 e2 (by simp)
    linarith
  have hD2 : 0 ≤ D * h := mul_nonneg hD0 hh
  have c3 : ‖k₃ - k₁‖ ≤ D * h := by
    refine (stage (h / 2) hh2 _ _ _ e3 c2).trans ?_
    have : h * L * (D * h) ≤ 1 * (D * h) := mul_le_mul_of_nonneg_right hs hD2
    nlinarith
  have c4 : ‖k₄ - k₁‖ ≤ 2 * (D * h) := by
    refine (stage h hh _ _ _ e4 c3).trans ?_
    have : h * L * (D * h) ≤ 1 * (D * h) := mul_le_mul_of_nonneg_right hs hD2
    nlinarith
  have key : rk4Step f t (y t) h - y (t + h) = (h / 6) • ((2 : ℝ) • (k₂ - k₁) + (2 : ℝ) • (k₃ - k₁) + (k₄ - k₁)) -
      (y (t + h) - y t - h • k₁) := by
    rw [ek]; funext i; simp; ring
  have sum : ‖(2 : ℝ) • (k₂ - k₁) + (2 : ℝ) • (k₃ - k₁) + (k₄ - k₁)‖ ≤
      2 * ‖k₂ - k₁‖ + 2 * ‖k₃ - k₁‖ + ‖k₄ - k₁‖ := by
    refine (norm_add_le _ _).trans (add_le_add ((norm_add_le _ _).trans (add_le_add ?_ ?_)) le_rfl) <;>
      rw [norm_smul] <;> norm_num
  rw [key]
  refine (norm_sub_le _ _).trans ?_
  rw [norm_smul, Real.norm_of_nonneg (by positivity : 0 ≤ h / 6)]
  have := mul_le_mul_of_nonneg_left (sum.trans (add_le_add (add_le_add
    (mul_le_mul_of_nonneg_left c2 (by norm_num : (0:ℝ) ≤ 2)) (mul_le_mul_of_nonneg_left c3 (by norm_num : (0:ℝ) ≤ 2))) c4))
    (by positivity : 0 ≤ h / 6)
  have hDh : 0 ≤ D * h * h := mul_nonneg hD2 hh
  calc _ ≤ h / 6 * (2 * (D * h / 2) + 2 * (D * h) + 2 * (D * h)) + D * h * h := add_le_add this hexact
    _ ≤ 2 * D * h ^ 2 := by nlinarith

/-- C121. RK4 converges on every differential equation with a Lipschitz right-hand side: every state the
observer is shown differs from the solution at that time by at most a constant times the step, the constant
depending only on the equation and the elapsed time. So is the returned state, the last of them. -/
theorem rk4_converges (f : ℝ → (Fin n → ℝ) → (Fin n → ℝ)) (L K M : ℝ) (hL : 0 ≤ L) (hK : 0 ≤ K)
    (hf : ∀ t s y z, ‖f t y - f s z‖ ≤ L * ‖y - z‖ + K * |t - s|) (y : ℝ → Fin n → ℝ) (t h : ℝ) (hh : 0 ≤ h)
    (steps : ℕ)
    (hy : ∀ s ∈ Set.Icc t (t + steps * h), HasDerivWithinAt y (f s (y s)) (Set.Icc t (t + steps * h)) s)
    (hM : ∀ s ∈ Set.Icc t (t + steps * h), ‖f s (y s)‖ ≤ M) (hs : h * L ≤ 1) :
    (∀ (k : ℕ) (hk : k ≤ steps), ∃ z, (rk4Integrate f t (y t) h steps).1[k]? = some (t + k * h, z) ∧
      ‖z - y (t + k * h)‖ ≤ 2 * (K + L * M) * (k * h) * Real.exp (L * (k * h)) * h) ∧
    ‖(rk4Integrate f t (y t) h steps).2 - y (t + steps * h)‖ ≤
      2 * (K + L * M) * (steps * h) * Real.exp (L * (steps * h)) * h := by
  set it := fun k : ℕ => (fun p : ℝ × (Fin n → ℝ) => (p.1 + h, rk4Step f p.1 p.2 h))^[k] (t, y t) with hit
  have hM0 : 0 ≤ M := (norm_nonneg _).trans (hM t ⟨le_rfl, by nlinarith [mul_nonneg (Nat.cast_nonneg (α := ℝ) steps) hh]⟩)
  have hlip : ∀ t y z, ‖f t y - f t z‖ ≤ L * ‖y - z‖ := by
    intro t y z; have := hf t t y z; simpa using this
  have hD : 0 ≤ K + L * M := by positivity
  have main : ∀ k : ℕ, k ≤ steps → ‖(it k).2 - y (t + k * h)‖ ≤
      2 * (K + L * M) * (k * h) * Real.exp (L * (k * h)) * h := by
    intro k
    induction k with
    | zero => intro _; simp [hit]
    | succ k ih =>
      intro hk
      have hk' : (k : ℝ) + 1 ≤ steps := by exact_mod_cast hk
      have hkh : (0 : ℝ) ≤ k * h := mul_nonneg (Nat.cast_nonneg _) hh
      have hsub : Set.Icc (t + k * h) (t + k * h + h) ⊆ Set.Icc t (t + steps * h) := by
        apply Set.Icc_subset_Icc (by linarith)
        nlinarith
      have hloc := rk4_local f L K M hL hK hf y (t + k * h) h hh
        (fun s hs' => (hy s (hsub hs')).mono hsub) (fun s hs' => hM s (hsub hs')) hs
      have e : t + ((k + 1 : ℕ) : ℝ) * h = t + k * h + h := by push_cast; ring
      have hstep : (it (k + 1)).2 = rk4Step f (t + k * h) (it k).2 h := by
        simp only [hit, Function.iterate_succ_apply', rk4_times]
      rw [e, hstep]
      have htri : rk4Step f (t + k * h) (it k).2 h - y (t + k * h + h) =
          (rk4Step f (t + k * h) (it k).2 h - rk4Step f (t + k * h) (y (t + k * h)) h) +
          (rk4Step f (t + k * h) (y (t + k * h)) h - y (t + k * h + h)) := by abel
      rw [htri]
      refine (norm_add_le _ _).trans ?_
      have h1 := (rk4Step_lipschitz f L hL hlip (t + k * h) h hh (it k).2 (y (t + k * h))).trans
        (mul_le_mul_of_nonneg_left (ih (by omega)) (Real.exp_pos _).le)
      have hexp : Real.exp (h * L) * Real.exp (L * (k * h)) = Real.exp (L * (((k + 1 : ℕ) : ℝ) * h)) := by
        rw [← Real.exp_add]; congr 1; push_cast; ring
      have hone : 1 ≤ Real.exp (L * (((k + 1 : ℕ) : ℝ) * h)) :=
        Real.one_le_exp (by positivity)
      have h2 : 2 * (K + L * M) * h ^ 2 * 1 ≤ 2 * (K + L * M) * h ^ 2 * Real.exp (L * (((k + 1 : ℕ) : ℝ) * h)) :=
        mul_le_mul_of_nonneg_left hone (by positivity)
      have h3 : Real.exp (h * L) * (2 * (K + L * M) * (k * h) * Real.exp (L * (k * h)) * h) =
          2 * (K + L * M) * (k * h) * Real.exp (L * (((k + 1 : ℕ) : ℝ) * h)) * h := by
        rw [← hexp]; ring
      rw [h3] at h1
      rw [mul_one] at h2
      refine (add_le_add h1 (hloc.trans h2)).trans (le_of_eq ?_)
      generalize Real.exp (L * (((k + 1 : ℕ) : ℝ) * h)) = E
      push_cast
      ring
  refine ⟨fun k hk => ⟨(it k).2, ?_, main k hk⟩, ?_⟩
  · rw [(rk4_observer f t (y t) h steps).1, List.getElem?_map, List.getElem?_range (by omega)]
    simp only [Option.map_some, Option.some.injEq]
    exact Prod.ext (rk4_times f t (y t) h k) rfl
  · rw [(rk4_observer f t (y t) h steps).2]
    exact main steps le_rfl

/-- The hypotheses hold of `y' = y` with solution `exp`, started at `1`. -/
example (N : ℕ) (hN : 0 < N) :
    ‖(rk4Integrate (fun _ y => y) 0 (fun _ : Fin 1 => (1 : ℝ)) (1 / N) N).2 - (fun _ => Real.exp 1)‖ ≤
      2 * Real.exp 1 * Real.exp 1 / N := by
  have hN' : (0 : ℝ) < N := by exact_mod_cast hN
  have h1N : (1 : ℝ) ≤ N := by exact_mod_cast hN
  have e1 : (N : ℝ) * (1 / N) = 1 := by field_simp
  have := (rk4_converges (n := 1) (fun _ y => y) 1 0 (Real.exp 1) zero_le_one le_rfl
    (fun t s y z => by simp) (fun t _ => Real.exp t) 0 (1 / N) (by positivity) N
    (fun s _ => by
      rw [hasDerivWithinAt_pi]; intro i; exact (Real.hasDerivAt_exp s).hasDerivWithinAt)
    (fun s hs => by
      rw [e1, zero_add] at hs
      refine (pi_norm_le_iff_of_nonneg (Real.exp_pos _).le).2 fun i => ?_
      rw [Real.norm_of_nonneg (Real.exp_pos _).le]
      exact Real.exp_le_exp.2 hs.2)
    (by rw [mul_one, div_le_one hN']; exact h1N)).2
  rw [e1] at this
  simp only [Real.exp_zero, zero_add, mul_one, one_mul] at this
  refine this.trans (le_of_eq ?_)
  ring

/-! ## Fourth order on linear systems -/

/-- Taylor's theorem for a solution of a linear system. -/
theorem linear_taylor (A : Matrix (Fin n) (Fin n) ℝ) (L S : ℝ) (hL : 0 ≤ L) (hA : ∀ v, ‖A *ᵥ v‖ ≤ L * ‖v‖)
    (y : ℝ → Fin n → ℝ) (t b : ℝ)
    (hy : ∀ s ∈ Set.Icc t b, HasDerivWithinAt y (A *ᵥ y s) (Set.Icc t b) s)
    (hS : ∀ s ∈ Set.Icc t b, ‖y s‖ ≤ S) (m : ℕ) :
    ∀ s ∈ Set.Icc t b, ‖y s - ∑ k ∈ Finset.range m, ((s - t) ^ k / k.factorial) • (A ^ k *ᵥ y t)‖ ≤
      L ^ m * S * ((s - t) ^ m / m.factorial) := by
  induction m with
  | zero => intro s hs; simpa using hS s hs
  | succ m ih =>
    have hmono : ∀ (k : ℕ) (s : ℝ), HasDerivAt (fun s : ℝ => (s - t) ^ (k + 1) / ((k + 1).factorial : ℝ))
        ((s - t) ^ k / (k.factorial : ℝ)) s := by
      intro k s
      have h := (((hasDerivAt_id s).sub_const t).pow (k + 1)).div_const ((k + 1).factorial : ℝ)
      have hk : (k.factorial : ℝ) ≠ 0 := by exact_mod_cast k.factorial_ne_zero
      have hk1 : ((k : ℝ) + 1) ≠ 0 := by positivity
      have e : (((k + 1 : ℕ) : ℝ) * (id s - t) ^ (k + 1 - 1) * 1 / ((k + 1).factorial : ℝ)) =
          (s - t) ^ k / (k.factorial : ℝ) := by
        rw [Nat.factorial_succ]
        push_cast
        simp only [id_eq, Nat.add_sub_cancel, mul_one]
        field_simp
      rw [e] at h
      exact h
    have hsum : ∀ s : ℝ, HasDerivAt (fun s : ℝ => ∑ k ∈ Finset.range (m + 1), ((s - t) ^ k / (k.factorial : ℝ)) • (A ^ k *ᵥ y t))
        (A *ᵥ ∑ k ∈ Finset.range m, ((s - t) ^ k / (k.factorial : ℝ)) • (A ^ k *ᵥ y t)) s := by
      intro s
      have h : HasDerivAt (fun s : ℝ => ∑ k ∈ Finset.range m, ((s - t) ^ (k + 1) / ((k + 1).factorial : ℝ)) • (A ^ (k + 1) *ᵥ y t))
          (∑ k ∈ Finset.range m, ((s - t) ^ k / (k.factorial : ℝ)) • (A ^ (k + 1) *ᵥ y t)) s :=
        HasDerivAt.fun_sum fun k _ => (hmono k s).smul_const _
      have h' := h.add_const (((1 : ℝ) / ((0 : ℕ).factorial : ℝ)) • (A ^ 0 *ᵥ y t))
      have e : A *ᵥ ∑ k ∈ Finset.range m, ((s - t) ^ k / (k.factorial : ℝ)) • (A ^ k *ᵥ y t) =
          ∑ k ∈ Finset.range m, ((s - t) ^ k / (k.factorial : ℝ)) • (A ^ (k + 1) *ᵥ y t) := by
        rw [Matrix.mulVec_sum]
        refine Finset.sum_congr rfl fun k _ => ?_
        rw [Matrix.mulVec_smul, Matrix.mulVec_mulVec, pow_succ']
      rw [e]
      refine h'.congr_of_eventuallyEq (Filter.Eventually.of_forall fun s => ?_)
      simp only [Finset.sum_range_succ', pow_zero]
    have hder : ∀ s ∈ Set.Icc t b, HasDerivWithinAt
        (fun s => y s - ∑ k ∈ Finset.range (m + 1), ((s - t) ^ k / (k.factorial : ℝ)) • (A ^ k *ᵥ y t))
        (A *ᵥ (y s - ∑ k ∈ Finset.range m, ((s - t) ^ k / (k.factorial : ℝ)) • (A ^ k *ᵥ y t))) (Set.Icc t b) s := by
      intro s hs
      rw [Matrix.mulVec_sub]
      exact (hy s hs).sub (hsum s).hasDerivWithinAt
    refine image_norm_le_of_norm_deriv_right_le_deriv_boundary (fun s hs => (hder s hs).continuousWithinAt)
      (fun s hs => (hder s ⟨hs.1, hs.2.le⟩).mono_of_mem_nhdsWithin (Icc_mem_nhdsGE_of_mem hs)) ?_
      (fun s => (hmono m s).const_mul (L ^ (m + 1) * S)) (fun s hs => ?_)
    · simp [Finset.sum_range_succ']
    · refine (hA _).trans ((mul_le_mul_of_nonneg_left (ih s ⟨hs.1, hs.2.le⟩) hL).trans (le_of_eq ?_))
      ring

/-- C121. On every linear system RK4 is of fourth order: after any number of steps the returned state
differs from the solution by at most the elapsed time times `h⁴` times a constant of the system. -/
theorem rk4_linear_order (A : Matrix (Fin n) (Fin n) ℝ) (L S : ℝ) (hL : 0 ≤ L) (hA : ∀ v, ‖A *ᵥ v‖ ≤ L * ‖v‖)
    (y : ℝ → Fin n → ℝ) (t h : ℝ) (hh : 0 ≤ h) (steps : ℕ)
    (hy : ∀ s ∈ Set.Icc t (t + steps * h), HasDerivWithinAt y (A *ᵥ y s) (Set.Icc t (t + steps * h)) s)
    (hS : ∀ s ∈ Set.Icc t (t + steps * h), ‖y s‖ ≤ S) :
    ‖(rk4Integrate (fun _ y => A *ᵥ y) t (y t) h steps).2 - y (t + steps * h)‖ ≤
      L ^ 5 * S / 120 * (steps * h) * Real.exp (L * (steps * h)) * h ^ 4 := by
  set f : ℝ → (Fin n → ℝ) → Fin n → ℝ := fun _ y => A *ᵥ y with hf
  rw [(rk4_observer f t (y t) h steps).2]
  set it := fun k : ℕ => (fun p : ℝ × (Fin n → ℝ) => (p.1 + h, rk4Step f p.1 p.2 h))^[k] (t, y t) with hit
  have hS0 : 0 ≤ S := (norm_nonneg _).trans (hS t ⟨le_rfl, by nlinarith [mul_nonneg (Nat.cast_nonneg (α := ℝ) steps) hh]⟩)
  have hlip : ∀ t y z, ‖f t y - f t z‖ ≤ L * ‖y - z‖ := by
    intro t y z
    simp only [hf]
    rw [← Matrix.mulVec_sub]
    exact hA _
  have main : ∀ k : ℕ, k ≤ steps → ‖(it k).2 - y (t + k * h)‖ ≤
      L ^ 5 * S / 120 * (k * h) * Real.exp (L * (k * h)) * h ^ 4 := by
    intro k
    induction k with
    | zero => intro _; simp [hit]
    | succ k ih =>
      intro hk
      have hk' : (k : ℝ) + 1 ≤ steps := by exact_mod_cast hk
      have hkh : (0 : ℝ) ≤ k * h := mul_nonneg (Nat.cast_nonneg _) hh
      have hsub : Set.Icc (t + k * h) (t + k * h + h) ⊆ Set.Icc t (t + steps * h) := by
        apply Set.Icc_subset_Icc (by linarith)
        nlinarith
      have hloc := linear_taylor A L S hL hA y (t + k * h) (t + k * h + h)
        (fun s hs' => (hy s (hsub hs')).mono hsub) (fun s hs' => hS s (hsub hs')) 5 (t + k * h + h)
        ⟨by linarith, le_rfl⟩
      have hpoly : rk4Step f (t + k * h) (y (t + k * h)) h =
          ∑ j ∈ Finset.range 5, ((t + k * h + h - (t + k * h)) ^ j / (j.factorial : ℝ)) • (A ^ j *ᵥ y (t + k * h)) := by
        rw [rk4_linear, add_sub_cancel_left]
        simp [Finset.sum_range_succ, Nat.factorial]
      rw [← hpoly, add_sub_cancel_left, norm_sub_rev] at hloc
      have e : t + ((k + 1 : ℕ) : ℝ) * h = t + k * h + h := by push_cast; ring
      have hstep : (it (k + 1)).2 = rk4Step f (t + k * h) (it k).2 h := by
        simp only [hit, Function.iterate_succ_apply', rk4_times]
      rw [e, hstep]
      have htri : rk4Step f (t + k * h) (it k).2 h - y (t + k * h + h) =
          (rk4Step f (t + k * h) (it k).2 h - rk4Step f (t + k * h) (y (t + k * h)) h) +
          (rk4Step f (t + k * h) (y (t + k * h)) h - y (t + k * h + h)) := by abel
      rw [htri]
      refine (norm_add_le _ _).trans ?_
      have h1 := (rk4Step_lipschitz f L hL hlip (t + k * h) h hh (it k).2 (y (t + k * h))).trans
        (mul_le_mul_of_nonneg_left (ih (by omega)) (Real.exp_pos _).le)
      have hexp : Real.exp (h * L) * Real.exp (L * (k * h)) = Real.exp (L * (((k + 1 : ℕ) : ℝ) * h)) := by
        rw [← Real.exp_add]; congr 1; push_cast; ring
      have hone : 1 ≤ Real.exp (L * (((k + 1 : ℕ) : ℝ) * h)) :=
        Real.one_le_exp (by positivity)
      have h3 : Real.exp (h * L) * (L ^ 5 * S / 120 * (k * h) * Real.exp (L * (k * h)) * h ^ 4) =
          L ^ 5 * S / 120 * (k * h) * Real.exp (L * (((k + 1 : ℕ) : ℝ) * h)) * h ^ 4 := by
        rw [← hexp]; ring
      rw [h3] at h1
      generalize Real.exp (L * (((k + 1 : ℕ) : ℝ) * h)) = E at h1 hone ⊢
      have hc : (0 : ℝ) ≤ L ^ 5 * S * (h ^ 5 / (Nat.factorial 5 : ℕ)) := by positivity
      refine (add_le_add h1 (hloc.trans (le_mul_of_one_le_right hc hone))).trans (le_of_eq ?_)
      simp only [Nat.factorial]
      push_cast
      ring
  exact main steps le_rfl

/-- The rotation `y'' = -y`: the hypotheses hold with `L = S = 1`. -/
example (h : ℝ) (hh : 0 ≤ h) (N : ℕ) :
    ‖(rk4Integrate (fun _ y => !![0, 1; -1, 0] *ᵥ y) 0 ![0, 1] h N).2 - ![Real.sin (N * h), Real.cos (N * h)]‖ ≤
      1 / 120 * (N * h) * Real.exp (N * h) * h ^ 4 := by
  have hA : ∀ v : Fin 2 → ℝ, (!![0, 1; -1, 0] : Matrix (Fin 2) (Fin 2) ℝ) *ᵥ v = ![v 1, - v 0] := by
    intro v; funext i; fin_cases i <;> simp [Matrix.mulVec, dotProduct, Fin.sum_univ_two]
  have := rk4_linear_order !![0, 1; -1, 0] 1 1 zero_le_one
    (fun v => by
      rw [hA, one_mul]
      refine (pi_norm_le_iff_of_nonneg (norm_nonneg _)).2 fun i => ?_
      fin_cases i
      · simpa using norm_le_pi_norm v 1
      · simpa using norm_le_pi_norm v 0)
    (fun s => ![Real.sin s, Real.cos s]) 0 h hh N
    (fun s _ => by
      rw [hA, hasDerivWithinAt_pi]
      intro i
      fin_cases i
      · simpa using (Real.hasDerivAt_sin s).hasDerivWithinAt
      · simpa using (Real.hasDerivAt_cos s).hasDerivWithinAt)
    (fun s _ => by
      refine (pi_norm_le_iff_of_nonneg zero_le_one).2 fun i => ?_
      fin_cases i
      · simpa using Real.abs_sin_le_one s
      · simpa using Real.abs_cos_le_one s)
  simpa using this

end Multicalc
