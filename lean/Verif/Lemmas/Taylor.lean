import Verif.Lemmas.Autodiff
import Mathlib.Analysis.Calculus.IteratedDeriv.Lemmas
import Mathlib.Analysis.Calculus.FDeriv.Analytic
import Mathlib.Tactic

/-!
# Taylor coefficients

`tc f t k` is the `k`-th Taylor coefficient of `f` at `t`; products, derivatives and linear
combinations of functions act on the coefficients as on power series.
-/

open Filter Topology

namespace Multicalc

/-- The `k`-th Taylor coefficient of `f` at `t`. -/
noncomputable def tc (f : ℝ → ℝ) (t : ℝ) (k : ℕ) : ℝ := iteratedDeriv k f t / (k.factorial : ℝ)

variable {f g : ℝ → ℝ} {t : ℝ}

theorem tc_zero (f : ℝ → ℝ) (t : ℝ) : tc f t 0 = f t := by simp [tc]

theorem tc_congr (h : f =ᶠ[𝓝 t] g) (k : ℕ) : tc f t k = tc g t k := by
  unfold tc; rw [h.iteratedDeriv_eq k]

theorem tc_add (hf : AnalyticAt ℝ f t) (hg : AnalyticAt ℝ g t) (k : ℕ) :
    tc (fun s => f s + g s) t k = tc f t k + tc g t k := by
  unfold tc
  have := iteratedDeriv_add (n := k) hf.contDiffAt hg.contDiffAt
  rw [show (fun s => f s + g s) = f + g from rfl, this, add_div]

theorem tc_sub (hf : AnalyticAt ℝ f t) (hg : AnalyticAt ℝ g t) (k : ℕ) :
    tc (fun s => f s - g s) t k = tc f t k - tc g t k := by
  unfold tc
  have := iteratedDeriv_sub (n := k) hf.contDiffAt hg.contDiffAt
  rw [show (fun s => f s - g s) = f - g from rfl, this, sub_div]

theorem tc_const_mul (c : ℝ) (f : ℝ → ℝ) (t : ℝ) (k : ℕ) :
    tc (fun s => c * f s) t k = c * tc f t k := by
  unfold tc
  rw [iteratedDeriv_const_mul_field, mul_div_assoc]

theorem tc_neg (f : ℝ → ℝ) (t : ℝ) (k : ℕ) : tc (fun s => -f s) t k = -tc f t k := by
  have := tc_const_mul (-1) f t k
  simpa using this

theorem tc_const (c t : ℝ) (k : ℕ) : tc (fun _ => c) t k = if k = 0 then c else 0 := by
  unfold tc
  rw [iteratedDeriv_const]
  split_ifs with h
  · subst h; simp
  · simp

theorem tc_deriv (f : ℝ → ℝ) (t : ℝ) (k : ℕ) :
    tc (deriv f) t k = ((k + 1 : ℕ) : ℝ) * tc f t (k + 1) := by
  unfold tc
  rw [← iteratedDeriv_succ', Nat.factorial_succ]
  have : (k.factorial : ℝ) ≠ 0 := by exact_mod_cast k.factorial_ne_zero
  have h2 : ((k + 1 : ℕ) : ℝ) ≠ 0 := by exact_mod_cast k.succ_ne_zero
  push_cast at *
  field_simp

theorem tc_mul (hf : AnalyticAt ℝ f t) (hg : AnalyticAt ℝ g t) (k : ℕ) :
    tc (fun s => f s * g s) t k = ∑ i ∈ Finset.range (k + 1), tc f t i * tc g t (k - i) := by
  unfold tc
  have := iteratedDeriv_mul (n := k) hf.contDiffAt hg.contDiffAt
  rw [show (fun s => f s * g s) = f * g from rfl, this, Finset.sum_div]
  refine Finset.sum_congr rfl fun i hi => ?_
  have hik : i ≤ k := by have := Finset.mem_range.1 hi; omega
  have h1 : (i.factorial : ℝ) ≠ 0 := by exact_mod_cast i.factorial_ne_zero
  have h2 : ((k - i).factorial : ℝ) ≠ 0 := by exact_mod_cast (k - i).factorial_ne_zero
  have h3 : (k.factorial : ℝ) ≠ 0 := by exact_mod_cast k.factorial_ne_zero
  have h4 : (k.choose i : ℝ) * i.factorial * (k - i).factorial = k.factorial := by
    exact_mod_cast Nat.choose_mul_factorial_mul_factorial hik
  rw [div_mul_div_comm, div_eq_div_iff h3 (mul_ne_zero h1 h2), ← h4]
  ring

/-- Nearby, an analytic function has the derivative `deriv f`. -/
theorem eventually_hasDerivAt (hf : AnalyticAt ℝ f t) :
    ∀ᶠ s in 𝓝 t, HasDerivAt f (deriv f s) s := by
  filter_upwards [hf.eventually_analyticAt] with s hs
  exact hs.differentiableAt.hasDerivAt

/-! ### The accumulation and fill loops -/

theorem accLoop_sum (lo hi : ℕ) (f : ℕ → ℝ) (acc : ℝ) :
    accLoop lo hi f acc = acc + ∑ i ∈ Finset.Ico lo hi, f i := by
  unfold accLoop
  rw [Finset.sum_Ico_eq_sum_range]
  induction hi - lo generalizing lo acc with
  | zero => simp
  | succ n ih =>
    rw [List.range'_succ, List.foldl_cons, ih, Finset.sum_range_succ', add_assoc]
    congr 1
    rw [add_comm, add_zero]
    congr 1
    refine Finset.sum_congr rfl fun i _ => ?_
    congr 1
    ring

theorem decLoop_sum (lo hi : ℕ) (f : ℕ → ℝ) (acc : ℝ) :
    decLoop lo hi f acc = acc - ∑ i ∈ Finset.Ico lo hi, f i := by
  have h : decLoop lo hi f acc = accLoop lo hi (fun i => -f i) acc := by
    unfold decLoop accLoop
    simp only [sub_eq_add_neg]
  rw [h, accLoop_sum, Finset.sum_neg_distrib, sub_eq_add_neg]

/-- A fill loop computes any sequence that solves its recurrence. -/
theorem fillLoop_solves {u : ℕ → ℝ} (lo hi : ℕ) (step : ℕ → (ℕ → ℝ) → ℝ) (out : ℕ → ℝ)
    (h0 : ∀ j < lo, out j = u j)
    (hstep : ∀ k, lo ≤ k → k < hi → ∀ o : ℕ → ℝ, (∀ j < k, o j = u j) → step k o = u k) :
    ∀ j < max lo hi, fillLoop lo hi step out j = u j := by
  unfold fillLoop
  obtain ⟨n, hn⟩ : ∃ n, hi - lo = n := ⟨_, rfl⟩
  rw [hn]
  induction n generalizing lo out with
  | zero =>
    intro j hj
    rw [List.range'_zero, List.foldl_nil]
    exact h0 j (by omega)
  | succ n ih =>
    intro j hj
    rw [List.range'_succ, List.foldl_cons]
    refine ih (lo + 1) _ ?_ (fun k h1 h2 => hstep k (by omega) h2) (by omega) j (by omega)
    intro i hi'
    by_cases hil : i = lo
    · subst hil
      rw [Function.update_self]
      exact hstep i le_rfl (by omega) out h0
    · rw [Function.update_of_ne hil]
      exact h0 i (by omega)

/-- The same for the loops that fill two arrays together. -/
theorem pairLoop_solves {u v : ℕ → ℝ} (lo n : ℕ)
    (s1 : ℕ → (ℕ → ℝ) × (ℕ → ℝ) → ℝ) (s2 : ℕ → (ℕ → ℝ) × (ℕ → ℝ) → ℝ)
    (st : (ℕ → ℝ) × (ℕ → ℝ))
    (h0 : ∀ j < lo, st.1 j = u j ∧ st.2 j = v j)
    (hstep : ∀ k, lo ≤ k → k < lo + n → ∀ o : (ℕ → ℝ) × (ℕ → ℝ),
      (∀ j < k, o.1 j = u j ∧ o.2 j = v j) → s1 k o = u k ∧ s2 k o = v k) :
    ∀ j < lo + n,
      ((List.range' lo n).foldl (fun (st : (ℕ → ℝ) × (ℕ → ℝ)) k =>
        (Function.update st.1 k (s1 k st), Function.update st.2 k (s2 k st))) st).1 j = u j ∧
      ((List.range' lo n).foldl (fun (st : (ℕ → ℝ) × (ℕ → ℝ)) k =>
        (Function.update st.1 k (s1 k st), Function.update st.2 k (s2 k st))) st).2 j = v j := by
  induction n generalizing lo st with
  | zero =>
    intro j hj
    exact h0 j (by omega)
  | succ n ih =>
    intro j hj
    rw [List.range'_succ, List.foldl_cons]
    refine ih (lo + 1) _ ?_ (fun k h1 h2 => hstep k (by omega) (by omega)) j (by omega)
    intro i hi'
    by_cases hil : i = lo
    · subst hil
      simp only [Function.update_self]
      exact hstep i le_rfl (by omega) st h0
    · simp only [Function.update_of_ne hil]
      exact h0 i (by omega)

end Multicalc
