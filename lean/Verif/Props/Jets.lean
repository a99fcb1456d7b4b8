import Verif.Lemmas.Taylor
import Verif.Props.AutodiffValue
import Verif.Props.Autodiff
import Mathlib.Tactic

/-!
# Jets carry Taylor coefficients
-/

open Filter Topology ContDiff

namespace Multicalc

/-- The jet `a` holds the Taylor coefficients of the (analytic) function `f` at `t`. -/
def IsJet {N : ℕ} (f : ℝ → ℝ) (t : ℝ) (a : Jet ℝ N) : Prop :=
  AnalyticAt ℝ f t ∧ ∀ k < N, a.get k = tc f t k

variable {N : ℕ} {f g : ℝ → ℝ} {t : ℝ} {a b : Jet ℝ N}

theorem IsJet.value (h : IsJet f t a) (hN : 0 < N) : a.get 0 = f t := by
  rw [h.2 0 hN, tc_zero]

theorem IsJet.congr (h : IsJet f t a) (hfg : g =ᶠ[𝓝 t] f) : IsJet g t a :=
  ⟨h.1.congr hfg.symm, fun k hk => by rw [h.2 k hk, tc_congr hfg]⟩

theorem sum_ends {k : ℕ} (hk : 1 ≤ k) (F : ℕ → ℝ) :
    ∑ i ∈ Finset.range (k + 1), F i = F 0 + ∑ i ∈ Finset.Ico 1 k, F i + F k := by
  rw [Finset.sum_range_succ, Finset.range_eq_Ico, Finset.sum_eq_sum_Ico_succ_bot (by omega)]

theorem tc_deriv_mul (hf : AnalyticAt ℝ f t) (hg : AnalyticAt ℝ g t) (m : ℕ) :
    tc (fun s => deriv f s * g s) t m =
      ∑ i ∈ Finset.Ico 1 (m + 2), (i : ℝ) * tc f t i * tc g t (m + 1 - i) := by
  rw [tc_mul hf.deriv hg, Finset.sum_Ico_eq_sum_range]
  refine Finset.sum_congr rfl fun i _ => ?_
  rw [tc_deriv, add_comm 1 i, Nat.add_sub_add_right]

theorem tc_mul_deriv (hf : AnalyticAt ℝ f t) (hg : AnalyticAt ℝ g t) (m : ℕ) :
    tc (fun s => f s * deriv g s) t m =
      ∑ i ∈ Finset.range (m + 1), tc f t i * (((m + 1 - i : ℕ) : ℝ) * tc g t (m + 1 - i)) := by
  rw [tc_mul hf hg.deriv]
  refine Finset.sum_congr rfl fun i hi => ?_
  have : m + 1 - i = m - i + 1 := by have := Finset.mem_range.1 hi; omega
  rw [tc_deriv, this]

theorem isJet_const (c t : ℝ) : IsJet (fun _ => c) t (Jet.constant c : Jet ℝ N) := by
  refine ⟨analyticAt_const, fun k hk => ?_⟩
  refine (jet_get_ofFn _ hk).trans ?_
  rw [tc_const]
  by_cases h : k = 0
  · subst h; simp
  · simp [h]

theorem isJet_variable (t : ℝ) : IsJet (fun s => s) t (Jet.variable' t : Jet ℝ N) := by
  refine ⟨analyticAt_id, fun k hk => ?_⟩
  refine (jet_get_ofFn _ hk).trans ?_
  unfold tc
  have hid : (fun s : ℝ => s) = id := rfl
  match k with
  | 0 => simp
  | 1 => rw [hid, iteratedDeriv_id]; simp
  | k + 2 => rw [hid, iteratedDeriv_id]; simp [Function.update]

theorem IsJet.add (ha : IsJet f t a) (hb : IsJet g t b) : IsJet (fun s => f s + g s) t (a + b) :=
  ⟨ha.1.add hb.1, fun k hk => by
    refine (jet_get_ofFn (fun k => a.get k + b.get k) hk).trans ?_
    rw [tc_add ha.1 hb.1, ha.2 k hk, hb.2 k hk]⟩

theorem IsJet.sub (ha : IsJet f t a) (hb : IsJet g t b) : IsJet (fun s => f s - g s) t (a - b) :=
  ⟨ha.1.sub hb.1, fun k hk => by
    refine (jet_get_ofFn (fun k => a.get k - b.get k) hk).trans ?_
    rw [tc_sub ha.1 hb.1, ha.2 k hk, hb.2 k hk]⟩

theorem IsJet.neg (ha : IsJet f t a) : IsJet (fun s => -f s) t (-a) :=
  ⟨ha.1.neg, fun k hk => by
    refine (jet_get_ofFn (fun k => -a.get k) hk).trans ?_
    rw [tc_neg, ha.2 k hk]⟩

theorem IsJet.mul (ha : IsJet f t a) (hb : IsJet g t b) : IsJet (fun s => f s * g s) t (a * b) :=
  ⟨ha.1.mul hb.1, fun k hk => by
    refine (jet_get_ofFn (fun k => accLoop 0 (k + 1) (fun i => a.get i * b.get (k - i)) 0)
      hk).trans ?_
    rw [tc_mul ha.1 hb.1, accLoop_sum, zero_add, ← Finset.range_eq_Ico]
    refine Finset.sum_congr rfl fun i hi => ?_
    have := Finset.mem_range.1 hi
    rw [ha.2 i (by omega), hb.2 (k - i) (by omega)]⟩

theorem IsJet.div (ha : IsJet f t a) (hb : IsJet g t b) (h0 : g t ≠ 0) :
    IsJet (fun s => f s / g s) t (a / b) := by
  have hq : AnalyticAt ℝ (fun s => f s / g s) t := ha.1.div hb.1 h0
  refine ⟨hq, fun k hk => ?_⟩
  refine (jet_get_ofFn (fillLoop 0 N
    (fun k quot => decLoop 0 k (fun i => quot i * b.get (k - i)) (a.get k) / b.get 0)
    (fun _ => 0)) hk).trans ?_
  refine fillLoop_solves (u := fun k => tc (fun s => f s / g s) t k) 0 N _ _ (by simp) ?_ k
    (by simpa using hk)
  intro k _ hk o ho
  have hne : ∀ᶠ s in 𝓝 t, g s ≠ 0 := hb.1.continuousAt.eventually_ne h0
  have key : tc (fun s => f s / g s * g s) t k = tc f t k :=
    tc_congr (by filter_upwards [hne] with s hs; field_simp) k
  rw [tc_mul hq hb.1, Finset.sum_range_succ, Nat.sub_self, tc_zero g] at key
  rw [decLoop_sum, hb.value (by omega), ha.2 k hk, div_eq_iff h0, ← Finset.range_eq_Ico]
  rw [← key, add_sub_assoc, add_comm, sub_add_eq_add_sub, add_sub_assoc, sub_eq_zero.2, add_zero]
  refine Finset.sum_congr rfl fun i hi => ?_
  have := Finset.mem_range.1 hi
  rw [ho i this, hb.2 _ (by omega)]

theorem IsJet.sqrt (ha : IsJet f t a) (h0 : 0 < f t) :
    IsJet (fun s => Real.sqrt (f s)) t (Jet.ofFn (Jet.sqrtArray a) : Jet ℝ N) := by
  have hu : AnalyticAt ℝ (fun s => Real.sqrt (f s)) t :=
    ((UnOp.sqrt.contDiffAt (m := ω) h0).comp t ha.1.contDiffAt).analyticAt
  refine ⟨hu, fun k hk => ?_⟩
  refine (jet_get_ofFn (Jet.sqrtArray a) hk).trans ?_
  unfold Jet.sqrtArray
  refine fillLoop_solves (u := fun k => tc (fun s => Real.sqrt (f s)) t k) 1 N _ _ ?_ ?_ k
    (by rw [lt_max_iff]; exact Or.inr hk)
  · intro j hj
    obtain rfl : j = 0 := by omega
    rw [Function.update_self, ha.value (by omega), tc_zero]
    rfl
  · intro k h1 hk o ho
    have hpos : ∀ᶠ s in 𝓝 t, 0 < f s := ha.1.continuousAt.eventually (eventually_gt_nhds h0)
    have key : tc (fun s => Real.sqrt (f s) * Real.sqrt (f s)) t k = tc f t k :=
      tc_congr (by filter_upwards [hpos] with s hs; exact Real.mul_self_sqrt hs.le) k
    rw [tc_mul hu hu, sum_ends h1, Nat.sub_self, Nat.sub_zero] at key
    have hs : ∑ i ∈ Finset.Ico 1 k, o i * o (k - i) =
        ∑ i ∈ Finset.Ico 1 k, tc (fun s => Real.sqrt (f s)) t i *
          tc (fun s => Real.sqrt (f s)) t (k - i) := by
      refine Finset.sum_congr rfl fun i hi => ?_
      have := Finset.mem_Ico.1 hi
      rw [ho i (by omega), ho (k - i) (by omega)]
    have hr : tc (fun s => Real.sqrt (f s)) t 0 ≠ 0 := by
      rw [tc_zero]; exact (Real.sqrt_pos.2 h0).ne'
    rw [accLoop_sum, hs, ho 0 (by omega), ha.2 k hk, ← key, zero_add]
    push_cast
    rw [div_eq_iff (by simpa using hr)]
    ring

theorem IsJet.cbrt (ha : IsJet f t a) (h0 : f t ≠ 0) :
    IsJet (fun s => realCbrt (f s)) t (Jet.ofFn (Jet.cbrtArray a) : Jet ℝ N) := by
  have hu : AnalyticAt ℝ (fun s => realCbrt (f s)) t :=
    ((UnOp.cbrt.contDiffAt (m := ω) h0).comp t ha.1.contDiffAt).analyticAt
  refine ⟨hu, fun k hk => ?_⟩
  refine (jet_get_ofFn (Jet.cbrtArray a) hk).trans ?_
  set u : ℝ → ℝ := fun s => realCbrt (f s) with hudef
  set w : ℝ → ℝ := fun s => u s * u s with hw
  have hwa : AnalyticAt ℝ w t := hu.mul hu
  have hu0 : tc u t 0 ≠ 0 := by rw [tc_zero]; exact realCbrt_ne h0
  have hv : a.get 0 = f t := ha.value (by omega)
  unfold Jet.cbrtArray Jet.cbrtLoop
  dsimp only
  refine (pairLoop_solves (u := fun k => tc u t k) (v := fun k => tc w t k) 1 (N - 1)
    (fun k st => (a.get k - accLoop 1 k (fun i => st.1 i * st.2 (k - i))
      (st.1 0 * accLoop 1 k (fun term => st.1 term * st.1 (k - term)) 0)) /
      (Fns.cbrt (a.get 0) * Fns.cbrt (a.get 0) +
        ((2 : ℕ) : ℝ) * (Fns.cbrt (a.get 0) * Fns.cbrt (a.get 0))))
    (fun k st => accLoop 1 k (fun term => st.1 term * st.1 (k - term)) 0 +
      ((2 : ℕ) : ℝ) * st.1 0 * ((a.get k - accLoop 1 k (fun i => st.1 i * st.2 (k - i))
      (st.1 0 * accLoop 1 k (fun term => st.1 term * st.1 (k - term)) 0)) /
      (Fns.cbrt (a.get 0) * Fns.cbrt (a.get 0) +
        ((2 : ℕ) : ℝ) * (Fns.cbrt (a.get 0) * Fns.cbrt (a.get 0))))) _ ?_ ?_ k (by omega)).1
  · intro j hj
    obtain rfl : j = 0 := by omega
    simp only [Function.update_self, hv]
    exact ⟨(tc_zero u t).symm, (tc_zero w t).symm⟩
  · intro k h1 hk o ho
    have hk' : k < N := by omega
    have e1 : accLoop 1 k (fun term => o.1 term * o.1 (k - term)) 0 =
        ∑ i ∈ Finset.Ico 1 k, tc u t i * tc u t (k - i) := by
      rw [accLoop_sum, zero_add]
      refine Finset.sum_congr rfl fun i hi => ?_
      have := Finset.mem_Ico.1 hi
      rw [(ho i (by omega)).1, (ho (k - i) (by omega)).1]
    have e2 : ∑ i ∈ Finset.Ico 1 k, o.1 i * o.2 (k - i) =
        ∑ i ∈ Finset.Ico 1 k, tc u t i * tc w t (k - i) := by
      refine Finset.sum_congr rfl fun i hi => ?_
      have := Finset.mem_Ico.1 hi
      rw [(ho i (by omega)).1, (ho (k - i) (by omega)).2]
    have kw : tc w t k = tc u t 0 * tc u t k + ∑ i ∈ Finset.Ico 1 k, tc u t i * tc u t (k - i)
        + tc u t k * tc u t 0 := by
      rw [hw, tc_mul hu hu, sum_ends h1, Nat.sub_self, Nat.sub_zero]
    have kf : tc f t k = tc u t 0 * tc w t k + ∑ i ∈ Finset.Ico 1 k, tc u t i * tc w t (k - i)
        + tc u t k * tc w t 0 := by
      rw [← tc_congr (f := fun s => u s * w s) (g := f) (Eventually.of_forall fun s => by
        simp only [hw, hudef]; linarith [realCbrt_cube (f s)]) k, tc_mul hu hwa, sum_ends h1,
        Nat.sub_self, Nat.sub_zero]
    have hw0 : tc w t 0 = tc u t 0 * tc u t 0 := by rw [tc_zero, tc_zero]
    have hc : (Fns.cbrt (a.get 0) : ℝ) = tc u t 0 := by rw [hv, tc_zero]; rfl
    have hout : (a.get k - accLoop 1 k (fun i => o.1 i * o.2 (k - i))
        (o.1 0 * accLoop 1 k (fun term => o.1 term * o.1 (k - term)) 0)) /
        (Fns.cbrt (a.get 0) * Fns.cbrt (a.get 0) +
        ((2 : ℕ) : ℝ) * (Fns.cbrt (a.get 0) * Fns.cbrt (a.get 0))) = tc u t k := by
      rw [e1, accLoop_sum, e2, hc, ha.2 k hk', kf, kw, hw0, (ho 0 (by omega)).1]
      push_cast
      rw [div_eq_iff (by
        rw [show tc u t 0 * tc u t 0 + 2 * (tc u t 0 * tc u t 0) = 3 * (tc u t 0 * tc u t 0) by
          ring]
        exact mul_ne_zero (by norm_num) (mul_ne_zero hu0 hu0))]
      ring
    refine ⟨hout, ?_⟩
    beta_reduce
    rw [hout, e1, (ho 0 (by omega)).1, kw]
    push_cast
    ring

theorem IsJet.sinCos (ha : IsJet f t a) :
    IsJet (fun s => Real.sin (f s)) t (Jet.sinCos a).1 ∧
    IsJet (fun s => Real.cos (f s)) t (Jet.sinCos a).2 := by
  have hs : AnalyticAt ℝ (fun s => Real.sin (f s)) t :=
    ((UnOp.sin.contDiffAt (m := ω) (x := f t) trivial).comp t ha.1.contDiffAt).analyticAt
  have hc : AnalyticAt ℝ (fun s => Real.cos (f s)) t :=
    ((UnOp.cos.contDiffAt (m := ω) (x := f t) trivial).comp t ha.1.contDiffAt).analyticAt
  have key : ∀ k < N, (Jet.sinCos a).1.get k = tc (fun s => Real.sin (f s)) t k ∧
      (Jet.sinCos a).2.get k = tc (fun s => Real.cos (f s)) t k := by
    intro k hk
    have hv : a.get 0 = f t := ha.value (by omega)
    have := pairLoop_solves (u := fun k => tc (fun s => Real.sin (f s)) t k)
      (v := fun k => tc (fun s => Real.cos (f s)) t k) 1 (N - 1)
      (fun k st => accLoop 1 (k + 1) (fun i => (i : ℝ) * a.get i * st.2 (k - i)) 0 / (k : ℝ))
      (fun k st => -(accLoop 1 (k + 1) (fun i => (i : ℝ) * a.get i * st.1 (k - i)) 0 / (k : ℝ)))
      (Function.update (fun _ => 0) 0 (Fns.sin (a.get 0)),
        Function.update (fun _ => 0) 0 (Fns.cos (a.get 0))) ?_ ?_ k (by omega)
    · refine ⟨(jet_get_ofFn _ hk).trans this.1, (jet_get_ofFn _ hk).trans this.2⟩
    · intro j hj
      obtain rfl : j = 0 := by omega
      simp only [Function.update_self, hv]
      exact ⟨(tc_zero (fun s => Real.sin (f s)) t).symm,
        (tc_zero (fun s => Real.cos (f s)) t).symm⟩
    · intro k h1 hk o ho
      obtain ⟨m, rfl⟩ : ∃ m, k = m + 1 := ⟨k - 1, by omega⟩
      have hk0 : ((m + 1 : ℕ) : ℝ) ≠ 0 := by exact_mod_cast m.succ_ne_zero
      have d1 : deriv (fun s => Real.sin (f s)) =ᶠ[𝓝 t]
          fun s => deriv f s * Real.cos (f s) := by
        filter_upwards [eventually_hasDerivAt ha.1] with s h
        rw [h.sin.deriv, mul_comm]
      have d2 : deriv (fun s => Real.cos (f s)) =ᶠ[𝓝 t]
          fun s => -(deriv f s * Real.sin (f s)) := by
        filter_upwards [eventually_hasDerivAt ha.1] with s h
        rw [h.cos.deriv]; ring
      have k1 := tc_deriv (fun s => Real.sin (f s)) t m
      rw [tc_congr d1, tc_deriv_mul ha.1 hc] at k1
      have k2 := tc_deriv (fun s => Real.cos (f s)) t m
      rw [tc_congr d2, tc_neg, tc_deriv_mul ha.1 hs] at k2
      constructor
      · rw [accLoop_sum, zero_add, div_eq_iff hk0, mul_comm (tc _ t _), ← k1]
        refine Finset.sum_congr rfl fun i hi => ?_
        have := Finset.mem_Ico.1 hi
        rw [ha.2 i (by omega), (ho _ (by omega)).2]
      · rw [accLoop_sum, zero_add, neg_eq_iff_eq_neg, div_eq_iff hk0, neg_mul, mul_comm (tc _ t _),
          ← k2, neg_neg]
        refine Finset.sum_congr rfl fun i hi => ?_
        have := Finset.mem_Ico.1 hi
        rw [ha.2 i (by omega), (ho _ (by omega)).1]
  exact ⟨⟨hs, fun k hk => (key k hk).1⟩, ⟨hc, fun k hk => (key k hk).2⟩⟩

theorem expArray_spec (ha : IsJet f t a) :
    ∀ k < N, Jet.expArray a k = tc (fun s => Real.exp (f s)) t k := by
  have hu : AnalyticAt ℝ (fun s => Real.exp (f s)) t :=
    ((UnOp.exp.contDiffAt (m := ω) (x := f t) trivial).comp t ha.1.contDiffAt).analyticAt
  intro k hk
  unfold Jet.expArray
  refine fillLoop_solves (u := fun k => tc (fun s => Real.exp (f s)) t k) 1 N _ _ ?_ ?_ k
    (by rw [lt_max_iff]; exact Or.inr hk)
  · intro j hj
    obtain rfl : j = 0 := by omega
    rw [Function.update_self, ha.value (by omega), tc_zero]
    rfl
  · intro k h1 hk o ho
    obtain ⟨m, rfl⟩ : ∃ m, k = m + 1 := ⟨k - 1, by omega⟩
    have hk0 : ((m + 1 : ℕ) : ℝ) ≠ 0 := by exact_mod_cast m.succ_ne_zero
    have d1 : deriv (fun s => Real.exp (f s)) =ᶠ[𝓝 t] fun s => deriv f s * Real.exp (f s) := by
      filter_upwards [eventually_hasDerivAt ha.1] with s h
      rw [h.exp.deriv, mul_comm]
    have k1 := tc_deriv (fun s => Real.exp (f s)) t m
    rw [tc_congr d1, tc_deriv_mul ha.1 hu] at k1
    rw [accLoop_sum, zero_add, div_eq_iff hk0, mul_comm (tc _ t _), ← k1]
    refine Finset.sum_congr rfl fun i hi => ?_
    have := Finset.mem_Ico.1 hi
    rw [ha.2 i (by omega), ho _ (by omega)]

theorem IsJet.exp (ha : IsJet f t a) :
    IsJet (fun s => Real.exp (f s)) t (Jet.ofFn (Jet.expArray a) : Jet ℝ N) :=
  ⟨((UnOp.exp.contDiffAt (m := ω) (x := f t) trivial).comp t ha.1.contDiffAt).analyticAt,
    fun k hk => (jet_get_ofFn _ hk).trans (expArray_spec ha k hk)⟩

theorem IsJet.expm1 (ha : IsJet f t a) :
    IsJet (fun s => Real.exp (f s) - 1) t
      (Jet.ofFn (Function.update (Jet.expArray a) 0 (Fns.expm1 (a.get 0))) : Jet ℝ N) := by
  have hu : AnalyticAt ℝ (fun s => Real.exp (f s)) t :=
    ((UnOp.exp.contDiffAt (m := ω) (x := f t) trivial).comp t ha.1.contDiffAt).analyticAt
  refine ⟨hu.sub analyticAt_const, fun k hk => (jet_get_ofFn _ hk).trans ?_⟩
  rw [tc_sub hu analyticAt_const, tc_const]
  by_cases h : k = 0
  · subst h
    rw [Function.update_self, ha.value hk, tc_zero]
    simp
    rfl
  · rw [Function.update_of_ne h, expArray_spec ha k hk, if_neg h, sub_zero]

/-- The common recurrence of `log` and `ln_1p`: `d u' = f'`, where `d` differs from `f` by a
constant. -/
theorem logArray_spec {u : ℝ → ℝ} {c : ℝ} (ha : IsJet f t a) (hu : AnalyticAt ℝ u t)
    (hd : c + f t ≠ 0)
    (hode : (fun s => (c + f s) * deriv u s) =ᶠ[𝓝 t] deriv f) (first divisor : ℝ)
    (h1 : first = u t) (h2 : divisor = c + f t) :
    ∀ k < N, Jet.logArray a first divisor k = tc u t k := by
  intro k hk
  unfold Jet.logArray
  refine fillLoop_solves (u := fun k => tc u t k) 1 N _ _ ?_ ?_ k
    (by rw [lt_max_iff]; exact Or.inr hk)
  · intro j hj
    obtain rfl : j = 0 := by omega
    rw [Function.update_self, tc_zero, h1]
  · intro k hk1 hk o ho
    obtain ⟨m, rfl⟩ : ∃ m, k = m + 1 := ⟨k - 1, by omega⟩
    have hk0 : ((m + 1 : ℕ) : ℝ) ≠ 0 := by exact_mod_cast m.succ_ne_zero
    have hcf : AnalyticAt ℝ (fun s => c + f s) t := analyticAt_const.add ha.1
    have k1 := tc_deriv f t m
    rw [← tc_congr hode, show (fun s => (c + f s) * deriv u s) =
      fun s => deriv u s * (c + f s) from funext fun s => mul_comm _ _,
      tc_deriv_mul hu hcf, Finset.sum_Ico_succ_top (by omega),
      Nat.sub_self, tc_zero (fun s => c + f s)] at k1
    have hs : ∑ j ∈ Finset.Ico 1 (m + 1), (j : ℝ) * o j * a.get (m + 1 - j) =
        ∑ j ∈ Finset.Ico 1 (m + 1), (j : ℝ) * tc u t j *
          tc (fun s => c + f s) t (m + 1 - j) := by
      refine Finset.sum_congr rfl fun i hi => ?_
      have := Finset.mem_Ico.1 hi
      rw [ho i (by omega), ha.2 _ (by omega), tc_add analyticAt_const ha.1, tc_const,
        if_neg (by omega), zero_add]
    rw [accLoop_sum, zero_add, hs, ha.2 _ hk, h2, div_eq_iff hd]
    have k2 : (∑ j ∈ Finset.Ico 1 (m + 1), (j : ℝ) * tc u t j *
        tc (fun s => c + f s) t (m + 1 - j)) / ((m + 1 : ℕ) : ℝ) =
        tc f t (m + 1) - tc u t (m + 1) * (c + f t) := by
      rw [div_eq_iff hk0]
      linear_combination k1
    rw [k2]
    ring

theorem IsJet.logs (ha : IsJet f t a) (h0 : 0 < f t) :
    ∀ k < N, Jet.logArray a (Fns.log (a.get 0)) (a.get 0) k = tc (fun s => Real.log (f s)) t k := by
  intro k hk
  have hu : AnalyticAt ℝ (fun s => Real.log (f s)) t :=
    ((UnOp.log.contDiffAt (m := ω) h0).comp t ha.1.contDiffAt).analyticAt
  refine logArray_spec (c := 0) ha hu (by simpa using h0.ne') ?_ _ _ ?_ ?_ k hk
  · filter_upwards [eventually_hasDerivAt ha.1,
      ha.1.continuousAt.eventually (eventually_gt_nhds h0)] with s h hs
    rw [(h.log hs.ne').deriv]
    field_simp
    ring
  · rw [ha.value (by omega)]; rfl
  · rw [ha.value (by omega), zero_add]

theorem IsJet.log (ha : IsJet f t a) (h0 : 0 < f t) :
    IsJet (fun s => Real.log (f s)) t
      (Jet.ofFn (Jet.logArray a (Fns.log (a.get 0)) (a.get 0)) : Jet ℝ N) :=
  ⟨((UnOp.log.contDiffAt (m := ω) h0).comp t ha.1.contDiffAt).analyticAt,
    fun k hk => (jet_get_ofFn _ hk).trans (ha.logs h0 k hk)⟩

theorem IsJet.log_div (ha : IsJet f t a) (h0 : 0 < f t) (c : ℝ) :
    IsJet (fun s => Real.log (f s) / c) t
      (Jet.ofFn (fun k => Jet.logArray a (Fns.log (a.get 0)) (a.get 0) k / c) : Jet ℝ N) := by
  have hl := (ha.log h0).1
  refine ⟨?_, fun k hk => (jet_get_ofFn _ hk).trans ?_⟩
  · simp only [div_eq_inv_mul]
    exact analyticAt_const.mul hl
  · rw [ha.logs h0 k hk]
    simp only [div_eq_inv_mul]
    rw [tc_const_mul]

theorem IsJet.ln1p (ha : IsJet f t a) (h0 : 0 < 1 + f t) :
    IsJet (fun s => Real.log (1 + f s)) t
      (Jet.ofFn (Jet.logArray a (Fns.ln1p (a.get 0)) (a.get 0 + 1)) : Jet ℝ N) := by
  have hu : AnalyticAt ℝ (fun s => Real.log (1 + f s)) t :=
    ((UnOp.ln1p.contDiffAt (m := ω) h0).comp t ha.1.contDiffAt).analyticAt
  refine ⟨hu, fun k hk => (jet_get_ofFn _ hk).trans ?_⟩
  refine logArray_spec (c := 1) ha hu h0.ne' ?_ _ _ ?_ ?_ k hk
  · filter_upwards [eventually_hasDerivAt ha.1,
      (continuousAt_const.add ha.1.continuousAt).eventually (eventually_gt_nhds h0)] with s h hs
    have hs' : (1 : ℝ) + f s ≠ 0 := ne_of_gt hs
    rw [((h.const_add 1).log hs').deriv]
    field_simp
  · rw [ha.value (by omega)]; rfl
  · rw [ha.value (by omega), add_comm]

theorem IsJet.atan2 {y x : Jet ℝ N} {fy fx : ℝ → ℝ} (hy : IsJet fy t y) (hx : IsJet fx t x)
    (h : 0 < fx t ∨ fy t ≠ 0) :
    IsJet (fun s => Complex.arg ⟨fx s, fy s⟩) t (Jet.ofFn (Jet.atan2Array y x) : Jet ℝ N) := by
  have hu : AnalyticAt ℝ (fun s => Complex.arg ⟨fx s, fy s⟩) t :=
    (ContDiffAt.comp (g := fun q : ℝ × ℝ => BinOp.atan2.eval q.1 q.2) t
      (BinOp.atan2.contDiffAt (m := ω) (p := (fy t, fx t)) h)
      (hy.1.contDiffAt.prodMk hx.1.contDiffAt)).analyticAt
  have hev : ∀ᶠ s in 𝓝 t, 0 < fx s ∨ fy s ≠ 0 :=
    (hy.1.continuousAt.tendsto.prodMk_nhds hx.1.continuousAt.tendsto).eventually
      (BinOp.atan2.smoothAt_eventually (p := (fy t, fx t)) h)
  refine ⟨hu, fun k hk => (jet_get_ofFn (Jet.atan2Array y x) hk).trans ?_⟩
  set θ : ℝ → ℝ := fun s => Complex.arg ⟨fx s, fy s⟩ with hθ
  have hw : IsJet (fun s => fx s * fx s + fy s * fy s) t (x * x + y * y) :=
    (hx.mul hx).add (hy.mul hy)
  have hw0 : fx t * fx t + fy t * fy t ≠ 0 := by
    rcases h with h | h
    · have : 0 < fx t * fx t := mul_pos h h
      nlinarith [mul_self_nonneg (fy t)]
    · have : 0 < fy t * fy t := mul_self_pos.2 h
      nlinarith [mul_self_nonneg (fx t)]
  unfold Jet.atan2Array
  dsimp only
  refine fillLoop_solves (u := fun k => tc θ t k) 1 N _ _ ?_ ?_ k
    (by rw [lt_max_iff]; exact Or.inr hk)
  · intro j hj
    obtain rfl : j = 0 := by omega
    rw [Function.update_self, hy.value (by omega), hx.value (by omega), tc_zero]
    rfl
  · intro k h1 hk o ho
    obtain ⟨m, rfl⟩ : ∃ m, k = m + 1 := ⟨k - 1, by omega⟩
    have hk0 : ((m + 1 : ℕ) : ℝ) ≠ 0 := by exact_mod_cast m.succ_ne_zero
    have hode : (fun s => (fx s * fx s + fy s * fy s) * deriv θ s) =ᶠ[𝓝 t]
        fun s => fx s * deriv fy s - fy s * deriv fx s := by
      filter_upwards [eventually_hasDerivAt hx.1, eventually_hasDerivAt hy.1, hev] with s h1 h2 h3
      rw [hθ, (hasDerivAt_atan2 h2 h1 h3).deriv]
      have : fy s * fy s + fx s * fx s ≠ 0 := by
        rcases h3 with h | h
        · have : 0 < fx s * fx s := mul_pos h h
          nlinarith [mul_self_nonneg (fy s)]
        · have : 0 < fy s * fy s := mul_self_pos.2 h
          nlinarith [mul_self_nonneg (fx s)]
      rw [add_comm (fx s * fx s), mul_div_cancel₀ _ this]
    have k1 := tc_congr hode m
    have a1 : AnalyticAt ℝ (fun s => fx s * deriv fy s) t := hx.1.mul hy.1.deriv
    have a2 : AnalyticAt ℝ (fun s => fy s * deriv fx s) t := hy.1.mul hx.1.deriv
    rw [tc_mul_deriv hw.1 hu, tc_sub a1 a2] at k1
    rw [show tc (fun s => fx s * deriv fy s) t m = _ from tc_mul_deriv hx.1 hy.1 m,
      show tc (fun s => fy s * deriv fx s) t m = _ from tc_mul_deriv hy.1 hx.1 m,
      ← Finset.sum_sub_distrib, Finset.range_eq_Ico,
      Finset.sum_eq_sum_Ico_succ_bot (by omega), Nat.sub_zero, tc_zero] at k1
    have e1 : ∑ i ∈ Finset.Ico 0 (m + 1), ((m + 1 - i : ℕ) : ℝ) *
        (x.get i * y.get (m + 1 - i) - y.get i * x.get (m + 1 - i)) =
        ∑ i ∈ Finset.Ico 0 (m + 1), (tc fx t i * (((m + 1 - i : ℕ) : ℝ) * tc fy t (m + 1 - i)) -
          tc fy t i * (((m + 1 - i : ℕ) : ℝ) * tc fx t (m + 1 - i))) := by
      refine Finset.sum_congr rfl fun i hi => ?_
      have := Finset.mem_Ico.1 hi
      rw [hx.2 i (by omega), hy.2 i (by omega), hx.2 (m + 1 - i) (by omega),
        hy.2 (m + 1 - i) (by omega)]
      ring
    have e2 : ∑ i ∈ Finset.Ico 1 (m + 1), (x * x + y * y).get i * ((m + 1 - i : ℕ) : ℝ) *
        o (m + 1 - i) = ∑ i ∈ Finset.Ico (0 + 1) (m + 1),
          tc (fun s => fx s * fx s + fy s * fy s) t i *
            (((m + 1 - i : ℕ) : ℝ) * tc θ t (m + 1 - i)) := by
      refine Finset.sum_congr rfl fun i hi => ?_
      have := Finset.mem_Ico.1 hi
      rw [hw.2 i (by omega), ho (m + 1 - i) (by omega)]
      ring
    rw [decLoop_sum, accLoop_sum, zero_add, e1, e2, hw.value (by omega), ← k1,
      div_eq_iff (mul_ne_zero hk0 hw0)]
    ring

theorem abs_local {f : ℝ → ℝ} (hf : ContinuousAt f t) (h : f t ≠ 0) :
    (fun s => |f s|) =ᶠ[𝓝 t] fun s => (if f t < 0 then -1 else 1) * f s := by
  rcases lt_or_gt_of_ne h with h0 | h0
  · filter_upwards [hf.eventually (eventually_lt_nhds h0)] with s hs
    rw [if_pos h0, abs_of_neg hs]; ring
  · filter_upwards [hf.eventually (eventually_gt_nhds h0)] with s hs
    rw [if_neg (not_lt.2 h0.le), abs_of_pos hs]; ring

theorem copysign_local {f g : ℝ → ℝ} (hf : ContinuousAt f t) (hg : ContinuousAt g t)
    (h : f t ≠ 0) (h' : g t ≠ 0) :
    (fun s => (Fns.copysign (f s) (g s) : ℝ)) =ᶠ[𝓝 t]
      fun s => (if decide (f t < 0) = decide (g t < 0) then 1 else -1) * f s := by
  have hev : ∀ s, (Fns.copysign (f s) (g s) : ℝ) = if g s < 0 then -|f s| else |f s| :=
    fun s => rfl
  simp only [hev]
  rcases lt_or_gt_of_ne h' with g0 | g0
  · filter_upwards [hg.eventually (eventually_lt_nhds g0), abs_local hf h] with s hs ha
    rw [if_pos hs, ha]
    by_cases f0 : f t < 0
    · simp [f0, g0]
    · simp [f0, g0]
  · filter_upwards [hg.eventually (eventually_gt_nhds g0), abs_local hf h] with s hs ha
    rw [if_neg (not_lt.2 hs.le), ha]
    by_cases f0 : f t < 0
    · simp [f0, not_lt.2 g0.le]
    · simp [f0, not_lt.2 g0.le]

theorem IsJet.const_of (hc : ∀ᶠ s in 𝓝 t, f s = f t) {c : ℝ} (h : c = f t) :
    IsJet f t (Jet.constant c : Jet ℝ N) :=
  (isJet_const c t).congr (by filter_upwards [hc] with s hs; rw [hs, h])

theorem UnOp.jet (op : UnOp) (hN : 0 < N) (ha : IsJet f t a) (h : op.SmoothAt (f t)) :
    IsJet (fun s => op.eval (f s)) t (op.eval a) := by
  have hv := ha.value hN
  have hlc : ∀ {F : ℝ → ℝ}, (∀ᶠ y in 𝓝 (f t), F y = F (f t)) →
      ∀ᶠ s in 𝓝 t, F (f s) = F (f t) := fun h => ha.1.continuousAt.eventually h
  cases op with
  | neg => exact ha.neg
  | abs =>
    have hl := abs_local ha.1.continuousAt h
    refine IsJet.congr ⟨analyticAt_const.mul ha.1, fun k hk => ?_⟩ hl
    refine (jet_get_ofFn (fun k => (if a.get 0 < 0 then -1 else 1) * a.get k) hk).trans ?_
    refine Eq.trans ?_ (tc_const_mul (if f t < 0 then -1 else 1) f t k).symm
    rw [hv, ha.2 k hk]
  | sqrt => exact ha.sqrt h
  | cbrt => exact ha.cbrt h
  | sin => exact ha.sinCos.1
  | cos => exact ha.sinCos.2
  | tan =>
    refine (ha.sinCos.1.div ha.sinCos.2 h).congr (Eventually.of_forall fun s => ?_)
    exact Real.tan_eq_sin_div_cos (f s)
  | exp => exact ha.exp
  | expm1 => exact ha.expm1
  | log => exact ha.log h
  | ln1p => exact ha.ln1p h
  | log2 => exact ha.log_div h _
  | log10 => exact ha.log_div h _
  | floor => exact IsJet.const_of (hlc (UnOp.locally_constant.1 h)) (by rw [hv]; rfl)
  | ceil => exact IsJet.const_of (hlc (UnOp.locally_constant.2.1 h)) (by rw [hv]; rfl)
  | round => exact IsJet.const_of (hlc (UnOp.locally_constant.2.2.1 h)) (by rw [hv]; rfl)
  | trunc => exact IsJet.const_of (hlc (UnOp.locally_constant.2.2.2 h)) (by rw [hv]; rfl)
  | clamp lo hi =>
    have : NeZero N := ⟨hN.ne'⟩
    obtain ⟨h1, h2⟩ : f t ≠ lo ∧ f t ≠ hi := h
    show IsJet _ t (clampLit a lo hi)
    rw [← jet_clamp]
    unfold Jet.clamp
    rw [hv]
    show IsJet _ t (if f t < (lo : ℝ) then Jet.constant (lo : ℝ) else
      if (hi : ℝ) < f t then Jet.constant (hi : ℝ) else a)
    split_ifs with c1 c2
    · refine (isJet_const _ t).congr ?_
      filter_upwards [ha.1.continuousAt.eventually (eventually_lt_nhds c1)] with s hs
      rw [UnOp.eval_clamp, if_pos hs]
    · refine (isJet_const _ t).congr ?_
      filter_upwards [ha.1.continuousAt.eventually (eventually_gt_nhds
        (lt_of_le_of_ne (not_lt.1 c1) h1.symm)),
        ha.1.continuousAt.eventually (eventually_gt_nhds c2)] with s hs hs'
      rw [UnOp.eval_clamp, if_neg (not_lt.2 (le_of_lt hs)), if_pos hs']
    · refine ha.congr ?_
      filter_upwards [ha.1.continuousAt.eventually (eventually_gt_nhds
        (lt_of_le_of_ne (not_lt.1 c1) h1.symm)),
        ha.1.continuousAt.eventually (eventually_lt_nhds
          (lt_of_le_of_ne (not_lt.1 c2) h2))] with s hs hs'
      rw [UnOp.eval_clamp, if_neg (not_lt.2 (le_of_lt hs)), if_neg (not_lt.2 (le_of_lt hs'))]

theorem BinOp.jet (op : BinOp) (hN : 0 < N) (ha : IsJet f t a) (hb : IsJet g t b)
    (h : op.SmoothAt (f t) (g t)) : IsJet (fun s => op.eval (f s) (g s)) t (op.eval a b) := by
  cases op with
  | add => exact ha.add hb
  | sub => exact ha.sub hb
  | mul => exact ha.mul hb
  | div => exact ha.div hb h
  | atan2 => exact ha.atan2 hb h
  | copysign =>
    obtain ⟨h1, h2⟩ : f t ≠ 0 ∧ g t ≠ 0 := h
    have hl := copysign_local ha.1.continuousAt hb.1.continuousAt h1 h2
    refine IsJet.congr ⟨analyticAt_const.mul ha.1, fun k hk => ?_⟩ hl
    refine (jet_get_ofFn (Function.update (fun k =>
      (if decide (a.get 0 < 0) = decide (b.get 0 < 0) then 1 else -1) * a.get k) 0
        (Fns.copysign (a.get 0) (b.get 0))) hk).trans ?_
    refine Eq.trans ?_
      (tc_const_mul (if decide (f t < 0) = decide (g t < 0) then 1 else -1) f t k).symm
    rw [ha.value hN, hb.value hN]
    by_cases hk0 : k = 0
    · subst hk0
      rw [Function.update_self, tc_zero]
      exact hl.eq_of_nhds
    · rw [Function.update_of_ne hk0, ha.2 k hk]

/-- Running a program on the jets of smooth curves gives the jet of the result. -/
theorem Expr.jet {n : ℕ} (e : Expr n) (hN : 0 < N) {c : ℝ → Fin n → ℝ} {x : Fin n → Jet ℝ N}
    (hx : ∀ i, IsJet (fun s => c s i) t (x i)) (h : e.SmoothAt (c t)) :
    IsJet (fun s => e.eval (c s)) t (e.eval x) := by
  induction e with
  | var i => exact hx i
  | lit q => exact isJet_const _ t
  | nat k => exact isJet_const _ t
  | pi => exact isJet_const _ t
  | un op a ih => exact op.jet hN (ih h.1) h.2
  | bin op a b iha ihb => exact op.jet hN (iha h.1) (ihb h.2.1) h.2.2
  | ite o a b u v iha ihb ihu ihv =>
    obtain ⟨ha, hb, hne, hte⟩ := h
    have ja := iha ha
    have jb := ihb hb
    have hcmp : o.eval (a.eval x) (b.eval x) = o.eval (a.eval (c t)) (b.eval (c t)) := by
      have h1 : (a.eval x).get 0 = a.eval (c t) := ja.value hN
      have h2 : (b.eval x).get 0 = b.eval (c t) := jb.value hN
      rw [← h1, ← h2]
      cases o <;> rfl
    have hev := (ja.1.continuousAt.tendsto.prodMk_nhds jb.1.continuousAt.tendsto).eventually
      (o.eval_eventually (p := (a.eval (c t), b.eval (c t))) hne)
    simp only [Expr.eval]
    rw [hcmp]
    by_cases hc : o.eval (a.eval (c t)) (b.eval (c t)) = true
    · rw [if_pos hc] at hte ⊢
      refine (ihu hte).congr ?_
      filter_upwards [hev] with s hs
      rw [if_pos (hs.2.trans hc)]
    · rw [if_neg hc] at hte ⊢
      refine (ihv hte).congr ?_
      filter_upwards [hev] with s hs
      rw [if_neg (fun h => hc (hs.2.symm.trans h))]

theorem jet_derivative (ha : IsJet f t a) {k : ℕ} (hk : k < N) :
    a.derivative k = iteratedDeriv k f t := by
  unfold Jet.derivative
  rw [ha.2 k hk]
  have hfac : ∀ k : ℕ, (List.range' 2 (k + 1 - 2)).foldl
      (fun (factorial : ℝ) (i : ℕ) => factorial * (i : ℝ)) 1 = (k.factorial : ℝ) := by
    intro k
    induction k with
    | zero => simp
    | succ k ih =>
      match k with
      | 0 => simp
      | k + 1 =>
        rw [show k + 1 + 1 + 1 - 2 = k + 1 + 1 - 2 + 1 by omega, List.range'_concat,
          List.foldl_append, ih, Nat.factorial_succ (k + 1)]
        simp
        ring
  rw [hfac, tc]
  have : (k.factorial : ℝ) ≠ 0 := by exact_mod_cast k.factorial_ne_zero
  field_simp

/-- C11. A program run on `Jet::variable(x)` of any length holds in coefficient `k` the `k`-th
Taylor coefficient of the program at `x`, and `derivative(k)` returns its `k`-th derivative, for
every program and every point where the operations it performs are smooth. -/
theorem jet_taylor (e : Expr 1) (x : ℝ) (N k : ℕ) (hk : k < N) (h : e.SmoothAt (fun _ => x)) :
    (e.eval (fun _ => (Jet.variable' x : Jet ℝ N))).get k =
      iteratedDeriv k (fun s => e.eval (fun _ => s)) x / (k.factorial : ℝ) ∧
    (e.eval (fun _ => (Jet.variable' x : Jet ℝ N))).derivative k =
      iteratedDeriv k (fun s => e.eval (fun _ => s)) x := by
  have hj := e.jet (N := N) (by omega) (c := fun s _ => s) (t := x)
    (x := fun _ => (Jet.variable' x : Jet ℝ N)) (fun _ => isJet_variable x) h
  exact ⟨hj.2 k hk, jet_derivative hj hk⟩

/-- C11. `AutoDiffSingle` of order three to six returns the derivative of that order. -/
theorem autoDiffSingle_high (e : Expr 1) (x : ℝ) (k : ℕ) (h3 : 3 ≤ k) (h6 : k ≤ 6)
    (h : e.SmoothAt (fun _ => x)) :
    autoDiffSingle k e x = .ok (iteratedDeriv k (fun s => e.eval (fun _ => s)) x) := by
  unfold autoDiffSingle
  rw [if_neg (by omega), if_neg (by omega), if_neg (by omega), if_pos h6,
    (jet_taylor e x 7 k (by omega) h).2]

/-- C11. Along any analytic curve through the arguments, a program run on the curves' jets holds
the Taylor coefficients of the composed function (the chain rule to every order). -/
theorem jet_along_curve {n : ℕ} (e : Expr n) (c : ℝ → Fin n → ℝ) (t : ℝ) (N : ℕ) (hN : 0 < N)
    (hc : ∀ i, AnalyticAt ℝ (fun s => c s i) t) (h : e.SmoothAt (c t)) (k : ℕ) (hk : k < N) :
    (e.eval (fun i => (Jet.ofFn (tc (fun s => c s i) t) : Jet ℝ N))).get k =
      iteratedDeriv k (fun s => e.eval (c s)) t / (k.factorial : ℝ) :=
  (e.jet hN (fun i => ⟨hc i, fun _ hj => jet_get_ofFn _ hj⟩) h).2 k hk

/-- `sqrt(exp(x) / (2 + cos x)) + cbrt(x)` meets the hypotheses at every nonzero point. -/
example (x : ℝ) (hx : x ≠ 0) :
    (Expr.bin .add (.un .sqrt (.bin .div (.un .exp (.var 0)) (.bin .add (.nat 2)
      (.un .cos (.var 0))))) (.un .cbrt (.var 0)) : Expr 1).SmoothAt (fun _ => x) := by
  have h : 0 < 2 + Real.cos x := by linarith [Real.neg_one_le_cos x]
  refine ⟨⟨⟨⟨trivial, trivial⟩, ⟨trivial, ⟨trivial, trivial⟩, trivial⟩, ?_⟩, ?_⟩,
    ⟨trivial, hx⟩, trivial⟩
  · show ((2 : ℕ) : ℝ) + Real.cos x ≠ 0
    push_cast
    exact h.ne'
  · show 0 < Real.exp x / (((2 : ℕ) : ℝ) + Real.cos x)
    push_cast
    exact div_pos (Real.exp_pos x) h

end Multicalc
