import Verif.Lemmas.Snap

/-!
# Paths made of degree-seven pieces, and the paths they compete with
-/

namespace Multicalc
namespace Snap

open MeasureTheory intervalIntegral Poly Matrix

/-- A function flattened to nothing up to a point where everything up to order `n` vanishes is as smooth as it was. -/
theorem contDiff_after {a : ℝ} : ∀ (n : ℕ) {h : ℝ → ℝ}, ContDiff ℝ n h → (∀ k ≤ n, iteratedDeriv k h a = 0) →
    ContDiff ℝ n fun t => if t ≤ a then 0 else h t := by
  intro n
  induction n with
  | zero =>
    intro h hh h0
    have hc : Continuous h := hh.continuous
    refine contDiff_zero.2 (Continuous.if_le continuous_const hc continuous_id continuous_const ?_)
    rintro x rfl
    simpa using (h0 0 le_rfl).symm
  | succ n ih =>
    intro h hh h0
    have hd : ∀ t, HasDerivAt h (deriv h t) t := fun t => (hh.differentiable (by simp) t).hasDerivAt
    have ha : h a = 0 := by simpa using h0 0 (by omega)
    have ha' : deriv h a = 0 := by simpa using h0 1 (by omega)
    have key : ∀ t, HasDerivAt (fun t => if t ≤ a then 0 else h t) (if t ≤ a then 0 else deriv h t) t := by
      intro t
      rcases lt_trichotomy t a with ht | ht | ht
      · rw [if_pos ht.le]
        refine (hasDerivAt_const t (0 : ℝ)).congr_of_eventuallyEq ?_
        filter_upwards [Iio_mem_nhds ht] with x hx
        exact if_pos (le_of_lt hx)
      · subst ht
        rw [if_pos le_rfl, ← hasDerivWithinAt_univ, ← Set.Iic_union_Ici (a := t)]
        refine HasDerivWithinAt.union ?_ ?_
        · exact (hasDerivWithinAt_const t _ (0 : ℝ)).congr (fun x hx => if_pos hx) (if_pos le_rfl)
        · have := (hd t).hasDerivWithinAt (s := Set.Ici t)
          rw [ha'] at this
          refine this.congr (fun x hx => ?_) (by simp [ha])
          rcases eq_or_lt_of_le (show t ≤ x from hx) with e | e
          · simp [← e, ha]
          · exact if_neg (not_le.2 e)
      · rw [if_neg (not_le.2 ht)]
        refine (hd t).congr_of_eventuallyEq ?_
        filter_upwards [Ioi_mem_nhds ht] with x hx
        exact if_neg (not_le.2 hx)
    have hsucc : ((n + 1 : ℕ) : WithTop ℕ∞) = (n : WithTop ℕ∞) + 1 := by push_cast; rfl
    rw [hsucc, contDiff_succ_iff_deriv]
    refine ⟨fun t => (key t).differentiableAt, by simp, ?_⟩
    rw [show deriv (fun t => if t ≤ a then 0 else h t) = fun t => if t ≤ a then 0 else deriv h t from
      funext fun t => (key t).deriv]
    rw [hsucc, contDiff_succ_iff_deriv] at hh
    refine ih hh.2.2 fun k hk => ?_
    rw [← iteratedDeriv_succ']
    exact h0 (k + 1) (by omega)

/-- Smooth functions that agree to third order where they meet make one path that is smooth to third order. -/
theorem glue {t : ℕ → ℝ} (ht : Monotone t) : ∀ (N : ℕ) {P : ℕ → ℝ → ℝ}, (∀ i, ContDiff ℝ 3 (P i)) →
    (∀ i < N, ∀ k ≤ 3, iteratedDeriv k (P (i + 1)) (t (i + 1)) = iteratedDeriv k (P i) (t (i + 1))) →
    ∃ G : ℝ → ℝ, ContDiff ℝ 3 G ∧ (∀ x, t N ≤ x → G x = P N x) ∧ ∀ i ≤ N, ∀ x ∈ Set.Icc (t i) (t (i + 1)), G x = P i x := by
  intro N
  induction N with
  | zero =>
    intro P hP _
    refine ⟨P 0, hP 0, fun _ _ => rfl, fun i hi => ?_⟩
    obtain rfl : i = 0 := by omega
    intro x _; rfl
  | succ N ih =>
    intro P hP hm
    obtain ⟨G, hG, hl, hs⟩ := ih hP fun i hi => hm i (by omega)
    have h3 : ContDiff ℝ 3 fun x => if x ≤ t (N + 1) then 0 else P (N + 1) x - P N x := by
      refine contDiff_after 3 ((hP (N + 1)).sub (hP N)) fun k hk => ?_
      rw [iteratedDeriv_fun_sub ((hP _).contDiffAt.of_le (by exact_mod_cast hk)) ((hP _).contDiffAt.of_le (by exact_mod_cast hk)),
        hm N (by omega) k hk, sub_self]
    have h0 : P (N + 1) (t (N + 1)) = P N (t (N + 1)) := by simpa using hm N (by omega) 0 (by omega)
    have hlast : ∀ x, t (N + 1) ≤ x → G x + (if x ≤ t (N + 1) then 0 else P (N + 1) x - P N x) = P (N + 1) x := by
      intro x hx
      rw [hl x ((ht (by omega)).trans hx)]
      rcases eq_or_lt_of_le hx with e | e
      · rw [if_pos e.ge, ← e, h0, add_zero]
      · rw [if_neg (not_le.2 e)]; ring
    refine ⟨fun x => G x + if x ≤ t (N + 1) then 0 else P (N + 1) x - P N x, hG.add h3, hlast, fun i hi x hx => ?_⟩
    rcases Nat.lt_or_ge i (N + 1) with h | h
    · dsimp only
      rw [if_pos (hx.2.trans (ht (by omega))), add_zero]
      exact hs i (by omega) x hx
    · obtain rfl : i = N + 1 := by omega
      exact hlast x hx.1

/-- On a closed interval a path has the derivatives of any smooth function it agrees with on a part of it. -/
theorem within_eq {f g : ℝ → ℝ} {A B a b : ℝ} {n : ℕ} (hf : ContDiffOn ℝ n f (Set.Icc A B)) (hg : ContDiff ℝ n g) (hA : A ≤ a)
    (hB : b ≤ B) (hab : a < b) (h : Set.EqOn f g (Set.Icc a b)) {k : ℕ} (hk : k ≤ n) :
    Set.EqOn (iteratedDerivWithin k f (Set.Icc A B)) (iteratedDeriv k g) (Set.Icc a b) := by
  have hu : UniqueDiffOn ℝ (Set.Icc A B) := uniqueDiffOn_Icc (by linarith)
  have hsub : Set.Icc a b ⊆ Set.Icc A B := Set.Icc_subset_Icc hA hB
  refine Set.EqOn.of_subset_closure (s := Set.Ioo a b) ?_
    ((hf.continuousOn_iteratedDerivWithin (by exact_mod_cast hk) hu).mono hsub)
    (continuous_iter hg hk).continuousOn Set.Ioo_subset_Icc_self (by rw [closure_Ioo hab.ne])
  intro x hx
  have hev : f =ᶠ[nhds x] g := by
    filter_upwards [Ioo_mem_nhds hx.1 hx.2] with y hy
    exact h ⟨hy.1.le, hy.2.le⟩
  rw [iteratedDerivWithin_eq_iteratedDeriv hu ((hg.contDiffAt.congr_of_eventuallyEq hev).of_le (by exact_mod_cast hk))
    (hsub ⟨hx.1.le, hx.2.le⟩)]
  exact hev.iteratedDeriv_eq k

/-- What is asked of one segment: value and three derivatives at its first end, then at its second. -/
def ends (D : ℕ → ℕ → ℝ) (i : ℕ) (l : Fin 8) : ℝ := D (i + l.val / 4) (l.val % 4)

/-- The degree-seven piece with the given value and three derivatives at both ends. -/
noncomputable def hermite (D : ℕ → ℕ → ℝ) (i : ℕ) (a s : ℝ) : ℝ → ℝ := piece (septicInverse s *ᵥ ends D i) a s

theorem hermite_ends (D : ℕ → ℕ → ℝ) (i : ℕ) (a : ℝ) {s : ℝ} (hs : s ≠ 0) {k : ℕ} (hk : k < 4) :
    iteratedDeriv k (hermite D i a s) a = D i k ∧ iteratedDeriv k (hermite D i a s) (a + s) = D (i + 1) k := by
  have h := endpointMapping_spec s (septicInverse s *ᵥ ends D i) ⟨k, hk⟩
  rw [Matrix.mulVec_mulVec, septicInverse_spec hs, Matrix.one_mulVec] at h
  unfold hermite piece
  rw [iteratedDeriv_piece]
  dsimp only
  rw [sub_self, zero_div, add_sub_cancel_left, div_self hs]
  dsimp only at h
  rw [← h.1, ← h.2]
  have e1 : k / 4 = 0 := by omega
  have e2 : k % 4 = k := by omega
  have e3 : (4 + k) / 4 = 1 := by omega
  have e4 : (4 + k) % 4 = k := by omega
  simp [ends, e1, e2, e3, e4, -Fin.natAdd_eq_addNat]

/-- The cost of one segment as a quadratic form in what is asked at its ends. -/
noncomputable def stiffness (s : ℝ) : Matrix (Fin 8) (Fin 8) ℝ :=
  (septicInverse s)ᵀ * mscale snapCost (powi s (-7)) * septicInverse s

theorem stiffness_spec (D E : ℕ → ℕ → ℝ) (i : ℕ) (a : ℝ) {s : ℝ} (hs : 0 < s) :
    ∫ t in a..(a + s), iteratedDeriv 4 (hermite E i a s) t * iteratedDeriv 4 (hermite D i a s) t =
      ends E i ⬝ᵥ (stiffness s *ᵥ ends D i) := by
  unfold hermite
  rw [snapCost_spec _ _ _ hs, stiffness, Matrix.dotProduct_mulVec, Matrix.dotProduct_mulVec, Matrix.dotProduct_mulVec,
    ← Matrix.vecMul_vecMul, ← Matrix.vecMul_vecMul, Matrix.vecMul_transpose]

/-- How much more a competitor costs than the pieces whose data balance. -/
theorem cost_split {N : ℕ} {t s : ℕ → ℝ} (hs : ∀ i < N, 0 < s i) (ht : ∀ i < N, t (i + 1) = t i + s i) (D E : ℕ → ℕ → ℝ)
    (hbal : ∀ E : ℕ → ℕ → ℝ, (∀ w ≤ N, E w 0 = 0) → (∀ o < 4, E 0 o = 0) → (∀ o < 4, E N o = 0) →
      ∑ i ∈ Finset.range N, ends E i ⬝ᵥ (stiffness (s i) *ᵥ ends D i) = 0)
    {F : ℕ → ℝ → ℝ} (hF : ∀ i < N, ContDiff ℝ 4 (F i))
    (hl : ∀ i < N, ∀ k < 4, iteratedDeriv k (F i) (t i) = E i k)
    (hr : ∀ i < N, ∀ k < 4, iteratedDeriv k (F i) (t (i + 1)) = E (i + 1) k)
    (hw : ∀ w ≤ N, E w 0 = D w 0) (h0 : ∀ o < 4, E 0 o = D 0 o) (h1 : ∀ o < 4, E N o = D N o) :
    ∑ i ∈ Finset.range N, ∫ x in t i..t (i + 1), iteratedDeriv 4 (F i) x ^ 2 =
      (∑ i ∈ Finset.range N, ∫ x in t i..t (i + 1), iteratedDeriv 4 (hermite D i (t i) (s i)) x ^ 2) +
      ∑ i ∈ Finset.range N, ∫ x in t i..t (i + 1), iteratedDeriv 4 (fun y => F i y - hermite D i (t i) (s i) y) x ^ 2 := by
  have hb := hbal (fun w o => E w o - D w o) (fun w h => by simp [hw w h]) (fun o h => by simp [h0 o h])
    (fun o h => by simp [h1 o h])
  rw [← Finset.sum_add_distrib, ← sub_eq_zero, ← Finset.sum_sub_distrib]
  rw [← mul_zero (2 : ℝ), ← hb, Finset.mul_sum]
  refine Finset.sum_congr rfl fun i hi => ?_
  have hi := Finset.mem_range.1 hi
  have hP : ∀ (D : ℕ → ℕ → ℝ) {n : ℕ}, ContDiff ℝ n (hermite D i (t i) (s i)) := fun D n => piece_smooth _ _ _
  set P := hermite D i (t i) (s i) with hPdef
  have hsub : ∀ k ≤ 4, ∀ x, iteratedDeriv k (fun y => F i y - P y) x = iteratedDeriv k (F i) x - iteratedDeriv k P x := by
    intro k hk x
    exact iteratedDeriv_fun_sub ((hF i hi).contDiffAt.of_le (by exact_mod_cast hk)) ((hP D).contDiffAt.of_le (le_refl _))
  have he : ContDiff ℝ 4 fun y => F i y - P y := (hF i hi).sub (hP D (n := 4))
  set H := hermite (fun w o => E w o - D w o) i (t i) (s i) with hH
  have hsub2 : ∀ k ≤ 4, ∀ x, iteratedDeriv k (fun y => (F i y - P y) - H y) x =
      iteratedDeriv k (F i) x - iteratedDeriv k P x - iteratedDeriv k H x := by
    intro k hk x
    rw [iteratedDeriv_fun_sub (he.contDiffAt.of_le (by exact_mod_cast hk)) ((hP _).contDiffAt.of_le (le_refl _)), hsub k hk]
  have horth := snap_orthogonal (p := P) (g := fun y => (F i y - P y) - H y) (hP D (n := 8)) (piece_deriv8 _ _ _)
    (he.sub (hP _ (n := 4))) (a := t i) (b := t (i + 1))
    (fun k hk => by
      rw [hsub2 k hk.le, hl i hi k hk, (hermite_ends D i (t i) (hs i hi).ne' hk).1,
        (hermite_ends (fun w o => E w o - D w o) i (t i) (hs i hi).ne' hk).1]
      ring)
    (fun k hk => by
      rw [hsub2 k hk.le, hr i hi k hk, ht i hi, (hermite_ends D i (t i) (hs i hi).ne' hk).2,
        (hermite_ends (fun w o => E w o - D w o) i (t i) (hs i hi).ne' hk).2]
      ring)
  have hst := stiffness_spec D (fun w o => E w o - D w o) i (t i) (hs i hi)
  rw [← ht i hi] at hst
  rw [← hst]
  have cF : Continuous (iteratedDeriv 4 (F i)) := continuous_iter (n := 4) (hF i hi) le_rfl
  have cP : Continuous (iteratedDeriv 4 P) := continuous_iter (n := 4) (hP D) le_rfl
  have cH : Continuous (iteratedDeriv 4 H) := continuous_iter (n := 4) (hP _) le_rfl
  have ii : ∀ {g : ℝ → ℝ}, Continuous g → IntervalIntegrable g volume (t i) (t (i + 1)) := fun h => h.intervalIntegrable _ _
  simp only [hsub 4 le_rfl]
  rw [← intervalIntegral.integral_add (ii (by fun_prop)) (ii (by fun_prop)),
    ← intervalIntegral.integral_sub (ii (by fun_prop)) (ii (by fun_prop)), ← intervalIntegral.integral_const_mul]
  rw [← sub_eq_zero, ← intervalIntegral.integral_sub (ii (by fun_prop)) (ii (by fun_prop)), ← mul_zero (2 : ℝ), ← horth,
    ← intervalIntegral.integral_const_mul]
  refine integral_congr fun x _ => ?_
  rw [hsub2 4 le_rfl]
  ring

/-- Functions that start with nothing, meet to third order and have no cost vanish throughout. -/
theorem no_cost {N : ℕ} {t : ℕ → ℝ} (ht : ∀ i < N, t i < t (i + 1)) {e : ℕ → ℝ → ℝ} (he : ∀ i < N, ContDiff ℝ 4 (e i))
    (h0 : 0 < N → ∀ k < 4, iteratedDeriv k (e 0) (t 0) = 0)
    (hm : ∀ i, i + 1 < N → ∀ k < 4, iteratedDeriv k (e i) (t (i + 1)) = iteratedDeriv k (e (i + 1)) (t (i + 1)))
    (hc : ∑ i ∈ Finset.range N, ∫ x in t i..t (i + 1), iteratedDeriv 4 (e i) x ^ 2 = 0) :
    ∀ i < N, ∀ x ∈ Set.Icc (t i) (t (i + 1)), e i x = 0 := by
  have hnn : ∀ i ∈ Finset.range N, 0 ≤ ∫ x in t i..t (i + 1), iteratedDeriv 4 (e i) x ^ 2 := fun i hi =>
    integral_nonneg (ht i (Finset.mem_range.1 hi)).le fun x _ => sq_nonneg _
  have hz := (Finset.sum_eq_zero_iff_of_nonneg hnn).1 hc
  have h4 : ∀ i < N, ∀ x ∈ Set.Icc (t i) (t (i + 1)), iteratedDeriv 4 (e i) x = 0 := by
    intro i hi
    by_contra hcon
    push Not at hcon
    obtain ⟨x, hx, hne⟩ := hcon
    have hcont : Continuous (iteratedDeriv 4 (e i)) := continuous_iter (n := 4) (he i hi) le_rfl
    have := integral_pos (f := fun x => iteratedDeriv 4 (e i) x ^ 2) (ht i hi) (by fun_prop) (fun x _ => sq_nonneg _)
      ⟨x, hx, by positivity⟩
    exact this.ne' (hz i (Finset.mem_range.2 hi))
  have hstart : ∀ i < N, ∀ k < 4, iteratedDeriv k (e i) (t i) = 0 := by
    intro i
    induction i with
    | zero => exact h0
    | succ i ih =>
      intro hi k hk
      rw [← hm i hi k hk]
      exact stays_zero (he i (by omega)) (ih (by omega)) (h4 i (by omega)) k (by omega) _ ⟨(ht i (by omega)).le, le_rfl⟩
  intro i hi x hx
  have := stays_zero (he i hi) (hstart i hi) (h4 i hi) 0 (by omega) x hx
  simpa using this

theorem deriv4_eq {f g : ℝ → ℝ} {a b : ℝ} (h : Set.EqOn f g (Set.Icc a b)) :
    Set.EqOn (fun x => iteratedDeriv 4 f x ^ 2) (fun x => iteratedDeriv 4 g x ^ 2) (Set.Ioo a b) := by
  intro x hx
  have hev : f =ᶠ[nhds x] g := by
    filter_upwards [Ioo_mem_nhds hx.1 hx.2] with y hy
    exact h ⟨hy.1.le, hy.2.le⟩
  dsimp only
  rw [hev.iteratedDeriv_eq 4]

/-- The cost of a path made of smooth parts is the sum of the costs of its parts. -/
theorem cost_parts {N : ℕ} {t : ℕ → ℝ} (ht : ∀ i < N, t i < t (i + 1)) {f : ℝ → ℝ} {F : ℕ → ℝ → ℝ}
    (hF : ∀ i < N, ContDiff ℝ 4 (F i)) (h : ∀ i < N, Set.EqOn f (F i) (Set.Icc (t i) (t (i + 1)))) :
    ∫ x in t 0..t N, iteratedDeriv 4 f x ^ 2 =
      ∑ i ∈ Finset.range N, ∫ x in t i..t (i + 1), iteratedDeriv 4 (F i) x ^ 2 := by
  rw [← sum_integral_adjacent_intervals]
  · refine Finset.sum_congr rfl fun i hi => ?_
    have hi := Finset.mem_range.1 hi
    exact integral_congr_Ioo_of_le (ht i hi).le (deriv4_eq (h i hi))
  · intro i hi
    rw [intervalIntegrable_congr_uIoo (g := fun x => iteratedDeriv 4 (F i) x ^ 2)
      (by rw [Set.uIoo_of_le (ht i hi).le]; exact deriv4_eq (h i hi))]
    have : Continuous (iteratedDeriv 4 (F i)) := continuous_iter (n := 4) (hF i hi) le_rfl
    exact Continuous.intervalIntegrable (by fun_prop) _ _

/-- A path made of degree-seven pieces whose data balance: it is smooth to third order, has the data asked for, and among
all paths with the same fixed data it has the least cost, alone. -/
theorem path_optimal {N : ℕ} (hN : 0 < N) {t s : ℕ → ℝ} (htm : Monotone t) (hs : ∀ i < N, 0 < s i)
    (ht : ∀ i < N, t (i + 1) = t i + s i) (D : ℕ → ℕ → ℝ)
    (hbal : ∀ E : ℕ → ℕ → ℝ, (∀ w ≤ N, E w 0 = 0) → (∀ o < 4, E 0 o = 0) → (∀ o < 4, E N o = 0) →
      ∑ i ∈ Finset.range N, ends E i ⬝ᵥ (stiffness (s i) *ᵥ ends D i) = 0)
    {x : ℝ → ℝ} (hx : ∀ i < N, Set.EqOn x (hermite D i (t i) (s i)) (Set.Icc (t i) (t (i + 1)))) :
    ContDiffOn ℝ 3 x (Set.Icc (t 0) (t N)) ∧
    (∀ w ≤ N, ∀ k < 4, iteratedDerivWithin k x (Set.Icc (t 0) (t N)) (t w) = D w k) ∧
    ∀ f : ℝ → ℝ, ContDiffOn ℝ 3 f (Set.Icc (t 0) (t N)) →
      (∀ i < N, ∃ g : ℝ → ℝ, ContDiff ℝ 4 g ∧ Set.EqOn f g (Set.Icc (t i) (t (i + 1)))) →
      (∀ w ≤ N, f (t w) = D w 0) →
      (∀ k < 4, iteratedDerivWithin k f (Set.Icc (t 0) (t N)) (t 0) = D 0 k) →
      (∀ k < 4, iteratedDerivWithin k f (Set.Icc (t 0) (t N)) (t N) = D N k) →
      (∫ y in t 0..t N, iteratedDeriv 4 x y ^ 2) ≤ (∫ y in t 0..t N, iteratedDeriv 4 f y ^ 2) ∧
      ((∫ y in t 0..t N, iteratedDeriv 4 f y ^ 2) = (∫ y in t 0..t N, iteratedDeriv 4 x y ^ 2) →
        Set.EqOn f x (Set.Icc (t 0) (t N))) := by
  have hlt : ∀ i < N, t i < t (i + 1) := fun i hi => by rw [ht i hi]; linarith [hs i hi]
  have hP : ∀ i {n : ℕ}, ContDiff ℝ n (hermite D i (t i) (s i)) := fun i n => piece_smooth _ _ _
  have hle : ∀ i < N, ∀ k < 4, iteratedDeriv k (hermite D i (t i) (s i)) (t i) = D i k := fun i hi k hk =>
    (hermite_ends D i (t i) (hs i hi).ne' hk).1
  have hre : ∀ i < N, ∀ k < 4, iteratedDeriv k (hermite D i (t i) (s i)) (t (i + 1)) = D (i + 1) k := fun i hi k hk => by
    rw [ht i hi]; exact (hermite_ends D i (t i) (hs i hi).ne' hk).2
  have hcover : ∀ y ∈ Set.Icc (t 0) (t N), ∃ i < N, y ∈ Set.Icc (t i) (t (i + 1)) := by
    intro y hy
    have : ∀ M ≤ N, 0 < M → y ≤ t M → ∃ i < M, y ∈ Set.Icc (t i) (t (i + 1)) := by
      intro M
      induction M with
      | zero => intro _ h; omega
      | succ M ih =>
        intro hM _ hyM
        rcases le_total (t M) y with h | h
        · exact ⟨M, by omega, h, hyM⟩
        · rcases Nat.eq_zero_or_pos M with h0 | h0
          · subst h0; exact ⟨0, by omega, hy.1, hyM⟩
          · obtain ⟨i, hi, hy⟩ := ih (by omega) h0 h
            exact ⟨i, by omega, hy⟩
    exact this N le_rfl hN hy.2
  have hsm : ContDiffOn ℝ 3 x (Set.Icc (t 0) (t N)) := by
    obtain ⟨G, hG, -, hGs⟩ := glue htm (N - 1) (P := fun i => hermite D i (t i) (s i)) (fun i => hP i (n := 3))
      (fun i hi k hk => by
        rw [hle (i + 1) (by omega) k (by omega), hre i (by omega) k (by omega)])
    refine hG.contDiffOn.congr fun y hy => ?_
    obtain ⟨i, hi, hyi⟩ := hcover y hy
    rw [hx i hi hyi, hGs i (by omega) y hyi]
  have hwin : ∀ {f : ℝ → ℝ} {g : ℝ → ℝ} {i : ℕ}, i < N → ContDiffOn ℝ 3 f (Set.Icc (t 0) (t N)) → ContDiff ℝ 3 g →
      Set.EqOn f g (Set.Icc (t i) (t (i + 1))) → ∀ k < 4,
      iteratedDerivWithin k f (Set.Icc (t 0) (t N)) (t i) = iteratedDeriv k g (t i) ∧
      iteratedDerivWithin k f (Set.Icc (t 0) (t N)) (t (i + 1)) = iteratedDeriv k g (t (i + 1)) := by
    intro f g i hi hf hg h k hk
    have := within_eq (n := 3) hf hg (htm (Nat.zero_le i)) (htm (show i + 1 ≤ N by omega)) (hlt i hi) h (k := k) (by omega)
    exact ⟨this ⟨le_rfl, (hlt i hi).le⟩, this ⟨(hlt i hi).le, le_rfl⟩⟩
  have hdata : ∀ w ≤ N, ∀ k < 4, iteratedDerivWithin k x (Set.Icc (t 0) (t N)) (t w) = D w k := by
    intro w hw k hk
    rcases Nat.lt_or_ge w N with h | h
    · rw [(hwin h hsm (hP w (n := 3)) (hx w h) k hk).1, hle w h k hk]
    · obtain rfl : w = N := by omega
      obtain ⟨M, rfl⟩ : ∃ M, w = M + 1 := ⟨w - 1, by omega⟩
      rw [(hwin (by omega) hsm (hP M (n := 3)) (hx M (by omega)) k hk).2, hre M (by omega) k hk]
  refine ⟨hsm, hdata, fun f hf hg hw h0 h1 => ?_⟩
  have hg' : ∀ i, ∃ g : ℝ → ℝ, i < N → ContDiff ℝ 4 g ∧ Set.EqOn f g (Set.Icc (t i) (t (i + 1))) := by
    intro i
    by_cases hi : i < N
    · obtain ⟨g, hg⟩ := hg i hi; exact ⟨g, fun _ => hg⟩
    · exact ⟨0, fun h => absurd h hi⟩
  choose F hF using hg'
  have hF3 : ∀ i < N, ContDiff ℝ 3 (F i) := fun i hi => (hF i hi).1.of_le (by norm_num)
  have hsplit := cost_split hs ht D (fun w k => iteratedDerivWithin k f (Set.Icc (t 0) (t N)) (t w)) hbal
    (F := F) (fun i hi => (hF i hi).1) (fun i hi k hk => (hwin hi hf (hF3 i hi) (hF i hi).2 k hk).1.symm)
    (fun i hi k hk => (hwin hi hf (hF3 i hi) (hF i hi).2 k hk).2.symm)
    (fun w hle => by simpa using hw w hle) h0 h1
  rw [cost_parts hlt (fun i hi => hP i (n := 4)) hx, cost_parts hlt (fun i hi => (hF i hi).1) (fun i hi => (hF i hi).2), hsplit]
  have hnn : 0 ≤ ∑ i ∈ Finset.range N, ∫ y in t i..t (i + 1),
      iteratedDeriv 4 (fun z => F i z - hermite D i (t i) (s i) z) y ^ 2 :=
    Finset.sum_nonneg fun i hi => integral_nonneg (hlt i (Finset.mem_range.1 hi)).le fun y _ => sq_nonneg _
  refine ⟨by linarith, fun heq => ?_⟩
  have hsub : ∀ i < N, ∀ k < 4, ∀ y, iteratedDeriv k (fun z => F i z - hermite D i (t i) (s i) z) y =
      iteratedDeriv k (F i) y - iteratedDeriv k (hermite D i (t i) (s i)) y := fun i hi k hk y =>
    iteratedDeriv_fun_sub ((hF i hi).1.contDiffAt.of_le (by exact_mod_cast hk.le)) ((hP i).contDiffAt.of_le (le_refl _))
  have hz := no_cost hlt (e := fun i z => F i z - hermite D i (t i) (s i) z) (fun i hi => (hF i hi).1.sub (hP i (n := 4)))
    (fun _ k hk => by
      rw [hsub 0 hN k hk, hle 0 hN k hk, ← (hwin hN hf (hF3 0 hN) (hF 0 hN).2 k hk).1, h0 k hk, sub_self])
    (fun i hi k hk => by
      rw [hsub i (by omega) k hk, hsub (i + 1) hi k hk, hre i (by omega) k hk, hle (i + 1) hi k hk,
        ← (hwin (by omega) hf (hF3 i (by omega)) (hF i (by omega)).2 k hk).2, ← (hwin hi hf (hF3 _ hi) (hF _ hi).2 k hk).1])
    (by linarith)
  intro y hy
  obtain ⟨i, hi, hyi⟩ := hcover y hy
  rw [hx i hi hyi, (hF i hi).2 hyi]
  exact sub_eq_zero.1 (hz i hi y hyi)

end Snap
end Multicalc
