import Verif.Model.Approximation
import Verif.Model.XR
import Verif.Props.Derivatives
import Verif.Props.Summation
import Verif.Lemmas.LinearAlgebra
import Verif.Lemmas.Spatial
import Mathlib.Tactic

/-!
# Linear and quadratic approximations
-/

namespace Multicalc

open Filter
open scoped Topology

section Free
variable {T : Type} [Zero T] {n : ℕ}

theorem approxGradient_fold (partial1 : Fin n → Except DiffError T) (l : List (Fin n))
    (g0 : Fin n → T) :
    (∀ g, l.foldlM (fun g i => do let d ← partial1 i; pure (Function.update g i d)) g0 = .ok g →
      (∀ i ∈ l, partial1 i = .ok (g i)) ∧ ∀ i ∉ l, g i = g0 i) ∧
    (∀ e, l.foldlM (fun g i => do let d ← partial1 i; pure (Function.update g i d)) g0 = .error e →
      ∃ i ∈ l, partial1 i = .error e) := by
  induction l generalizing g0 with
  | nil =>
    constructor
    · intro g h
      cases h
      exact ⟨fun i hi => absurd hi List.not_mem_nil, fun _ _ => rfl⟩
    · intro e h; cases h
  | cons a l ih =>
    constructor
    · intro g h
      rw [List.foldlM_cons] at h
      cases hp : partial1 a with
      | error e => rw [hp] at h; cases h
      | ok d =>
        rw [hp] at h
        obtain ⟨h1, h2⟩ := (ih (Function.update g0 a d)).1 g h
        refine ⟨fun i hi => ?_, fun i hi => ?_⟩
        · by_cases hl : i ∈ l
          · exact h1 i hl
          · have : i = a := by
              rcases List.mem_cons.1 hi with h | h
              · exact h
              · exact absurd h hl
            subst this
            rw [h2 i hl, Function.update_self, hp]
        · rw [List.mem_cons, not_or] at hi
          rw [h2 i hi.2, Function.update_of_ne hi.1]
    · intro e h
      rw [List.foldlM_cons] at h
      cases hp : partial1 a with
      | error e' =>
        rw [hp] at h
        cases h
        exact ⟨a, List.mem_cons_self, hp⟩
      | ok d =>
        rw [hp] at h
        obtain ⟨i, hi, hi'⟩ := (ih (Function.update g0 a d)).2 e h
        exact ⟨i, List.mem_cons_of_mem _ hi, hi'⟩

theorem approxGradient_ok (partial1 : Fin n → Except DiffError T) (g : Fin n → T)
    (h : ∀ i, partial1 i = .ok (g i)) : approxGradient partial1 = .ok g := by
  unfold approxGradient
  have hf := approxGradient_fold partial1 (List.finRange n) (fun _ => 0)
  cases hr : (List.finRange n).foldlM (fun (g : Fin n → T) i => do
      let d ← partial1 i
      pure (Function.update g i d)) (fun _ => (0 : T)) with
  | error e =>
    obtain ⟨i, _, hi⟩ := hf.2 e hr
    rw [h i] at hi; cases hi
  | ok g' =>
    congr 1
    funext i
    have := (hf.1 g' hr).1 i (List.mem_finRange i)
    rw [h i] at this
    exact (Except.ok.inj this).symm

end Free

section FreeApprox
variable {T : Type} [Zero T] [One T] [NatCast T] [Add T] [Sub T] [Mul T] [Div T] [LE T]
  [DecidableLE T] [BEq T] [Fns T] {n : ℕ}

omit [One T] [NatCast T] [Add T] [Sub T] [Mul T] [Div T] [LE T] [DecidableLE T] [BEq T] [Fns T] in
/-- C78. What a linear approximation stores, for every scalar and differentiator: the point, the
function's value there and the differentiator's partial derivatives; a failure is an error of the
differentiator. -/
theorem linear_approximate_spec (m : SummationMethod) (f : (Fin n → T) → T)
    (partial1 : Fin n → Except DiffError T) (point : Fin n → T) :
    (∀ a, linearApproximate m f partial1 point = .ok a ↔
      a.point = point ∧ a.value = f point ∧ a.summation = m ∧ ∀ i, partial1 i = .ok (a.gradient i)) ∧
    (∀ e, linearApproximate m f partial1 point = .error e → ∃ i, partial1 i = .error e) := by
  have hf := approxGradient_fold partial1 (List.finRange n) (fun _ => 0)
  constructor
  · intro a
    constructor
    · intro h
      unfold linearApproximate at h
      cases hr : approxGradient partial1 with
      | error e => rw [hr] at h; cases h
      | ok g =>
        rw [hr] at h
        cases h
        exact ⟨rfl, rfl, rfl, fun i => (hf.1 g hr).1 i (List.mem_finRange i)⟩
    · rintro ⟨h1, h2, h3, h4⟩
      unfold linearApproximate
      rw [approxGradient_ok partial1 a.gradient h4, ← h2, ← h1, ← h3]
      rfl
  · intro e h
    unfold linearApproximate at h
    cases hr : approxGradient partial1 with
    | error e' =>
      rw [hr] at h
      cases h
      obtain ⟨i, _, hi⟩ := hf.2 _ hr
      exact ⟨i, hi⟩
    | ok g => rw [hr] at h; cases h

omit [One T] [NatCast T] [Add T] [Sub T] [Mul T] [Div T] [LE T] [DecidableLE T] [BEq T] in
/-- C78. What a quadratic approximation stores, for every scalar with a NaN and every differentiator:
the value, the first partials, and a symmetric matrix whose entries are the differentiator's second
partials; a failure is an error of the differentiator. -/
theorem quadratic_approximate_spec (hnan : Fns.isNan (Fns.nan : T) = true) (m : SummationMethod)
    (f : (Fin n → T) → T) (partial1 : Fin n → Except DiffError T)
    (partial2 : Fin n → Fin n → Except DiffError T) (point : Fin n → T) :
    (∀ a, quadraticApproximate m f partial1 partial2 point = .ok a →
      a.point = point ∧ a.value = f point ∧ a.summation = m ∧ (∀ i, partial1 i = .ok (a.gradient i)) ∧
      (∀ r c, a.hessian r c = a.hessian c r) ∧
      ∀ r c, partial2 r c = .ok (a.hessian r c) ∨ partial2 c r = .ok (a.hessian r c)) ∧
    (∀ e, quadraticApproximate m f partial1 partial2 point = .error e →
      (∃ i, partial1 i = .error e) ∨ ∃ r c, partial2 r c = .error e) ∧
    ((∀ i, ∃ v, partial1 i = .ok v) → (∀ r c, ∃ v, partial2 r c = .ok v) →
      ∃ a, quadraticApproximate m f partial1 partial2 point = .ok a) := by
  have hf := approxGradient_fold partial1 (List.finRange n) (fun _ => 0)
  have ht := hessian_total partial2
  refine ⟨?_, ?_, ?_⟩
  · intro a h
    unfold quadraticApproximate at h
    cases hr : approxGradient partial1 with
    | error e => rw [hr] at h; cases h
    | ok g =>
      rw [hr] at h
      cases hh : hessianEvaluate partial2 with
      | error e => rw [hh] at h; cases h
      | ok H =>
        rw [hh] at h
        cases h
        have he := hessian_entries hnan partial2 H hh
        exact ⟨rfl, rfl, rfl, fun i => (hf.1 g hr).1 i (List.mem_finRange i), he.1, he.2.1⟩
  · intro e h
    unfold quadraticApproximate at h
    cases hr : approxGradient partial1 with
    | error e' =>
      rw [hr] at h
      cases h
      obtain ⟨i, _, hi⟩ := hf.2 _ hr
      exact Or.inl ⟨i, hi⟩
    | ok g =>
      rw [hr] at h
      cases hh : hessianEvaluate partial2 with
      | error e => rw [hh] at h; cases h; exact Or.inr (ht.2 _ hh)
      | ok H => rw [hh] at h; cases h
  · intro h1 h2
    choose g hg using h1
    obtain ⟨H, hH⟩ := ht.1 h2
    unfold quadraticApproximate
    rw [approxGradient_ok partial1 g hg, hH]
    exact ⟨_, rfl⟩

/-- C78. The figures that would divide by zero are NaN, in any arithmetic: R² when the function does
not vary over the points, the adjusted R² when there are too few points. -/
theorem metrics_nan (predict original : (Fin n → T) → T) (points : List (Fin n → T)) (p : ℕ)
    (m : SummationMethod) :
    let meanY := accSum m (points.map original) / ((points.length : ℕ) : T)
    let M := computeMetrics predict original points p m
    (((accSum m (points.map fun q => (original q - meanY) * (original q - meanY)) == 0) = true) →
      M.rSquared = Fns.nan) ∧
    ((((points.length : ℕ) : T) - ((p : ℕ) : T) - 1 ≤ 0) → M.adjustedRSquared = Fns.nan) := by
  intro meanY M
  exact ⟨fun h => if_pos h, fun h => if_pos h⟩

end FreeApprox

/-! ## Over the reals -/

section Real
variable {n : ℕ}

theorem linear_predict_eq (a : LinearApprox n ℝ) (x : Fin n → ℝ) :
    a.predict x = a.value + ∑ i, a.gradient i * (x i - a.point i) := by
  unfold LinearApprox.predict
  rw [vdot_eq]
  rfl

theorem quadratic_predict_eq (a : QuadraticApprox n ℝ) (x : Fin n → ℝ) :
    a.predict x = a.value + ∑ i, a.gradient i * (x i - a.point i)
      + 1 / 2 * ∑ i, (∑ j, a.hessian i j * (x j - a.point j)) * (x i - a.point i) := by
  unfold QuadraticApprox.predict
  dsimp only
  rw [vdot_eq, vdot_eq, half_real, show mmulVec a.hessian (vsub x a.point) = _ from mmulVec_eq _ _]
  rfl

theorem intercept_eq (a : LinearApprox n ℝ) :
    a.intercept = a.value - ∑ i, a.gradient i * a.point i := by
  unfold LinearApprox.intercept
  have : ∀ (l : List (Fin n)) (v : ℝ), l.foldl (fun acc i => acc - a.gradient i * a.point i) v =
      v - (l.map fun i => a.gradient i * a.point i).sum := by
    intro l
    induction l with
    | nil => intro v; simp
    | cons i l ih => intro v; rw [List.foldl_cons, ih, List.map_cons, List.sum_cons]; ring
  rw [this, ← List.ofFn_eq_map, List.sum_ofFn]

/-- C78. At the expansion point both approximations give the stored value; the intercept form of the
linear one agrees with `predict` everywhere. -/
theorem approximation_forms (a : LinearApprox n ℝ) (b : QuadraticApprox n ℝ) (x : Fin n → ℝ) :
    a.predict a.point = a.value ∧ b.predict b.point = b.value ∧
      a.predict x = a.intercept + ∑ i, a.gradient i * x i := by
  refine ⟨?_, ?_, ?_⟩
  · rw [linear_predict_eq]; simp
  · rw [quadratic_predict_eq]; simp
  · rw [linear_predict_eq, intercept_eq]
    simp only [mul_sub, Finset.sum_sub_distrib]
    ring

/-- C78. The approximations are tangent: in every coordinate direction the derivative of `predict` at
the expansion point is the stored gradient entry, and for the quadratic one with a symmetric Hessian the
partial derivatives everywhere are `gradient + hessian * (x - point)`. -/
theorem approximation_tangent (a : LinearApprox n ℝ) (b : QuadraticApprox n ℝ)
    (hb : ∀ i j, b.hessian i j = b.hessian j i) (i : Fin n) (x : Fin n → ℝ) :
    HasDerivAt (fun s => a.predict (Function.update x i s)) (a.gradient i) (x i) ∧
    HasDerivAt (fun s => b.predict (Function.update x i s))
      (b.gradient i + ∑ j, b.hessian i j * (x j - b.point j)) (x i) := by
  have hu : ∀ (c : Fin n → ℝ) (k : Fin n),
      HasDerivAt (fun s => Function.update x i s k - c k) (if k = i then 1 else 0) (x i) := by
    intro c k
    by_cases hk : k = i
    · subst hk
      simpa using (hasDerivAt_id (x k)).sub_const (c k)
    · simpa [hk] using (hasDerivAt_const (x i) (x k - c k))
  have hl : ∀ (c g : Fin n → ℝ), HasDerivAt (fun s => ∑ k, g k * (Function.update x i s k - c k)) (g i) (x i) := by
    intro c g
    have := HasDerivAt.fun_sum (u := Finset.univ) fun k _ => (hu c k).const_mul (g k)
    simpa using this
  constructor
  · simp only [linear_predict_eq]
    exact (hl a.point a.gradient).const_add a.value
  · simp only [quadratic_predict_eq]
    have h2 := HasDerivAt.fun_sum (u := Finset.univ) fun k _ =>
      (hl b.point (b.hessian k)).mul (hu b.point k)
    have h3 := ((hl b.point b.gradient).const_add b.value).add (h2.const_mul (1 / 2))
    refine HasDerivAt.congr_deriv h3 ?_
    simp only [Function.update_eq_self]
    rw [Finset.sum_add_distrib]
    simp only [mul_ite, mul_one, mul_zero, Finset.sum_ite_eq', Finset.mem_univ, if_true]
    have : ∑ k, b.hessian k i * (x k - b.point k) = ∑ k, b.hessian i k * (x k - b.point k) :=
      Finset.sum_congr rfl fun k _ => by rw [hb]
    rw [this]
    ring

/-- C78. End to end with the automatic differentiator: for every program, at every point where it is
smooth, the linear approximation exists, is tangent to the program in every coordinate direction, and if
the program computes an affine function it is reproduced at every point. -/
theorem linear_approximation_autodiff (m : SummationMethod) (e : Expr n) (point : Fin n → ℝ)
    (hs : e.SmoothAt point) :
    ∃ a, linearApproximate m (fun x => e.eval x) (fun i => autoDiffMulti e [i.1] point) point = .ok a ∧
      a.predict point = e.eval point ∧
      (∀ i, HasDerivAt (fun s => e.eval (Function.update point i s)) (a.gradient i) (point i)) ∧
      ∀ (c : ℝ) (b : Fin n → ℝ), (∀ x : Fin n → ℝ, e.eval x = c + ∑ i, b i * x i) →
        ∀ x, a.predict x = e.eval x := by
  have hd := fun i => autoDiffMulti_one e i point hs
  choose g hg1 hg2 using hd
  refine ⟨⟨point, e.eval point, g, m⟩, ?_, ?_, hg2, ?_⟩
  · exact ((linear_approximate_spec m _ _ point).1 _).2 ⟨rfl, rfl, rfl, hg1⟩
  · exact (approximation_forms ⟨point, e.eval point, g, m⟩ ⟨point, 0, g, fun _ _ => 0, m⟩ point).1
  · intro c b hb x
    have hgb : ∀ i, g i = b i := by
      intro i
      have h1 := hg2 i
      simp only [hb] at h1
      have ht := (approximation_tangent ⟨fun _ => 0, c, b, m⟩ ⟨point, 0, g, fun _ _ => 0, m⟩
        (fun _ _ => rfl) i point).1
      simp only [linear_predict_eq, sub_zero] at ht
      exact h1.unique ht
    rw [linear_predict_eq, hb x]
    simp only [hb point, hgb, mul_sub, Finset.sum_sub_distrib]
    ring

/-- C78. The goodness figures over the reals, for every predictor, function and non-empty set of points
and either summation: the root of the mean squared error squares to it, the mean absolute error is at
most that root, both errors vanish exactly when every prediction is right, R² is at most one (exactly one
only then) when the function varies, and the adjusted R² does not exceed R². -/
theorem metrics_spec (predict original : (Fin n → ℝ) → ℝ) (points : List (Fin n → ℝ)) (p : ℕ)
    (m : SummationMethod) (hne : points ≠ []) :
    let M := computeMetrics predict original points p m
    0 ≤ M.meanAbsoluteError ∧ M.rootMeanSquaredError ^ 2 = M.meanSquaredError ∧
    M.meanAbsoluteError ≤ M.rootMeanSquaredError ∧
    (M.meanSquaredError = 0 ↔ ∀ q ∈ points, predict q = original q) ∧
    ((∃ q ∈ points, ∃ r ∈ points, original q ≠ original r) →
      M.rSquared ≤ 1 ∧ (M.rSquared = 1 ↔ ∀ q ∈ points, predict q = original q) ∧
      (p + 1 < points.length → M.adjustedRSquared ≤ M.rSquared)) := by
  intro M
  have hlen : (0 : ℝ) < ((points.length : ℕ) : ℝ) := by
    exact_mod_cast List.length_pos_iff.2 hne
  set N : ℝ := ((points.length : ℕ) : ℝ) with hN
  set S : ℝ := (points.map fun q => |predict q - original q|).sum with hS
  set Q : ℝ := (points.map fun q => (predict q - original q) * (predict q - original q)).sum with hQ
  set μ : ℝ := (points.map original).sum / N with hμ
  set V : ℝ := (points.map fun q => (original q - μ) * (original q - μ)).sum with hV
  have hM : M = ⟨S / N, Q / N, Real.sqrt (Q / N),
      if V == 0 then Fns.nan else 1 - Q / V,
      if N - (p : ℝ) - 1 ≤ 0 then Fns.nan
      else 1 - (1 - (if V == 0 then Fns.nan else 1 - Q / V)) * (N - 1) / (N - (p : ℝ) - 1)⟩ := by
    simp only [M, computeMetrics, accSum_eq_sum]
    rfl
  have hQ0 : 0 ≤ Q := List.sum_nonneg (by simp only [List.mem_map]; rintro _ ⟨q, _, rfl⟩; exact mul_self_nonneg _)
  have hS0 : 0 ≤ S := List.sum_nonneg (by simp only [List.mem_map]; rintro _ ⟨q, _, rfl⟩; exact abs_nonneg _)
  have hV0 : 0 ≤ V := List.sum_nonneg (by simp only [List.mem_map]; rintro _ ⟨q, _, rfl⟩; exact mul_self_nonneg _)
  have hzero : ∀ (f : (Fin n → ℝ) → ℝ) (l : List (Fin n → ℝ)),
      (l.map fun q => f q * f q).sum = 0 ↔ ∀ q ∈ l, f q = 0 := by
    intro f l
    induction l with
    | nil => simp
    | cons q l ih =>
      have h0 : 0 ≤ (l.map fun q => f q * f q).sum :=
        List.sum_nonneg (by simp only [List.mem_map]; rintro _ ⟨q, _, rfl⟩; exact mul_self_nonneg _)
      rw [List.map_cons, List.sum_cons, List.forall_mem_cons]
      constructor
      · intro h
        have h1 : f q * f q = 0 := by nlinarith [mul_self_nonneg (f q)]
        exact ⟨mul_self_eq_zero.1 h1, ih.1 (by linarith)⟩
      · rintro ⟨h1, h2⟩
        rw [ih.2 h2, h1]; ring
  have hQz : Q = 0 ↔ ∀ q ∈ points, predict q = original q := by
    rw [hQ, hzero (fun q => predict q - original q)]
    simp only [sub_eq_zero]
  have hSQ : S ^ 2 ≤ N * Q := by
    have : ∀ l : List (Fin n → ℝ), ((l.map fun q => |predict q - original q|).sum) ^ 2 ≤
        (l.length : ℝ) * (l.map fun q => (predict q - original q) * (predict q - original q)).sum := by
      intro l
      induction l with
      | nil => simp
      | cons q l ih =>
        simp only [List.map_cons, List.sum_cons, List.length_cons]
        push_cast
        set s := (l.map fun q => |predict q - original q|).sum
        set t := (l.map fun q => (predict q - original q) * (predict q - original q)).sum
        set d := |predict q - original q| with hd
        have hdd : (predict q - original q) * (predict q - original q) = d ^ 2 := by
          rw [hd, sq_abs]; ring
        rw [hdd]
        rcases Nat.eq_zero_or_pos l.length with hz | hp
        · have hl : l = [] := List.length_eq_zero_iff.1 hz
          have hs : s = 0 := by simp [s, hl]
          have ht : t = 0 := by simp [t, hl]
          rw [hs, ht, hz]; push_cast; nlinarith
        · have hL : (0 : ℝ) < l.length := by exact_mod_cast hp
          have h1 : 0 ≤ ((l.length : ℝ) * d - s) ^ 2 := sq_nonneg _
          have h2 : 2 * d * s ≤ l.length * d ^ 2 + t := by
            have : s ^ 2 / l.length ≤ t := by rw [div_le_iff₀ hL]; linarith
            have h3 : 2 * d * s ≤ l.length * d ^ 2 + s ^ 2 / l.length := by
              have e : l.length * d ^ 2 + s ^ 2 / l.length - 2 * d * s = ((l.length : ℝ) * d - s) ^ 2 / l.length := by
                field_simp; ring
              have := div_nonneg h1 hL.le
              linarith
            linarith
          nlinarith
    exact this points
  rw [hM]
  dsimp only
  refine ⟨div_nonneg hS0 hlen.le, Real.sq_sqrt (div_nonneg hQ0 hlen.le), ?_, ?_, ?_⟩
  · apply Real.le_sqrt_of_sq_le
    rw [div_pow, div_le_div_iff₀ (by positivity) hlen]
    nlinarith
  · rw [div_eq_zero_iff, or_iff_left hlen.ne']
    exact hQz
  · rintro ⟨q, hq, r, hr, hqr⟩
    have hVp : 0 < V := by
      refine lt_of_le_of_ne hV0 fun h0 => hqr ?_
      have h1 := (hzero (fun q => original q - μ) points).1 h0.symm
      have a1 := h1 q hq
      have a2 := h1 r hr
      linarith
    have hbeq : (V == 0) = false := by
      rw [beq_eq_false_iff_ne]; exact hVp.ne'
    rw [hbeq]
    simp only [Bool.false_eq_true, if_false]
    refine ⟨?_, ?_, ?_⟩
    · have := div_nonneg hQ0 hVp.le
      linarith
    · rw [← hQz]
      constructor
      · intro h
        have : Q / V = 0 := by linarith
        rcases div_eq_zero_iff.1 this with h | h
        · exact h
        · exact absurd h hVp.ne'
      · intro h; rw [h]; simp
    · intro hp
      have hpr : (p : ℝ) + 1 < N := by rw [hN]; exact_mod_cast hp
      have hp0 : (0 : ℝ) ≤ p := Nat.cast_nonneg p
      rw [if_neg (by linarith)]
      have h1 := div_nonneg hQ0 hVp.le
      have h2 : 1 ≤ (N - 1) / (N - p - 1) := by rw [le_div_iff₀ (by linarith)]; linarith
      have h3 : (1 - (1 - Q / V)) * (N - 1) / (N - p - 1) = Q / V * ((N - 1) / (N - p - 1)) := by ring
      rw [h3]
      nlinarith

example : ([fun _ => 0, fun _ => 1] : List (Fin 1 → ℝ)) ≠ [] ∧
    ∃ q ∈ ([fun _ => 0, fun _ => 1] : List (Fin 1 → ℝ)), ∃ r ∈ ([fun _ => 0, fun _ => 1] : List (Fin 1 → ℝ)),
      q 0 ≠ r 0 := ⟨by simp, _, List.mem_cons_self, _, List.mem_cons_of_mem _ List.mem_cons_self, by norm_num⟩

end Real

/-! ## Quadratics, with the NaN sentinel -/

section XRQuad
variable {n : ℕ}

theorem xr_add (a b : ℝ) : (XR.fin a + XR.fin b : XR) = XR.fin (a + b) := rfl
theorem xr_sub (a b : ℝ) : (XR.fin a - XR.fin b : XR) = XR.fin (a - b) := by
  rw [sub_eq_add_neg]; rfl
theorem xr_mul (a b : ℝ) : (XR.fin a * XR.fin b : XR) = XR.fin (a * b) := rfl

theorem xr_sumLoop (k : ℕ) (f : Fin k → ℝ) :
    sumLoop k (fun i => XR.fin (f i)) = XR.fin (∑ i, f i) := by
  unfold sumLoop
  have : ∀ (l : List (Fin k)) (v : ℝ), l.foldl (fun acc i => acc + XR.fin (f i)) (XR.fin v) =
      XR.fin (v + (l.map f).sum) := by
    intro l
    induction l with
    | nil => intro v; simp
    | cons i l ih =>
      intro v
      rw [List.foldl_cons, xr_add, ih, List.map_cons, List.sum_cons, add_assoc]
  refine (this (List.finRange k) 0).trans ?_
  rw [zero_add, ← List.ofFn_eq_map, List.sum_ofFn]

theorem xr_half : (half : XR) = XR.fin (1 / 2) := by
  change XR.div (XR.fin 1) (XR.fin ((2 : ℕ) : ℝ)) = _
  simp [XR.div]

theorem xr_quadratic_predict (p g : Fin n → ℝ) (H : Fin n → Fin n → ℝ) (v : ℝ) (m : SummationMethod)
    (x : Fin n → ℝ) :
    (⟨fun i => .fin (p i), .fin v, fun i => .fin (g i), fun r c => .fin (H r c), m⟩ :
      QuadraticApprox n XR).predict (fun i => .fin (x i)) =
    .fin ((⟨p, v, g, H, m⟩ : QuadraticApprox n ℝ).predict x) := by
  rw [quadratic_predict_eq]
  simp only [QuadraticApprox.predict, vdot, vsub, mmulVec, xr_sub, xr_mul, xr_sumLoop, xr_half, xr_add]

/-- C78. Every quadratic function is reproduced exactly, everywhere, by its quadratic approximation at
any point, when the differentiator returns its derivatives. -/
theorem quadratic_reproduced (m : SummationMethod) (c : ℝ) (b : Fin n → ℝ) (A : Fin n → Fin n → ℝ)
    (f : (Fin n → XR) → XR)
    (hf : ∀ x : Fin n → ℝ, f (fun i => .fin (x i)) =
      .fin (c + ∑ i, b i * x i + ∑ i, ∑ j, A i j * x i * x j))
    (p : Fin n → ℝ) (partial1 : Fin n → Except DiffError XR)
    (partial2 : Fin n → Fin n → Except DiffError XR)
    (h1 : ∀ i, partial1 i = .ok (.fin (b i + ∑ j, (A i j + A j i) * p j)))
    (h2 : ∀ r s, partial2 r s = .ok (.fin (A r s + A s r))) :
    ∃ a, quadraticApproximate m f partial1 partial2 (fun i => .fin (p i)) = .ok a ∧
      ∀ x : Fin n → ℝ, a.predict (fun i => .fin (x i)) = f fun i => .fin (x i) := by
  have hs := quadratic_approximate_spec (T := XR) rfl m f partial1 partial2 (fun i => .fin (p i))
  obtain ⟨a, ha⟩ := hs.2.2 (fun i => ⟨_, h1 i⟩) (fun r s => ⟨_, h2 r s⟩)
  refine ⟨a, ha, fun x => ?_⟩
  obtain ⟨e1, e2, _, e4, e5, e6⟩ := hs.1 a ha
  have hg : a.gradient = fun i => .fin (b i + ∑ j, (A i j + A j i) * p j) := by
    funext i
    have := e4 i
    rw [h1 i] at this
    exact (Except.ok.inj this).symm
  have hH : a.hessian = fun r s => .fin (A r s + A s r) := by
    funext r s
    rcases e6 r s with h | h
    · rw [h2 r s] at h
      exact (Except.ok.inj h).symm
    · rw [h2 s r] at h
      rw [← Except.ok.inj h, add_comm]
  obtain ⟨ap, av, ag, ah, am⟩ := a
  dsimp only at e1 e2 hg hH
  subst e1 hg hH
  rw [hf] at e2
  subst e2
  rw [xr_quadratic_predict, hf x, quadratic_predict_eq]
  congr 1
  dsimp only
  have k1 : ∀ u w : Fin n → ℝ, ∑ i, ∑ j, A j i * u i * w j = ∑ i, ∑ j, A i j * w i * u j := by
    intro u w
    rw [Finset.sum_comm]
    exact Finset.sum_congr rfl fun i _ => Finset.sum_congr rfl fun j _ => by ring
  have k2 : ∑ i, (b i + ∑ j, (A i j + A j i) * p j) * (x i - p i) =
      ∑ i, b i * x i - ∑ i, b i * p i + (∑ i, ∑ j, A i j * x i * p j + ∑ i, ∑ j, A j i * x i * p j)
        - (∑ i, ∑ j, A i j * p i * p j + ∑ i, ∑ j, A j i * p i * p j) := by
    simp only [← Finset.sum_add_distrib, ← Finset.sum_sub_distrib]
    refine Finset.sum_congr rfl fun i _ => ?_
    have : ∀ y : ℝ, ∑ j, (A i j * y * p j + A j i * y * p j) = y * ∑ j, (A i j + A j i) * p j := by
      intro y
      rw [Finset.mul_sum]
      exact Finset.sum_congr rfl fun j _ => by ring
    simp only [this]
    ring
  have k3 : ∑ i, (∑ j, (A i j + A j i) * (x j - p j)) * (x i - p i) =
      (∑ i, ∑ j, A i j * x i * x j - ∑ i, ∑ j, A i j * x i * p j
        - ∑ i, ∑ j, A i j * p i * x j + ∑ i, ∑ j, A i j * p i * p j)
      + (∑ i, ∑ j, A j i * x i * x j - ∑ i, ∑ j, A j i * x i * p j
        - ∑ i, ∑ j, A j i * p i * x j + ∑ i, ∑ j, A j i * p i * p j) := by
    simp only [← Finset.sum_add_distrib, ← Finset.sum_sub_distrib, Finset.sum_mul]
    refine Finset.sum_congr rfl fun i _ => Finset.sum_congr rfl fun j _ => by ring
  rw [k2, k3, k1 x p, k1 p p, k1 x x, k1 p x]
  ring

/-- Such a function and differentiator exist: `x²` in one variable, expanded at `3`. -/
example : ∃ (f : (Fin 1 → XR) → XR), ∀ x : Fin 1 → ℝ, f (fun i => .fin (x i)) =
    .fin ((0 : ℝ) + ∑ i, (0 : ℝ) * x i + ∑ i, ∑ j, (1 : ℝ) * x i * x j) :=
  ⟨fun y => y 0 * y 0, fun x => by simp [xr_mul]⟩

end XRQuad

end Multicalc
