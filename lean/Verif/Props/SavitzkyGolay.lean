import Verif.Model.SavitzkyGolay
import Verif.Props.Signal
import Verif.Props.Scalar
import Mathlib.Algebra.Polynomial.Derivative
import Mathlib.Algebra.Polynomial.Eval.Degree
import Mathlib.Tactic

/-!
# Property C26: Savitzky–Golay reproduces polynomials
-/

namespace Multicalc
open Polynomial
variable {W P : ℕ}

theorem weightedSum_eq (hW : 0 < W) (xs : List ℝ) (hxs : xs ≠ []) (w : Fin W → ℝ) :
    weightedSum (xs.foldl (Ring.push W) (Ring.empty W)) w =
      ∑ j : Fin W, w j * (paddedWindow W xs).getD j 0 := by
  obtain ⟨-, h2, h3, h4⟩ := ring_spec W hW xs hxs
  generalize xs.foldl (Ring.push W) (Ring.empty W) = r at h2 h3 h4 ⊢
  unfold weightedSum
  have e : ∀ (l : List (Fin W)) (a : ℝ), l.foldl (fun total position =>
      total + w position * r.samples.getD ((r.next + position) % W) 0) a =
      a + (l.map fun j => w j * (paddedWindow W xs).getD j 0).sum := by
    intro l
    induction l with
    | nil => intro a; simp
    | cons x l ih =>
      intro a
      rw [List.foldl_cons, ih, List.map_cons, List.sum_cons, ← add_assoc]
      congr 3
      rw [← h4]
      have hx : (x : ℕ) < (r.samples.rotate r.next).length := by simp [h2]
      rw [getD_of_lt _ _ hx, List.getElem_rotate, getD_of_lt _ _ (by rw [h2]; exact Nat.mod_lt _ hW)]
      congr 1
      rw [h2, add_comm]
  rw [e, zero_add, ← List.sum_ofFn, List.ofFn_eq_map]

theorem paddedWindow_full (g : ℕ → ℝ) (W m : ℕ) (hW : 0 < W) (hm : W ≤ m) (j : ℕ) (hj : j < W) :
    (paddedWindow W ((List.range m).map g)).getD j 0 = g (m - W + j) := by
  obtain ⟨k, rfl⟩ : ∃ k, m = k + 1 := ⟨m - 1, by omega⟩
  rw [List.range_succ_eq_map, List.map_cons]
  simp only [paddedWindow, List.length_map, List.length_range]
  rw [getD_of_lt _ _ (by simp; omega), List.getElem_drop]
  rcases Nat.lt_or_ge (k + j) W with h | h
  · rw [List.getElem_append_left (by simpa using h), List.getElem_replicate]
    congr 1; omega
  · rw [List.getElem_append_right (by simpa using h)]
    simp only [List.length_replicate, List.map_map, List.getElem_map, List.getElem_range,
      Function.comp]
    congr 1; omega

/-- The left-inverse rows applied to samples of a polynomial read off its coefficients. -/
theorem sg_rows (q : ℝ[X]) (hq : q.natDegree < P) (r : ℕ) (inv : Fin P → Fin W → ℝ)
    (hinv : ∀ i k, ∑ j, inv i j * (sgFit W P r j k : ℝ) = if i = k then 1 else 0) (i : Fin P) :
    ∑ j : Fin W, inv i j * q.eval ((j : ℝ) - r) = q.coeff i := by
  have hev : ∀ j : Fin W, q.eval ((j : ℝ) - r) = ∑ k : Fin P, q.coeff k * (sgFit W P r j k : ℝ) := by
    intro j
    rw [Polynomial.eval_eq_sum_range' hq, ← Fin.sum_univ_eq_sum_range
      (fun k => q.coeff k * ((j : ℝ) - r) ^ k)]
    simp [sgFit, powi_eq_zpow]
  simp only [hev, Finset.mul_sum]
  rw [Finset.sum_comm]
  have : ∀ k : Fin P, ∑ j : Fin W, inv i j * (q.coeff k * (sgFit W P r j k : ℝ)) =
      q.coeff k * if i = k then 1 else 0 := by
    intro k
    rw [← hinv i k, Finset.mul_sum]
    refine Finset.sum_congr rfl fun j _ => by ring
  simp [this]

/-- The filter's state after a history of samples. -/
noncomputable def sgRun (f : SavitzkyGolay W ℝ) (xs : List ℝ) : SavitzkyGolay W ℝ :=
  (runFilter SavitzkyGolay.filter f xs).2

theorem sgRun_ring (f : SavitzkyGolay W ℝ) (xs : List ℝ) :
    sgRun f xs = { f with ring := xs.foldl (Ring.push W) f.ring } := by
  unfold sgRun
  induction xs generalizing f with
  | nil => simp [runFilter]
  | cons x xs ih => simp only [runFilter, List.foldl_cons]; rw [ih]; rfl

/-- C26. Whenever the pseudo-inverse is a left inverse of the fit matrix (as it is when no singular
value is dropped), and at least a window of samples `p(t₀ + k·dt)` of a polynomial with fewer
coefficients than terms has been fed, the smoothed value, slope and bend are those of the polynomial,
exactly `delay` before the newest sample; for any read position, so for both constructors. -/
theorem sg_reproduces_polynomials (pinv : (Fin W → Fin P → ℝ) → Except SignalError (Fin P → Fin W → ℝ))
    (dt : ℝ) (r : ℕ) (hr : r < W) (f : SavitzkyGolay W ℝ)
    (hf : SavitzkyGolay.build pinv dt r = .ok f)
    (hpinv : ∀ inv, pinv (sgFit W P r) = .ok inv →
      ∀ i k, ∑ j, inv i j * (sgFit W P r j k : ℝ) = if i = k then 1 else 0)
    (p : ℝ[X]) (hp : p.natDegree < P) (t₀ : ℝ) (m : ℕ) (hm : W ≤ m + 1) :
    let f' := sgRun f ((List.range (m + 1)).map fun k : ℕ => p.eval (t₀ + k * dt))
    f'.value = p.eval (t₀ + m * dt - f.delay) ∧
    (1 < P → f'.firstDerivative = p.derivative.eval (t₀ + m * dt - f.delay)) ∧
    (2 < P → f'.secondDerivative = p.derivative.derivative.eval (t₀ + m * dt - f.delay)) := by
  unfold SavitzkyGolay.build at hf
  simp only [Fns.isFinite, Bool.not_true, Bool.false_eq_true, if_false] at hf
  split at hf
  · simp at hf
  next hdt =>
  push Not at hdt
  split at hf
  · simp at hf
  next hWP =>
  push Not at hWP
  split at hf
  · simp at hf
  split at hf
  · simp at hf
  next inv hi =>
  have hrows := hpinv inv hi
  simp only [Except.ok.injEq] at hf
  subst hf
  have hW : 0 < W := by omega
  have hP : 0 < P := by omega
  simp only [sgRun_ring, SavitzkyGolay.value, SavitzkyGolay.firstDerivative,
    SavitzkyGolay.secondDerivative]
  have hne : (List.range (m + 1)).map (fun k : ℕ => p.eval (t₀ + k * dt)) ≠ [] := by simp
  simp only [weightedSum_eq hW _ hne]
  set tr := t₀ + m * dt - ((W - 1 - r : ℕ) : ℝ) * dt with htr
  obtain ⟨q, hq⟩ : ∃ q : ℝ[X], q = p.comp (C tr + C dt * X) := ⟨_, rfl⟩
  have hqdeg : q.natDegree < P := by
    rw [hq]
    refine lt_of_le_of_lt (Polynomial.natDegree_comp_le) ?_
    have : (C tr + C dt * X : ℝ[X]).natDegree ≤ 1 := by
      rw [add_comm]; exact Polynomial.natDegree_linear_le
    calc p.natDegree * _ ≤ p.natDegree * 1 := Nat.mul_le_mul_left _ this
      _ < P := by omega
  have hwin : ∀ j : Fin W, (paddedWindow W ((List.range (m + 1)).map
      fun k : ℕ => p.eval (t₀ + k * dt))).getD j 0 = q.eval ((j : ℝ) - r) := by
    intro j
    rw [paddedWindow_full _ W (m + 1) hW hm j j.2, hq]
    simp only [eval_comp, eval_add, eval_C, eval_mul, eval_X]
    congr 1
    rw [htr, Nat.cast_add, Nat.cast_sub hm, Nat.cast_sub (by omega : r ≤ W - 1),
      Nat.cast_sub (by omega : 1 ≤ W)]
    push_cast; ring
  have hrow : ∀ i : Fin P, ∑ j : Fin W, inv i j * (paddedWindow W ((List.range (m + 1)).map
      fun k : ℕ => p.eval (t₀ + k * dt))).getD j 0 = q.coeff i := by
    intro i
    simp only [hwin]
    exact sg_rows q hqdeg r inv hrows i
  have hd1 : derivative q = C dt * (derivative p).comp (C tr + C dt * X) := by
    rw [hq, derivative_comp]; simp
  have hd2 : derivative (derivative q) = C dt * (C dt *
      (derivative (derivative p)).comp (C tr + C dt * X)) := by
    rw [hd1, derivative_C_mul, derivative_comp]; simp
  refine ⟨?_, ?_, ?_⟩
  · simp only [hP, dif_pos]
    rw [hrow ⟨0, hP⟩]
    simp only [coeff_zero_eq_eval_zero, hq, eval_comp, eval_add, eval_C, eval_mul, eval_X, mul_zero,
      add_zero]
  · intro h1
    simp only [h1, dif_pos]
    have : ∀ j : Fin W, inv ⟨1, h1⟩ j / dt * (paddedWindow W ((List.range (m + 1)).map
        fun k : ℕ => p.eval (t₀ + k * dt))).getD j 0 = (inv ⟨1, h1⟩ j * (paddedWindow W
        ((List.range (m + 1)).map fun k : ℕ => p.eval (t₀ + k * dt))).getD j 0) / dt := by
      intro j; ring
    simp only [this]
    rw [← Finset.sum_div, hrow ⟨1, h1⟩]
    have hc : q.coeff 1 = dt * (derivative p).eval tr := by
      have := coeff_derivative q 0
      rw [hd1, coeff_C_mul, coeff_zero_eq_eval_zero] at this
      simp only [eval_comp, eval_add, eval_C, eval_mul, eval_X, mul_zero, add_zero] at this
      rw [this]; norm_num
    rw [hc]
    field_simp
  · intro h2
    simp only [h2, dif_pos]
    have : ∀ j : Fin W, ((2 : ℕ) : ℝ) * inv ⟨2, h2⟩ j / (dt * dt) * (paddedWindow W
        ((List.range (m + 1)).map fun k : ℕ => p.eval (t₀ + k * dt))).getD j 0 =
        (inv ⟨2, h2⟩ j * (paddedWindow W
        ((List.range (m + 1)).map fun k : ℕ => p.eval (t₀ + k * dt))).getD j 0) *
          (2 / (dt * dt)) := by
      intro j; push_cast; ring
    simp only [this]
    rw [← Finset.sum_mul, hrow ⟨2, h2⟩]
    have hc : q.coeff 2 = dt * dt * (derivative (derivative p)).eval tr / 2 := by
      have e1 := coeff_derivative (derivative q) 0
      have e2 := coeff_derivative q 1
      rw [hd2, coeff_C_mul, coeff_C_mul, coeff_zero_eq_eval_zero] at e1
      simp only [eval_comp, eval_add, eval_C, eval_mul, eval_X, mul_zero, add_zero] at e1
      push_cast at e1 e2
      rw [e2] at e1
      norm_num at e1
      linarith
    rw [hc]
    field_simp

/-- C26. Which windows are accepted, and the delay: `latest` adds none, `centered` half a window and
only for odd windows. -/
theorem sg_constructors (pinv : (Fin W → Fin P → ℝ) → Except SignalError (Fin P → Fin W → ℝ))
    (dt : ℝ) (f : SavitzkyGolay W ℝ) :
    (SavitzkyGolay.latest pinv dt = .ok f → 0 < dt ∧ 0 < P ∧ P ≤ W ∧ f.delay = 0) ∧
    (SavitzkyGolay.centered pinv dt = .ok f →
      0 < dt ∧ 0 < P ∧ P ≤ W ∧ W % 2 = 1 ∧ f.delay = ((W : ℝ) - 1) / 2 * dt) := by
  have hb : ∀ r, SavitzkyGolay.build pinv dt r = .ok f →
      0 < dt ∧ 0 < P ∧ P ≤ W ∧ f.delay = ((W - 1 - r : ℕ) : ℝ) * dt := by
    intro r h
    unfold SavitzkyGolay.build at h
    simp only [Fns.isFinite, Bool.not_true, Bool.false_eq_true, if_false] at h
    split at h
    · simp at h
    split at h
    · simp at h
    split at h
    · simp at h
    split at h
    · simp at h
    next h1 h2 h3 _ _ _ =>
    simp only [Except.ok.injEq] at h
    subst h
    push Not at h1 h2
    exact ⟨h1, by omega, by omega, rfl⟩
  constructor
  · intro h
    obtain ⟨a, b, c, d⟩ := hb _ h
    exact ⟨a, b, c, by rw [d]; simp⟩
  · intro h
    unfold SavitzkyGolay.centered at h
    split at h
    · simp at h
    · obtain ⟨a, b, c, d⟩ := hb _ h
      refine ⟨a, b, c, by omega, ?_⟩
      obtain ⟨k, rfl⟩ : ∃ k, W = 2 * k + 1 := ⟨W / 2, by omega⟩
      rw [d, show 2 * k + 1 - 1 - (2 * k + 1 - 1) / 2 = k by omega]
      push_cast; ring

/-- C26. Every window at least as long as the fit is accepted, an exact fit included: with a positive
timestep and a least-squares solver that succeeds, `latest` builds whenever `1 ≤ P ≤ W` and `centered`
whenever `W` is also odd. -/
theorem sg_accepts (pinv : (Fin W → Fin P → ℝ) → Except SignalError (Fin P → Fin W → ℝ))
    (hp : ∀ m, ∃ i, pinv m = .ok i) (dt : ℝ) (hdt : 0 < dt) (hP : 0 < P) (hPW : P ≤ W) :
    (∃ f, SavitzkyGolay.latest pinv dt = .ok f) ∧
    (W % 2 = 1 → ∃ f, SavitzkyGolay.centered pinv dt = .ok f) := by
  have hb : ∀ r, ∃ f, SavitzkyGolay.build pinv dt r = .ok f := by
    intro r
    obtain ⟨i, hi⟩ := hp (sgFit W P r)
    unfold SavitzkyGolay.build
    simp only [Fns.isFinite, Bool.not_true, Bool.false_eq_true, if_false, if_neg (not_le.2 hdt)]
    rw [if_neg (by omega), if_neg (by omega), hi]
    exact ⟨_, rfl⟩
  refine ⟨hb _, fun hW => ?_⟩
  unfold SavitzkyGolay.centered
  rw [if_neg (by omega)]
  exact hb _

/-- A solver that always answers, on a two-sample window fitted exactly. -/
example : ∃ f, SavitzkyGolay.latest (W := 2) (P := 2) (fun _ => .ok fun _ _ => (0 : ℝ)) 1 = .ok f :=
  (sg_accepts (fun _ => .ok fun _ _ => (0 : ℝ)) (fun _ => ⟨_, rfl⟩) 1 one_pos (by norm_num)
    le_rfl).1

/-- Two terms over three samples, read at the newest: the left inverse is explicit. -/
example : ∀ i k : Fin 2, ∑ j : Fin 3, (![![-1/6, 1/3, 5/6], ![-1/2, 0, 1/2]] : Fin 2 → Fin 3 → ℝ) i j *
    (sgFit 3 2 2 j k : ℝ) = if i = k then 1 else 0 := by
  intro i k
  fin_cases i <;> fin_cases k <;> simp [sgFit, powi_eq_zpow, Fin.sum_univ_succ] <;> norm_num

end Multicalc
