import Verif.Lemmas.Polynomial
import Verif.Model.PolynomialRoots

/-!
# Closed-form real roots (C69)

The reference is Mathlib's `Polynomial.roots`, the multiset of the roots in `ℝ`, each as often as its
multiplicity.
-/

namespace Multicalc
namespace Poly

open Polynomial

/-! ### Sorting -/

theorem insertBack_perm (v : ℝ) (l : List ℝ) : (insertBack v l).Perm (v :: l) := by
  induction l with
  | nil => simp [insertBack]
  | cons p ps ih =>
    simp only [insertBack]
    split
    · exact List.Perm.refl _
    · exact (List.Perm.cons p ih).trans (List.Perm.swap v p ps)

theorem insertBack_sorted (v : ℝ) (l : List ℝ) (h : l.Pairwise (· ≥ ·)) :
    (insertBack v l).Pairwise (· ≥ ·) := by
  induction l with
  | nil => simp [insertBack]
  | cons p ps ih =>
    simp only [insertBack]
    rw [List.pairwise_cons] at h
    split
    · rename_i hle
      rw [List.pairwise_cons, List.pairwise_cons]
      refine ⟨?_, h⟩
      intro a ha
      rcases List.mem_cons.mp ha with rfl | ha
      · exact hle
      · exact (h.1 a ha).trans hle
    · rename_i hle
      rw [List.pairwise_cons]
      refine ⟨?_, ih h.2⟩
      intro a ha
      rcases List.mem_cons.mp ((insertBack_perm v ps).mem_iff.mp ha) with rfl | ha
      · exact (not_le.mp hle).le
      · exact h.1 a ha

theorem sortAscending_spec (l : List ℝ) :
    (sortAscending l).Pairwise (· ≤ ·) ∧ (sortAscending l).Perm l := by
  have key : ∀ (l acc : List ℝ), acc.Pairwise (· ≥ ·) →
      (l.foldl (fun sorted value => insertBack value sorted) acc).Pairwise (· ≥ ·) ∧
      (l.foldl (fun sorted value => insertBack value sorted) acc).Perm (l ++ acc) := by
    intro l
    induction l with
    | nil => intro acc h; exact ⟨h, List.Perm.refl _⟩
    | cons a l ih =>
      intro acc h
      obtain ⟨h1, h2⟩ := ih _ (insertBack_sorted a acc h)
      refine ⟨h1, h2.trans ?_⟩
      exact ((insertBack_perm a acc).append_left l).trans List.perm_middle
  obtain ⟨h1, h2⟩ := key l [] List.Pairwise.nil
  refine ⟨?_, ?_⟩
  · rw [sortAscending, List.pairwise_reverse]
    exact h1
  · rw [List.append_nil] at h2
    exact (List.reverse_perm _).trans h2

theorem sortAscending_coe (l : List ℝ) : ((sortAscending l : List ℝ) : Multiset ℝ) = (l : Multiset ℝ) :=
  Multiset.coe_eq_coe.mpr (sortAscending_spec l).2

/-! ### Multisets of roots from factorisations -/

theorem roots_none {p : ℝ[X]} (h : ∀ x, p.eval x ≠ 0) : p.roots = 0 := by
  apply Multiset.eq_zero_of_forall_notMem
  intro x hx
  exact h x (isRoot_of_mem_roots hx)

theorem roots_C_mul_pair {a r s : ℝ} (ha : a ≠ 0) :
    (C a * ((X - C r) * (X - C s))).roots = {r, s} := by
  rw [roots_C_mul _ ha, roots_mul (mul_ne_zero (X_sub_C_ne_zero r) (X_sub_C_ne_zero s))]
  simp

theorem isFinite_real (l : List ℝ) : isFinite l = true := by
  simp only [isFinite, List.all_eq_true]
  intro x _
  rfl

theorem checkRoots_real (l : List ℝ) (a : ℝ) (ha : a ≠ 0) : checkRoots l a = .ok () := by
  have : (a == 0) = false := by simpa using ha
  simp [checkRoots, isFinite_real, this]

theorem eval_quadratic (c b a x : ℝ) : (ofCoeffs [c, b, a]).eval x = a * x ^ 2 + b * x + c := by
  simp; ring

theorem quadratic_factor {c b a r s : ℝ} (hb : b = -(a * (r + s))) (hc : c = a * (r * s)) :
    ofCoeffs [c, b, a] = C a * ((X - C r) * (X - C s)) := by
  subst hb hc
  simp only [ofCoeffs_cons, ofCoeffs_nil, mul_zero, add_zero, C_neg, C_mul, C_add]
  ring

theorem lit_real (q : ℚ) : (Fns.lit q : ℝ) = (q : ℝ) := rfl

/-- What the quadratic finder returns, by the sign of the discriminant. -/
theorem quadratic_cases (c b a : ℝ) (ha : a ≠ 0) :
    (b * b - 4 * a * c < 0 ∧ realRoots3 c b a = .ok []) ∨
    (∃ r s, r ≤ s ∧ realRoots3 c b a = .ok [r, s] ∧ b = -(a * (r + s)) ∧ c = a * (r * s)) := by
  have hsort : ∀ x y : ℝ, ∃ r s, r ≤ s ∧ sortAscending [x, y] = [r, s] ∧ r + s = x + y ∧
      r * s = x * y := by
    intro x y
    by_cases h : x ≤ y
    · exact ⟨x, y, h, by simp [sortAscending, insertBack, h], rfl, rfl⟩
    · exact ⟨y, x, (not_le.mp h).le, by simp [sortAscending, insertBack, h], add_comm _ _,
        mul_comm _ _⟩
  simp only [realRoots3, checkRoots_real _ a ha, lit_real]
  push_cast
  by_cases hd : b * b - 4 * a * c < 0
  · left; exact ⟨hd, by rw [if_pos hd]⟩
  · right
    rw [if_neg hd]
    set w := Fns.copysign (Fns.sqrt (b * b - 4 * a * c)) b with hw
    have hww : w * w = b * b - 4 * a * c := by
      have h2 : w = if b < 0 then -|Real.sqrt (b * b - 4 * a * c)| else
        |Real.sqrt (b * b - 4 * a * c)| := rfl
      rw [h2]
      have h3 := Real.mul_self_sqrt (not_lt.mp hd)
      split <;> simp [abs_of_nonneg (Real.sqrt_nonneg _), h3]
    have hsign : b * w ≥ 0 := by
      have h2 : w = if b < 0 then -|Real.sqrt (b * b - 4 * a * c)| else
        |Real.sqrt (b * b - 4 * a * c)| := rfl
      rw [h2]
      split
      · rename_i hb
        nlinarith [abs_nonneg (Real.sqrt (b * b - 4 * a * c))]
      · rename_i hb
        nlinarith [abs_nonneg (Real.sqrt (b * b - 4 * a * c))]
    by_cases hc : -(1 / (2 : ℝ)) * (b + w) = 0
    · have hbw : b + w = 0 := by linarith
      have hb0 : b = 0 := by nlinarith
      have hw0 : w = 0 := by linarith
      have hc0 : c = 0 := by
        rw [hw0, hb0] at hww
        have : a * c = 0 := by linarith
        exact (mul_eq_zero.mp this).resolve_left ha
      have hbeq : (-(1 / (2 : ℝ)) * (b + w) == 0) = true := by simpa using hc
      rw [if_pos hbeq]
      obtain ⟨r, s, h1, h2, h3, h4⟩ := hsort 0 0
      exact ⟨r, s, h1, congrArg Except.ok h2, by rw [h3, hb0]; ring, by rw [h4, hc0]; ring⟩
    · have hbeq : ¬ ((-(1 / (2 : ℝ)) * (b + w) == 0) = true) := by simpa using hc
      rw [if_neg hbeq]
      set k := -(1 / (2 : ℝ)) * (b + w) with hk
      have hkk : k * k + b * k + a * c = 0 := by
        rw [hk]; linear_combination (1 / 4 : ℝ) * hww
      obtain ⟨r, s, h1, h2, h3, h4⟩ := hsort (k / a) (c / k)
      refine ⟨r, s, h1, congrArg Except.ok h2, ?_, ?_⟩
      · rw [h3]
        field_simp
        linear_combination hkk
      · rw [h4]
        field_simp

/-- C69. The quadratic finder refuses a zero leading coefficient, and otherwise returns exactly the
real roots with their multiplicities, in ascending order. -/
theorem quadratic_roots (c b a : ℝ) :
    (a = 0 → realRoots3 c b a = .error .leadingCoefficientZero) ∧
    (a ≠ 0 → ∃ roots, realRoots3 c b a = .ok roots ∧ roots.Pairwise (· ≤ ·) ∧
      (roots : Multiset ℝ) = (ofCoeffs [c, b, a]).roots) := by
  refine ⟨fun h => ?_, fun ha => ?_⟩
  · subst h; simp [realRoots3, checkRoots, isFinite_real]
  · rcases quadratic_cases c b a ha with ⟨hd, h⟩ | ⟨r, s, h1, h2, h3, h4⟩
    · refine ⟨[], h, List.Pairwise.nil, ?_⟩
      rw [roots_none]
      · rfl
      intro x hx
      rw [eval_quadratic] at hx
      have : (2 * a * x + b) ^ 2 = b * b - 4 * a * c := by linear_combination 4 * a * hx
      nlinarith [sq_nonneg (2 * a * x + b)]
    · refine ⟨[r, s], h2, by simpa using h1, ?_⟩
      rw [quadratic_factor h3 h4, roots_C_mul_pair ha]
      rfl

example : ∃ roots, realRoots3 (2 : ℝ) (-3) 1 = .ok roots ∧
    (roots : Multiset ℝ) = (ofCoeffs [2, -3, 1]).roots :=
  let ⟨r, h1, _, h2⟩ := (quadratic_roots 2 (-3) 1).2 one_ne_zero
  ⟨r, h1, h2⟩

/-- C69. The linear finder refuses a zero slope and otherwise returns the one root. -/
theorem linear_roots (b a : ℝ) :
    (a = 0 → realRoots2 b a = .error .leadingCoefficientZero) ∧
    (a ≠ 0 → realRoots2 b a = .ok [-b / a] ∧ (([-b / a] : List ℝ) : Multiset ℝ) = (ofCoeffs [b, a]).roots) := by
  refine ⟨fun h => ?_, fun ha => ⟨?_, ?_⟩⟩
  · subst h; simp [realRoots2, checkRoots, isFinite_real]
  · simp [realRoots2, checkRoots_real _ a ha, pushRoot]
  · have : ofCoeffs [b, a] = C a * (X - C (-b / a)) := by
      have hb : b = -(a * (-b / a)) := by field_simp
      simp only [ofCoeffs_cons, ofCoeffs_nil, mul_zero, add_zero]
      conv_lhs => rw [hb]
      simp only [C_neg, C_mul]
      ring
    rw [this, roots_C_mul _ ha, roots_X_sub_C]
    rfl

example : realRoots2 (-6 : ℝ) 2 = .ok [3] := by
  rw [((linear_roots (-6) 2).2 two_ne_zero).1]; norm_num

/-! ### The cubic -/

theorem powi_three (x : ℝ) : powi x 3 = x ^ 3 := by
  simp [powi, powiLoop]; ring

theorem cbrt_cube (x : ℝ) : (Fns.cbrt x : ℝ) ^ 3 = x := by
  have h : (Fns.cbrt x : ℝ) = if x < 0 then -((-x) ^ ((1 : ℝ) / 3)) else x ^ ((1 : ℝ) / 3) := rfl
  rw [h]
  have key : ∀ y : ℝ, 0 ≤ y → (y ^ ((1 : ℝ) / 3)) ^ 3 = y := by
    intro y hy
    rw [← Real.rpow_natCast, ← Real.rpow_mul hy]; norm_num
  split
  · rename_i hx
    have := key (-x) (by linarith)
    linear_combination -this
  · rename_i hx
    exact key x (not_lt.mp hx)

theorem cube_injective {x y : ℝ} (h : x ^ 3 = y ^ 3) : x = y :=
  (Odd.strictMono_pow (by decide : Odd 3)).injective h

theorem cos_acos {x : ℝ} (h1 : -1 ≤ x) (h2 : x ≤ 1) : Real.cos (acos x) = x := by
  have hs : 0 ≤ 1 - x * x := by nlinarith
  have h : acos x = Complex.arg ⟨x, Real.sqrt (1 - x * x)⟩ := rfl
  have hn : ‖(⟨x, Real.sqrt (1 - x * x)⟩ : ℂ)‖ = 1 := by
    rw [Complex.norm_def, Complex.normSq_mk, Real.mul_self_sqrt hs]
    simp
  rw [h, Complex.cos_arg (by rw [← norm_ne_zero_iff, hn]; exact one_ne_zero), hn]
  simp

theorem roots_C_mul_triple {a r s t : ℝ} (ha : a ≠ 0) :
    (C a * ((X - C r) * ((X - C s) * (X - C t)))).roots = {r, s, t} := by
  have h1 := mul_ne_zero (X_sub_C_ne_zero s) (X_sub_C_ne_zero t)
  rw [roots_C_mul _ ha, roots_mul (mul_ne_zero (X_sub_C_ne_zero r) h1), roots_mul h1]
  simp only [roots_X_sub_C, Multiset.singleton_add]
  rfl

/-- The reduced cubic `y³ + P y + Q` of `a x³ + b x² + c x + d` at `x = y - b/(3a)`. -/
theorem cubic_reduced {d c b a : ℝ} (ha : a ≠ 0) (x : ℝ) :
    let slide := -b / (3 * a)
    let P := (3 * a * c - b * b) / (3 * a * a)
    let Q := (2 * b * b * b - 9 * a * b * c + 27 * a * a * d) / (27 * a * a * a)
    a * x ^ 3 + b * x ^ 2 + c * x + d = a * ((x - slide) ^ 3 + P * (x - slide) + Q) := by
  intro slide P Q
  simp only [slide, P, Q]
  field_simp
  ring

theorem eval_cubic (d c b a x : ℝ) :
    (ofCoeffs [d, c, b, a]).eval x = a * x ^ 3 + b * x ^ 2 + c * x + d := by
  simp; ring

theorem cubic_factor_three {d c b a : ℝ} {P Q s y0 y1 y2 : ℝ}
    (h : ∀ x, a * x ^ 3 + b * x ^ 2 + c * x + d = a * ((x - s) ^ 3 + P * (x - s) + Q))
    (h1 : y0 + y1 + y2 = 0) (h2 : y0 * y1 + y0 * y2 + y1 * y2 = P) (h3 : y0 * y1 * y2 = -Q) :
    ofCoeffs [d, c, b, a] =
      C a * ((X - C (y0 + s)) * ((X - C (y1 + s)) * (X - C (y2 + s)))) := by
  apply Polynomial.funext
  intro x
  rw [eval_cubic, h x]
  simp only [eval_mul, eval_sub, eval_X, eval_C]
  subst h2
  have hQ : Q = -(y0 * y1 * y2) := by linarith
  have hy : y2 = -y0 - y1 := by linarith
  subst hQ
  subst hy
  ring

theorem cubic_factor_one {d c b a : ℝ} {P Q s y0 : ℝ}
    (h : ∀ x, a * x ^ 3 + b * x ^ 2 + c * x + d = a * ((x - s) ^ 3 + P * (x - s) + Q))
    (h1 : y0 ^ 3 + P * y0 + Q = 0) (ha : a ≠ 0) (h2 : -3 * y0 ^ 2 - 4 * P < 0) :
    (ofCoeffs [d, c, b, a]).roots = {y0 + s} := by
  have hf : ofCoeffs [d, c, b, a] = C a * ((X - C (y0 + s)) *
      ((X - C s) ^ 2 + C y0 * (X - C s) + C (y0 ^ 2 + P))) := by
    apply Polynomial.funext
    intro x
    rw [eval_cubic, h x]
    simp only [eval_mul, eval_sub, eval_X, eval_C, eval_add, eval_pow]
    linear_combination a * h1
  have hno : ((X - C s) ^ 2 + C y0 * (X - C s) + C (y0 ^ 2 + P) : ℝ[X]).roots = 0 := by
    apply roots_none
    intro x hx
    simp only [eval_mul, eval_sub, eval_X, eval_C, eval_add, eval_pow] at hx
    nlinarith [sq_nonneg (2 * (x - s) + y0)]
  have hne : ((X - C s) ^ 2 + C y0 * (X - C s) + C (y0 ^ 2 + P) : ℝ[X]) ≠ 0 := by
    intro h0
    have hx : ((X - C s) ^ 2 + C y0 * (X - C s) + C (y0 ^ 2 + P) : ℝ[X]).eval s = 0 := by
      rw [h0]; simp
    simp at hx
    nlinarith [sq_nonneg y0]
  rw [hf, roots_C_mul _ ha, roots_mul (mul_ne_zero (X_sub_C_ne_zero _) hne), hno, roots_X_sub_C]
  simp

/-- The triple-angle construction gives the three roots of the reduced cubic. -/
theorem trig_roots {P Q : ℝ} (hP : P < 0) (hD : 4 * P ^ 3 + 27 * Q * Q ≤ 0) :
    let r := 2 * Real.sqrt (-P / 3)
    let k := (3 * Q) / (2 * P) * Real.sqrt (-3 / P)
    (-1 ≤ k ∧ k ≤ 1) ∧ ∀ θ, Real.cos θ = k →
      let y := fun j : ℝ => r * Real.cos (θ / 3 - 2 * Real.pi * j / 3)
      y 0 + y 1 + y 2 = 0 ∧ y 0 * y 1 + y 0 * y 2 + y 1 * y 2 = P ∧ y 0 * y 1 * y 2 = -Q := by
  intro r k
  have hm : 0 < -P / 3 := by linarith
  have hn : 0 < -3 / P := div_pos_of_neg_of_neg (by norm_num) hP
  set u := Real.sqrt (-P / 3) with hu
  set v := Real.sqrt (-3 / P) with hv
  have huu : u * u = -P / 3 := Real.mul_self_sqrt hm.le
  have hvv : v * v = -3 / P := Real.mul_self_sqrt hn.le
  have hP' : P ≠ 0 := hP.ne
  have huv : u * v = 1 := by
    rw [hu, hv, ← Real.sqrt_mul hm.le]
    have : -P / 3 * (-3 / P) = 1 := by field_simp
    rw [this, Real.sqrt_one]
  have hk2 : k ^ 2 ≤ 1 := by
    have hP3 : P ^ 3 < 0 := by nlinarith [sq_nonneg P, mul_pos_of_neg_of_neg hP hP]
    have : k ^ 2 = -(27 * Q ^ 2) / (4 * P ^ 3) := by
      simp only [k]
      rw [mul_pow, sq v, hvv]
      field_simp
      ring
    rw [this, div_le_one_of_neg (by linarith)]
    linarith
  have hb := abs_le.mp ((sq_le_one_iff_abs_le_one k).mp hk2)
  refine ⟨hb, ?_⟩
  intro θ hθ y
  have hs3 : Real.sqrt 3 * Real.sqrt 3 = 3 := Real.mul_self_sqrt (by norm_num)
  have hc1 : Real.cos (2 * Real.pi / 3) = -(1 / 2) := by
    rw [show 2 * Real.pi / 3 = Real.pi - Real.pi / 3 by ring, Real.cos_pi_sub, Real.cos_pi_div_three]
  have hn1 : Real.sin (2 * Real.pi / 3) = Real.sqrt 3 / 2 := by
    rw [show 2 * Real.pi / 3 = Real.pi - Real.pi / 3 by ring, Real.sin_pi_sub, Real.sin_pi_div_three]
  have hc2 : Real.cos (4 * Real.pi / 3) = -(1 / 2) := by
    rw [show 4 * Real.pi / 3 = Real.pi / 3 + Real.pi by ring, Real.cos_add_pi, Real.cos_pi_div_three]
  have hn2 : Real.sin (4 * Real.pi / 3) = -(Real.sqrt 3 / 2) := by
    rw [show 4 * Real.pi / 3 = Real.pi / 3 + Real.pi by ring, Real.sin_add_pi, Real.sin_pi_div_three]
  set c := Real.cos (θ / 3) with hc
  set s := Real.sin (θ / 3) with hs
  have hcs : s ^ 2 + c ^ 2 = 1 := Real.sin_sq_add_cos_sq _
  have hy0 : y 0 = 2 * u * c := by
    simp only [y, r, hc]
    rw [mul_zero, zero_div, sub_zero]
  have hy1 : y 1 = 2 * u * (-(1 / 2) * c + Real.sqrt 3 / 2 * s) := by
    simp only [y, r]
    rw [mul_one, Real.cos_sub, hc1, hn1]; ring
  have hy2 : y 2 = 2 * u * (-(1 / 2) * c - Real.sqrt 3 / 2 * s) := by
    simp only [y, r]
    rw [show 2 * Real.pi * 2 / 3 = 4 * Real.pi / 3 by ring, Real.cos_sub, hc2, hn2]; ring
  have htri : 4 * c ^ 3 - 3 * c = k := by
    rw [← hθ, hc, ← Real.cos_three_mul]; congr 1; ring
  refine ⟨?_, ?_, ?_⟩
  · rw [hy0, hy1, hy2]; ring
  · rw [hy0, hy1, hy2]
    linear_combination (-(u * u) * s ^ 2) * hs3 - (3 * (u * u)) * hcs - 3 * huu
  · rw [hy0, hy1, hy2]
    have hkq : 2 * (u * u * u) * k = -Q := by
      simp only [k]
      have : 2 * (u * u * u) * (3 * Q / (2 * P) * v) = 2 * (u * u) * (u * v) * (3 * Q / (2 * P)) := by
        ring
      rw [this, huv, huu]
      field_simp
    linear_combination hkq + 2 * (u * u * u) * htri - 2 * u ^ 3 * c * s ^ 2 * hs3
      - 6 * u ^ 3 * c * hcs

/-- C69. The cubic finder refuses a zero leading coefficient, and otherwise returns the real roots in
ascending order: every real root appears and nothing else does, and unless there is a triple root
each appears as often as its multiplicity. -/
theorem cubic_roots (d c b a : ℝ) :
    (a = 0 → realRoots4 d c b a = .error .leadingCoefficientZero) ∧
    (a ≠ 0 → ∃ roots, realRoots4 d c b a = .ok roots ∧ roots.Pairwise (· ≤ ·) ∧ roots ≠ [] ∧
      (∀ x, x ∈ roots ↔ a * x ^ 3 + b * x ^ 2 + c * x + d = 0) ∧
      ((¬ ∃ r, ofCoeffs [d, c, b, a] = C a * (X - C r) ^ 3) →
        (roots : Multiset ℝ) = (ofCoeffs [d, c, b, a]).roots)) := by
  refine ⟨fun h => ?_, fun ha => ?_⟩
  · subst h; simp [realRoots4, checkRoots, isFinite_real]
  · have hp0 : ofCoeffs [d, c, b, a] ≠ 0 := by
      intro h0
      have := congrArg (fun q => q.coeff 3) h0
      simp only [coeff_ofCoeffs] at this
      exact ha (by simpa using this)
    have hmem : ∀ x, x ∈ (ofCoeffs [d, c, b, a]).roots ↔
        a * x ^ 3 + b * x ^ 2 + c * x + d = 0 := by
      intro x
      rw [mem_roots hp0, IsRoot.def, eval_cubic]
    have hred := fun x => cubic_reduced (d := d) (c := c) (b := b) ha x
    simp only at hred
    simp only [realRoots4, checkRoots_real _ a ha, lit_real, powi_three]
    push_cast
    set S := -b / (3 * a) with hS
    set P := (3 * a * c - b * b) / (3 * a * a) with hP
    set Q := (2 * b * b * b - 9 * a * b * c + 27 * a * a * d) / (27 * a * a * a) with hQ
    refine ⟨_, rfl, (sortAscending_spec _).1, ?_, ?_⟩
    · intro hnil
      have hl := (sortAscending_spec _).2.length_eq.symm.trans (congrArg List.length hnil)
      split at hl
      · simp [pushRoot] at hl
      · split at hl
        · simp [pushRoot, List.range_succ] at hl
        · simp [pushRoot] at hl
    by_cases hP0 : P = 0
    · have hbeq : (P == 0) = true := by simpa using hP0
      rw [if_pos hbeq]
      have hcube := cbrt_cube (-Q)
      set y := (Fns.cbrt (-Q) : ℝ) with hy
      have hlist : sortAscending (pushRoot 3 [] (y + S)) = [y + S] := by
        simp [pushRoot, sortAscending, insertBack]
      rw [hlist]
      refine ⟨fun x => ?_, fun htriple => ?_⟩
      · rw [List.mem_singleton, hred x, hP0]
        constructor
        · rintro rfl
          have : (y + S - S) = y := by ring
          rw [this, hcube]; ring
        · intro h
          have h2 : (x - S) ^ 3 + 0 * (x - S) + Q = 0 := (mul_eq_zero.mp h).resolve_left ha
          have : x - S = y := cube_injective (by rw [hcube]; linarith)
          linarith
      · have hy0 : y ≠ 0 := by
          intro h0
          have hQ0 : Q = 0 := by rw [h0] at hcube; norm_num at hcube; linarith
          refine htriple ⟨S, ?_⟩
          apply Polynomial.funext
          intro x
          rw [eval_cubic, hred x, hP0, hQ0]
          simp
        rw [cubic_factor_one hred (y0 := y) (by rw [hP0, hcube]; ring) ha
          (by rw [hP0]; have := sq_pos_of_ne_zero hy0; linarith)]
        rfl
    · have hbeq : ¬ ((P == 0) = true) := by simpa using hP0
      rw [if_neg hbeq]
      by_cases hD : 4 * P ^ 3 + 27 * Q * Q ≤ 0
      · rw [if_pos hD]
        have hPneg : P < 0 := by
          by_contra hcon
          have hpos : 0 < P := lt_of_le_of_ne (not_lt.mp hcon) (Ne.symm hP0)
          have : 0 < P ^ 3 := by positivity
          nlinarith [mul_self_nonneg Q]
        obtain ⟨⟨hk1, hk2⟩, htrig⟩ := trig_roots hPneg hD
        have hsq : ∀ x : ℝ, (Fns.sqrt x : ℝ) = Real.sqrt x := fun _ => rfl
        have hcosf : ∀ x : ℝ, (Fns.cos x : ℝ) = Real.cos x := fun _ => rfl
        have hpi : (Fns.pi : ℝ) = Real.pi := rfl
        simp only [hsq, hcosf, hpi]
        set k := 3 * Q / (2 * P) * Real.sqrt (-3 / P) with hk
        rw [max_eq_left hk1, min_eq_left hk2]
        have hth := htrig (acos k) (cos_acos hk1 hk2)
        simp only at hth
        set y := fun j : ℝ => 2 * Real.sqrt (-P / 3) * Real.cos (acos k / 3 - 2 * Real.pi * j / 3)
          with hy
        have hfac := cubic_factor_three hred hth.1 hth.2.1 hth.2.2
        have hlist : (List.range 3).foldl (fun roots (step : ℕ) =>
            pushRoot 3 roots (2 * Real.sqrt (-P / 3) *
              Real.cos (acos k / 3 - 2 * Real.pi * (step : ℝ) / 3) + S)) [] =
            [y 0 + S, y 1 + S, y 2 + S] := by
          simp [List.range_succ, pushRoot, hy]
        rw [hlist]
        have hroots : ((sortAscending [y 0 + S, y 1 + S, y 2 + S] : List ℝ) : Multiset ℝ) =
            (ofCoeffs [d, c, b, a]).roots := by
          rw [sortAscending_coe, hfac, roots_C_mul_triple ha]; rfl
        refine ⟨fun x => ?_, fun _ => hroots⟩
        rw [← hmem x, ← hroots, Multiset.mem_coe]
      · rw [if_neg hD]
        push Not at hD
        have hsp : 0 < Q * Q / 4 + P ^ 3 / 27 := by linarith
        set s := (Fns.sqrt (Q * Q / 4 + P ^ 3 / 27) : ℝ) with hs
        have hss : s * s = Q * Q / 4 + P ^ 3 / 27 := Real.mul_self_sqrt hsp.le
        have hspos : 0 < s := Real.sqrt_pos.mpr hsp
        set u := (Fns.cbrt (-Q * (1 / 2) + s) : ℝ) with hu
        set v := (Fns.cbrt (-Q * (1 / 2) - s) : ℝ) with hv
        have hu3 : u ^ 3 = -Q * (1 / 2) + s := cbrt_cube _
        have hv3 : v ^ 3 = -Q * (1 / 2) - s := cbrt_cube _
        have huv : u * v = -P / 3 := by
          apply cube_injective
          rw [mul_pow, hu3, hv3]
          linear_combination -hss
        have hne : u ≠ v := by
          intro h; rw [h, hv3] at hu3; linarith
        have hroot : (u + v) ^ 3 + P * (u + v) + Q = 0 := by
          have : (u + v) ^ 3 = u ^ 3 + v ^ 3 + 3 * (u * v) * (u + v) := by ring
          rw [this, hu3, hv3, huv]; ring
        have hone := cubic_factor_one hred hroot ha (by
          have h1 : 0 < (u - v) ^ 2 := sq_pos_of_ne_zero (sub_ne_zero.mpr hne)
          nlinarith)
        have hlist : sortAscending (pushRoot 3 [] (u + v + S)) = [u + v + S] := by
          simp [pushRoot, sortAscending, insertBack]
        rw [hlist]
        have hroots : (([u + v + S] : List ℝ) : Multiset ℝ) = (ofCoeffs [d, c, b, a]).roots := by
          rw [hone]; rfl
        refine ⟨fun x => ?_, fun _ => hroots⟩
        rw [← hmem x, ← hroots, Multiset.mem_coe]

example : ∃ roots, realRoots4 (-6 : ℝ) 11 (-6) 1 = .ok roots ∧ 1 ∈ roots ∧ 2 ∈ roots ∧ 3 ∈ roots :=
  let ⟨r, h1, _, _, h2, _⟩ := (cubic_roots (-6) 11 (-6) 1).2 one_ne_zero
  ⟨r, h1, (h2 1).mpr (by norm_num), (h2 2).mpr (by norm_num), (h2 3).mpr (by norm_num)⟩

/-- C69 (finding). The cubic finder lists a triple root once, although a repeated root is listed as
often as it repeats everywhere else (the documentation promises "three, or one, or two with one of
them repeated"; `x³` has the root zero three times). -/
theorem cubic_triple_root_once :
    realRoots4 (0 : ℝ) 0 0 1 = .ok [0] ∧ (ofCoeffs [(0 : ℝ), 0, 0, 1]).roots = {0, 0, 0} := by
  constructor
  · have hc : (Fns.cbrt (-0) : ℝ) = 0 := by
      apply cube_injective
      rw [cbrt_cube]; norm_num
    simp [realRoots4, checkRoots, isFinite_real, pushRoot, sortAscending, insertBack, lit_real]
    simpa using hc
  · have : ofCoeffs [(0 : ℝ), 0, 0, 1] = C 1 * ((X - C 0) * ((X - C 0) * (X - C 0))) := by
      simp
    rw [this, roots_C_mul_triple one_ne_zero]

/-! ### The quartic -/

theorem roots_shift (f : ℝ[X]) (S : ℝ) : (f.comp (X - C S)).roots = f.roots.map (· + S) := by
  have h := roots_comp_C_mul_X_add_C f 1 (-S) isUnit_one
  have h2 : (C 1 * X + C (-S) : ℝ[X]) = X - C S := by simp; ring
  rw [h2] at h
  rw [h]
  apply Multiset.map_congr rfl
  intro x _
  simp

theorem powi_four (x : ℝ) : powi x 4 = x ^ 4 := by
  simp [powi, powiLoop]; ring

theorem eval_quartic (e d c b a x : ℝ) :
    (ofCoeffs [e, d, c, b, a]).eval x = a * x ^ 4 + b * x ^ 3 + c * x ^ 2 + d * x + e := by
  simp; ring

theorem quartic_reduced {e d c b a : ℝ} (ha : a ≠ 0) (x : ℝ) :
    let S := -b / (4 * a)
    let P := (8 * a * c - 3 * b * b) / (8 * a * a)
    let Q := (b * b * b - 4 * a * b * c + 8 * a * a * d) / (8 * a * a * a)
    let R := (-3 * b ^ 4 + 256 * a ^ 3 * e - 64 * a * a * b * d + 16 * a * b * b * c) /
      (256 * a ^ 4)
    a * x ^ 4 + b * x ^ 3 + c * x ^ 2 + d * x + e =
      a * ((x - S) ^ 4 + P * (x - S) ^ 2 + Q * (x - S) + R) := by
  intro S P Q R
  simp only [S, P, Q, R]
  field_simp
  ring

/-- The roots of `y² - s` moved by `S`. -/
theorem roots_square (s S : ℝ) : (((X - C S) ^ 2 - C s : ℝ[X])).roots =
    if 0 ≤ s then {Real.sqrt s + S, -Real.sqrt s + S} else 0 := by
  split
  · rename_i hs
    have : ((X - C S) ^ 2 - C s : ℝ[X]) =
        C 1 * ((X - C (Real.sqrt s + S)) * (X - C (-Real.sqrt s + S))) := by
      have h : C s = C (Real.sqrt s) * C (Real.sqrt s) := by
        rw [← C_mul, Real.mul_self_sqrt hs]
      rw [h]; simp only [C_add, C_neg, C_1]; ring
    rw [this, roots_C_mul_pair one_ne_zero]
  · rename_i hs
    apply roots_none
    intro x hx
    simp at hx
    nlinarith [sq_nonneg (x - S)]

/-- The helper cubic has a positive root. -/
theorem helper_positive_root {P Q R : ℝ} (hQ : Q ≠ 0) :
    ∃ m, 0 < m ∧ 8 * m ^ 3 + 8 * P * m ^ 2 + (2 * P * P - 8 * R) * m + -Q * Q = 0 := by
  set K := 2 * P * P - 8 * R with hK
  set f : ℝ → ℝ := fun m => 8 * m ^ 3 + 8 * P * m ^ 2 + K * m + -Q * Q with hf
  have hcont : Continuous f := by
    simp only [hf]; fun_prop
  have h0 : f 0 < 0 := by
    have : 0 < Q * Q := mul_self_pos.mpr hQ
    simp only [hf]; nlinarith
  set M := 1 + |P| + |K| + Q * Q with hM
  have hM1 : 1 ≤ M := by nlinarith [abs_nonneg P, abs_nonneg K, mul_self_nonneg Q]
  have hMpos : 0 ≤ f M := by
    have h1 : -|P| ≤ P := neg_abs_le P
    have h2 : -|K| ≤ K := neg_abs_le K
    have h3 : 8 * M ^ 3 + 8 * P * M ^ 2 ≥ 8 * M ^ 2 * (1 + |K| + Q * Q) := by
      have : M + P ≥ 1 + |K| + Q * Q := by rw [hM]; linarith
      nlinarith [sq_nonneg M]
    have h4 : M ^ 2 ≥ M := by nlinarith
    have h5 : |K| * M ≤ |K| * M ^ 2 := mul_le_mul_of_nonneg_left h4 (abs_nonneg K)
    have h6 : K * M ≥ -|K| * M := by nlinarith
    have h7 : Q * Q ≤ Q * Q * M ^ 2 := by nlinarith [mul_self_nonneg Q]
    simp only [hf]
    nlinarith [mul_self_nonneg Q, sq_nonneg M, abs_nonneg K,
      mul_nonneg (abs_nonneg K) (sq_nonneg M), mul_nonneg (mul_self_nonneg Q) (sq_nonneg M)]
  obtain ⟨m, hm, hfm⟩ := intermediate_value_Icc (by linarith : (0 : ℝ) ≤ M) hcont.continuousOn
    ⟨h0.le, hMpos⟩
  refine ⟨m, lt_of_le_of_ne hm.1 ?_, hfm⟩
  rintro rfl
  rw [hfm] at h0
  exact lt_irrefl _ h0

/-- The list returned by the quadratic finder has at most two entries. -/
theorem quadratic_length {c b a : ℝ} (ha : a ≠ 0) {l : List ℝ} (h : realRoots3 c b a = .ok l) :
    l.length ≤ 2 := by
  rcases quadratic_cases c b a ha with ⟨-, h1⟩ | ⟨r, s, -, h1, -⟩
  · rw [h1] at h; cases h; simp
  · rw [h1] at h; cases h; simp

theorem foldl_pushRoot (S : ℝ) (l acc : List ℝ) (h : acc.length + l.length ≤ 4) :
    l.foldl (fun roots root => pushRoot 4 roots (root + S)) acc = acc ++ l.map (· + S) := by
  induction l generalizing acc with
  | nil => simp
  | cons a l ih =>
    simp only [List.length_cons] at h
    have : pushRoot 4 acc (a + S) = acc ++ [a + S] := by simp [pushRoot]; omega
    simp only [List.foldl_cons, this, List.map_cons]
    rw [ih _ (by simp; omega)]
    simp

/-- C69. The quartic finder refuses a zero leading coefficient, and otherwise returns exactly the
real roots with their multiplicities, in ascending order. -/
theorem quartic_roots (e d c b a : ℝ) :
    (a = 0 → realRoots5 e d c b a = .error .leadingCoefficientZero) ∧
    (a ≠ 0 → ∃ roots, realRoots5 e d c b a = .ok roots ∧ roots.Pairwise (· ≤ ·) ∧
      (roots : Multiset ℝ) = (ofCoeffs [e, d, c, b, a]).roots) := by
  refine ⟨fun h => ?_, fun ha => ?_⟩
  · subst h; simp [realRoots5, checkRoots, isFinite_real]
  · have hred := fun x => quartic_reduced (e := e) (d := d) (c := c) (b := b) ha x
    simp only at hred
    simp only [realRoots5, checkRoots_real _ a ha, lit_real, powi_three, powi_four]
    push_cast
    set S := -b / (4 * a) with hS
    set P := (8 * a * c - 3 * b * b) / (8 * a * a) with hP
    set Q := (b * b * b - 4 * a * b * c + 8 * a * a * d) / (8 * a * a * a) with hQ
    set R := (-3 * b ^ 4 + 256 * a ^ 3 * e - 64 * a * a * b * d + 16 * a * b * b * c) /
      (256 * a ^ 4) with hR
    by_cases hQ0 : Q = 0
    · have hbeq : (Q == 0) = true := by simpa using hQ0
      rw [if_pos hbeq]
      rcases quadratic_cases R P 1 one_ne_zero with ⟨hd, h⟩ | ⟨r, s, -, h, hPs, hRs⟩
      · rw [h]
        refine ⟨_, rfl, (sortAscending_spec _).1, ?_⟩
        rw [roots_none]
        · simp [sortAscending]
        · intro x hx
          rw [eval_quartic, hred x, hQ0] at hx
          have h2 := (mul_eq_zero.mp hx).resolve_left ha
          nlinarith [sq_nonneg (2 * (x - S) ^ 2 + P)]
      · rw [h]
        refine ⟨_, rfl, (sortAscending_spec _).1, ?_⟩
        rw [sortAscending_coe]
        have hf : ofCoeffs [e, d, c, b, a] =
            C a * (((X - C S) ^ 2 - C r) * ((X - C S) ^ 2 - C s)) := by
          apply Polynomial.funext
          intro x
          rw [eval_quartic, hred x, hQ0, hPs, hRs]
          simp only [eval_mul, eval_sub, eval_X, eval_C, eval_pow]
          ring
        have hne : ∀ t : ℝ, ((X - C S) ^ 2 - C t : ℝ[X]) ≠ 0 := by
          intro t h0
          have h1 := congrArg (fun q => q.eval (S + (|t| + 1))) h0
          simp at h1
          nlinarith [abs_nonneg t, le_abs_self t]
        rw [hf, roots_C_mul _ ha, roots_mul (mul_ne_zero (hne r) (hne s)), roots_square,
          roots_square]
        have hsq : ∀ x : ℝ, (Fns.sqrt x : ℝ) = Real.sqrt x := fun _ => rfl
        simp only [List.foldl_cons, List.foldl_nil, hsq]
        by_cases hr : 0 ≤ r
        · by_cases hs : 0 ≤ s
          · simp only [hr, hs, if_true, pushRoot]; rfl
          · simp only [hr, hs, if_true, if_false, pushRoot]; rfl
        · by_cases hs : 0 ≤ s
          · simp only [hr, hs, if_true, if_false, pushRoot]; rfl
          · simp only [hr, hs, if_false]; rfl
    · have hbeq : ¬ ((Q == 0) = true) := by simpa using hQ0
      rw [if_neg hbeq]
      obtain ⟨helper, hh1, hh2, hh3, hh4, -⟩ :=
        (cubic_roots (-Q * Q) (2 * P * P - 8 * R) (8 * P) 8).2 (by norm_num)
      rw [hh1]
      simp only
      set m := helper.getLastD 0 with hm
      have hmlast : m = helper.getLast hh3 := by
        rw [hm, List.getLastD_eq_getLast?, List.getLast?_eq_some_getLast hh3]; rfl
      have hmmem : m ∈ helper := by rw [hmlast]; exact List.getLast_mem hh3
      have hmroot := (hh4 m).mp hmmem
      have hmpos : 0 < m := by
        obtain ⟨z, hz, hz2⟩ := helper_positive_root (P := P) (R := R) hQ0
        have hzmem : z ∈ helper := (hh4 z).mpr hz2
        have : z ≤ m := by
          rw [hmlast]
          exact hh2.rel_getLast_of_rel_getLast_getLast hzmem le_rfl
        linarith
      have hsq : (Fns.sqrt (2 * m) : ℝ) = Real.sqrt (2 * m) := rfl
      rw [hsq]
      set w := Real.sqrt (2 * m) with hw
      have hww : w * w = 2 * m := Real.mul_self_sqrt (by linarith)
      have hwpos : 0 < w := Real.sqrt_pos.mpr (by linarith)
      set u := P * (1 / 2) + m with hu
      set v := Q / (2 * w) with hv
      have hv1 : 2 * w * v = Q := by rw [hv]; field_simp
      obtain ⟨l1, h11, -, h13⟩ := (quadratic_roots (u + v) (-w) 1).2 one_ne_zero
      obtain ⟨l2, h21, -, h23⟩ := (quadratic_roots (u - v) w 1).2 one_ne_zero
      have hl1 := quadratic_length one_ne_zero h11
      have hl2 := quadratic_length one_ne_zero h21
      simp only [h11, h21]
      refine ⟨_, rfl, (sortAscending_spec _).1, ?_⟩
      rw [sortAscending_coe, foldl_pushRoot S l1 [] (by simp; omega),
        foldl_pushRoot S l2 _ (by simp; omega)]
      have hR' : u * u - v * v = R := by
        have h8 : 8 * m * (v * v) = Q * Q := by
          have : 4 * (w * w) * (v * v) = Q * Q := by rw [← hv1]; ring
          rw [hww] at this; linarith
        have h9 : 8 * m * (u * u - v * v - R) = 0 := by
          rw [hu]
          linear_combination hmroot - h8
        have h10 : u * u - v * v - R = 0 := (mul_eq_zero.mp h9).resolve_left (by positivity)
        linarith
      have hf : ofCoeffs [e, d, c, b, a] = C a * ((ofCoeffs [u + v, -w, 1]).comp (X - C S) *
          (ofCoeffs [u - v, w, 1]).comp (X - C S)) := by
        apply Polynomial.funext
        intro x
        rw [eval_quartic, hred x]
        simp only [eval_mul, eval_sub, eval_X, eval_C, eval_comp, eval_quadratic]
        rw [← hR', ← hv1]
        have hPu : P = 2 * u - w * w := by rw [hww, hu]; ring
        rw [hPu]
        ring
      have hne : ∀ p q : ℝ, (ofCoeffs [p, q, 1]).comp (X - C S) ≠ 0 := by
        intro p q h0
        have h1 := congrArg (fun q => q.comp (X + C S)) h0
        simp only [comp_assoc, sub_comp, X_comp, C_comp, add_sub_cancel_right, comp_X, zero_comp]
          at h1
        have h2 := congrArg (fun q => q.coeff 2) h1
        simp only [coeff_ofCoeffs] at h2
        simp at h2
      rw [hf, roots_C_mul _ ha, roots_mul (mul_ne_zero (hne _ _) (hne _ _)), roots_shift,
        roots_shift, ← h13, ← h23]
      simp

example : ∃ roots, realRoots5 (0 : ℝ) (-8) 14 (-7) 1 = .ok roots ∧
    (roots : Multiset ℝ) = (ofCoeffs [0, -8, 14, -7, 1]).roots :=
  let ⟨r, h1, _, h2⟩ := (quartic_roots 0 (-8) 14 (-7) 1).2 one_ne_zero
  ⟨r, h1, h2⟩

end Poly
end Multicalc
