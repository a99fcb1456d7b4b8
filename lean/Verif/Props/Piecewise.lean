import Verif.Model.Piecewise
import Verif.Props.Polynomial
import Mathlib.Analysis.Calculus.Deriv.Polynomial
import Mathlib.Analysis.Calculus.IteratedDeriv.Lemmas
import Mathlib.Tactic

/-!
# Curves made of polynomial pieces: evaluation, derivatives, integrals

A curve is a list of pieces, each with its own polynomial per axis and the span of the parameter it
covers; `startOf` and the decomposition `before ++ piece :: after` say where each piece lies.
-/

namespace Multicalc
namespace Poly

open Polynomial MeasureTheory

variable {d : ℕ}

/-- Where the piece after `before` begins: the sum of the spans before it. -/
def startOf (before : List (Piece d ℝ)) : ℝ := (before.map Piece.span).sum

/-- The value of a curve on one axis, as a function of the parameter. -/
noncomputable def curveValue (curve : List (Piece d ℝ)) (axis : Fin d) (t : ℝ) : ℝ :=
  match evaluateCurve curve t with
  | .ok v => v axis
  | .error _ => 0

theorem real_isFinite (x : ℝ) : Fns.isFinite x = true := rfl

theorem totalSpan_eq (curve : List (Piece d ℝ)) : totalSpan curve = startOf curve := by
  have : ∀ (l : List (Piece d ℝ)) (a : ℝ),
      l.foldl (fun total piece => total + piece.span) a = a + startOf l := by
    intro l
    induction l with
    | nil => intro a; simp [startOf]
    | cons p l ih => intro a; simp only [List.foldl_cons, ih]; simp [startOf, add_assoc]
  rw [totalSpan, this, zero_add]

theorem startOf_nonneg {l : List (Piece d ℝ)} (h : ∀ p ∈ l, 0 < p.span) : 0 ≤ startOf l := by
  apply List.sum_nonneg
  intro x hx
  obtain ⟨p, hp, rfl⟩ := List.mem_map.1 hx
  exact (h p hp).le

theorem startOf_append (a b : List (Piece d ℝ)) : startOf (a ++ b) = startOf a + startOf b := by
  simp [startOf]

theorem startOf_cons (p : Piece d ℝ) (b : List (Piece d ℝ)) :
    startOf (p :: b) = p.span + startOf b := by
  simp [startOf]

theorem locateLoop_inside (t : ℝ) (piece : Piece d ℝ) (after : List (Piece d ℝ)) :
    ∀ (before : List (Piece d ℝ)) (c : ℝ) (last : Piece d ℝ), (∀ p ∈ before, 0 < p.span) →
      c + startOf before ≤ t → t < c + startOf before + piece.span →
      locateLoop t c last (before ++ piece :: after) =
        (piece, (t - (c + startOf before)) / piece.span) := by
  intro before
  induction before with
  | nil =>
    intro c last _ h1 h2
    simp only [startOf, List.map_nil, List.sum_nil, add_zero] at h1 h2 ⊢
    simp [locateLoop, h2]
  | cons p l ih =>
    intro c last hp h1 h2
    have hl := startOf_nonneg (l := l) (fun q hq => hp q (by simp [hq]))
    rw [startOf_cons] at h1 h2 ⊢
    rw [List.cons_append, locateLoop, if_neg (by linarith), ih _ _ (fun q hq => hp q (by simp [hq]))
      (by linarith) (by linarith), add_assoc]

theorem locateLoop_after (t : ℝ) (last : Piece d ℝ) :
    ∀ (before : List (Piece d ℝ)) (c : ℝ) (prev : Piece d ℝ),
      (∀ p ∈ before ++ [last], 0 < p.span) →
      c + startOf (before ++ [last]) ≤ t → locateLoop t c prev (before ++ [last]) = (last, 1) := by
  intro before
  induction before with
  | nil =>
    intro c prev hp h
    simp only [startOf, List.nil_append, List.map_cons, List.map_nil, List.sum_cons, List.sum_nil,
      add_zero] at h
    simp [locateLoop, not_lt.2 h]
  | cons p l ih =>
    intro c prev hp h
    have hl := startOf_nonneg (l := l ++ [last]) (fun q hq => hp q (by simp at hq ⊢; tauto))
    rw [List.cons_append, startOf_cons] at h
    rw [List.cons_append, locateLoop, if_neg (by linarith)]
    exact ih _ _ (fun q hq => hp q (by simp at hq ⊢; tauto)) (by linarith)

theorem locate_inside {before after : List (Piece d ℝ)} {piece : Piece d ℝ} {t : ℝ}
    (hpos : ∀ p ∈ before ++ piece :: after, 0 < p.span)
    (h1 : startOf before ≤ t) (h2 : t < startOf before + piece.span) :
    locate (before ++ piece :: after) t = some (piece, (t - startOf before) / piece.span) := by
  have hb := startOf_nonneg (l := before) (fun q hq => hpos q (by simp [hq]))
  by_cases ht : t ≤ 0
  · have h0 : startOf before = 0 := by linarith
    have ht0 : t = 0 := by linarith
    cases before with
    | nil => simp [locate, ht, ht0, startOf]
    | cons p l =>
      have := startOf_nonneg (l := l) (fun q hq => hpos q (by simp [hq]))
      have hp := hpos p (by simp)
      rw [startOf_cons] at h0
      linarith
  · have := locateLoop_inside t piece after before 0
    simp only [zero_add] at this
    cases before with
    | nil =>
      simp only [List.nil_append] at this ⊢
      rw [locate, if_neg ht, this _ (by simp) h1 h2]
    | cons p l =>
      simp only [List.cons_append] at this ⊢
      rw [locate, if_neg ht, this _ (fun q hq => hpos q (by simp at hq ⊢; tauto)) h1 h2]

/-- C72. Evaluation at `t` uses the piece whose interval `[start, start + span)` contains `t`, at the
fraction of the way along it; before the first piece it holds the curve's starting value, and after
the last one its end value. -/
theorem piecewise_evaluate (curve : List (Piece d ℝ)) (hpos : ∀ p ∈ curve, 0 < p.span) (t : ℝ) :
    (∀ before piece after, curve = before ++ piece :: after → startOf before ≤ t →
      t < startOf before + piece.span →
      evaluateCurve curve t =
        .ok fun axis => (ofCoeffs (piece.polys axis)).eval ((t - startOf before) / piece.span)) ∧
    (∀ first rest, curve = first :: rest → t ≤ 0 →
      evaluateCurve curve t = .ok fun axis => (ofCoeffs (first.polys axis)).eval 0) ∧
    (∀ before last, curve = before ++ [last] → startOf curve ≤ t →
      evaluateCurve curve t = .ok fun axis => (ofCoeffs (last.polys axis)).eval 1) ∧
    (curve = [] → evaluateCurve curve t = .error .empty) := by
  refine ⟨?_, ?_, ?_, ?_⟩
  · rintro before piece after rfl h1 h2
    simp only [evaluateCurve, locate_inside hpos h1 h2, evaluate_eq_eval]
  · rintro first rest rfl ht
    simp only [evaluateCurve, locate, if_pos ht, evaluate_eq_eval]
  · rintro before last rfl ht
    have hloc : locate (before ++ [last]) t = some (last, 1) := by
      have hlast := hpos last (by simp)
      have hb := startOf_nonneg (l := before) (fun q hq => hpos q (by simp [hq]))
      have hpos' : ¬ t ≤ 0 := by
        rw [startOf_append, startOf_cons] at ht
        simp only [startOf, List.map_nil, List.sum_nil, add_zero] at ht hb
        linarith
      have := locateLoop_after t last before 0
      simp only [zero_add] at this
      cases before with
      | nil =>
        simp only [List.nil_append] at this ⊢
        rw [locate, if_neg hpos', this _ hpos ht]
      | cons p l =>
        simp only [List.cons_append] at this ⊢
        rw [locate, if_neg hpos', this _ hpos ht]
    simp only [evaluateCurve, hloc, evaluate_eq_eval]
  · rintro rfl
    rfl

example : ∀ p ∈ ([⟨fun _ => [0, 1], 2⟩, ⟨fun _ => [1, 3], 4⟩] : List (Piece 1 ℝ)), 0 < p.span := by
  simp

/-- C72. A curve is accepted exactly when it has pieces, one span each, no more than the capacity,
and every span is positive; then the pieces come out in order with their spans. -/
theorem piecewise_accepted (maxPieces : ℕ) (pieces : List (Fin d → List ℝ)) (spans : List ℝ) :
    (∀ curve, tryFromPieces maxPieces pieces spans = .ok curve ↔
      pieces ≠ [] ∧ pieces.length ≤ maxPieces ∧ (∀ s ∈ spans, 0 < s) ∧
        curve.map Piece.polys = pieces ∧ curve.map Piece.span = spans) := by
  intro curve
  have hzip : ∀ (a : List (Fin d → List ℝ)) (b : List ℝ), a.length = b.length →
      ∀ c : List (Piece d ℝ), (List.zipWith Piece.mk a b = c ↔
        c.map Piece.polys = a ∧ c.map Piece.span = b) := by
    intro a
    induction a with
    | nil =>
      intro b hb c
      cases b with
      | nil => cases c <;> simp
      | cons => simp at hb
    | cons x a ih =>
      intro b hb c
      cases b with
      | nil => simp at hb
      | cons y b =>
        cases c with
        | nil => simp
        | cons z c =>
          simp only [List.length_cons, add_left_inj] at hb
          simp only [List.zipWith_cons_cons, List.cons.injEq, ih b hb c, List.map_cons]
          cases z
          simp only [Piece.mk.injEq]
          tauto
  rw [tryFromPieces]
  split_ifs with h1 h2 h3
  · simp only [Bool.or_eq_true, List.isEmpty_iff] at h1
    constructor
    · intro h; cases h
    · rintro ⟨hp, -, -, hm, hs⟩
      rcases h1 with h1 | h1
      · exact absurd h1 hp
      · subst h1
        have : curve = [] := by simpa using hs
        subst this
        exact absurd hm.symm hp
  · constructor
    · intro h; cases h
    · rintro ⟨-, hle, -, hm, hs⟩
      have e1 := congrArg List.length hm
      have e2 := congrArg List.length hs
      simp only [List.length_map] at e1 e2
      omega
  · constructor
    · intro h; cases h
    · rintro ⟨-, -, hp, -, -⟩
      simp only [real_isFinite, Bool.not_true, Bool.false_or, List.any_eq_true,
        decide_eq_true_eq] at h3
      obtain ⟨s, hs, hle⟩ := h3
      exact absurd (hp s hs) (not_lt.2 hle)
  · simp only [real_isFinite, Bool.not_true, Bool.false_or, List.any_eq_true,
        decide_eq_true_eq, not_exists, not_and, not_le] at h3
    simp only [Bool.or_eq_true, List.isEmpty_iff, not_or] at h1
    have hlen : pieces.length = spans.length := by omega
    have hle : pieces.length ≤ maxPieces := by omega
    constructor
    · intro h
      injection h with h
      exact ⟨h1.1, hle, h3, (hzip _ _ hlen _).1 h⟩
    · rintro ⟨-, -, -, hm⟩
      rw [(hzip _ _ hlen _).2 hm]

example : tryFromPieces 2 [fun _ : Fin 1 => [0, 1]] [(2 : ℝ)] = .ok [⟨fun _ => [0, 1], 2⟩] := by
  rw [piecewise_accepted]
  simp

/-- Derivatives of a polynomial of a shifted and stretched parameter. -/
theorem iteratedDeriv_piece (p : ℝ[X]) (c s : ℝ) (k : ℕ) :
    iteratedDeriv k (fun u => p.eval ((u - c) / s)) =
      fun u => (Polynomial.derivative^[k] p).eval ((u - c) / s) * (1 / s ^ k) := by
  induction k with
  | zero => simp
  | succ k ih =>
    rw [iteratedDeriv_succ, ih]
    funext u
    have h1 : HasDerivAt (fun u : ℝ => (u - c) / s) (1 / s) u :=
      ((hasDerivAt_id u).sub_const c).div_const s
    have h2 := ((Polynomial.derivative^[k] p).hasDerivAt ((u - c) / s)).comp u h1
    have h3 : HasDerivAt (fun u => (Polynomial.derivative^[k] p).eval ((u - c) / s) * (1 / s ^ k))
        ((Polynomial.derivative (Polynomial.derivative^[k] p)).eval ((u - c) / s) * (1 / s) *
          (1 / s ^ k)) u := h2.mul_const _
    rw [h3.deriv, Function.iterate_succ_apply', pow_succ]
    rw [mul_assoc, one_div_mul_one_div, mul_comm s]

theorem spanRaised_eq (s : ℝ) (k : ℕ) : spanRaised s k = s ^ k := by
  induction k with
  | zero => simp [spanRaised]
  | succ k ih => rw [spanRaised, ih, pow_succ]

theorem curveValue_inside {before after : List (Piece d ℝ)} {piece : Piece d ℝ} {t : ℝ}
    (hpos : ∀ p ∈ before ++ piece :: after, 0 < p.span)
    (h1 : startOf before ≤ t) (h2 : t < startOf before + piece.span) (axis : Fin d) :
    curveValue (before ++ piece :: after) axis t =
      (ofCoeffs (piece.polys axis)).eval ((t - startOf before) / piece.span) := by
  rw [curveValue, (piecewise_evaluate _ hpos t).1 before piece after rfl h1 h2]

theorem iteratedDeriv_curve {before after : List (Piece d ℝ)} {piece : Piece d ℝ} {t : ℝ}
    (hpos : ∀ p ∈ before ++ piece :: after, 0 < p.span)
    (h1 : startOf before < t) (h2 : t < startOf before + piece.span) (axis : Fin d) (k : ℕ) :
    iteratedDeriv k (curveValue (before ++ piece :: after) axis) t =
      (Polynomial.derivative^[k] (ofCoeffs (piece.polys axis))).eval
        ((t - startOf before) / piece.span) * (1 / piece.span ^ k) := by
  have heq : curveValue (before ++ piece :: after) axis =ᶠ[nhds t]
      fun u => (ofCoeffs (piece.polys axis)).eval ((u - startOf before) / piece.span) := by
    filter_upwards [Ioo_mem_nhds h1 h2] with u hu
    exact curveValue_inside hpos hu.1.le hu.2 axis
  rw [heq.iteratedDeriv_eq, iteratedDeriv_piece]

/-- C72. Strictly inside a piece, `evaluate_with_derivatives` gives the value of the curve and its
derivatives of every requested order with respect to the curve's own parameter, whatever the span
of the piece. -/
theorem piecewise_derivatives (before after : List (Piece d ℝ)) (piece : Piece d ℝ) (t : ℝ)
    (hpos : ∀ p ∈ before ++ piece :: after, 0 < p.span)
    (h1 : startOf before < t) (h2 : t < startOf before + piece.span) (orderCount : ℕ) :
    ∃ table, evaluateCurveWithDerivatives orderCount (before ++ piece :: after) t = .ok table ∧
      ∀ order axis, table order axis =
        iteratedDeriv order (curveValue (before ++ piece :: after) axis) t := by
  refine ⟨_, by simp only [evaluateCurveWithDerivatives, locate_inside hpos h1.le h2]; rfl, ?_⟩
  intro order axis
  rw [iteratedDeriv_curve hpos h1 h2, spanRaised_eq,
    (polynomial_all_derivatives _ _ _).2 order order.2]

example : ∃ t : ℝ, startOf ([⟨fun _ => [0, 1], 2⟩] : List (Piece 1 ℝ)) < t ∧
    t < startOf ([⟨fun _ => [0, 1], 2⟩] : List (Piece 1 ℝ)) + 4 := ⟨3, by
  norm_num [startOf]⟩

/-- C72. The curve returned by `nth_derivative` is, strictly inside every piece, the derivative of
that order of the original curve with respect to the original parameter, and covers the same
spans. -/
theorem piecewise_nth_derivative (before after : List (Piece d ℝ)) (piece : Piece d ℝ) (t : ℝ)
    (hpos : ∀ p ∈ before ++ piece :: after, 0 < p.span)
    (coefficients : ℕ) (hlen : ∀ axis, (piece.polys axis).length = coefficients)
    (h1 : startOf before < t) (h2 : t < startOf before + piece.span) (order : ℕ) (axis : Fin d) :
    curveValue (nthDerivativeCurve coefficients (before ++ piece :: after) order) axis t =
      iteratedDeriv order (curveValue (before ++ piece :: after) axis) t ∧
    (nthDerivativeCurve coefficients (before ++ piece :: after) order).map Piece.span =
      (before ++ piece :: after).map Piece.span := by
  have hspan : ∀ l : List (Piece d ℝ),
      (nthDerivativeCurve coefficients l order).map Piece.span = l.map Piece.span := by
    intro l; simp [nthDerivativeCurve, Function.comp_def]
  have hstart : startOf (nthDerivativeCurve coefficients before order) = startOf before := by
    rw [startOf, hspan, startOf]
  refine ⟨?_, hspan _⟩
  rw [iteratedDeriv_curve hpos h1 h2]
  have happ : nthDerivativeCurve coefficients (before ++ piece :: after) order =
      nthDerivativeCurve coefficients before order ++
        (⟨fun axis => scale (nthDerivative order (piece.polys axis))
            (1 / spanRaised piece.span (min order coefficients)), piece.span⟩ : Piece d ℝ) ::
        nthDerivativeCurve coefficients after order := by
    simp [nthDerivativeCurve]
  rw [happ, curveValue_inside ?_ (by rw [hstart]; exact h1.le) (by rw [hstart]; exact h2)]
  · simp only [hstart]
    rw [(polynomial_linear _ (nthDerivative order (piece.polys axis)) rfl _).2.2.2.1.1, (polynomial_derivative _ _).2.1, spanRaised_eq]
    rcases le_total order coefficients with h | h
    · rw [min_eq_left h]; simp [mul_comm]
    · rcases eq_or_lt_of_le h with h | h
      · rw [← h]; simp [mul_comm]
      · have hz : Polynomial.derivative^[order] (ofCoeffs (piece.polys axis)) = 0 := by
          by_contra hne
          have h5 : ¬ (ofCoeffs (piece.polys axis)).natDegree < order :=
            fun h6 => hne (Polynomial.iterate_derivative_eq_zero h6)
          have h6 := degree_ofCoeffs_lt (piece.polys axis)
          rw [hlen] at h6
          have h0 : ofCoeffs (piece.polys axis) ≠ 0 := by
            intro h0; rw [h0] at hne; simp at hne
          have h7 := (Polynomial.natDegree_lt_iff_degree_lt h0).2 h6
          omega
        rw [hz]; simp
  · intro p hp
    rw [← happ] at hp
    have : p.span ∈ (before ++ piece :: after).map Piece.span := by
      rw [← hspan]; exact List.mem_map_of_mem hp
    obtain ⟨q, hq, hqe⟩ := List.mem_map.1 this
    rw [← hqe]; exact hpos q hq

/-- The value of the walk on one axis, from a piece that begins at `c`. -/
noncomputable def walkValue (axis : Fin d) (c : ℝ) (last : Piece d ℝ) (l : List (Piece d ℝ))
    (t : ℝ) : ℝ :=
  (ofCoeffs ((locateLoop t c last l).1.polys axis)).eval (locateLoop t c last l).2

theorem walkValue_cons (axis : Fin d) (c : ℝ) (last p : Piece d ℝ) (l : List (Piece d ℝ)) (t : ℝ) :
    walkValue axis c last (p :: l) t =
      if t < c + p.span then (ofCoeffs (p.polys axis)).eval ((t - c) / p.span)
      else walkValue axis (c + p.span) p l t := by
  rw [walkValue, locateLoop]
  split_ifs <;> rfl

theorem walkValue_integrable (axis : Fin d) :
    ∀ (l : List (Piece d ℝ)) (c : ℝ) (last : Piece d ℝ) (a b : ℝ),
      IntervalIntegrable (walkValue axis c last l) volume a b := by
  intro l
  induction l with
  | nil =>
    intro c last a b
    have : walkValue axis c last [] = fun _ => (ofCoeffs (last.polys axis)).eval 1 := by
      funext t; simp [walkValue, locateLoop]
    rw [this]; exact intervalIntegrable_const
  | cons p l ih =>
    intro c last a b
    have heq : walkValue axis c last (p :: l) = (Set.Iio (c + p.span)).piecewise
        (fun t => (ofCoeffs (p.polys axis)).eval ((t - c) / p.span))
        (walkValue axis (c + p.span) p l) := by
      funext t
      rw [walkValue_cons, Set.piecewise]
      simp
    have hp : IntervalIntegrable (fun t => (ofCoeffs (p.polys axis)).eval ((t - c) / p.span))
        volume a b := by
      apply Continuous.intervalIntegrable
      fun_prop
    rw [intervalIntegrable_iff] at hp ⊢
    have hr := (ih (c + p.span) p a b)
    rw [intervalIntegrable_iff] at hr
    rw [heq]
    exact Integrable.piecewise measurableSet_Iio hp.integrableOn hr.integrableOn

theorem integralLoop_eq (axis : Fin d) (ws we : ℝ) (hw : ws ≤ we) :
    ∀ (l : List (Piece d ℝ)) (c area : ℝ) (last : Piece d ℝ), (∀ p ∈ l, 0 < p.span) →
      we ≤ c + startOf l →
      integralLoop ws we axis area c l =
        area + ∫ t in (max ws c)..(max we c), walkValue axis c last l t := by
  intro l
  induction l with
  | nil =>
    intro c area last _ hc
    simp only [startOf, List.map_nil, List.sum_nil, add_zero] at hc
    rw [integralLoop, max_eq_right (hw.trans hc), max_eq_right hc]; simp
  | cons p l ih =>
    intro c area last hp hc
    have hs : 0 < p.span := hp p (by simp)
    have hl : ∀ q ∈ l, 0 < q.span := fun q hq => hp q (by simp [hq])
    rw [startOf_cons] at hc
    rw [integralLoop]
    rw [ih (c + p.span) _ p hl (by linarith)]
    -- the part on this piece
    have hpart : ∀ x y, c ≤ x → x ≤ y → y ≤ c + p.span →
        ∫ t in x..y, walkValue axis c last (p :: l) t =
          definiteIntegral (p.polys axis) ((x - c) / p.span) ((y - c) / p.span) * p.span := by
      intro x y hx hxy hy
      rw [polynomial_integral]
      have h1 : ∫ t in x..y, walkValue axis c last (p :: l) t =
          ∫ t in x..y, (ofCoeffs (p.polys axis)).eval ((t - c) / p.span) := by
        apply intervalIntegral.integral_congr_ae
        have : ∀ᵐ t : ℝ, t ≠ c + p.span := by
          simp [ae_iff, measure_singleton]
        filter_upwards [this] with t ht hmem
        rw [Set.uIoc_of_le hxy] at hmem
        rw [walkValue_cons, if_pos (lt_of_le_of_ne (hmem.2.trans hy) ht)]
      rw [h1]
      have h2 := intervalIntegral.integral_comp_div
        (fun u => (ofCoeffs (p.polys axis)).eval (u - c / p.span)) hs.ne' (a := x) (b := y)
      have h3 := intervalIntegral.integral_comp_sub_right
        (fun u => (ofCoeffs (p.polys axis)).eval u) (c / p.span) (a := x / p.span)
        (b := y / p.span)
      simp only [sub_div]
      rw [h2, h3, smul_eq_mul, mul_comm]
    -- the rest
    have hrest : ∀ x y, c + p.span ≤ x → c + p.span ≤ y →
        ∫ t in x..y, walkValue axis c last (p :: l) t =
          ∫ t in x..y, walkValue axis (c + p.span) p l t := by
      intro x y hx hy
      apply intervalIntegral.integral_congr
      intro t ht
      have : c + p.span ≤ t := (le_min hx hy).trans ht.1
      simp only [walkValue_cons, if_neg (not_lt.2 this)]
    by_cases h1 : we ≤ c
    · have e1 : min we (c + p.span) ≤ max ws c := (min_le_left _ _).trans (h1.trans (le_max_right _ _))
      rw [if_pos e1, max_eq_right (hw.trans h1), max_eq_right h1,
        max_eq_right (by linarith : ws ≤ c + p.span), max_eq_right (by linarith : we ≤ c + p.span)]
      simp
    · push Not at h1
      rw [max_eq_left h1.le]
      by_cases h2 : we ≤ c + p.span
      · rw [min_eq_left h2, max_eq_right (hw.trans h2), max_eq_right h2]
        simp only [intervalIntegral.integral_same, add_zero]
        split_ifs with h3
        · have : max ws c = we := le_antisymm (max_le hw h1.le) h3
          rw [this]; simp
        · push Not at h3
          rw [hpart _ _ (le_max_right _ _) h3.le h2]
      · push Not at h2
        rw [min_eq_right h2.le, max_eq_left h2.le]
        by_cases h4 : c + p.span ≤ ws
        · rw [if_pos (h4.trans (le_max_left _ _)), max_eq_left h4, max_eq_left (by linarith : c ≤ ws),
            hrest _ _ h4 h2.le]
        · push Not at h4
          have h5 : max ws c < c + p.span := max_lt h4 (by linarith)
          rw [if_neg (not_le.2 h5), max_eq_right h4.le,
            ← hpart _ _ (le_max_right _ _) h5.le le_rfl, ← hrest _ _ le_rfl h2.le, add_assoc,
            intervalIntegral.integral_add_adjacent_intervals
              (walkValue_integrable axis _ _ _ _ _) (walkValue_integrable axis _ _ _ _ _)]

/-- The part of the parameter axis the curve covers. -/
def clampTo (total t : ℝ) : ℝ := min (max t 0) total

/-- C72. The definite integral of a curve between any two parameters, in either order, is the
integral of its evaluation between them, both held to the part of the axis the curve covers. -/
theorem piecewise_integral (curve : List (Piece d ℝ)) (hne : curve ≠ [])
    (hpos : ∀ p ∈ curve, 0 < p.span) (a b : ℝ) :
    ∃ area, integrateCurve curve a b = .ok area ∧ ∀ axis, area axis =
      ∫ t in (clampTo (startOf curve) a)..(clampTo (startOf curve) b), curveValue curve axis t := by
  obtain ⟨first, rest, rfl⟩ := List.exists_cons_of_ne_nil hne
  have htot := startOf_nonneg hpos
  have hmain : ∀ x y axis, x ≤ y →
      integralLoop (clampTo (startOf (first :: rest)) x) (clampTo (startOf (first :: rest)) y) axis
        0 0 (first :: rest) =
      ∫ t in (clampTo (startOf (first :: rest)) x)..(clampTo (startOf (first :: rest)) y),
        curveValue (first :: rest) axis t := by
    intro x y axis hxy
    have h0 : ∀ z, 0 ≤ clampTo (startOf (first :: rest)) z := fun z =>
      le_min (le_max_right _ _) htot
    have hle : clampTo (startOf (first :: rest)) x ≤ clampTo (startOf (first :: rest)) y :=
      min_le_min (max_le_max hxy le_rfl) le_rfl
    rw [integralLoop_eq axis _ _ hle (first :: rest) 0 0 first hpos
      (by rw [zero_add]; exact min_le_right _ _), max_eq_left (h0 _), max_eq_left (h0 _), zero_add]
    apply intervalIntegral.integral_congr_ae
    refine Filter.Eventually.of_forall fun t ht => ?_
    rw [Set.uIoc_of_le hle] at ht
    have htp : ¬ t ≤ 0 := not_le.2 (lt_of_le_of_lt (h0 _) ht.1)
    simp only [curveValue, evaluateCurve, locate, if_neg htp, evaluate_eq_eval]
    rfl
  have htotal := totalSpan_eq (first :: rest)
  refine ⟨_, rfl, ?_⟩
  intro axis
  simp only [htotal]
  by_cases h : b < a
  · simp only [h, if_true, decide_true]
    have := hmain b a axis h.le
    simp only [clampTo] at this ⊢
    rw [this, intervalIntegral.integral_symm]
    simp
  · simp only [h, if_false, decide_false, Bool.false_eq_true]
    have := hmain a b axis (not_lt.1 h)
    simp only [clampTo] at this ⊢
    rw [this]

example : ([⟨fun _ => [0, 1], 2⟩, ⟨fun _ => [1, 3], 4⟩] : List (Piece 1 ℝ)) ≠ [] := by simp

/-- C72. Definite integrals of a curve add over adjacent intervals and change sign when the limits
are swapped. -/
theorem piecewise_integral_additive (curve : List (Piece d ℝ)) (hne : curve ≠ [])
    (hpos : ∀ p ∈ curve, 0 < p.span) (a b c : ℝ) :
    ∃ ab bc ac ba, integrateCurve curve a b = .ok ab ∧ integrateCurve curve b c = .ok bc ∧
      integrateCurve curve a c = .ok ac ∧ integrateCurve curve b a = .ok ba ∧
      ac = ab + bc ∧ ba = -ab := by
  obtain ⟨ab, e1, h1⟩ := piecewise_integral curve hne hpos a b
  obtain ⟨bc, e2, h2⟩ := piecewise_integral curve hne hpos b c
  obtain ⟨ac, e3, h3⟩ := piecewise_integral curve hne hpos a c
  obtain ⟨ba, e4, h4⟩ := piecewise_integral curve hne hpos b a
  have hint : ∀ axis x y, IntervalIntegrable (curveValue curve axis) volume
      (clampTo (startOf curve) x) (clampTo (startOf curve) y) := by
    intro axis x y
    obtain ⟨first, rest, rfl⟩ := List.exists_cons_of_ne_nil hne
    refine IntervalIntegrable.congr_ae (walkValue_integrable axis (first :: rest) 0 first _ _) ?_
    rw [Filter.EventuallyEq, ae_restrict_iff' measurableSet_uIoc]
    refine Filter.Eventually.of_forall fun t ht => ?_
    have h0 : ∀ z, 0 ≤ clampTo (startOf (first :: rest)) z := fun z =>
      le_min (le_max_right _ _) (startOf_nonneg hpos)
    have htp : ¬ t ≤ 0 := not_le.2 (lt_of_le_of_lt (le_min (h0 _) (h0 _)) ht.1)
    simp only [curveValue, evaluateCurve, locate, if_neg htp, evaluate_eq_eval]
    rfl
  refine ⟨ab, bc, ac, ba, e1, e2, e3, e4, ?_, ?_⟩
  · funext axis
    rw [Pi.add_apply, h1, h2, h3,
      intervalIntegral.integral_add_adjacent_intervals (hint axis _ _) (hint axis _ _)]
  · funext axis
    rw [Pi.neg_apply, h1, h4, intervalIntegral.integral_symm]

end Poly
end Multicalc
