import Verif.Model.GaussianTables
import Verif.Lemmas.GaussianMoments
import Verif.Props.Integration
import Verif.Props.Lqr

/-!
# Gaussian quadrature with the tables of the library (C111)

The tables are data, so that their moments have to be computed; this is done once, with natural
numbers, by the kernel (`legendre_ok`, `hermite_ok`, `laguerre_ok`).  What follows from the moments is
proved for all polynomials, and for all functions that polynomials approximate.
-/

namespace Multicalc.GaussianTables

open MeasureTheory Set

/-! ### Computing moments -/

/-- The digits of a literal at a common number of places. -/
def scaled (places : ℕ) (d : Decimal) : ℕ := d.digits * 10 ^ (places - d.places)

/-- The terms of the `k`th moment that enter with a minus sign (`minus`), or the others. -/
def signedSum (k : ℕ) (minus : Bool) : List (Decimal × Decimal) → ℕ
  | [] => 0
  | (w, x) :: rest =>
    (if (x.negative && decide (k % 2 = 1)) = minus then scaled 60 w * scaled 20 x ^ k else 0) +
      signedSum k minus rest

/-- `a` and `b` are at most `c` apart. -/
def close (a b c : ℕ) : Bool := Nat.ble (a - b) c && Nat.ble (b - a) c

/-- The `k`th moment of `t` is at most `tn / td` from `num / den`. -/
def momentOk (t : List (Decimal × Decimal)) (k num den tn td : ℕ) : Bool :=
  close (signedSum k false t * den * td) (signedSum k true t * den * td + num * td * 10 ^ (60 + 20 * k))
    (tn * den * 10 ^ (60 + 20 * k))

/-- Positive weights, written with at most 60 places, and nodes with at most 20 that satisfy `inside`. -/
def shapeOk (inside : Decimal → Bool) (t : List (Decimal × Decimal)) : Bool :=
  t.all fun p => !p.1.negative && Nat.blt 0 p.1.digits && Nat.ble p.1.places 60 && Nat.ble p.2.places 20 && inside p.2

def legendreOk (n : ℕ) : Bool :=
  shapeOk (fun x => Nat.blt x.digits (10 ^ x.places)) (legendre.getD n []) && Nat.beq (legendre.getD n []).length n &&
  (List.range (2 * n)).all fun k =>
    momentOk (legendre.getD n []) k (if k % 2 = 0 then 2 else 0) (k + 1) 6 (10 ^ 15)

def hermiteOk (n : ℕ) : Bool :=
  shapeOk (fun _ => true) (hermite.getD n []) && Nat.beq (hermite.getD n []).length n &&
  (List.range (2 * n)).all fun k =>
    if k % 2 = 0 then
      momentOk (hermite.getD n []) k ((k - 1).doubleFactorial * 177245385090551602730) (10 ^ 20 * 2 ^ (k / 2))
        (12 * (k - 1).doubleFactorial) (10 ^ 15 * 2 ^ (k / 2))
    else momentOk (hermite.getD n []) k 0 1 0 1

def laguerreOk (n : ℕ) : Bool :=
  shapeOk (fun x => !x.negative && Nat.blt 0 x.digits) (laguerre.getD n []) && Nat.beq (laguerre.getD n []).length n &&
  (List.range (2 * n)).all fun k => momentOk (laguerre.getD n []) k k.factorial 1 (7 * k.factorial) (10 ^ 14)

set_option maxRecDepth 100000 in
theorem legendre_ok : (List.range 31).all legendreOk = true := by decide +kernel

set_option maxRecDepth 100000 in
theorem hermite_ok : (List.range 31).all hermiteOk = true := by decide +kernel

set_option maxRecDepth 100000 in
theorem laguerre_ok : (List.range 31).all laguerreOk = true := by decide +kernel

/-! ### From the computation to real numbers -/

/-- A table's weights and nodes as real numbers. -/
noncomputable def realTable (t : List (Decimal × Decimal)) : List (ℝ × ℝ) :=
  t.map fun p => ((p.1.value : ℝ), (p.2.value : ℝ))

theorem value_scaled {places : ℕ} {d : Decimal} (h : d.places ≤ places) :
    (d.value : ℝ) * 10 ^ places = (if d.negative then -1 else 1) * (scaled places d : ℝ) := by
  have : (10 : ℝ) ^ places = 10 ^ d.places * 10 ^ (places - d.places) := by
    rw [← pow_add, Nat.add_sub_cancel' h]
  rw [this, Decimal.value, scaled]
  push_cast
  have h10 : (10 : ℝ) ^ d.places ≠ 0 := by positivity
  split_ifs <;> field_simp <;> push_cast <;> ring

theorem signedSum_spec {inside : Decimal → Bool} {t : List (Decimal × Decimal)} (h : shapeOk inside t = true) (k : ℕ) :
    ((realTable t).map fun p => p.1 * p.2 ^ k).sum * 10 ^ (60 + 20 * k) =
      (signedSum k false t : ℝ) - signedSum k true t := by
  induction t with
  | nil => simp [realTable, signedSum]
  | cons p t ih =>
    obtain ⟨w, x⟩ := p
    simp only [shapeOk, List.all_cons, Bool.and_eq_true, Bool.not_eq_true', Nat.ble_eq] at h
    obtain ⟨⟨⟨⟨⟨hw, -⟩, hwp⟩, hxp⟩, -⟩, hrest⟩ := h
    have ih' := ih (by simpa only [shapeOk, List.all_eq_true, Bool.and_eq_true, Bool.not_eq_true', Nat.ble_eq] using hrest)
    have e1 := value_scaled hwp
    have e2 := value_scaled hxp
    rw [hw] at e1
    simp only [Bool.false_eq_true, if_false, one_mul] at e1
    simp only [realTable, List.map_cons, List.sum_cons, add_mul] at ih' ⊢
    rw [ih']
    have e3 : (w.value : ℝ) * (x.value : ℝ) ^ k * 10 ^ (60 + 20 * k) =
        (if (x.negative && decide (k % 2 = 1)) = true then -1 else 1) * ((scaled 60 w : ℝ) * (scaled 20 x : ℝ) ^ k) := by
      have : (10 : ℝ) ^ (60 + 20 * k) = 10 ^ 60 * (10 ^ 20) ^ k := by rw [pow_add, pow_mul]
      rw [this, ← e1]
      have : (x.value : ℝ) ^ k * (10 ^ 20) ^ k = ((if x.negative then -1 else 1) * (scaled 20 x : ℝ)) ^ k := by
        rw [← mul_pow, e2]
      have hs : ((if x.negative then -1 else 1 : ℝ)) ^ k =
          if (x.negative && decide (k % 2 = 1)) = true then -1 else 1 := by
        cases x.negative
        · simp
        · rcases Nat.mod_two_eq_zero_or_one k with h | h
          · simp [h, (Nat.even_iff.2 h).neg_one_pow]
          · simp [h, (Nat.odd_iff.2 h).neg_one_pow]
      calc (w.value : ℝ) * (x.value : ℝ) ^ k * (10 ^ 60 * (10 ^ 20) ^ k)
          = (w.value * 10 ^ 60) * ((x.value : ℝ) ^ k * (10 ^ 20) ^ k) := by ring
        _ = _ := by rw [this, mul_pow, hs]; ring
    rw [e3]
    simp only [signedSum]
    cases hb : (x.negative && decide (k % 2 = 1)) <;> simp <;> ring

theorem momentOk_spec {inside : Decimal → Bool} {t : List (Decimal × Decimal)} (h : shapeOk inside t = true)
    {k num den tn td : ℕ} (hd : 0 < den) (ht : 0 < td) (hm : momentOk t k num den tn td = true) :
    |((realTable t).map fun p => p.1 * p.2 ^ k).sum - (num : ℝ) / den| ≤ (tn : ℝ) / td := by
  set D : ℕ := 10 ^ (60 + 20 * k) with hD
  have hDpos : (0 : ℝ) < D := by rw [hD]; positivity
  have hs := signedSum_spec h k
  have hDr : (10 : ℝ) ^ (60 + 20 * k) = D := by rw [hD]; push_cast; rfl
  rw [hDr] at hs
  simp only [momentOk, close, Bool.and_eq_true, Nat.ble_eq, ← hD, Nat.sub_le_iff_le_add] at hm
  obtain ⟨h1, h2⟩ := hm
  have h1' : (signedSum k false t : ℝ) * den * td ≤
      tn * den * D + (signedSum k true t * den * td + num * td * D) := by exact_mod_cast h1
  have h2' : (signedSum k true t : ℝ) * den * td + num * td * D ≤
      tn * den * D + signedSum k false t * den * td := by exact_mod_cast h2
  set S := ((realTable t).map fun p => p.1 * p.2 ^ k).sum
  have hdr : (0 : ℝ) < den := by exact_mod_cast hd
  have htr : (0 : ℝ) < td := by exact_mod_cast ht
  have e : (S - num / den) = (S * D * den * td - num * td * D) / (D * den * td) := by
    field_simp
  rw [e, abs_div, abs_of_pos (by positivity : (0 : ℝ) < D * den * td), div_le_div_iff₀ (by positivity) htr]
  have : |S * D * den * td - num * td * D| ≤ tn * den * D := by
    rw [hs, abs_le]
    constructor <;> nlinarith
  calc _ ≤ tn * den * D * (td : ℝ) := mul_le_mul_of_nonneg_right this htr.le
    _ = _ := by ring

theorem inside_of_shape {inside : Decimal → Bool} {t : List (Decimal × Decimal)} (h : shapeOk inside t = true) :
    ∀ p ∈ t, 0 < (p.1.value : ℝ) ∧ inside p.2 = true := by
  intro p hp
  have := List.all_eq_true.1 h p hp
  simp only [Bool.and_eq_true, Bool.not_eq_true', Nat.blt_eq] at this
  obtain ⟨⟨⟨⟨h1, h2⟩, -⟩, -⟩, h3⟩ := this
  refine ⟨?_, h3⟩
  have : (0 : ℝ) < p.1.digits := by exact_mod_cast h2
  simp only [Decimal.value, h1]
  push_cast
  simp only [Bool.false_eq_true, if_false, one_mul]
  positivity

theorem ok_of_all {f : ℕ → Bool} (h : (List.range 31).all f = true) {n : ℕ} (hn : n ≤ 30) : f n = true :=
  List.all_eq_true.1 h n (List.mem_range.2 (by omega))

/-- What a table has to satisfy to integrate against `ρ` on `S`. -/
structure Integrates (t : List (ℝ × ℝ)) (n : ℕ) (S : Set ℝ) (ρ : ℝ → ℝ) (τ : ℕ → ℝ) : Prop where
  length : t.length = n
  nodes : ∀ q ∈ t, 0 < q.1 ∧ q.2 ∈ S
  integrable : ∀ k < 2 * n, IntegrableOn (fun x => x ^ k * ρ x) S
  moments : ∀ k < 2 * n, |(t.map fun p => p.1 * p.2 ^ k).sum - ∫ x in S, x ^ k * ρ x| ≤ τ k

theorem legendre_integrates {n : ℕ} (hn : n ≤ 30) :
    Integrates (realTable (legendre.getD n [])) n (Icc (-1) 1) (fun _ => 1) fun _ => 6 / 10 ^ 15 := by
  have h := ok_of_all legendre_ok hn
  simp only [legendreOk, Bool.and_eq_true, Nat.beq_eq, List.all_eq_true, List.mem_range] at h
  obtain ⟨⟨hs, hl⟩, hm⟩ := h
  refine ⟨(List.length_map _).trans hl, ?_, fun k _ => (legendre_moment k).1, fun k hk => ?_⟩
  · intro q hq
    obtain ⟨p, hp, rfl⟩ := List.mem_map.1 hq
    obtain ⟨h1, h2⟩ := inside_of_shape hs p hp
    refine ⟨h1, abs_le.1 ?_⟩
    rw [Nat.blt_eq] at h2
    have h3 : (p.2.digits : ℝ) < 10 ^ p.2.places := by exact_mod_cast h2
    have h4 : |(p.2.value : ℝ)| = p.2.digits / 10 ^ p.2.places := by
      have : (0 : ℝ) ≤ p.2.digits / 10 ^ p.2.places := by positivity
      rw [Decimal.value]
      push_cast
      split_ifs
      · push_cast; rw [neg_one_mul, abs_neg, abs_of_nonneg this]
      · push_cast; rw [one_mul, abs_of_nonneg this]
    show |(p.2.value : ℝ)| ≤ 1
    rw [h4]
    exact ((div_lt_one (by positivity)).2 h3).le
  · have := momentOk_spec hs (Nat.succ_pos k) (by positivity) (hm k hk)
    rw [(legendre_moment k).2]
    push_cast at this
    have e : ((if k % 2 = 0 then 2 else 0 : ℕ) : ℝ) / ((k : ℝ) + 1) = if k % 2 = 0 then 2 / ((k : ℝ) + 1) else 0 := by
      split_ifs <;> simp
    push_cast at e
    rw [e] at this
    exact this.trans (le_of_eq (by norm_num))

theorem laguerre_integrates {n : ℕ} (hn : n ≤ 30) :
    Integrates (realTable (laguerre.getD n [])) n (Ioi 0) (fun x => Real.exp (-x))
      fun k => 7 / 10 ^ 14 * k.factorial := by
  have h := ok_of_all laguerre_ok hn
  simp only [laguerreOk, Bool.and_eq_true, Nat.beq_eq, List.all_eq_true, List.mem_range] at h
  obtain ⟨⟨hs, hl⟩, hm⟩ := h
  refine ⟨(List.length_map _).trans hl, ?_, fun k _ => (laguerre_moment k).1, fun k hk => ?_⟩
  · intro q hq
    obtain ⟨p, hp, rfl⟩ := List.mem_map.1 hq
    obtain ⟨h1, h2⟩ := inside_of_shape hs p hp
    refine ⟨h1, ?_⟩
    simp only [Bool.and_eq_true, Bool.not_eq_true', Nat.blt_eq] at h2
    have h3 : (0 : ℝ) < p.2.digits := by exact_mod_cast h2.2
    show (0 : ℝ) < p.2.value
    rw [Decimal.value, h2.1]
    push_cast
    simp only [Bool.false_eq_true, if_false, one_mul]
    positivity
  · have := momentOk_spec hs one_pos (by positivity) (hm k hk)
    rw [(laguerre_moment k).2]
    push_cast at this
    rw [div_one] at this
    exact this.trans (le_of_eq (by ring))

/-- The absolute moments of `exp (-x²)` of even order, and zero for odd orders. -/
noncomputable def hermiteMoment (k : ℕ) : ℝ := ∫ x : ℝ, x ^ k * Real.exp (-x ^ 2)

theorem hermite_integrates {n : ℕ} (hn : n ≤ 30) :
    Integrates (realTable (hermite.getD n [])) n univ (fun x => Real.exp (-x ^ 2))
      fun k => 1 / 10 ^ 14 * hermiteMoment k := by
  have h := ok_of_all hermite_ok hn
  simp only [hermiteOk, Bool.and_eq_true, Nat.beq_eq, List.all_eq_true, List.mem_range] at h
  obtain ⟨⟨hs, hl⟩, hm⟩ := h
  refine ⟨(List.length_map _).trans hl, ?_, fun k _ => (hermite_integrable k).integrableOn, fun k hk => ?_⟩
  · intro q hq
    obtain ⟨p, hp, rfl⟩ := List.mem_map.1 hq
    exact ⟨(inside_of_shape hs p hp).1, mem_univ _⟩
  · have := hm k hk
    rw [setIntegral_univ]
    simp only [hermiteMoment]
    by_cases hk2 : k % 2 = 0
    · rw [if_pos hk2] at this
      have hb := momentOk_spec hs (by positivity) (by positivity) this
      obtain ⟨j, rfl⟩ : ∃ j, k = 2 * j := ⟨k / 2, by omega⟩
      rw [hermite_moment_even]
      have ej : 2 * j / 2 = j := by omega
      rw [ej] at hb
      push_cast at hb
      set c : ℝ := (Nat.doubleFactorial (2 * j - 1) : ℝ) / 2 ^ j with hc
      have hc0 : 0 ≤ c := by rw [hc]; positivity
      have e1 : ((2 * j - 1).doubleFactorial : ℝ) * 177245385090551602730 / (100000000000000000000 * 2 ^ j) =
          c * (177245385090551602730 / 10 ^ 20) := by rw [hc]; ring
      have e2 : (12 : ℝ) * ((2 * j - 1).doubleFactorial : ℝ) / (1000000000000000 * 2 ^ j) = c * (12 / 10 ^ 15) := by rw [hc]; ring
      rw [e1, e2] at hb
      have hp := sqrt_pi_close
      have hd : |c * (177245385090551602730 / 10 ^ 20) - c * Real.sqrt Real.pi| ≤ c * (1 / 10 ^ 18) := by
        rw [← mul_sub, abs_mul, abs_of_nonneg hc0, abs_sub_comm]
        exact mul_le_mul_of_nonneg_left hp hc0
      have hfin : c * (12 / 10 ^ 15) + c * (1 / 10 ^ 18) ≤ 1 / 10 ^ 14 * (c * Real.sqrt Real.pi) := by
        have : (1.7 : ℝ) ≤ Real.sqrt Real.pi := by
          have := (abs_le.1 hp).1
          norm_num at this ⊢
          linarith
        nlinarith [mul_le_mul_of_nonneg_left this hc0]
      refine le_trans ?_ hfin
      have := abs_add_le (((realTable (hermite.getD n [])).map fun p => p.1 * p.2 ^ (2 * j)).sum -
        c * (177245385090551602730 / 10 ^ 20)) (c * (177245385090551602730 / 10 ^ 20) - c * Real.sqrt Real.pi)
      rw [sub_add_sub_cancel] at this
      linarith
    · rw [if_neg hk2] at this
      have hb := momentOk_spec hs one_pos one_pos this
      rw [hermite_moment_odd (by omega)]
      simpa using hb

/-! ### What the integrator returns -/

theorem gaussianSum_real (t : List (Decimal × Decimal)) (f : ℝ → ℝ) :
    gaussianSum (t.map fun p => (p.1.value, p.2.value)) (fun x => finiteSample (f x)) =
      .ok ((realTable t).map fun p => p.1 * f p.2).sum := by
  have key : ∀ acc : ℝ, (t.map fun p => (p.1.value, p.2.value)).foldlM (fun ans (wx : ℚ × ℚ) => do
      let v ← finiteSample (f (Fns.lit wx.2))
      return ans + Fns.lit wx.1 * v) acc =
      (.ok (acc + ((realTable t).map fun p => p.1 * f p.2).sum) : Except IntegrateFailure ℝ) := by
    induction t with
    | nil => intro acc; simp [realTable]; rfl
    | cons p t ih =>
      intro acc
      simp only [List.map_cons, List.foldlM_cons, finiteSample, real_isFinite, if_true]
      refine (ih _).trans ?_
      simp only [realTable, List.map_cons, List.sum_cons]
      show (Except.ok (acc + (p.1.value : ℝ) * f (p.2.value : ℝ) + _) : Except IntegrateFailure ℝ) = _
      rw [add_assoc]
  have := key 0
  rw [zero_add] at this
  exact this

theorem nodes_ok (m : GaussianMethod) {n : ℕ} (h1 : 1 ≤ n) (hn : n ≤ 30) :
    gaussianNodes tables m n = .ok (((family m).getD n []).map fun p => (p.1.value, p.2.value)) := by
  rw [gaussianNodes, if_neg (by omega)]
  rfl

/-- C111. Gauss-Legendre of order `n`, on any interval: a function within `η` of a polynomial of degree
below `2n` is integrated to within `2η` times the length, plus the rounding of the table's literals.
With `η = 0` this is exactness on polynomials; the coefficients are those in the variable that runs
from -1 to 1. -/
theorem gauss_legendre {n : ℕ} (h1 : 1 ≤ n) (hn : n ≤ 30) {a b : ℝ} (hab : a < b) (p : Polynomial ℝ)
    (hp : p.natDegree < 2 * n) (f : ℝ → ℝ) (hf : ContinuousOn f (Icc a b)) {η : ℝ}
    (hη : ∀ x ∈ Icc a b, |f x - p.eval x| ≤ η) :
    ∃ v, gaussianSingle tables .legendre n f [(a, b)] = .ok v ∧
      |v - ∫ x in a..b, f x| ≤ (b - a) * ((2 + 1 / 10 ^ 14) * η + 3 / 10 ^ 15 *
        ∑ k ∈ Finset.range (2 * n),
          |(p.comp (Polynomial.C ((b - a) / 2) * Polynomial.X + Polynomial.C ((b + a) / 2))).coeff k|) := by
  have hI := legendre_integrates hn
  set c := (b - a) / 2 with hc
  set d := (b + a) / 2 with hd
  have hc0 : 0 < c := by rw [hc]; linarith
  have hη0 : 0 ≤ η := le_trans (abs_nonneg _) (hη a ⟨le_refl _, hab.le⟩)
  have hmap : ∀ x ∈ Icc (-1 : ℝ) 1, c * x + d ∈ Icc a b := by
    intro x hx
    constructor
    · have := mul_le_mul_of_nonneg_left hx.1 hc0.le
      rw [hc, hd] at *
      linarith
    · have := mul_le_mul_of_nonneg_left hx.2 hc0.le
      rw [hc, hd] at *
      linarith
  set q := p.comp (Polynomial.C c * Polynomial.X + Polynomial.C d) with hq
  have hqe : ∀ x, q.eval x = p.eval (c * x + d) := by
    intro x
    rw [hq]
    simp
  have hqd : q.natDegree < 2 * n := by
    refine lt_of_le_of_lt ?_ hp
    rw [hq, Polynomial.natDegree_comp]
    calc _ ≤ p.natDegree * 1 := Nat.mul_le_mul_left _ Polynomial.natDegree_linear_le
      _ = _ := mul_one _
  have hg : IntegrableOn (fun x => f (c * x + d) * 1) (Icc (-1) 1) := by
    refine ContinuousOn.integrableOn_Icc (ContinuousOn.mul (hf.comp (by fun_prop) hmap) continuousOn_const)
  have key := quadrature_near (by omega) measurableSet_Icc (fun _ _ => zero_le_one) hI.integrable hI.moments
    (fun r hr => ⟨(hI.nodes r hr).1.le, (hI.nodes r hr).2⟩) q hqd (fun x => f (c * x + d)) hg hη0
    (fun x hx => by rw [hqe]; exact hη _ (hmap x hx))
  have hsum := gaussianSum_real (legendre.getD n []) (fun x => f (c * x + d))
  set S := ((realTable (legendre.getD n [])).map fun p => p.1 * f (c * p.2 + d)).sum with hS
  refine ⟨c * S, ?_, ?_⟩
  · have hlim : gaussianCheckLimits (T := ℝ) .legendre [(a, b)] = .ok () := by
      simp [gaussianCheckLimits, gaussianLimitOk, hab, real_isFinite]
    have hh : (b - a) * (Fns.lit (1 / 2) : ℝ) = c := by
      show (b - a) * (((1 / 2 : ℚ)) : ℝ) = c
      rw [hc]; push_cast; ring
    have hh2 : (b + a) * (Fns.lit (1 / 2) : ℝ) = d := by
      show (b + a) * (((1 / 2 : ℚ)) : ℝ) = d
      rw [hd]; push_cast; ring
    simp only [gaussianSingle, nodes_ok .legendre h1 hn, hlim, List.reverse_singleton, gaussLegendreSingle, hh, hh2,
      family, bind, Except.bind, hsum]
    rfl
  · have hint : ∫ x in a..b, f x = c * ∫ x in Icc (-1 : ℝ) 1, f (c * x + d) * 1 := by
      simp only [mul_one]
      rw [integral_Icc_eq_integral_Ioc, ← intervalIntegral.integral_of_le (by norm_num),
        intervalIntegral.integral_comp_mul_add _ hc0.ne', smul_eq_mul, ← mul_assoc, mul_inv_cancel₀ hc0.ne', one_mul]
      congr 1 <;> rw [hc, hd] <;> ring
    rw [hint, ← mul_sub, abs_mul, abs_of_pos hc0]
    have hone : ∫ _ in Icc (-1 : ℝ) 1, (1 : ℝ) = 2 := by
      have := (legendre_moment 0).2
      norm_num at this ⊢
    rw [hone, ← Finset.sum_mul] at key
    have hb2 : b - a = 2 * c := by rw [hc]; ring
    rw [hb2]
    have hnn : 0 ≤ ∑ k ∈ Finset.range (2 * n), |q.coeff k| := Finset.sum_nonneg fun k _ => abs_nonneg _
    calc _ ≤ c * _ := mul_le_mul_of_nonneg_left key hc0.le
      _ ≤ c * (2 * ((2 + 1 / 10 ^ 14) * η + 3 / 10 ^ 15 * ∑ k ∈ Finset.range (2 * n), |q.coeff k|)) := by
        refine mul_le_mul_of_nonneg_left ?_ hc0.le
        nlinarith
      _ = _ := by ring

/-- C111. Gauss-Laguerre: the same against `exp (-x)` on the positive numbers; the rounding of the literals
costs at most `7·10⁻¹⁴` of what the polynomial with the absolute coefficients integrates to. -/
theorem gauss_laguerre {n : ℕ} (h1 : 1 ≤ n) (hn : n ≤ 30) (p : Polynomial ℝ) (hp : p.natDegree < 2 * n)
    (f : ℝ → ℝ) (hf : IntegrableOn (fun x => f x * Real.exp (-x)) (Ioi 0)) {η : ℝ}
    (hη : ∀ x, 0 < x → |f x - p.eval x| ≤ η) :
    ∃ v, gaussianSingle tables .laguerre n f [(0, Fns.infinity)] = .ok v ∧
      |v - ∫ x in Ioi (0 : ℝ), f x * Real.exp (-x)| ≤ (2 + 1 / 10 ^ 13) * η + 7 / 10 ^ 14 *
        ∑ k ∈ Finset.range (2 * n), |p.coeff k| * k.factorial := by
  have hI := laguerre_integrates hn
  have hη0 : 0 ≤ η := le_trans (abs_nonneg _) (hη 1 one_pos)
  have key := quadrature_near (by omega) measurableSet_Ioi (fun x _ => (Real.exp_pos _).le) hI.integrable hI.moments
    (fun r hr => ⟨(hI.nodes r hr).1.le, (hI.nodes r hr).2⟩) p hp f hf hη0 hη
  refine ⟨_, ?_, key.trans ?_⟩
  · have hlim : gaussianCheckLimits (T := ℝ) .laguerre [(0, Fns.infinity)] = .ok () := by
      simp [gaussianCheckLimits, gaussianLimitOk]
    simp only [gaussianSingle, nodes_ok .laguerre h1 hn, hlim, List.length_singleton, gaussCanonicalSingle,
      family, bind, Except.bind]
    exact gaussianSum_real _ f
  · have hone : ∫ x in Ioi (0 : ℝ), Real.exp (-x) = 1 := by
      have := (laguerre_moment 0).2
      simpa using this
    rw [hone]
    have e : ∑ k ∈ Finset.range (2 * n), |p.coeff k| * (7 / 10 ^ 14 * (k.factorial : ℝ)) =
        7 / 10 ^ 14 * ∑ k ∈ Finset.range (2 * n), |p.coeff k| * k.factorial := by
      rw [Finset.mul_sum]
      exact Finset.sum_congr rfl fun k _ => by ring
    rw [e]
    simp only [Nat.factorial_zero, Nat.cast_one]
    nlinarith

/-- C111. Gauss-Hermite: the same against `exp (-x²)` on the whole line. Coefficients of odd powers cost
nothing, because the tables are symmetric. -/
theorem gauss_hermite {n : ℕ} (h1 : 1 ≤ n) (hn : n ≤ 30) (p : Polynomial ℝ) (hp : p.natDegree < 2 * n)
    (f : ℝ → ℝ) (hf : Integrable fun x => f x * Real.exp (-x ^ 2)) {η : ℝ}
    (hη : ∀ x, |f x - p.eval x| ≤ η) :
    ∃ v, gaussianSingle tables .hermite n f [(Fns.negInfinity, Fns.infinity)] = .ok v ∧
      |v - ∫ x : ℝ, f x * Real.exp (-x ^ 2)| ≤ 4 * η + 1 / 10 ^ 14 *
        ∑ k ∈ Finset.range (2 * n), |p.coeff k| * ∫ x : ℝ, x ^ k * Real.exp (-x ^ 2) := by
  have hI := hermite_integrates hn
  have hη0 : 0 ≤ η := le_trans (abs_nonneg _) (hη 1)
  have key := quadrature_near (by omega) MeasurableSet.univ (fun x _ => (Real.exp_pos _).le) hI.integrable hI.moments
    (fun r hr => ⟨(hI.nodes r hr).1.le, (hI.nodes r hr).2⟩) p hp f hf.integrableOn hη0 fun x _ => hη x
  rw [setIntegral_univ, setIntegral_univ] at key
  refine ⟨_, ?_, key.trans ?_⟩
  · have hlim : gaussianCheckLimits (T := ℝ) .hermite [(Fns.negInfinity, Fns.infinity)] = .ok () := by
      simp [gaussianCheckLimits, gaussianLimitOk]
    simp only [gaussianSingle, nodes_ok .hermite h1 hn, hlim, List.length_singleton, gaussCanonicalSingle,
      family, bind, Except.bind]
    exact gaussianSum_real _ f
  · have hone : ∫ x : ℝ, Real.exp (-x ^ 2) = Real.sqrt Real.pi := by
      have := hermite_moment_even 0
      simpa using this
    have h0 : hermiteMoment 0 = Real.sqrt Real.pi := by rw [← hone, hermiteMoment]; simp
    have hs : Real.sqrt Real.pi ≤ 1.8 := by
      have := (abs_le.1 sqrt_pi_close).2
      norm_num at this ⊢
      linarith
    have e : ∑ k ∈ Finset.range (2 * n), |p.coeff k| * (1 / 10 ^ 14 * hermiteMoment k) =
        1 / 10 ^ 14 * ∑ k ∈ Finset.range (2 * n), |p.coeff k| * ∫ x : ℝ, x ^ k * Real.exp (-x ^ 2) := by
      rw [Finset.mul_sum]
      exact Finset.sum_congr rfl fun k _ => by rw [hermiteMoment]; ring
    rw [e, hone, h0]
    have : η * (2 * Real.sqrt Real.pi + 1 / 10 ^ 14 * Real.sqrt Real.pi) ≤ η * 4 :=
      mul_le_mul_of_nonneg_left (by norm_num at hs ⊢; linarith) hη0
    linarith

/-- Order 3 integrates `x⁵ + x⁴` over `[0, 2]`. -/
example : ∃ v, gaussianSingle tables .legendre 3 (fun x : ℝ => x ^ 5 + x ^ 4) [(0, 2)] = .ok v ∧
    |v - ∫ x in (0 : ℝ)..2, (x ^ 5 + x ^ 4)| ≤ (2 - 0) * ((2 + 1 / 10 ^ 14) * 0 + 3 / 10 ^ 15 *
        ∑ k ∈ Finset.range (2 * 3), |((Polynomial.X ^ 5 + Polynomial.X ^ 4 : Polynomial ℝ).comp
          (Polynomial.C ((2 - 0) / 2) * Polynomial.X + Polynomial.C ((2 + 0) / 2))).coeff k|) := by
  refine gauss_legendre (by norm_num) (by norm_num) (by norm_num) _ ?_ _ (by fun_prop) fun x _ => by simp
  refine lt_of_le_of_lt (Polynomial.natDegree_add_le _ _) ?_
  simp

/-- Order 2 integrates `x³ exp (-x)` to nearly six. -/
example : ∃ v, gaussianSingle tables .laguerre 2 (fun x : ℝ => x ^ 3) [(0, Fns.infinity)] = .ok v ∧
    |v - 6| ≤ 1 / 10 ^ 12 := by
  obtain ⟨v, hv, h⟩ := gauss_laguerre (n := 2) (by norm_num) (by norm_num) (Polynomial.X ^ 3) (by simp)
    (fun x => x ^ 3) (laguerre_moment 3).1 (η := 0) (fun x _ => by simp)
  refine ⟨v, hv, h.trans' ?_ |>.trans ?_⟩
  · rw [(laguerre_moment 3).2]
    norm_num [Nat.factorial]
  · simp [Finset.sum_range_succ, Polynomial.coeff_X_pow, Nat.factorial]
    norm_num

end Multicalc.GaussianTables
