import Verif.Model.LieJacobian
import Verif.Lemmas.TrigBounds
import Verif.Props.Screw
import Verif.Props.Kalman
import Mathlib.Analysis.Calculus.Deriv.Add
import Mathlib.Analysis.Calculus.Deriv.Mul
import Mathlib.Analysis.SpecialFunctions.Sqrt

/-!
# The Jacobians of the exponential maps
-/

namespace Multicalc

open Matrix

/-- `(1 - cos θ) / θ²` as a function of `θ²`. -/
noncomputable def jacC1 (s : ℝ) : ℝ := (1 - Real.cos (Real.sqrt s)) / s

/-- `(θ - sin θ) / θ³` as a function of `θ²`. -/
noncomputable def jacC2 (s : ℝ) : ℝ := (Real.sqrt s - Real.sin (Real.sqrt s)) / (s * Real.sqrt s)

theorem jac_relation {s : ℝ} (hs : 0 < s) : (1 - s * jacC2 s) ^ 2 - 2 * jacC1 s + s * jacC1 s ^ 2 = 0 := by
  have h := Real.sin_sq_add_cos_sq (Real.sqrt s)
  have h1 : Real.sqrt s ^ 2 = s := Real.sq_sqrt hs.le
  have h2 : 0 < Real.sqrt s := Real.sqrt_pos.2 hs
  unfold jacC1 jacC2
  generalize Real.sin (Real.sqrt s) = a at *
  generalize Real.cos (Real.sqrt s) = b at *
  generalize Real.sqrt s = r at *
  subst h1
  field_simp
  linear_combination h

theorem jac_sinc {s : ℝ} (hs : 0 < s) : Real.sin (Real.sqrt s) / Real.sqrt s = 1 - s * jacC2 s := by
  have h2 : 0 < Real.sqrt s := Real.sqrt_pos.2 hs
  unfold jacC2
  field_simp
  ring

theorem jacC1_deriv {s : ℝ} (hs : 0 < s) : HasDerivAt jacC1 (((1 - s * jacC2 s) / 2 - jacC1 s) / s) s := by
  have h2 : 0 < Real.sqrt s := Real.sqrt_pos.2 hs
  have h1 : Real.sqrt s ^ 2 = s := Real.sq_sqrt hs.le
  have hd := (((hasDerivAt_const s (1 : ℝ)).sub ((Real.hasDerivAt_sqrt hs.ne').cos)).div (hasDerivAt_id s) hs.ne')
  refine hd.congr_deriv ?_
  rw [← jac_sinc hs]
  unfold jacC1
  simp only [id, Pi.sub_apply]
  generalize Real.sin (Real.sqrt s) = a at *
  generalize Real.cos (Real.sqrt s) = b at *
  generalize Real.sqrt s = r at *
  subst h1
  field_simp
  ring

theorem jacC2_deriv {s : ℝ} (hs : 0 < s) : HasDerivAt jacC2 ((jacC1 s - 3 * jacC2 s) / (2 * s)) s := by
  have h2 : 0 < Real.sqrt s := Real.sqrt_pos.2 hs
  have h1 : Real.sqrt s ^ 2 = s := Real.sq_sqrt hs.le
  have hq := Real.hasDerivAt_sqrt hs.ne'
  have hd := (hq.sub hq.sin).div ((hasDerivAt_id s).mul hq) (by simp only [Pi.mul_apply, id]; positivity)
  refine hd.congr_deriv ?_
  unfold jacC1 jacC2
  simp only [id, Pi.sub_apply, Pi.mul_apply]
  generalize Real.sin (Real.sqrt s) = a at *
  generalize Real.cos (Real.sqrt s) = b at *
  generalize Real.sqrt s = r at *
  subst h1
  field_simp
  ring

/-- A rotation vector turns a point by Rodrigues' formula. -/
theorem exp_act_closed (φ v : Fin 3 → ℝ) (h : 30 / 2 ^ 52 ≤ vnorm φ) (i : Fin 3) :
    (SO3.exp φ).act v i = v i + (1 - vdot φ φ * jacC2 (vdot φ φ)) * cross φ v i +
      jacC1 (vdot φ φ) * cross φ (cross φ v) i := by
  have h0 : 0 < vnorm φ := lt_of_lt_of_le (by norm_num) h
  have hsq := vnorm_sq φ
  have hθ : Real.sqrt (vdot φ φ) = vnorm φ := rfl
  have hpos : 0 < vdot φ φ := by rw [← hsq]; positivity
  rw [← jac_sinc hpos]
  unfold jacC1
  rw [hθ]
  obtain ⟨θ, hθ'⟩ : ∃ θ, vnorm φ = θ := ⟨_, rfl⟩
  have s1 : Real.sin θ = 2 * Real.sin (θ / 2) * Real.cos (θ / 2) := by rw [← Real.sin_two_mul]; ring_nf
  have h3 := Real.sin_sq_add_cos_sq (θ / 2)
  have c1 : Real.cos θ = 1 - 2 * Real.sin (θ / 2) ^ 2 := by
    have h2 := Real.cos_two_mul (θ / 2)
    rw [show 2 * (θ / 2) = θ by ring] at h2
    linear_combination h2 + 2 * h3
  unfold SO3.exp SO3.act
  rw [fromScaledAxis_main h, transformPoint_explicit, hθ', s1, c1, ← hsq]
  rw [hθ'] at h0 hsq ⊢
  rw [vdot3] at hsq
  generalize Real.sin (θ / 2) = a at *
  generalize Real.cos (θ / 2) = b at *
  have hb : b ^ 2 = 1 - a ^ 2 := by linear_combination h3
  fin_cases i <;> simp [cross] <;> field_simp <;> grind

theorem leftJacobian_vec (φ v : Fin 3 → ℝ) (i : Fin 3) :
    mmulVec (leftJacobianSo3 φ) v i = v i + so3Coeff1 (vdot φ φ) * cross φ v i +
      so3Coeff2 (vdot φ φ) * cross φ (cross φ v) i := by
  unfold leftJacobianSo3
  dsimp only
  rw [mmulVec_eq, mmul_eq, midentity_eq]
  generalize so3Coeff1 (vdot φ φ) = a
  generalize so3Coeff2 (vdot φ φ) = b
  fin_cases i <;>
    simp [Matrix.mulVec, dotProduct, Fin.sum_univ_three, madd, mscale, skew3, cross, Matrix.mul_apply, Matrix.one_apply] <;>
    ring

/-! ### The series branches -/

/-- C101. The coefficients of the rotation Jacobians, for every angle: above the switch they are the closed forms, and
below it the two-term series differ from the closed forms by at most the first term left out (within a factor of
about 1.5 for the inverse). -/
theorem so3_coefficients (s : ℝ) (hs : 0 < s) :
    |so3Coeff1 s - (1 - Real.cos (Real.sqrt s)) / s| ≤ s ^ 2 / 720 ∧
    |so3Coeff2 s - (Real.sqrt s - Real.sin (Real.sqrt s)) / (s * Real.sqrt s)| ≤ s ^ 2 / 5040 ∧
    (s ≤ 4 → |so3Coeff3 s - (1 - Real.sqrt s / 2 * (Real.cos (Real.sqrt s / 2) / Real.sin (Real.sqrt s / 2))) / s| ≤
      s ^ 2 / 20000) := by
  have h2 : 0 < Real.sqrt s := Real.sqrt_pos.2 hs
  have h1 : Real.sqrt s ^ 2 = s := Real.sq_sqrt hs.le
  refine ⟨?_, ?_, fun hs4 => ?_⟩
  · unfold so3Coeff1
    split
    · rw [half_real, real_lit]
      have ht := cos_taylor4 (Real.sqrt s)
      rw [show Real.sqrt s ^ 4 = (Real.sqrt s ^ 2) ^ 2 by ring, show Real.sqrt s ^ 6 = (Real.sqrt s ^ 2) ^ 3 by ring, h1] at ht
      have e : 1 / 2 - s / ((24 : ℚ) : ℝ) - (1 - Real.cos (Real.sqrt s)) / s =
          (Real.cos (Real.sqrt s) - (1 - s / 2 + s ^ 2 / 24)) / s := by
        push_cast; field_simp; ring
      rw [e, abs_div, abs_of_pos hs, div_le_iff₀ hs]
      exact ht.trans (le_of_eq (by ring))
    · show |(1 - Real.cos (Real.sqrt s)) / s - (1 - Real.cos (Real.sqrt s)) / s| ≤ _
      rw [sub_self, abs_zero]; positivity
  · unfold so3Coeff2
    split
    · rw [real_lit, real_lit]
      have ht := sin_taylor5 (Real.sqrt s)
      rw [abs_of_pos h2] at ht
      have e : 1 / ((6 : ℚ) : ℝ) - s / ((120 : ℚ) : ℝ) - (Real.sqrt s - Real.sin (Real.sqrt s)) / (s * Real.sqrt s) =
          (Real.sin (Real.sqrt s) - (Real.sqrt s - Real.sqrt s ^ 3 / 6 + Real.sqrt s ^ 5 / 120)) / (s * Real.sqrt s) := by
        generalize Real.sin (Real.sqrt s) = a at *
        generalize Real.sqrt s = r at *
        subst h1
        push_cast; field_simp; ring
      rw [e, abs_div, abs_of_pos (show 0 < s * Real.sqrt s by positivity), div_le_iff₀ (by positivity)]
      refine ht.trans (le_of_eq ?_)
      generalize Real.sqrt s = r at *
      subst h1
      ring
    · show |(Real.sqrt s - Real.sin (Real.sqrt s)) / (s * Real.sqrt s) -
        (Real.sqrt s - Real.sin (Real.sqrt s)) / (s * Real.sqrt s)| ≤ _
      rw [sub_self, abs_zero]; positivity
  · unfold so3Coeff3
    split
    · rw [real_lit, real_lit]
      obtain ⟨k, hk⟩ : ∃ k, Real.sqrt s / 2 = k := ⟨_, rfl⟩
      have hk0 : 0 < k := by rw [← hk]; positivity
      have hks : s = 4 * k ^ 2 := by rw [← h1, ← hk]; ring
      have hk1 : k ≤ 1 := by
        by_contra hcon
        push Not at hcon
        nlinarith
      rw [hk]
      have a1 := sin_upper5 k hk0.le
      have a2 := sin_lower7 k hk0.le
      have a3 := cos_lower6 k hk0.le
      have a4 := cos_upper8 k hk0.le
      have hsin : 5 / 6 * k ≤ Real.sin k := by
        have := sin_lower3 k hk0.le
        nlinarith [mul_pos hk0 hk0, mul_nonneg hk0.le (mul_nonneg (by linarith : 0 ≤ 1 - k) (by linarith : 0 ≤ 1 + k))]
      have hsin0 : 0 < Real.sin k := lt_of_lt_of_le (by positivity) hsin
      generalize Real.sin k = a at *
      generalize Real.cos k = b at *
      subst hks
      push_cast
      have e : 1 / 12 + 4 * k ^ 2 / 720 - (1 - k * (b / a)) / (4 * k ^ 2) =
          ((k ^ 2 / 3 + k ^ 4 / 45) * a - (a - k * b)) / (4 * k ^ 2 * a) := by field_simp; ring
      rw [e, abs_div, abs_of_pos (show 0 < 4 * k ^ 2 * a by positivity), div_le_iff₀ (by positivity)]
      have p7 : 0 < k ^ 7 := by positivity
      have p9 : k ^ 9 ≤ k ^ 7 := pow_le_pow_of_le_one hk0.le hk1 (by norm_num)
      have p11 : k ^ 11 ≤ k ^ 7 := pow_le_pow_of_le_one hk0.le hk1 (by norm_num)
      have p9' : 0 < k ^ 9 := by positivity
      have p11' : 0 < k ^ 11 := by positivity
      have hq : 0 ≤ 1 - k ^ 2 / 3 - k ^ 4 / 45 := by
        nlinarith [pow_le_one₀ hk0.le hk1 (n := 2), pow_le_one₀ hk0.le hk1 (n := 4)]
      have hbound : |(k ^ 2 / 3 + k ^ 4 / 45) * a - (a - k * b)| ≤ k ^ 7 / 400 := by
        rw [abs_le]
        constructor <;> nlinarith [mul_nonneg hq a1, mul_nonneg hq a2, mul_nonneg hk0.le a3, mul_nonneg hk0.le a4]
      refine hbound.trans ?_
      nlinarith [mul_nonneg (show 0 ≤ k ^ 6 by positivity) (sub_nonneg.2 hsin)]
    · rw [half_real]
      show |(1 - Real.sqrt s * (1 / 2) * (Real.cos (Real.sqrt s * (1 / 2)) / Real.sin (Real.sqrt s * (1 / 2)))) / s - _| ≤ _
      rw [mul_one_div, sub_self, abs_zero]; positivity

theorem sin_upper9 (x : ℝ) (hx : 0 ≤ x) :
    0 ≤ x - x ^ 3 / 6 + x ^ 5 / 120 - x ^ 7 / 5040 + x ^ 9 / 362880 - Real.sin x := by
  refine nonneg_of_deriv (g := fun x => x - x ^ 3 / 6 + x ^ 5 / 120 - x ^ 7 / 5040 + x ^ 9 / 362880 - Real.sin x)
    (g' := fun x => 1 - x ^ 2 / 2 + x ^ 4 / 24 - x ^ 6 / 720 + x ^ 8 / 40320 - Real.cos x) (fun x => ?_) (by simp)
    cos_upper8 x hx
  have h := (((((hasDerivAt_id x).sub
    ((hasDerivAt_pow 3 x).div_const 6)).add ((hasDerivAt_pow 5 x).div_const 120)).sub
    ((hasDerivAt_pow 7 x).div_const 5040)).add ((hasDerivAt_pow 9 x).div_const 362880)).sub (Real.hasDerivAt_sin x)
  refine HasDerivAt.congr_deriv h ?_; norm_num; try ring

/-- C101. The coefficients of the coupling block of the rigid-motion Jacobian, for every angle: above the switch they
are the closed forms, and below it the two-term series differ from the closed forms by at most the first term left
out. -/
theorem se3_coefficients (s : ℝ) (hs : 0 < s) :
    |qCoeff2 s - (Real.sqrt s - Real.sin (Real.sqrt s)) / (s * Real.sqrt s)| ≤ s ^ 2 / 5040 ∧
    |qCoeff3 s - (1 - s / 2 - Real.cos (Real.sqrt s)) / s ^ 2| ≤ s ^ 2 / 40320 ∧
    |qCoeff5 s - (Real.sqrt s - Real.sin (Real.sqrt s) - Real.sqrt s ^ 3 / 6) / Real.sqrt s ^ 5| ≤ s ^ 2 / 362880 := by
  have h2 : 0 < Real.sqrt s := Real.sqrt_pos.2 hs
  have h1 : Real.sqrt s ^ 2 = s := Real.sq_sqrt hs.le
  refine ⟨(so3_coefficients s hs).2.1, ?_, ?_⟩
  · unfold qCoeff3
    dsimp only
    split
    · rw [real_lit, real_lit]
      have a1 := cos_lower6 (Real.sqrt s) h2.le
      have a2 := cos_upper8 (Real.sqrt s) h2.le
      change |-1 / ((24 : ℚ) : ℝ) + s / ((720 : ℚ) : ℝ) - (1 - s / 2 - Real.cos (Real.sqrt s)) / s ^ 2| ≤ _
      generalize Real.cos (Real.sqrt s) = b at *
      generalize Real.sqrt s = r at *
      subst h1
      have e : -1 / ((24 : ℚ) : ℝ) + r ^ 2 / ((720 : ℚ) : ℝ) - (1 - r ^ 2 / 2 - b) / (r ^ 2) ^ 2 =
          (b - (1 - r ^ 2 / 2 + r ^ 4 / 24 - r ^ 6 / 720)) / r ^ 4 := by
        push_cast; field_simp; ring
      rw [e, abs_div, abs_of_pos (show 0 < r ^ 4 by positivity), div_le_iff₀ (by positivity), abs_of_nonneg a1]
      nlinarith
    · rw [half_real]
      change |(1 - s * (1 / 2) - Real.cos (Real.sqrt s)) / (s * s) - _| ≤ _
      rw [mul_one_div, ← sq, sub_self, abs_zero]; positivity
  · unfold qCoeff5
    dsimp only
    split
    · rw [real_lit, real_lit]
      have a1 := sin_lower7 (Real.sqrt s) h2.le
      have a2 := sin_upper9 (Real.sqrt s) h2.le
      generalize Real.sin (Real.sqrt s) = b at *
      generalize Real.sqrt s = r at *
      subst h1
      have e : -1 / ((120 : ℚ) : ℝ) + r ^ 2 / ((5040 : ℚ) : ℝ) - (r - b - r ^ 3 / 6) / r ^ 5 =
          (b - (r - r ^ 3 / 6 + r ^ 5 / 120 - r ^ 7 / 5040)) / r ^ 5 := by
        push_cast; field_simp; ring
      rw [e, abs_div, abs_of_pos (show 0 < r ^ 5 by positivity), div_le_iff₀ (by positivity), abs_of_nonneg a1]
      nlinarith
    · rw [real_lit]
      have e : s * Real.sqrt s = Real.sqrt s ^ 3 := by rw [← h1, Real.sqrt_sq h2.le]; ring
      have e5 : s * s * Real.sqrt s = Real.sqrt s ^ 5 := by rw [← h1, Real.sqrt_sq h2.le]; ring
      change |(Real.sqrt s - Real.sin (Real.sqrt s) - s * Real.sqrt s / ((6 : ℚ) : ℝ)) / (s * s * Real.sqrt s) - _| ≤ _
      rw [e, e5]
      push_cast
      rw [sub_self, abs_zero]; positivity

example : (0 : ℝ) < 1 / 10 ^ 8 := by norm_num

/-! ### The Jacobian is the derivative -/

/-- One component of the derivative of a rotated point. -/
theorem rotate_deriv {x y z S : ℝ → ℝ} {a b c p q r s e c1 c2 : ℝ} (hx : HasDerivAt x a 0) (hy : HasDerivAt y b 0)
    (hz : HasDerivAt z c 0) (hS : HasDerivAt S (2 * e) 0) (hs : S 0 = s) (hs0 : 0 < s)
    (hs' : s = x 0 * x 0 + y 0 * y 0 + z 0 * z 0) (he : e = x 0 * a + y 0 * b + z 0 * c)
    (h1 : jacC1 s = c1) (h2 : jacC2 s = c2) :
    HasDerivAt (fun t => p + (1 - S t * jacC2 (S t)) * (y t * r - z t * q) +
      jacC1 (S t) * (y t * (x t * q - y t * p) - z t * (z t * p - x t * r)))
      ((b + c1 * (z 0 * a - x 0 * c) + c2 * (z 0 * (y 0 * c - z 0 * b) - x 0 * (x 0 * b - y 0 * a))) *
        (r + (1 - s * c2) * (x 0 * q - y 0 * p) +
          c1 * (x 0 * (z 0 * p - x 0 * r) - y 0 * (y 0 * r - z 0 * q))) -
       (c + c1 * (x 0 * b - y 0 * a) + c2 * (x 0 * (z 0 * a - x 0 * c) - y 0 * (y 0 * c - z 0 * b))) *
        (q + (1 - s * c2) * (z 0 * p - x 0 * r) +
          c1 * (z 0 * (y 0 * r - z 0 * q) - x 0 * (x 0 * q - y 0 * p)))) 0 := by
  subst hs
  have d1 : HasDerivAt (fun t => jacC1 (S t)) (((1 - S 0 * jacC2 (S 0)) / 2 - jacC1 (S 0)) / S 0 * (2 * e)) 0 :=
    (jacC1_deriv hs0).comp 0 hS
  have d2 : HasDerivAt (fun t => jacC2 (S t)) ((jacC1 (S 0) - 3 * jacC2 (S 0)) / (2 * S 0) * (2 * e)) 0 :=
    (jacC2_deriv hs0).comp 0 hS
  have hrel := jac_relation hs0
  have hd := (((hasDerivAt_const (0 : ℝ) p).add
    (((hasDerivAt_const (0 : ℝ) (1 : ℝ)).sub (hS.mul d2)).mul ((hy.mul_const r).sub (hz.mul_const q)))).add
    (d1.mul ((hy.mul ((hx.mul_const q).sub (hy.mul_const p))).sub (hz.mul ((hz.mul_const p).sub (hx.mul_const r))))))
  refine hd.congr_deriv ?_
  simp only [Pi.sub_apply, Pi.mul_apply]
  rw [h1, h2] at hrel ⊢
  have hS0 := hs0.ne'
  generalize S 0 = s at *
  generalize x 0 = x at *
  generalize y 0 = y at *
  generalize z 0 = z at *
  have i1 : s * (((1 - s * c2) / 2 - c1) / s) = (1 - s * c2) / 2 - c1 := by field_simp
  have i2 : 2 * s * ((c1 - 3 * c2) / (2 * s)) = c1 - 3 * c2 := by field_simp
  generalize ((1 - s * c2) / 2 - c1) / s = d1 at *
  generalize (c1 - 3 * c2) / (2 * s) = d2 at *
  subst he
  clear d1 d2 hd hS hx hy hz h1 h2
  grind

theorem curve_facts (φ η : Fin 3 → ℝ) :
    (∀ k, HasDerivAt (fun t => φ k + t * η k) (η k) 0) ∧
    HasDerivAt (fun t => vdot (fun k => φ k + t * η k) (fun k => φ k + t * η k)) (2 * vdot φ η) 0 := by
  have hk : ∀ k, HasDerivAt (fun t => φ k + t * η k) (η k) 0 := by
    intro k
    have := ((hasDerivAt_id (0 : ℝ)).mul_const (η k)).const_add (φ k)
    simpa using this
  refine ⟨hk, ?_⟩
  simp only [vdot3]
  refine ((((hk 0).mul (hk 0)).add ((hk 1).mul (hk 1))).add ((hk 2).mul (hk 2))).congr_deriv ?_
  simp
  ring

theorem curve_far (φ η : Fin 3 → ℝ) {c : ℝ} (h : c < vdot φ φ) :
    ∀ᶠ t in nhds (0 : ℝ), c < vdot (fun k => φ k + t * η k) (fun k => φ k + t * η k) := by
  have hc := (curve_facts φ η).2.continuousAt
  have h0 : c < vdot (fun k => φ k + 0 * η k) (fun k => φ k + 0 * η k) := by simpa using h
  exact hc.eventually (lt_mem_nhds h0)

/-- C101. The left Jacobian of the rotation exponential is its derivative, for every rotation vector: moving `φ` in
the direction `η` moves every point `v` with the velocity of a spin about the origin, and that spin is
`left_jacobian(φ) η`, exactly for vectors longer than 0.013 and up to `θ⁴/720 |φ × η| + θ⁴/5040 |φ × (φ × η)|` below. -/
theorem so3_left_jacobian_derivative (φ : Fin 3 → ℝ) (h : 30 / 2 ^ 52 < vnorm φ) :
    ∃ a b : ℝ, |a| ≤ vdot φ φ ^ 2 / 720 ∧ |b| ≤ vdot φ φ ^ 2 / 5040 ∧ (1 / 6000 ≤ vdot φ φ → a = 0 ∧ b = 0) ∧
      ∀ (η v : Fin 3 → ℝ) (i : Fin 3),
        HasDerivAt (fun t => (SO3.exp fun k => φ k + t * η k).act v i)
          (cross (fun k => mmulVec (SO3.leftJacobian φ) η k + a * cross φ η k + b * cross φ (cross φ η) k)
            ((SO3.exp φ).act v) i) 0 := by
  have hsq := vnorm_sq φ
  have hpos : 0 < vdot φ φ := by
    rw [← hsq]
    have : 0 < vnorm φ := lt_trans (by norm_num) h
    positivity
  obtain ⟨k1, k2, -⟩ := so3_coefficients _ hpos
  refine ⟨jacC1 (vdot φ φ) - so3Coeff1 (vdot φ φ), jacC2 (vdot φ φ) - so3Coeff2 (vdot φ φ),
    by rw [abs_sub_comm]; exact k1, by rw [abs_sub_comm]; exact k2, fun hm => ?_, fun η v i => ?_⟩
  · obtain ⟨m1, m2, -⟩ := so3_coeffs_main _ hm
    rw [m1, m2]
    exact ⟨sub_self _, sub_self _⟩
  · have hev : (fun t => (SO3.exp fun k => φ k + t * η k).act v i) =ᶠ[nhds 0]
        fun t => v i + (1 - vdot (fun k => φ k + t * η k) (fun k => φ k + t * η k) *
          jacC2 (vdot (fun k => φ k + t * η k) (fun k => φ k + t * η k))) * cross (fun k => φ k + t * η k) v i +
          jacC1 (vdot (fun k => φ k + t * η k) (fun k => φ k + t * η k)) *
            cross (fun k => φ k + t * η k) (cross (fun k => φ k + t * η k) v) i := by
      have hc : (30 / 2 ^ 52 : ℝ) ^ 2 < vdot φ φ := by rw [← hsq]; nlinarith
      filter_upwards [curve_far φ η hc] with t ht
      refine exp_act_closed _ v ?_ i
      rw [← vnorm_sq] at ht
      have := vnorm_nonneg fun k => φ k + t * η k
      by_contra hcon
      push Not at hcon
      nlinarith
    refine HasDerivAt.congr_of_eventuallyEq ?_ hev
    obtain ⟨hk, hS⟩ := curve_facts φ η
    have hJ : (fun k => mmulVec (SO3.leftJacobian φ) η k + (jacC1 (vdot φ φ) - so3Coeff1 (vdot φ φ)) * cross φ η k +
        (jacC2 (vdot φ φ) - so3Coeff2 (vdot φ φ)) * cross φ (cross φ η) k) =
        fun k => η k + jacC1 (vdot φ φ) * cross φ η k + jacC2 (vdot φ φ) * cross φ (cross φ η) k := by
      funext k
      rw [SO3.leftJacobian, leftJacobian_vec]
      ring
    have hA : (SO3.exp φ).act v = fun k => v k + (1 - vdot φ φ * jacC2 (vdot φ φ)) * cross φ v k +
        jacC1 (vdot φ φ) * cross φ (cross φ v) k := funext fun k => exp_act_closed φ v h.le k
    rw [hJ, hA]
    have hs0 : vdot (fun k => φ k + 0 * η k) (fun k => φ k + 0 * η k) = vdot φ φ := by simp
    have r0 := rotate_deriv (p := v 0) (q := v 1) (r := v 2) (hk 0) (hk 1) (hk 2) hS hs0 hpos (by simp [vdot3])
      (by simp [vdot3]) rfl rfl
    have r1 := rotate_deriv (p := v 1) (q := v 2) (r := v 0) (hk 1) (hk 2) (hk 0) hS hs0 hpos (by simp [vdot3]; ring)
      (by simp [vdot3]; ring) rfl rfl
    have r2 := rotate_deriv (p := v 2) (q := v 0) (r := v 1) (hk 2) (hk 0) (hk 1) hS hs0 hpos (by simp [vdot3]; ring)
      (by simp [vdot3]; ring) rfl rfl
    simp only [zero_mul, add_zero] at r0 r1 r2
    fin_cases i
    · exact r0
    · exact r1
    · exact r2

/-- A quarter turn about a slanted axis meets the hypotheses of the exact case. -/
example : (30 / 2 ^ 52 : ℝ) < vnorm ![1, 1, 0] ∧ 1 / 6000 ≤ vdot ![(1 : ℝ), 1, 0] ![1, 1, 0] := by
  have : vnorm ![(1 : ℝ), 1, 0] = Real.sqrt 2 := by
    unfold vnorm vnormSquared; rw [vdot3, real_sqrt]; congr 1; simp; norm_num
  rw [this]
  constructor
  · have : (1 : ℝ) ≤ Real.sqrt 2 := by rw [Real.le_sqrt] <;> norm_num
    exact lt_of_lt_of_le (by norm_num) this
  · rw [vdot3]; simp; norm_num

/-- C101. The right Jacobian turns the same change into a spin felt in the turned frame: rotating
`right_jacobian(φ) η` by `exp(φ)` gives `left_jacobian(φ) η`, for rotation vectors longer than 0.013. -/
theorem so3_right_jacobian (φ η : Fin 3 → ℝ) (h : 1 / 6000 ≤ vdot φ φ) :
    (SO3.exp φ).act (mmulVec (SO3.rightJacobian φ) η) = mmulVec (SO3.leftJacobian φ) η := by
  have hsq := vnorm_sq φ
  have hpos : 0 < vdot φ φ := lt_of_lt_of_le (by norm_num) h
  have hθ : 30 / 2 ^ 52 ≤ vnorm φ := by
    have := vnorm_nonneg φ
    by_contra hcon
    push Not at hcon
    nlinarith
  have hneg : vdot (vneg φ) (vneg φ) = vdot φ φ := by rw [vdot3, vdot3]; simp [vneg]
  obtain ⟨m1, m2, -⟩ := so3_coeffs_main _ h
  have m1 : so3Coeff1 (vdot φ φ) = jacC1 (vdot φ φ) := m1
  have m2 : so3Coeff2 (vdot φ φ) = jacC2 (vdot φ φ) := m2
  have hrel := jac_relation hpos
  funext i
  rw [exp_act_closed φ _ hθ]
  simp only [SO3.leftJacobian, SO3.rightJacobian]
  have e : mmulVec (leftJacobianSo3 (vneg φ)) η = fun i => η i + jacC1 (vdot φ φ) * cross (vneg φ) η i +
      jacC2 (vdot φ φ) * cross (vneg φ) (cross (vneg φ) η) i := by
    funext i; rw [leftJacobian_vec, hneg, m1, m2]
  rw [e, leftJacobian_vec, m1, m2]
  have hs := vdot3 φ φ
  generalize jacC1 (vdot φ φ) = c1 at *
  generalize jacC2 (vdot φ φ) = c2 at *
  generalize vdot φ φ = s at *
  clear h hθ hneg m1 m2
  fin_cases i <;> simp [cross, vneg] <;> grind

/-! ### Rigid motions -/

theorem qCoeffs_main (s : ℝ) (h : 1 / 390 ≤ s) :
    qCoeff2 s = jacC2 s ∧ s * qCoeff3 s = jacC1 s - 1 / 2 ∧ s * qCoeff5 s = jacC2 s - 1 / 6 := by
  have hs : 0 < s := lt_of_lt_of_le (by norm_num) h
  have h2 : 0 < Real.sqrt s := Real.sqrt_pos.2 hs
  have h1 : Real.sqrt s ^ 2 = s := Real.sq_sqrt hs.le
  have heps : (Fns.epsilon : ℝ) = 1 / 2 ^ 52 := rfl
  have hc : ∀ c : ℚ, 0 ≤ c → c ≤ 181440 → ¬ s < Fns.sqrt (Fns.sqrt ((Fns.lit c : ℝ) * Fns.epsilon)) := by
    intro c h0 h1
    rw [not_lt]
    refine le_trans ?_ h
    rw [real_sqrt, real_sqrt, real_lit, heps]
    rw [Real.sqrt_le_left (by norm_num), Real.sqrt_le_left (by norm_num)]
    have : (c : ℝ) ≤ 181440 := by exact_mod_cast h1
    nlinarith
  refine ⟨(so3_coeffs_main s (by linarith)).2.1, ?_, ?_⟩
  · unfold qCoeff3
    dsimp only
    rw [if_neg (hc 20160 (by norm_num) (by norm_num)), half_real]
    change s * ((1 - s * (1 / 2) - Real.cos (Real.sqrt s)) / (s * s)) = _
    unfold jacC1
    field_simp
    ring
  · unfold qCoeff5
    dsimp only
    rw [if_neg (hc 181440 (by norm_num) (by norm_num)), real_lit]
    change s * ((Real.sqrt s - Real.sin (Real.sqrt s) - s * Real.sqrt s / ((6 : ℚ) : ℝ)) / (s * s * Real.sqrt s)) = _
    unfold jacC2
    push_cast
    field_simp

theorem qMatrix_vec (ρ φ v : Fin 3 → ℝ) (i : Fin 3) :
    mmulVec (qMatrixSe3 ρ φ) v i = 1 / 2 * cross ρ v i +
      qCoeff2 (vdot φ φ) * (cross φ (cross ρ v) i + cross ρ (cross φ v) i + cross φ (cross ρ (cross φ v)) i) -
      qCoeff3 (vdot φ φ) * (cross φ (cross φ (cross ρ v)) i + cross ρ (cross φ (cross φ v)) i -
        3 * cross φ (cross ρ (cross φ v)) i) -
      (qCoeff3 (vdot φ φ) - 3 * qCoeff5 (vdot φ φ)) / 2 *
        (cross φ (cross ρ (cross φ (cross φ v))) i + cross φ (cross φ (cross ρ (cross φ v))) i) := by
  have hs : ∀ u v : Fin 3 → ℝ, skew3 u *ᵥ v = cross u v := by
    intro u v
    funext i
    fin_cases i <;> simp [Matrix.mulVec, dotProduct, Fin.sum_univ_three, skew3, cross] <;> ring
  have hm : ∀ (m : Matrix (Fin 3) (Fin 3) ℝ) (c : ℝ), mscale m c = c • m := by
    intro m c; ext i j; simp [mscale, mul_comm]
  unfold qMatrixSe3
  dsimp only
  rw [mmulVec_eq, half_real, real_lit]
  simp only [mmul_eq, hm, madd_eq, msub_eq, Matrix.sub_mulVec, Matrix.add_mulVec, Matrix.smul_mulVec,
    ← Matrix.mulVec_mulVec, hs, Pi.sub_apply, Pi.add_apply, Pi.smul_apply, smul_eq_mul]
  push_cast
  ring

/-- One component of the derivative of the translation part. -/
theorem translate_deriv {x y z S : ℝ → ℝ} {a b c p q r s e c1 c2 c3 c5 : ℝ} (hx : HasDerivAt x a 0)
    (hy : HasDerivAt y b 0) (hz : HasDerivAt z c 0) (hS : HasDerivAt S (2 * e) 0) (hs : S 0 = s) (hs0 : 0 < s)
    (hs' : s = x 0 * x 0 + y 0 * y 0 + z 0 * z 0) (he : e = x 0 * a + y 0 * b + z 0 * c)
    (h1 : jacC1 s = c1) (h2 : jacC2 s = c2) (h3 : s * c3 = c1 - 1 / 2) (h5 : s * c5 = c2 - 1 / 6)
    {m1 m2 m3 n1 n2 n3 o1 o2 o3 g1 g2 g3 k1 k2 k3 l1 l2 l3 : ℝ}
    (hm1 : m1 = y 0 * c - z 0 * b) (hm2 : m2 = z 0 * a - x 0 * c) (hm3 : m3 = x 0 * b - y 0 * a)
    (hn1 : n1 = q * c - r * b) (hn2 : n2 = r * a - p * c) (hn3 : n3 = p * b - q * a)
    (ho1 : o1 = y 0 * m3 - z 0 * m2) (ho2 : o2 = z 0 * m1 - x 0 * m3) (ho3 : o3 = x 0 * m2 - y 0 * m1)
    (hg1 : g1 = q * m3 - r * m2) (hg2 : g2 = r * m1 - p * m3) (hg3 : g3 = p * m2 - q * m1)
    (hk1 : k1 = q * o3 - r * o2) (hk2 : k2 = r * o1 - p * o3) (hk3 : k3 = p * o2 - q * o1)
    (hl1 : l1 = y 0 * n3 - z 0 * n2) (hl2 : l2 = z 0 * n1 - x 0 * n3) (hl3 : l3 = x 0 * n2 - y 0 * n1) :
    HasDerivAt (fun t => p + jacC1 (S t) * (y t * r - z t * q) +
      jacC2 (S t) * (y t * (x t * q - y t * p) - z t * (z t * p - x t * r)))
      ((b + c1 * m2 + c2 * o2) * (r + c1 * (x 0 * q - y 0 * p) +
          c2 * (x 0 * (z 0 * p - x 0 * r) - y 0 * (y 0 * r - z 0 * q))) -
       (c + c1 * m3 + c2 * o3) * (q + c1 * (z 0 * p - x 0 * r) +
          c2 * (z 0 * (y 0 * r - z 0 * q) - x 0 * (x 0 * q - y 0 * p))) +
       (1 / 2 * n1 + c2 * (l1 + g1 + (y 0 * g3 - z 0 * g2)) -
        c3 * ((y 0 * l3 - z 0 * l2) + k1 - 3 * (y 0 * g3 - z 0 * g2)) -
        (c3 - 3 * c5) / 2 * ((y 0 * k3 - z 0 * k2) +
          (y 0 * (x 0 * g2 - y 0 * g1) - z 0 * (z 0 * g1 - x 0 * g3))))) 0 := by
  subst hs
  have d1 : HasDerivAt (fun t => jacC1 (S t)) (((1 - S 0 * jacC2 (S 0)) / 2 - jacC1 (S 0)) / S 0 * (2 * e)) 0 :=
    (jacC1_deriv hs0).comp 0 hS
  have d2 : HasDerivAt (fun t => jacC2 (S t)) ((jacC1 (S 0) - 3 * jacC2 (S 0)) / (2 * S 0) * (2 * e)) 0 :=
    (jacC2_deriv hs0).comp 0 hS
  have hrel := jac_relation hs0
  have hd := (((hasDerivAt_const (0 : ℝ) p).add (d1.mul ((hy.mul_const r).sub (hz.mul_const q)))).add
    (d2.mul ((hy.mul ((hx.mul_const q).sub (hy.mul_const p))).sub (hz.mul ((hz.mul_const p).sub (hx.mul_const r))))))
  refine hd.congr_deriv ?_
  simp only [Pi.sub_apply, Pi.mul_apply]
  rw [h1, h2] at hrel ⊢
  have hS0 := hs0.ne'
  generalize S 0 = s at *
  generalize x 0 = x at *
  generalize y 0 = y at *
  generalize z 0 = z at *
  have i1 : s * (((1 - s * c2) / 2 - c1) / s) = (1 - s * c2) / 2 - c1 := by field_simp
  have i2 : 2 * s * ((c1 - 3 * c2) / (2 * s)) = c1 - 3 * c2 := by field_simp
  generalize ((1 - s * c2) / 2 - c1) / s = d1 at *
  generalize (c1 - 3 * c2) / (2 * s) = d2 at *
  subst he hk1 hk2 hk3 hl1 hl2 hl3 hg1 hg2 hg3 ho1 ho2 ho3 hn1 hn2 hn3 hm1 hm2 hm3
  clear d1 d2 hd hS hx hy hz h1 h2
  grind

theorem blocks_vec (a b c d : Matrix (Fin 3) (Fin 3) ℝ) (v : Fin 6 → ℝ) :
    head3 (mmulVec (blocks a b c d) v) = (fun i => mmulVec a (head3 v) i + mmulVec b (tail3 v) i) ∧
    tail3 (mmulVec (blocks a b c d) v) = fun i => mmulVec c (head3 v) i + mmulVec d (tail3 v) i := by
  simp only [mmulVec_eq]
  constructor <;> funext i <;> fin_cases i <;>
    simp [head3, tail3, blocks, Matrix.mulVec, dotProduct, Fin.sum_univ_succ] <;> ring

/-- How the translation part of `exp` moves. -/
theorem translation_deriv (φ η ρ : Fin 3 → ℝ) (h : 1 / 390 < vdot φ φ) (i : Fin 3) :
    HasDerivAt (fun t => mmulVec (leftJacobianSo3 fun k => φ k + t * η k) ρ i)
      (cross (mmulVec (leftJacobianSo3 φ) η) (mmulVec (leftJacobianSo3 φ) ρ) i + mmulVec (qMatrixSe3 ρ φ) η i) 0 := by
  have hpos : 0 < vdot φ φ := lt_trans (by norm_num) h
  obtain ⟨q2, q3, q5⟩ := qCoeffs_main _ h.le
  have hJ : ∀ φ : Fin 3 → ℝ, 1 / 390 < vdot φ φ → ∀ v, mmulVec (leftJacobianSo3 φ) v =
      fun i => v i + jacC1 (vdot φ φ) * cross φ v i + jacC2 (vdot φ φ) * cross φ (cross φ v) i := by
    intro φ h v
    funext i
    obtain ⟨m1, m2, -⟩ := so3_coeffs_main (vdot φ φ) (by linarith)
    rw [leftJacobian_vec, m1, m2]
    rfl
  have hev : (fun t => mmulVec (leftJacobianSo3 fun k => φ k + t * η k) ρ i) =ᶠ[nhds 0]
      fun t => ρ i + jacC1 (vdot (fun k => φ k + t * η k) (fun k => φ k + t * η k)) * cross (fun k => φ k + t * η k) ρ i +
        jacC2 (vdot (fun k => φ k + t * η k) (fun k => φ k + t * η k)) *
          cross (fun k => φ k + t * η k) (cross (fun k => φ k + t * η k) ρ) i := by
    filter_upwards [curve_far φ η h] with t ht
    rw [hJ _ ht]
  refine HasDerivAt.congr_of_eventuallyEq ?_ hev
  obtain ⟨hk, hS⟩ := curve_facts φ η
  rw [hJ φ h, hJ φ h, qMatrix_vec, q2]
  have hs0 : vdot (fun k => φ k + 0 * η k) (fun k => φ k + 0 * η k) = vdot φ φ := by simp
  have r0 := translate_deriv (p := ρ 0) (q := ρ 1) (r := ρ 2) (hk 0) (hk 1) (hk 2) hS hs0 hpos (by simp [vdot3])
    (by simp [vdot3]) rfl rfl q3 q5 rfl rfl rfl rfl rfl rfl rfl rfl rfl rfl rfl rfl rfl rfl rfl rfl rfl rfl
  have r1 := translate_deriv (p := ρ 1) (q := ρ 2) (r := ρ 0) (hk 1) (hk 2) (hk 0) hS hs0 hpos (by simp [vdot3]; ring)
    (by simp [vdot3]; ring) rfl rfl q3 q5 rfl rfl rfl rfl rfl rfl rfl rfl rfl rfl rfl rfl rfl rfl rfl rfl rfl rfl
  have r2 := translate_deriv (p := ρ 2) (q := ρ 0) (r := ρ 1) (hk 2) (hk 0) (hk 1) hS hs0 hpos (by simp [vdot3]; ring)
    (by simp [vdot3]; ring) rfl rfl q3 q5 rfl rfl rfl rfl rfl rfl rfl rfl rfl rfl rfl rfl rfl rfl rfl rfl rfl rfl
  simp only [zero_mul, add_zero] at r0 r1 r2
  fin_cases i
  · exact r0
  · exact r1
  · exact r2

/-- C101. The left Jacobian of the rigid-motion exponential is its derivative: for every twist `ξ` whose rotation part
is longer than 0.051, moving `ξ` in the direction `η` moves every point with the velocity that the twist
`left_jacobian(ξ) η` gives to its image. -/
theorem se3_left_jacobian_derivative (ξ : Fin 6 → ℝ) (h : 1 / 390 < vdot (tail3 ξ) (tail3 ξ)) (η : Fin 6 → ℝ)
    (p : Fin 3 → ℝ) (i : Fin 3) :
    HasDerivAt (fun t => (SE3.exp fun k => ξ k + t * η k).act p i)
      (cross (tail3 (mmulVec (SE3.leftJacobian ξ) η)) ((SE3.exp ξ).act p) i +
        head3 (mmulVec (SE3.leftJacobian ξ) η) i) 0 := by
  obtain ⟨b1, b2⟩ := blocks_vec (leftJacobianSo3 (tail3 ξ)) (qMatrixSe3 (head3 ξ) (tail3 ξ)) (fun _ _ => 0)
    (leftJacobianSo3 (tail3 ξ)) η
  have hJ : SE3.leftJacobian ξ = blocks (leftJacobianSo3 (tail3 ξ)) (qMatrixSe3 (head3 ξ) (tail3 ξ)) (fun _ _ => 0)
    (leftJacobianSo3 (tail3 ξ)) := rfl
  have hz : ∀ v : Fin 3 → ℝ, mmulVec (fun _ _ => 0 : Matrix (Fin 3) (Fin 3) ℝ) v = 0 := by
    intro v
    have e := mmulVec_eq (0 : Matrix (Fin 3) (Fin 3) ℝ) v
    rw [Matrix.zero_mulVec] at e
    exact e
  rw [hJ, b1, b2, hz]
  have hlin : ∀ t : ℝ, (head3 fun k => ξ k + t * η k) = (fun k => head3 ξ k + t * head3 η k) ∧
      (tail3 fun k => ξ k + t * η k) = fun k => tail3 ξ k + t * tail3 η k := by
    intro t
    constructor <;> funext k <;> fin_cases k <;> simp [head3, tail3]
  have hf : (fun t => (SE3.exp fun k => ξ k + t * η k).act p i) = fun t =>
      (SO3.exp fun k => tail3 ξ k + t * tail3 η k).act p i +
      (mmulVec (leftJacobianSo3 fun k => tail3 ξ k + t * tail3 η k) (head3 ξ) i +
        t * mmulVec (leftJacobianSo3 fun k => tail3 ξ k + t * tail3 η k) (head3 η) i) := by
    funext t
    obtain ⟨l1, l2⟩ := hlin t
    simp only [SE3.act, SE3.exp, vadd, l1, l2, mmulVec_eq]
    have : (fun k => head3 ξ k + t * head3 η k) = head3 ξ + t • head3 η := rfl
    rw [this, Matrix.mulVec_add, Matrix.mulVec_smul]
    simp
  rw [hf]
  have hθ : 30 / 2 ^ 52 < vnorm (tail3 ξ) := by
    have h1 := vnorm_nonneg (tail3 ξ)
    have h2 := vnorm_sq (tail3 ξ)
    by_contra hcon
    push Not at hcon
    nlinarith
  obtain ⟨a, b, -, -, hab, hrot⟩ := so3_left_jacobian_derivative (tail3 ξ) hθ
  obtain ⟨rfl, rfl⟩ := hab (by linarith)
  have d1 := hrot (tail3 η) p i
  have d2 := translation_deriv (tail3 ξ) (tail3 η) (head3 ξ) h i
  have d3 := (hasDerivAt_id (0 : ℝ)).mul (translation_deriv (tail3 ξ) (tail3 η) (head3 η) h i)
  refine (d1.add (d2.add d3)).congr_deriv ?_
  simp only [zero_mul, add_zero, id, one_mul, SO3.leftJacobian, Pi.zero_apply, zero_add]
  have hact : (SE3.exp ξ).act p = fun k => (SO3.exp (tail3 ξ)).act p k +
      mmulVec (leftJacobianSo3 (tail3 ξ)) (head3 ξ) k := rfl
  rw [hact]
  fin_cases i <;> simp [cross] <;> ring

theorem qMatrix_short (ρ φ v : Fin 3 → ℝ) (i : Fin 3) :
    mmulVec (qMatrixSe3 ρ φ) v i = 1 / 2 * cross ρ v i +
      qCoeff2 (vdot φ φ) * (cross φ (cross ρ v) i + cross ρ (cross φ v) i) -
      qCoeff3 (vdot φ φ) * (cross φ (cross φ (cross ρ v)) i + cross ρ (cross φ (cross φ v)) i) -
      vdot φ ρ * (qCoeff2 (vdot φ φ) + 3 * qCoeff3 (vdot φ φ)) * cross φ v i +
      vdot φ ρ * (qCoeff3 (vdot φ φ) - 3 * qCoeff5 (vdot φ φ)) * cross φ (cross φ v) i := by
  have e : ∀ v : Fin 3 → ℝ, cross φ (cross ρ (cross φ v)) = fun i => -vdot φ ρ * cross φ v i := by
    intro v; rw [vdot3]; funext i; fin_cases i <;> simp [cross] <;> ring
  have e' : cross φ (fun i => -vdot φ ρ * cross φ v i) = fun i => -vdot φ ρ * cross φ (cross φ v) i := by
    funext i; fin_cases i <;> simp [cross] <;> ring
  rw [qMatrix_vec, e, e, e']
  ring

theorem se3_right_core (φ ρ a : Fin 3 → ℝ) {s d c1 c2 c3 c5 : ℝ} (hs : s = φ 0 * φ 0 + φ 1 * φ 1 + φ 2 * φ 2)
    (hd : d = φ 0 * ρ 0 + φ 1 * ρ 1 + φ 2 * ρ 2) (hs0 : s ≠ 0) (h3 : s * c3 = c1 - 1 / 2) (h5 : s * c5 = c2 - 1 / 6)
    (hrel : (1 - s * c2) ^ 2 - 2 * c1 + s * c1 ^ 2 = 0) (Q Qm Ja Jr : Fin 3 → ℝ)
    (hQ : Q = fun i => 1 / 2 * cross ρ a i + c2 * (cross φ (cross ρ a) i + cross ρ (cross φ a) i) -
      c3 * (cross φ (cross φ (cross ρ a)) i + cross ρ (cross φ (cross φ a)) i) -
      d * (c2 + 3 * c3) * cross φ a i + d * (c3 - 3 * c5) * cross φ (cross φ a) i)
    (hQm : Qm = fun i => 1 / 2 * cross (vneg ρ) a i +
      c2 * (cross (vneg φ) (cross (vneg ρ) a) i + cross (vneg ρ) (cross (vneg φ) a) i) -
      c3 * (cross (vneg φ) (cross (vneg φ) (cross (vneg ρ) a)) i + cross (vneg ρ) (cross (vneg φ) (cross (vneg φ) a)) i) -
      d * (c2 + 3 * c3) * cross (vneg φ) a i + d * (c3 - 3 * c5) * cross (vneg φ) (cross (vneg φ) a) i)
    (hJa : Ja = fun i => a i + c1 * cross φ a i + c2 * cross φ (cross φ a) i)
    (hJr : Jr = fun i => ρ i + c1 * cross φ ρ i + c2 * cross φ (cross φ ρ) i) (i : Fin 3) :
    Qm i + (1 - s * c2) * cross φ Qm i + c1 * cross φ (cross φ Qm) i + cross Jr Ja i = Q i := by
  obtain ⟨e, he⟩ : ∃ e, e = φ 0 * a 0 + φ 1 * a 1 + φ 2 * a 2 := ⟨_, rfl⟩
  obtain ⟨g, hg⟩ : ∃ g, g = ρ 0 * a 0 + ρ 1 * a 1 + ρ 2 * a 2 := ⟨_, rfl⟩
  have hQ' : ∀ i, Q i = (1 / 2 + s * c3) * cross ρ a i - d * (c2 + 2 * c3) * cross φ a i +
      c2 * (e * ρ i - 2 * d * a i + g * φ i) + d * (c3 - 3 * c5) * (e * φ i - s * a i) := by
    intro i
    rw [hQ]
    subst hs hd he hg
    fin_cases i <;> simp [cross] <;> ring
  have hQm' : Qm = fun i => -(1 / 2 + s * c3) * cross ρ a i + d * (c2 + 2 * c3) * cross φ a i +
      c2 * (e * ρ i - 2 * d * a i + g * φ i) + d * (c3 - 3 * c5) * (e * φ i - s * a i) := by
    funext i
    rw [hQm]
    subst hs hd he hg
    fin_cases i <;> simp [cross, vneg] <;> ring
  have hc1 : cross φ Qm = fun i => -(1 / 2 + s * c3) * (e * ρ i - d * a i) + d * (c2 + 2 * c3) * (e * φ i - s * a i) +
      c2 * (e * cross φ ρ i - 2 * d * cross φ a i) - d * (c3 - 3 * c5) * s * cross φ a i := by
    funext i
    rw [hQm']
    clear hQ hQm hQm' hQ' h3 h5 hrel hJa hJr
    subst hs hd he hg
    fin_cases i <;> simp [cross] <;> ring
  have hc2 : ∀ i, cross φ (cross φ Qm) i = -(1 / 2 + s * c3) * (e * cross φ ρ i - d * cross φ a i) -
      d * (c2 + 2 * c3) * s * cross φ a i + c2 * (e * (d * φ i - s * ρ i) - 2 * d * (e * φ i - s * a i)) -
      d * (c3 - 3 * c5) * s * (e * φ i - s * a i) := by
    intro i
    rw [hc1]
    clear hQ hQm hQm' hQ' h3 h5 hrel hJa hJr hc1
    subst hs hd he
    fin_cases i <;> simp [cross] <;> ring
  have hJ : cross Jr Ja i = ((1 - s * c2) ^ 2 + s * c1 ^ 2) * cross ρ a i +
      (c1 ^ 2 - (1 - s * c2) * c2) * (e * cross φ ρ i - d * cross φ a i) + c1 * (e * ρ i - d * a i) := by
    rw [hJr, hJa]
    clear hQ hQm hQm' hQ' h3 h5 hrel hJa hJr hc1 hc2
    subst hs hd he
    fin_cases i <;> simp [cross] <;> ring
  rw [hJ, hc2, hQ' i, hc1, hQm']
  dsimp only
  clear hQ hQm hQm' hQ' hJa hJr hc1 hc2 hJ hs hd he hg
  generalize cross φ a i = u
  generalize cross φ ρ i = x
  generalize cross ρ a i = w
  generalize φ i = f
  generalize ρ i = r
  generalize a i = k
  grind

/-- C101. The right Jacobian of the rigid-motion exponential gives the same change as a twist felt in the moved frame:
carried over by the adjoint of `exp(ξ)` it is the left Jacobian, for rotation parts longer than 0.051. -/
theorem se3_right_jacobian (ξ η : Fin 6 → ℝ) (h : 1 / 390 ≤ vdot (tail3 ξ) (tail3 ξ)) :
    mmulVec (SE3.exp ξ).adjoint (mmulVec (SE3.rightJacobian ξ) η) = mmulVec (SE3.leftJacobian ξ) η := by
  have hz : ∀ v : Fin 3 → ℝ, mmulVec (fun _ _ => 0 : Matrix (Fin 3) (Fin 3) ℝ) v = 0 := by
    intro v
    have e := mmulVec_eq (0 : Matrix (Fin 3) (Fin 3) ℝ) v
    rw [Matrix.zero_mulVec] at e
    exact e
  have hext : ∀ u v : Fin 6 → ℝ, head3 u = head3 v → tail3 u = tail3 v → u = v := by
    intro u v h1 h2
    have a := fun i => congrFun h1 i
    have b := fun i => congrFun h2 i
    funext i
    fin_cases i
    · exact a 0
    · exact a 1
    · exact a 2
    · exact b 0
    · exact b 1
    · exact b 2
  have hneg : head3 (vneg ξ) = vneg (head3 ξ) ∧ tail3 (vneg ξ) = vneg (tail3 ξ) := by
    constructor <;> funext k <;> fin_cases k <;> simp [head3, tail3, vneg]
  obtain ⟨b1, b2⟩ := blocks_vec (leftJacobianSo3 (tail3 ξ)) (qMatrixSe3 (head3 ξ) (tail3 ξ)) (fun _ _ => 0)
    (leftJacobianSo3 (tail3 ξ)) η
  obtain ⟨b3, b4⟩ := blocks_vec (leftJacobianSo3 (tail3 (vneg ξ))) (qMatrixSe3 (head3 (vneg ξ)) (tail3 (vneg ξ)))
    (fun _ _ => 0) (leftJacobianSo3 (tail3 (vneg ξ))) η
  obtain ⟨b5, b6⟩ := blocks_vec (SO3.exp (tail3 ξ)).toMatrix
    (mmul (skew3 (mmulVec (leftJacobianSo3 (tail3 ξ)) (head3 ξ))) (SO3.exp (tail3 ξ)).toMatrix) (fun _ _ => 0)
    (SO3.exp (tail3 ξ)).toMatrix (mmulVec (SE3.rightJacobian ξ) η)
  have hθ : 30 / 2 ^ 52 ≤ vnorm (tail3 ξ) := by
    have h1 := vnorm_nonneg (tail3 ξ)
    have h2 := vnorm_sq (tail3 ξ)
    by_contra hcon
    push Not at hcon
    nlinarith
  have hunit : (SO3.exp (tail3 ξ)).quaternion.IsUnit := ((exp_spec (tail3 ξ)).1 hθ).1
  have hact : ∀ v, mmulVec (SO3.exp (tail3 ξ)).toMatrix v = (SO3.exp (tail3 ξ)).act v := fun v =>
    (so3_group (SO3.exp (tail3 ξ)) (SO3.exp (tail3 ξ)) (SO3.exp (tail3 ξ)) hunit hunit v v).2.2.2.2.2.2.2.2.2.2.2.2.2.2.1
  have hsk : ∀ u v : Fin 3 → ℝ, mmulVec (mmul (skew3 u) (SO3.exp (tail3 ξ)).toMatrix) v =
      cross u ((SO3.exp (tail3 ξ)).act v) := by
    intro u v
    rw [← hact, mmul_eq, mmulVec_eq, ← Matrix.mulVec_mulVec, ← mmulVec_eq _ v, hact]
    funext i
    fin_cases i <;> simp [Matrix.mulVec, dotProduct, Fin.sum_univ_three, skew3, cross] <;> ring
  have hr := so3_right_jacobian (tail3 ξ)
  have hrot : ∀ w : Fin 3 → ℝ, (SO3.exp (tail3 ξ)).act (mmulVec (leftJacobianSo3 (vneg (tail3 ξ))) w) =
      mmulVec (leftJacobianSo3 (tail3 ξ)) w := fun w => hr w (by linarith)
  refine hext _ _ ?_ ?_
  · refine b5.trans ?_
    have e1 : head3 (mmulVec (SE3.rightJacobian ξ) η) = _ := b3
    have e2 : tail3 (mmulVec (SE3.rightJacobian ξ) η) = _ := b4
    have e3 : head3 (mmulVec (SE3.leftJacobian ξ) η) = _ := b1
    rw [e1, e2, e3, hact, hsk, hz, hneg.1, hneg.2]
    have e4 : (fun i => (0 : Fin 3 → ℝ) i + mmulVec (leftJacobianSo3 (vneg (tail3 ξ))) (tail3 η) i) =
        mmulVec (leftJacobianSo3 (vneg (tail3 ξ))) (tail3 η) := by funext i; simp
    rw [e4, hrot]
    have hpos : 0 < vdot (tail3 ξ) (tail3 ξ) := lt_of_lt_of_le (by norm_num) h
    have hv : vdot (vneg (tail3 ξ)) (vneg (tail3 ξ)) = vdot (tail3 ξ) (tail3 ξ) := by rw [vdot3, vdot3]; simp [vneg]
    obtain ⟨q2, q3, q5⟩ := qCoeffs_main _ h
    obtain ⟨m1, m2, -⟩ := so3_coeffs_main (vdot (tail3 ξ) (tail3 ξ)) (by linarith)
    have m1 : so3Coeff1 (vdot (tail3 ξ) (tail3 ξ)) = jacC1 (vdot (tail3 ξ) (tail3 ξ)) := m1
    have m2 : so3Coeff2 (vdot (tail3 ξ) (tail3 ξ)) = jacC2 (vdot (tail3 ξ) (tail3 ξ)) := m2
    have hrel := jac_relation hpos
    have hs := vdot3 (tail3 ξ) (tail3 ξ)
    funext i
    rw [exp_act_closed _ _ hθ]
    have f1 : ∀ φ v : Fin 3 → ℝ, mmulVec (leftJacobianSo3 φ) v = fun i => v i + so3Coeff1 (vdot φ φ) * cross φ v i +
      so3Coeff2 (vdot φ φ) * cross φ (cross φ v) i := fun φ v => funext (leftJacobian_vec φ v)
    have hd : vdot (vneg (tail3 ξ)) (vneg (head3 ξ)) = vdot (tail3 ξ) (head3 ξ) := by rw [vdot3, vdot3]; simp [vneg]
    have hd' := vdot3 (tail3 ξ) (head3 ξ)
    have hb := congrFun (hrot (head3 η)) i
    rw [exp_act_closed _ _ hθ] at hb
    have g1 := funext (qMatrix_short (vneg (head3 ξ)) (vneg (tail3 ξ)) (tail3 η))
    have g2 := funext (qMatrix_short (head3 ξ) (tail3 ξ) (tail3 η))
    rw [hv, hd, q2] at g1
    rw [q2] at g2
    have f2 := f1 (tail3 ξ) (head3 ξ)
    have f3 := f1 (tail3 ξ) (tail3 η)
    rw [m1, m2] at f2 f3
    have core := se3_right_core (tail3 ξ) (head3 ξ) (tail3 η) hs hd' hpos.ne' q3 q5 hrel
      (mmulVec (qMatrixSe3 (head3 ξ) (tail3 ξ)) (tail3 η))
      (mmulVec (qMatrixSe3 (vneg (head3 ξ)) (vneg (tail3 ξ))) (tail3 η)) (mmulVec (leftJacobianSo3 (tail3 ξ)) (tail3 η))
      (mmulVec (leftJacobianSo3 (tail3 ξ)) (head3 ξ)) g2 g1 f3 f2 i
    rw [← core, ← hb]
    generalize mmulVec (leftJacobianSo3 (vneg (tail3 ξ))) (head3 η) = u
    generalize mmulVec (qMatrixSe3 (vneg (head3 ξ)) (vneg (tail3 ξ))) (tail3 η) = v
    have hlin : ∀ p : Fin 3 → ℝ, cross p (fun i => u i + v i) = fun i => cross p u i + cross p v i := by
      intro p; funext i; fin_cases i <;> simp [cross] <;> ring
    have hlin' : ∀ p : Fin 3 → ℝ, cross p (fun i => cross p u i + cross p v i) =
        fun i => cross p (cross p u) i + cross p (cross p v) i := by
      intro p; funext i; fin_cases i <;> simp [cross] <;> ring
    rw [hlin, hlin']
    ring
  · refine b6.trans ?_
    have e2 : tail3 (mmulVec (SE3.rightJacobian ξ) η) = _ := b4
    have e3 : tail3 (mmulVec (SE3.leftJacobian ξ) η) = _ := b2
    rw [e2, e3, hact, hz, hneg.2]
    have e4 : (fun i => (0 : Fin 3 → ℝ) i + mmulVec (leftJacobianSo3 (vneg (tail3 ξ))) (tail3 η) i) =
        mmulVec (leftJacobianSo3 (vneg (tail3 ξ))) (tail3 η) := by funext i; simp
    rw [hz, e4, hrot]

/-- C101. The block inverse of the rigid-motion Jacobian is its inverse, for rotation parts between 0.013 and π. -/
theorem se3_jacobian_inverse (ξ : Fin 6 → ℝ) (h : 1 / 6000 ≤ vdot (tail3 ξ) (tail3 ξ))
    (hpi : vnorm (tail3 ξ) ≤ Real.pi) :
    mmul (SE3.leftJacobian ξ) (SE3.leftJacobianInverse ξ) = midentity 6 ∧
    mmul (SE3.rightJacobian ξ) (SE3.rightJacobianInverse ξ) = midentity 6 := by
  have key : ∀ ξ : Fin 6 → ℝ, 1 / 6000 ≤ vdot (tail3 ξ) (tail3 ξ) → vnorm (tail3 ξ) ≤ Real.pi →
      mmul (SE3.leftJacobian ξ) (SE3.leftJacobianInverse ξ) = midentity 6 := by
    intro ξ h hpi
    obtain ⟨j1, j2, -⟩ := so3_jacobian (tail3 ξ) h hpi
    unfold SE3.leftJacobian SE3.leftJacobianInverse
    dsimp only
    generalize leftJacobianSo3 (tail3 ξ) = J at *
    generalize inverseLeftJacobianSo3 (tail3 ξ) = K at *
    generalize qMatrixSe3 (head3 ξ) (tail3 ξ) = Q at *
    rw [mmul_eq, midentity_eq] at j1 j2 ⊢
    have e : (fun i j => -(mmul (mmul K Q) K i j) : Matrix (Fin 3) (Fin 3) ℝ) = -(K * Q * K) := by
      rw [mmul_eq, mmul_eq]; rfl
    rw [e]
    have hb : ∀ a b c d a' b' c' d' : Matrix (Fin 3) (Fin 3) ℝ, blocks a b c d * blocks a' b' c' d' =
        blocks (a * a' + b * c') (a * b' + b * d') (c * a' + d * c') (c * b' + d * d') := by
      intro a b c d a' b' c' d'
      ext i j
      fin_cases i <;> fin_cases j <;> simp [blocks, Matrix.mul_apply, Fin.sum_univ_succ] <;> ring
    have h1 : blocks (1 : Matrix (Fin 3) (Fin 3) ℝ) 0 0 1 = 1 := by
      ext i j
      fin_cases i <;> fin_cases j <;> simp [blocks, Matrix.one_apply]
    refine (hb J Q 0 J K (-(K * Q * K)) 0 K).trans ?_
    rw [j1, ← h1]
    congr 1
    · rw [Matrix.mul_zero, add_zero]
    · rw [Matrix.mul_neg, ← Matrix.mul_assoc, ← Matrix.mul_assoc, j1, Matrix.one_mul, neg_add_cancel]
    · rw [Matrix.zero_mul, Matrix.mul_zero, add_zero]
    · rw [Matrix.zero_mul, zero_add]
  refine ⟨key ξ h hpi, key (vneg ξ) ?_ ?_⟩
  · have : vdot (tail3 (vneg ξ)) (tail3 (vneg ξ)) = vdot (tail3 ξ) (tail3 ξ) := by
      rw [vdot3, vdot3]; simp [tail3, vneg]
    rw [this]; exact h
  · have : vnorm (tail3 (vneg ξ)) = vnorm (tail3 ξ) := by
      have e : vdot (tail3 (vneg ξ)) (tail3 (vneg ξ)) = vdot (tail3 ξ) (tail3 ξ) := by
        rw [vdot3, vdot3]; simp [tail3, vneg]
      exact congrArg Real.sqrt e
    rw [this]; exact hpi

/-- A screw with a turn of one radian meets the hypotheses. -/
example : 1 / 390 < vdot (tail3 ![(1 : ℝ), 2, 3, 0, 0, 1]) (tail3 ![(1 : ℝ), 2, 3, 0, 0, 1]) ∧
    vnorm (tail3 ![(1 : ℝ), 2, 3, 0, 0, 1]) ≤ Real.pi := by
  have e : vdot (tail3 ![(1 : ℝ), 2, 3, 0, 0, 1]) (tail3 ![(1 : ℝ), 2, 3, 0, 0, 1]) = 1 := by
    rw [vdot3]; simp [tail3]
  refine ⟨by rw [e]; norm_num, ?_⟩
  have : vnorm (tail3 ![(1 : ℝ), 2, 3, 0, 0, 1]) = Real.sqrt 1 := congrArg Real.sqrt e
  rw [this, Real.sqrt_one]
  linarith [Real.pi_gt_three]

end Multicalc
