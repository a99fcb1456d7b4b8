import Verif.Model.PlanarJacobian
import Verif.Props.Lie
import Mathlib.Analysis.Calculus.Deriv.Add
import Mathlib.Analysis.Calculus.Deriv.Mul
import Mathlib.Analysis.Calculus.Deriv.Inv
import Mathlib.Analysis.SpecialFunctions.Trigonometric.Deriv

/-!
# The Jacobians of the planar exponential map
-/

namespace Multicalc

open Matrix

/-- The coefficients of the translation part move as the coupling coefficients say. -/
theorem se2_coeffs_deriv (ω : ℝ) (h : ω = 0 ∨ 30 / 2 ^ 52 < |ω|) :
    HasDerivAt (fun w => (SE2.vCoeffs w).1) ((SE2.couplingCoeffs ω).2 - (SE2.vCoeffs ω).2) ω ∧
    HasDerivAt (fun w => (SE2.vCoeffs w).2) ((SE2.vCoeffs ω).1 - (SE2.couplingCoeffs ω).1) ω := by
  rcases h with h | h
  · subst h
    have hp : (0 : ℝ) < smallAngleSq := by simpa using (lt_smallAngleSq_scalar 0).2 (by simp)
    have hev : ∀ᶠ w : ℝ in nhds 0, |w| < 30 / 2 ^ 52 :=
      (continuous_abs.tendsto 0).eventually_lt_const (by simp)
    have h2 : HasDerivAt (fun w : ℝ => w * w) (1 * 0 + 0 * 1) 0 := (hasDerivAt_id (0 : ℝ)).mul (hasDerivAt_id (0 : ℝ))
    constructor
    · have hd := (h2.div_const 6).const_sub 1
      refine (hd.congr_of_eventuallyEq ?_).congr_deriv ?_
      · filter_upwards [hev] with w hw
        simp [SE2.vCoeffs, if_pos ((lt_smallAngleSq_scalar w).2 hw), real_lit]
      · simp [SE2.vCoeffs, SE2.couplingCoeffs, if_pos hp]
    · have hd := (hasDerivAt_id (0 : ℝ)).mul ((h2.div_const 24).const_sub (1 / 2))
      refine (hd.congr_of_eventuallyEq ?_).congr_deriv ?_
      · filter_upwards [hev] with w hw
        simp [SE2.vCoeffs, if_pos ((lt_smallAngleSq_scalar w).2 hw), real_lit, half_real]
      · simp [SE2.vCoeffs, SE2.couplingCoeffs, if_pos hp, half_real]
        norm_num
  · have hw : ω ≠ 0 := by
      intro h0; rw [h0, abs_zero] at h; norm_num at h
    have hn : ¬ ω * ω < smallAngleSq := by rw [lt_smallAngleSq_scalar]; exact not_lt.2 h.le
    have hev : ∀ᶠ w : ℝ in nhds ω, 30 / 2 ^ 52 < |w| :=
      (continuous_abs.tendsto ω).eventually_const_lt h
    have hb : ∀ w : ℝ, 30 / 2 ^ 52 < |w| → ¬ w * w < smallAngleSq := fun w hw => by
      rw [lt_smallAngleSq_scalar]; exact not_lt.2 hw.le
    constructor
    · have hd := (Real.hasDerivAt_sin ω).div (hasDerivAt_id ω) hw
      refine (hd.congr_of_eventuallyEq ?_).congr_deriv ?_
      · filter_upwards [hev] with w hw
        simp [SE2.vCoeffs, if_neg (hb w hw), Fns.sin]
      · simp [SE2.vCoeffs, SE2.couplingCoeffs, if_neg hn, Fns.sin, Fns.cos]
        field_simp
        ring
    · have hd := ((Real.hasDerivAt_cos ω).const_sub 1).div (hasDerivAt_id ω) hw
      refine (hd.congr_of_eventuallyEq ?_).congr_deriv ?_
      · filter_upwards [hev] with w hw
        simp [SE2.vCoeffs, if_neg (hb w hw), Fns.cos]
      · simp [SE2.vCoeffs, SE2.couplingCoeffs, if_neg hn, Fns.sin, Fns.cos]
        field_simp

/-- C101. The left Jacobian of the planar exponential is its derivative: for every twist that does not turn at all or
turns by more than the switch to the series, moving `ξ` in the direction `η` moves every point with the velocity that
the twist `left_jacobian(ξ) η` gives to its image. -/
theorem se2_left_jacobian_derivative (ξ : Fin 3 → ℝ) (h : ξ 2 = 0 ∨ 30 / 2 ^ 52 < |ξ 2|) (η : Fin 3 → ℝ)
    (v : Fin 2 → ℝ) :
    let ζ := mmulVec (SE2.leftJacobian ξ) η
    HasDerivAt (fun t => (SE2.exp fun k => ξ k + t * η k).act v 0) (ζ 0 - ζ 2 * (SE2.exp ξ).act v 1) 0 ∧
    HasDerivAt (fun t => (SE2.exp fun k => ξ k + t * η k).act v 1) (ζ 1 + ζ 2 * (SE2.exp ξ).act v 0) 0 := by
  intro ζ
  obtain ⟨ha, hb⟩ := se2_coeffs_deriv (ξ 2) h
  have hl : ∀ k, HasDerivAt (fun t : ℝ => ξ k + t * η k) (η k) 0 := fun k => by
    simpa using ((hasDerivAt_id (0 : ℝ)).mul_const (η k)).const_add (ξ k)
  have hz : ξ 2 = (fun t : ℝ => ξ 2 + t * η 2) 0 := by simp
  rw [hz] at ha hb
  have hA := ha.comp (0 : ℝ) (hl 2)
  have hB := hb.comp (0 : ℝ) (hl 2)
  have hc := (hl 2).cos
  have hs := (hl 2).sin
  have e : ζ = mmulVec (SE2.leftJacobian ξ) η := rfl
  rw [mmulVec_eq] at e
  constructor
  · have hd := ((hc.mul_const (v 0)).sub (hs.mul_const (v 1))).add ((hA.mul (hl 0)).sub (hB.mul (hl 1)))
    refine (hd.congr_of_eventuallyEq ?_).congr_deriv ?_
    · refine Filter.Eventually.of_forall fun t => ?_
      simp [SE2.exp, SE2.act, SO2.act, SO2.exp, vadd, Fns.sin, Fns.cos]
    · rw [e]
      simp [SE2.exp, SE2.act, SO2.act, SO2.exp, vadd, Fns.sin, Fns.cos, SE2.leftJacobian, Matrix.mulVec, dotProduct,
        Fin.sum_univ_three]
      ring
  · have hd := ((hs.mul_const (v 0)).add (hc.mul_const (v 1))).add ((hB.mul (hl 0)).add (hA.mul (hl 1)))
    refine (hd.congr_of_eventuallyEq ?_).congr_deriv ?_
    · refine Filter.Eventually.of_forall fun t => ?_
      simp [SE2.exp, SE2.act, SO2.act, SO2.exp, vadd, Fns.sin, Fns.cos]
    · rw [e]
      simp [SE2.exp, SE2.act, SO2.act, SO2.exp, vadd, Fns.sin, Fns.cos, SE2.leftJacobian, Matrix.mulVec, dotProduct,
        Fin.sum_univ_three]
      ring

/-- C101. The right Jacobian of the planar exponential gives the same change as a twist felt in the moved frame: carried
over by the adjoint of `exp(ξ)` it is the left Jacobian. -/
theorem se2_right_jacobian (ξ : Fin 3 → ℝ) (h : ξ 2 = 0 ∨ 30 / 2 ^ 52 ≤ |ξ 2|) :
    mmul (SE2.exp ξ).adjoint (SE2.rightJacobian ξ) = SE2.leftJacobian ξ := by
  rw [mmul_eq]
  rcases h with h | h
  · have hp : (0 : ℝ) < smallAngleSq := by simpa using (lt_smallAngleSq_scalar 0).2 (by simp)
    ext i j
    fin_cases i <;> fin_cases j <;>
      simp [SE2.exp, SE2.adjoint, SE2.rightJacobian, SE2.leftJacobian, SE2.vCoeffs, SE2.couplingCoeffs, vneg, h, if_pos hp,
        SO2.exp, Matrix.mul_apply, Fin.sum_univ_three, Fns.sin, Fns.cos, half_real] <;> ring
  · have hw : ξ 2 ≠ 0 := by
      intro h0; rw [h0, abs_zero] at h; norm_num at h
    have hn : ¬ ξ 2 * ξ 2 < smallAngleSq := by rw [lt_smallAngleSq_scalar]; exact not_lt.2 h
    have hsc := Real.sin_sq_add_cos_sq (ξ 2)
    ext i j
    fin_cases i <;> fin_cases j <;>
      simp [SE2.exp, SE2.adjoint, SE2.rightJacobian, SE2.leftJacobian, SE2.vCoeffs, SE2.couplingCoeffs, vneg, if_neg hn,
        SO2.exp, Matrix.mul_apply, Fin.sum_univ_three, Fns.sin, Fns.cos] <;> field_simp <;> grind

/-- C101. The closed-form inverse of the planar right Jacobian is its inverse, for angles from the switch up to π. -/
theorem se2_right_jacobian_inverse (ξ : Fin 3 → ℝ) (h : 30 / 2 ^ 52 ≤ |ξ 2|) (h1 : |ξ 2| ≤ Real.pi) :
    mmul (SE2.rightJacobian ξ) (SE2.rightJacobianInverse ξ) = midentity 3 ∧
    mmul (SE2.rightJacobianInverse ξ) (SE2.rightJacobian ξ) = midentity 3 :=
  se2_jacobian_inverse (vneg ξ) (by simpa [vneg] using h) (by simpa [vneg] using h1)

example : (30 : ℝ) / 2 ^ 52 < |(![1, 2, -1] : Fin 3 → ℝ) 2| ∧ |(![1, 2, -1] : Fin 3 → ℝ) 2| ≤ Real.pi := by
  have := Real.pi_gt_three
  simp
  constructor
  · norm_num
  · linarith

end Multicalc
