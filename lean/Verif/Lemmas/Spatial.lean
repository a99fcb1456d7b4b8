import Verif.Model.Spatial
import Verif.Props.LinearAlgebra
import Mathlib.Analysis.SpecialFunctions.Complex.Arg
import Mathlib.Analysis.SpecialFunctions.Trigonometric.Bounds

/-!
# Lemmas about quaternions and rotations over the reals
-/

namespace Multicalc

theorem vdot3 (a b : Fin 3 → ℝ) : vdot a b = a 0 * b 0 + a 1 * b 1 + a 2 * b 2 := by
  rw [vdot_eq, dotProduct, Fin.sum_univ_three]

theorem vdot2 (a b : Fin 2 → ℝ) : vdot a b = a 0 * b 0 + a 1 * b 1 := by
  rw [vdot_eq, dotProduct, Fin.sum_univ_two]

theorem real_lit (q : ℚ) : (Fns.lit q : ℝ) = (q : ℝ) := rfl

theorem half_real : (half : ℝ) = 1 / 2 := by simp [half]

theorem transformPoint_explicit (q : Quat ℝ) (p : Fin 3 → ℝ) : q.transformPoint p =
    ![(q.w ^ 2 + q.x ^ 2 - q.y ^ 2 - q.z ^ 2) * p 0 + 2 * (q.x * q.y - q.w * q.z) * p 1 +
        2 * (q.x * q.z + q.w * q.y) * p 2,
      2 * (q.x * q.y + q.w * q.z) * p 0 + (q.w ^ 2 - q.x ^ 2 + q.y ^ 2 - q.z ^ 2) * p 1 +
        2 * (q.y * q.z - q.w * q.x) * p 2,
      2 * (q.x * q.z - q.w * q.y) * p 0 + 2 * (q.y * q.z + q.w * q.x) * p 1 +
        (q.w ^ 2 - q.x ^ 2 - q.y ^ 2 + q.z ^ 2) * p 2] := by
  funext i
  fin_cases i <;> simp [Quat.transformPoint, Quat.mul, Quat.conjugate] <;> ring

theorem atan2_polar {r θ : ℝ} (hr : 0 < r) (h1 : -Real.pi < θ) (h2 : θ ≤ Real.pi) :
    Fns.atan2 (r * Real.sin θ) (r * Real.cos θ) = θ := by
  have h := Complex.arg_mul_cos_add_sin_mul_I hr ⟨h1, h2⟩
  change Complex.arg ⟨r * Real.cos θ, r * Real.sin θ⟩ = θ
  refine Eq.trans (congrArg Complex.arg ?_) h
  apply Complex.ext <;> simp [Complex.cos_ofReal_re, Complex.sin_ofReal_re]

theorem atan2_cos {x y : ℝ} (h : 0 < x ^ 2 + y ^ 2) :
    Real.sqrt (x ^ 2 + y ^ 2) * Real.cos (Fns.atan2 y x) = x ∧
    Real.sqrt (x ^ 2 + y ^ 2) * Real.sin (Fns.atan2 y x) = y := by
  have hn : ‖(⟨x, y⟩ : ℂ)‖ = Real.sqrt (x ^ 2 + y ^ 2) := by
    rw [Complex.norm_def, Complex.normSq_mk]; ring_nf
  have h0 : (⟨x, y⟩ : ℂ) ≠ 0 := by
    intro hz
    have h1 : x = 0 := congrArg Complex.re hz
    have h2 : y = 0 := congrArg Complex.im hz
    rw [h1, h2] at h
    norm_num at h
  have hp : 0 < Real.sqrt (x ^ 2 + y ^ 2) := Real.sqrt_pos.2 h
  change _ * Real.cos (Complex.arg ⟨x, y⟩) = _ ∧ _ * Real.sin (Complex.arg ⟨x, y⟩) = _
  rw [Complex.cos_arg h0, Complex.sin_arg, hn]
  constructor <;> field_simp

theorem atan2_mem (y x : ℝ) : -Real.pi < Fns.atan2 y x ∧ Fns.atan2 y x ≤ Real.pi :=
  ⟨Complex.neg_pi_lt_arg _, Complex.arg_le_pi _⟩

theorem atan2_nonneg {y x : ℝ} (h : 0 ≤ y) : 0 ≤ Fns.atan2 y x := Complex.arg_nonneg_iff.2 h

theorem atan2_le_half {y x : ℝ} (h : 0 ≤ x) : |Fns.atan2 y x| ≤ Real.pi / 2 :=
  Complex.abs_arg_le_pi_div_two_iff.2 h

end Multicalc
