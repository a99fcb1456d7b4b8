import Verif.Lemmas.Spatial
import Mathlib.Tactic

/-!
# Quaternions
-/

namespace Multicalc

/-- The quaternion has unit norm. -/
def Quat.IsUnit (q : Quat ℝ) : Prop := q.w ^ 2 + q.x ^ 2 + q.y ^ 2 + q.z ^ 2 = 1

theorem Quat.isUnit_iff (q : Quat ℝ) : q.IsUnit ↔ q.norm = 1 := by
  rw [Quat.norm, real_sqrt, Real.sqrt_eq_one, Quat.normSquared, Quat.IsUnit]
  constructor <;> intro h <;> linarith

/-- C44. The quaternion operations form the Hamilton algebra: the product is associative and
distributes, the identity is neutral, the conjugate reverses products, the norm is multiplicative,
and every quaternion of nonzero norm has the inverse `inverse` returns. -/
theorem quaternion_algebra (p q r : Quat ℝ) :
    (p.mul q).mul r = p.mul (q.mul r) ∧
    p.mul (q.add r) = (p.mul q).add (p.mul r) ∧ (p.add q).mul r = (p.mul r).add (q.mul r) ∧
    Quat.identity.mul p = p ∧ p.mul Quat.identity = p ∧
    (p.mul q).conjugate = q.conjugate.mul p.conjugate ∧
    (p.mul q).normSquared = p.normSquared * q.normSquared ∧
    (p.mul q).norm = p.norm * q.norm ∧
    p.conjugate.mul p = ⟨p.normSquared, 0, 0, 0⟩ ∧
    (p.norm ≠ 0 → p.mul p.inverse = Quat.identity ∧ p.inverse.mul p = Quat.identity) ∧
    (p.norm ≠ 0 → p.normalized.norm = 1) := by
  have hn : (p.mul q).normSquared = p.normSquared * q.normSquared := by
    simp only [Quat.normSquared, Quat.mul]; ring
  have hnn : ∀ s : Quat ℝ, 0 ≤ s.normSquared := fun s => by
    simp only [Quat.normSquared]; nlinarith [mul_self_nonneg s.w, mul_self_nonneg s.x, mul_self_nonneg s.y, mul_self_nonneg s.z]
  have hne : p.norm ≠ 0 → p.normSquared ≠ 0 := by
    intro h h0
    rw [Quat.norm, real_sqrt, h0, Real.sqrt_zero] at h
    exact h rfl
  refine ⟨?_, ?_, ?_, ?_, ?_, ?_, hn, ?_, ?_, ?_, ?_⟩
  · ext <;> simp only [Quat.mul] <;> ring
  · ext <;> simp only [Quat.mul, Quat.add] <;> ring
  · ext <;> simp only [Quat.mul, Quat.add] <;> ring
  · ext <;> simp [Quat.mul, Quat.identity]
  · ext <;> simp [Quat.mul, Quat.identity]
  · ext <;> simp only [Quat.mul, Quat.conjugate] <;> ring
  · rw [Quat.norm, Quat.norm, Quat.norm, hn, real_sqrt, real_sqrt, real_sqrt, Real.sqrt_mul (hnn p)]
  · ext <;> simp only [Quat.mul, Quat.conjugate, Quat.normSquared] <;> ring
  · intro h
    have h0 : p.w ^ 2 + p.x ^ 2 + p.y ^ 2 + p.z ^ 2 ≠ 0 := by
      have := hne h
      simp only [Quat.normSquared] at this
      intro h1
      exact this (by linarith)
    constructor
    · ext <;> simp only [Quat.mul, Quat.inverse, Quat.scale, Quat.conjugate, Quat.normSquared,
        Quat.identity] <;> field_simp [h0] <;> ring
    · ext <;> simp only [Quat.mul, Quat.inverse, Quat.scale, Quat.conjugate, Quat.normSquared,
        Quat.identity] <;> field_simp [h0] <;> ring
  · intro h
    rw [← Quat.isUnit_iff, Quat.IsUnit]
    have h2 : p.norm * p.norm = p.normSquared := by
      rw [Quat.norm, real_sqrt]; exact Real.mul_self_sqrt (hnn p)
    have e : p.normalized.w ^ 2 + p.normalized.x ^ 2 + p.normalized.y ^ 2 + p.normalized.z ^ 2 =
        p.normSquared / (p.norm * p.norm) := by
      simp only [Quat.normalized, Quat.scale, Quat.normSquared]
      field_simp
    rw [e, h2, div_self (hne h)]

/-- The inverse clauses apply to any quaternion that is not zero. -/
example : (Quat.mk 0 3 0 4 : Quat ℝ).norm ≠ 0 := by
  rw [Quat.norm, real_sqrt]
  simp only [Quat.normSquared]
  exact (Real.sqrt_pos.2 (by norm_num)).ne'

/-- C44. Rotating by a product is rotating by the right factor first and the left one second; a unit
quaternion preserves sums, scalings, dot products, lengths and cross products (so orientation), its
negative is the same rotation, and `inverse_transform_point` undoes the rotation in both orders. -/
theorem rotation_laws (p q : Quat ℝ) (v w : Fin 3 → ℝ) (s : ℝ) (hq : q.IsUnit) :
    (p.mul q).transformPoint v = p.transformPoint (q.transformPoint v) ∧
    q.transformPoint (vadd v w) = vadd (q.transformPoint v) (q.transformPoint w) ∧
    q.transformPoint (vscaleBy v s) = vscaleBy (q.transformPoint v) s ∧
    vdot (q.transformPoint v) (q.transformPoint w) = vdot v w ∧
    vnorm (q.transformPoint v) = vnorm v ∧
    cross (q.transformPoint v) (q.transformPoint w) = q.transformPoint (cross v w) ∧
    q.neg.transformPoint v = q.transformPoint v ∧
    q.inverseTransformPoint (q.transformPoint v) = v ∧
    q.transformPoint (q.inverseTransformPoint v) = v := by
  rw [Quat.IsUnit] at hq
  have hdot : ∀ a b : Fin 3 → ℝ, vdot (q.transformPoint a) (q.transformPoint b) = vdot a b := by
    intro a b
    rw [vdot3, vdot3, transformPoint_explicit, transformPoint_explicit]
    simp only [Matrix.cons_val_zero, Matrix.cons_val_one, Matrix.cons_val]
    linear_combination (a 0 * b 0 + a 1 * b 1 + a 2 * b 2) *
      (q.w ^ 2 + q.x ^ 2 + q.y ^ 2 + q.z ^ 2 + 1) * hq
  refine ⟨?_, ?_, ?_, hdot v w, ?_, ?_, ?_, ?_, ?_⟩
  · funext i
    simp only [transformPoint_explicit]
    fin_cases i <;> simp [Quat.mul] <;> ring
  · funext i
    simp only [transformPoint_explicit]
    fin_cases i <;> simp [vadd] <;> ring
  · funext i
    simp only [transformPoint_explicit]
    fin_cases i <;> simp [vscaleBy] <;> ring
  · rw [vnorm, vnorm, vnormSquared, vnormSquared, hdot]
  · have h2 : (q.w ^ 2 + q.x ^ 2 + q.y ^ 2 + q.z ^ 2) = 1 := hq
    funext i
    simp only [transformPoint_explicit]
    fin_cases i
    · simp [cross]
      linear_combination ((q.w ^ 2 + q.x ^ 2 - q.y ^ 2 - q.z ^ 2) * (v 1 * w 2 - v 2 * w 1) +
        2 * (q.x * q.y - q.w * q.z) * (v 2 * w 0 - v 0 * w 2) +
        2 * (q.x * q.z + q.w * q.y) * (v 0 * w 1 - v 1 * w 0)) * h2
    · simp [cross]
      linear_combination (2 * (q.x * q.y + q.w * q.z) * (v 1 * w 2 - v 2 * w 1) +
        (q.w ^ 2 - q.x ^ 2 + q.y ^ 2 - q.z ^ 2) * (v 2 * w 0 - v 0 * w 2) +
        2 * (q.y * q.z - q.w * q.x) * (v 0 * w 1 - v 1 * w 0)) * h2
    · simp [cross]
      linear_combination (2 * (q.x * q.z - q.w * q.y) * (v 1 * w 2 - v 2 * w 1) +
        2 * (q.y * q.z + q.w * q.x) * (v 2 * w 0 - v 0 * w 2) +
        (q.w ^ 2 - q.x ^ 2 - q.y ^ 2 + q.z ^ 2) * (v 0 * w 1 - v 1 * w 0)) * h2
  · funext i
    simp only [transformPoint_explicit]
    fin_cases i <;> simp [Quat.neg]
  · funext i
    simp only [Quat.inverseTransformPoint, transformPoint_explicit]
    fin_cases i <;> simp [Quat.conjugate]
    · linear_combination (v 0) * (q.w ^ 2 + q.x ^ 2 + q.y ^ 2 + q.z ^ 2 + 1) * hq
    · linear_combination (v 1) * (q.w ^ 2 + q.x ^ 2 + q.y ^ 2 + q.z ^ 2 + 1) * hq
    · linear_combination (v 2) * (q.w ^ 2 + q.x ^ 2 + q.y ^ 2 + q.z ^ 2 + 1) * hq
  · funext i
    simp only [Quat.inverseTransformPoint, transformPoint_explicit]
    fin_cases i <;> simp [Quat.conjugate]
    · linear_combination (v 0) * (q.w ^ 2 + q.x ^ 2 + q.y ^ 2 + q.z ^ 2 + 1) * hq
    · linear_combination (v 1) * (q.w ^ 2 + q.x ^ 2 + q.y ^ 2 + q.z ^ 2 + 1) * hq
    · linear_combination (v 2) * (q.w ^ 2 + q.x ^ 2 + q.y ^ 2 + q.z ^ 2 + 1) * hq

example : (Quat.mk (3 / 5) 0 (4 / 5) 0 : Quat ℝ).IsUnit := by norm_num [Quat.IsUnit]

end Multicalc
