import Verif.Props.Lie
import Verif.Props.Lqr

/-!
# Rigid motions of space, twists, wrenches, inertias and pure pursuit
-/

namespace Multicalc

open Matrix

/-- Equality of vectors with three entries. -/
theorem vec3_ext {a b : Fin 3 → ℝ} (h0 : a 0 = b 0) (h1 : a 1 = b 1) (h2 : a 2 = b 2) : a = b := by
  funext i; fin_cases i <;> assumption

theorem so3_act_linear (p : SO3 ℝ) (v w : Fin 3 → ℝ) :
    p.act (vadd v w) = vadd (p.act v) (p.act w) ∧ p.act (vneg v) = vneg (p.act v) ∧
    p.act (vsub v w) = vsub (p.act v) (p.act w) := by
  refine ⟨?_, ?_, ?_⟩ <;> apply vec3_ext <;>
    simp [SO3.act, transformPoint_explicit, vadd, vneg, vsub] <;> ring

/-- C46. Spatial rotations form a group acting on space by orientation-preserving isometries fixing
the origin, with a multiplicative matrix. -/
theorem so3_group (p q r : SO3 ℝ) (hp : p.quaternion.IsUnit) (hq : q.quaternion.IsUnit)
    (v w : Fin 3 → ℝ) :
    (p.compose q).quaternion.IsUnit ∧ p.inverse.quaternion.IsUnit ∧
    (p.compose q).compose r = p.compose (q.compose r) ∧
    SO3.identity.compose p = p ∧ p.compose SO3.identity = p ∧
    p.compose p.inverse = SO3.identity ∧ p.inverse.compose p = SO3.identity ∧
    (p.compose q).act v = p.act (q.act v) ∧ SO3.identity.act v = v ∧
    p.inverse.act (p.act v) = v ∧ p.act (p.inverse.act v) = v ∧
    vdot (p.act v) (p.act w) = vdot v w ∧ cross (p.act v) (p.act w) = p.act (cross v w) ∧
    (p.compose q).toMatrix = mmul p.toMatrix q.toMatrix ∧ mmulVec p.toMatrix v = p.act v ∧
    p.inverse.toMatrix = mtranspose p.toMatrix := by
  have A := quaternion_algebra p.quaternion q.quaternion r.quaternion
  have L := rotation_laws p.quaternion p.quaternion v w 0 hp
  have Lq := rotation_laws p.quaternion q.quaternion v w 0 hq
  have M := toRotationMatrix_spec p.quaternion q.quaternion hp hq v
  have Mp := toRotationMatrix_spec p.quaternion p.quaternion hp hp v
  have hp' := hp
  rw [Quat.IsUnit] at hp hq
  have hinv : p.inverse.quaternion.IsUnit := by
    rw [Quat.IsUnit]; simp only [SO3.inverse, Quat.conjugate]; linarith
  refine ⟨?_, hinv, ?_, ?_, ?_, ?_, ?_, Lq.1, ?_, L.2.2.2.2.2.2.2.1, L.2.2.2.2.2.2.2.2,
    L.2.2.2.1, L.2.2.2.2.2.1, M.2.2.2.1, Mp.2.2.1, Mp.2.2.2.2⟩
  · rw [Quat.isUnit_iff, SO3.compose, A.2.2.2.2.2.2.2.1, (Quat.isUnit_iff _).1 hp',
      (Quat.isUnit_iff _).1 (by rw [Quat.IsUnit]; exact hq), one_mul]
  · simp only [SO3.compose]; rw [A.1]
  · simp only [SO3.compose, SO3.identity]; rw [A.2.2.2.1]
  · simp only [SO3.compose, SO3.identity]; rw [A.2.2.2.2.1]
  · simp only [SO3.compose, SO3.identity, SO3.inverse]
    congr 1
    apply Quat.ext <;> simp only [Quat.mul, Quat.conjugate, Quat.identity] <;> linarith
  · simp only [SO3.compose, SO3.identity, SO3.inverse]
    congr 1
    apply Quat.ext <;> simp only [Quat.mul, Quat.conjugate, Quat.identity] <;> linarith
  · apply vec3_ext <;> simp [SO3.act, transformPoint_explicit, SO3.identity, Quat.identity]

/-- C46. Spatial rigid motions form a group acting on space by isometries; the 4×4 matrix is
multiplicative and carries homogeneous points, and reading it back gives the same motion up to the
sign of the quaternion. -/
theorem se3_group (p q r : SE3 ℝ) (hp : p.rotation.quaternion.IsUnit) (hq : q.rotation.quaternion.IsUnit)
    (v w : Fin 3 → ℝ) :
    (p.compose q).rotation.quaternion.IsUnit ∧ p.inverse.rotation.quaternion.IsUnit ∧
    (p.compose q).compose r = p.compose (q.compose r) ∧
    SE3.identity.compose p = p ∧ p.compose SE3.identity = p ∧
    p.compose p.inverse = SE3.identity ∧ p.inverse.compose p = SE3.identity ∧
    (p.compose q).act v = p.act (q.act v) ∧ SE3.identity.act v = v ∧
    p.inverse.act (p.act v) = v ∧ p.act (p.inverse.act v) = v ∧
    vnormSquared (vsub (p.act v) (p.act w)) = vnormSquared (vsub v w) ∧
    (p.compose q).toMatrix = mmul p.toMatrix q.toMatrix ∧
    mmulVec p.toMatrix ![v 0, v 1, v 2, 1] = ![p.act v 0, p.act v 1, p.act v 2, 1] ∧
    (SE3.tryFromMatrix p.toMatrix = some p ∨
      SE3.tryFromMatrix p.toMatrix = some ⟨⟨p.rotation.quaternion.neg⟩, p.translation⟩) := by
  have G := so3_group p.rotation q.rotation r.rotation hp hq v w
  have lin := so3_act_linear p.rotation
  have hact := fun u : Fin 3 → ℝ => (so3_group p.rotation q.rotation r.rotation hp hq u u)
  have vneg_add : ∀ a : Fin 3 → ℝ, vadd (vneg a) a = fun _ => 0 := by
    intro a; funext i; simp [vadd, vneg]
  refine ⟨G.1, G.2.1, ?_, ?_, ?_, ?_, ?_, ?_, ?_, ?_, ?_, ?_, ?_, ?_, ?_⟩
  · apply SE3.ext
    · exact G.2.2.1
    · simp only [SE3.compose]
      rw [(hact r.translation).2.2.2.2.2.2.2.1, (lin _ _).1]
      funext i; simp only [vadd]; ring
  · apply SE3.ext
    · exact G.2.2.2.1
    · simp only [SE3.compose, SE3.identity]
      rw [(hact p.translation).2.2.2.2.2.2.2.2.1]
      funext i; simp [vadd]
  · apply SE3.ext
    · exact G.2.2.2.2.1
    · simp only [SE3.compose, SE3.identity]
      apply vec3_ext <;> simp [SO3.act, transformPoint_explicit, vadd]
  · apply SE3.ext
    · exact G.2.2.2.2.2.1
    · simp only [SE3.compose, SE3.identity, SE3.inverse]
      rw [(lin (p.rotation.inverse.act p.translation) 0).2.1, (hact _).2.2.2.2.2.2.2.2.2.2.1]
      exact vneg_add _
  · apply SE3.ext
    · exact G.2.2.2.2.2.2.1
    · simp only [SE3.compose, SE3.identity, SE3.inverse]
      funext i; simp [vadd, vneg]
  · simp only [SE3.act, SE3.compose]
    rw [G.2.2.2.2.2.2.2.1, (lin _ _).1]
    funext i; simp only [vadd]; ring
  · simp only [SE3.act, SE3.identity]
    rw [G.2.2.2.2.2.2.2.2.1]
    funext i; simp [vadd]
  · simp only [SE3.act, SE3.inverse]
    rw [(so3_act_linear p.rotation.inverse _ _).1, G.2.2.2.2.2.2.2.2.2.1]
    funext i; simp [vadd, vneg]
  · simp only [SE3.act, SE3.inverse]
    rw [(lin _ _).1, G.2.2.2.2.2.2.2.2.2.2.1, (lin (p.rotation.inverse.act p.translation) 0).2.1,
      (hact p.translation).2.2.2.2.2.2.2.2.2.2.1]
    funext i; simp [vadd, vneg]
  · have e : vsub (p.act v) (p.act w) = p.rotation.act (vsub v w) := by
      rw [(lin v w).2.2]
      funext i; simp [SE3.act, vadd, vsub]
    rw [e, vnormSquared, vnormSquared]
    exact (so3_group p.rotation q.rotation r.rotation hp hq (vsub v w) (vsub v w)).2.2.2.2.2.2.2.2.2.2.2.1
  · have h1 := G.2.2.2.2.2.2.2.2.2.2.2.2.2.1
    have h2 := (hact q.translation).2.2.2.2.2.2.2.2.2.2.2.2.2.2.1
    rw [mmul_eq] at h1 ⊢
    rw [mmulVec_eq] at h2
    have e1 := fun i j => congrFun (congrFun h1 i) j
    have e2 := fun i => congrFun h2 i
    simp only [Matrix.mul_apply, Fin.sum_univ_three, Matrix.mulVec, dotProduct] at e1 e2
    ext i j
    fin_cases i <;> fin_cases j <;>
      simp [SE3.toMatrix, SE3.compose, vadd, Matrix.mul_apply, Fin.sum_univ_four, e1, ← e2]
  · have h2 := G.2.2.2.2.2.2.2.2.2.2.2.2.2.2.1
    rw [mmulVec_eq] at h2 ⊢
    have e2 := fun i => congrFun h2 i
    simp only [Fin.sum_univ_three, Matrix.mulVec, dotProduct] at e2
    funext i
    fin_cases i <;> simp [SE3.toMatrix, SE3.act, vadd, Matrix.mulVec, dotProduct, Fin.sum_univ_four, ← e2]
  · have M := toRotationMatrix_spec p.rotation.quaternion p.rotation.quaternion hp hp v
    obtain ⟨s, hs, hsu, hsm⟩ := so3_tryFromMatrix_rotation p.rotation.toMatrix M.1 M.2.1
    have hblock : (!![p.toMatrix 0 0, p.toMatrix 0 1, p.toMatrix 0 2;
        p.toMatrix 1 0, p.toMatrix 1 1, p.toMatrix 1 2;
        p.toMatrix 2 0, p.toMatrix 2 1, p.toMatrix 2 2] : Matrix (Fin 3) (Fin 3) ℝ) = p.rotation.toMatrix := by
      ext i j
      fin_cases i <;> fin_cases j <;> simp [SE3.toMatrix]
    have htr : (![p.toMatrix 0 3, p.toMatrix 1 3, p.toMatrix 2 3] : Fin 3 → ℝ) = p.translation := by
      funext i; fin_cases i <;> simp [SE3.toMatrix]
    have hlast : p.toMatrix 3 0 = 0 ∧ p.toMatrix 3 1 = 0 ∧ p.toMatrix 3 2 = 0 ∧ p.toMatrix 3 3 = 1 := by
      simp [SE3.toMatrix]
    have he : (epsilonX30 : ℝ) = 30 / 2 ^ 52 := smallAngle_real
    have hval : SE3.tryFromMatrix p.toMatrix = some ⟨s, p.translation⟩ := by
      unfold SE3.tryFromMatrix
      rw [hblock, hs, htr]
      simp only [hlast.1, hlast.2.1, hlast.2.2.1, hlast.2.2.2, Fns.isFinite, he, real_abs]
      norm_num
    rw [hval]
    rcases quat_eq_of_matrix hsu hp hsm with h | h
    · left; congr 1
      exact SE3.ext (SO3.ext h) rfl
    · right; congr 1
      exact SE3.ext (SO3.ext h) rfl

example : (Quat.mk (1 / 2) (1 / 2) (1 / 2) (-1 / 2) : Quat ℝ).IsUnit ∧
    (Quat.mk (4 / 5) 0 0 (3 / 5) : Quat ℝ).IsUnit := by
  constructor <;> rw [Quat.IsUnit] <;> norm_num

/-! ### Twists and wrenches -/

theorem dot_cross_swap (a b c : Fin 3 → ℝ) : vdot (cross a b) c = -vdot b (cross a c) := by
  rw [vdot3, vdot3]; simp [cross]; ring

/-- C48. Twists and wrenches change frame consistently: the two transports are actions of the group,
are undone by their inverse forms, agree with the 6×6 adjoint matrices, and leave the power of a
wrench on a twist unchanged. -/
theorem twist_wrench_transport (p q : SE3 ℝ) (hp : p.rotation.quaternion.IsUnit)
    (hq : q.rotation.quaternion.IsUnit) (v : Twist ℝ) (f : Wrench ℝ) :
    (p.compose q).actTwist v = p.actTwist (q.actTwist v) ∧
    (p.compose q).actWrench f = p.actWrench (q.actWrench f) ∧
    p.inverseActTwist (p.actTwist v) = v ∧ p.actTwist (p.inverseActTwist v) = v ∧
    p.inverseActWrench (p.actWrench f) = f ∧ p.actWrench (p.inverseActWrench f) = f ∧
    p.inverse.actTwist v = p.inverseActTwist v ∧ p.inverse.actWrench f = p.inverseActWrench f ∧
    (p.actTwist v).dotWrench (p.actWrench f) = v.dotWrench f := by
  have hG := fun a b : Fin 3 → ℝ => so3_group p.rotation q.rotation p.rotation hp hq a b
  have hinv := (hG 0 0).2.1
  have hGi := fun a b : Fin 3 → ℝ => so3_group p.rotation.inverse p.rotation p.rotation hinv hp a b
  have comp := fun a => (hG a a).2.2.2.2.2.2.2.1
  have ia := fun a => (hG a a).2.2.2.2.2.2.2.2.2.1
  have ai := fun a => (hG a a).2.2.2.2.2.2.2.2.2.2.1
  have dotp := fun a b => (hG a b).2.2.2.2.2.2.2.2.2.2.2.1
  have crs := fun a b => (hG a b).2.2.2.2.2.2.2.2.2.2.2.2.1
  have crsi := fun a b => (hGi a b).2.2.2.2.2.2.2.2.2.2.2.2.1
  have lin := so3_act_linear p.rotation
  have lini := so3_act_linear p.rotation.inverse
  have cadd : ∀ a b c : Fin 3 → ℝ, cross (vadd a b) c = vadd (cross a c) (cross b c) := by
    intro a b c; apply vec3_ext <;> simp [cross, vadd] <;> ring
  refine ⟨?_, ?_, ?_, ?_, ?_, ?_, ?_, ?_, ?_⟩
  · apply Twist.ext
    · simp only [SE3.actTwist, SE3.compose]
      rw [comp, comp, cadd, (lin _ _).1, ← crs]
      funext i; simp only [vadd]; ring
    · simp only [SE3.actTwist, SE3.compose]; rw [comp]
  · apply Wrench.ext
    · simp only [SE3.actWrench, SE3.compose]; rw [comp]
    · simp only [SE3.actWrench, SE3.compose]
      rw [comp, comp, cadd, (lin _ _).1, ← crs]
      funext i; simp only [vadd]; ring
  · apply Twist.ext
    · simp only [SE3.actTwist, SE3.inverseActTwist]
      rw [show vsub (vadd (p.rotation.act v.linear) (cross p.translation (p.rotation.act v.angular)))
        (cross p.translation (p.rotation.act v.angular)) = p.rotation.act v.linear by
          funext i; simp [vsub, vadd], ia]
    · simp only [SE3.actTwist, SE3.inverseActTwist]; rw [ia]
  · apply Twist.ext
    · simp only [SE3.actTwist, SE3.inverseActTwist]
      rw [ai, ai]
      funext i; simp [vsub, vadd]
    · simp only [SE3.actTwist, SE3.inverseActTwist]; rw [ai]
  · apply Wrench.ext
    · simp only [SE3.actWrench, SE3.inverseActWrench]; rw [ia]
    · simp only [SE3.actWrench, SE3.inverseActWrench]
      rw [show vsub (vadd (p.rotation.act f.torque) (cross p.translation (p.rotation.act f.force)))
        (cross p.translation (p.rotation.act f.force)) = p.rotation.act f.torque by
          funext i; simp [vsub, vadd], ia]
  · apply Wrench.ext
    · simp only [SE3.actWrench, SE3.inverseActWrench]; rw [ai]
    · simp only [SE3.actWrench, SE3.inverseActWrench]
      rw [ai, ai]
      funext i; simp [vsub, vadd]
  · apply Twist.ext
    · simp only [SE3.actTwist, SE3.inverseActTwist, SE3.inverse]
      rw [(lini _ _).2.2, ← crsi]
      apply vec3_ext <;> simp [vsub, vadd, vneg, cross] <;> ring
    · rfl
  · apply Wrench.ext
    · rfl
    · simp only [SE3.actWrench, SE3.inverseActWrench, SE3.inverse]
      rw [(lini _ _).2.2, ← crsi]
      apply vec3_ext <;> simp [vsub, vadd, vneg, cross] <;> ring
  · simp only [SE3.actTwist, SE3.actWrench, Twist.dotWrench]
    have e1 : ∀ a b c : Fin 3 → ℝ, vdot (vadd a b) c = vdot a c + vdot b c := by
      intro a b c; simp only [vdot3, vadd]; ring
    have e2 : ∀ a b c : Fin 3 → ℝ, vdot a (vadd b c) = vdot a b + vdot a c := by
      intro a b c; simp only [vdot3, vadd]; ring
    rw [e1, e2, dotp, dotp, dot_cross_swap]
    ring

theorem skew3_mulVec (t v : Fin 3 → ℝ) : mmulVec (skew3 t) v = cross t v := by
  rw [mmulVec_eq]
  apply vec3_ext <;> simp [skew3, cross, Matrix.mulVec, dotProduct, Fin.sum_univ_three] <;> ring

/-- Multiplying a block matrix by a stacked vector. -/
theorem blocks_mulVec (a b c d : Matrix (Fin 3) (Fin 3) ℝ) (x y : Fin 3 → ℝ) :
    mmulVec (blocks a b c d) ![x 0, x 1, x 2, y 0, y 1, y 2] =
      ![vadd (mmulVec a x) (mmulVec b y) 0, vadd (mmulVec a x) (mmulVec b y) 1,
        vadd (mmulVec a x) (mmulVec b y) 2, vadd (mmulVec c x) (mmulVec d y) 0,
        vadd (mmulVec c x) (mmulVec d y) 1, vadd (mmulVec c x) (mmulVec d y) 2] := by
  simp only [mmulVec_eq]
  funext i
  fin_cases i <;> simp [blocks, vadd, Matrix.mulVec, dotProduct, Fin.sum_univ_three, Fin.sum_univ_six] <;>
    first | ring | (simp [Fin.sum_univ_succ]; ring)

/-- C48. The 6×6 adjoint carries twists and the force adjoint carries wrenches exactly as the
structured transports do. -/
theorem adjoint_spec (p : SE3 ℝ) (hp : p.rotation.quaternion.IsUnit) (v : Twist ℝ) (f : Wrench ℝ) :
    mmulVec p.adjoint v.toVector = (p.actTwist v).toVector ∧
    mmulVec p.forceAdjoint f.toVector = (p.actWrench f).toVector := by
  have hG := fun a b : Fin 3 → ℝ => so3_group p.rotation p.rotation p.rotation hp hp a b
  have mv := fun a => (hG a a).2.2.2.2.2.2.2.2.2.2.2.2.2.2.1
  have hsk : ∀ a : Fin 3 → ℝ, mmulVec (mmul (skew3 p.translation) p.rotation.toMatrix) a =
      cross p.translation (p.rotation.act a) := by
    intro a
    rw [← skew3_mulVec, ← mv]
    simp only [mmulVec_eq, mmul_eq, Matrix.mulVec_mulVec]
  have hz : ∀ a : Fin 3 → ℝ, mmulVec (fun _ _ => 0 : Matrix (Fin 3) (Fin 3) ℝ) a = fun _ => 0 := by
    intro a
    have := mmulVec_eq (0 : Matrix (Fin 3) (Fin 3) ℝ) a
    rw [Matrix.zero_mulVec] at this
    exact this
  constructor
  · unfold SE3.adjoint Twist.toVector
    dsimp only
    refine Eq.trans (blocks_mulVec _ _ _ _ v.linear v.angular) ?_
    rw [hsk, mv, mv, hz]
    funext i; fin_cases i <;> simp [SE3.actTwist, vadd]
  · unfold SE3.forceAdjoint Wrench.toVector
    dsimp only
    refine Eq.trans (blocks_mulVec _ _ _ _ f.force f.torque) ?_
    rw [hsk, mv, mv, hz]
    funext i; fin_cases i <;> simp [SE3.actWrench, vadd] <;> ring

theorem matrix_ext_mulVec {n : ℕ} {a b : Matrix (Fin n) (Fin n) ℝ}
    (h : ∀ v, mmulVec a v = mmulVec b v) : a = b := by
  apply Matrix.mulVec_injective
  funext v
  have := h v
  rwa [mmulVec_eq, mmulVec_eq] at this

/-- C48. The adjoint and the force adjoint of a composition are the products of the adjoints, and the
force adjoint is the inverse transpose of the adjoint. -/
theorem adjoint_multiplicative (p q : SE3 ℝ) (hp : p.rotation.quaternion.IsUnit)
    (hq : q.rotation.quaternion.IsUnit) :
    (p.compose q).adjoint = mmul p.adjoint q.adjoint ∧
    (p.compose q).forceAdjoint = mmul p.forceAdjoint q.forceAdjoint ∧
    mmul (mtranspose p.adjoint) p.forceAdjoint = midentity 6 := by
  have hc := (se3_group p q p hp hq 0 0).1
  have tv : ∀ x : Fin 6 → ℝ, ∃ v : Twist ℝ, v.toVector = x := fun x =>
    ⟨⟨![x 0, x 1, x 2], ![x 3, x 4, x 5]⟩, by funext i; fin_cases i <;> rfl⟩
  have wv : ∀ x : Fin 6 → ℝ, ∃ v : Wrench ℝ, v.toVector = x := fun x =>
    ⟨⟨![x 0, x 1, x 2], ![x 3, x 4, x 5]⟩, by funext i; fin_cases i <;> rfl⟩
  have mm : ∀ (a b : Matrix (Fin 6) (Fin 6) ℝ) (x : Fin 6 → ℝ), mmulVec (mmul a b) x = mmulVec a (mmulVec b x) := by
    intro a b x; simp only [mmulVec_eq, mmul_eq, Matrix.mulVec_mulVec]
  have dotv : ∀ (v : Twist ℝ) (f : Wrench ℝ), vdot v.toVector f.toVector = v.dotWrench f := by
    intro v f
    rw [vdot_eq, Twist.dotWrench, vdot3, vdot3]
    simp [dotProduct, Fin.sum_univ_six, Twist.toVector, Wrench.toVector]
    ring
  refine ⟨?_, ?_, ?_⟩
  · apply matrix_ext_mulVec
    intro x
    obtain ⟨v, rfl⟩ := tv x
    rw [mm, (adjoint_spec _ hc v ⟨0, 0⟩).1, (adjoint_spec q hq v ⟨0, 0⟩).1, (adjoint_spec p hp _ ⟨0, 0⟩).1,
      (twist_wrench_transport p q hp hq v ⟨0, 0⟩).1]
  · apply matrix_ext_mulVec
    intro x
    obtain ⟨f, rfl⟩ := wv x
    rw [mm, (adjoint_spec _ hc ⟨0, 0⟩ f).2, (adjoint_spec q hq ⟨0, 0⟩ f).2, (adjoint_spec p hp ⟨0, 0⟩ _).2,
      (twist_wrench_transport p q hp hq ⟨0, 0⟩ f).2.1]
  · rw [mmul_eq, midentity_eq]
    change p.adjointᵀ * p.forceAdjoint = 1
    have key : ∀ x y : Fin 6 → ℝ, x ⬝ᵥ ((p.adjointᵀ * p.forceAdjoint) *ᵥ y) = x ⬝ᵥ y := by
      intro x y
      obtain ⟨v, rfl⟩ := tv x
      obtain ⟨f, rfl⟩ := wv y
      obtain ⟨a1, a2⟩ := adjoint_spec p hp v f
      rw [mmulVec_eq] at a1 a2
      rw [← Matrix.mulVec_mulVec, Matrix.dotProduct_mulVec, Matrix.vecMul_transpose, a1, a2, ← vdot_eq, ← vdot_eq,
        dotv, dotv]
      exact (twist_wrench_transport p q hp hq v f).2.2.2.2.2.2.2.2
    ext i j
    have := key (Pi.single i 1) (Pi.single j 1)
    simpa [Matrix.one_apply, Pi.single_apply, eq_comm] using this

/-- C48. The motion cross product is a Lie bracket (antisymmetric, Jacobi identity), the force cross
product is its dual, and both commute with changes of frame. -/
theorem spatial_cross_laws (u v w : Twist ℝ) (f : Wrench ℝ) (p : SE3 ℝ)
    (hp : p.rotation.quaternion.IsUnit) :
    v.cross w = (w.cross v).neg ∧
    ((u.cross (v.cross w)).add (v.cross (w.cross u))).add (w.cross (u.cross v)) = ⟨fun _ => 0, fun _ => 0⟩ ∧
    (v.cross w).dotWrench f = -(w.dotWrench (v.crossWrench f)) ∧
    p.actTwist (v.cross w) = (p.actTwist v).cross (p.actTwist w) ∧
    p.actWrench (v.crossWrench f) = (p.actTwist v).crossWrench (p.actWrench f) := by
  have hG := fun a b : Fin 3 → ℝ => so3_group p.rotation p.rotation p.rotation hp hp a b
  have crs := fun a b => (hG a b).2.2.2.2.2.2.2.2.2.2.2.2.1
  have lin := so3_act_linear p.rotation
  refine ⟨?_, ?_, ?_, ?_, ?_⟩
  · apply Twist.ext <;> apply vec3_ext <;> simp [Twist.cross, Twist.neg, vadd, vneg, Multicalc.cross] <;> ring
  · apply Twist.ext <;> apply vec3_ext <;> simp [Twist.cross, Twist.add, vadd, Multicalc.cross] <;> ring
  · simp [Twist.cross, Twist.crossWrench, Twist.dotWrench, vdot3, vadd, Multicalc.cross]; ring
  · simp only [SE3.actTwist, Twist.cross]
    rw [(lin _ _).1, ← crs, ← crs, ← crs]
    generalize p.rotation.act v.angular = a
    generalize p.rotation.act v.linear = b
    generalize p.rotation.act w.angular = c
    generalize p.rotation.act w.linear = d
    apply Twist.ext <;> apply vec3_ext <;> simp [vadd, Multicalc.cross] <;> ring
  · simp only [SE3.actTwist, SE3.actWrench, Twist.crossWrench]
    rw [(lin _ _).1, ← crs, ← crs, ← crs]
    generalize p.rotation.act v.angular = a
    generalize p.rotation.act v.linear = b
    generalize p.rotation.act f.force = c
    generalize p.rotation.act f.torque = d
    apply Wrench.ext <;> apply vec3_ext <;> simp [vadd, Multicalc.cross] <;> ring

/-! ### Inertias -/

theorem mmulVec_lin (m : Matrix (Fin 3) (Fin 3) ℝ) (v w : Fin 3 → ℝ) :
    mmulVec m (vadd v w) = vadd (mmulVec m v) (mmulVec m w) := by
  simp only [mmulVec_eq]; exact Matrix.mulVec_add m v w

theorem mmulVec3 (m : Matrix (Fin 3) (Fin 3) ℝ) (v : Fin 3 → ℝ) (i : Fin 3) :
    mmulVec m v i = m i 0 * v 0 + m i 1 * v 1 + m i 2 * v 2 := by
  rw [mmulVec_eq, Matrix.mulVec, dotProduct, Fin.sum_univ_three]

theorem mmulVec3' (f : Fin 3 → Fin 3 → ℝ) (v : Fin 3 → ℝ) (i : Fin 3) :
    mmulVec (fun i j => f i j : Matrix (Fin 3) (Fin 3) ℝ) v i = f i 0 * v 0 + f i 1 * v 1 + f i 2 * v 2 :=
  mmulVec3 f v i

/-- The matrix of the inertia times the stacked twist is the stacked momentum. -/
theorem inertia_matrix_momentum (b : SpatialInertia ℝ) (v : Twist ℝ) :
    mmulVec b.toMatrix v.toVector = (b.momentum v).toVector := by
  unfold SpatialInertia.toMatrix Twist.toVector
  refine Eq.trans (blocks_mulVec _ _ _ _ v.linear v.angular) ?_
  simp only [vadd, mmulVec3, mmulVec3']
  funext i
  fin_cases i <;>
    simp [SpatialInertia.momentum, Wrench.toVector, vadd, mmulVec3, mdiagonal, skew3, vscaleBy,
      SpatialInertia.inertiaAbout, vsub, vdot3, Multicalc.cross] <;> ring

/-- C49. Momentum, bias wrench and kinetic energy do not depend on the frame: transporting the body
and its twist transports the momentum and the bias wrench and leaves the energy alone; transporting
back returns the body. -/
theorem inertia_transport (p : SE3 ℝ) (hp : p.rotation.quaternion.IsUnit) (b : SpatialInertia ℝ)
    (v : Twist ℝ) :
    (p.actInertia b).momentum (p.actTwist v) = p.actWrench (b.momentum v) ∧
    (p.actInertia b).biasWrench (p.actTwist v) = p.actWrench (b.biasWrench v) ∧
    (p.actInertia b).kineticEnergy (p.actTwist v) = b.kineticEnergy v ∧
    p.inverseActInertia (p.actInertia b) = b := by
  have hG := fun a b : Fin 3 → ℝ => so3_group p.rotation p.rotation p.rotation hp hp a b
  have mv := fun a => (hG a a).2.2.2.2.2.2.2.2.2.2.2.2.2.2.1
  have crs := fun a b => (hG a b).2.2.2.2.2.2.2.2.2.2.2.2.1
  have ia := fun a => (hG a a).2.2.2.2.2.2.2.2.2.1
  have hti := (hG 0 0).2.2.2.2.2.2.2.2.2.2.2.2.2.2.2
  have lin := so3_act_linear p.rotation
  have hor := (toRotationMatrix_spec p.rotation.quaternion p.rotation.quaternion hp hp 0).1
  have hscale : ∀ (a : Fin 3 → ℝ) (s : ℝ), p.rotation.act (vscaleBy a s) = vscaleBy (p.rotation.act a) s :=
    fun a s => (rotation_laws p.rotation.quaternion p.rotation.quaternion a a s hp).2.2.1
  have hRRt : mmulVec (mtranspose p.rotation.toMatrix) = p.rotation.inverse.act := by
    funext a
    rw [← hti]
    have hinv := (hG 0 0).2.1
    exact (so3_group p.rotation.inverse p.rotation p.rotation hinv hp a a).2.2.2.2.2.2.2.2.2.2.2.2.2.2.1
  have hI : ∀ a : Fin 3 → ℝ, mmulVec (mmul (mmul p.rotation.toMatrix b.rotationalInertia)
      (mtranspose p.rotation.toMatrix)) (p.rotation.act a) = p.rotation.act (mmulVec b.rotationalInertia a) := by
    intro a
    have e : mmulVec (mmul (mmul p.rotation.toMatrix b.rotationalInertia) (mtranspose p.rotation.toMatrix))
        (p.rotation.act a) = mmulVec p.rotation.toMatrix (mmulVec b.rotationalInertia
          (mmulVec (mtranspose p.rotation.toMatrix) (p.rotation.act a))) := by
      simp only [mmulVec_eq, mmul_eq, Matrix.mulVec_mulVec, Matrix.mul_assoc]
    rw [e, hRRt, ia, mv]
  have cadd : ∀ a b c : Fin 3 → ℝ, cross (vadd a b) c = vadd (cross a c) (cross b c) := by
    intro a b c; apply vec3_ext <;> simp [cross, vadd] <;> ring
  have cadd2 : ∀ a b c : Fin 3 → ℝ, cross a (vadd b c) = vadd (cross a b) (cross a c) := by
    intro a b c; apply vec3_ext <;> simp [cross, vadd] <;> ring
  have hmom : (p.actInertia b).momentum (p.actTwist v) = p.actWrench (b.momentum v) := by
    have hv : vadd (p.actTwist v).linear (cross (p.actTwist v).angular (p.actInertia b).centerOfMass) =
        p.rotation.act (vadd v.linear (cross v.angular b.centerOfMass)) := by
      simp only [SE3.actTwist, SE3.actInertia, SE3.act]
      rw [(lin _ _).1, ← crs, cadd2]
      generalize p.rotation.act v.angular = a
      apply vec3_ext <;> simp [vadd, Multicalc.cross] <;> ring
    unfold SpatialInertia.momentum
    dsimp only
    rw [hv]
    simp only [SE3.actTwist, SE3.actInertia, SE3.actWrench, SE3.act]
    rw [hI, ← hscale]
    apply Wrench.ext
    · rfl
    · simp only
      rw [cadd, (lin _ _).1, crs]
      funext i; simp only [vadd]; ring
  have T := fun f => twist_wrench_transport p p hp hp v f
  refine ⟨hmom, ?_, ?_, ?_⟩
  · unfold SpatialInertia.biasWrench
    rw [hmom, (spatial_cross_laws v v v (b.momentum v) p hp).2.2.2.2]
  · unfold SpatialInertia.kineticEnergy
    rw [hmom, (T _).2.2.2.2.2.2.2.2]
  · unfold SE3.inverseActInertia
    apply SpatialInertia.ext
    · rfl
    · exact (se3_group p p p hp hp b.centerOfMass 0).2.2.2.2.2.2.2.2.2.1
    · simp only [SE3.actInertia, SE3.inverse]
      rw [hti]
      rw [show mtranspose (mtranspose p.rotation.toMatrix) = p.rotation.toMatrix from rfl]
      change mmul (mtranspose p.rotation.toMatrix) p.rotation.toMatrix = _ at hor
      simp only [mmul_eq, midentity_eq] at hor ⊢
      generalize mtranspose p.rotation.toMatrix = Rt at *
      generalize p.rotation.toMatrix = R at *
      calc Rt * (R * b.rotationalInertia * Rt) * R = (Rt * R) * b.rotationalInertia * (Rt * R) := by
            simp only [Matrix.mul_assoc]
        _ = _ := by rw [hor, Matrix.one_mul, Matrix.mul_one]

/-- C49. The 6×6 inertia of a transported body is the congruence of the original by the adjoints. -/
theorem inertia_congruence (p : SE3 ℝ) (hp : p.rotation.quaternion.IsUnit) (b : SpatialInertia ℝ) :
    mmul (p.actInertia b).toMatrix p.adjoint = mmul p.forceAdjoint b.toMatrix ∧
    mmul (mmul (mtranspose p.adjoint) (p.actInertia b).toMatrix) p.adjoint = b.toMatrix := by
  have tv : ∀ x : Fin 6 → ℝ, ∃ v : Twist ℝ, v.toVector = x := fun x =>
    ⟨⟨![x 0, x 1, x 2], ![x 3, x 4, x 5]⟩, by funext i; fin_cases i <;> rfl⟩
  have mm : ∀ (a b : Matrix (Fin 6) (Fin 6) ℝ) (x : Fin 6 → ℝ), mmulVec (mmul a b) x = mmulVec a (mmulVec b x) := by
    intro a b x; simp only [mmulVec_eq, mmul_eq, Matrix.mulVec_mulVec]
  have h1 : mmul (p.actInertia b).toMatrix p.adjoint = mmul p.forceAdjoint b.toMatrix := by
    apply matrix_ext_mulVec
    intro x
    obtain ⟨v, rfl⟩ := tv x
    rw [mm, mm, (adjoint_spec p hp v ⟨0, 0⟩).1, inertia_matrix_momentum, inertia_matrix_momentum,
      (adjoint_spec p hp v _).2, (inertia_transport p hp b v).1]
  refine ⟨h1, ?_⟩
  have h2 := (adjoint_multiplicative p p hp hp).2.2
  simp only [mmul_eq, midentity_eq] at h1 h2 ⊢
  rw [Matrix.mul_assoc, h1, ← Matrix.mul_assoc, h2, Matrix.one_mul]

/-- C49. Merging two bodies adds masses, momenta, energies and 6×6 inertias, and the inertia about a
point obeys the parallel-axis rule for spinning about that point. -/
theorem inertia_combined (a b : SpatialInertia ℝ) (h : a.mass + b.mass ≠ 0) (v : Twist ℝ) :
    (a.combined b).mass = a.mass + b.mass ∧
    (a.combined b).momentum v = (a.momentum v).add (b.momentum v) ∧
    (a.combined b).kineticEnergy v = a.kineticEnergy v + b.kineticEnergy v ∧
    (a.combined b).toMatrix = madd a.toMatrix b.toMatrix := by
  have hmom : ∀ v : Twist ℝ, (a.combined b).momentum v = (a.momentum v).add (b.momentum v) := by
    intro v
    apply Wrench.ext <;> apply vec3_ext <;>
      simp [SpatialInertia.combined, SpatialInertia.momentum, Wrench.add, vadd, vscaleBy, mmulVec3, madd,
        SpatialInertia.inertiaAbout, vsub, vdot3, Multicalc.cross] <;> field_simp <;> ring
  refine ⟨rfl, hmom v, ?_, ?_⟩
  · unfold SpatialInertia.kineticEnergy
    rw [hmom, half_real]
    simp only [Twist.dotWrench, Wrench.add, vdot3, vadd]
    ring
  · apply matrix_ext_mulVec
    intro x
    obtain ⟨v, rfl⟩ : ∃ v : Twist ℝ, v.toVector = x :=
      ⟨⟨![x 0, x 1, x 2], ![x 3, x 4, x 5]⟩, by funext i; fin_cases i <;> rfl⟩
    have hadd : mmulVec (madd a.toMatrix b.toMatrix) v.toVector =
        fun i => mmulVec a.toMatrix v.toVector i + mmulVec b.toMatrix v.toVector i := by
      have : madd a.toMatrix b.toMatrix = a.toMatrix + b.toMatrix := rfl
      rw [this]
      simp only [mmulVec_eq, Matrix.add_mulVec]
      rfl
    rw [hadd, inertia_matrix_momentum, inertia_matrix_momentum, inertia_matrix_momentum, hmom]
    funext i; fin_cases i <;> rfl

example : (SpatialInertia.mk 2 0 1 : SpatialInertia ℝ).mass + (SpatialInertia.mk 3 0 1 : SpatialInertia ℝ).mass ≠ 0 := by
  norm_num

/-- C49. Spinning about a fixed point: the energy is half the rate against `inertia_about` that point. -/
theorem inertia_about_energy (b : SpatialInertia ℝ) (point ω : Fin 3 → ℝ) :
    b.kineticEnergy ⟨cross point ω, ω⟩ = 1 / 2 * vdot ω (mmulVec (b.inertiaAbout point) ω) := by
  rw [SpatialInertia.kineticEnergy, half_real]
  congr 1
  simp only [SpatialInertia.momentum, Twist.dotWrench, vdot3, vadd, mmulVec3]
  simp [SpatialInertia.momentum, Twist.dotWrench, vdot3, vadd, vscaleBy, mmulVec3,
        SpatialInertia.inertiaAbout, vsub, Multicalc.cross]
  ring

/-- C49. `new` accepts exactly positive mass, an inertia symmetric within the documented tolerance and
a positive diagonal, and stores its arguments. -/
theorem inertia_new (m : ℝ) (c : Fin 3 → ℝ) (I : Matrix (Fin 3) (Fin 3) ℝ) (b : SpatialInertia ℝ) :
    SpatialInertia.new m c I = .ok b ↔
      b = ⟨m, c, I⟩ ∧ 0 < m ∧ isSymmetric I = true ∧ ∀ i, 0 < I i i := by
  have hv : vecIsFinite c = true := by simp [vecIsFinite, Fns.isFinite]
  unfold SpatialInertia.new
  rw [hv, real_mIsFinite]
  simp only [real_isFinite, Bool.not_true, Bool.or_self, Bool.false_eq_true, if_false]
  by_cases h1 : m ≤ 0
  · rw [if_pos h1]
    constructor
    · intro h; cases h
    · rintro ⟨-, h, -⟩; linarith
  rw [if_neg h1]
  by_cases h2 : isSymmetric I = true
  · rw [h2]
    simp only [Bool.not_true, Bool.false_eq_true, if_false]
    by_cases h3 : ∀ i, 0 < I i i
    · rw [if_neg]
      · constructor
        · intro h; cases h; exact ⟨rfl, not_le.1 h1, trivial, h3⟩
        · rintro ⟨rfl, -⟩; rfl
      · simp only [List.any_eq_true, decide_eq_true_eq, not_exists, not_and, not_le]
        intro i _; exact h3 i
    · rw [if_pos]
      · constructor
        · intro h; cases h
        · rintro ⟨-, -, -, h⟩; exact absurd h h3
      · push Not at h3
        obtain ⟨i, hi⟩ := h3
        simp only [List.any_eq_true, decide_eq_true_eq]
        exact ⟨i, List.mem_finRange i, hi⟩
  · have : isSymmetric I = false := by simpa using h2
    rw [this]
    simp

/-- C49 (finding). A body derived from a validated one can violate the constraints of `new`, although
the code relies on the opposite: an accepted inertia turned about the third axis gets a negative
diagonal entry and would be refused. -/
theorem inertia_transport_not_valid :
    ∃ (b : SpatialInertia ℝ) (p : SE3 ℝ), p.rotation.quaternion.IsUnit ∧
      SpatialInertia.new b.mass b.centerOfMass b.rotationalInertia = .ok b ∧
      (p.actInertia b).rotationalInertia 0 0 < 0 ∧
      ∀ c, SpatialInertia.new (p.actInertia b).mass (p.actInertia b).centerOfMass
        (p.actInertia b).rotationalInertia ≠ .ok c := by
  have hneg : (SE3.actInertia (⟨⟨⟨4 / 5, 0, 0, 3 / 5⟩⟩, 0⟩ : SE3 ℝ)
      ⟨1, 0, !![1, 2, 0; 2, 1, 0; 0, 0, 1]⟩).rotationalInertia 0 0 < 0 := by
    simp only [SE3.actInertia, SO3.toMatrix, Quat.toRotationMatrix, mmul_eq, mtranspose, Matrix.mul_apply,
      Fin.sum_univ_three]
    simp
    norm_num
  refine ⟨⟨1, 0, !![1, 2, 0; 2, 1, 0; 0, 0, 1]⟩, ⟨⟨⟨4 / 5, 0, 0, 3 / 5⟩⟩, 0⟩, ?_, ?_, hneg, ?_⟩
  · rw [Quat.IsUnit]; norm_num
  · rw [inertia_new]
    refine ⟨rfl, one_pos, ?_, ?_⟩
    · have he : (epsilonX30 : ℝ) = 30 / 2 ^ 52 := smallAngle_real
      simp [isSymmetric, List.finRange, he, real_abs]
      norm_num
    · intro i; fin_cases i <;> simp
  · intro c hc
    rw [inertia_new] at hc
    exact absurd (hc.2.2.2 0) (not_lt.2 hneg.le)

/-- C49 (finding). A free joint state is refused for tiny but nonzero orientation numbers, although
the documentation names only the all-zero case. -/
theorem freeJoint_tiny_refused :
    FreeJointState.fromGeneralizedVectors (![0, 0, 0, 1 / 2 ^ 60, 0, 0, 0] : Fin 7 → ℝ) (fun _ => 0) = none := by
  unfold FreeJointState.fromGeneralizedVectors
  have : (Quat.mk ((![0, 0, 0, 1 / 2 ^ 60, 0, 0, 0] : Fin 7 → ℝ) 3) ((![0, 0, 0, 1 / 2 ^ 60, 0, 0, 0] : Fin 7 → ℝ) 4)
      ((![0, 0, 0, 1 / 2 ^ 60, 0, 0, 0] : Fin 7 → ℝ) 5) ((![0, 0, 0, 1 / 2 ^ 60, 0, 0, 0] : Fin 7 → ℝ) 6)).norm = 1 / 2 ^ 60 := by
    simp only [Quat.norm, Quat.normSquared, real_sqrt, Matrix.cons_val]
    rw [show (1 / 2 ^ 60 * (1 / 2 ^ 60) + 0 * 0 + 0 * 0 + 0 * 0 : ℝ) = (1 / 2 ^ 60) * (1 / 2 ^ 60) by ring,
      Real.sqrt_mul_self (by positivity)]
  unfold Quat.tryNormalized
  rw [if_pos]
  rw [this]
  simp only [Bool.or_eq_true, decide_eq_true_eq]
  right
  norm_num [Fns.epsilon]

/-! ### Pure pursuit -/

/-- C36. With the lookahead distance equal to the distance of the point, the curvature returned is the
only one whose circle, tangent to the heading at the robot, passes through the point (its centre is on
the robot's left normal at the reciprocal of the curvature); whatever positive distance is given, it
is zero exactly for points straight ahead or behind and its sign is the side of the point. -/
theorem pursuit_curvature (pose : SE2 ℝ) (target : Fin 2 → ℝ) (L : ℝ) (hL : 0 < L)
    (hu : pose.rotation.IsUnit) :
    ∃ κ, purePursuitCurvature pose target L = .ok κ ∧
      (let dx := target 0 - pose.translation 0
       let dy := target 1 - pose.translation 1
       let side := -pose.rotation.sin * dx + pose.rotation.cos * dy
       (κ = 0 ↔ side = 0) ∧ (0 < κ ↔ 0 < side) ∧ (κ < 0 ↔ side < 0) ∧
       (L ^ 2 = dx ^ 2 + dy ^ 2 →
         (∀ k, k * (dx ^ 2 + dy ^ 2) = 2 * side ↔ k = κ) ∧
         (κ ≠ 0 →
           (target 0 - (pose.translation 0 - pose.rotation.sin / κ)) ^ 2 +
           (target 1 - (pose.translation 1 + pose.rotation.cos / κ)) ^ 2 = (1 / κ) ^ 2))) := by
  have hv : vecIsFinite target = true := by simp [vecIsFinite, Fns.isFinite]
  refine ⟨2 * (-pose.rotation.sin * (target 0 - pose.translation 0) +
    pose.rotation.cos * (target 1 - pose.translation 1)) / (L * L), ?_, ?_⟩
  · unfold purePursuitCurvature
    rw [hv]
    have hnl : decide (L ≤ 0) = false := by simpa using hL
    rw [hnl]
    simp only [real_isFinite, Bool.not_true, Bool.or_self, Bool.false_eq_true, if_false]
    congr 2
    simp [SE2.inverse, SE2.act, SO2.act, SO2.inverse, vadd, vneg]
    ring
  · intro dx dy side
    have hLL : 0 < L * L := mul_pos hL hL
    rw [SO2.IsUnit] at hu
    refine ⟨?_, ?_, ?_, ?_⟩
    · rw [div_eq_zero_iff]
      constructor
      · rintro (h | h)
        · linarith
        · exact absurd h hLL.ne'
      · intro h; left; change 2 * side = 0; rw [h, mul_zero]
    · rw [div_pos_iff_of_pos_right hLL]
      change 0 < 2 * side ↔ _
      constructor <;> intro h <;> linarith
    · rw [div_neg_iff]
      change 0 < 2 * side ∧ _ ∨ 2 * side < 0 ∧ _ ↔ _
      constructor
      · rintro (h | h) <;> linarith
      · intro h; exact .inr ⟨by linarith, hLL⟩
    · intro hd
      have hd' : L * L = dx ^ 2 + dy ^ 2 := by rw [← hd]; ring
      constructor
      · intro k
        rw [eq_div_iff hLL.ne', hd']
      · intro hk
        change 2 * side / (L * L) ≠ 0 at hk
        change (target 0 - (pose.translation 0 - pose.rotation.sin / (2 * side / (L * L)))) ^ 2 +
           (target 1 - (pose.translation 1 + pose.rotation.cos / (2 * side / (L * L)))) ^ 2 = (1 / (2 * side / (L * L))) ^ 2
        have hs : side ≠ 0 := by
          intro h; rw [h] at hk; simp at hk
        have e1 : target 0 = pose.translation 0 + dx := by simp only [dx]; ring
        have e2 : target 1 = pose.translation 1 + dy := by simp only [dy]; ring
        have e3 : side = -pose.rotation.sin * dx + pose.rotation.cos * dy := rfl
        rw [e1, e2, hd']
        rw [hd'] at hLL
        clear_value side dx dy
        obtain ⟨R, hR⟩ : ∃ R, 1 / (2 * side / (dx ^ 2 + dy ^ 2)) = R := ⟨_, rfl⟩
        have hRs : 2 * side * R = dx ^ 2 + dy ^ 2 := by
          rw [← hR]; field_simp
        rw [div_eq_mul_one_div pose.rotation.sin, div_eq_mul_one_div pose.rotation.cos, hR]
        linear_combination R ^ 2 * hu - hRs + 2 * R * e3

/-- The robot at the origin facing along x with a target five metres away. -/
example : (SE2.identity : SE2 ℝ).rotation.IsUnit ∧
    (5 : ℝ) ^ 2 = (3 - (SE2.identity : SE2 ℝ).translation 0) ^ 2 + (4 - (SE2.identity : SE2 ℝ).translation 1) ^ 2 := by
  constructor
  · rw [SO2.IsUnit]; simp [SE2.identity, SO2.identity]
  · simp [SE2.identity]; norm_num

/-- C46. `SO3::from_quaternion` turns every quaternion of nonzero length into a rotation: the result is
a unit quaternion, a positive multiple of the given one, and a unit quaternion is kept as it is. -/
theorem so3_fromQuaternion (q : Quat ℝ) (h : q.norm ≠ 0) :
    (SO3.fromQuaternion q).quaternion.IsUnit ∧
    (∃ k > 0, (SO3.fromQuaternion q).quaternion = q.scale k) ∧
    (q.IsUnit → (SO3.fromQuaternion q).quaternion = q) := by
  have hpos : 0 < q.norm := lt_of_le_of_ne (Real.sqrt_nonneg _) (Ne.symm h)
  have hsq : q.norm * q.norm = q.w * q.w + q.x * q.x + q.y * q.y + q.z * q.z := by
    refine Real.mul_self_sqrt ?_
    have := mul_self_nonneg q.w
    have := mul_self_nonneg q.x
    have := mul_self_nonneg q.y
    have := mul_self_nonneg q.z
    unfold Quat.normSquared
    linarith
  refine ⟨?_, ⟨1 / q.norm, by positivity, rfl⟩, fun hu => ?_⟩
  · change (q.w * (1 / q.norm)) ^ 2 + (q.x * (1 / q.norm)) ^ 2 + (q.y * (1 / q.norm)) ^ 2
      + (q.z * (1 / q.norm)) ^ 2 = 1
    field_simp
    linarith
  · rw [Quat.isUnit_iff] at hu
    change q.scale (1 / q.norm) = q
    rw [hu]
    ext <;> simp [Quat.scale]

example : (⟨3, 0, 4, 0⟩ : Quat ℝ).norm ≠ 0 := by
  refine Real.sqrt_ne_zero'.2 ?_
  simp only [Quat.normSquared]; norm_num

end Multicalc
