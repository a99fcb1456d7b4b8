import Verif.Model.RigidBody
import Verif.Props.Attitude

/-!
# A free rigid body (C50)
-/

namespace Multicalc

open Matrix

namespace RigidBody

/-- What a body is, when its numbers make sense: it has mass, its rotational inertia is symmetric, and the stored
inverse is one. -/
structure Valid (b : RigidBody ℝ) : Prop where
  mass : 0 < b.inertia.mass
  symm : b.inertia.rotationalInertiaᵀ = b.inertia.rotationalInertia
  inverse : b.inertia.rotationalInertia * b.inverseRotationalInertia = 1

/-- C50. A body that `new` accepts holds the inertia and the gravity it was given; its rotational inertia is positive
definite and the stored inverse is the inverse.  An inertia that is not positive definite is refused as such. -/
theorem rigid_body_new (largest : ℝ) (J : SpatialInertia ℝ) (g : Fin 3 → ℝ) (hm : 0 < J.mass)
    (hs : J.rotationalInertiaᵀ = J.rotationalInertia) :
    (∀ b, new largest J g = .ok b → b.inertia = J ∧ b.gravity = g ∧ b.Valid
      ∧ ∀ x : Fin 3 → ℝ, x ≠ 0 → 0 < x ⬝ᵥ b.inertia.rotationalInertia *ᵥ x)
    ∧ ((∃ x : Fin 3 → ℝ, x ≠ 0 ∧ x ⬝ᵥ J.rotationalInertia *ᵥ x ≤ 0) →
      new largest J g = .error .nonPositiveInertia) := by
  have hfin : ¬((!J.isFinite || !vecIsFinite g) = true) := by
    rw [real_vecIsFinite]
    simp [SpatialInertia.isFinite, real_vecIsFinite, real_mIsFinite, Fns.isFinite]
  obtain ⟨hc, -⟩ := cholesky_iff_positive_definite J.rotationalInertia hs
  constructor
  · intro b hb
    unfold new at hb
    rw [if_neg hfin] at hb
    split at hb
    · cases hb
    · rename_i L hL
      split at hb
      · cases hb
      · rename_i W hW
        cases hb
        have hi := (inverse_correct largest J.rotationalInertia W hW).1
        rw [mmul_eq, midentity_eq] at hi
        refine ⟨rfl, rfl, ⟨hm, hs, hi⟩, fun x hx => ?_⟩
        have := hc.1 ⟨L, hL⟩ x hx
        rwa [vdot_eq, mmulVec_eq] at this
  · rintro ⟨x, hx, hle⟩
    unfold new
    rw [if_neg hfin]
    cases hL : cholesky J.rotationalInertia with
    | error e => rfl
    | ok L =>
      have := hc.1 ⟨L, hL⟩ x hx
      rw [vdot_eq, mmulVec_eq] at this
      exact absurd this (not_lt.2 hle)

/-! ### Newton's and Euler's laws -/

theorem mulVec3 (A : Matrix (Fin 3) (Fin 3) ℝ) (v : Fin 3 → ℝ) (i : Fin 3) :
    mmulVec A v i = A i 0 * v 0 + A i 1 * v 1 + A i 2 * v 2 := by
  rw [mmulVec_eq, mulVec, dotProduct, Fin.sum_univ_three]

theorem Valid.cancel {b : RigidBody ℝ} (hb : b.Valid) (v : Fin 3 → ℝ) :
    mmulVec b.inertia.rotationalInertia (mmulVec b.inverseRotationalInertia v) = v := by
  rw [mmulVec_eq, mmulVec_eq, mulVec_mulVec, hb.inverse, one_mulVec]

theorem Valid.cancel' {b : RigidBody ℝ} (hb : b.Valid) (v : Fin 3 → ℝ) :
    mmulVec b.inverseRotationalInertia (mmulVec b.inertia.rotationalInertia v) = v := by
  rw [mmulVec_eq, mmulVec_eq, mulVec_mulVec, mul_eq_one_comm.1 hb.inverse, one_mulVec]

/-- C50. The accelerations are the ones, and the only ones, for which both laws hold, whatever the balance point, the
facing, the spin and the wrench.  Newton: mass times what the balance point gains beyond gravity is the applied
force, where the balance point's acceleration is the origin's plus the turning and the centripetal part.  Euler:
inertia times angular acceleration plus the gyroscopic term is the applied torque about the balance point. -/
theorem accelerations_laws (b : RigidBody ℝ) (hb : b.Valid) (p : SO3 ℝ) (ω : Fin 3 → ℝ) (F : Wrench ℝ)
    (a α : Fin 3 → ℝ) :
    (b.accelerations p ω F).linear = a ∧ (b.accelerations p ω F).angular = α ↔
      (∀ i, b.inertia.mass * (a i + p.act (cross α b.inertia.centerOfMass) i
          + p.act (cross ω (cross ω b.inertia.centerOfMass)) i - b.gravity i) = p.act F.force i)
      ∧ ∀ i, mmulVec b.inertia.rotationalInertia α i + cross ω (mmulVec b.inertia.rotationalInertia ω) i
          = F.torque i - cross b.inertia.centerOfMass F.force i := by
  have hm := hb.mass.ne'
  have hang : (b.accelerations p ω F).angular = α ↔ ∀ i, mmulVec b.inertia.rotationalInertia α i
      + cross ω (mmulVec b.inertia.rotationalInertia ω) i = F.torque i - cross b.inertia.centerOfMass F.force i := by
    constructor
    · rintro rfl i
      simp only [accelerations]
      rw [hb.cancel]
      simp only [vsub]
      ring
    · intro h
      simp only [accelerations]
      have e : vsub (vsub F.torque (cross b.inertia.centerOfMass F.force))
          (cross ω (mmulVec b.inertia.rotationalInertia ω)) = mmulVec b.inertia.rotationalInertia α := by
        funext i
        have := h i
        simp only [vsub]
        linarith
      rw [e, hb.cancel']
  have hlin : (b.accelerations p ω F).angular = α → ((b.accelerations p ω F).linear = a ↔
      ∀ i, b.inertia.mass * (a i + p.act (cross α b.inertia.centerOfMass) i
          + p.act (cross ω (cross ω b.inertia.centerOfMass)) i - b.gravity i) = p.act F.force i) := by
    intro h
    have e : (b.accelerations p ω F).linear = vsub (vadd (vscaleBy (p.act F.force) (1 / b.inertia.mass)) b.gravity)
        (vadd (p.act (cross α b.inertia.centerOfMass)) (p.act (cross ω (cross ω b.inertia.centerOfMass)))) := by
      rw [← (so3_act_linear p _ _).1, ← h]
      rfl
    rw [e]
    constructor
    · rintro rfl i
      simp only [vsub, vadd, vscaleBy]
      field_simp
      ring
    · intro h2
      funext i
      have := h2 i
      simp only [vsub, vadd, vscaleBy]
      rw [← this]
      field_simp
      ring
  constructor
  · rintro ⟨h1, h2⟩
    exact ⟨(hlin h2).1 h1, hang.1 h2⟩
  · rintro ⟨h1, h2⟩
    exact ⟨(hlin (hang.2 h2)).2 h1, hang.2 h2⟩

theorem acceleration_ext {x : RigidBodyAcceleration ℝ} {a α : Fin 3 → ℝ} (h : x.linear = a ∧ x.angular = α) :
    x = ⟨a, α⟩ := by
  obtain ⟨rfl, rfl⟩ := h
  rfl

/-! ### Curves that follow the derivative -/

/-- The facing a state vector holds. -/
def facing (s : Fin 13 → ℝ) : SO3 ℝ := ⟨⟨s 3, s 4, s 5, s 6⟩⟩

/-- The position, velocity and spin a state vector holds. -/
def place (s : Fin 13 → ℝ) : Fin 3 → ℝ := ![s 0, s 1, s 2]
def speed (s : Fin 13 → ℝ) : Fin 3 → ℝ := ![s 7, s 8, s 9]
def spin (s : Fin 13 → ℝ) : Fin 3 → ℝ := ![s 10, s 11, s 12]

/-- A motion of the body: a curve whose derivative is everywhere what `state_derivative` says. -/
def Motion (b : RigidBody ℝ) (F : ℝ → Wrench ℝ) (s : ℝ → Fin 13 → ℝ) : Prop :=
  ∀ t, HasDerivAt s (b.stateDerivative (s t) (F t)) t

theorem tryNormalized_unit (q : Quat ℝ) (h : q.IsUnit) : q.tryNormalized = some q := by
  have hn : q.norm = 1 := by
    rw [Quat.norm, (isUnit_normSquared q).1 h, real_sqrt, Real.sqrt_one]
  unfold Quat.tryNormalized
  rw [hn, if_neg]
  · simp [Quat.scale]
  · simp [Fns.isFinite, Fns.epsilon]
    norm_num

theorem stateDerivative_unit (b : RigidBody ℝ) (s : Fin 13 → ℝ) (F : Wrench ℝ)
    (h : (facing s).quaternion.IsUnit) :
    b.stateDerivative s F = ![s 7, s 8, s 9,
      1 / 2 * (-s 4 * s 10 - s 5 * s 11 - s 6 * s 12),
      1 / 2 * (s 3 * s 10 + s 5 * s 12 - s 6 * s 11),
      1 / 2 * (s 3 * s 11 + s 6 * s 10 - s 4 * s 12),
      1 / 2 * (s 3 * s 12 + s 4 * s 11 - s 5 * s 10),
      (b.accelerations (facing s) (spin s) F).linear 0, (b.accelerations (facing s) (spin s) F).linear 1,
      (b.accelerations (facing s) (spin s) F).linear 2, (b.accelerations (facing s) (spin s) F).angular 0,
      (b.accelerations (facing s) (spin s) F).angular 1, (b.accelerations (facing s) (spin s) F).angular 2] := by
  unfold stateDerivative
  dsimp only
  rw [show (Quat.mk (s 3) (s 4) (s 5) (s 6)).tryNormalized = some (facing s).quaternion from
    tryNormalized_unit _ h]
  dsimp only
  rw [show SO3.fromQuaternion (facing s).quaternion = facing s from by
    unfold SO3.fromQuaternion; rw [quat_normalized_unit _ h]]
  have : (half : ℝ) = 1 / 2 := by simp [half]
  rw [this]
  rfl

/-- C50. However a curve following the derivative starts, its four orientation numbers keep their length for all
time; so a motion that starts at a true rotation stays at true rotations. -/
theorem motion_norm (b : RigidBody ℝ) (F : ℝ → Wrench ℝ) (s : ℝ → Fin 13 → ℝ) (hs : b.Motion F s) (t u : ℝ) :
    (facing (s t)).quaternion.normSquared = (facing (s u)).quaternion.normSquared := by
  have key : ∀ t, HasDerivAt (fun t => (facing (s t)).quaternion.normSquared) 0 t := by
    intro t
    have hc := hasDerivAt_pi.1 (hs t)
    have h : HasDerivAt (fun t => s t 3 * s t 3 + s t 4 * s t 4 + s t 5 * s t 5 + s t 6 * s t 6) _ t :=
      ((((hc 3).mul (hc 3)).add ((hc 4).mul (hc 4))).add ((hc 5).mul (hc 5))).add ((hc 6).mul (hc 6))
    refine HasDerivAt.congr_deriv h ?_
    unfold stateDerivative
    dsimp only
    cases (Quat.mk (s t 3) (s t 4) (s t 5) (s t 6)).tryNormalized with
    | none => simp
    | some q =>
      simp only [Matrix.cons_val]
      ring
  exact is_const_of_deriv_eq_zero (fun t => (key t).differentiableAt) (fun t => (key t).deriv) t u

/-- A vector carried by the body: how it changes seen from outside. -/
theorem carried (b : RigidBody ℝ) (F : ℝ → Wrench ℝ) (s : ℝ → Fin 13 → ℝ) (hs : b.Motion F s) (t : ℝ)
    (hu : (facing (s t)).quaternion.IsUnit) (v : ℝ → Fin 3 → ℝ) (v' : Fin 3 → ℝ)
    (hv : ∀ i, HasDerivAt (fun t => v t i) (v' i) t) (i : Fin 3) :
    HasDerivAt (fun t => (facing (s t)).act (v t) i) ((facing (s t)).act (vadd v' (cross (spin (s t)) (v t))) i) t := by
  have hc := hasDerivAt_pi.1 (hs t)
  rw [stateDerivative_unit b (s t) (F t) hu] at hc
  have h3 := hc 3
  have h4 := hc 4
  have h5 := hc 5
  have h6 := hc 6
  simp only [Matrix.cons_val] at h3 h4 h5 h6
  have v0 := hv 0
  have v1 := hv 1
  have v2 := hv 2
  simp only [SO3.act, transformPoint_explicit, facing]
  fin_cases i
  · refine HasDerivAt.congr_deriv (f := fun t => (s t 3 ^ 2 + s t 4 ^ 2 - s t 5 ^ 2 - s t 6 ^ 2) * v t 0
      + 2 * (s t 4 * s t 5 - s t 3 * s t 6) * v t 1 + 2 * (s t 4 * s t 6 + s t 3 * s t 5) * v t 2)
      ((((((h3.pow 2).add (h4.pow 2)).sub (h5.pow 2)).sub (h6.pow 2)).mul v0).add
        ((((h4.mul h5).sub (h3.mul h6)).const_mul 2).mul v1) |>.add
        ((((h4.mul h6).add (h3.mul h5)).const_mul 2).mul v2)) ?_
    simp [vadd, cross, spin]
    ring
  · refine HasDerivAt.congr_deriv (f := fun t => 2 * (s t 4 * s t 5 + s t 3 * s t 6) * v t 0
      + (s t 3 ^ 2 - s t 4 ^ 2 + s t 5 ^ 2 - s t 6 ^ 2) * v t 1 + 2 * (s t 5 * s t 6 - s t 3 * s t 4) * v t 2)
      (((((h4.mul h5).add (h3.mul h6)).const_mul 2).mul v0).add
        (((((h3.pow 2).sub (h4.pow 2)).add (h5.pow 2)).sub (h6.pow 2)).mul v1) |>.add
        ((((h5.mul h6).sub (h3.mul h4)).const_mul 2).mul v2)) ?_
    simp [vadd, cross, spin]
    ring
  · refine HasDerivAt.congr_deriv (f := fun t => 2 * (s t 4 * s t 6 - s t 3 * s t 5) * v t 0
      + 2 * (s t 5 * s t 6 + s t 3 * s t 4) * v t 1 + (s t 3 ^ 2 - s t 4 ^ 2 - s t 5 ^ 2 + s t 6 ^ 2) * v t 2)
      (((((h4.mul h6).sub (h3.mul h5)).const_mul 2).mul v0).add
        ((((h5.mul h6).add (h3.mul h4)).const_mul 2).mul v1) |>.add
        (((((h3.pow 2).sub (h4.pow 2)).sub (h5.pow 2)).add (h6.pow 2)).mul v2)) ?_
    simp [vadd, cross, spin]
    ring

/-- Where the balance point is and how fast it moves, seen from outside. -/
def comPlace (b : RigidBody ℝ) (s : Fin 13 → ℝ) : Fin 3 → ℝ :=
  vadd (place s) ((facing s).act b.inertia.centerOfMass)
def comSpeed (b : RigidBody ℝ) (s : Fin 13 → ℝ) : Fin 3 → ℝ :=
  vadd (speed s) ((facing s).act (cross (spin s) b.inertia.centerOfMass))

/-- The angular momentum about the balance point, seen from outside. -/
def spinMomentum (b : RigidBody ℝ) (s : Fin 13 → ℝ) : Fin 3 → ℝ :=
  (facing s).act (mmulVec b.inertia.rotationalInertia (spin s))

/-- Kinetic energy, as `SpatialInertia::kinetic_energy` reports it for the body-frame twist, less the work of
gravity. -/
noncomputable def energy (b : RigidBody ℝ) (s : Fin 13 → ℝ) : ℝ :=
  b.inertia.kineticEnergy ⟨(facing s).inverse.act (speed s), spin s⟩
    - b.inertia.mass * vdot b.gravity (b.comPlace s)

theorem motion_parts (b : RigidBody ℝ) (F : ℝ → Wrench ℝ) (s : ℝ → Fin 13 → ℝ) (hs : b.Motion F s) (t : ℝ)
    (hu : (facing (s t)).quaternion.IsUnit) (i : Fin 3) :
    HasDerivAt (fun t => place (s t) i) (speed (s t) i) t
    ∧ HasDerivAt (fun t => speed (s t) i) ((b.accelerations (facing (s t)) (spin (s t)) (F t)).linear i) t
    ∧ HasDerivAt (fun t => spin (s t) i) ((b.accelerations (facing (s t)) (spin (s t)) (F t)).angular i) t := by
  have hc := hasDerivAt_pi.1 (hs t)
  rw [stateDerivative_unit b (s t) (F t) hu] at hc
  fin_cases i
  · exact ⟨hc 0, hc 7, hc 10⟩
  · exact ⟨hc 1, hc 8, hc 11⟩
  · exact ⟨hc 2, hc 9, hc 12⟩

/-- C50. Along every motion, under any wrench that may change with time: the balance point moves at its speed; the
momentum of the balance point changes at the applied force plus the weight; the angular momentum about the balance
point changes at the applied torque about it; and the energy changes at the power of the wrench. -/
theorem motion_balance (b : RigidBody ℝ) (hb : b.Valid) (F : ℝ → Wrench ℝ) (s : ℝ → Fin 13 → ℝ) (hs : b.Motion F s)
    (h0 : (facing (s 0)).quaternion.IsUnit) (t : ℝ) :
    (∀ i, HasDerivAt (fun t => b.comPlace (s t) i) (b.comSpeed (s t) i) t)
    ∧ (∀ i, HasDerivAt (fun t => b.inertia.mass * b.comSpeed (s t) i)
        ((facing (s t)).act (F t).force i + b.inertia.mass * b.gravity i) t)
    ∧ (∀ i, HasDerivAt (fun t => b.spinMomentum (s t) i)
        ((facing (s t)).act (vsub (F t).torque (cross b.inertia.centerOfMass (F t).force)) i) t)
    ∧ HasDerivAt (fun t => b.energy (s t))
        (Twist.dotWrench ⟨(facing (s t)).inverse.act (speed (s t)), spin (s t)⟩ (F t)) t := by
  have hunit : ∀ t, (facing (s t)).quaternion.IsUnit := by
    intro t
    rw [isUnit_normSquared, motion_norm b F s hs t 0, ← isUnit_normSquared]
    exact h0
  obtain ⟨hN, hE⟩ := (accelerations_laws b hb (facing (s t)) (spin (s t)) (F t) _ _).1 ⟨rfl, rfl⟩
  have parts := motion_parts b F s hs t (hunit t)
  set a := b.accelerations (facing (s t)) (spin (s t)) (F t) with ha
  have hP : ∀ i, HasDerivAt (fun t => b.comPlace (s t) i) (b.comSpeed (s t) i) t := by
    intro i
    have h1 := carried b F s hs t (hunit t) (fun _ => b.inertia.centerOfMass) 0 (fun i => hasDerivAt_const _ _) i
    refine HasDerivAt.congr_deriv ((parts i).1.add h1) ?_
    have : vadd 0 (cross (spin (s t)) b.inertia.centerOfMass) = cross (spin (s t)) b.inertia.centerOfMass := by
      funext i; simp [vadd]
    rw [this]
    rfl
  have hV : ∀ i, HasDerivAt (fun t => b.inertia.mass * b.comSpeed (s t) i)
      ((facing (s t)).act (F t).force i + b.inertia.mass * b.gravity i) t := by
    intro i
    have hcr : ∀ i, HasDerivAt (fun t => cross (spin (s t)) b.inertia.centerOfMass i)
        (cross a.angular b.inertia.centerOfMass i) t := by
      intro i
      have p0 := (parts 0).2.2
      have p1 := (parts 1).2.2
      have p2 := (parts 2).2.2
      fin_cases i
      · exact (p1.mul_const _).sub (p2.mul_const _)
      · exact (p2.mul_const _).sub (p0.mul_const _)
      · exact (p0.mul_const _).sub (p1.mul_const _)
    have h1 := carried b F s hs t (hunit t) (fun t => cross (spin (s t)) b.inertia.centerOfMass) _ hcr i
    refine HasDerivAt.congr_deriv (((parts i).2.1.add h1).const_mul b.inertia.mass) ?_
    rw [← hN i, (so3_act_linear _ _ _).1]
    simp only [vadd]
    ring
  have hIw : ∀ i, HasDerivAt (fun t => mmulVec b.inertia.rotationalInertia (spin (s t)) i)
      (mmulVec b.inertia.rotationalInertia a.angular i) t := by
    intro i
    simp only [mulVec3]
    exact (((parts 0).2.2.const_mul _).add ((parts 1).2.2.const_mul _)).add ((parts 2).2.2.const_mul _)
  refine ⟨hP, hV, ?_, ?_⟩
  · intro i
    refine HasDerivAt.congr_deriv (carried b F s hs t (hunit t) _ _ hIw i) ?_
    congr 1
    funext j
    simp only [vadd, vsub]
    rw [← hE j]
  · have hKE : ∀ t, b.energy (s t) = 1 / 2 * b.inertia.mass * (b.comSpeed (s t) 0 ^ 2 + b.comSpeed (s t) 1 ^ 2
        + b.comSpeed (s t) 2 ^ 2)
        + 1 / 2 * (spin (s t) 0 * mmulVec b.inertia.rotationalInertia (spin (s t)) 0
        + spin (s t) 1 * mmulVec b.inertia.rotationalInertia (spin (s t)) 1
        + spin (s t) 2 * mmulVec b.inertia.rotationalInertia (spin (s t)) 2)
        - b.inertia.mass * (b.gravity 0 * b.comPlace (s t) 0 + b.gravity 1 * b.comPlace (s t) 1
        + b.gravity 2 * b.comPlace (s t) 2) := by
      intro t
      have G := fun v w => so3_group (facing (s t)) (facing (s t)) (facing (s t)) (hunit t) (hunit t) v w
      have hv : speed (s t) = (facing (s t)).act ((facing (s t)).inverse.act (speed (s t))) :=
        (G (speed (s t)) 0).2.2.2.2.2.2.2.2.2.2.1.symm
      have hc : b.comSpeed (s t) = (facing (s t)).act (vadd ((facing (s t)).inverse.act (speed (s t)))
          (cross (spin (s t)) b.inertia.centerOfMass)) := by
        rw [(so3_act_linear _ _ _).1, ← hv]
        rfl
      have hd := (G (vadd ((facing (s t)).inverse.act (speed (s t))) (cross (spin (s t)) b.inertia.centerOfMass))
        (vadd ((facing (s t)).inverse.act (speed (s t))) (cross (spin (s t)) b.inertia.centerOfMass))).2.2.2.2.2.2.2.2.2.2.2.1
      rw [← hc, vdot3, vdot3] at hd
      unfold energy SpatialInertia.kineticEnergy
      rw [half_real]
      simp only [Twist.dotWrench, SpatialInertia.momentum, vdot3]
      have : b.comSpeed (s t) 0 ^ 2 + b.comSpeed (s t) 1 ^ 2 + b.comSpeed (s t) 2 ^ 2
          = b.comSpeed (s t) 0 * b.comSpeed (s t) 0 + b.comSpeed (s t) 1 * b.comSpeed (s t) 1
          + b.comSpeed (s t) 2 * b.comSpeed (s t) 2 := by ring
      rw [this, hd]
      simp only [vadd, cross, vscaleBy, Matrix.cons_val_zero, Matrix.cons_val_one, Matrix.cons_val]
      ring
    rw [show (fun t => b.energy (s t)) = _ from funext hKE]
    have hm := hb.mass.ne'
    have hV' : ∀ i, HasDerivAt (fun t => b.comSpeed (s t) i)
        ((facing (s t)).act (F t).force i / b.inertia.mass + b.gravity i) t := by
      intro i
      have h := (hV i).const_mul (1 / b.inertia.mass)
      have e : (fun t => 1 / b.inertia.mass * (b.inertia.mass * b.comSpeed (s t) i)) = fun t => b.comSpeed (s t) i := by
        funext t; field_simp
      rw [e] at h
      refine HasDerivAt.congr_deriv h ?_
      field_simp
    have w := fun i => (parts i).2.2
    refine HasDerivAt.congr_deriv (((((((hV' 0).pow 2).add ((hV' 1).pow 2)).add ((hV' 2).pow 2)).const_mul
      (1 / 2 * b.inertia.mass)).add ((((((w 0).mul (hIw 0))).add ((w 1).mul (hIw 1))).add
        ((w 2).mul (hIw 2))).const_mul (1 / 2))).sub
      (((((hP 0).const_mul (b.gravity 0)).add ((hP 1).const_mul (b.gravity 1))).add
        ((hP 2).const_mul (b.gravity 2))).const_mul b.inertia.mass)) ?_
    have G := fun v w => so3_group (facing (s t)) (facing (s t)) (facing (s t)) (hunit t) (hunit t) v w
    have hv : speed (s t) = (facing (s t)).act ((facing (s t)).inverse.act (speed (s t))) :=
      (G (speed (s t)) 0).2.2.2.2.2.2.2.2.2.2.1.symm
    have hc : b.comSpeed (s t) = (facing (s t)).act (vadd ((facing (s t)).inverse.act (speed (s t)))
        (cross (spin (s t)) b.inertia.centerOfMass)) := by
      rw [(so3_act_linear _ _ _).1, ← hv]
      rfl
    have hd := (G (vadd ((facing (s t)).inverse.act (speed (s t))) (cross (spin (s t)) b.inertia.centerOfMass))
      (F t).force).2.2.2.2.2.2.2.2.2.2.2.1
    rw [← hc, vdot3, vdot3] at hd
    have e0 := hE 0
    have e1 := hE 1
    have e2 := hE 2
    have s01 : b.inertia.rotationalInertia 1 0 = b.inertia.rotationalInertia 0 1 := congrFun (congrFun hb.symm 0) 1
    have s02 : b.inertia.rotationalInertia 2 0 = b.inertia.rotationalInertia 0 2 := congrFun (congrFun hb.symm 0) 2
    have s12 : b.inertia.rotationalInertia 2 1 = b.inertia.rotationalInertia 1 2 := congrFun (congrFun hb.symm 1) 2
    simp only [Twist.dotWrench, vdot3]
    generalize (facing (s t)).inverse.act (speed (s t)) = u at *
    generalize (facing (s t)).act (F t).force = f at *
    generalize b.comSpeed (s t) = V at *
    generalize spin (s t) = om at *
    generalize a.angular = al at *
    simp only [mulVec3, vadd, cross, Matrix.cons_val_zero, Matrix.cons_val_one, Matrix.cons_val, s01, s02, s12] at *
    have k0 : b.inertia.mass * (f 0 / b.inertia.mass) = f 0 := by field_simp
    have k1 : b.inertia.mass * (f 1 / b.inertia.mass) = f 1 := by field_simp
    have k2 : b.inertia.mass * (f 2 / b.inertia.mass) = f 2 := by field_simp
    linear_combination (om 0) * e0 + (om 1) * e1 + (om 2) * e2 + V 0 * k0 + V 1 * k1 + V 2 * k2 + hd

/-- C50. With no wrench applied, energy and angular momentum about the balance point stay what they were for all
time and the balance point keeps to its ballistic path, however the body tumbles. -/
theorem motion_free (b : RigidBody ℝ) (hb : b.Valid) (s : ℝ → Fin 13 → ℝ) (hs : b.Motion (fun _ => ⟨0, 0⟩) s)
    (h0 : (facing (s 0)).quaternion.IsUnit) (t : ℝ) :
    b.energy (s t) = b.energy (s 0)
    ∧ b.spinMomentum (s t) = b.spinMomentum (s 0)
    ∧ (∀ i, b.comSpeed (s t) i = b.comSpeed (s 0) i + b.gravity i * t)
    ∧ ∀ i, b.comPlace (s t) i = b.comPlace (s 0) i + b.comSpeed (s 0) i * t + b.gravity i * t ^ 2 / 2 := by
  have B := motion_balance b hb (fun _ => ⟨0, 0⟩) s hs h0
  have hm := hb.mass.ne'
  have hact : ∀ p : SO3 ℝ, p.act 0 = 0 := by
    intro p
    apply vec3_ext <;> simp [SO3.act, transformPoint_explicit]
  have hz : cross b.inertia.centerOfMass (0 : Fin 3 → ℝ) = 0 := by
    apply vec3_ext <;> simp [cross]
  have hz' : vsub (0 : Fin 3 → ℝ) 0 = 0 := by funext i; simp [vsub]
  have const : ∀ f : ℝ → ℝ, (∀ t, HasDerivAt f 0 t) → ∀ t, f t = f 0 := fun f h t =>
    is_const_of_deriv_eq_zero (fun t => (h t).differentiableAt) (fun t => (h t).deriv) t 0
  have hspeed : ∀ t i, b.comSpeed (s t) i = b.comSpeed (s 0) i + b.gravity i * t := by
    intro t i
    have := const (fun t => b.inertia.mass * b.comSpeed (s t) i - b.inertia.mass * (b.gravity i * t)) (fun t => by
      refine HasDerivAt.congr_deriv (((B t).2.1 i).sub (((hasDerivAt_id t).const_mul (b.gravity i)).const_mul
        b.inertia.mass)) ?_
      simp [hact]) t
    simp only [mul_zero, sub_zero] at this
    have h2 : b.inertia.mass * (b.comSpeed (s t) i - (b.comSpeed (s 0) i + b.gravity i * t)) = 0 := by
      linear_combination this
    have := (mul_eq_zero.1 h2).resolve_left hm
    linarith
  refine ⟨?_, ?_, hspeed t, ?_⟩
  · refine const (fun t => b.energy (s t)) (fun t => HasDerivAt.congr_deriv (B t).2.2.2 ?_) t
    simp [Twist.dotWrench, vdot3]
  · funext i
    refine const (fun t => b.spinMomentum (s t) i) (fun t => HasDerivAt.congr_deriv ((B t).2.2.1 i) ?_) t
    simp [hz, hz', hact]
  · intro i
    have := const (fun t => b.comPlace (s t) i - (b.comSpeed (s 0) i * t + b.gravity i * t ^ 2 / 2)) (fun t => by
      refine HasDerivAt.congr_deriv (((B t).1 i).sub (((hasDerivAt_id t).const_mul (b.comSpeed (s 0) i)).add
        ((((hasDerivAt_id t).pow 2).const_mul (b.gravity i)).div_const 2))) ?_
      simp [hspeed t i]
      ring) t
    simp only [mul_zero, zero_pow (two_ne_zero), zero_div, add_zero, sub_zero] at this
    linarith

/-- A body to try things on: it weighs two, turns most easily about its first axis, and falls. -/
noncomputable def sample (c : Fin 3 → ℝ) : RigidBody ℝ :=
  ⟨⟨2, c, !![1, 0, 0; 0, 2, 0; 0, 0, 4]⟩, !![1, 0, 0; 0, 1 / 2, 0; 0, 0, 1 / 4], ![0, 0, -10]⟩

theorem sample_valid (c : Fin 3 → ℝ) : (sample c).Valid := by
  refine ⟨by norm_num [sample], ?_, ?_⟩ <;> ext i j <;> fin_cases i <;> fin_cases j <;>
    simp [sample, Matrix.mul_apply, Fin.sum_univ_three]

/-- The sample's inertia meets the hypotheses of `rigid_body_new`, off its balance point. -/
example : 0 < (sample ![1, 2, 3]).inertia.mass ∧ (sample ![1, 2, 3]).inertia.rotationalInertiaᵀ
    = (sample ![1, 2, 3]).inertia.rotationalInertia := ⟨(sample_valid _).mass, (sample_valid _).symm⟩

/-- A body that is not positive definite, for the second half of `rigid_body_new`. -/
example : ∃ x : Fin 3 → ℝ, x ≠ 0 ∧ x ⬝ᵥ (!![1, 2, 0; 2, 1, 0; 0, 0, 1] : Matrix (Fin 3) (Fin 3) ℝ) *ᵥ x ≤ 0 := by
  refine ⟨![1, -1, 0], fun h => by simpa using congrFun h 0, ?_⟩
  simp [mulVec, dotProduct, Fin.sum_univ_three]

/-- A motion of the sample: it spins about its third axis while it flies a parabola. -/
noncomputable def sampleMotion (t : ℝ) : Fin 13 → ℝ :=
  ![3 * t, 0, 1 - 5 * t ^ 2, Real.cos (t / 2), 0, 0, Real.sin (t / 2), 3, 0, -10 * t, 0, 0, 1]

/-- The sample motion is one, so the hypotheses of `motion_norm`, `motion_balance` and `motion_free` are met. -/
example : (sample 0).Motion (fun _ => ⟨0, 0⟩) sampleMotion ∧ (facing (sampleMotion 0)).quaternion.IsUnit := by
  have hu : ∀ t, (facing (sampleMotion t)).quaternion.IsUnit := by
    intro t
    rw [isUnit_normSquared]
    have := Real.sin_sq_add_cos_sq (t / 2)
    simp only [facing, sampleMotion, Quat.normSquared, Matrix.cons_val]
    nlinarith
  refine ⟨fun t => ?_, hu 0⟩
  rw [hasDerivAt_pi, stateDerivative_unit _ _ _ (hu t)]
  have hh : HasDerivAt (fun t : ℝ => t / 2) (1 / 2) t := (hasDerivAt_id t).div_const 2
  have ha : (sample 0).accelerations (facing (sampleMotion t)) (spin (sampleMotion t)) ⟨0, 0⟩ = ⟨![0, 0, -10], 0⟩ := by
    have := (accelerations_laws _ (sample_valid 0) (facing (sampleMotion t)) (spin (sampleMotion t)) ⟨0, 0⟩
      ![0, 0, -10] 0).2 ⟨?_, ?_⟩
    · exact acceleration_ext this
    · intro i
      fin_cases i <;> simp [sample, cross, SO3.act, transformPoint_explicit]
    · intro i
      rw [mulVec3]
      fin_cases i <;> simp [sample, cross, mulVec3, spin, sampleMotion]
  rw [ha]
  intro i
  fin_cases i
  · refine ((hasDerivAt_id t).const_mul 3).congr_deriv ?_
    simp [sampleMotion]
  · exact hasDerivAt_const _ _
  · refine ((((hasDerivAt_id t).pow 2).const_mul 5).const_sub 1).congr_deriv ?_
    simp [sampleMotion]
    ring
  · refine (hh.cos).congr_deriv ?_
    simp [sampleMotion]
    ring
  · exact (hasDerivAt_const _ _).congr_deriv (by simp [sampleMotion])
  · exact (hasDerivAt_const _ _).congr_deriv (by simp [sampleMotion])
  · refine (hh.sin).congr_deriv ?_
    simp [sampleMotion]
    ring
  · exact hasDerivAt_const _ _
  · exact hasDerivAt_const _ _
  · refine ((hasDerivAt_id t).const_mul (-10)).congr_deriv ?_
    simp
  · exact hasDerivAt_const _ _
  · exact hasDerivAt_const _ _
  · exact hasDerivAt_const _ _

/-! ### The step -/

theorem act_scale (p : SO3 ℝ) (v : Fin 3 → ℝ) (k : ℝ) : p.act (vscaleBy v k) = vscaleBy (p.act v) k := by
  apply vec3_ext <;> simp [SO3.act, transformPoint_explicit, vscaleBy] <;> ring

/-- C50. A step of a body whose balance point is its origin, spinning and twisted about one of its principal axes
(`I e = λ e`, rate `r e`, torque `k e`), under any force: the spin gains `k h / λ`, the body turns by exactly the
angle `r h + k h² / (2 λ)`, and the velocity gains what the force gives with the body half way round. -/
theorem step_axis (b : RigidBody ℝ) (hb : b.Valid) (hc : b.inertia.centerOfMass = 0) (e : Fin 3 → ℝ) (lam : ℝ)
    (hl : lam ≠ 0) (he : ∀ i, mmulVec b.inertia.rotationalInertia e i = lam * e i) (o : SO3 ℝ) (p v f : Fin 3 → ℝ)
    (r k h : ℝ) :
    b.stepped ⟨⟨o, p⟩, ⟨v, vscaleBy e r⟩⟩ ⟨f, vscaleBy e k⟩ h
      = ⟨⟨attitudeStep o e (r * h + k * h ^ 2 / (2 * lam)),
          fun i => p i + h * v i + h ^ 2 / 2 * (o.act f i / b.inertia.mass + b.gravity i)⟩,
        ⟨fun i => v i + h * ((attitudeStep o e (r * h / 2)).act f i / b.inertia.mass + b.gravity i),
          vscaleBy e (r + k * h / lam)⟩⟩ := by
  have hm := hb.mass.ne'
  have hacc : ∀ (q : SO3 ℝ) (w : ℝ), b.accelerations q (vscaleBy e w) ⟨f, vscaleBy e k⟩
      = ⟨fun i => q.act f i / b.inertia.mass + b.gravity i, vscaleBy e (k / lam)⟩ := by
    intro q w
    have hI : ∀ x i, mmulVec b.inertia.rotationalInertia (vscaleBy e x) i = lam * e i * x := by
      intro x i
      have := he i
      rw [mulVec3] at this ⊢
      simp only [vscaleBy]
      linear_combination x * this
    have z1 : ∀ a : Fin 3 → ℝ, cross a 0 = 0 := by intro a; apply vec3_ext <;> simp [cross]
    have z2 : q.act 0 = 0 := by apply vec3_ext <;> simp [SO3.act, transformPoint_explicit]
    have := (accelerations_laws b hb q (vscaleBy e w) ⟨f, vscaleBy e k⟩
      (fun i => q.act f i / b.inertia.mass + b.gravity i) (vscaleBy e (k / lam))).2 ⟨?_, ?_⟩
    · exact acceleration_ext this
    · intro i
      rw [hc, z1, z1, z1, z2]
      simp only [Pi.zero_apply]
      field_simp
      ring
    · intro i
      rw [hI]
      have z3 : cross (vscaleBy e w) (mmulVec b.inertia.rotationalInertia (vscaleBy e w)) = 0 := by
        apply vec3_ext <;> simp only [cross, Matrix.cons_val_zero, Matrix.cons_val_one, Matrix.cons_val, hI, vscaleBy,
          Pi.zero_apply] <;> ring
      have z4 : cross (0 : Fin 3 → ℝ) f = 0 := by apply vec3_ext <;> simp [cross]
      rw [z3, hc, z4]
      simp only [vscaleBy, Pi.zero_apply]
      field_simp
      ring
  have hadd : ∀ x y z : ℝ, vadd (vscaleBy e x) (vscaleBy (vscaleBy e y) z) = vscaleBy e (x + y * z) := by
    intro x y z; funext i; simp only [vadd, vscaleBy]; ring
  have hstep : ∀ x y : ℝ, attitudeStep o (vscaleBy e x) y = attitudeStep o e (x * y) := by
    intro x y
    unfold attitudeStep
    rw [vscaleBy_vscaleBy]
  simp only [stepped, hacc, hadd, hstep, half_real]
  congr 2
  · congr 1
    field_simp
  · funext i
    simp only [vadd, vscaleBy]
    ring
  · funext i
    simp only [vadd, vscaleBy]
    rw [show r * (h * (1 / 2)) = r * h / 2 by ring]
    ring
  · congr 1
    field_simp

/-- C50. A body that does not turn, pushed through its balance point wherever that is (`τ = c × f`): one step is
exact, giving constant acceleration `R f / m + g`, and so are any number of steps. -/
theorem step_straight (b : RigidBody ℝ) (hb : b.Valid) (o : SO3 ℝ) (ho : o.quaternion.IsUnit) (p v f : Fin 3 → ℝ)
    (h : ℝ) (n : ℕ) :
    (fun s => b.stepped s ⟨f, cross b.inertia.centerOfMass f⟩ h)^[n] ⟨⟨o, p⟩, ⟨v, 0⟩⟩
      = ⟨⟨o, fun i => p i + (n * h) * v i + (n * h) ^ 2 / 2 * (o.act f i / b.inertia.mass + b.gravity i)⟩,
        ⟨fun i => v i + (n * h) * (o.act f i / b.inertia.mass + b.gravity i), 0⟩⟩ := by
  have hm := hb.mass.ne'
  have z1 : ∀ a : Fin 3 → ℝ, cross 0 a = 0 := by intro a; apply vec3_ext <;> simp [cross]
  have z2 : o.act 0 = 0 := by apply vec3_ext <;> simp [SO3.act, transformPoint_explicit]
  have hacc : b.accelerations o 0 ⟨f, cross b.inertia.centerOfMass f⟩
      = ⟨fun i => o.act f i / b.inertia.mass + b.gravity i, 0⟩ := by
    have := (accelerations_laws b hb o 0 ⟨f, cross b.inertia.centerOfMass f⟩
      (fun i => o.act f i / b.inertia.mass + b.gravity i) 0).2 ⟨?_, ?_⟩
    · exact acceleration_ext this
    · intro i
      rw [z1, z1, z2]
      simp only [Pi.zero_apply]
      field_simp
      ring
    · intro i
      rw [z1, mulVec3]
      simp
  have e : ∀ k : ℝ, vscaleBy (0 : Fin 3 → ℝ) k = 0 := by intro k; funext i; simp [vscaleBy]
  have hst : ∀ k, attitudeStep o 0 k = o := by
    intro k
    rw [attitudeStep, e, attitude_exp_zero, (so3_group o o o ho ho 0 0).2.2.2.2.1]
  have z5 : vadd (0 : Fin 3 → ℝ) 0 = 0 := by funext i; simp [vadd]
  have one : ∀ p v : Fin 3 → ℝ, b.stepped ⟨⟨o, p⟩, ⟨v, 0⟩⟩ ⟨f, cross b.inertia.centerOfMass f⟩ h
      = ⟨⟨o, fun i => p i + h * v i + h ^ 2 / 2 * (o.act f i / b.inertia.mass + b.gravity i)⟩,
        ⟨fun i => v i + h * (o.act f i / b.inertia.mass + b.gravity i), 0⟩⟩ := by
    intro p v
    simp only [stepped, hacc, hst, e, z5, half_real]
    congr 2 <;> funext i <;> simp only [vadd, vscaleBy] <;> ring
  induction n with
  | zero => simp
  | succ n ih =>
    rw [Function.iterate_succ_apply', ih, one]
    congr 2 <;> funext i <;> push_cast <;> ring

/-- C50. Free spin about a principal axis: after any number of steps the body has turned about that axis by exactly
rate times time, spins as it did, and has fallen exactly as far as gravity takes it. -/
theorem steps_free_spin (b : RigidBody ℝ) (hb : b.Valid) (hc : b.inertia.centerOfMass = 0) (e : Fin 3 → ℝ) (lam : ℝ)
    (hl : lam ≠ 0) (he : ∀ i, mmulVec b.inertia.rotationalInertia e i = lam * e i) (o : SO3 ℝ) (p v : Fin 3 → ℝ)
    (r h : ℝ) (hr : 30 / 2 ^ 52 ≤ |r * h| * vnorm e) (n : ℕ) (hn : 0 < n) :
    (fun s => b.stepped s ⟨0, 0⟩ h)^[n] ⟨⟨o, p⟩, ⟨v, vscaleBy e r⟩⟩
      = ⟨⟨attitudeStep o e (r * (n * h)), fun i => p i + (n * h) * v i + (n * h) ^ 2 / 2 * b.gravity i⟩,
        ⟨fun i => v i + (n * h) * b.gravity i, vscaleBy e r⟩⟩ := by
  have z : vscaleBy e 0 = 0 := by funext i; simp [vscaleBy]
  have z2 : ∀ q : SO3 ℝ, q.act 0 = 0 := by
    intro q; apply vec3_ext <;> simp [SO3.act, transformPoint_explicit]
  have one : ∀ (o : SO3 ℝ) (p v : Fin 3 → ℝ), b.stepped ⟨⟨o, p⟩, ⟨v, vscaleBy e r⟩⟩ ⟨0, 0⟩ h
      = ⟨⟨attitudeStep o e (r * h), fun i => p i + h * v i + h ^ 2 / 2 * b.gravity i⟩,
        ⟨fun i => v i + h * b.gravity i, vscaleBy e r⟩⟩ := by
    intro o p v
    have := step_axis b hb hc e lam hl he o p v 0 r 0 h
    rw [z] at this
    rw [this]
    simp [z2]
  induction n with
  | zero => exact absurd hn (lt_irrefl 0)
  | succ n ih =>
    rcases Nat.eq_zero_or_pos n with rfl | hn'
    · simp [one]
    · rw [Function.iterate_succ_apply', ih hn', one]
      have hn1 : (1 : ℝ) ≤ n := by exact_mod_cast hn'
      have hstep : attitudeStep (attitudeStep o e (r * (n * h))) e (r * h) = attitudeStep o e (r * (((n + 1 : ℕ) : ℝ) * h)) := by
        have := (attitude_steps_add o e (r * (n * h)) (r * h) ?_ hr).1 ?_
        · rw [this]; congr 1; push_cast; ring
        · rw [show r * (n * h) = n * (r * h) by ring, abs_mul, Nat.abs_cast]
          have : 0 ≤ |r * h| * vnorm e := mul_nonneg (abs_nonneg _) (vnorm_nonneg e)
          nlinarith
        · rw [show r * (n * h) + r * h = (n + 1) * (r * h) by ring, abs_mul, abs_of_pos (by positivity : (0 : ℝ) < n + 1)]
          have : 0 ≤ |r * h| * vnorm e := mul_nonneg (abs_nonneg _) (vnorm_nonneg e)
          nlinarith
      rw [hstep]
      congr 2 <;> funext i <;> push_cast <;> ring

/-- The sample body with its balance point at the origin, spinning about its third axis, meets the hypotheses of
`step_axis` and `steps_free_spin`. -/
example : (sample 0).Valid ∧ (sample 0).inertia.centerOfMass = 0 ∧ (4 : ℝ) ≠ 0 ∧
    (∀ i, mmulVec (sample 0).inertia.rotationalInertia ![0, 0, 1] i = 4 * (![0, 0, 1] : Fin 3 → ℝ) i) ∧
    30 / 2 ^ 52 ≤ |(2 : ℝ) * (1 / 100)| * vnorm (![0, 0, 1] : Fin 3 → ℝ) := by
  refine ⟨sample_valid 0, rfl, by norm_num, ?_, ?_⟩
  · intro i
    rw [mulVec3]
    fin_cases i <;> simp [sample]
  · have : vnorm (![0, 0, 1] : Fin 3 → ℝ) = 1 := by rw [vnorm, real_sqrt, vnormSquared, vdot3]; simp
    rw [this, abs_of_pos (by norm_num)]
    norm_num

/-! ### State vectors -/

/-- C50. A state whose facing is a rotation survives the trip through the state vector and back; and the derivative
at that vector is the velocity, the turn of the facing, and the accelerations. -/
theorem state_vector_round_trip (s : FreeJointState ℝ) (h : s.pose.rotation.quaternion.IsUnit) :
    freeJointFromStateVector (stateVectorFromFreeJoint s) = some s := by
  obtain ⟨⟨⟨q⟩, p⟩, ⟨v, w⟩⟩ := s
  unfold freeJointFromStateVector FreeJointState.fromGeneralizedVectors
  have hq : (Quat.mk q.w q.x q.y q.z).tryNormalized = some q := tryNormalized_unit q h
  simp only [stateVectorFromFreeJoint, FreeJointState.generalizedPosition, FreeJointState.generalizedVelocity,
    Twist.toVector]
  have e1 : SO3.fromQuaternion q = ⟨q⟩ := by unfold SO3.fromQuaternion; rw [quat_normalized_unit _ h]
  simp [hq, e1]
  refine ⟨?_, ?_, ?_⟩ <;> apply vec3_ext <;> simp

/-- C50 (finding). The derivative is all zeros, so the body hangs still in the air, not only for the all-zero
orientation the documentation names but for every orientation of length at most `2^-52`. -/
theorem state_derivative_tiny (b : RigidBody ℝ) (s : Fin 13 → ℝ) (F : Wrench ℝ)
    (h : (facing s).quaternion.norm ≤ 1 / 2 ^ 52) : b.stateDerivative s F = 0 := by
  unfold stateDerivative
  dsimp only
  rw [show (Quat.mk (s 3) (s 4) (s 5) (s 6)).tryNormalized = none from by
    unfold Quat.tryNormalized
    rw [if_pos]
    simp only [Bool.or_eq_true, decide_eq_true_eq]
    right
    simpa [Fns.epsilon, facing] using h]
  rfl

end RigidBody
end Multicalc
