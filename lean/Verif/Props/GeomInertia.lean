import Verif.Lemmas.Solids
import Verif.Model.Mjcf
import Verif.Props.Directions
import Verif.Props.Attitude

/-!
# Mass properties read from MJCF geoms (C109)
-/

open MeasureTheory Set Matrix

namespace Multicalc.Mjcf

/-- The points of a ball of radius `r`. -/
def ballSet (r : ℝ) : Set Pt := {p | p.1.1 ^ 2 + p.1.2 ^ 2 + p.2 ^ 2 ≤ r ^ 2}

theorem ballSet_eq (r : ℝ) (hr : 0 < r) : ballSet r = ellipsoidSet r r r := by
  ext p
  simp only [ballSet, ellipsoidSet, mem_ofPred_eq, div_pow]
  rw [← add_div, ← add_div, div_le_one (by positivity)]

/-- The region of its own frame that a geom fills: which attributes it may state, and the points they
mean.  `along` is the distance between the two points of `fromto`, when that is stated. -/
inductive Fills : Option String → List ℝ → Option ℝ → Set Pt → Prop
  | assumed (r : ℝ) : Fills none [r] none (ballSet r)
  | sphere (r : ℝ) : Fills (some "sphere") [r] none (ballSet r)
  | ellipsoid (a b c : ℝ) : Fills (some "ellipsoid") [a, b, c] none (ellipsoidSet a b c)
  | box (a b c : ℝ) : Fills (some "box") [a, b, c] none (boxSet a b c)
  | cylinder (r h : ℝ) : Fills (some "cylinder") [r, h] none (cylinderSet r h)
  | cylinderAlong (r : ℝ) (rest : List ℝ) (l : ℝ) :
      Fills (some "cylinder") (r :: rest) (some l) (cylinderSet r (l / 2))
  | capsule (r h : ℝ) : Fills (some "capsule") [r, h] none (capsuleSet r h)
  | capsuleAlong (r : ℝ) (rest : List ℝ) (l : ℝ) :
      Fills (some "capsule") (r :: rest) (some l) (capsuleSet r (l / 2))

/-- The distance between the two points of a `fromto`. -/
noncomputable def spanOf (ends : Fin 6 → ℝ) : ℝ :=
  Real.sqrt ((ends 3 - ends 0) ^ 2 + (ends 4 - ends 1) ^ 2 + (ends 5 - ends 2) ^ 2)

/-- Where the points of a geom's own frame lie in the body: turned by a unit quaternion and moved.
With `fromto` the two points it states are where the ends of the axis come to lie; without it, `pos`
is where the origin lies and `quat` gives the turn, up to its length. -/
def Places (s : GeomDefaults ℝ) (place : Pt → Fin 3 → ℝ) : Prop :=
  ∃ (q : Quat ℝ) (c : Fin 3 → ℝ), q.IsUnit ∧ (∀ p i, place p i = c i + q.transformPoint (coord p) i) ∧
    match s.fromto with
    | some ends => s.pos = none ∧ place ((0, 0), -(spanOf ends / 2)) = ![ends 0, ends 1, ends 2] ∧
        place ((0, 0), spanOf ends / 2) = ![ends 3, ends 4, ends 5]
    | none => c = s.pos.getD 0 ∧
        ∃ k > 0, s.quat.getD ![1, 0, 0, 0] = ![k * q.w, k * q.x, k * q.y, k * q.z]

/-- The mass, the center of mass and the inertia about it, of matter of density `ρ` that fills `S` and
is placed by `place`. -/
def Weighs (g : GeomMass ℝ) (S : Set Pt) (place : Pt → Fin 3 → ℝ) (ρ : ℝ) : Prop :=
  IsCompact S ∧ (∀ i, Continuous fun p => place p i) ∧
  g.mass = ρ * ∫ _ in S, (1 : ℝ) ∧
  (∀ i, g.mass * g.center i = ρ * ∫ p in S, place p i) ∧
  ∀ i j, g.inertia i j = ρ * ∫ p in S, ((if i = j then ∑ k, (place p k - g.center k) ^ 2 else 0) -
    (place p i - g.center i) * (place p j - g.center j))

theorem coord_continuous (k : Fin 3) : Continuous fun p : Pt => coord p k := by
  fin_cases k <;> simp only [coord] <;> fun_prop

theorem _root_.Multicalc.Moments.integrable {S : Set Pt} {V : ℝ} {s : Fin 3 → ℝ} (h : Moments S V s)
    {f : Pt → ℝ} (hf : Continuous f) : IntegrableOn f S :=
  hf.continuousOn.integrableOn_compact h.compact

theorem _root_.Multicalc.Moments.linear {S : Set Pt} {V : ℝ} {s : Fin 3 → ℝ} (h : Moments S V s)
    (A : Fin 3 → ℝ) : ∫ p in S, (∑ k, A k * coord p k) = 0 := by
  rw [integral_finset_sum _ fun k _ => h.integrable (by have := coord_continuous k; fun_prop)]
  simp [integral_const_mul, h.first]

theorem _root_.Multicalc.Moments.bilinear {S : Set Pt} {V : ℝ} {s : Fin 3 → ℝ} (h : Moments S V s)
    (A B : Fin 3 → ℝ) :
    ∫ p in S, (∑ k, A k * coord p k) * (∑ l, B l * coord p l) = V * ∑ k, A k * B k * s k := by
  have e : ∀ p : Pt, (∑ k, A k * coord p k) * (∑ l, B l * coord p l) =
      ∑ k, ∑ l, (A k * B l) * (coord p k * coord p l) := by
    intro p
    rw [Finset.sum_mul_sum]
    refine Finset.sum_congr rfl fun k _ => Finset.sum_congr rfl fun l _ => by ring
  simp only [e]
  have hc : ∀ k l : Fin 3, Continuous fun p : Pt => (A k * B l) * (coord p k * coord p l) := by
    intro k l
    have := coord_continuous k
    have := coord_continuous l
    fun_prop
  rw [integral_finset_sum _ fun k _ => h.integrable (continuous_finset_sum _ fun l _ => hc k l)]
  rw [Finset.mul_sum]
  refine Finset.sum_congr rfl fun k _ => ?_
  rw [integral_finset_sum _ fun l _ => h.integrable (hc k l)]
  simp only [integral_const_mul, h.second]
  simp
  ring

theorem turnedTensor_entry (q : Quat ℝ) (d : Fin 3 → ℝ) (i j : Fin 3) :
    turnedTensor q d i j = ∑ k, q.toRotationMatrix i k * q.toRotationMatrix j k * d k := by
  have e : mdiagonal d = Matrix.diagonal d := by
    ext a b
    simp only [mdiagonal, Matrix.diagonal_apply]
    by_cases h : a = b
    · simp [h]
    · simp [h, Ne.symm h]
  rw [turnedTensor, mmul_eq, mmul_eq, mtranspose_eq, e, Matrix.mul_apply]
  refine Finset.sum_congr rfl fun k _ => ?_
  rw [Matrix.mul_diagonal, Matrix.transpose_apply]
  ring

theorem rotation_rows (q : Quat ℝ) (hq : q.IsUnit) (i j : Fin 3) :
    ∑ k, q.toRotationMatrix i k * q.toRotationMatrix j k = if i = j then 1 else 0 := by
  obtain ⟨h, -⟩ := toRotationMatrix_spec q q hq hq 0
  rw [mmul_eq, mtranspose_eq, midentity_eq] at h
  have h' := mul_eq_one_comm.1 h
  have := congrFun (congrFun h' i) j
  rw [Matrix.mul_apply, Matrix.one_apply] at this
  exact this

theorem rotation_columns (q : Quat ℝ) (hq : q.IsUnit) (k l : Fin 3) :
    ∑ i, q.toRotationMatrix i k * q.toRotationMatrix i l = if k = l then 1 else 0 := by
  obtain ⟨h, -⟩ := toRotationMatrix_spec q q hq hq 0
  rw [mmul_eq, mtranspose_eq, midentity_eq] at h
  have := congrFun (congrFun h k) l
  rw [Matrix.mul_apply, Matrix.one_apply] at this
  exact this

/-- A solid with known moments, turned and moved. -/
theorem weighs_of_moments {S : Set Pt} {V : ℝ} {s : Fin 3 → ℝ} (h : Moments S V s) (q : Quat ℝ)
    (hq : q.IsUnit) (c : Fin 3 → ℝ) (ρ : ℝ) :
    Weighs ⟨ρ * V, c, turnedTensor q ![ρ * V * (s 1 + s 2), ρ * V * (s 0 + s 2), ρ * V * (s 0 + s 1)]⟩ S
      (fun p i => c i + q.transformPoint (coord p) i) ρ := by
  have hv : ∀ p i, q.transformPoint (coord p) i = ∑ k, q.toRotationMatrix i k * coord p k := by
    intro p i
    obtain ⟨-, -, h3, -⟩ := toRotationMatrix_spec q q hq hq (coord p)
    rw [← h3, mmulVec_eq]
    rfl
  refine ⟨h.compact, fun i => ?_, by rw [h.volume], fun i => ?_, fun i j => ?_⟩
  · simp only [hv]
    exact continuous_const.add (continuous_finset_sum _ fun k _ => by have := coord_continuous k; fun_prop)
  · simp only [hv]
    rw [integral_add (h.integrable (by fun_prop))
      (h.integrable (continuous_finset_sum _ fun k _ => by have := coord_continuous k; fun_prop)), h.linear]
    have : ∫ _ in S, c i = c i * V := by
      rw [← h.volume, ← integral_const_mul]
      simp
    rw [this]
    ring
  · simp only [hv, add_sub_cancel_left]
    have hsq : ∀ p : Pt, ∑ k, (∑ l, q.toRotationMatrix k l * coord p l) ^ 2 =
        ∑ k, (∑ l, (if k = l then 1 else 0) * coord p l) * (∑ l, (if k = l then 1 else 0) * coord p l) := by
      intro p
      have hcol := rotation_columns q hq
      have c00 := hcol 0 0; have c01 := hcol 0 1; have c02 := hcol 0 2
      have c11 := hcol 1 1; have c12 := hcol 1 2; have c22 := hcol 2 2
      simp only [Fin.sum_univ_three, ↓reduceIte, Fin.isValue, one_mul, zero_mul] at c00 c01 c02 c11 c12 c22 ⊢
      simp only [show ((0 : Fin 3) = 1) = False by simp, show ((0 : Fin 3) = 2) = False by simp,
        show ((1 : Fin 3) = 0) = False by simp, show ((1 : Fin 3) = 2) = False by simp,
        show ((2 : Fin 3) = 0) = False by simp, show ((2 : Fin 3) = 1) = False by simp, if_false, zero_mul, add_zero,
        zero_add] at c01 c02 c12 ⊢
      linear_combination (coord p 0) ^ 2 * c00 + (coord p 1) ^ 2 * c11 + (coord p 2) ^ 2 * c22 +
        2 * coord p 0 * coord p 1 * c01 + 2 * coord p 0 * coord p 2 * c02 + 2 * coord p 1 * coord p 2 * c12
    have hcont : ∀ A : Fin 3 → ℝ, Continuous fun p : Pt => ∑ l, A l * coord p l := fun A =>
      continuous_finset_sum _ fun l _ => by have := coord_continuous l; fun_prop
    have hprod : ∀ A B : Fin 3 → ℝ, Continuous fun p : Pt => (∑ l, A l * coord p l) * (∑ l, B l * coord p l) :=
      fun A B => (hcont A).mul (hcont B)
    have hsqc : Continuous fun p : Pt => ∑ k, (∑ l, q.toRotationMatrix k l * coord p l) ^ 2 :=
      continuous_finset_sum _ fun k _ => (hcont _).pow 2
    have htr : ∫ p in S, (∑ k, (∑ l, q.toRotationMatrix k l * coord p l) ^ 2) = V * (s 0 + s 1 + s 2) := by
      simp only [hsq]
      rw [integral_finset_sum _ fun k _ => h.integrable (hprod (fun l => if k = l then 1 else 0) fun l => if k = l then 1 else 0)]
      have hk : ∀ k : Fin 3, ∫ p in S, (∑ l, (if k = l then (1 : ℝ) else 0) * coord p l) *
          (∑ l, (if k = l then (1 : ℝ) else 0) * coord p l) = V * s k := fun k => by
        rw [h.bilinear]
        simp
      rw [Finset.sum_congr rfl fun k _ => hk k, Fin.sum_univ_three]
      ring
    have hb := h.bilinear (fun l => q.toRotationMatrix i l) (fun l => q.toRotationMatrix j l)
    rw [turnedTensor_entry]
    by_cases hij : i = j
    · simp only [if_pos hij]
      rw [integral_sub (h.integrable hsqc) (h.integrable (hprod _ _)),
        htr, hb]
      have hr := rotation_rows q hq i j
      rw [if_pos hij] at hr
      simp only [Fin.sum_univ_three] at hr ⊢
      simp only [Matrix.cons_val]
      linear_combination ρ * V * (s 0 + s 1 + s 2) * hr
    · simp only [if_neg hij, zero_sub]
      rw [integral_neg, hb]
      have hr := rotation_rows q hq i j
      rw [if_neg hij] at hr
      simp only [Fin.sum_univ_three] at hr ⊢
      simp only [Matrix.cons_val]
      linear_combination ρ * V * (s 0 + s 1 + s 2) * hr

/-- The region a shape with given extents fills. -/
def solidOf (shape : Shape) (e : Fin 3 → ℝ) : Set Pt :=
  match shape with
  | .sphere => ballSet (e 0)
  | .ellipsoid => ellipsoidSet (e 0) (e 1) (e 2)
  | .box => boxSet (e 0) (e 1) (e 2)
  | .cylinder => cylinderSet (e 0) (e 2)
  | .capsule => capsuleSet (e 0) (e 2)

/-- C109. The volume and the mean square extents used for each shape are those of the shape: the
integrals of `1`, of each coordinate and of each product of two coordinates over the ball, the
ellipsoid, the box, the cylinder and the capsule. -/
theorem geom_volume_spread (shape : Shape) (e : Fin 3 → ℝ) (he : ∀ i, 0 < e i)
    (hs : shape = .sphere → e 1 = e 0 ∧ e 2 = e 0) :
    Moments (solidOf shape e) (volumeSpread shape e).1 (volumeSpread shape e).2 ∧
    0 < (volumeSpread shape e).1 ∧ ∀ i, 0 < (volumeSpread shape e).2 i := by
  have h0 := he 0; have h1 := he 1; have h2 := he 2
  have hp := Real.pi_pos
  have pi_eq : (Fns.pi : ℝ) = Real.pi := rfl
  cases shape with
  | sphere =>
    obtain ⟨e1, e2⟩ := hs rfl
    have := ellipsoid_moments (e 0) (e 0) (e 0) h0 h0 h0
    rw [← ballSet_eq _ h0] at this
    refine ⟨?_, ?_, fun i => ?_⟩
    · simpa only [solidOf, volumeSpread, e1, e2, pi_eq, Nat.cast_ofNat] using this
    · simp only [volumeSpread, pi_eq]; positivity
    · fin_cases i <;> simp [volumeSpread] <;> positivity
  | ellipsoid =>
    refine ⟨?_, ?_, fun i => ?_⟩
    · simpa only [solidOf, volumeSpread, pi_eq, Nat.cast_ofNat] using ellipsoid_moments _ _ _ h0 h1 h2
    · simp only [volumeSpread, pi_eq]; positivity
    · fin_cases i <;> simp [volumeSpread] <;> positivity
  | box =>
    refine ⟨?_, ?_, fun i => ?_⟩
    · simpa only [solidOf, volumeSpread, pi_eq, Nat.cast_ofNat] using box_moments _ _ _ h0.le h1.le h2.le
    · simp only [volumeSpread]; positivity
    · fin_cases i <;> simp [volumeSpread] <;> positivity
  | cylinder =>
    refine ⟨?_, ?_, fun i => ?_⟩
    · simpa only [solidOf, volumeSpread, pi_eq, Nat.cast_ofNat] using cylinder_moments (e 0) _ h2.le
    · simp only [volumeSpread, pi_eq]; positivity
    · fin_cases i <;> simp [volumeSpread] <;> positivity
  | capsule =>
    have hV : 0 < ((2 : ℕ) : ℝ) * Real.pi * e 0 * e 0 * e 2 +
        ((4 : ℕ) : ℝ) / ((3 : ℕ) : ℝ) * Real.pi * e 0 * e 0 * e 0 := by positivity
    have hl : (Fns.lit (3 / 4) : ℝ) = 3 / 4 := by
      show ((3 / 4 : ℚ) : ℝ) = 3 / 4
      norm_num
    simp only [solidOf, volumeSpread, capsule, pi_eq, hl, beq_iff_eq, hV.ne', if_false]
    refine ⟨?_, hV, fun i => ?_⟩
    · refine capsule_moments _ _ h0 h2.le _ _ _ (by norm_num) ?_ ?_
      · field_simp
        norm_num
        try ring
      · field_simp
        norm_num
        try ring
    · fin_cases i <;> simp <;> positivity

example : ∃ e : Fin 3 → ℝ, (∀ i, 0 < e i) ∧ (volumeSpread .capsule e).1 = 10 / 3 * Real.pi :=
  ⟨fun _ => 1, fun _ => one_pos, by
    have pi_eq : (Fns.pi : ℝ) = Real.pi := rfl
    have : 0 < ((2 : ℕ) : ℝ) * Real.pi + ((4 : ℕ) : ℝ) / ((3 : ℕ) : ℝ) * Real.pi := by
      have := Real.pi_pos; positivity
    simp only [volumeSpread, capsule, pi_eq, beq_iff_eq, mul_one, this.ne', if_false]
    push_cast
    ring⟩

/-- `try_normalized` of the quaternion stated by four numbers: refused exactly when they are all within
`epsilon` of nothing, and otherwise the unit quaternion in their direction. -/
theorem unitQuaternion_cases (v : Fin 4 → ℝ) :
    (Real.sqrt (v 0 * v 0 + v 1 * v 1 + v 2 * v 2 + v 3 * v 3) ≤ 1 / 2 ^ 52 ∧
      unitQuaternion v = .error (.badAttribute "quat")) ∨
    ∃ q : Quat ℝ, unitQuaternion v = .ok q ∧ q.IsUnit ∧
      ∃ k > 0, v = ![k * q.w, k * q.x, k * q.y, k * q.z] := by
  set n : ℝ := Real.sqrt (v 0 * v 0 + v 1 * v 1 + v 2 * v 2 + v 3 * v 3) with hn
  have hnorm : (⟨v 0, v 1, v 2, v 3⟩ : Quat ℝ).norm = n := rfl
  have heps : (Fns.epsilon : ℝ) = 1 / 2 ^ 52 := rfl
  by_cases h : n ≤ 1 / 2 ^ 52
  · left
    refine ⟨h, ?_⟩
    simp only [unitQuaternion, Quat.tryNormalized, hnorm, heps, real_isFinite, Bool.not_true, Bool.false_or,
      decide_eq_true h, if_true]
  · right
    have hpos : 0 < n := lt_of_lt_of_le (by positivity) (not_le.1 h).le
    have hsq : n * n = v 0 * v 0 + v 1 * v 1 + v 2 * v 2 + v 3 * v 3 := Real.mul_self_sqrt (by
        nlinarith [mul_self_nonneg (v 0), mul_self_nonneg (v 1), mul_self_nonneg (v 2), mul_self_nonneg (v 3)])
    refine ⟨⟨v 0 * (1 / n), v 1 * (1 / n), v 2 * (1 / n), v 3 * (1 / n)⟩, ?_, ?_, n, hpos, ?_⟩
    · simp only [unitQuaternion, Quat.tryNormalized, hnorm, heps, real_isFinite, Bool.not_true, Bool.false_or,
        decide_eq_false h, Bool.false_eq_true, if_false, Quat.scale]
    · show (v 0 * (1 / n)) ^ 2 + (v 1 * (1 / n)) ^ 2 + (v 2 * (1 / n)) ^ 2 + (v 3 * (1 / n)) ^ 2 = 1
      field_simp
      linarith
    · funext i
      fin_cases i <;> simp <;> field_simp

theorem along_norm (ends : Fin 6 → ℝ) :
    vnorm (vsub ![ends 3, ends 4, ends 5] ![ends 0, ends 1, ends 2]) = spanOf ends := by
  rw [vnorm, vnormSquared, vdot3, real_sqrt, spanOf]
  congr 1
  simp [vsub]
  ring

/-- What `fromto` says of a geom's placement. -/
theorem axisOf_cases (s : GeomDefaults ℝ) (shape : Shape) :
    (s.fromto = none ∧ axisOf s shape = .ok none) ∨
    ∃ ends, s.fromto = some ends ∧
      ((¬(shape = .cylinder ∨ shape = .capsule) ∧
          axisOf s shape = .error (.unsupportedFromTo (s.geomType.getD "sphere"))) ∨
        ((shape = .cylinder ∨ shape = .capsule) ∧ s.pos ≠ none ∧
          axisOf s shape = .error .conflictingPlacement) ∨
        ((shape = .cylinder ∨ shape = .capsule) ∧ s.pos = none ∧ spanOf ends = 0 ∧
          axisOf s shape = .error (.badAttribute "fromto")) ∨
        ((shape = .cylinder ∨ shape = .capsule) ∧ s.pos = none ∧ 0 < spanOf ends ∧
          ∃ a : Axis ℝ, axisOf s shape = .ok (some a) ∧ a.halfLength = spanOf ends / 2 ∧ a.turn.IsUnit ∧
            (∀ i, a.center i + a.turn.transformPoint ![0, 0, -(spanOf ends / 2)] i =
              ![ends 0, ends 1, ends 2] i) ∧
            ∀ i, a.center i + a.turn.transformPoint ![0, 0, spanOf ends / 2] i =
              ![ends 3, ends 4, ends 5] i)) := by
  cases hf : s.fromto with
  | none => left; exact ⟨rfl, by simp [axisOf, hf]⟩
  | some ends =>
    right
    refine ⟨ends, rfl, ?_⟩
    by_cases hs : shape = .cylinder ∨ shape = .capsule
    · right
      by_cases hp : s.pos = none
      · right
        by_cases h0 : spanOf ends = 0
        · left
          refine ⟨hs, hp, h0, ?_⟩
          simp [axisOf, hf, hs, hp, along_norm, h0]
        · right
          have hpos : 0 < spanOf ends := lt_of_le_of_ne (Real.sqrt_nonneg _) (Ne.symm h0)
          set along := vsub ![ends 3, ends 4, ends 5] ![ends 0, ends 1, ends 2] with hal
          have hne : along ≠ 0 := by
            intro h
            have := along_norm ends
            rw [← hal, h] at this
            apply h0
            rw [← this, vnorm, vnormSquared, vdot3, real_sqrt]
            simp
          have hz : (![0, 0, 1] : Fin 3 → ℝ) ≠ 0 := fun h => by simpa using congrFun h 2
          obtain ⟨hu, ht, -, -⟩ := fromTwoVectors_spec ![0, 0, 1] along hz hne
          have hz1 : vnormalized (![0, 0, 1] : Fin 3 → ℝ) = ![0, 0, 1] := by
            have : vnorm (![0, 0, 1] : Fin 3 → ℝ) = 1 := by
              rw [vnorm, vnormSquared, vdot3, real_sqrt]; simp
            funext i
            simp [vnormalized, vdivBy, this]
          rw [hz1] at ht
          have hn : ∀ i, vnormalized along i = along i / spanOf ends := by
            intro i
            simp only [vnormalized, vdivBy]
            rw [hal, along_norm]
          have hlin : ∀ (q : Quat ℝ) (t : ℝ) (i : Fin 3),
              q.transformPoint ![0, 0, t] i = t * q.transformPoint ![0, 0, 1] i := by
            intro q t i
            rw [transformPoint_explicit, transformPoint_explicit]
            fin_cases i <;> simp <;> ring
          refine ⟨hs, hp, hpos, ⟨spanOf ends / 2, vscaleBy (vadd ![ends 0, ends 1, ends 2] ![ends 3, ends 4, ends 5]) half,
            Quat.fromTwoVectors ![0, 0, 1] along⟩, ?_, rfl, hu, fun i => ?_, fun i => ?_⟩
          · simp only [axisOf, hf, hs, hp, along_norm, beq_iff_eq, h0, not_true, if_false, Option.isSome_none,
              Bool.false_eq_true]
            rw [← hal]
            norm_num
          · dsimp only
            rw [hlin, ht, hn, vscaleBy, vadd, half_real, hal, vsub]
            field_simp
            ring
          · dsimp only
            rw [hlin, ht, hn, vscaleBy, vadd, half_real, hal, vsub]
            field_simp
            ring
      · left
        refine ⟨hs, hp, ?_⟩
        have : s.pos.isSome = true := Option.isSome_iff_ne_none.2 hp
        simp [axisOf, hf, hs, this]
    · left
      exact ⟨hs, by simp only [axisOf, hf, hs, not_false_iff, if_true]⟩

theorem shapeOf_ok {t : Option String} {shape : Shape} (h : shapeOf t = .ok shape) :
    (shape = .sphere ∧ (t = none ∨ t = some "sphere")) ∨ (shape = .ellipsoid ∧ t = some "ellipsoid") ∨
    (shape = .box ∧ t = some "box") ∨ (shape = .cylinder ∧ t = some "cylinder") ∨
    (shape = .capsule ∧ t = some "capsule") := by
  cases t with
  | none =>
    simp [shapeOf] at h
    simp [← h]
  | some name =>
    simp only [shapeOf, Option.getD_some] at h
    split_ifs at h with h1 h2 h3 h4 h5 h6 <;> simp at h <;> subst h <;> simp [*]

theorem extents_ok {size : Option (List ℝ)} {shape : Shape} {axis : Option (Axis ℝ)} {e : Fin 3 → ℝ}
    (h : extents size shape axis = .ok e) :
    (shape = .sphere ∧ axis = none ∧ ∃ r, size.getD [] = [r] ∧ e = ![r, r, r]) ∨
    (shape = .ellipsoid ∧ ∃ a b c, size.getD [] = [a, b, c] ∧ e = ![a, b, c]) ∨
    (shape = .box ∧ ∃ a b c, size.getD [] = [a, b, c] ∧ e = ![a, b, c]) ∨
    ((shape = .cylinder ∨ shape = .capsule) ∧ axis = none ∧ ∃ r l, size.getD [] = [r, l] ∧ e = ![r, r, l]) ∨
    ((shape = .cylinder ∨ shape = .capsule) ∧ ∃ a, axis = some a ∧ ∃ r rest, size.getD [] = r :: rest ∧
      e = ![r, r, a.halfLength]) := by
  unfold extents at h
  dsimp only at h
  split at h
  · rename_i e' he
    injection h with h
    subst h
    split at he <;> simp at he <;> subst he <;> simp_all
  · simp at h

theorem extents_positive {s : GeomDefaults ℝ} {shape : Shape} {axis : Option (Axis ℝ)} {e : Fin 3 → ℝ}
    (hax : axisOf s shape = .ok axis) (hex : extents s.size shape axis = .ok e)
    (hsize : ∀ x ∈ s.size.getD [], 0 < x) :
    (∀ i, 0 < e i) ∧ (shape = .sphere → e 1 = e 0 ∧ e 2 = e 0) := by
  rcases extents_ok hex with ⟨rfl, rfl, r, hr, rfl⟩ | ⟨rfl, a, b, c, hr, rfl⟩ | ⟨rfl, a, b, c, hr, rfl⟩ |
    ⟨hs, rfl, r, l, hr, rfl⟩ | ⟨hs, a, rfl, r, rest, hr, rfl⟩ <;> rw [hr] at hsize <;> simp at hsize
  · exact ⟨fun i => by fin_cases i <;> simpa using hsize, fun _ => ⟨rfl, rfl⟩⟩
  · exact ⟨fun i => by fin_cases i <;> simp [hsize], fun h => by cases h⟩
  · exact ⟨fun i => by fin_cases i <;> simp [hsize], fun h => by cases h⟩
  · exact ⟨fun i => by fin_cases i <;> simp [hsize], fun h => by rcases hs with rfl | rfl <;> cases h⟩
  · have hl : 0 < a.halfLength := by
      rcases axisOf_cases s shape with ⟨h1, h2⟩ | ⟨ends, h1, ⟨-, h2⟩ | ⟨-, -, h2⟩ | ⟨-, -, -, h2⟩ | ⟨h3, -, h5, a, h2, h4, -⟩⟩
      all_goals rw [hax] at h2; first | (cases h2; done) | skip
      injection h2 with h2
      injection h2 with h2
      rw [h2, h4]
      positivity
    exact ⟨fun i => by fin_cases i <;> simp [hsize, hl], fun h => by rcases hs with rfl | rfl <;> cases h⟩

/-- C109. What a geom contributes to its body is what uniform matter in its place would: when the
reader returns mass properties, the geom's attributes name a region (ball, ellipsoid, box, cylinder or
capsule) and a placement in the body, and the mass, the center and the inertia tensor are the
integrals over that region of the density, of the position and of the squared distances to the center.
The density is the one stated (1000 when none is) or, with a mass stated, the one that gives that
mass.  A positive mass comes with a symmetric tensor with a positive diagonal. -/
theorem geom_inertia (s : GeomDefaults ℝ) (g : GeomMass ℝ) (h : readSettings s = .ok (some g))
    (hsize : ∀ x ∈ s.size.getD [], 0 < x) :
    ∃ S place ρ, Fills s.geomType (s.size.getD []) (s.fromto.map spanOf) S ∧ Places s place ∧
      Weighs g S place ρ ∧ (∀ m, s.mass = some m → g.mass = m) ∧
      (s.mass = none → ρ = s.density.getD 1000) ∧ (∀ i j, g.inertia i j = g.inertia j i) ∧
      (0 < g.mass → ∀ i, 0 < g.inertia i i) := by
  unfold readSettings at h
  split at h
  · simp at h
  simp only [bind, Except.bind] at h
  cases hsh : shapeOf s.geomType with
  | error e => simp [hsh] at h
  | ok shape =>
  simp only [hsh] at h
  cases hax : axisOf s shape with
  | error e => simp [hax] at h
  | ok axis =>
  simp only [hax] at h
  cases hex : extents s.size shape axis with
  | error e => simp [hex] at h
  | ok e =>
  simp only [hex] at h
  split at h
  · simp at h
  cases htu : turnOf s axis with
  | error e => simp [htu] at h
  | ok turn =>
  simp only [htu] at h
  injection h with h
  injection h with h
  -- the region
  have hregion : ∃ S, Fills s.geomType (s.size.getD []) (s.fromto.map spanOf) S ∧ S = solidOf shape e ∧
      (∀ i, 0 < e i) ∧ (shape = .sphere → e 1 = e 0 ∧ e 2 = e 0) := by
    refine ⟨_, ?_, rfl, ?_⟩
    · have hshape := shapeOf_ok hsh
      have haxis : (s.fromto = none ∧ axis = none) ∨
          ∃ ends a, s.fromto = some ends ∧ axis = some a ∧ a.halfLength = spanOf ends / 2 ∧
            (shape = .cylinder ∨ shape = .capsule) := by
        rcases axisOf_cases s shape with ⟨h1, h2⟩ | ⟨ends, h1, ⟨-, h2⟩ | ⟨-, -, h2⟩ | ⟨-, -, -, h2⟩ | ⟨h3, -, -, a, h2, h4, -⟩⟩
        · rw [hax] at h2; injection h2 with h2; exact .inl ⟨h1, h2⟩
        · rw [hax] at h2; cases h2
        · rw [hax] at h2; cases h2
        · rw [hax] at h2; cases h2
        · rw [hax] at h2; injection h2 with h2; exact .inr ⟨ends, a, h1, h2, h4, h3⟩
      rcases extents_ok hex with ⟨rfl, rfl, r, hr, rfl⟩ | ⟨rfl, a, b, c, hr, rfl⟩ | ⟨rfl, a, b, c, hr, rfl⟩ |
        ⟨hs, rfl, r, l, hr, rfl⟩ | ⟨hs, a, rfl, r, rest, hr, rfl⟩
      · rcases haxis with ⟨hf, -⟩ | ⟨_, _, _, h', _⟩
        · rw [hr, hf]
          rcases hshape with ⟨-, h1 | h1⟩ | ⟨h1, -⟩ | ⟨h1, -⟩ | ⟨h1, -⟩ | ⟨h1, -⟩ <;> first | (cases h1; done) | skip
          · rw [h1]; exact .assumed r
          · rw [h1]; exact .sphere r
        · cases h'
      · rcases haxis with ⟨hf, -⟩ | ⟨_, _, _, _, _, h' | h'⟩
        · rw [hr, hf]
          rcases hshape with ⟨h1, -⟩ | ⟨-, h1⟩ | ⟨h1, -⟩ | ⟨h1, -⟩ | ⟨h1, -⟩ <;> first | (cases h1; done) | skip
          rw [h1]; exact .ellipsoid a b c
        · cases h'
        · cases h'
      · rcases haxis with ⟨hf, -⟩ | ⟨_, _, _, _, _, h' | h'⟩
        · rw [hr, hf]
          rcases hshape with ⟨h1, -⟩ | ⟨h1, -⟩ | ⟨-, h1⟩ | ⟨h1, -⟩ | ⟨h1, -⟩ <;> first | (cases h1; done) | skip
          rw [h1]; exact .box a b c
        · cases h'
        · cases h'
      · rcases haxis with ⟨hf, -⟩ | ⟨_, _, _, h', _⟩
        · rw [hr, hf]
          rcases hs with rfl | rfl
          · rcases hshape with ⟨h1, -⟩ | ⟨h1, -⟩ | ⟨h1, -⟩ | ⟨-, h1⟩ | ⟨h1, -⟩ <;> first | (cases h1; done) | skip
            rw [h1]; exact .cylinder r l
          · rcases hshape with ⟨h1, -⟩ | ⟨h1, -⟩ | ⟨h1, -⟩ | ⟨h1, -⟩ | ⟨-, h1⟩ <;> first | (cases h1; done) | skip
            rw [h1]; exact .capsule r l
        · cases h'
      · rcases haxis with ⟨-, h'⟩ | ⟨ends, a', hf, h', hl, _⟩
        · cases h'
        · injection h' with h'
          subst h'
          rw [hr, hf]
          rcases hs with rfl | rfl
          · rcases hshape with ⟨h1, -⟩ | ⟨h1, -⟩ | ⟨h1, -⟩ | ⟨-, h1⟩ | ⟨h1, -⟩ <;> first | (cases h1; done) | skip
            rw [h1]
            have := Fills.cylinderAlong r rest (spanOf ends)
            rw [← hl] at this
            exact this
          · rcases hshape with ⟨h1, -⟩ | ⟨h1, -⟩ | ⟨h1, -⟩ | ⟨h1, -⟩ | ⟨-, h1⟩ <;> first | (cases h1; done) | skip
            rw [h1]
            have := Fills.capsuleAlong r rest (spanOf ends)
            rw [← hl] at this
            exact this
    · exact extents_positive hax hex hsize
  obtain ⟨S, hfills, rfl, hpos, hball⟩ := hregion
  -- the placement
  have hplace : turn.IsUnit ∧ Places s (fun p i => centerOf s axis i + turn.transformPoint (coord p) i) := by
    rcases axisOf_cases s shape with ⟨h1, h2⟩ | ⟨ends, h1, ⟨-, h2⟩ | ⟨-, -, h2⟩ | ⟨-, -, -, h2⟩ |
      ⟨h3, hp, -, a, h2, h4, hu, hst, hen⟩⟩
    · rw [hax] at h2
      injection h2 with h2
      subst h2
      simp only [turnOf] at htu
      rcases unitQuaternion_cases (s.quat.getD ![1, 0, 0, 0]) with ⟨-, h'⟩ | ⟨q, h', hu, k, hk, hv⟩
      · rw [htu] at h'; cases h'
      · rw [htu] at h'
        injection h' with h'
        subst h'
        refine ⟨hu, turn, _, hu, fun p i => rfl, ?_⟩
        rw [h1]
        exact ⟨rfl, k, hk, hv⟩
    · rw [hax] at h2; cases h2
    · rw [hax] at h2; cases h2
    · rw [hax] at h2; cases h2
    · rw [hax] at h2
      injection h2 with h2
      subst h2
      simp only [turnOf] at htu
      injection htu with htu
      subst htu
      refine ⟨hu, a.turn, _, hu, fun p i => rfl, ?_⟩
      rw [h1]
      exact ⟨hp, funext hst, funext hen⟩
  obtain ⟨hu, hplace⟩ := hplace
  obtain ⟨hmom, hV, hsp⟩ := geom_volume_spread shape e hpos hball
  have hw := weighs_of_moments hmom turn hu (centerOf s axis) (massOf s (volumeSpread shape e).1 / (volumeSpread shape e).1)
  rw [div_mul_cancel₀ _ hV.ne'] at hw
  refine ⟨_, _, massOf s (volumeSpread shape e).1 / (volumeSpread shape e).1, hfills, hplace, ?_, ?_, ?_, ?_, ?_⟩
  · rw [← h]; exact hw
  · intro m hm
    rw [← h]
    simp [massOf, hm]
  · intro hm
    simp only [massOf, hm]
    field_simp
    norm_num
  · intro i j
    rw [← h]
    dsimp only
    rw [turnedTensor_entry, turnedTensor_entry]
    exact Finset.sum_congr rfl fun k _ => by ring
  · intro hm i
    rw [← h] at hm ⊢
    dsimp only at hm ⊢
    rw [turnedTensor_entry]
    have hr := rotation_rows turn hu i i
    rw [if_pos rfl] at hr
    have hd : ∀ k, 0 < (![massOf s (volumeSpread shape e).1 * ((volumeSpread shape e).2 1 + (volumeSpread shape e).2 2),
        massOf s (volumeSpread shape e).1 * ((volumeSpread shape e).2 0 + (volumeSpread shape e).2 2),
        massOf s (volumeSpread shape e).1 * ((volumeSpread shape e).2 0 + (volumeSpread shape e).2 1)] : Fin 3 → ℝ) k := by
      intro k
      have a0 := hsp 0; have a1 := hsp 1; have a2 := hsp 2
      fin_cases k <;> simp <;> positivity
    refine lt_of_le_of_ne (Finset.sum_nonneg fun k _ => mul_nonneg (mul_self_nonneg _) (hd k).le) fun h0 => ?_
    have hz := (Finset.sum_eq_zero_iff_of_nonneg
      (fun k _ => mul_nonneg (mul_self_nonneg (turn.toRotationMatrix i k)) (hd k).le)).1 h0.symm
    have : ∑ k, turn.toRotationMatrix i k * turn.toRotationMatrix i k = 0 :=
      Finset.sum_eq_zero fun k hk => (mul_eq_zero.1 (hz k hk)).resolve_right (hd k).ne'
    rw [this] at hr
    exact zero_ne_one hr

/-- C109. A geom stating no mass of zero, with the attributes its type needs (`Fills`), positive sizes, a
`fromto` between two different points and no `pos` beside it, or else a `quat` that is not
negligible, is always read, and bears mass unless its density is stated as zero. -/
theorem geom_accepts (s : GeomDefaults ℝ) (S : Set Pt)
    (hf : Fills s.geomType (s.size.getD []) (s.fromto.map spanOf) S) (hsize : ∀ x ∈ s.size.getD [], 0 < x)
    (hplace : ∀ ends, s.fromto = some ends → s.pos = none ∧ spanOf ends ≠ 0)
    (hquat : ∀ v, s.fromto = none → s.quat = some v →
      1 / 2 ^ 52 < Real.sqrt (v 0 * v 0 + v 1 * v 1 + v 2 * v 2 + v 3 * v 3)) :
    (s.mass = some 0 ∨ (s.mass = none ∧ s.density = some 0) → readSettings s = .ok none) ∧
    (¬(s.mass = some 0 ∨ (s.mass = none ∧ s.density = some 0)) → ∃ g, readSettings s = .ok (some g)) := by
  have hax : ∀ shape, (s.fromto ≠ none → shape = .cylinder ∨ shape = .capsule) →
      ∃ axis, axisOf s shape = .ok axis ∧ (s.fromto = none → axis = none) ∧
        (∀ ends, s.fromto = some ends → ∃ a, axis = some a ∧ 0 < a.halfLength) := by
    intro shape hs
    rcases axisOf_cases s shape with ⟨h1, h2⟩ | ⟨ends, h1, ⟨h3, h2⟩ | ⟨h3, h4, h2⟩ | ⟨-, -, h4, h2⟩ | ⟨h3, -, h5, a, h2, h4, -⟩⟩
    · exact ⟨none, h2, fun _ => rfl, fun ends h => by rw [h1] at h; cases h⟩
    · exact absurd (hs (by rw [h1]; simp)) h3
    · exact absurd (hplace ends h1).1 h4
    · exact absurd h4 (hplace ends h1).2
    · exact ⟨some a, h2, fun h => (by rw [h1] at h; cases h), fun _ _ => ⟨a, rfl, by rw [h4]; positivity⟩⟩
  have hread : ∃ shape axis e, shapeOf s.geomType = .ok shape ∧ axisOf s shape = .ok axis ∧
      extents s.size shape axis = .ok e ∧ (∀ i, 0 < e i) ∧ (shape = .sphere → e 1 = e 0 ∧ e 2 = e 0) ∧
      ∃ turn, turnOf s axis = .ok turn := by
    have hturn : s.fromto = none → ∃ turn, turnOf s none = .ok turn := by
      intro h
      rcases unitQuaternion_cases (s.quat.getD ![1, 0, 0, 0]) with ⟨h', -⟩ | ⟨q, h', -⟩
      · exfalso
        cases hq : s.quat with
        | none =>
          rw [hq] at h'
          have h1 : Real.sqrt (1 : ℝ) ≤ 1 / 2 ^ 52 := by simpa using h'
          rw [Real.sqrt_one] at h1
          norm_num at h1
        | some v =>
          rw [hq] at h'
          exact absurd h' (not_le.2 (hquat v h hq))
      · exact ⟨q, h'⟩
    generalize ht : s.geomType = t at hf
    generalize hz : s.size.getD [] = z at hf hsize
    generalize hl : s.fromto.map spanOf = l at hf
    have hnone : l = none → s.fromto = none := by
      intro h; rw [← hl] at h; simpa using h
    have hsome : ∀ x, l = some x → ∃ ends, s.fromto = some ends := by
      intro x h; rw [← hl] at h
      obtain ⟨ends, h', -⟩ := Option.map_eq_some_iff.1 h
      exact ⟨ends, h'⟩
    have hshort : ∀ shape e, s.fromto = none → shapeOf t = .ok shape → extents s.size shape none = .ok e →
        (∀ i, 0 < e i) → (shape = .sphere → e 1 = e 0 ∧ e 2 = e 0) → ∃ shape axis e, shapeOf t = .ok shape ∧
        axisOf s shape = .ok axis ∧ extents s.size shape axis = .ok e ∧ (∀ i, 0 < e i) ∧
        (shape = .sphere → e 1 = e 0 ∧ e 2 = e 0) ∧ ∃ turn, turnOf s axis = .ok turn := by
      intro shape e h h1 h2 h3 h4
      obtain ⟨axis, ha, hn, -⟩ := hax shape fun h' => absurd h h'
      obtain rfl := hn h
      exact ⟨shape, none, e, h1, ha, h2, h3, h4, hturn h⟩
    cases hf with
    | assumed r =>
      refine hshort .sphere ![r, r, r] (hnone rfl) rfl (by simp [extents, hz]) (fun i => ?_) fun _ => ⟨rfl, rfl⟩
      fin_cases i <;> simpa using hsize
    | sphere r =>
      refine hshort .sphere ![r, r, r] (hnone rfl) rfl (by simp [extents, hz]) (fun i => ?_) fun _ => ⟨rfl, rfl⟩
      fin_cases i <;> simpa using hsize
    | ellipsoid a b c =>
      simp at hsize
      refine hshort .ellipsoid ![a, b, c] (hnone rfl) rfl (by simp [extents, hz]) (fun i => ?_) fun h => by cases h
      fin_cases i <;> simp [hsize]
    | box a b c =>
      simp at hsize
      refine hshort .box ![a, b, c] (hnone rfl) rfl (by simp [extents, hz]) (fun i => ?_) fun h => by cases h
      fin_cases i <;> simp [hsize]
    | cylinder r h =>
      simp at hsize
      refine hshort .cylinder ![r, r, h] (hnone rfl) rfl (by simp [extents, hz]) (fun i => ?_) fun h => by cases h
      fin_cases i <;> simp [hsize]
    | capsule r h =>
      simp at hsize
      refine hshort .capsule ![r, r, h] (hnone rfl) rfl (by simp [extents, hz]) (fun i => ?_) fun h => by cases h
      fin_cases i <;> simp [hsize]
    | cylinderAlong r rest x =>
      simp at hsize
      obtain ⟨ends, he⟩ := hsome x rfl
      obtain ⟨axis, ha, -, hn⟩ := hax .cylinder fun _ => .inl rfl
      obtain ⟨a, rfl, hpos⟩ := hn ends he
      refine ⟨.cylinder, some a, ![r, r, a.halfLength], rfl, ha, by simp [extents, hz], fun i => ?_,
        fun h => (by cases h), a.turn, rfl⟩
      fin_cases i <;> simp [hsize, hpos]
    | capsuleAlong r rest x =>
      simp at hsize
      obtain ⟨ends, he⟩ := hsome x rfl
      obtain ⟨axis, ha, -, hn⟩ := hax .capsule fun _ => .inr rfl
      obtain ⟨a, rfl, hpos⟩ := hn ends he
      refine ⟨.capsule, some a, ![r, r, a.halfLength], rfl, ha, by simp [extents, hz], fun i => ?_,
        fun h => (by cases h), a.turn, rfl⟩
      fin_cases i <;> simp [hsize, hpos]
  obtain ⟨shape, axis, e, h1, h2, h3, h4, h5, turn, h6⟩ := hread
  obtain ⟨-, hV, -⟩ := geom_volume_spread shape e h4 h5
  constructor
  · rintro (h | ⟨h, hd⟩)
    · simp [readSettings, h]
    · simp only [readSettings, h, Option.any_none, Bool.false_eq_true, if_false, bind, Except.bind, h1, h2, h3, massOf, hd,
        Option.getD_some, zero_mul, beq_self_eq_true, if_true]
  · intro h
    push Not at h
    have hm : massOf s (volumeSpread shape e).1 ≠ 0 := by
      cases hm : s.mass with
      | some m => simp only [massOf, hm]; intro h0; exact h.1 (by rw [hm, h0])
      | none =>
        simp only [massOf, hm]
        refine mul_ne_zero ?_ hV.ne'
        cases hd : s.density with
        | none => simp
        | some d => simp only [Option.getD_some]; intro h0; exact h.2 hm (by rw [hd, h0])
    have h0 : (s.mass.any fun m => m == 0) = false := by
      cases hm : s.mass with
      | none => rfl
      | some m => simp only [Option.any_some, beq_eq_false_iff_ne]; intro h0; exact h.1 (by rw [hm, h0])
    refine ⟨⟨massOf s (volumeSpread shape e).1, centerOf s axis, turnedTensor turn
      ![massOf s (volumeSpread shape e).1 * ((volumeSpread shape e).2 1 + (volumeSpread shape e).2 2),
        massOf s (volumeSpread shape e).1 * ((volumeSpread shape e).2 0 + (volumeSpread shape e).2 2),
        massOf s (volumeSpread shape e).1 * ((volumeSpread shape e).2 0 + (volumeSpread shape e).2 1)]⟩, ?_⟩
    simp only [readSettings, h0, Bool.false_eq_true, if_false, bind, Except.bind, h1, h2, h3, h6, beq_iff_eq, hm]

/-- C109. Attributes the reader does not take are refused by name: a type that is not one of the five, a
mesh, `fromto` on a shape that has no axis, `fromto` beside `pos`, the two ends of `fromto` at one
point, and the wrong number of sizes; but a geom stating a mass of zero is skipped whatever else it
states. -/
theorem geom_refusals (s : GeomDefaults ℝ) :
    (s.mass = some 0 → readSettings s = .ok none) ∧
    (s.mass ≠ some 0 →
      (s.geomType = some "mesh" → readSettings s = .error .meshInertiaUnsupported) ∧
      (∀ t, s.geomType = some t → t ∉ ["sphere", "ellipsoid", "box", "cylinder", "capsule", "mesh"] →
        readSettings s = .error (.unsupportedGeomType t)) ∧
      (∀ ends, s.fromto = some ends →
        (s.geomType = none ∨ s.geomType = some "sphere" ∨ s.geomType = some "ellipsoid" ∨ s.geomType = some "box" →
          readSettings s = .error (.unsupportedFromTo (s.geomType.getD "sphere"))) ∧
        (s.geomType = some "cylinder" ∨ s.geomType = some "capsule" →
          (s.pos ≠ none → readSettings s = .error .conflictingPlacement) ∧
          (s.pos = none → (∀ k : Fin 3, ends (k.castAdd 3) = ends (k.natAdd 3)) →
            readSettings s = .error (.badAttribute "fromto")))) ∧
      (s.fromto = none → (s.geomType = none ∨ s.geomType = some "sphere") → (s.size.getD []).length ≠ 1 →
        readSettings s = .error (.badAttribute "size")) ∧
      (s.fromto = none → (s.geomType = some "cylinder" ∨ s.geomType = some "capsule") →
        (s.size.getD []).length ≠ 2 → readSettings s = .error (.badAttribute "size")) ∧
      (s.fromto = none → (s.geomType = some "ellipsoid" ∨ s.geomType = some "box") →
        (s.size.getD []).length ≠ 3 → readSettings s = .error (.badAttribute "size"))) := by
  refine ⟨fun h => by simp [readSettings, h], fun h => ?_⟩
  have h0 : (s.mass.any fun m => m == 0) = false := by
    cases hm : s.mass with
    | none => rfl
    | some m => simp only [Option.any_some, beq_eq_false_iff_ne]; intro h0; exact h (by rw [hm, h0])
  have hshape : ∀ {e}, shapeOf s.geomType = .error e → readSettings s = .error e := by
    intro e he
    simp only [readSettings, h0, Bool.false_eq_true, if_false, bind, Except.bind, he]
  have haxis : ∀ {shape e}, shapeOf s.geomType = .ok shape → axisOf s shape = .error e → readSettings s = .error e := by
    intro shape e h1 he
    simp only [readSettings, h0, Bool.false_eq_true, if_false, bind, Except.bind, h1, he]
  have hsz : ∀ {shape e}, s.fromto = none → shapeOf s.geomType = .ok shape → extents s.size shape none = .error e →
      readSettings s = .error e := by
    intro shape e hf h1 he
    have h2 : axisOf s shape = .ok none := by simp [axisOf, hf]
    simp only [readSettings, h0, Bool.false_eq_true, if_false, bind, Except.bind, h1, h2, he]
  refine ⟨fun ht => hshape (by rw [ht]; rfl), fun t ht hn => hshape ?_, fun ends he => ⟨?_, ?_⟩, ?_, ?_, ?_⟩
  · simp only [List.mem_cons, List.not_mem_nil, or_false, not_or] at hn
    obtain ⟨n1, n2, n3, n4, n5, n6⟩ := hn
    simp only [shapeOf, ht, Option.getD_some, n1, n2, n3, n4, n5, n6, if_false]
  · rintro (ht | ht | ht | ht)
    · exact haxis (shape := .sphere) (by rw [ht]; rfl) (by simp [axisOf, he])
    · exact haxis (shape := .sphere) (by rw [ht]; rfl) (by simp [axisOf, he])
    · exact haxis (shape := .ellipsoid) (by rw [ht]; rfl) (by simp [axisOf, he])
    · exact haxis (shape := .box) (by rw [ht]; rfl) (by simp [axisOf, he])
  · have key : ∀ shape, shape = .cylinder ∨ shape = .capsule → shapeOf s.geomType = .ok shape →
        (s.pos ≠ none → readSettings s = .error .conflictingPlacement) ∧
          (s.pos = none → (∀ k : Fin 3, ends (k.castAdd 3) = ends (k.natAdd 3)) →
            readSettings s = .error (.badAttribute "fromto")) := by
      intro shape hs h1
      refine ⟨fun hp => haxis h1 ?_, fun hp hk => haxis h1 ?_⟩
      · have : s.pos.isSome = true := Option.isSome_iff_ne_none.2 hp
        simp [axisOf, he, hs, this]
      · have hz : spanOf ends = 0 := by
          have k0 : ends 0 = ends 3 := hk 0
          have k1 : ends 1 = ends 4 := hk 1
          have k2 : ends 2 = ends 5 := hk 2
          simp [spanOf, k0, k1, k2]
        simp [axisOf, he, hs, hp, along_norm, hz]
    rintro (ht | ht)
    · exact key .cylinder (.inl rfl) (by rw [ht]; rfl)
    · exact key .capsule (.inr rfl) (by rw [ht]; rfl)
  · intro hf ht hl
    refine hsz (shape := .sphere) hf (by rcases ht with ht | ht <;> rw [ht] <;> rfl) ?_
    rcases hz : s.size.getD [] with - | ⟨a, - | ⟨b, l⟩⟩ <;> simp_all [extents]
  · intro hf ht hl
    have : ∃ shape, (shape = .cylinder ∨ shape = .capsule) ∧ shapeOf s.geomType = .ok shape := by
      rcases ht with ht | ht
      · exact ⟨.cylinder, .inl rfl, by rw [ht]; rfl⟩
      · exact ⟨.capsule, .inr rfl, by rw [ht]; rfl⟩
    obtain ⟨shape, hs, h1⟩ := this
    refine hsz hf h1 ?_
    rcases hz : s.size.getD [] with - | ⟨a, - | ⟨b, - | ⟨c, l⟩⟩⟩ <;> rcases hs with rfl | rfl <;> simp_all [extents]
  · intro hf ht hl
    have : ∃ shape, (shape = .ellipsoid ∨ shape = .box) ∧ shapeOf s.geomType = .ok shape := by
      rcases ht with ht | ht
      · exact ⟨.ellipsoid, .inl rfl, by rw [ht]; rfl⟩
      · exact ⟨.box, .inr rfl, by rw [ht]; rfl⟩
    obtain ⟨shape, hs, h1⟩ := this
    refine hsz hf h1 ?_
    rcases hz : s.size.getD [] with - | ⟨a, - | ⟨b, - | ⟨c, - | ⟨d, l⟩⟩⟩⟩ <;> rcases hs with rfl | rfl <;> simp_all [extents]

/-- A capsule between two points, of density 1000, is read, so that `geom_inertia` says what it weighs. -/
example : ∃ g, readSettings (⟨some "capsule", some [1], some ![0, 0, 0, 0, 3, 4],
    none, none, none, none⟩ : GeomDefaults ℝ) = .ok (some g) := by
  refine (geom_accepts _ _ (Fills.capsuleAlong 1 [] _) ?_ ?_ ?_).2 (by simp)
  · simp
  · intro ends h
    simp only [Option.some.injEq] at h
    subst h
    refine ⟨rfl, ?_⟩
    simp [spanOf]
    norm_num
  · intro v h; cases h

/-! ### The body made of several geoms -/

/-- Matter of one density in one place. -/
structure Part where
  region : Set Pt
  place : Pt → Fin 3 → ℝ
  density : ℝ

/-- The mass of a part. -/
noncomputable def Part.mass (P : Part) : ℝ := P.density * ∫ _ in P.region, (1 : ℝ)

/-- The first moment of a part. -/
noncomputable def Part.moment (P : Part) (i : Fin 3) : ℝ := P.density * ∫ p in P.region, P.place p i

/-- The inertia of a part about a point. -/
noncomputable def Part.inertiaAbout (P : Part) (o : Fin 3 → ℝ) (i j : Fin 3) : ℝ :=
  P.density * ∫ p in P.region, ((if i = j then ∑ k, (P.place p k - o k) ^ 2 else 0) -
    (P.place p i - o i) * (P.place p j - o j))

/-- The parallel-axis theorem, for the part a geom stands for. -/
theorem parallel_axis {g : GeomMass ℝ} {P : Part} (h : Weighs g P.region P.place P.density)
    (o : Fin 3 → ℝ) (i j : Fin 3) :
    P.inertiaAbout o i j = g.inertia i j + shifted g.mass (vsub g.center o) i j := by
  obtain ⟨hc, hcont, hm, h1, h2⟩ := h
  have int : ∀ {f : Pt → ℝ}, Continuous f → IntegrableOn f P.region := fun hf =>
    hf.continuousOn.integrableOn_compact hc
  have hprod : ∀ a b : Fin 3, P.density * ∫ p in P.region, (P.place p a - o a) * (P.place p b - o b) =
      P.density * (∫ p in P.region, (P.place p a - g.center a) * (P.place p b - g.center b)) +
        g.mass * ((g.center a - o a) * (g.center b - o b)) := by
    intro a b
    have hca := hcont a
    have hcb := hcont b
    have e : ∀ p, (P.place p a - o a) * (P.place p b - o b) =
        (P.place p a - g.center a) * (P.place p b - g.center b) +
          ((g.center b - o b) * P.place p a + (g.center a - o a) * P.place p b +
            ((g.center a - o a) * (g.center b - o b) - (g.center b - o b) * g.center a -
              (g.center a - o a) * g.center b) * 1) := fun p => by ring
    simp only [e]
    rw [integral_add (int (by fun_prop)) (int (by fun_prop)), integral_add (int (by fun_prop)) (int (by fun_prop)),
      integral_add (int (by fun_prop)) (int (by fun_prop)), integral_const_mul, integral_const_mul, integral_const_mul]
    have ha := h1 a
    have hb := h1 b
    linear_combination -(g.center b - o b) * ha - (g.center a - o a) * hb -
      ((g.center a - o a) * (g.center b - o b) - (g.center b - o b) * g.center a - (g.center a - o a) * g.center b) * hm
  have hsq : P.density * ∫ p in P.region, ∑ k, (P.place p k - o k) ^ 2 =
      P.density * (∫ p in P.region, ∑ k, (P.place p k - g.center k) ^ 2) +
        g.mass * ∑ k, (g.center k - o k) * (g.center k - o k) := by
    rw [integral_finset_sum _ fun k _ => int (by have := hcont k; fun_prop),
      integral_finset_sum _ fun k _ => int (by have := hcont k; fun_prop), Finset.mul_sum, Finset.mul_sum, Finset.mul_sum,
      ← Finset.sum_add_distrib]
    refine Finset.sum_congr rfl fun k _ => ?_
    simpa only [sq] using hprod k k
  have hint2 : ∀ (v : Fin 3 → ℝ), IntegrableOn (fun p => ∑ k, (P.place p k - v k) ^ 2) P.region := fun v =>
    int (continuous_finset_sum _ fun k _ => by have := hcont k; fun_prop)
  have hint1 : ∀ (v : Fin 3 → ℝ), IntegrableOn (fun p => (P.place p i - v i) * (P.place p j - v j)) P.region :=
    fun v => int (by have := hcont i; have := hcont j; fun_prop)
  rw [h2, Part.inertiaAbout]
  simp only [shifted, vsub, vdot3]
  by_cases hij : i = j
  · simp only [if_pos hij]
    rw [integral_sub (hint2 o) (hint1 o), integral_sub (hint2 g.center) (hint1 g.center), mul_sub, mul_sub, hsq, hprod]
    simp only [Fin.sum_univ_three]
    ring
  · simp only [if_neg hij, zero_sub]
    rw [integral_neg, integral_neg, mul_neg, mul_neg, hprod]
    ring

theorem foldl_mass (l : List (GeomMass ℝ)) (x : ℝ) :
    l.foldl (fun sum shape => sum + shape.mass) x = x + (l.map (·.mass)).sum := by
  induction l generalizing x with
  | nil => simp
  | cons a l ih => rw [List.foldl_cons, ih]; simp; ring

theorem foldl_weighted (l : List (GeomMass ℝ)) (x : Fin 3 → ℝ) (i : Fin 3) :
    l.foldl (fun running shape => vadd running (vscaleBy shape.center shape.mass)) x i =
      x i + (l.map fun g => g.mass * g.center i).sum := by
  induction l generalizing x with
  | nil => simp
  | cons a l ih => rw [List.foldl_cons, ih]; simp [vadd, vscaleBy]; ring

theorem foldl_inertia (l : List (GeomMass ℝ)) (o : Fin 3 → ℝ) (x : Matrix (Fin 3) (Fin 3) ℝ) (i j : Fin 3) :
    l.foldl (fun running shape =>
      madd (madd running shape.inertia) (shifted shape.mass (vsub shape.center o))) x i j =
      x i j + (l.map fun g => g.inertia i j + shifted g.mass (vsub g.center o) i j).sum := by
  induction l generalizing x with
  | nil => simp
  | cons a l ih => rw [List.foldl_cons, ih]; simp [madd]; ring

theorem inertia_new_ok {m : ℝ} {c : Fin 3 → ℝ} {I : Matrix (Fin 3) (Fin 3) ℝ} {B : SpatialInertia ℝ}
    (h : SpatialInertia.new m c I = .ok B) : B = ⟨m, c, I⟩ := by
  unfold SpatialInertia.new at h
  split_ifs at h
  injection h with h
  exact h.symm

/-- C109. A body made of several parts has their total mass, balances at the point where the first
moments of all parts do, and has about that point the sum of the parts' inertias about it, each an
integral over the part. -/
theorem composite_inertia (shapes : List (GeomMass ℝ)) (parts : List Part) (B : SpatialInertia ℝ)
    (hw : List.Forall₂ (fun g P => Weighs g P.region P.place P.density) shapes parts)
    (h : composite shapes = .ok B) :
    B.mass = (parts.map Part.mass).sum ∧ B.mass ≠ 0 ∧
    (∀ i, B.mass * B.centerOfMass i = (parts.map fun P => P.moment i).sum) ∧
    ∀ i j, B.rotationalInertia i j = (parts.map fun P => P.inertiaAbout B.centerOfMass i j).sum := by
  have hmass : shapes.map (·.mass) = parts.map Part.mass := by
    clear h
    induction hw with
    | nil => rfl
    | cons h _ ih => simp only [List.map_cons, ih]; rw [Part.mass, ← h.2.2.1]
  have hmom : ∀ i, (shapes.map fun g => g.mass * g.center i) = parts.map fun P => P.moment i := by
    intro i
    clear h hmass
    induction hw with
    | nil => rfl
    | cons h _ ih => simp only [List.map_cons, ih]; rw [Part.moment, ← h.2.2.2.1]
  have hin : ∀ o i j, (shapes.map fun g => g.inertia i j + shifted g.mass (vsub g.center o) i j) =
      parts.map fun P => P.inertiaAbout o i j := by
    intro o i j
    clear h hmass hmom
    induction hw with
    | nil => rfl
    | cons h _ ih => simp only [List.map_cons, ih]; rw [parallel_axis h]
  unfold composite at h
  simp only [foldl_mass, zero_add] at h
  split at h
  · simp at h
  rename_i hne
  split at h
  · rename_i B' hB
    injection h with h
    subst h
    have := inertia_new_ok hB
    rw [hmass] at this hne
    have hne' : (parts.map Part.mass).sum ≠ 0 := by simpa using hne
    subst this
    refine ⟨rfl, hne', fun i => ?_, fun i j => ?_⟩
    · dsimp only
      rw [vscaleBy, foldl_weighted, zero_add, hmom]
      field_simp
    · refine (foldl_inertia _ _ _ _ _).trans ?_
      rw [zero_add, hin]
  · simp at h

/-- C109. Geoms with positive masses, symmetric tensors and positive diagonals, at least one, always
make a body. -/
theorem composite_accepts (shapes : List (GeomMass ℝ)) (hne : shapes ≠ [])
    (h : ∀ g ∈ shapes, 0 < g.mass ∧ (∀ i j, g.inertia i j = g.inertia j i) ∧ ∀ i, 0 < g.inertia i i) :
    ∃ B, composite shapes = .ok B := by
  have hm : 0 < (shapes.map (·.mass)).sum := by
    refine List.sum_pos _ ?_ (by simpa using hne)
    intro x hx
    obtain ⟨g, hg, rfl⟩ := List.mem_map.1 hx
    exact (h g hg).1
  unfold composite
  simp only [foldl_mass, zero_add, beq_iff_eq, hm.ne', if_false]
  generalize hc : (vscaleBy (_ : Fin 3 → ℝ) (1 / _ : ℝ) : Fin 3 → ℝ) = c
  generalize hI : (List.foldl _ (fun _ _ => (0 : ℝ)) _ : Matrix (Fin 3) (Fin 3) ℝ) = I
  have hI' : ∀ i j, I i j = (shapes.map fun g => g.inertia i j + shifted g.mass (vsub g.center c) i j).sum := by
    intro i j
    rw [← hI]
    refine (foldl_inertia _ _ _ _ _).trans ?_
    rw [zero_add]
  have hsym : ∀ i j, I i j = I j i := by
    intro i j
    rw [hI', hI']
    congr 1
    refine List.map_congr_left fun g hg => ?_
    rw [(h g hg).2.1 i j]
    simp only [shifted, eq_comm (a := i) (b := j)]
    ring
  have hdiag : ∀ i, 0 < I i i := by
    intro i
    rw [hI']
    refine List.sum_pos _ ?_ (by simpa using hne)
    intro x hx
    obtain ⟨g, hg, rfl⟩ := List.mem_map.1 hx
    refine add_pos_of_pos_of_nonneg ((h g hg).2.2 i) ?_
    simp only [shifted, if_true]
    refine mul_nonneg (h g hg).1.le ?_
    rw [vdot3]
    fin_cases i <;> simp <;> nlinarith [mul_self_nonneg (vsub g.center c 0), mul_self_nonneg (vsub g.center c 1), mul_self_nonneg (vsub g.center c 2)]
  have hnew : SpatialInertia.new (shapes.map (·.mass)).sum c I = .ok ⟨(shapes.map (·.mass)).sum, c, I⟩ := by
    have hs : isSymmetric I = true := by
      simp only [isSymmetric, List.all_eq_true]
      intro i _ j _
      split
      · rw [hsym i j, sub_self]
        simp only [real_abs, abs_zero]
        simp only [Bool.not_eq_true', decide_eq_false_iff_not, not_lt]
        refine mul_nonneg ?_ (le_trans zero_le_one (le_max_right _ _))
        simp [epsilonX30]
        exact (show (0 : ℝ) ≤ 1 / 2 ^ 52 by positivity)
      · rfl
    have hd : ((List.finRange 3).any fun i => decide (I i i ≤ 0)) = false := by
      rw [List.any_eq_false]
      intro i _
      simpa using hdiag i
    simp only [SpatialInertia.new, real_isFinite, real_vecIsFinite, real_mIsFinite, hs, hd, not_le.2 hm]
    simp
  rw [hnew]
  exact ⟨_, rfl⟩

/-- The part a geom's settings describe. -/
def Depicts (s : GeomDefaults ℝ) (P : Part) : Prop :=
  Fills s.geomType (s.size.getD []) (s.fromto.map spanOf) P.region ∧ Places s P.place ∧
  (∀ m, s.mass = some m → P.mass = m) ∧ (s.mass = none → P.density = s.density.getD 1000)

/-- A geom that bears no mass: it says so itself. -/
def Massless (s : GeomDefaults ℝ) : Prop := s.mass = some 0 ∨ (s.mass = none ∧ s.density = some 0)

open Classical in
/-- C109. The inertia synthesized for a body without an `<inertial>` is that of the matter its geoms
describe: of the geoms that bear mass, each with the settings in effect for it, the total mass, the
point the body balances at, and the inertia about that point, all as integrals over the regions the
geoms fill in the places they state. -/
theorem mjcf_body_inertia (table : DefaultTable ℝ) (chain : Option String) (geoms : List (GeomElement ℝ))
    (B : SpatialInertia ℝ) (h : synthesizedInertia table chain geoms = .ok B)
    (hsize : ∀ geom ∈ geoms, ∀ s, effectiveGeom table chain geom.className geom.own = .ok s →
      ∀ x ∈ s.size.getD [], 0 < x) :
    ∃ (settings : List (GeomDefaults ℝ)) (parts : List Part),
      List.Forall₂ (fun geom s => geom.orientation = none ∧
        effectiveGeom table chain geom.className geom.own = .ok s) geoms settings ∧
      List.Forall₂ Depicts (settings.filter fun s => ¬Massless s) parts ∧
      B.mass = (parts.map Part.mass).sum ∧ 0 < B.mass ∧
      (∀ i, B.mass * B.centerOfMass i = (parts.map fun P => P.moment i).sum) ∧
      ∀ i j, B.rotationalInertia i j = (parts.map fun P => P.inertiaAbout B.centerOfMass i j).sum := by
  simp only [synthesizedInertia, bind, Except.bind] at h
  cases hr : readGeoms table chain geoms with
  | error e => simp [hr] at h
  | ok shapes =>
  simp only [hr] at h
  have key : ∃ (settings : List (GeomDefaults ℝ)) (parts : List Part),
      List.Forall₂ (fun geom s => geom.orientation = none ∧
        effectiveGeom table chain geom.className geom.own = .ok s) geoms settings ∧
      List.Forall₂ Depicts (settings.filter fun s => ¬Massless s) parts ∧
      List.Forall₂ (fun g P => Weighs g P.region P.place P.density) shapes parts := by
    clear h
    induction geoms generalizing shapes with
    | nil =>
      simp only [readGeoms] at hr
      injection hr with hr
      subst hr
      exact ⟨[], [], .nil, by simp, .nil⟩
    | cons geom rest ih =>
      simp only [readGeoms, bind, Except.bind] at hr
      cases hg : readGeom table chain geom with
      | error e => simp [hg] at hr
      | ok r =>
      simp only [hg] at hr
      cases hrest : readGeoms table chain rest with
      | error e => simp [hrest] at hr
      | ok l =>
      simp only [hrest] at hr
      injection hr with hr
      obtain ⟨settings, parts, h1, h2, h3⟩ := ih (fun g hg' => hsize g (List.mem_cons_of_mem _ hg')) l hrest
      unfold readGeom at hg
      cases ho : geom.orientation with
      | some a => simp [ho] at hg
      | none =>
      simp only [ho, bind, Except.bind] at hg
      cases he : effectiveGeom table chain geom.className geom.own with
      | error e => simp [he] at hg
      | ok s =>
      simp only [he] at hg
      have hs := hsize geom (List.mem_cons_self ..) s he
      cases r with
      | some g =>
        obtain ⟨S, place, ρ, a1, a2, a3, a4, a5, -, -⟩ := geom_inertia s g hg hs
        have hheavy : ¬Massless s := by
          rintro (hm | ⟨hm, hd⟩)
          · simp [readSettings, hm] at hg
          · have hz := a5 hm
            have hg0 : g.mass = 0 := by rw [a3.2.2.1, hz, hd]; simp
            -- a geom of mass zero is never returned
            unfold readSettings at hg
            split at hg
            · simp at hg
            simp only [bind, Except.bind] at hg
            cases b1 : shapeOf s.geomType with
            | error e => simp [b1] at hg
            | ok shape =>
            simp only [b1] at hg
            cases b2 : axisOf s shape with
            | error e => simp [b2] at hg
            | ok axis =>
            simp only [b2] at hg
            cases b3 : extents s.size shape axis with
            | error e => simp [b3] at hg
            | ok e =>
            simp only [b3] at hg
            split at hg
            · simp at hg
            rename_i hne
            cases b4 : turnOf s axis with
            | error e => simp [b4] at hg
            | ok turn =>
            simp only [b4] at hg
            injection hg with hg
            injection hg with hg
            rw [← hg] at hg0
            exact hne (by simpa using hg0)
        refine ⟨s :: settings, ⟨S, place, ρ⟩ :: parts, .cons ⟨ho, he⟩ h1, ?_, ?_⟩
        · rw [List.filter_cons_of_pos (by simpa using hheavy)]
          exact .cons ⟨a1, a2, fun m hm => by rw [Part.mass, ← a3.2.2.1, a4 m hm], a5⟩ h2
        · rw [← hr]
          exact .cons a3 h3
      | none =>
        have hlight : Massless s := by
          by_contra hheavy
          have hm0 : (s.mass.any fun m => m == 0) = false := by
            cases hm : s.mass with
            | none => rfl
            | some m => simp only [Option.any_some, beq_eq_false_iff_ne]; intro h0; exact hheavy (.inl (by rw [hm, h0]))
          simp only [readSettings, hm0, Bool.false_eq_true, if_false, bind, Except.bind] at hg
          cases b1 : shapeOf s.geomType with
          | error e => simp [b1] at hg
          | ok shape =>
          simp only [b1] at hg
          cases b2 : axisOf s shape with
          | error e => simp [b2] at hg
          | ok axis =>
          simp only [b2] at hg
          cases b3 : extents s.size shape axis with
          | error e => simp [b3] at hg
          | ok e =>
          simp only [b3] at hg
          split at hg
          · rename_i hz
            have hz' : massOf s (volumeSpread shape e).1 = 0 := by simpa using hz
            have hpos := extents_positive b2 b3 hs
            obtain ⟨-, hV, -⟩ := geom_volume_spread shape e hpos.1 hpos.2
            cases hm : s.mass with
            | some m =>
              simp only [massOf, hm] at hz'
              exact hheavy (.inl (by rw [hm, hz']))
            | none =>
              simp only [massOf, hm] at hz'
              rcases mul_eq_zero.1 hz' with h' | h'
              · cases hd : s.density with
                | none => rw [hd] at h'; simp at h'
                | some d =>
                  rw [hd] at h'
                  exact hheavy (.inr ⟨hm, by rw [hd]; exact congrArg some h'⟩)
              · exact hV.ne' h'
          · cases b4 : turnOf s axis with
            | error e => simp [b4] at hg
            | ok turn => simp [b4] at hg
        refine ⟨s :: settings, parts, .cons ⟨ho, he⟩ h1, ?_, ?_⟩
        · rw [List.filter_cons_of_neg (by simpa using hlight)]
          exact h2
        · rw [← hr]
          exact h3
  obtain ⟨settings, parts, h1, h2, h3⟩ := key
  obtain ⟨c1, c2, c3, c4⟩ := composite_inertia shapes parts B h3 h
  refine ⟨settings, parts, h1, h2, c1, ?_, c3, c4⟩
  unfold composite at h
  dsimp only at h
  split at h
  · simp at h
  split at h
  · rename_i B' hB
    injection h with h
    subst h
    have := inertia_new_ok hB
    unfold SpatialInertia.new at hB
    split_ifs at hB with b1 b2
    rw [this]
    exact not_le.1 b2
  · simp at h

/-- C109. A body whose geoms are all read, all bear positive mass and have positive sizes, gets its
inertia: nothing that `mjcf_body_inertia` says is about an empty set of bodies. -/
theorem mjcf_body_accepts (table : DefaultTable ℝ) (chain : Option String) (geoms : List (GeomElement ℝ))
    (hne : geoms ≠ []) (h : ∀ geom ∈ geoms, ∃ g : GeomMass ℝ, readGeom table chain geom = .ok (some g) ∧ 0 < g.mass)
    (hsize : ∀ geom ∈ geoms, ∀ s, effectiveGeom table chain geom.className geom.own = .ok s →
      ∀ x ∈ s.size.getD [], 0 < x) :
    ∃ B, synthesizedInertia table chain geoms = .ok B := by
  have key : ∃ shapes : List (GeomMass ℝ), readGeoms table chain geoms = .ok shapes ∧ shapes.length = geoms.length ∧
      ∀ g ∈ shapes, 0 < g.mass ∧ (∀ i j, g.inertia i j = g.inertia j i) ∧ ∀ i, 0 < g.inertia i i := by
    clear hne
    induction geoms with
    | nil => exact ⟨[], rfl, rfl, by simp⟩
    | cons geom rest ih =>
      obtain ⟨shapes, h1, h2, h3⟩ := ih (fun g hg => h g (List.mem_cons_of_mem _ hg))
        (fun g hg => hsize g (List.mem_cons_of_mem _ hg))
      obtain ⟨g, hg, hm⟩ := h geom (List.mem_cons_self ..)
      refine ⟨g :: shapes, ?_, by simp [h2], ?_⟩
      · simp [readGeoms, bind, Except.bind, hg, h1]
      · intro x hx
        rcases List.mem_cons.1 hx with rfl | hx
        · unfold readGeom at hg
          cases ho : geom.orientation with
          | some a => simp [ho] at hg
          | none =>
          simp only [ho, bind, Except.bind] at hg
          cases he : effectiveGeom table chain geom.className geom.own with
          | error e => simp [he] at hg
          | ok s =>
          simp only [he] at hg
          obtain ⟨-, -, -, -, -, -, -, -, hs, hd⟩ := geom_inertia s x hg (hsize geom (List.mem_cons_self ..) s he)
          exact ⟨hm, hs, hd hm⟩
        · exact h3 x hx
  obtain ⟨shapes, h1, h2, h3⟩ := key
  obtain ⟨B, hB⟩ := composite_accepts shapes (by
    intro h0
    rw [h0] at h2
    exact hne (List.length_eq_zero_iff.1 h2.symm)) h3
  exact ⟨B, by simp [synthesizedInertia, bind, Except.bind, h1, hB]⟩

/-- A body of one ball and one box, of stated masses, gets its inertia. -/
example : ∃ B, synthesizedInertia ({} : DefaultTable ℝ) none
    [⟨none, none, ⟨none, some [1], none, none, none, some 2, none⟩⟩,
     ⟨none, none, ⟨some "box", some [1, 2, 3], none, some ![0, 0, 5], none, some 3, none⟩⟩] = .ok B := by
  refine mjcf_body_accepts _ _ _ (by simp) ?_ ?_
  · intro geom hg
    simp only [List.mem_cons, List.not_mem_nil, or_false] at hg
    rcases hg with rfl | rfl
    · have := (geom_accepts (⟨none, some [1], none, none, none, some 2, none⟩ : GeomDefaults ℝ) _
        (Fills.assumed 1) (by simp) (fun _ h => by cases h) (fun _ _ h => by cases h)).2 (by simp)
      obtain ⟨g, hg⟩ := this
      obtain ⟨_, _, _, _, _, _, hm, _⟩ := geom_inertia _ g hg (by simp)
      refine ⟨g, hg, ?_⟩
      rw [hm 2 rfl]; norm_num
    · have := (geom_accepts (⟨some "box", some [1, 2, 3], none, some ![0, 0, 5], none, some 3, none⟩ : GeomDefaults ℝ) _
        (Fills.box 1 2 3) (by simp) (fun _ h => by cases h) (fun _ _ h => by cases h)).2 (by simp)
      obtain ⟨g, hg⟩ := this
      obtain ⟨_, _, _, _, _, _, hm, _⟩ := geom_inertia _ g hg (by simp)
      refine ⟨g, hg, ?_⟩
      rw [hm 3 rfl]; norm_num
  · intro geom hg s hs
    simp only [List.mem_cons, List.not_mem_nil, or_false] at hg
    rcases hg with rfl | rfl
    · simp only [effectiveGeom, DefaultTable.apply, bind, Except.bind, GeomDefaults.overriddenBy] at hs
      injection hs with hs
      subst hs
      simp
    · simp only [effectiveGeom, DefaultTable.apply, bind, Except.bind, GeomDefaults.overriddenBy] at hs
      injection hs with hs
      subst hs
      simp

end Multicalc.Mjcf
