import Verif.Props.KinematicTree
import Mathlib.Analysis.Calculus.Deriv.Mul
import Mathlib.Analysis.Calculus.Deriv.Pow
import Mathlib.Analysis.SpecialFunctions.Trigonometric.Deriv

/-!
# The geometric Jacobian (C54)
-/

namespace Multicalc

/-! ### Moving frames -/

/-- A quaternion path whose rotation turns at the rate `w`, in the axes the rotation maps into:
`q' = w q / 2`. -/
def HasSpin (q : ℝ → Quat ℝ) (w : Fin 3 → ℝ) (x₀ : ℝ) : Prop :=
  HasDerivAt (fun x => (q x).w) (-(w 0 * (q x₀).x + w 1 * (q x₀).y + w 2 * (q x₀).z) / 2) x₀ ∧
  HasDerivAt (fun x => (q x).x) ((w 0 * (q x₀).w + w 1 * (q x₀).z - w 2 * (q x₀).y) / 2) x₀ ∧
  HasDerivAt (fun x => (q x).y) ((w 1 * (q x₀).w + w 2 * (q x₀).x - w 0 * (q x₀).z) / 2) x₀ ∧
  HasDerivAt (fun x => (q x).z) ((w 2 * (q x₀).w + w 0 * (q x₀).y - w 1 * (q x₀).x) / 2) x₀

/-- A moving frame with linear velocity `v` of its origin and angular velocity `w`. -/
def HasTwist (P : ℝ → SE3 ℝ) (v w : Fin 3 → ℝ) (x₀ : ℝ) : Prop :=
  (∀ i, HasDerivAt (fun x => (P x).translation i) (v i) x₀) ∧
    HasSpin (fun x => (P x).rotation.quaternion) w x₀

/-- A vector carried along by a spinning rotation. -/
theorem HasSpin.act {R : ℝ → SO3 ℝ} {w : Fin 3 → ℝ} {x₀ : ℝ} (h : HasSpin (fun x => (R x).quaternion) w x₀)
    {u : ℝ → Fin 3 → ℝ} {u' : Fin 3 → ℝ} (hu : ∀ i, HasDerivAt (fun x => u x i) (u' i) x₀) (i : Fin 3) :
    HasDerivAt (fun x => (R x).act (u x) i) (cross w ((R x₀).act (u x₀)) i + (R x₀).act u' i) x₀ := by
  obtain ⟨hw, hx, hy, hz⟩ := h
  have h0 := hu 0
  have h1 := hu 1
  have h2 := hu 2
  simp only [SO3.act, transformPoint_explicit]
  fin_cases i
  · have := ((((((hw.pow 2).add (hx.pow 2)).sub (hy.pow 2)).sub (hz.pow 2)).mul h0).add
      ((((hx.mul hy).sub (hw.mul hz)).const_mul 2).mul h1)).add
      ((((hx.mul hz).add (hw.mul hy)).const_mul 2).mul h2)
    refine (HasDerivAt.congr_deriv this ?_)
    simp [cross]; ring
  · have := ((((((hx.mul hy).add (hw.mul hz)).const_mul 2).mul h0).add
      (((((hw.pow 2).sub (hx.pow 2)).add (hy.pow 2)).sub (hz.pow 2)).mul h1))).add
      ((((hy.mul hz).sub (hw.mul hx)).const_mul 2).mul h2)
    refine (HasDerivAt.congr_deriv this ?_)
    simp [cross]; ring
  · have := ((((((hx.mul hz).sub (hw.mul hy)).const_mul 2).mul h0).add
      ((((hy.mul hz).add (hw.mul hx)).const_mul 2).mul h1))).add
      (((((hw.pow 2).sub (hx.pow 2)).sub (hy.pow 2)).add (hz.pow 2)).mul h2)
    refine (HasDerivAt.congr_deriv this ?_)
    simp [cross]; ring

theorem HasSpin.compose {p q : ℝ → Quat ℝ} {w w' : Fin 3 → ℝ} {x₀ : ℝ} (hp : HasSpin p w x₀)
    (hq : HasSpin q w' x₀) (hu : (p x₀).IsUnit) :
    HasSpin (fun x => (p x).mul (q x)) (w + (p x₀).transformPoint w') x₀ := by
  obtain ⟨a1, a2, a3, a4⟩ := hp
  obtain ⟨b1, b2, b3, b4⟩ := hq
  rw [Quat.IsUnit] at hu
  refine ⟨?_, ?_, ?_, ?_⟩
  · refine ((((a1.mul b1).sub (a2.mul b2)).sub (a3.mul b3)).sub (a4.mul b4)).congr_deriv ?_
    simp [Quat.mul, transformPoint_explicit]; grind
  · refine ((((a1.mul b2).add (a2.mul b1)).add (a3.mul b4)).sub (a4.mul b3)).congr_deriv ?_
    simp [Quat.mul, transformPoint_explicit]; grind
  · refine ((((a1.mul b3).sub (a2.mul b4)).add (a3.mul b1)).add (a4.mul b2)).congr_deriv ?_
    simp [Quat.mul, transformPoint_explicit]; grind
  · refine ((((a1.mul b4).add (a2.mul b3)).sub (a3.mul b2)).add (a4.mul b1)).congr_deriv ?_
    simp [Quat.mul, transformPoint_explicit]; grind

/-- The velocity of a frame carried by a moving frame. -/
theorem HasTwist.compose {P Q : ℝ → SE3 ℝ} {v w v' w' : Fin 3 → ℝ} {x₀ : ℝ} (hP : HasTwist P v w x₀)
    (hQ : HasTwist Q v' w' x₀) (hu : (P x₀).rotation.quaternion.IsUnit) :
    HasTwist (fun x => (P x).compose (Q x))
      (v + cross w ((P x₀).rotation.act (Q x₀).translation) + (P x₀).rotation.act v')
      (w + (P x₀).rotation.act w') x₀ := by
  refine ⟨fun i => ?_, hP.2.compose hQ.2 hu⟩
  refine ((hP.2.act hQ.1 i).add (hP.1 i)).congr_deriv ?_
  simp only [Pi.add_apply]; ring

theorem HasTwist.const (P : SE3 ℝ) (x₀ : ℝ) : HasTwist (fun _ => P) 0 0 x₀ := by
  refine ⟨fun i => by simpa using hasDerivAt_const x₀ (P.translation i), ?_, ?_, ?_, ?_⟩ <;>
    simpa using hasDerivAt_const x₀ _

theorem HasSpin.congr {p q : ℝ → Quat ℝ} {w : Fin 3 → ℝ} {x₀ : ℝ} (h : HasSpin p w x₀)
    (e : ∀ᶠ x in nhds x₀, q x = p x) : HasSpin q w x₀ := by
  have e0 := e.self_of_nhds
  unfold HasSpin
  rw [e0]
  exact ⟨h.1.congr_of_eventuallyEq (e.mono fun x hx => by simp [hx]),
    h.2.1.congr_of_eventuallyEq (e.mono fun x hx => by simp [hx]),
    h.2.2.1.congr_of_eventuallyEq (e.mono fun x hx => by simp [hx]),
    h.2.2.2.congr_of_eventuallyEq (e.mono fun x hx => by simp [hx])⟩

namespace KinematicTree

variable {maxJoints maxConfig : ℕ}

/-- A turn at which the rotation is differentiable: zero, or beyond the series threshold. -/
def SmoothTurn (d : ℝ) : Prop := d = 0 ∨ 30 / 2 ^ 52 < |d|

theorem SmoothTurn.regular {d : ℝ} (h : SmoothTurn d) : RegularTurn d := h.imp id le_of_lt

/-- A joint turning at the rate `r` spins its link at `r` times the axis. -/
theorem spin_exp {a : Fin 3 → ℝ} (ha : UnitVec a) {d : ℝ → ℝ} {r x₀ : ℝ} (hd : HasDerivAt d r x₀)
    (hs : SmoothTurn (d x₀)) :
    HasSpin (fun x => (SO3.exp (fun k => a k * d x)).quaternion) (fun k => r * a k) x₀ := by
  have hu := ha
  unfold UnitVec at hu
  rcases hs with h0 | hbig
  · -- near a zero turn the series is used
    have hev : ∀ᶠ x in nhds x₀, (SO3.exp (fun k => a k * d x)).quaternion =
        ⟨1 - d x ^ 2 / 8, a 0 * (d x * (1 / 2 - d x ^ 2 / 48)), a 1 * (d x * (1 / 2 - d x ^ 2 / 48)),
          a 2 * (d x * (1 / 2 - d x ^ 2 / 48))⟩ := by
      have : ∀ᶠ x in nhds x₀, |d x| < 30 / 2 ^ 52 := by
        refine (hd.continuousAt.abs).eventually_lt continuousAt_const ?_
        rw [h0]; norm_num
      refine this.mono fun x hx => ?_
      change Quat.fromScaledAxis _ = _
      rw [fromScaledAxis_small (by rw [vnorm_axis ha]; exact hx), vnorm_axis ha, sq_abs]
      simp only [mul_assoc]
    refine HasSpin.congr ?_ hev
    have hq : HasDerivAt (fun x => d x * (1 / 2 - d x ^ 2 / 48)) (r / 2) x₀ := by
      refine (hd.mul (((hd.pow 2).div_const 48).const_sub (1 / 2))).congr_deriv ?_
      simp [h0]; ring
    refine ⟨?_, ?_, ?_, ?_⟩
    · refine ((((hd.pow 2).div_const 8).const_sub 1)).congr_deriv ?_
      simp [h0]
    · refine (hq.const_mul (a 0)).congr_deriv ?_
      simp [h0]; ring
    · refine (hq.const_mul (a 1)).congr_deriv ?_
      simp [h0]; ring
    · refine (hq.const_mul (a 2)).congr_deriv ?_
      simp [h0]; ring
  · have hev : ∀ᶠ x in nhds x₀, (SO3.exp (fun k => a k * d x)).quaternion =
        ⟨Real.cos (d x / 2), a 0 * Real.sin (d x / 2), a 1 * Real.sin (d x / 2),
          a 2 * Real.sin (d x / 2)⟩ := by
      have : ∀ᶠ x in nhds x₀, 30 / 2 ^ 52 < |d x| :=
        continuousAt_const.eventually_lt (hd.continuousAt.abs) hbig
      exact this.mono fun x hx => exp_axis ha (Or.inr hx.le)
    refine HasSpin.congr ?_ hev
    have h2 : HasDerivAt (fun x => d x / 2) (r / 2) x₀ := hd.div_const 2
    have hc := h2.cos
    have hsn := h2.sin
    refine ⟨?_, ?_, ?_, ?_⟩
    · refine hc.congr_deriv ?_
      simp only
      linear_combination (r / 2 * Real.sin (d x₀ / 2)) * hu
    · refine (hsn.const_mul (a 0)).congr_deriv ?_
      simp only; ring
    · refine (hsn.const_mul (a 1)).congr_deriv ?_
      simp only; ring
    · refine (hsn.const_mul (a 2)).congr_deriv ?_
      simp only; ring

/-! ### Sums of columns -/

/-- A slot of a configuration or velocity vector; zero outside the vector. -/
def slot (c : Fin maxConfig → ℝ) (k : ℕ) : ℝ := (reading c k).getD 0

theorem slot_eq (c : Fin maxConfig → ℝ) {k : ℕ} (h : k < maxConfig) : slot c k = c ⟨k, h⟩ := by
  simp [slot, reading, h]

/-- The columns of one joint weighted by the rates from slot `k` on. -/
def colSum (r : ℕ → ℝ) : ℕ → List ((Fin 3 → ℝ) × (Fin 3 → ℝ)) → (Fin 3 → ℝ) × (Fin 3 → ℝ)
  | _, [] => 0
  | k, c :: cs => r k • c + colSum r (k + 1) cs

theorem cross_add_left (a b c : Fin 3 → ℝ) : cross (a + b) c = cross a c + cross b c := by
  apply vec3_ext <;> simp [cross] <;> ring

theorem cross_add_right (a b c : Fin 3 → ℝ) : cross a (b + c) = cross a b + cross a c := by
  apply vec3_ext <;> simp [cross] <;> ring

theorem cross_zero_left (a : Fin 3 → ℝ) : cross 0 a = 0 := by
  apply vec3_ext <;> simp [cross]

/-- Reading the columns at another point adds the angular part times the offset. -/
theorem colSum_point (r : ℕ → ℝ) (k : ℕ) (j : Joint ℝ) (P : SE3 ℝ) (p p' : Fin 3 → ℝ) :
    colSum r k (jointColumns j P p') = colSum r k (jointColumns j P p) +
      (cross (colSum r k (jointColumns j P p)).2 (p' - p), 0) := by
  unfold jointColumns
  cases j.kind <;> simp only [colSum]
  case revolute =>
    refine Prod.ext ?_ ?_
    · apply vec3_ext <;> simp [cross, vsub] <;> ring
    · simp
  case continuous =>
    refine Prod.ext ?_ ?_
    · apply vec3_ext <;> simp [cross, vsub] <;> ring
    · simp
  case prismatic =>
    refine Prod.ext ?_ ?_
    · apply vec3_ext <;> simp [cross] <;> rfl
    · simp
  case fixed =>
    refine Prod.ext ?_ ?_
    · apply vec3_ext <;> simp [cross]
    · simp
  case floating =>
    refine Prod.ext ?_ ?_
    · apply vec3_ext <;> simp [cross, vsub] <;> ring
    · simp

open Classical in
/-- The columns of one joint, at its pose, weighted by the rates. -/
noncomputable def contrib (t : KinematicTree maxJoints maxConfig ℝ) (poses : ℕ → SE3 ℝ) (r : ℕ → ℝ)
    (p : Fin 3 → ℝ) (k : ℕ) : (Fin 3 → ℝ) × (Fin 3 → ℝ) :=
  match t.joint k, t.velocityOffset k with
  | some j, some o => colSum r o (jointColumns j (poses k) p)
  | _, _ => 0

open Classical in
/-- The columns of all joints that carry link `i`, weighted by the rates. -/
noncomputable def total (t : KinematicTree maxJoints maxConfig ℝ) (poses : ℕ → SE3 ℝ) (r : ℕ → ℝ)
    (p : Fin 3 → ℝ) (i : ℕ) : (Fin 3 → ℝ) × (Fin 3 → ℝ) :=
  ∑ k ∈ Finset.range t.len, if CarriedBy t k i then contrib t poses r p k else 0

theorem contrib_point (t : KinematicTree maxJoints maxConfig ℝ) (poses : ℕ → SE3 ℝ) (r : ℕ → ℝ)
    (p p' : Fin 3 → ℝ) (k : ℕ) : contrib t poses r p' k = contrib t poses r p k +
      (cross (contrib t poses r p k).2 (p' - p), 0) := by
  unfold contrib
  split
  · exact colSum_point _ _ _ _ _ _
  · simp [cross_zero_left]; rfl

theorem total_point (t : KinematicTree maxJoints maxConfig ℝ) (poses : ℕ → SE3 ℝ) (r : ℕ → ℝ)
    (p p' : Fin 3 → ℝ) (i : ℕ) : total t poses r p' i = total t poses r p i +
      (cross (total t poses r p i).2 (p' - p), 0) := by
  unfold total
  induction Finset.range t.len using Finset.induction_on with
  | empty => simp [cross_zero_left]; rfl
  | insert a s ha ih =>
    rw [Finset.sum_insert ha, Finset.sum_insert ha, ih]
    split_ifs with h
    · rw [contrib_point t poses r p p' a]
      rw [Prod.snd_add, cross_add_left]
      refine Prod.ext ?_ ?_ <;> simp; abel
    · simp

theorem CarriedBy.le {T : Type} {t : KinematicTree maxJoints maxConfig T}
    (hp : ∀ i p, t.parent i = some (.joint p) → p < i) {k i : ℕ} (h : CarriedBy t k i) : k ≤ i := by
  induction h with
  | self => exact le_rfl
  | step hi _ ih => exact ih.trans (hp _ _ hi).le

theorem carriedBy_joint {T : Type} {t : KinematicTree maxJoints maxConfig T} {k i p : ℕ}
    (h : t.parent i = some (.joint p)) : CarriedBy t k i ↔ k = i ∨ CarriedBy t k p := by
  constructor
  · intro hc
    cases hc with
    | self => exact Or.inl rfl
    | step hi hc => rw [h] at hi; cases hi; exact Or.inr hc
  · rintro (rfl | hc)
    · exact CarriedBy.self
    · exact CarriedBy.step h hc

theorem carriedBy_world {T : Type} {t : KinematicTree maxJoints maxConfig T} {k i : ℕ}
    (h : t.parent i = some .world) : CarriedBy t k i ↔ k = i := by
  constructor
  · intro hc
    cases hc with
    | self => rfl
    | step hi hc => rw [h] at hi; cases hi
  · rintro rfl; exact CarriedBy.self

theorem total_world {t : KinematicTree maxJoints maxConfig ℝ} {i : ℕ} (hi : i < t.len)
    (h : t.parent i = some .world) (poses : ℕ → SE3 ℝ) (r : ℕ → ℝ) (p : Fin 3 → ℝ) :
    total t poses r p i = contrib t poses r p i := by
  unfold total
  simp only [carriedBy_world h]
  rw [Finset.sum_ite_eq' (Finset.range t.len) i, if_pos (Finset.mem_range.2 hi)]

theorem total_joint {t : KinematicTree maxJoints maxConfig ℝ} (hw : t.WellFormed) {i q : ℕ}
    (hi : i < t.len) (h : t.parent i = some (.joint q)) (poses : ℕ → SE3 ℝ) (r : ℕ → ℝ)
    (p : Fin 3 → ℝ) :
    total t poses r p i = total t poses r p q + contrib t poses r p i := by
  classical
  have hq := hw.parents i q h
  have hnot : ¬ CarriedBy t i q := fun hc => by have := hc.le hw.parents; omega
  have h1 : contrib t poses r p i =
      ∑ k ∈ Finset.range t.len, if k = i then contrib t poses r p k else 0 := by
    rw [Finset.sum_ite_eq' (Finset.range t.len) i, if_pos (Finset.mem_range.2 hi)]
  unfold total
  rw [h1, ← Finset.sum_add_distrib]
  refine Finset.sum_congr rfl fun k _ => ?_
  by_cases hk : k = i
  · subst hk
    rw [if_pos CarriedBy.self, if_neg hnot, if_pos rfl, zero_add]
  · by_cases hc : CarriedBy t k q
    · rw [if_pos ((carriedBy_joint h).2 (Or.inr hc)), if_pos hc, if_neg hk, add_zero]
    · rw [if_neg (fun h' => ((carriedBy_joint h).1 h').elim hk hc), if_neg hc, if_neg hk, add_zero]

/-! ### The velocity of a link -/

/-- A motion `c` of the configuration whose generalized velocity at `x₀` is `qd`: the reading of every
turning or sliding joint changes at its rate. For a floating joint the first three rates are the velocity
of the body in the world's axes, which is the rate of the three place readings turned by the joint's
origin, and the last three are its angular velocity in its own axes, `q' = q w / 2`, the orientation
readings being a unit quaternion. -/
def HasRate (t : KinematicTree maxJoints maxConfig ℝ) (c : ℝ → Fin maxConfig → ℝ)
    (qd : Fin maxConfig → ℝ) (x₀ : ℝ) : Prop :=
  ∀ i j o vo, t.joint i = some j → t.configOffset i = some o → t.velocityOffset i = some vo →
    (j.Moves → HasDerivAt (fun x => slot (c x) o) (slot qd vo) x₀) ∧
    (j.kind = .revolute ∨ j.kind = .continuous → SmoothTurn (slot (c x₀) o - j.zeroOffset)) ∧
    (j.kind = .floating →
      (∃ v : Fin 3 → ℝ, (∀ k : Fin 3, HasDerivAt (fun x => slot (c x) (o + k)) (v k) x₀) ∧
        ∀ k : Fin 3, slot qd (vo + k) = j.origin.rotation.act v k) ∧
      (∀ x, (Quat.mk (slot (c x) (o + 3)) (slot (c x) (o + 4)) (slot (c x) (o + 5))
        (slot (c x) (o + 6))).IsUnit) ∧
      HasDerivAt (fun x => slot (c x) (o + 3)) (-(slot (c x₀) (o + 4) * slot qd (vo + 3) +
        slot (c x₀) (o + 5) * slot qd (vo + 4) + slot (c x₀) (o + 6) * slot qd (vo + 5)) / 2) x₀ ∧
      HasDerivAt (fun x => slot (c x) (o + 4)) ((slot (c x₀) (o + 3) * slot qd (vo + 3) +
        slot (c x₀) (o + 5) * slot qd (vo + 5) - slot (c x₀) (o + 6) * slot qd (vo + 4)) / 2) x₀ ∧
      HasDerivAt (fun x => slot (c x) (o + 5)) ((slot (c x₀) (o + 3) * slot qd (vo + 4) +
        slot (c x₀) (o + 6) * slot qd (vo + 3) - slot (c x₀) (o + 4) * slot qd (vo + 5)) / 2) x₀ ∧
      HasDerivAt (fun x => slot (c x) (o + 6)) ((slot (c x₀) (o + 3) * slot qd (vo + 5) +
        slot (c x₀) (o + 4) * slot qd (vo + 4) - slot (c x₀) (o + 5) * slot qd (vo + 3)) / 2) x₀)

theorem so3_act_smul (p : SO3 ℝ) (k : ℝ) (v : Fin 3 → ℝ) : p.act (k • v) = k • p.act v := by
  apply vec3_ext <;> simp [SO3.act, transformPoint_explicit] <;> ring

theorem so3_act_add (p : SO3 ℝ) (v w : Fin 3 → ℝ) : p.act (v + w) = p.act v + p.act w :=
  (so3_act_linear p v w).1

theorem so3_act_neg (p : SO3 ℝ) (v : Fin 3 → ℝ) : p.act (-v) = -p.act v := (so3_act_linear p v v).2.1

theorem so3_act_zero (p : SO3 ℝ) : p.act 0 = 0 := by
  apply vec3_ext <;> simp [SO3.act, transformPoint_explicit]

/-- The velocity a turning joint gives its link, in the joint's axes and in the world's. -/
theorem turn_twist {j : Joint ℝ} (ha : UnitVec j.axis) {d : ℝ → ℝ} {r x₀ : ℝ} (hd : HasDerivAt d r x₀)
    (hs : SmoothTurn (d x₀)) {M : ℝ → SE3 ℝ}
    (hM : ∀ x, (M x).rotation = SO3.exp (fun k => j.axis k * d x) ∧
      (M x).translation = fun k => j.anchor k - (M x).rotation.act j.anchor k) :
    (M x₀).rotation.quaternion.IsUnit ∧ ∃ v w, HasTwist M v w x₀ ∧
      ∀ A : SE3 ℝ, A.rotation.quaternion.IsUnit →
        (A.rotation.act v = r • cross ((A.compose (M x₀)).rotation.act j.axis)
          (vsub (A.compose (M x₀)).translation ((A.compose (M x₀)).act j.anchor)) ∧
        A.rotation.act w = r • (A.compose (M x₀)).rotation.act j.axis) := by
  have hspin : HasSpin (fun x => (M x).rotation.quaternion) (fun k => r * j.axis k) x₀ := by
    have := spin_exp ha hd hs
    refine this.congr (Filter.Eventually.of_forall fun x => ?_)
    rw [(hM x).1]
  have haxis : (M x₀).rotation.act j.axis = j.axis := by
    rw [(hM x₀).1, exp_axis_act ha hs.regular]
    unfold UnitVec at ha
    have : vdot j.axis j.axis = 1 := by rw [vdot3]; linarith
    rw [this]
    apply vec3_ext <;> simp [cross] <;> ring
  refine ⟨by rw [(hM x₀).1]; exact exp_axis_unit ha hs.regular,
    -cross (fun k => r * j.axis k) ((M x₀).rotation.act j.anchor), fun k => r * j.axis k,
    ⟨fun i => ?_, hspin⟩, fun A hA => ⟨?_, ?_⟩⟩
  · have h1 := (hspin.act (R := fun x => (M x).rotation) (u := fun _ => j.anchor) (u' := 0)
      (fun i => by simpa using hasDerivAt_const x₀ (j.anchor i)) i).const_sub (j.anchor i)
    have h2 : (fun x => (M x).translation i) = fun x => j.anchor i - (M x).rotation.act j.anchor i := by
      funext x; rw [(hM x).2]
    rw [h2]
    refine h1.congr_deriv ?_
    rw [so3_act_zero]; simp
  · have hsub : vsub (A.compose (M x₀)).translation ((A.compose (M x₀)).act j.anchor) =
        -A.rotation.act ((M x₀).rotation.act j.anchor) := by
      rw [SE3.act]
      simp only [SE3.compose]
      rw [so3_compose_act]
      funext i; simp [vsub, vadd]
    rw [hsub]
    have hrot : (A.compose (M x₀)).rotation.act j.axis = A.rotation.act j.axis := by
      simp only [SE3.compose]; rw [so3_compose_act, haxis]
    rw [hrot, so3_act_neg]
    have hx := (so3_group A.rotation A.rotation A.rotation hA hA j.axis
      ((M x₀).rotation.act j.anchor)).2.2.2.2.2.2.2.2.2.2.2.2.1
    have h1 : cross (fun k => r * j.axis k) ((M x₀).rotation.act j.anchor) =
        r • cross j.axis ((M x₀).rotation.act j.anchor) := by
      apply vec3_ext <;> simp [cross] <;> ring
    rw [h1, so3_act_smul, ← hx]
    apply vec3_ext <;> simp [cross] <;> ring
  · have hrot : (A.compose (M x₀)).rotation.act j.axis = A.rotation.act j.axis := by
      simp only [SE3.compose]; rw [so3_compose_act, haxis]
    rw [hrot, ← so3_act_smul]; rfl

/-- The velocity any joint gives its link, and its columns weighted by its rates. -/
theorem joint_twist {t : KinematicTree maxJoints maxConfig ℝ} (hb : Built t)
    {c : ℝ → Fin maxConfig → ℝ} {qd : Fin maxConfig → ℝ} {x₀ : ℝ} (hr : HasRate t c qd x₀) {i o vo : ℕ}
    {j : Joint ℝ} (hj : t.joint i = some j) (ho : t.configOffset i = some o)
    (hv : t.velocityOffset i = some vo) {M : ℝ → SE3 ℝ} (hM : ∀ x, IsMotion j (c x) o (M x)) :
    (M x₀).rotation.quaternion.IsUnit ∧ ∃ v w, HasTwist M v w x₀ ∧
      ∀ A : SE3 ℝ, A.rotation.quaternion.IsUnit →
        (j.kind = .floating → ∀ u, A.rotation.act u = j.origin.rotation.act u) →
        colSum (slot qd) vo (jointColumns j (A.compose (M x₀)) (A.compose (M x₀)).translation) =
          (A.rotation.act v, A.rotation.act w) := by
  obtain ⟨hmove, hturn, hfloat⟩ := hr i j o vo hj ho hv
  by_cases hk : j.kind = .revolute ∨ j.kind = .continuous
  · have hm : j.Moves := by rcases hk with hk | hk <;> simp [Joint.Moves, hk]
    have hd : HasDerivAt (fun x => slot (c x) o - j.zeroOffset) (slot qd vo) x₀ :=
      (hmove hm).sub_const _
    obtain ⟨hu, v, w, htw, hA⟩ := turn_twist (built_axes hb i j hj hm) hd (hturn hk) (M := M) (fun x => by
      obtain ⟨hlt, h1, h2⟩ := turn_act hk (hM x)
      refine ⟨?_, h2⟩
      rw [h1, slot_eq _ hlt])
    refine ⟨hu, v, w, htw, fun A hAu _ => ?_⟩
    obtain ⟨e1, e2⟩ := hA A hAu
    rw [e1, e2]
    unfold jointColumns
    rcases hk with hk | hk <;> simp only [hk, colSum] <;> simp
  by_cases hp : j.kind = .prismatic
  · have hm : j.Moves := by simp [Joint.Moves, hp]
    have hd : HasDerivAt (fun x => slot (c x) o - j.zeroOffset) (slot qd vo) x₀ :=
      (hmove hm).sub_const _
    have hid : ∀ x, (M x).rotation = SO3.identity ∧
        (M x).translation = fun k => j.axis k * (slot (c x) o - j.zeroOffset) := fun x => by
      obtain ⟨hlt, h1, h2⟩ := slide_act hp (hM x)
      exact ⟨h1, by rw [h2, slot_eq _ hlt]⟩
    refine ⟨by rw [(hid x₀).1]; simp [SO3.identity, Quat.identity, Quat.IsUnit],
      slot qd vo • j.axis, 0, ⟨fun k => ?_, ?_⟩, fun A hAu _ => ?_⟩
    · have h2 : (fun x => (M x).translation k) = fun x => j.axis k * (slot (c x) o - j.zeroOffset) := by
        funext x; rw [(hid x).2]
      rw [h2]
      refine (hd.const_mul (j.axis k)).congr_deriv ?_
      simp [mul_comm]
    · exact (HasTwist.const SE3.identity x₀).2.congr (Filter.Eventually.of_forall fun x => by
        rw [(hid x).1]; rfl)
    · unfold jointColumns
      simp only [hp, colSum]
      have : (A.compose (M x₀)).rotation.act j.axis = A.rotation.act j.axis := by
        simp only [SE3.compose]; rw [so3_compose_act, (hid x₀).1]
        congr 1
        apply vec3_ext <;> simp [SO3.act, transformPoint_explicit, SO3.identity, Quat.identity]
      rw [this, so3_act_smul, so3_act_zero]
      refine Prod.ext ?_ ?_
      · simp
      · funext k; simp
  by_cases hx : j.kind = .fixed
  · have hid : ∀ x, M x = SE3.identity := fun x => by
      have := hM x
      unfold IsMotion at this
      simpa only [hx] using this
    have hfun : M = fun _ => SE3.identity := funext hid
    refine ⟨by rw [hid]; simp [SE3.identity, SO3.identity, Quat.identity, Quat.IsUnit], 0, 0, ?_, ?_⟩
    · rw [hfun]; exact HasTwist.const _ _
    · intro A _ _
      unfold jointColumns
      simp only [hx, colSum]
      rw [so3_act_zero]; rfl
  have hf : j.kind = .floating := by
    cases hk' : j.kind <;> simp_all
  obtain ⟨⟨v, hv1, hv2⟩, hunit, d3, d4, d5, d6⟩ := hfloat hf
  have hMx : ∀ x, (M x).rotation.quaternion = ⟨slot (c x) (o + 3), slot (c x) (o + 4), slot (c x) (o + 5),
      slot (c x) (o + 6)⟩ ∧ ∀ k : Fin 3, (M x).translation k = slot (c x) (o + k) := fun x => by
    have := hM x
    unfold IsMotion at this
    simp only [hf] at this
    obtain ⟨h7, q, hq, h1, h2⟩ := this
    have hqu := hunit x
    rw [slot_eq _ (show o + 3 < maxConfig by omega), slot_eq _ (show o + 4 < maxConfig by omega),
      slot_eq _ (show o + 5 < maxConfig by omega), slot_eq _ (show o + 6 < maxConfig by omega)] at hqu ⊢
    rw [tryNormalized_unit _ hqu] at hq
    cases hq
    refine ⟨?_, fun k => ?_⟩
    · rw [h1]
      refine (so3_fromQuaternion _ ?_).2.2 hqu
      rw [(Quat.isUnit_iff _).1 hqu]; norm_num
    · rw [h2]
      fin_cases k
      · simp [slot_eq _ (show o < maxConfig by omega)]
      · simp [slot_eq _ (show o + 1 < maxConfig by omega)]
      · simp [slot_eq _ (show o + 2 < maxConfig by omega)]
  have hMu : (M x₀).rotation.quaternion.IsUnit := by rw [(hMx x₀).1]; exact hunit x₀
  refine ⟨hMu, v, (M x₀).rotation.act ![slot qd (vo + 3), slot qd (vo + 4), slot qd (vo + 5)],
    ⟨fun k => ?_, ?_⟩, fun A hAu hAf => ?_⟩
  · have : (fun x => (M x).translation k) = fun x => slot (c x) (o + k) := by
      funext x; rw [(hMx x).2]
    rw [this]; exact hv1 k
  · have hfun : (fun x => (M x).rotation.quaternion) = fun x => (⟨slot (c x) (o + 3), slot (c x) (o + 4),
        slot (c x) (o + 5), slot (c x) (o + 6)⟩ : Quat ℝ) := funext fun x => (hMx x).1
    rw [hfun, SO3.act, (hMx x₀).1]
    have hu0 := hunit x₀
    rw [Quat.IsUnit] at hu0
    simp only at hu0
    have key : ∀ a b c d e f g : ℝ, a ^ 2 + b ^ 2 + c ^ 2 + d ^ 2 = 1 → ∀ u : Fin 3 → ℝ,
        u = (Quat.mk a b c d).transformPoint ![e, f, g] →
        -(b * e + c * f + d * g) / 2 = -(u 0 * b + u 1 * c + u 2 * d) / 2 ∧
        (a * e + c * g - d * f) / 2 = (u 0 * a + u 1 * d - u 2 * c) / 2 ∧
        (a * f + d * e - b * g) / 2 = (u 1 * a + u 2 * b - u 0 * d) / 2 ∧
        (a * g + b * f - c * e) / 2 = (u 2 * a + u 0 * c - u 1 * b) / 2 := by
      rintro a b c d e f g h u rfl
      simp only [transformPoint_explicit]
      refine ⟨?_, ?_, ?_, ?_⟩ <;> simp <;> grind
    obtain ⟨k1, k2, k3, k4⟩ := key _ _ _ _ (slot qd (vo + 3)) (slot qd (vo + 4)) (slot qd (vo + 5)) hu0 _ rfl
    exact ⟨d3.congr_deriv k1, d4.congr_deriv k2, d5.congr_deriv k3, d6.congr_deriv k4⟩
  · unfold jointColumns
    simp only [hf, colSum]
    have hz : vsub (A.compose (M x₀)).translation (A.compose (M x₀)).translation = 0 := by
      funext k; simp [vsub]
    have hz2 : ∀ u : Fin 3 → ℝ, cross u 0 = 0 := fun u => by apply vec3_ext <;> simp [cross]
    rw [hz, ← so3_compose_act, hAf hf]
    have hR : (A.compose (M x₀)).rotation = A.rotation.compose (M x₀).rotation := rfl
    rw [hR]
    simp only [hz2]
    have q0 := hv2 0
    have q1 := hv2 1
    have q2 := hv2 2
    simp only [Fin.val_zero, Fin.val_one, Fin.val_two, add_zero] at q0 q1 q2
    have hz3 : ∀ a : ℝ, (a • (fun _ => 0 : Fin 3 → ℝ)) = 0 := fun a => smul_zero a
    refine Prod.ext ?_ ?_
    · apply vec3_ext <;> simp [q0, q1, q2, add_assoc]
    · apply vec3_ext <;> simp [SO3.act, transformPoint_explicit, add_assoc, hz3] <;> ring

theorem offsets_exist {t : KinematicTree maxJoints maxConfig ℝ} {i : ℕ} (hi : i < t.len) :
    ∃ j o vo, t.joint i = some j ∧ t.configOffset i = some o ∧ t.velocityOffset i = some vo := by
  obtain ⟨j, hj⟩ := joint_exists hi
  exact ⟨j, _, _, hj, configOffset_some.2 ⟨hi, rfl⟩, velocityOffset_some.2 ⟨hi, rfl⟩⟩

/-- The velocity of every link is the rate-weighted sum of the columns of the joints carrying it. -/
theorem link_twist {t : KinematicTree maxJoints maxConfig ℝ} (hb : Built t)
    (hu : ∀ i j, t.joint i = some j → j.origin.rotation.quaternion.IsUnit)
    {c : ℝ → Fin maxConfig → ℝ} {S : ℝ → KinematicTreeState ℝ}
    (hS : ∀ x, t.forwardKinematics (c x) = .ok (S x)) {qd : Fin maxConfig → ℝ} {x₀ : ℝ}
    (hr : HasRate t c qd x₀) (i : ℕ) (hi : i < t.len) :
    ((S x₀).poses i).rotation.quaternion.IsUnit ∧
    HasTwist (fun x => (S x).poses i)
      (total t (S x₀).poses (slot qd) ((S x₀).poses i).translation i).1
      (total t (S x₀).poses (slot qd) ((S x₀).poses i).translation i).2 x₀ := by
  have hw := built_wellFormed hb
  induction i using Nat.strong_induction_on with
  | _ i ih =>
    obtain ⟨j, o, vo, hj, ho, hv⟩ := offsets_exist hi
    have hx : ∀ x, ∃ P M, ((t.parent i = some .world ∧ P = SE3.identity) ∨
        ∃ p < i, t.parent i = some (.joint p) ∧ (S x).poses p = P) ∧ IsMotion j (c x) o M ∧
        (S x).poses i = (P.compose j.origin).compose M := by
      intro x
      obtain ⟨j', o', P, M, h1, h2, h3, h4, h5⟩ := (fk_ok_inv hw (hS x)).2 i hi
      rw [hj] at h1; cases h1
      rw [ho] at h2; cases h2
      exact ⟨P, M, h3, localPose_isMotion h4, h5⟩
    choose P M hP hM hpose using hx
    have hpar : ∃ vp wp, HasTwist P vp wp x₀ ∧ (P x₀).rotation.quaternion.IsUnit ∧
        (∀ p, total t (S x₀).poses (slot qd) p i =
          (vp + cross wp (p - (P x₀).translation), wp) + contrib t (S x₀).poses (slot qd) p i) ∧
        (j.kind = .floating → ∀ u, (P x₀).rotation.act u = u) := by
      obtain ⟨par, hpar⟩ := parent_exists hi
      cases par with
      | world =>
        have hid : P = fun _ => SE3.identity := by
          funext x
          rcases hP x with h | ⟨p, _, hp, _⟩
          · exact h.2
          · rw [hpar] at hp; cases hp
        have hactid : ∀ u : Fin 3 → ℝ, (SE3.identity : SE3 ℝ).rotation.act u = u := fun u => by
          apply vec3_ext <;> simp [SE3.identity, SO3.act, transformPoint_explicit, SO3.identity, Quat.identity]
        refine ⟨0, 0, by rw [hid]; exact HasTwist.const _ _, ?_, fun p => ?_, fun _ u => ?_⟩
        · rw [hid]; simp [SE3.identity, SO3.identity, Quat.identity, Quat.IsUnit]
        · rw [total_world hi hpar, cross_zero_left]
          simp
        · rw [hid]; exact hactid u
      | joint p =>
        have hpi := hw.parents i p hpar
        have hPp : P = fun x => (S x).poses p := by
          funext x
          rcases hP x with h | ⟨p', _, hp, he⟩
          · rw [hpar] at h; cases h.1
          · rw [hpar] at hp; cases hp; exact he.symm
        obtain ⟨hun, htw⟩ := ih p hpi (by omega)
        refine ⟨_, _, by rw [hPp]; exact htw, by rw [hPp]; exact hun, fun q => ?_, fun hf => ?_⟩
        · rw [total_joint hw hi hpar, total_point t (S x₀).poses (slot qd) ((P x₀).translation) q p, hPp]
          congr 1
          refine Prod.ext ?_ ?_ <;> simp
        · have := (hw.floating i j hj hf).2
          rw [hpar] at this; cases this
    obtain ⟨vp, wp, htw, hun, htot, hfl⟩ := hpar
    have hAu : ((P x₀).compose j.origin).rotation.quaternion.IsUnit :=
      (so3_group _ _ j.origin.rotation hun (hu i j hj) 0 0).1
    have hA := htw.compose (HasTwist.const j.origin x₀) hun
    rw [so3_act_zero, add_zero, add_zero] at hA
    obtain ⟨hMu, v, w, hMt, hcol⟩ := joint_twist hb hr hj ho hv hM
    have hL := hA.compose hMt hAu
    have hposes : (fun x => (S x).poses i) = fun x => ((P x).compose j.origin).compose (M x) :=
      funext hpose
    have hc : contrib t (S x₀).poses (slot qd) ((S x₀).poses i).translation i =
        (((P x₀).compose j.origin).rotation.act v, ((P x₀).compose j.origin).rotation.act w) := by
      unfold contrib
      rw [hj, hv]
      simp only
      rw [hpose x₀]
      refine hcol _ hAu fun hf u => ?_
      simp only [SE3.compose]
      rw [so3_compose_act, hfl hf]
    have htr : ((S x₀).poses i).translation - (P x₀).translation =
        (P x₀).rotation.act j.origin.translation +
          ((P x₀).compose j.origin).rotation.act (M x₀).translation := by
      rw [hpose x₀]
      funext k
      simp [SE3.compose, vadd]
      ring
    refine ⟨?_, ?_⟩
    · rw [hpose x₀]
      exact (so3_group _ _ j.origin.rotation hAu hMu 0 0).1
    · rw [hposes, htot, hc, htr, cross_add_right]
      convert hL using 1
      · simp only [Prod.fst_add]; abel
      · rfl

/-! ### What the Jacobian's loops compute -/

theorem carriesLoop_spec {T : Type} [Zero T] [One T] [NatCast T] [Add T] [Sub T] [Mul T] [Div T] [Neg T] [LT T]
    [DecidableLT T] [LE T] [DecidableLE T] [BEq T] [Fns T] {t : KinematicTree maxJoints maxConfig T}
    (hp : ∀ i p, t.parent i = some (.joint p) → p < i) (fuel : ℕ) :
    ∀ current marks, current < fuel → current < maxJoints →
      ∃ marks', t.carriesLoop fuel current marks = .ok marks' ∧
        ∀ k, marks' k = true ↔ marks k = true ∨ CarriedBy t k current := by
  induction fuel with
  | zero => intro c m h; omega
  | succ fuel ih =>
    intro current marks h1 h2
    unfold carriesLoop
    rw [if_pos h2]
    have hup : ∀ k, Function.update marks current true k = true ↔ marks k = true ∨ k = current := by
      intro k
      by_cases hk : k = current
      · subst hk; simp
      · simp [Function.update_of_ne hk, hk]
    cases hpar : t.parent current with
    | none =>
      refine ⟨_, rfl, fun k => ?_⟩
      rw [hup k]
      have : CarriedBy t k current ↔ k = current := by
        constructor
        · intro hc
          cases hc with
          | self => rfl
          | step hi hc => rw [hpar] at hi; cases hi
        · rintro rfl; exact CarriedBy.self
      rw [this]
    | some par =>
      cases par with
      | world => exact ⟨_, rfl, fun k => by rw [hup k, carriedBy_world hpar]⟩
      | joint p =>
        have hlt := hp current p hpar
        obtain ⟨m', hm', hk'⟩ := ih p (Function.update marks current true) (by omega) (by omega)
        refine ⟨m', hm', fun k => ?_⟩
        rw [hk' k, hup k, carriedBy_joint hpar, or_assoc]

/-- A row of a matrix times a velocity vector. -/
def rowDot (e : Matrix (Fin 6) (Fin maxConfig) ℝ) (qd : Fin maxConfig → ℝ) (row : Fin 6) : ℝ :=
  ∑ k, e row k * qd k

theorem inFrame_add (frame : JacobianFrame) (R : SO3 ℝ) (x y : (Fin 3 → ℝ) × (Fin 3 → ℝ)) :
    inFrame frame R (x + y) = inFrame frame R x + inFrame frame R y := by
  unfold inFrame
  cases frame <;> simp only [Prod.fst_add, Prod.snd_add, so3_act_add] <;>
    (funext i; fin_cases i <;> simp [Twist.toVector])

theorem inFrame_smul (frame : JacobianFrame) (R : SO3 ℝ) (a : ℝ) (x : (Fin 3 → ℝ) × (Fin 3 → ℝ)) :
    inFrame frame R (a • x) = a • inFrame frame R x := by
  unfold inFrame
  cases frame <;> simp only [Prod.smul_fst, Prod.smul_snd, so3_act_smul] <;>
    (funext i; fin_cases i <;> simp [Twist.toVector])

theorem inFrame_zero (frame : JacobianFrame) (R : SO3 ℝ) : inFrame frame R 0 = 0 := by
  have := inFrame_smul frame R 0 0
  simpa using this

theorem writeColumns_spec (frame : JacobianFrame) (R : SO3 ℝ) (qd : Fin maxConfig → ℝ) :
    ∀ (cols : List ((Fin 3 → ℝ) × (Fin 3 → ℝ))) (k : ℕ) (e : Matrix (Fin 6) (Fin maxConfig) ℝ),
      k + cols.length ≤ maxConfig → (∀ row (n : Fin maxConfig), k ≤ n.val → e row n = 0) →
      ∃ e', writeColumns frame R e k cols = .ok e' ∧
        (∀ row (n : Fin maxConfig), k + cols.length ≤ n.val → e' row n = 0) ∧
        ∀ row, rowDot e' qd row = rowDot e qd row + inFrame frame R (colSum (slot qd) k cols) row := by
  intro cols
  induction cols with
  | nil =>
    intro k e _ hz
    refine ⟨e, rfl, by simpa using hz, fun row => ?_⟩
    simp [colSum, inFrame_zero]
  | cons col rest ih =>
    intro k e hk hz
    rw [List.length_cons] at hk
    set e1 : Matrix (Fin 6) (Fin maxConfig) ℝ := fun row n =>
      if n.val = k then inFrame frame R col row else e row n with he1
    have hw1 : writeColumn e k (inFrame frame R col) = .ok e1 := by
      unfold writeColumn; rw [if_pos (by omega)]
    obtain ⟨e', h1, h2, h3⟩ := ih (k + 1) e1 (by omega) (fun row n hn => by
      simp only [he1]; rw [if_neg (by omega), hz row n (by omega)])
    refine ⟨e', ?_, fun row n hn => h2 row n (by rw [List.length_cons] at hn; omega), fun row => ?_⟩
    · unfold writeColumns; rw [hw1]; exact h1
    · rw [h3 row]
      simp only [colSum]
      rw [inFrame_add, inFrame_smul]
      have : rowDot e1 qd row = rowDot e qd row + slot qd k * inFrame frame R col row := by
        have hkm : k < maxConfig := by omega
        unfold rowDot
        rw [slot_eq _ hkm, ← Finset.add_sum_erase _ _ (Finset.mem_univ (⟨k, hkm⟩ : Fin maxConfig)),
          ← Finset.add_sum_erase (f := fun n => e row n * qd n) _ (Finset.mem_univ (⟨k, hkm⟩ : Fin maxConfig))]
        have h0 : e row ⟨k, hkm⟩ = 0 := hz row _ le_rfl
        have h1 : ∑ x ∈ Finset.univ.erase (⟨k, hkm⟩ : Fin maxConfig), e1 row x * qd x =
            ∑ x ∈ Finset.univ.erase (⟨k, hkm⟩ : Fin maxConfig), e row x * qd x := by
          refine Finset.sum_congr rfl fun x hx => ?_
          have : x.val ≠ k := fun h => (Finset.ne_of_mem_erase hx) (Fin.ext h)
          simp only [he1]; rw [if_neg this]
        rw [h1, h0]
        simp only [he1, if_true]
        ring
      rw [this]
      simp; ring

theorem jointColumns_length (j : Joint ℝ) (P : SE3 ℝ) (p : Fin 3 → ℝ) :
    (jointColumns j P p).length = if j.kind = .floating then 6 else if j.kind = .fixed then 0 else 1 := by
  unfold jointColumns
  cases j.kind <;> simp

/-- What the Jacobian's loop over the joints has done after `n` of them. -/
theorem jacobian_fold {t : KinematicTree maxJoints maxConfig ℝ} (hb : Built t) (s : KinematicTreeState ℝ)
    (hs : s.length = t.len) (tool : ℕ) (toolPose : SE3 ℝ) (frame : JacobianFrame) (carries : ℕ → Bool)
    (hc : ∀ k, carries k = true ↔ CarriedBy t k tool) (qd : Fin maxConfig → ℝ) :
    ∃ e, (List.range t.len).foldlM (t.jacobianStep s toolPose frame carries) (fun _ _ => 0) = .ok e ∧
      ∀ row, rowDot e qd row = inFrame frame toolPose.rotation.inverse
        (total t s.poses (slot qd) toolPose.translation tool) row := by
  classical
  have hw := built_wellFormed hb
  have hpart := offsets_partition hb
  obtain ⟨e, he, -, hinv⟩ := foldlM_range_total (t.jacobianStep s toolPose frame carries) t.len
    (fun _ _ => 0) (fun n (e : Matrix (Fin 6) (Fin maxConfig) ℝ) =>
      (∀ i vo, n ≤ i → t.velocityOffset i = some vo → ∀ row (k : Fin maxConfig), vo ≤ k.val → e row k = 0) ∧
      ∀ row, rowDot e qd row = inFrame frame toolPose.rotation.inverse
        (∑ k ∈ Finset.range n, if CarriedBy t k tool then
          contrib t s.poses (slot qd) toolPose.translation k else 0) row)
    ⟨fun _ _ _ _ _ _ _ => rfl, fun row => by simp [rowDot, inFrame_zero]⟩ (by
      rintro i hi e ⟨hz, hd⟩
      obtain ⟨j, o, vo, hj, ho, hv⟩ := offsets_exist hi
      have hnext : ∀ i' vo', i + 1 ≤ i' → t.velocityOffset i' = some vo' → vo ≤ vo' := by
        intro i' vo' h1 h2
        have e1 := (velocityOffset_some.1 hv).2
        have e2 := (velocityOffset_some.1 h2).2
        rw [e1, e2]; split_ifs <;> simp_all <;> omega
      unfold jacobianStep
      by_cases hcar : CarriedBy t i tool
      swap
      · have : carries i = false := by
          by_contra hne; exact hcar ((hc i).1 (by simpa using hne))
        rw [if_pos this]
        refine ⟨e, rfl, fun i' vo' h1 h2 => hz i' vo' (by omega) h2, fun row => ?_⟩
        rw [Finset.sum_range_succ, if_neg hcar, add_zero]; exact hd row
      rw [if_neg (by rw [(hc i).2 hcar]; simp), hj]
      simp only
      by_cases hfix : j.kind = .fixed
      · rw [if_pos hfix]
        refine ⟨e, rfl, fun i' vo' h1 h2 => hz i' vo' (by omega) h2, fun row => ?_⟩
        rw [Finset.sum_range_succ, if_pos hcar]
        have : contrib t s.poses (slot qd) toolPose.translation i = 0 := by
          unfold contrib; rw [hj, hv]; simp only; unfold jointColumns; simp only [hfix, colSum]
        rw [this, add_zero]; exact hd row
      rw [if_neg hfix, pose_some (by omega), hv]
      simp only
      have hroom := (hpart.2.2.2.1 i j vo hj hv).trans hpart.2.2.2.2.2
      have hlen : (jointColumns j (s.poses i) toolPose.translation).length =
          if j.kind = .floating then 6 else 1 := by
        rw [jointColumns_length]; simp [hfix]
      obtain ⟨e', h1, h2, h3⟩ := writeColumns_spec frame toolPose.rotation.inverse qd
        (jointColumns j (s.poses i) toolPose.translation) vo e (by rw [hlen]; exact hroom)
        (fun row n hn => hz i vo le_rfl hv row n hn)
      refine ⟨e', h1, fun i' vo' hi' hv' row k hk => h2 row k ?_, fun row => ?_⟩
      · rw [hlen]
        have e1 := (velocityOffset_some.1 hv).2
        have e2 := (velocityOffset_some.1 hv').2
        have hfw := floating_width hw hj
        rcases hfw with ⟨hf, rfl, hkf, -⟩ | ⟨hf, hkf, -⟩
        · rw [hf] at e1 e2
          simp at e1
          rw [if_pos (by simp; omega)] at e2
          rw [if_pos hkf]; omega
        · rw [if_neg hkf]
          have : vo < vo' := by
            rw [e1, e2]; split_ifs <;> simp_all <;> omega
          omega
      · rw [h3 row, hd row, Finset.sum_range_succ, if_pos hcar, inFrame_add]
        have : contrib t s.poses (slot qd) toolPose.translation i =
            colSum (slot qd) vo (jointColumns j (s.poses i) toolPose.translation) := by
          unfold contrib; rw [hj, hv]
        rw [this]; rfl)
  exact ⟨e, he, hinv⟩

theorem jacobian_ok {t : KinematicTree maxJoints maxConfig ℝ} (hb : Built t) (s : KinematicTreeState ℝ)
    (hs : s.length = t.len) (tool : ℕ) (htool : tool < t.len) (frame : JacobianFrame) :
    ∃ J, t.geometricJacobian s tool frame = .ok J ∧ J.columns = t.velocityLen ∧ J.frame = frame ∧
      ∀ qd, mmulVec J.entries qd = inFrame frame (s.poses tool).rotation.inverse
        (total t s.poses (slot qd) (s.poses tool).translation tool) := by
  have hw := built_wellFormed hb
  obtain ⟨marks, hm, hk⟩ := carriesLoop_spec hw.parents maxJoints tool (fun _ => false)
    (by have := hw.capacity; omega) (by have := hw.capacity; omega)
  have hk' : ∀ k, marks k = true ↔ CarriedBy t k tool := fun k => by rw [hk k]; simp
  obtain ⟨e, he, -⟩ := jacobian_fold hb s hs tool (s.poses tool) frame marks hk' 0
  refine ⟨⟨e, t.velocityLen, frame⟩, ?_, rfl, rfl, fun qd => ?_⟩
  · unfold geometricJacobian
    rw [if_neg (by omega), if_neg (by omega), pose_some (by omega)]
    simp only [hm, he, bind, Except.bind]
    rfl
  · obtain ⟨e', he', hd⟩ := jacobian_fold hb s hs tool (s.poses tool) frame marks hk' qd
    rw [he] at he'; cases he'
    funext row
    rw [← hd row, show mmulVec e qd = _ from mmulVec_eq _ _]
    rfl

theorem toolTwist_world (x : (Fin 3 → ℝ) × (Fin 3 → ℝ)) (R : SO3 ℝ) :
    head3 (inFrame .world R x) = x.1 ∧ tail3 (inFrame .world R x) = x.2 ∧
    head3 (inFrame .body R x) = R.act x.1 ∧ tail3 (inFrame .body R x) = R.act x.2 := by
  refine ⟨?_, ?_, ?_, ?_⟩ <;> apply vec3_ext <;> simp [head3, tail3, inFrame, Twist.toVector]

/-- C54. `geometric_jacobian` answers `ToolIndexOutOfRange` for a tool the tree does not have,
`StateShapeMismatch` for poses of another number of joints, and otherwise a matrix with one column per
velocity slot. -/
theorem jacobian_errors {t : KinematicTree maxJoints maxConfig ℝ} (hb : Built t)
    (s : KinematicTreeState ℝ) (tool : ℕ) (frame : JacobianFrame) :
    (t.len ≤ tool → t.geometricJacobian s tool frame = .error .toolIndexOutOfRange) ∧
    (tool < t.len → s.length ≠ t.len → t.geometricJacobian s tool frame = .error .stateShapeMismatch) ∧
    (tool < t.len → s.length = t.len → ∃ J, t.geometricJacobian s tool frame = .ok J ∧
      J.columns = t.velocityLen ∧ J.frame = frame) := by
  refine ⟨fun h => if_pos h, fun h1 h2 => ?_, fun h1 h2 => ?_⟩
  · unfold geometricJacobian; rw [if_neg (by omega), if_pos h2]
  · obtain ⟨J, h, h', h'', -⟩ := jacobian_ok hb s h2 tool h1 frame
    exact ⟨J, h, h', h''⟩

/-- C54. The Jacobian times the joint velocities is the velocity of the tool: along any motion `c` of the
configuration with generalized velocity `qd`, every point `p` fixed to the tool frame moves at
`linear + angular × (p - origin)`, where `linear` and `angular` are `tool_twist` of the world-frame
Jacobian; and the body-frame Jacobian gives the same twist in the tool's own axes. All trees, all numbers
of joints, any joints moving at once.

Partial: turns must be zero or beyond the series threshold `30 / 2 ^ 52`, where the rotation is
differentiable; and `HasRate` takes the first three rates of a floating joint in the world's axes, which
is not the rate of its readings when its origin is turned (see `floating_origin_jacobian_wrong`). -/
theorem jacobian_twist_partial {t : KinematicTree maxJoints maxConfig ℝ} (hb : Built t)
    (hu : ∀ i j, t.joint i = some j → j.origin.rotation.quaternion.IsUnit)
    {c : ℝ → Fin maxConfig → ℝ} {S : ℝ → KinematicTreeState ℝ}
    (hS : ∀ x, t.forwardKinematics (c x) = .ok (S x)) {qd : Fin maxConfig → ℝ} {x₀ : ℝ}
    (hr : HasRate t c qd x₀) (tool : ℕ) (htool : tool < t.len) :
    ∃ J B, t.geometricJacobian (S x₀) tool .world = .ok J ∧
      t.geometricJacobian (S x₀) tool .body = .ok B ∧
      (∀ p i, HasDerivAt (fun x => ((S x).poses tool).act p i)
        ((J.toolTwist qd).linear i + cross (J.toolTwist qd).angular
          (vsub (((S x₀).poses tool).act p) ((S x₀).poses tool).translation) i) x₀) ∧
      ((S x₀).poses tool).rotation.act (B.toolTwist qd).linear = (J.toolTwist qd).linear ∧
      ((S x₀).poses tool).rotation.act (B.toolTwist qd).angular = (J.toolTwist qd).angular := by
  have hs := (fk_ok_inv (built_wellFormed hb) (hS x₀)).1
  obtain ⟨J, hJ, -, -, hJm⟩ := jacobian_ok hb (S x₀) hs tool htool .world
  obtain ⟨B, hB, -, -, hBm⟩ := jacobian_ok hb (S x₀) hs tool htool .body
  obtain ⟨hun, htw⟩ := link_twist hb hu hS hr tool htool
  set tot := total t (S x₀).poses (slot qd) ((S x₀).poses tool).translation tool with htot
  have hJt : J.toolTwist qd = ⟨tot.1, tot.2⟩ := by
    unfold KinematicJacobian.toolTwist
    dsimp only
    rw [hJm, (toolTwist_world _ _).1, (toolTwist_world _ _).2.1]
  have hBt : B.toolTwist qd = ⟨((S x₀).poses tool).rotation.inverse.act tot.1,
      ((S x₀).poses tool).rotation.inverse.act tot.2⟩ := by
    unfold KinematicJacobian.toolTwist
    dsimp only
    rw [hBm, (toolTwist_world _ _).2.2.1, (toolTwist_world _ _).2.2.2]
  have hinv : ∀ v, ((S x₀).poses tool).rotation.act (((S x₀).poses tool).rotation.inverse.act v) = v :=
    fun v => (so3_group _ _ ((S x₀).poses tool).rotation hun hun v v).2.2.2.2.2.2.2.2.2.2.1
  refine ⟨J, B, hJ, hB, fun p i => ?_, ?_, ?_⟩
  · rw [hJt]
    have h1 := (htw.2.act (R := fun x => ((S x).poses tool).rotation) (u := fun _ => p) (u' := 0)
      (fun i => by simpa using hasDerivAt_const x₀ (p i)) i).add (htw.1 i)
    refine h1.congr_deriv ?_
    rw [so3_act_zero]
    have : vsub (((S x₀).poses tool).act p) ((S x₀).poses tool).translation =
        ((S x₀).poses tool).rotation.act p := by
      funext k; simp [SE3.act, vsub, vadd]
    rw [this]; simp; ring
  · rw [hBt, hJt]; exact hinv _
  · rw [hBt, hJt]; exact hinv _

theorem slot_single (k n : ℕ) (hk : k < maxConfig) :
    slot (Pi.single (⟨k, hk⟩ : Fin maxConfig) (1 : ℝ)) n = if n = k then 1 else 0 := by
  unfold slot reading
  split_ifs with h1 h2 h2
  · subst h2; simp
  · simp [Pi.single_apply, Fin.ext_iff, h2]
  · omega
  · rfl

theorem slot_update (c : Fin maxConfig → ℝ) (k n : ℕ) (hk : k < maxConfig) (x : ℝ) :
    slot (Function.update c ⟨k, hk⟩ x) n = if n = k then x else slot c n := by
  unfold slot reading
  split_ifs with h1 h2 h2
  · subst h2; simp
  · simp [Function.update_apply, Fin.ext_iff, h2]
  · omega
  · rfl

theorem toolTwist_single (J : KinematicJacobian maxConfig ℝ) (k : ℕ) (hk : k < maxConfig)
    (hc : k < J.columns) :
    J.column k = some (J.toolTwist (Pi.single ⟨k, hk⟩ 1)) := by
  unfold KinematicJacobian.column KinematicJacobian.toolTwist
  rw [if_neg (by omega), dif_pos hk, show mmulVec J.entries _ = _ from mmulVec_eq _ _,
    Matrix.mulVec_single_one]
  rfl

/-- The configurations where forward kinematics is smooth: every turn is zero or beyond the series
threshold, and a floating joint's orientation numbers have unit length. -/
def Smooth (t : KinematicTree maxJoints maxConfig ℝ) (c : Fin maxConfig → ℝ) : Prop :=
  ∀ i j o, t.joint i = some j → t.configOffset i = some o →
    (j.kind = .revolute ∨ j.kind = .continuous → SmoothTurn (slot c o - j.zeroOffset)) ∧
    (j.kind = .floating → (Quat.mk (slot c (o + 3)) (slot c (o + 4)) (slot c (o + 5))
        (slot c (o + 6))).IsUnit)

theorem fk_ok_real {t : KinematicTree maxJoints maxConfig ℝ} (hb : Built t) (c : Fin maxConfig → ℝ)
    (hf : ∀ j, t.joint 0 = some j → j.kind = .floating → (Quat.mk (slot c 3) (slot c 4) (slot c 5)
        (slot c 6)).IsUnit) : ∃ s, t.forwardKinematics c = .ok s := by
  obtain ⟨h1, h2⟩ := (fk_refusals hb c).2 fun _ _ _ _ _ _ _ _ _ => rfl
  cases hfb : t.hasFloatingBase with
  | false => exact h1 hfb
  | true =>
    obtain ⟨j, hj, hk⟩ := (hasFloatingBase_iff t).1 hfb
    obtain ⟨h7, h | h⟩ := h2 hfb
    · exact h.1
    · have hu := hf j hj hk
      rw [slot_eq _ (show 3 < maxConfig by omega), slot_eq _ (show 4 < maxConfig by omega),
        slot_eq _ (show 5 < maxConfig by omega), slot_eq _ (show 6 < maxConfig by omega)] at hu
      rw [tryNormalized_unit _ hu] at h
      cases h.2

/-- C54. The column of a turning or sliding joint is the derivative of forward kinematics along that
joint's reading: with every other reading held, each point `p` fixed to the tool moves, per unit of the
reading, at `linear + angular × (p - origin)`, where `linear` and `angular` are that column.

Partial: as for `jacobian_twist_partial`, turns must be zero or beyond the series threshold. -/
theorem jacobian_column_partial {t : KinematicTree maxJoints maxConfig ℝ} (hb : Built t)
    (hu : ∀ i j, t.joint i = some j → j.origin.rotation.quaternion.IsUnit)
    (c : Fin maxConfig → ℝ) (hc : Smooth t c) (k : ℕ) (j : Joint ℝ) (o vo : ℕ) (ho' : o < maxConfig)
    (hj : t.joint k = some j) (hm : j.Moves) (ho : t.configOffset k = some o)
    (hv : t.velocityOffset k = some vo) (tool : ℕ) (htool : tool < t.len) :
    ∃ (S : ℝ → KinematicTreeState ℝ) (J : KinematicJacobian maxConfig ℝ) (col : Twist ℝ),
      (∀ x, t.forwardKinematics (Function.update c ⟨o, ho'⟩ x) = .ok (S x)) ∧
      t.geometricJacobianAt c tool .world = .ok J ∧ J.column vo = some col ∧
      ∀ p i, HasDerivAt (fun x => ((S x).poses tool).act p i)
        (col.linear i + cross col.angular
          (vsub (((S (c ⟨o, ho'⟩)).poses tool).act p) ((S (c ⟨o, ho'⟩)).poses tool).translation) i)
        (c ⟨o, ho'⟩) := by
  have hw := built_wellFormed hb
  have hpart := offsets_partition hb
  have hnf : j.kind ≠ .floating := by rcases hm with h | h | h <;> simp [h]
  have hfl : ∀ i ji oi, t.joint i = some ji → t.configOffset i = some oi → i ≠ k →
      ¬ (oi ≤ o ∧ o < oi + (if ji.kind = .floating then 7 else 1)) := by
    intro i ji oi h1 h2 hne hin
    have hok := hpart.2.1 k j o hj ho
    refine hne ((hpart.1 o (by rw [if_neg hnf] at hok; omega)).unique ⟨ji, oi, h1, h2, hin⟩
      ⟨j, o, hj, ho, le_rfl, by rw [if_neg hnf]; omega⟩)
  have hflv : ∀ i ji oi, t.joint i = some ji → t.velocityOffset i = some oi → i ≠ k →
      ¬ (oi ≤ vo ∧ vo < oi + (if ji.kind = .floating then 6 else 1)) := by
    intro i ji oi h1 h2 hne hin
    have hok := hpart.2.2.2.1 k j vo hj hv
    refine hne ((hpart.2.2.1 vo (by rw [if_neg hnf] at hok; omega)).unique ⟨ji, oi, h1, h2, hin⟩
      ⟨j, vo, hj, hv, le_rfl, by rw [if_neg hnf]; omega⟩)
  have hvlen : vo < t.velocityLen := by
    have := hpart.2.2.2.1 k j vo hj hv; rw [if_neg hnf] at this; omega
  have hvm : vo < maxConfig := lt_of_lt_of_le hvlen hpart.2.2.2.2.2
  have hunit : ∀ x i ji oi, t.joint i = some ji → t.configOffset i = some oi → ji.kind = .floating →
      ∀ n < 7, slot (Function.update c ⟨o, ho'⟩ x) (oi + n) = slot c (oi + n) := by
    intro x i ji oi h1 h2 hk n hn
    rw [slot_update, if_neg]
    intro heq
    have hne : i ≠ k := by rintro rfl; rw [hj] at h1; cases h1; exact hnf hk
    exact hfl i ji oi h1 h2 hne ⟨by omega, by rw [if_pos hk]; omega⟩
  have hS : ∀ x, ∃ s, t.forwardKinematics (Function.update c ⟨o, ho'⟩ x) = .ok s := by
    intro x
    refine fk_ok_real hb _ fun j0 hj0 hk0 => ?_
    have ho0 : t.configOffset 0 = some 0 := configOffset_some.2 ⟨joint_some_lt hj0, by simp⟩
    have := (hc 0 j0 0 hj0 ho0).2 hk0
    have e := hunit x 0 j0 0 hj0 ho0 hk0
    simp only [zero_add] at this e
    rw [e 3 (by norm_num), e 4 (by norm_num), e 5 (by norm_num), e 6 (by norm_num)]
    exact this
  choose S hS using hS
  have hr : HasRate t (fun x => Function.update c ⟨o, ho'⟩ x) (Pi.single ⟨vo, hvm⟩ 1) (c ⟨o, ho'⟩) := by
    intro i ji oi voi h1 h2 h3
    have hself : Function.update c ⟨o, ho'⟩ (c ⟨o, ho'⟩) = c := Function.update_eq_self _ _
    refine ⟨fun hmi => ?_, fun hk => ?_, fun hk => ?_⟩
    · have hnfi : ji.kind ≠ .floating := by rcases hmi with h | h | h <;> simp [h]
      by_cases hik : i = k
      · subst hik
        rw [ho] at h2; cases h2
        rw [hv] at h3; cases h3
        simp only [slot_update, slot_single, if_true]
        exact hasDerivAt_id _
      · have hne1 : oi ≠ o := fun h => hfl i ji oi h1 h2 hik ⟨h.le, by rw [if_neg hnfi]; omega⟩
        have hne2 : voi ≠ vo := fun h => hflv i ji voi h1 h3 hik ⟨h.le, by rw [if_neg hnfi]; omega⟩
        simp only [slot_update, slot_single, if_neg hne1, if_neg hne2]
        exact hasDerivAt_const _ _
    · simp only [hself]; exact (hc i ji oi h1 h2).1 hk
    · have hik : i ≠ k := by rintro rfl; rw [hj] at h1; cases h1; exact hnf hk
      have hz : ∀ n < 6, slot (Pi.single (⟨vo, hvm⟩ : Fin maxConfig) (1 : ℝ)) (voi + n) = 0 := by
        intro n hn
        rw [slot_single, if_neg]
        intro heq
        exact hflv i ji voi h1 h3 hik ⟨by omega, by rw [if_pos hk]; omega⟩
      have hconst : ∀ n < 7, HasDerivAt (fun x => slot (Function.update c ⟨o, ho'⟩ x) (oi + n)) 0 (c ⟨o, ho'⟩) := by
        intro n hn
        have : (fun x => slot (Function.update c ⟨o, ho'⟩ x) (oi + n)) = fun _ => slot c (oi + n) := by
          funext x; exact hunit x i ji oi h1 h2 hk n hn
        rw [this]; exact hasDerivAt_const _ _
      refine ⟨⟨0, fun n => hconst n (by omega), fun n => ?_⟩, fun x => ?_, ?_, ?_, ?_, ?_⟩
      · rw [hz n (by omega), so3_act_zero]; rfl
      · have e := hunit x i ji oi h1 h2 hk
        rw [e 3 (by norm_num), e 4 (by norm_num), e 5 (by norm_num), e 6 (by norm_num)]
        exact (hc i ji oi h1 h2).2 hk
      all_goals
        rw [hz 3 (by norm_num), hz 4 (by norm_num), hz 5 (by norm_num)]
        simp only [mul_zero, add_zero, neg_zero, sub_zero, zero_div]
      · exact hconst 3 (by norm_num)
      · exact hconst 4 (by norm_num)
      · exact hconst 5 (by norm_num)
      · exact hconst 6 (by norm_num)
  obtain ⟨J, B, hJ, -, hd, -, -⟩ := jacobian_twist_partial hb hu hS hr tool htool
  refine ⟨S, J, J.toolTwist (Pi.single ⟨vo, hvm⟩ 1), hS, ?_, ?_, hd⟩
  · unfold geometricJacobianAt
    have := hS (c ⟨o, ho'⟩)
    rw [Function.update_eq_self] at this
    rw [this]; exact hJ
  · refine toolTwist_single J vo hvm ?_
    have hlen := (fk_ok_inv hw (hS (c ⟨o, ho'⟩))).1
    obtain ⟨J', hJ', hcol, -⟩ := jacobian_ok hb (S (c ⟨o, ho'⟩)) hlen tool htool .world
    rw [hJ] at hJ'; cases hJ'
    rw [hcol]; exact hvlen

/-- C54. A joint that does not carry the tool has a zero column, in either frame, and so does a fixed
joint: a sibling branch, a later joint and a weld all read as zero. -/
theorem jacobian_zero_columns {t : KinematicTree maxJoints maxConfig ℝ} (hb : Built t)
    (s : KinematicTreeState ℝ) (hs : s.length = t.len) (tool : ℕ) (htool : tool < t.len)
    (frame : JacobianFrame) (k : ℕ) (j : Joint ℝ) (vo : ℕ) (hj : t.joint k = some j)
    (hv : t.velocityOffset k = some vo) (hk : ¬ CarriedBy t k tool ∨ j.kind = .fixed) :
    ∃ J, t.geometricJacobian s tool frame = .ok J ∧
      ∀ n, vo ≤ n → n < vo + (if j.kind = .floating then 6 else 1) →
        J.column n = some ⟨0, 0⟩ := by
  classical
  obtain ⟨J, hJ, hcol, -, hm⟩ := jacobian_ok hb s hs tool htool frame
  have hpart := offsets_partition hb
  refine ⟨J, hJ, fun n hn1 hn2 => ?_⟩
  have hn : n < t.velocityLen := by
    have := hpart.2.2.2.1 k j vo hj hv; omega
  have hnm : n < maxConfig := lt_of_lt_of_le hn hpart.2.2.2.2.2
  rw [toolTwist_single J n hnm (by omega)]
  have hzero : total t s.poses (slot (Pi.single (⟨n, hnm⟩ : Fin maxConfig) (1 : ℝ)))
      (s.poses tool).translation tool = 0 := by
    unfold total
    refine Finset.sum_eq_zero fun i hi => ?_
    by_cases hik : i = k
    · subst hik
      rcases hk with hk | hk
      · rw [if_neg hk]
      · split_ifs
        · unfold contrib; rw [hj, hv]; simp only
          unfold jointColumns; simp only [hk, colSum]
        · rfl
    · split_ifs
      · obtain ⟨ji, oi, voi, h1, h2, h3⟩ := offsets_exist (Finset.mem_range.1 hi)
        unfold contrib; rw [h1, h3]; simp only
        have hnot : ¬ (voi ≤ n ∧ n < voi + (if ji.kind = .floating then 6 else 1)) := fun hin =>
          hik ((hpart.2.2.1 n hn).unique ⟨ji, voi, h1, h3, hin⟩ ⟨j, vo, hj, hv, hn1, hn2⟩)
        have hcs : ∀ (cols : List ((Fin 3 → ℝ) × (Fin 3 → ℝ))) (m : ℕ),
            ¬ (m ≤ n ∧ n < m + cols.length) →
            colSum (slot (Pi.single (⟨n, hnm⟩ : Fin maxConfig) (1 : ℝ))) m cols = 0 := by
          intro cols
          induction cols with
          | nil => intro m _; rfl
          | cons a rest ih =>
            intro m hmn
            simp only [colSum]
            rw [List.length_cons] at hmn
            rw [ih (m + 1) (by omega), slot_single, if_neg (by omega), zero_smul, add_zero]
        refine hcs _ _ ?_
        rw [jointColumns_length]
        intro hin
        refine hnot ⟨hin.1, ?_⟩
        split_ifs at hin ⊢ <;> omega
      · rfl
  unfold KinematicJacobian.toolTwist
  dsimp only
  rw [hm, hzero, inFrame_zero]
  have e1 : head3 (0 : Fin 6 → ℝ) = 0 := by apply vec3_ext <;> simp [head3]
  have e2 : tail3 (0 : Fin 6 → ℝ) = 0 := by apply vec3_ext <;> simp [tail3]
  rw [e1, e2]

/-- A floating body whose place is given from an origin turned by half a turn about the vertical. -/
noncomputable def turnedFloat : KinematicTree 1 7 ℝ :=
  ⟨[(Joint.floating ⟨⟨⟨0, 0, 0, 1⟩⟩, fun _ => 0⟩, .world)]⟩

theorem turnedFloat_built : Built turnedFloat := by
  have hp : (new : KinematicTree 1 7 ℝ).push (Joint.floating ⟨⟨⟨0, 0, 0, 1⟩⟩, fun _ => 0⟩) .world =
      .ok turnedFloat :=
    (push_cases _ _ _ _).2 ⟨by simp [len, new], by simp, fun _ => ⟨rfl, rfl⟩, by
      simp [Joint.isFinite, vecIsFinite, Fns.isFinite], rfl,
      fun _ => rfl, _, rfl, by simp [configLen, len, new, Joint.width, Joint.floating, Joint.fromKind], rfl⟩
  exact Built.push Built.new hp

/-- C54 (finding). The columns a floating joint gets for its three place readings are the world's axes,
whatever the joint's origin, although forward kinematics turns those readings by the origin. With an
origin turned half a turn about the vertical, raising the first place reading moves the body backwards
along the world's first axis, while the Jacobian's first column says forwards. -/
theorem floating_origin_jacobian_wrong :
    ∃ (S : ℝ → KinematicTreeState ℝ) (J : KinematicJacobian 7 ℝ) (col : Twist ℝ),
      (∀ x, turnedFloat.forwardKinematics ![x, 0, 0, 1, 0, 0, 0] = .ok (S x)) ∧
      turnedFloat.geometricJacobianAt ![0, 0, 0, 1, 0, 0, 0] 0 .world = .ok J ∧
      J.column 0 = some col ∧ col.linear 0 = 1 ∧
      ∀ x, HasDerivAt (fun x => ((S x).poses 0).translation 0) (-1) x := by
  have hb := turnedFloat_built
  have hw := built_wellFormed hb
  have hj : turnedFloat.joint 0 = some (Joint.floating ⟨⟨⟨0, 0, 0, 1⟩⟩, fun _ => 0⟩) := rfl
  have hfk : ∀ x : ℝ, ∃ s, turnedFloat.forwardKinematics ![x, 0, 0, 1, 0, 0, 0] = .ok s := by
    intro x
    refine fk_ok_real hb _ fun j _ _ => ?_
    rw [slot_eq _ (show 3 < 7 by omega), slot_eq _ (show 4 < 7 by omega),
      slot_eq _ (show 5 < 7 by omega), slot_eq _ (show 6 < 7 by omega)]
    simp [Quat.IsUnit]
  choose S hS using hfk
  have hpose : ∀ x, ((S x).poses 0).translation 0 = -x := by
    intro x
    obtain ⟨j, o, P, M, h1, h2, h3, h4, h5⟩ := (fk_ok_inv hw (hS x)).2 0 (by decide)
    rw [hj] at h1; cases h1
    have h2' : turnedFloat.configOffset 0 = some 0 := rfl
    rw [h2'] at h2; cases h2
    have hP : P = SE3.identity := by
      rcases h3 with h | ⟨p, hp, _⟩
      · exact h.2
      · omega
    obtain ⟨h7, q, hq, hr, ht⟩ := localPose_isMotion h4
    rw [h5, hP]
    simp only [SE3.compose]
    rw [ht]
    simp [vadd, SO3.act, transformPoint_explicit, SE3.identity, SO3.identity, Quat.identity, SO3.compose,
      Quat.mul, Joint.floating, Joint.fromKind]
  have hlen := (fk_ok_inv hw (hS 0)).1
  obtain ⟨J, hJ, hcol, -, hm⟩ := jacobian_ok hb (S 0) hlen 0 (by decide) .world
  refine ⟨S, J, J.toolTwist (Pi.single ⟨0, by norm_num⟩ 1), hS, ?_, toolTwist_single J 0 _ ?_, ?_, ?_⟩
  · unfold geometricJacobianAt; rw [hS 0]; exact hJ
  · rw [hcol]; decide
  · unfold KinematicJacobian.toolTwist
    dsimp only
    rw [hm, (toolTwist_world _ _).1, total_world (by decide) rfl]
    unfold contrib
    rw [hj, show turnedFloat.velocityOffset 0 = some 0 from rfl]
    simp only
    unfold jointColumns
    simp only [Joint.floating, Joint.fromKind, colSum, slot_single]
    simp
  · intro x
    have : (fun x => ((S x).poses 0).translation 0) = fun x => -x := funext hpose
    rw [this]
    exact hasDerivAt_neg x

/-- The hypotheses of `jacobian_column_partial` hold of the two-link arm at any configuration whose
readings are ordinary. -/
example : ∃ t : KinematicTree 2 2 ℝ, Built t ∧ t.len = 2 ∧
    (∀ i j, t.joint i = some j → j.origin.rotation.quaternion.IsUnit) ∧
    ∃ j, t.joint 0 = some j ∧ j.Moves ∧ t.configOffset 0 = some 0 ∧ t.velocityOffset 0 = some 0 := by
  obtain ⟨t, hb, hl, -, ⟨j, hj, hk⟩, -, hu, -⟩ := arm_exists
  exact ⟨t, hb, hl, hu, j, hj, Or.inl hk, configOffset_some.2 ⟨by omega, by simp⟩,
    velocityOffset_some.2 ⟨by omega, by simp⟩⟩

example : SmoothTurn 0 ∧ SmoothTurn (1 / 1000) ∧ SmoothTurn (-3) := by
  refine ⟨Or.inl rfl, Or.inr ?_, Or.inr ?_⟩ <;> norm_num [abs_of_pos]

end KinematicTree
end Multicalc
