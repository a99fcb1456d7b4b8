import Verif.Props.RotationMaps

/-!
# Logarithm back to rotation, axis-angle, interpolation and Euler angles
-/

namespace Multicalc

open Matrix

theorem shortest_spec (q : Quat ℝ) (hq : q.IsUnit) :
    0 ≤ q.shortest.w ∧ q.shortest.IsUnit ∧ (q.shortest = q ∨ q.shortest = q.neg) := by
  unfold Quat.shortest
  rw [Quat.IsUnit] at hq
  split
  next h => exact ⟨by simp only [Quat.neg]; linarith, by rw [Quat.IsUnit]; simp only [Quat.neg]; linarith, .inr rfl⟩
  next h => exact ⟨by linarith, by rw [Quat.IsUnit]; exact hq, .inl rfl⟩

/-- The half angle of a unit quaternion with nonnegative scalar part. -/
theorem half_angle (p : Quat ℝ) (hu : p.IsUnit) (hw : 0 ≤ p.w) :
    let n := Real.sqrt (p.x * p.x + p.y * p.y + p.z * p.z)
    let a := (Fns.atan2 n p.w : ℝ)
    0 ≤ n ∧ n * n = p.x * p.x + p.y * p.y + p.z * p.z ∧ 0 ≤ a ∧ a ≤ Real.pi / 2 ∧
      Real.sin a = n ∧ Real.cos a = p.w := by
  intro n a
  rw [Quat.IsUnit] at hu
  have hn : 0 ≤ n := Real.sqrt_nonneg _
  have hnn : n * n = p.x * p.x + p.y * p.y + p.z * p.z :=
    Real.mul_self_sqrt (by nlinarith [mul_self_nonneg p.x, mul_self_nonneg p.y, mul_self_nonneg p.z])
  have h1 : p.w ^ 2 + n ^ 2 = 1 := by nlinarith
  obtain ⟨hc, hs⟩ := atan2_cos (x := p.w) (y := n) (by rw [h1]; norm_num)
  rw [h1, Real.sqrt_one, one_mul] at hc hs
  have h3 := atan2_le_half (y := n) hw
  exact ⟨hn, hnn, atan2_nonneg hn, (abs_le.1 h3).2, hs, hc⟩

theorem vnorm_scaled (v : Fin 3 → ℝ) {s : ℝ} (hs : 0 ≤ s) :
    vnorm (fun i => v i * s) = vnorm v * s := by
  rw [vnorm, real_sqrt, vnormSquared, vdot3, vec_norm_scaled v hs]

theorem toScaledAxis_eq (q : Quat ℝ) :
    q.toScaledAxis = fun i => q.shortest.vec i *
      (if Real.sqrt (q.shortest.x * q.shortest.x + q.shortest.y * q.shortest.y +
          q.shortest.z * q.shortest.z) < smallAngle then 2
        else 2 * Fns.atan2 (Real.sqrt (q.shortest.x * q.shortest.x + q.shortest.y * q.shortest.y +
          q.shortest.z * q.shortest.z)) q.shortest.w /
          Real.sqrt (q.shortest.x * q.shortest.x + q.shortest.y * q.shortest.y +
          q.shortest.z * q.shortest.z)) := by
  unfold Quat.toScaledAxis Quat.vec
  funext i
  simp only [real_sqrt, Nat.cast_ofNat]
  fin_cases i <;> rfl

theorem vnorm_vec (p : Quat ℝ) : vnorm p.vec = Real.sqrt (p.x * p.x + p.y * p.y + p.z * p.z) := by
  rw [vnorm, real_sqrt, vnormSquared, vdot3]; rfl

/-- C47. For every rotation, `exp(log(R))` is the same rotation: exactly (the quaternion of the two
with a nonnegative scalar part) when the vector part reaches the small-angle threshold, and below it
within the squared length of the vector part.  The logarithm is never longer than π. -/
theorem so3_exp_log (R : SO3 ℝ) (hR : R.quaternion.IsUnit) :
    let p := R.quaternion.shortest
    vnorm R.log ≤ Real.pi ∧
    (30 / 2 ^ 52 ≤ vnorm p.vec → SO3.exp R.log = ⟨p⟩) ∧
    (vnorm p.vec < 30 / 2 ^ 52 → ∃ k : ℝ, 0 ≤ 1 - k ∧ 1 - k ≤ vnorm p.vec ^ 2 ∧
      |(SO3.exp R.log).quaternion.w - p.w| ≤ vnorm p.vec ^ 2 ∧
      (SO3.exp R.log).quaternion.x = p.x * k ∧ (SO3.exp R.log).quaternion.y = p.y * k ∧
      (SO3.exp R.log).quaternion.z = p.z * k) := by
  intro p
  obtain ⟨hw, hu, -⟩ := shortest_spec R.quaternion hR
  change 0 ≤ p.w at hw
  change p.IsUnit at hu
  obtain ⟨hn, hnn, ha0, ha1, hsin, hcos⟩ := half_angle p hu hw
  have hlog : R.log = _ := toScaledAxis_eq R.quaternion
  change R.log = fun i => p.vec i * _ at hlog
  have hv := vnorm_vec p
  change R.log = fun i => p.vec i * (if Real.sqrt (p.x * p.x + p.y * p.y + p.z * p.z) < smallAngle then 2
        else 2 * Fns.atan2 (Real.sqrt (p.x * p.x + p.y * p.y + p.z * p.z)) p.w /
          Real.sqrt (p.x * p.x + p.y * p.y + p.z * p.z)) at hlog
  rw [← hv] at hlog hn hnn hsin ha0 ha1 hcos
  obtain ⟨n, hn'⟩ : ∃ n, vnorm p.vec = n := ⟨_, rfl⟩
  obtain ⟨a, ha'⟩ : ∃ a : ℝ, Fns.atan2 n p.w = a := ⟨_, rfl⟩
  rw [hn'] at hlog hn hnn hsin ha0 ha1 hcos ⊢
  rw [ha'] at hlog hsin ha0 ha1 hcos
  rw [Quat.IsUnit] at hu
  by_cases hb : n < 30 / 2 ^ 52
  · rw [if_pos (by rw [smallAngle_real]; exact hb)] at hlog
    have hln : vnorm R.log = 2 * n := by
      rw [hlog, vnorm_scaled _ (by norm_num), hn', mul_comm]
    have hn1 : n ≤ 1 / 2 := by linarith
    have hwn : p.w * p.w = 1 - n * n := by nlinarith
    have hw1 : p.w ≤ 1 := by nlinarith
    have hwlow : 1 - n * n ≤ p.w := by nlinarith
    refine ⟨?_, fun h => absurd h (not_le.2 hb), fun _ => ?_⟩
    · rw [hln]; have := Real.two_le_pi; linarith
    · unfold SO3.exp
      dsimp only
      by_cases hc : 2 * n < 30 / 2 ^ 52
      · rw [fromScaledAxis_small (by rw [hln]; exact hc), hln]
        refine ⟨1 - n ^ 2 / 6, by nlinarith, by nlinarith, ?_, ?_, ?_, ?_⟩
        · dsimp only; rw [abs_le]; constructor <;> nlinarith
        all_goals
          dsimp only
          rw [hlog]
          simp only [Quat.vec, Matrix.cons_val_zero, Matrix.cons_val_one, Matrix.cons_val]
          ring
      · push Not at hc
        have hpos : 0 < n := by
          have : (0 : ℝ) < 30 / 2 ^ 52 := by norm_num
          linarith
        rw [fromScaledAxis_main (by rw [hln]; exact hc), hln, show 2 * n / 2 = n by ring]
        have hsl := Real.sin_lt hpos
        have hsg := Real.sin_gt_sub_cube hpos
        have hcl := Real.one_sub_sq_div_two_le_cos (x := n)
        have hcg := Real.cos_le_one n
        have hk : Real.sin n / n ≤ 1 := by rw [div_le_one hpos]; exact hsl.le
        have hk2 : 1 - n ^ 2 ≤ Real.sin n / n := by rw [le_div_iff₀ hpos]; nlinarith
        refine ⟨Real.sin n / n, by linarith, by linarith, ?_, ?_, ?_, ?_⟩
        · dsimp only; rw [abs_le]; constructor <;> nlinarith
        all_goals
          dsimp only
          rw [hlog]
          simp only [Quat.vec, Matrix.cons_val_zero, Matrix.cons_val_one, Matrix.cons_val]
          field_simp
  · have hge := not_lt.1 hb
    have hpos : 0 < n := lt_of_lt_of_le (by norm_num) hge
    rw [if_neg (by rw [smallAngle_real]; exact hb)] at hlog
    have hapos : 0 < a := by
      rcases ha0.lt_or_eq with h | h
      · exact h
      · rw [← h, Real.sin_zero] at hsin; linarith
    have hln : vnorm R.log = 2 * a := by
      rw [hlog, vnorm_scaled _ (by positivity), hn']
      field_simp
    refine ⟨by rw [hln]; linarith, fun _ => ?_, fun h => absurd h hb⟩
    have hna : n ≤ a := by
      rw [← hsin]; exact Real.sin_le ha0
    unfold SO3.exp
    rw [fromScaledAxis_main (by rw [hln]; linarith), hln, show 2 * a / 2 = a by ring, hsin, hcos, hlog]
    congr 1
    apply Quat.ext
    · rfl
    all_goals
      simp only [Quat.vec, Matrix.cons_val_zero, Matrix.cons_val_one, Matrix.cons_val]
      field_simp

/-- A quarter turn about the third axis meets the hypotheses of the exact clause. -/
example : (Quat.mk (4 / 5) 0 0 (3 / 5) : Quat ℝ).IsUnit ∧
    30 / 2 ^ 52 ≤ vnorm (Quat.mk (4 / 5) 0 0 (3 / 5) : Quat ℝ).shortest.vec := by
  refine ⟨by rw [Quat.IsUnit]; norm_num, ?_⟩
  unfold Quat.shortest
  rw [if_neg (by norm_num), vnorm_vec]
  apply Real.le_sqrt_of_sq_le
  norm_num

/-- C45. `to_axis_angle` of a unit quaternion whose vector part is longer than the rounding unit gives
a unit axis and an angle between 0 and π, and `from_axis_angle` of them is the same rotation. -/
theorem axisAngle_roundtrip (q : Quat ℝ) (hq : q.IsUnit) (h : 1 / 2 ^ 52 < vnorm q.vec) :
    vdot q.toAxisAngle.1 q.toAxisAngle.1 = 1 ∧ 0 ≤ q.toAxisAngle.2 ∧ q.toAxisAngle.2 ≤ Real.pi ∧
    (Quat.fromAxisAngle q.toAxisAngle.1 q.toAxisAngle.2 = q ∨
      Quat.fromAxisAngle q.toAxisAngle.1 q.toAxisAngle.2 = q.neg) := by
  obtain ⟨hw, hu, hpq⟩ := shortest_spec q hq
  obtain ⟨p, hp⟩ : ∃ p, q.shortest = p := ⟨_, rfl⟩
  have hvp : vnorm p.vec = vnorm q.vec := by
    rw [← hp, vnorm_vec, vnorm_vec]
    rcases hpq with e | e <;> rw [e]
    simp only [Quat.neg]; congr 1; ring
  rw [← hvp] at h
  unfold Quat.toAxisAngle
  dsimp only
  rw [hp] at hw hu hpq ⊢
  obtain ⟨hn, hnn, ha0, ha1, hsin, hcos⟩ := half_angle p hu hw
  rw [real_sqrt]
  rw [← vnorm_vec] at hn hnn hsin ha0 ha1 hcos ⊢
  obtain ⟨n, hn'⟩ : ∃ n, vnorm p.vec = n := ⟨_, rfl⟩
  obtain ⟨a, ha'⟩ : ∃ a : ℝ, Fns.atan2 n p.w = a := ⟨_, rfl⟩
  rw [hn'] at hn hnn hsin ha0 ha1 hcos h ⊢
  rw [ha'] at hsin ha0 ha1 hcos ⊢
  have hpos : 0 < n := lt_trans (by norm_num) h
  rw [if_neg (show ¬ n ≤ Fns.epsilon from not_le.2 h)]
  have h1 : vdot ![p.x * (1 / n), p.y * (1 / n), p.z * (1 / n)] ![p.x * (1 / n), p.y * (1 / n), p.z * (1 / n)] = 1 := by
    rw [vdot3]
    simp only [Matrix.cons_val_zero, Matrix.cons_val_one, Matrix.cons_val]
    field_simp
    nlinarith
  have hfin : Quat.fromAxisAngle ![p.x * (1 / n), p.y * (1 / n), p.z * (1 / n)] (((2 : ℕ) : ℝ) * a) = p := by
    unfold Quat.fromAxisAngle
    rw [h1, real_sqrt, Real.sqrt_one]
    dsimp only
    rw [if_neg (show ¬ (1 : ℝ) ≤ Fns.epsilon by norm_num [Fns.epsilon]), half_real,
      show ((2 : ℕ) : ℝ) * a * (1 / 2) = a by push_cast; ring]
    change Quat.mk (Real.cos a) (_ * (Real.sin a / 1)) (_ * (Real.sin a / 1)) (_ * (Real.sin a / 1)) = p
    rw [hsin, hcos]
    apply Quat.ext
    · rfl
    all_goals
      simp only [Matrix.cons_val_zero, Matrix.cons_val_one, Matrix.cons_val]
      field_simp
  refine ⟨h1, by dsimp only; push_cast; linarith, by dsimp only; push_cast; linarith, ?_⟩
  dsimp only
  rw [hfin]
  rcases hpq with e | e
  · exact .inl e
  · exact .inr e

/-! ### Interpolation -/

/-- C89. The angle between two unit quaternions lies between 0 and π, its half has the cosine
`|q · other|`, and it does not depend on the order of the two or on the sign of either. -/
theorem rotationAngleTo_spec (q o : Quat ℝ) (hq : q.IsUnit) (ho : o.IsUnit) :
    0 ≤ q.rotationAngleTo o ∧ q.rotationAngleTo o ≤ Real.pi ∧
    Real.cos (q.rotationAngleTo o / 2) = |q.dot o| ∧
    q.rotationAngleTo o = 2 * Real.arccos |q.dot o| ∧
    q.rotationAngleTo o = o.rotationAngleTo q ∧ q.neg.rotationAngleTo o = q.rotationAngleTo o := by
  have key : ∀ p r : Quat ℝ, p.IsUnit → r.IsUnit → 0 ≤ p.rotationAngleTo r ∧
      p.rotationAngleTo r ≤ Real.pi ∧ Real.cos (p.rotationAngleTo r / 2) = |p.dot r| := by
    intro p r hp hr
    rw [Quat.IsUnit] at hp hr
    unfold Quat.rotationAngleTo
    dsimp only
    obtain ⟨m, hm⟩ : ∃ m, p.conjugate.mul r = m := ⟨_, rfl⟩
    have hmw : m.w = p.dot r := by rw [← hm]; simp only [Quat.mul, Quat.conjugate, Quat.dot]; ring
    have hmu : m.w ^ 2 + m.x ^ 2 + m.y ^ 2 + m.z ^ 2 = 1 := by
      rw [← hm]; simp only [Quat.mul, Quat.conjugate]; grind
    rw [hm, real_abs, real_sqrt]
    have := half_angle ⟨|m.w|, m.x, m.y, m.z⟩ (by rw [Quat.IsUnit]; dsimp only; rw [sq_abs]; exact hmu)
      (abs_nonneg _)
    dsimp only at this
    obtain ⟨-, -, h0, h1, -, hc⟩ := this
    refine ⟨by push_cast; linarith, by push_cast; linarith, ?_⟩
    rw [← hmw]
    refine Eq.trans (congrArg Real.cos ?_) hc
    push_cast; ring
  obtain ⟨h0, h1, h2⟩ := key q o hq ho
  have hcl : ∀ p r : Quat ℝ, p.IsUnit → r.IsUnit → p.rotationAngleTo r = 2 * Real.arccos |p.dot r| := by
    intro p r hp hr
    obtain ⟨h0, h1, h2⟩ := key p r hp hr
    rw [← h2, Real.arccos_cos (by linarith) (by linarith)]; ring
  have hnu : q.neg.IsUnit := by rw [Quat.IsUnit] at hq ⊢; simp only [Quat.neg]; linarith
  refine ⟨h0, h1, h2, hcl q o hq ho, ?_, ?_⟩
  · rw [hcl q o hq ho, hcl o q ho hq]
    congr 3; simp only [Quat.dot]; ring
  · rw [hcl q o hq ho, hcl _ o hnu ho]
    congr 2
    rw [show q.neg.dot o = -(q.dot o) by simp only [Quat.dot, Quat.neg]; ring, abs_neg]

theorem dot_le_one (q o : Quat ℝ) (hq : q.IsUnit) (ho : o.IsUnit) : |q.dot o| ≤ 1 := by
  rw [← (rotationAngleTo_spec q o hq ho).2.2.1]; exact Real.cos_le_one _

/-- C89. Interpolating between unit quaternions: the result is a unit quaternion, the ends are the
start and the target (up to the sign that does not change the rotation), and beyond the nearly equal
case the rotation at fraction `t` is exactly `t` times the whole angle away from the start and `1 - t`
times away from the target. -/
theorem slerp_spec (q o : Quat ℝ) (hq : q.IsUnit) (ho : o.IsUnit) (t : ℝ) (h0 : 0 ≤ t) (h1 : t ≤ 1) :
    (q.slerp o t).IsUnit ∧ q.slerp o 0 = q ∧ (q.slerp o 1 = o ∨ q.slerp o 1 = o.neg) ∧
    (|q.dot o| ≤ 1 - 1 / 2 ^ 52 →
      q.rotationAngleTo (q.slerp o t) = t * q.rotationAngleTo o ∧
      (q.slerp o t).rotationAngleTo o = (1 - t) * q.rotationAngleTo o) := by
  obtain ⟨s, hs, hd, hso⟩ : ∃ s : Quat ℝ, (if q.dot o < 0 then o.neg else o) = s ∧
      q.dot s = (if q.dot o < 0 then -q.dot o else q.dot o) ∧ (s = o ∨ s = o.neg) := by
    refine ⟨_, rfl, ?_, ?_⟩
    · split
      · simp only [Quat.dot, Quat.neg]; ring
      · rfl
    · split
      · exact .inr rfl
      · exact .inl rfl
  have habs : (if q.dot o < 0 then -q.dot o else q.dot o) = |q.dot o| := by
    split
    next h => rw [abs_of_neg h]
    next h => rw [abs_of_nonneg (not_lt.1 h)]
  rw [habs] at hd
  have hsu : s.IsUnit := by
    rw [Quat.IsUnit] at ho ⊢
    rcases hso with e | e <;> rw [e]
    · exact ho
    · simp only [Quat.neg]; linarith
  have hle := dot_le_one q o hq ho
  have hge : 0 ≤ |q.dot o| := abs_nonneg _
  have hslerp : ∀ u : ℝ, q.slerp o u = if 1 - Fns.epsilon < |q.dot o| then
      ((q.scale (1 - u)).add (s.scale u)).normalized
    else ((q.scale (Real.sin ((1 - u) * acos |q.dot o|) / Real.sin (acos |q.dot o|))).add
      (s.scale (Real.sin (u * acos |q.dot o|) / Real.sin (acos |q.dot o|)))).normalized := by
    intro u
    unfold Quat.slerp
    dsimp only
    rw [habs, hs]
    rfl
  obtain ⟨d, hd'⟩ : ∃ d, |q.dot o| = d := ⟨_, rfl⟩
  rw [Quat.IsUnit] at hq hsu
  -- the squared length and the products of a combination
  have hcomb : ∀ a b : ℝ, ((q.scale a).add (s.scale b)).normSquared = a ^ 2 + b ^ 2 + 2 * a * b * d := by
    intro a b
    rw [← hd', ← hd]
    simp only [Quat.normSquared, Quat.add, Quat.scale, Quat.dot]
    linear_combination a ^ 2 * hq + b ^ 2 * hsu
  have hnormed : ∀ m : Quat ℝ, 0 < m.normSquared → m.normalized.IsUnit := by
    intro m hm
    have hr : Real.sqrt m.normSquared * Real.sqrt m.normSquared = m.normSquared :=
      Real.mul_self_sqrt hm.le
    have hrp := Real.sqrt_pos.2 hm
    have hns : m.norm = Real.sqrt m.normSquared := rfl
    rw [Quat.IsUnit]
    simp only [Quat.normalized, Quat.scale, hns]
    field_simp
    rw [sq (Real.sqrt _), hr]
    simp only [Quat.normSquared]
    ring
  have hunit : ∀ m : Quat ℝ, m.normSquared = 1 → m.normalized = m := by
    intro m hm
    simp only [Quat.normalized, Quat.norm, real_sqrt, hm, Real.sqrt_one, Quat.scale]
    apply Quat.ext <;> simp
  have hstart : ((q.scale 1).add (s.scale 0)) = q := by
    apply Quat.ext <;> simp [Quat.scale, Quat.add]
  have hend : ((q.scale 0).add (s.scale 1)) = s := by
    apply Quat.ext <;> simp [Quat.scale, Quat.add]
  have hqn : q.normSquared = 1 := by simp only [Quat.normSquared]; linarith
  have hsn : s.normSquared = 1 := by simp only [Quat.normSquared]; linarith
  rw [hd'] at hle hge hslerp ⊢
  by_cases hb : 1 - Fns.epsilon < d
  · have hsl : ∀ u : ℝ, q.slerp o u = ((q.scale (1 - u)).add (s.scale u)).normalized := by
      intro u; rw [hslerp u, if_pos hb]
    have heps : (Fns.epsilon : ℝ) = 1 / 2 ^ 52 := rfl
    refine ⟨?_, ?_, ?_, fun h => ?_⟩
    · rw [hsl]
      apply hnormed
      rw [hcomb]
      have hd0 : (1 : ℝ) / 2 < d := by rw [heps] at hb; norm_num at hb ⊢; linarith
      nlinarith [mul_nonneg h0 (sub_nonneg.2 h1)]
    · rw [hsl, sub_zero, hstart, hunit q hqn]
    · rw [hsl, sub_self, hend, hunit s hsn]; exact hso
    · rw [heps] at hb; linarith
  · have hdle : d ≤ 1 - 1 / 2 ^ 52 := not_lt.1 hb
    have hsl : ∀ u : ℝ, q.slerp o u = ((q.scale (Real.sin ((1 - u) * acos d) / Real.sin (acos d))).add
      (s.scale (Real.sin (u * acos d) / Real.sin (acos d)))).normalized := by
      intro u; rw [hslerp u, if_neg hb]
    obtain ⟨θ, hθ⟩ : ∃ θ : ℝ, acos d = θ := ⟨_, rfl⟩
    have hdsq : 0 < 1 - d * d := by
      have : d < 1 := lt_of_le_of_lt hdle (by norm_num)
      nlinarith
    have hcs := atan2_cos (x := d) (y := Real.sqrt (1 - d * d)) (by
      rw [Real.sq_sqrt hdsq.le]; nlinarith)
    rw [Real.sq_sqrt hdsq.le, show d ^ 2 + (1 - d * d) = 1 by ring, Real.sqrt_one, one_mul, one_mul] at hcs
    have hθdef : (Fns.atan2 (Real.sqrt (1 - d * d)) d : ℝ) = θ := hθ
    rw [hθdef] at hcs
    obtain ⟨hcos, hsin⟩ := hcs
    have hsinpos : 0 < Real.sin θ := by rw [hsin]; exact Real.sqrt_pos.2 hdsq
    have hθ0 : 0 ≤ θ := by rw [← hθdef]; exact atan2_nonneg (Real.sqrt_nonneg _)
    have hθ1 : θ ≤ Real.pi / 2 := by rw [← hθdef]; exact (abs_le.1 (atan2_le_half hge)).2
    rw [hθ] at hsl
    have hsc := Real.sin_sq_add_cos_sq θ
    have e1 : ∀ u : ℝ, Real.sin ((1 - u) * θ) = Real.sin θ * Real.cos (u * θ) - d * Real.sin (u * θ) := by
      intro u; rw [show (1 - u) * θ = θ - u * θ by ring, Real.sin_sub, hcos]
    have hone : ∀ u : ℝ, ((q.scale (Real.sin ((1 - u) * θ) / Real.sin θ)).add
      (s.scale (Real.sin (u * θ) / Real.sin θ))).normSquared = 1 := by
      intro u
      rw [hcomb, e1]
      have := Real.sin_sq_add_cos_sq (u * θ)
      rw [hcos] at hsc
      field_simp
      linear_combination (-Real.sin (u * θ) ^ 2) * hsc + Real.sin θ ^ 2 * this
    have hsl' : ∀ u : ℝ, q.slerp o u = (q.scale (Real.sin ((1 - u) * θ) / Real.sin θ)).add
      (s.scale (Real.sin (u * θ) / Real.sin θ)) := by
      intro u; rw [hsl, hunit _ (hone u)]
    have hU : (q.slerp o t).IsUnit := by rw [hsl]; exact hnormed _ (by rw [hone]; norm_num)
    have hqo : q.rotationAngleTo o = 2 * θ := by
      rw [(rotationAngleTo_spec q o hq ho).2.2.2.1, hd', ← hcos, Real.arccos_cos hθ0 (by linarith [Real.pi_pos])]
    refine ⟨hU, ?_, ?_, fun _ => ⟨?_, ?_⟩⟩
    · rw [hsl', sub_zero, one_mul, zero_mul, Real.sin_zero, zero_div, div_self hsinpos.ne', hstart]
    · rw [hsl', sub_self, one_mul, zero_mul, Real.sin_zero, zero_div, div_self hsinpos.ne', hend]; exact hso
    · have hdot : q.dot (q.slerp o t) = Real.cos (t * θ) := by
        rw [hsl', e1]
        have hd2 : q.w * s.w + q.x * s.x + q.y * s.y + q.z * s.z = d := by rw [← hd', ← hd]; rfl
        simp only [Quat.dot, Quat.add, Quat.scale]
        field_simp
        linear_combination (Real.sin θ * Real.cos (t * θ) - d * Real.sin (t * θ)) * hq + Real.sin (t * θ) * hd2
      have htθ : t * θ ≤ Real.pi / 2 := le_trans (by nlinarith) hθ1
      have htθ0 : 0 ≤ t * θ := mul_nonneg h0 hθ0
      rw [(rotationAngleTo_spec q _ hq hU).2.2.2.1, hdot,
        abs_of_nonneg (Real.cos_nonneg_of_mem_Icc ⟨by linarith, htθ⟩),
        Real.arccos_cos htθ0 (by linarith [Real.pi_pos]), hqo]
      ring
    · have hdot : |(q.slerp o t).dot o| = Real.cos ((1 - t) * θ) := by
        have h2 : (q.slerp o t).dot s = Real.cos ((1 - t) * θ) := by
          rw [hsl', e1, show (1 - t) * θ = θ - t * θ by ring, Real.cos_sub, hcos]
          have hd2 : q.w * s.w + q.x * s.x + q.y * s.y + q.z * s.z = d := by rw [← hd', ← hd]; rfl
          simp only [Quat.dot, Quat.add, Quat.scale]
          rw [hcos] at hsc
          field_simp
          linear_combination (Real.sin θ * Real.cos (t * θ) - d * Real.sin (t * θ)) * hd2 +
            Real.sin (t * θ) * hsu - Real.sin (t * θ) * hsc
        have hnn : 0 ≤ Real.cos ((1 - t) * θ) := Real.cos_nonneg_of_mem_Icc
          ⟨by nlinarith [Real.pi_pos], by nlinarith⟩
        rcases hso with e | e
        · have h3 : (q.slerp o t).dot o = (q.slerp o t).dot s := by rw [e]
          rw [h3, h2, abs_of_nonneg hnn]
        · have h3 : (q.slerp o t).dot o = -(q.slerp o t).dot s := by
            rw [e]; simp only [Quat.dot, Quat.neg]; ring
          rw [h3, h2, abs_neg, abs_of_nonneg hnn]
      have ht2 : 0 ≤ (1 - t) * θ := mul_nonneg (by linarith) hθ0
      have ht3 : (1 - t) * θ ≤ Real.pi := by nlinarith [Real.pi_pos]
      rw [(rotationAngleTo_spec _ o hU ho).2.2.2.1, hdot, Real.arccos_cos ht2 ht3, hqo]
      ring

/-- A quarter turn and the identity meet the hypotheses. -/
example : (Quat.mk 1 0 0 0 : Quat ℝ).IsUnit ∧ (Quat.mk (3 / 5) 0 0 (4 / 5) : Quat ℝ).IsUnit ∧
    |(Quat.mk 1 0 0 0 : Quat ℝ).dot ⟨3 / 5, 0, 0, 4 / 5⟩| ≤ 1 - 1 / 2 ^ 52 := by
  refine ⟨by rw [Quat.IsUnit]; norm_num, by rw [Quat.IsUnit]; norm_num, ?_⟩
  simp only [Quat.dot]
  norm_num [abs_of_pos]

/-! ### Euler angles -/

theorem fromAxisAngle_unit (axis : Fin 3 → ℝ) (h : vdot axis axis = 1) (angle : ℝ) :
    Quat.fromAxisAngle axis angle = ⟨Real.cos (angle / 2), axis 0 * Real.sin (angle / 2),
      axis 1 * Real.sin (angle / 2), axis 2 * Real.sin (angle / 2)⟩ := by
  unfold Quat.fromAxisAngle
  rw [h, real_sqrt, Real.sqrt_one]
  dsimp only
  rw [if_neg (show ¬ (1 : ℝ) ≤ Fns.epsilon by norm_num [Fns.epsilon]), half_real, mul_one_div, div_one]
  rfl

/-- C90. The quaternion of Euler angles is the yaw rotation about z, times the pitch rotation about
y, times the roll rotation about x, and has unit length. -/
theorem fromEulerZyx_spec (roll pitch yaw : ℝ) :
    Quat.fromEulerZyx roll pitch yaw =
      ((Quat.fromAxisAngle ![0, 0, 1] yaw).mul (Quat.fromAxisAngle ![0, 1, 0] pitch)).mul
        (Quat.fromAxisAngle ![1, 0, 0] roll) ∧
    (Quat.fromEulerZyx roll pitch yaw).IsUnit := by
  constructor
  · rw [fromAxisAngle_unit _ (by rw [vdot3]; simp), fromAxisAngle_unit _ (by rw [vdot3]; simp),
      fromAxisAngle_unit _ (by rw [vdot3]; simp)]
    simp only [Quat.fromEulerZyx, half_real, mul_one_div, Quat.mul, Matrix.cons_val_zero,
      Matrix.cons_val_one, Matrix.cons_val]
    simp only [Fns.cos, Fns.sin]
    apply Quat.ext <;> dsimp only <;> ring
  · rw [Quat.IsUnit]
    simp only [Quat.fromEulerZyx, half_real, mul_one_div, Fns.cos, Fns.sin]
    have h1 := Real.sin_sq_add_cos_sq (roll / 2)
    have h2 := Real.sin_sq_add_cos_sq (pitch / 2)
    have h3 := Real.sin_sq_add_cos_sq (yaw / 2)
    grind

/-- The entries of the matrix of Euler angles that the reverse conversion reads. -/
theorem euler_entries (r p y : ℝ) :
    let q := Quat.fromEulerZyx r p y
    2 * (q.w * q.y - q.z * q.x) = Real.sin p ∧
    2 * (q.w * q.x + q.y * q.z) = Real.cos p * Real.sin r ∧
    1 - 2 * (q.x * q.x + q.y * q.y) = Real.cos p * Real.cos r ∧
    2 * (q.w * q.z + q.x * q.y) = Real.cos p * Real.sin y ∧
    1 - 2 * (q.y * q.y + q.z * q.z) = Real.cos p * Real.cos y := by
  have h1 := Real.sin_sq_add_cos_sq (r / 2)
  have h2 := Real.sin_sq_add_cos_sq (p / 2)
  have h3 := Real.sin_sq_add_cos_sq (y / 2)
  have s1 : Real.sin r = 2 * Real.sin (r / 2) * Real.cos (r / 2) := by rw [← Real.sin_two_mul]; ring_nf
  have s2 : Real.sin p = 2 * Real.sin (p / 2) * Real.cos (p / 2) := by rw [← Real.sin_two_mul]; ring_nf
  have s3 : Real.sin y = 2 * Real.sin (y / 2) * Real.cos (y / 2) := by rw [← Real.sin_two_mul]; ring_nf
  have c1 : Real.cos r = 2 * Real.cos (r / 2) ^ 2 - 1 := by rw [← Real.cos_two_mul]; ring_nf
  have c2 : Real.cos p = 2 * Real.cos (p / 2) ^ 2 - 1 := by rw [← Real.cos_two_mul]; ring_nf
  have c3 : Real.cos y = 2 * Real.cos (y / 2) ^ 2 - 1 := by rw [← Real.cos_two_mul]; ring_nf
  rw [s1, s2, s3, c1, c2, c3]
  simp only [Quat.fromEulerZyx, half_real, mul_one_div, Fns.cos, Fns.sin]
  generalize Real.sin (r / 2) = sr at *
  generalize Real.cos (r / 2) = cr at *
  generalize Real.sin (p / 2) = sp at *
  generalize Real.cos (p / 2) = cp at *
  generalize Real.sin (y / 2) = sy at *
  generalize Real.cos (y / 2) = cy at *
  clear s1 s2 s3 c1 c2 c3
  refine ⟨?_, ?_, ?_, ?_, ?_⟩ <;> grind

/-- C90. Away from the poles the angles come back: roll and yaw in (-π, π], pitch strictly between
-π/2 and π/2 with a sine below the gimbal-lock band. -/
theorem toEulerZyx_fromEulerZyx (r p y : ℝ) (hr : -Real.pi < r) (hr' : r ≤ Real.pi)
    (hp : -(Real.pi / 2) < p) (hp' : p < Real.pi / 2) (hy : -Real.pi < y) (hy' : y ≤ Real.pi)
    (hband : |Real.sin p| < 1 - 30 / 2 ^ 52) :
    (Quat.fromEulerZyx r p y).toEulerZyx = (r, p, y) := by
  obtain ⟨e1, e2, e3, e4, e5⟩ := euler_entries r p y
  have hcp : 0 < Real.cos p := Real.cos_pos_of_mem_Ioo ⟨hp, hp'⟩
  unfold Quat.toEulerZyx
  push_cast
  rw [e1, e2, e3, e4, e5, real_abs, if_neg (by rw [smallAngle_real]; exact not_le.2 hband),
    atan2_polar hcp hr hr', atan2_polar hcp hy hy']
  unfold asin
  rw [real_sqrt, show 1 - Real.sin p * Real.sin p = Real.cos p * Real.cos p by
    have := Real.sin_sq_add_cos_sq p; linear_combination -this, Real.sqrt_mul_self hcp.le]
  have := atan2_polar (r := 1) (θ := p) one_pos (by linarith [Real.pi_pos]) (by linarith [Real.pi_pos])
  rw [one_mul, one_mul] at this
  rw [this]

example : (-Real.pi < 1) ∧ (-(Real.pi / 2) < (0 : ℝ)) ∧ (0 : ℝ) < Real.pi / 2 ∧
    |Real.sin 0| < 1 - 30 / 2 ^ 52 := by
  refine ⟨by linarith [Real.pi_pos], by linarith [Real.pi_pos], by linarith [Real.pi_pos], ?_⟩
  rw [Real.sin_zero]; norm_num

/-- Unit quaternions with the same rotation matrix agree up to sign. -/
theorem quat_eq_of_matrix {p q : Quat ℝ} (hp : p.IsUnit) (hq : q.IsUnit)
    (h : p.toRotationMatrix = q.toRotationMatrix) : p = q ∨ p = q.neg := by
  have nn : ∀ a : Quat ℝ, a.neg.neg = a := by intro a; apply Quat.ext <;> simp [Quat.neg]
  rcases tryFromRotationMatrix_toRotationMatrix p hp with h1 | h1 <;>
  rcases tryFromRotationMatrix_toRotationMatrix q hq with h2 | h2 <;>
  rw [h, h2] at h1 <;> have h3 := Option.some.inj h1
  · exact .inl h3.symm
  · exact .inr h3.symm
  · right; rw [h3, nn]
  · left; rw [← nn p, ← h3, nn]

/-- A rotation matrix is determined by its first column and last row away from the pole. -/
theorem rotation_eq_of_five (A B : Matrix (Fin 3) (Fin 3) ℝ)
    (hA : mmul (mtranspose A) A = midentity 3) (dA : determinant3 A = 1)
    (hB : mmul (mtranspose B) B = midentity 3) (dB : determinant3 B = 1)
    (h00 : A 0 0 = B 0 0) (h10 : A 1 0 = B 1 0) (h20 : A 2 0 = B 2 0) (h21 : A 2 1 = B 2 1)
    (h22 : A 2 2 = B 2 2) (hne : B 2 0 * B 2 0 < 1) : A = B := by
  have key : ∀ R : Matrix (Fin 3) (Fin 3) ℝ, mmul (mtranspose R) R = midentity 3 → determinant3 R = 1 →
      R 2 0 * R 2 0 < 1 →
      R 0 1 = (-R 0 0 * R 2 1 * R 2 0 - R 1 0 * R 2 2) / (1 - R 2 0 * R 2 0) ∧
      R 1 2 = R 0 1 * R 2 0 - R 0 0 * R 2 1 ∧
      R 0 2 = (R 1 0 * R 2 1 - R 0 0 * R 2 2 * R 2 0) / (1 - R 2 0 * R 2 0) ∧
      R 1 1 = R 0 0 * R 2 2 - R 0 2 * R 2 0 := by
    intro R h1 hd hne
    rw [mmul_eq, midentity_eq] at h1
    change Rᵀ * R = 1 at h1
    have hdet : R.det = 1 := by
      rw [← hd, Matrix.det_fin_three]; unfold determinant3; ring
    obtain ⟨k00, k01, k02, k10, k11, k12, k20, k21, k22⟩ := rotation_cofactors R h1 hdet
    have hpos : (1 - R 2 0 * R 2 0) ≠ 0 := by linarith
    refine ⟨?_, k12, ?_, k11⟩
    · rw [eq_div_iff hpos]; linear_combination k01 + R 2 0 * k12
    · rw [eq_div_iff hpos]; linear_combination k02 - R 2 0 * k11
  obtain ⟨a1, a2, a3, a4⟩ := key A hA dA (by rw [h20]; exact hne)
  obtain ⟨b1, b2, b3, b4⟩ := key B hB dB hne
  rw [h00, h10, h20, h21, h22] at a1
  rw [← b1] at a1
  rw [h00, h20, h21, a1, ← b2] at a2
  rw [h00, h10, h20, h21, h22, ← b3] at a3
  rw [h00, h20, h22, a3, ← b4] at a4
  ext i j
  fin_cases i <;> fin_cases j <;> assumption

/-- C90. Converting a unit quaternion to Euler angles and back gives the same rotation: whenever the
pitch sine is outside the gimbal-lock band, and also exactly at the poles. -/
theorem fromEulerZyx_toEulerZyx_partial (q : Quat ℝ) (hq : q.IsUnit)
    (h : |2 * (q.w * q.y - q.z * q.x)| < 1 - 30 / 2 ^ 52 ∨ |2 * (q.w * q.y - q.z * q.x)| = 1) :
    let e := q.toEulerZyx
    Quat.fromEulerZyx e.1 e.2.1 e.2.2 = q ∨ Quat.fromEulerZyx e.1 e.2.1 e.2.2 = q.neg := by
  have hu := hq
  rw [Quat.IsUnit] at hu
  rcases h with hband | hpole
  · have hsin : 2 * (q.w * q.y - q.z * q.x) * (2 * (q.w * q.y - q.z * q.x)) < 1 := by
      rw [← abs_mul_abs_self]
      have h1 : |2 * (q.w * q.y - q.z * q.x)| < 1 := lt_trans hband (by norm_num)
      nlinarith [abs_nonneg (2 * (q.w * q.y - q.z * q.x))]
    -- name the three angles
    obtain ⟨e, he⟩ : ∃ e, q.toEulerZyx = e := ⟨_, rfl⟩
    have hdef : q.toEulerZyx = (Fns.atan2 (2 * (q.w * q.x + q.y * q.z)) (1 - 2 * (q.x * q.x + q.y * q.y)),
        asin (2 * (q.w * q.y - q.z * q.x)),
        Fns.atan2 (2 * (q.w * q.z + q.x * q.y)) (1 - 2 * (q.y * q.y + q.z * q.z))) := by
      unfold Quat.toEulerZyx
      push_cast
      rw [real_abs, if_neg (by rw [smallAngle_real]; exact not_le.2 hband)]
    obtain ⟨c, hc⟩ : ∃ c, Real.sqrt (1 - 2 * (q.w * q.y - q.z * q.x) * (2 * (q.w * q.y - q.z * q.x))) = c := ⟨_, rfl⟩
    have hcpos : 0 < c := by rw [← hc]; exact Real.sqrt_pos.2 (by linarith)
    have hcc : c * c = 1 - 2 * (q.w * q.y - q.z * q.x) * (2 * (q.w * q.y - q.z * q.x)) := by
      rw [← hc]; exact Real.mul_self_sqrt (by linarith)
    have hw : q.w ^ 2 = 1 - q.x ^ 2 - q.y ^ 2 - q.z ^ 2 := by linarith
    have hrow : (1 - 2 * (q.x * q.x + q.y * q.y)) ^ 2 + (2 * (q.w * q.x + q.y * q.z)) ^ 2 = c ^ 2 := by
      rw [sq c, hcc]; grind
    have hcol : (1 - 2 * (q.y * q.y + q.z * q.z)) ^ 2 + (2 * (q.w * q.z + q.x * q.y)) ^ 2 = c ^ 2 := by
      rw [sq c, hcc]; grind
    have hpit : (2 * (q.w * q.y - q.z * q.x)) ^ 2 + c ^ 2 = 1 := by rw [sq c, hcc]; ring
    have a1 := atan2_cos (x := 1 - 2 * (q.x * q.x + q.y * q.y)) (y := 2 * (q.w * q.x + q.y * q.z))
      (by rw [hrow]; positivity)
    have a2 := atan2_cos (x := 1 - 2 * (q.y * q.y + q.z * q.z)) (y := 2 * (q.w * q.z + q.x * q.y))
      (by rw [hcol]; positivity)
    have a3 := atan2_cos (x := c) (y := 2 * (q.w * q.y - q.z * q.x)) (by positivity)
    rw [hrow, Real.sqrt_sq hcpos.le] at a1
    rw [hcol, Real.sqrt_sq hcpos.le] at a2
    rw [add_comm (c ^ 2), hpit, Real.sqrt_one, one_mul, one_mul] at a3
    have has : asin (2 * (q.w * q.y - q.z * q.x)) = Fns.atan2 (2 * (q.w * q.y - q.z * q.x)) c := by
      unfold asin; rw [real_sqrt, hc]
    rw [has] at hdef
    intro e'
    have he' : e' = q.toEulerZyx := rfl
    rw [hdef] at he'
    rw [he']
    dsimp only
    obtain ⟨r, hr⟩ : ∃ r : ℝ, Fns.atan2 (2 * (q.w * q.x + q.y * q.z)) (1 - 2 * (q.x * q.x + q.y * q.y)) = r := ⟨_, rfl⟩
    obtain ⟨p, hp⟩ : ∃ p : ℝ, Fns.atan2 (2 * (q.w * q.y - q.z * q.x)) c = p := ⟨_, rfl⟩
    obtain ⟨y, hy⟩ : ∃ y : ℝ, Fns.atan2 (2 * (q.w * q.z + q.x * q.y)) (1 - 2 * (q.y * q.y + q.z * q.z)) = y := ⟨_, rfl⟩
    rw [hr] at a1; rw [hy] at a2; rw [hp] at a3
    rw [hr, hp, hy]
    clear e' he' hdef he e has hr hp hy
    obtain ⟨b1, b2, b3, b4, b5⟩ := euler_entries r p y
    have hqu := (fromEulerZyx_spec r p y).2
    obtain ⟨u, hu'⟩ : ∃ u, Quat.fromEulerZyx r p y = u := ⟨_, rfl⟩
    rw [hu'] at b1 b2 b3 b4 b5 hqu ⊢
    rw [a3.2] at b1
    rw [a3.1] at b2 b3 b4 b5
    rw [a1.2] at b2; rw [a1.1] at b3; rw [a2.2] at b4; rw [a2.1] at b5
    clear a1 a2 a3 hband hrow hcol hpit hc hcc
    apply quat_eq_of_matrix hqu hq
    apply rotation_eq_of_five _ _ (toRotationMatrix_spec u u hqu hqu 0).1
      (toRotationMatrix_spec u u hqu hqu 0).2.1 (toRotationMatrix_spec q q hq hq 0).1
      (toRotationMatrix_spec q q hq hq 0).2.1
    all_goals
      simp only [Quat.toRotationMatrix, Matrix.of_apply, Matrix.cons_val_zero, Matrix.cons_val_one,
        Matrix.cons_val, Nat.cast_ofNat]
      linarith
  · -- at the poles the quaternion has only two free components
    have hp4 : Real.cos (Real.pi / 4) = Real.sqrt 2 / 2 := Real.cos_pi_div_four
    have hs4 : Real.sin (Real.pi / 4) = Real.sqrt 2 / 2 := Real.sin_pi_div_four
    have h2 : Real.sqrt 2 * Real.sqrt 2 = 2 := Real.mul_self_sqrt (by norm_num)
    have h2p : 0 < Real.sqrt 2 := by positivity
    left
    unfold Quat.toEulerZyx
    push_cast
    rw [real_abs, hpole, if_pos (by rw [smallAngle_real]; norm_num)]
    dsimp only
    rcases (abs_eq (by norm_num : (0 : ℝ) ≤ 1)).1 hpole with hs | hs
    · have hz : (q.w - q.y) ^ 2 + (q.x + q.z) ^ 2 + 0 ^ 2 + 0 ^ 2 = 0 := by
        linear_combination hu - hs
      obtain ⟨hz1, hz2, -, -⟩ := four_sq_zero hz
      have hy : q.y = q.w := by linarith
      have hzz : q.z = -q.x := by linarith
      have hwx : q.w ^ 2 + q.x ^ 2 = 1 / 2 := by rw [hy, hzz] at hu; linarith
      obtain ⟨ac, as⟩ := atan2_cos (x := q.w) (y := q.x) (by rw [hwx]; norm_num)
      rw [hwx] at ac as
      have hr : Real.sqrt (1 / 2) = Real.sqrt 2 / 2 := by
        rw [Real.sqrt_eq_iff_mul_self_eq (by norm_num) (by positivity)]
        linear_combination -h2 / 4
      rw [hr] at ac as
      rw [hs, if_pos one_pos]
      unfold Quat.fromEulerZyx
      have hcop : Fns.copysign (Fns.pi * (half : ℝ)) 1 = Real.pi / 2 := by
        rw [half_real]
        simp only [Fns.copysign, Fns.pi]
        rw [if_neg (by norm_num), abs_of_pos (by have := Real.pi_pos; positivity)]; ring
      rw [hcop, half_real]
      dsimp only
      have e1 : -(2 * (Fns.atan2 q.x q.w : ℝ)) * (1 / 2) = -Fns.atan2 q.x q.w := by ring
      have e2 : Real.pi / 2 * (1 / 2) = Real.pi / 4 := by ring
      rw [e1, e2, zero_mul]
      simp only [Fns.cos, Fns.sin]
      rw [Real.cos_zero, Real.sin_zero, Real.cos_neg, Real.sin_neg, hp4, hs4]
      apply Quat.ext <;> dsimp only
      · linear_combination ac
      · linear_combination as
      · rw [hy]; linear_combination ac
      · rw [hzz]; linear_combination -as
    · have hz : (q.w + q.y) ^ 2 + (q.x - q.z) ^ 2 + 0 ^ 2 + 0 ^ 2 = 0 := by
        linear_combination hu + hs
      obtain ⟨hz1, hz2, -, -⟩ := four_sq_zero hz
      have hy : q.y = -q.w := by linarith
      have hzz : q.z = q.x := by linarith
      have hwx : q.w ^ 2 + q.x ^ 2 = 1 / 2 := by rw [hy, hzz] at hu; linarith
      obtain ⟨ac, as⟩ := atan2_cos (x := q.w) (y := q.x) (by rw [hwx]; norm_num)
      rw [hwx] at ac as
      have hr : Real.sqrt (1 / 2) = Real.sqrt 2 / 2 := by
        rw [Real.sqrt_eq_iff_mul_self_eq (by norm_num) (by positivity)]
        linear_combination -h2 / 4
      rw [hr] at ac as
      rw [hs, if_neg (by norm_num)]
      unfold Quat.fromEulerZyx
      have hcop : Fns.copysign (Fns.pi * (half : ℝ)) (-1) = -(Real.pi / 2) := by
        rw [half_real]
        simp only [Fns.copysign, Fns.pi]
        rw [if_pos (by norm_num), abs_of_pos (by have := Real.pi_pos; positivity)]; ring
      rw [hcop, half_real]
      dsimp only
      have e1 : (2 * (Fns.atan2 q.x q.w : ℝ)) * (1 / 2) = Fns.atan2 q.x q.w := by ring
      have e2 : -(Real.pi / 2) * (1 / 2) = -(Real.pi / 4) := by ring
      rw [e1, e2, zero_mul]
      simp only [Fns.cos, Fns.sin]
      rw [Real.cos_zero, Real.sin_zero, Real.cos_neg, Real.sin_neg, hp4, hs4]
      apply Quat.ext <;> dsimp only
      · linear_combination ac
      · linear_combination as
      · rw [hy]; linear_combination -ac
      · rw [hzz]; linear_combination as

/-- A pole and an ordinary attitude meet the hypotheses. -/
example : (Quat.mk (4 / 5) (3 / 5) 0 0 : Quat ℝ).IsUnit ∧
    |2 * ((4 / 5 : ℝ) * 0 - 0 * (3 / 5))| < 1 - 30 / 2 ^ 52 ∧
    (Quat.mk (1 / 2) (1 / 2) (1 / 2) (-1 / 2) : Quat ℝ).IsUnit ∧
    |2 * ((1 / 2 : ℝ) * (1 / 2) - (-1 / 2) * (1 / 2))| = 1 := by
  refine ⟨by rw [Quat.IsUnit]; norm_num, by norm_num, by rw [Quat.IsUnit]; norm_num, by norm_num⟩

/-- C90 (finding). Inside the gimbal-lock band but off the pole the reconstruction does not match,
although the code says it does: for a pure pitch whose sine is `1 - 16 ε`, turning the point
`(1, 0, 0)` with the reconstruction misses the true image by more than `10⁻⁸`, about fifty million
rounding units. -/
theorem toEulerZyx_band_mismatch : ∃ p : ℝ, 0 < p ∧ p < Real.pi / 2 ∧
    (Quat.fromEulerZyx 0 p 0).IsUnit ∧
    (let e := (Quat.fromEulerZyx 0 p 0).toEulerZyx
     (1 : ℝ) / 10 ^ 8 < |(Quat.fromEulerZyx e.1 e.2.1 e.2.2).transformPoint ![1, 0, 0] 0 -
       (Quat.fromEulerZyx 0 p 0).transformPoint ![1, 0, 0] 0|) := by
  have hpi := Real.pi_pos
  have hx1 : (-1 : ℝ) ≤ 1 - 16 / 2 ^ 52 := by norm_num
  have hx2 : (1 - 16 / 2 ^ 52 : ℝ) < 1 := by norm_num
  obtain ⟨p, hpdef⟩ : ∃ p, Real.arcsin (1 - 16 / 2 ^ 52) = p := ⟨_, rfl⟩
  have hsin : Real.sin p = 1 - 16 / 2 ^ 52 := by rw [← hpdef]; exact Real.sin_arcsin hx1 hx2.le
  have hp0 : 0 < p := by rw [← hpdef]; exact Real.arcsin_pos.2 (by norm_num)
  have hp1 : p < Real.pi / 2 := by rw [← hpdef]; exact Real.arcsin_lt_pi_div_two.2 hx2
  have hcpos : 0 < Real.cos p := Real.cos_pos_of_mem_Ioo ⟨by linarith, hp1⟩
  have hcos : (1 : ℝ) / 10 ^ 8 < Real.cos p := by
    have h := Real.sin_sq_add_cos_sq p
    rw [hsin] at h
    by_contra hcon
    push Not at hcon
    have : Real.cos p ^ 2 ≤ (1 / 10 ^ 8) ^ 2 := by gcongr
    norm_num at h this
    linarith
  obtain ⟨e1, -, -, -, -⟩ := euler_entries 0 p 0
  refine ⟨p, hp0, hp1, (fromEulerZyx_spec 0 p 0).2, ?_⟩
  have hx : (Quat.fromEulerZyx 0 p 0).x = 0 := by simp [Quat.fromEulerZyx, Fns.sin]
  have hw : 0 < (Quat.fromEulerZyx 0 p 0).w := by
    simp only [Quat.fromEulerZyx, half_real, Fns.sin, Fns.cos]
    rw [zero_mul, Real.cos_zero, Real.sin_zero]
    have : 0 < Real.cos (p * (1 / 2)) := Real.cos_pos_of_mem_Ioo ⟨by linarith, by linarith⟩
    linarith
  have hat : (Fns.atan2 0 (Quat.fromEulerZyx 0 p 0).w : ℝ) = 0 := by
    have := atan2_polar (r := (Quat.fromEulerZyx 0 p 0).w) (θ := 0) hw (by linarith) hpi.le
    rwa [Real.sin_zero, Real.cos_zero, mul_zero, mul_one] at this
  have heul : (Quat.fromEulerZyx 0 p 0).toEulerZyx = (0, Real.pi / 2, 0) := by
    unfold Quat.toEulerZyx
    push_cast
    rw [e1, hsin, real_abs, abs_of_pos (by norm_num), if_pos (by rw [smallAngle_real]; norm_num), hx, hat,
      if_pos (by norm_num)]
    have hcop : Fns.copysign (Fns.pi * (half : ℝ)) (1 - 16 / 2 ^ 52) = Real.pi / 2 := by
      rw [half_real]
      simp only [Fns.copysign, Fns.pi]
      rw [if_neg (by norm_num), abs_of_pos (by positivity)]; ring
    rw [hcop]; norm_num
  rw [heul]
  dsimp only
  have hrot : ∀ a : ℝ, (Quat.fromEulerZyx 0 a 0).transformPoint ![1, 0, 0] 0 = Real.cos a := by
    intro a
    obtain ⟨-, -, -, -, e5⟩ := euler_entries 0 a 0
    have hu := (fromEulerZyx_spec 0 a 0).2
    rw [Quat.IsUnit] at hu
    rw [Real.cos_zero, mul_one] at e5
    rw [transformPoint_explicit]
    simp only [Matrix.cons_val_zero, Matrix.cons_val_one, Matrix.cons_val]
    linear_combination e5 + hu
  rw [hrot, hrot, Real.cos_pi_div_two, zero_sub, abs_neg, abs_of_pos hcpos]
  exact hcos

end Multicalc
