import Verif.Props.ErrorStateKalman
import Verif.Props.Attitude

/-!
# C102, continued: what a successful prediction leaves, and a vehicle standing still
-/

namespace Multicalc
namespace ErrorStateKalmanFilter

variable {m : ℕ}

section finite
variable {T : Type} [Zero T] [One T] [NatCast T] [Add T] [Sub T] [Mul T] [Div T] [Neg T] [LT T]
  [DecidableLT T] [LE T] [DecidableLE T] [BEq T] [Max T] [Min T] [Fns T]

/-- C102, C59. For every scalar type: a prediction that succeeds leaves no number in the state that is not finite, whichever
of the sixteen it is, and none in the covariance. -/
theorem eskf_predict_finite (f : ErrorStateKalmanFilter m T) (gy ac : Fin 3 → T) (dt : T)
    (h : (f.predict gy ac dt).2 = .ok ()) :
    (∀ i, Fns.isFinite ((f.predict gy ac dt).1.nominalState.position i) = true) ∧
    (∀ i, Fns.isFinite ((f.predict gy ac dt).1.nominalState.velocity i) = true) ∧
    (∀ i, Fns.isFinite ((f.predict gy ac dt).1.nominalState.gyroscopeBias i) = true) ∧
    (∀ i, Fns.isFinite ((f.predict gy ac dt).1.nominalState.accelerometerBias i) = true) ∧
    Fns.isFinite (f.predict gy ac dt).1.nominalState.orientation.quaternion.w = true ∧
    Fns.isFinite (f.predict gy ac dt).1.nominalState.orientation.quaternion.x = true ∧
    Fns.isFinite (f.predict gy ac dt).1.nominalState.orientation.quaternion.y = true ∧
    Fns.isFinite (f.predict gy ac dt).1.nominalState.orientation.quaternion.z = true ∧
    ∀ i j, Fns.isFinite ((f.predict gy ac dt).1.covariance i j) = true := by
  obtain ⟨h1, h2⟩ := (eskf_failure_keeps (w := 0) f gy ac dt ⟨fun _ _ => 0, fun _ _ => 0⟩ (fun _ => 0)
    ⟨fun _ _ => 0, fun _ _ => 0⟩ (fun _ => 0) (fun _ _ => 0) 0).2.2.2.2.2 h
  generalize (f.predict gy ac dt).1 = g at h1 h2
  simp only [NominalState.isFinite, Bool.and_eq_true, vIsFinite, List.all_eq_true] at h1
  obtain ⟨⟨⟨⟨⟨⟨⟨a, b⟩, c⟩, d⟩, e⟩, k⟩, l⟩, o⟩ := h1
  refine ⟨fun i => a i (List.mem_finRange i), fun i => b i (List.mem_finRange i), fun i => c i (List.mem_finRange i),
    fun i => d i (List.mem_finRange i), e, k, l, o, fun i j => ?_⟩
  simp only [mIsFinite, List.all_eq_true] at h2
  exact h2 i (List.mem_finRange i) j (List.mem_finRange j)

end finite

/-- C102. Standing still: a new filter at rest, facing any way, whose gyroscope reads nothing and whose accelerometer reads
the 9.81 up that holds it there, stays exactly where it is over any timestep. -/
theorem eskf_standing_still (q : SO3 ℝ) (hq : q.quaternion.IsUnit) (P : Matrix (Fin 15) (Fin 15) ℝ) (noise : ImuNoise ℝ)
    (R : Matrix (Fin m) (Fin m) ℝ) (dt : ℝ) :
    ((new (.atRest q) P noise R).predict (fun _ => 0) (q.inverse.act ![0, 0, 981 / 100]) dt).1.nominalState = .atRest q := by
  have hg := so3_group q q q hq hq ![0, 0, 981 / 100] 0
  have hpush : q.act (vsub (q.inverse.act ![0, 0, 981 / 100]) fun _ => 0) = ![0, 0, 981 / 100] := by
    rw [show vsub (q.inverse.act ![0, 0, 981 / 100]) (fun _ => 0) = q.inverse.act ![0, 0, 981 / 100] from
      funext fun i => sub_zero _]
    exact hg.2.2.2.2.2.2.2.2.2.2.1
  have hnone : SO3.exp (vscale (vsub (fun _ => 0) fun _ => 0) dt : Fin 3 → ℝ) = SO3.identity := by
    rw [show (vscale (vsub (fun _ => 0) fun _ => 0) dt : Fin 3 → ℝ) = 0 from funext fun i => by simp [vscale, vsub],
      attitude_exp_zero]
  have hw : vadd ![0, 0, 981 / 100] (![0, 0, Fns.lit (-981 / 100)] : Fin 3 → ℝ) = 0 := by
    funext i
    have hl : (Fns.lit (-981 / 100) : ℝ) = -981 / 100 := by simp [Fns.lit]
    fin_cases i <;> simp [vadd, hl] <;> norm_num
  unfold predict
  rw [if_neg (by simp [real_vIsFinite, Fns.isFinite])]
  dsimp only
  rw [if_neg (by simp [real_state_isFinite, real_mIsFinite]), if_neg (by simp [real_mIsFinite])]
  simp only [new, NominalState.atRest, NominalState.propagated, hpush, hw, hnone]
  rw [hg.2.2.2.2.1]
  congr 1 <;> funext i <;> simp [vadd, vscale]

/-- A facing that is not the identity. -/
example : (⟨⟨3 / 5, 4 / 5, 0, 0⟩⟩ : SO3 ℝ).quaternion.IsUnit := by
  rw [Quat.IsUnit]; norm_num

end ErrorStateKalmanFilter
end Multicalc
