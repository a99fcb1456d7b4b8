import Verif.Props.RootFinding
import Verif.Props.Pid
import Verif.Props.Signal
import Verif.Props.PolylinePath
import Verif.Props.Plant
import Verif.Props.Lqr

/-!
# Fresh states, first steps and refused inputs

Resets that bring back the state of the constructor, Brent's first step and its count of iterations, paths of one
waypoint, and what the matrix equations refuse.
-/

namespace Multicalc
variable {T : Type}

/-! ### Brent's method -/

/-- C18. When Brent's method gives up, the count it reports is the whole budget, whatever the arithmetic. -/
theorem brent_gives_up [Zero T] [One T] [NatCast T] [Add T] [Sub T] [Mul T] [Div T] [LT T] [DecidableLT T] [LE T]
    [DecidableLE T] [BEq T] [Fns T] (xtol ftol : T) (n : ℕ) (f : T → T) (a b : T) (k : ℕ)
    (h : brentSolve xtol ftol n f a b = .error (.didNotConverge k)) : k = n := by
  have key : ∀ (fuel iter : ℕ) (s : BrentState T), 1 ≤ iter →
      brentLoop f xtol ftol fuel iter s = .error (.didNotConverge k) → k = iter + fuel - 1 := by
    intro fuel
    induction fuel with
    | zero =>
      intro iter s h1 h
      simp only [brentLoop, Except.error.injEq, SolveError.didNotConverge.injEq] at h
      omega
    | succ fuel ih =>
      intro iter s h1 h
      simp only [brentLoop] at h
      split at h
      · cases h
      · split at h
        · cases h
        · split at h
          · cases h
          · have := ih (iter + 1) _ (by omega) h
            omega
  unfold brentSolve at h
  simp only at h
  split at h
  · cases h
  split at h
  · cases h
  split at h
  · cases h
  split at h
  · cases h
  have := key n 1 _ le_rfl h
  omega

/-- C120. Where the inverse of the function is a quadratic, `x = p + q y + r y²`, the interpolated point Brent's method
moves to is the root `p` itself. -/
theorem brent_interpolates (xtol p q r : ℝ) (s : BrentState ℝ) (ha : s.a = p + q * s.fa + r * s.fa ^ 2)
    (hb : s.b = p + q * s.fb + r * s.fb ^ 2) (hc : s.c = p + q * s.fc + r * s.fc ^ 2) (hab : s.fa ≠ s.fb)
    (hac : s.fa ≠ s.fc) (hbc : s.fb ≠ s.fc) (ht : (brentTrial xtol s).2 = false) : (brentTrial xtol s).1 = p := by
  have hq : inverseQuadratic s.a s.fa s.b s.fb s.c s.fc = p := by
    unfold inverseQuadratic
    have h1 := sub_ne_zero.2 hab
    have h2 := sub_ne_zero.2 hac
    have h3 := sub_ne_zero.2 hbc
    rw [show s.fb - s.fa = -(s.fa - s.fb) by ring, show s.fc - s.fa = -(s.fa - s.fc) by ring,
      show s.fc - s.fb = -(s.fb - s.fc) by ring]
    field_simp
    rw [ha, hb, hc]
    ring
  have hcond : (s.fa != s.fc && s.fb != s.fc) = true := by simp [hac, hbc]
  unfold brentTrial at ht ⊢
  simp only [hcond, if_true, hq] at ht ⊢
  generalize (!Fns.isFinite p || _ || _ || _ || _ || _) = P at ht ⊢
  cases P with
  | true => simp at ht
  | false => rfl

/-- The state Brent's method starts from. -/
noncomputable def brentStart (f : ℝ → ℝ) (a b : ℝ) : BrentState ℝ :=
  let s := brentSwap ⟨a, f a, b, f b, a, f a, b - a, true⟩
  { s with c := s.a, fc := s.fa, prevStep := s.b - s.a }

/-- C120. On every affine function with a sign change Brent's method needs one iteration: unless an end of the bracket is
already good enough, the first step lands on the exact root. -/
theorem brent_affine (m k xtol ftol a b : ℝ) (n : ℕ) (hn : 1 ≤ n) (hf : 0 ≤ ftol) (hx : 0 ≤ xtol)
    (hs : (m * a + k) * (m * b + k) < 0) :
    ∃ r, brentSolve xtol ftol n (fun x => m * x + k) a b = .ok r ∧
      ((m * r.root + k = 0 ∧ r.iterations = 1 ∧ r.termination = .residualTolerance) ∨
        (r.iterations = 0 ∧ (r.root = a ∨ r.root = b))) := by
  set f : ℝ → ℝ := fun x => m * x + k with hfd
  have hfa : f a ≠ 0 := fun h => by simp only [hfd] at h; rw [h, zero_mul] at hs; exact lt_irrefl _ hs
  have hfb : f b ≠ 0 := fun h => by simp only [hfd] at h; rw [h, mul_zero] at hs; exact lt_irrefl _ hs
  have hsign : sameSign (f a) (f b) = false := by
    simp only [sameSign, hfd]
    rcases mul_neg_iff.1 hs with ⟨h1, h2⟩ | ⟨h1, h2⟩
    · simp [h1.le, not_le.2 h2]
    · simp [h2.le, not_le.2 h1]
  have hm : m ≠ 0 := fun h => by
    rw [h] at hs; simp only [zero_mul, zero_add] at hs; nlinarith [mul_self_nonneg k]
  have hsolve : brentSolve xtol ftol n f a b = brentLoop f xtol ftol n 1 (brentStart f a b) := by
    unfold brentSolve
    simp only [Fns.isFinite, Bool.not_true, Bool.or_self, Bool.false_eq_true, if_false, beq_iff_eq, hfa, hfb, hsign]
    rfl
  obtain ⟨n', rfl⟩ : ∃ n', n = n' + 1 := ⟨n - 1, by omega⟩
  set s := brentStart f a b with hsd
  have hends : (s.a = a ∧ s.b = b) ∨ (s.a = b ∧ s.b = a) := by
    rw [hsd, brentStart, brentSwap]
    simp only
    split
    · exact Or.inr ⟨rfl, rfl⟩
    · exact Or.inl ⟨rfl, rfl⟩
  have hsfa : s.fa = f s.a ∧ s.fb = f s.b ∧ s.c = s.a ∧ s.fc = s.fa ∧ s.mflag = true ∧ |s.fb| ≤ |s.fa| := by
    rw [hsd, brentStart, brentSwap]
    simp only
    split
    · next h => exact ⟨by trivial, by trivial, by trivial, by trivial, by trivial, h.le⟩
    · next h => exact ⟨by trivial, by trivial, by trivial, by trivial, by trivial, not_lt.1 h⟩
  obtain ⟨e1, e2, e3, e4, e5, e6⟩ := hsfa
  have hopp : s.fa * s.fb < 0 := by
    rw [e1, e2]
    rcases hends with ⟨h1, h2⟩ | ⟨h1, h2⟩
    · rw [h1, h2]; exact hs
    · rw [h1, h2, mul_comm]; exact hs
  rw [hsolve, brentLoop]
  cases ht : brentTest xtol ftol (1 - 1) s with
  | some r =>
    refine ⟨r, rfl, Or.inr ?_⟩
    have : r.iterations = 0 ∧ r.root = s.b := by
      unfold brentTest at ht
      simp only at ht
      split at ht
      · cases ht; exact ⟨rfl, rfl⟩
      · split at ht
        · cases ht; exact ⟨rfl, rfl⟩
        · cases ht
    refine ⟨this.1, ?_⟩
    rw [this.2]
    rcases hends with h | h
    · exact Or.inr h.2
    · exact Or.inl h.2
  | none =>
    have hρ : m * (-k / m) + k = 0 := by field_simp; ring
    set ρ := -k / m with hρd
    have fval : ∀ x, f x = m * (x - ρ) := fun x => by
      have : m * ρ = -k := by rw [hρd]; field_simp
      simp only [hfd]; linarith
    rw [e1, e2, fval, fval] at hopp
    rw [e1, e2, fval, fval, abs_mul, abs_mul] at e6
    have hm2 : 0 < m * m := mul_self_pos.2 hm
    have hopp' : (s.a - ρ) * (s.b - ρ) < 0 := by nlinarith
    have hbest : |s.b - ρ| ≤ |s.a - ρ| := le_of_mul_le_mul_left e6 (abs_pos.2 hm)
    have hwide : xtol * (1 + |s.b|) < |s.b - s.a| := by
      unfold brentTest at ht
      simp only at ht
      split at ht
      · cases ht
      · split at ht
        · cases ht
        · next h => exact not_le.1 (not_or.1 h).2
    have htrial : (brentTrial xtol s).1 = ρ := by
      have hsec : s.b - s.fb * (s.b - s.a) / (s.fb - s.fa) = ρ := by
        rw [e1, e2, fval, fval]
        have hne : s.b - s.a ≠ 0 := fun h => by
          rw [sub_eq_zero] at h; rw [h] at hopp'; nlinarith [mul_self_nonneg (s.a - ρ)]
        have : m * (s.b - ρ) - m * (s.a - ρ) = m * (s.b - s.a) := by ring
        rw [this]
        field_simp
        ring
      have hcond : (s.fa != s.fc && s.fb != s.fc) = false := by simp [e4]
      unfold brentTrial
      simp only [hcond, Bool.false_eq_true, if_false, hsec, e5, Bool.not_true, Bool.false_and, Bool.or_false,
        Bool.true_and, e3, real_abs]
      have hmid : s.a * (1 / 2) + s.b * (1 / 2) = ρ ∨ |ρ - s.b| < |s.b - s.a| * (1 / 2) := by
        rcases mul_neg_iff.1 hopp' with ⟨h1, h2⟩ | ⟨h1, h2⟩
        · rw [abs_of_neg h2, abs_of_pos h1] at hbest
          rcases eq_or_lt_of_le hbest with h | h
          · left; linarith
          · right
            rw [abs_of_pos (by linarith : 0 < ρ - s.b), abs_of_neg (by linarith : s.b - s.a < 0)]
            linarith
        · rw [abs_of_pos h2, abs_of_neg h1] at hbest
          rcases eq_or_lt_of_le hbest with h | h
          · left; linarith
          · right
            rw [abs_of_neg (by linarith : ρ - s.b < 0), abs_of_pos (by linarith : 0 < s.b - s.a)]
            linarith
      generalize hP : (!Fns.isFinite ρ || _ || _ || _) = P
      cases P with
      | false => rfl
      | true =>
        rcases hmid with h' | h'
        · exact h'
        · exfalso
          have h := hP
          simp only [Fns.isFinite, Bool.not_true, Bool.false_or, Bool.or_eq_true, decide_eq_true_eq] at h
          rcases h with ((h | h) | h) | h
          · rcases mul_neg_iff.1 hopp' with ⟨h1, h2⟩ | ⟨h1, h2⟩
            · rw [abs_of_neg h2, abs_of_pos h1] at hbest
              split at h <;> linarith
            · rw [abs_of_pos h2, abs_of_neg h1] at hbest
              split at h <;> linarith
          · rcases mul_neg_iff.1 hopp' with ⟨h1, h2⟩ | ⟨h1, h2⟩
            · rw [abs_of_neg h2, abs_of_pos h1] at hbest
              split at h <;> linarith
            · rw [abs_of_pos h2, abs_of_neg h1] at hbest
              split at h <;> linarith
          · linarith
          · linarith
    have hfρ : f ρ = 0 := hρ
    simp only [htrial, hfρ, Fns.isFinite, Bool.not_true, Bool.false_eq_true, if_false]
    have hup : (brentUpdate s ρ 0 (brentTrial xtol s).2).b = ρ ∧ (brentUpdate s ρ 0 (brentTrial xtol s).2).fb = 0 := by
      have hfb0 : s.fb ≠ 0 := by
        rw [e2, fval]; intro h; rw [h, mul_zero] at hopp; exact lt_irrefl _ hopp
      unfold brentUpdate brentSwap
      simp only
      split
      · rw [if_pos (by simpa [Fns.abs] using abs_pos.2 hfb0)]
        exact ⟨rfl, rfl⟩
      · rw [if_neg (by simp [Fns.abs])]
        exact ⟨rfl, rfl⟩
    refine ⟨⟨ρ, 0, 1, .residualTolerance⟩, ?_, Or.inl ⟨hρ, rfl, rfl⟩⟩
    rw [brentTest]
    simp only [hup.1, hup.2, real_abs, abs_zero, hf, if_true]

example : ((3 : ℝ) * 0 + -1) * (3 * 2 + -1) < 0 := by norm_num

/-! ### Resets -/

/-- C82. `reset` brings a controller back to the state it was built in, whatever it has seen: with the default derivative
filter, with output limits and with another filter, over any scalar. -/
theorem pid_reset_fresh [Zero T] [One T] [Add T] [Sub T] [Mul T] [Div T] [LT T] [DecidableLT T] [LE T] [DecidableLE T]
    [Max T] [Min T] [Fns T] (kp ki kd timestep lo hi smoothing : T) (p q r : Pid T)
    (h1 : Pid.new kp ki kd timestep = .ok p) (h2 : p.withOutputLimits lo hi = .ok q)
    (h3 : q.withDerivativeFilter smoothing = .ok r) (xs : List (T × T)) :
    (p.run xs).2.reset = p ∧ (q.run xs).2.reset = q ∧ (r.run xs).2.reset = r := by
  rw [Pid.reset_forgets, Pid.reset_forgets, Pid.reset_forgets]
  have fresh : ∀ (c : T) (g : OnePole T), OnePole.new c = .ok g → g.reset = g := by
    intro c g h
    unfold OnePole.new at h
    split at h
    · cases h
    · split at h
      · cases h
      · cases h; rfl
  have e1 : p.reset = p := by
    unfold Pid.new at h1
    split at h1
    · cases h1
    · split at h1
      · cases h1
      · cases hg : OnePole.new (1 : T) with
        | error e => rw [hg] at h1; cases h1
        | ok g => rw [hg] at h1; cases h1; simp only [Pid.reset, fresh _ g hg]
  have e2 : q.reset = q := by
    unfold Pid.withOutputLimits at h2
    split at h2
    · cases h2
    · split at h2
      · cases h2
      · cases h2
        have := e1
        unfold Pid.reset at this ⊢
        rw [Pid.mk.injEq] at this
        simp only [Pid.mk.injEq, true_and]
        exact ⟨this.2.2.2.2.2.2.1, this.2.2.2.2.2.2.2⟩
  refine ⟨e1, e2, ?_⟩
  unfold Pid.withDerivativeFilter at h3
  cases hg : OnePole.new smoothing with
  | error e => rw [hg] at h3; cases h3
  | ok g =>
    rw [hg] at h3; cases h3
    have := e2
    unfold Pid.reset at this ⊢
    rw [Pid.mk.injEq] at this
    simp only [Pid.mk.injEq, true_and]
    exact ⟨this.2.2.2.2.2.2.1, fresh _ g hg, this.2.2.2.2.2.2.2.2⟩

/-- C82. The first update after a reset has no derivative kick: it is the proportional and one tick of the integral
share alone, limited to the output range. -/
theorem pid_first_update (p : Pid ℝ) (s m : ℝ) :
    (p.reset.update s m).1 = min (max (p.proportionalGain * (s - m) + p.integralGain * (s - m) * p.timestep)
      p.outputMinimum) p.outputMaximum := by
  simp [Pid.reset, Pid.update, OnePole.reset, OnePole.filter]

example : ∃ p q r : Pid ℝ, Pid.new (2 : ℝ) 1 3 (1 / 2) = .ok p ∧ p.withOutputLimits (-1) 1 = .ok q ∧
    q.withDerivativeFilter (1 / 4) = .ok r := by
  have h1 : OnePole.new (1 : ℝ) = .ok ⟨1, 0, false⟩ := by norm_num [OnePole.new, Fns.isFinite]
  have h2 : OnePole.new (1 / 4 : ℝ) = .ok ⟨1 / 4, 0, false⟩ := by norm_num [OnePole.new, Fns.isFinite]
  refine ⟨⟨2, 1, 3, 1 / 2, Fns.negInfinity, Fns.infinity, 0, ⟨1, 0, false⟩, 0, 0, false⟩,
    ⟨2, 1, 3, 1 / 2, -1, 1, 0, ⟨1, 0, false⟩, 0, 0, false⟩,
    ⟨2, 1, 3, 1 / 2, -1, 1, 0, ⟨1 / 4, 0, false⟩, 0, 0, false⟩, ?_, ?_, ?_⟩
  · norm_num [Pid.new, h1, Fns.isFinite]
  · norm_num [Pid.withOutputLimits, Fns.isNan]
  · rw [Pid.withDerivativeFilter, h2]

/-- C28. A hysteresis switch starts low, and `reset` brings it back there whatever it has seen. -/
theorem hysteresis_reset [LT T] [DecidableLT T] [LE T] [DecidableLE T] [Fns T] (lower upper : T) (h : Hysteresis T)
    (hh : Hysteresis.new lower upper = .ok h) (xs : List T) :
    h.isHigh = false ∧ (runFilter Hysteresis.update h xs).2.reset = h := by
  rw [hysteresis_history]
  unfold Hysteresis.new at hh
  split at hh
  · cases hh
  · split at hh
    · cases hh
    · cases hh; exact ⟨rfl, rfl⟩

example : ∃ h, Hysteresis.new (1 : ℝ) 2 = .ok h := ⟨_, by norm_num [Hysteresis.new, Fns.isFinite]; rfl⟩

/-- C51. Rotors start at rest, and `reset` brings them back there from any history of commands, keeping the lag and the
tick; so a reset plant answers as a new one. -/
theorem rotor_lag_reset [Zero T] [One T] [NatCast T] [Add T] [Sub T] [Mul T] [Div T] [Neg T] [LT T] [DecidableLT T]
    [LE T] [DecidableLE T] [Fns T] {n : ℕ} (timeConstant timestep : T) (r : RotorLag n T)
    (h : RotorLag.new timeConstant timestep = .ok r) (thrusts : Fin n → T) (commands : List ((Fin n → T) ⊕ (Fin n → T) × T)) :
    r.thrusts = (fun _ => 0) ∧
    ((commands.foldl (fun s c => match c with
      | .inl c => RotorLag.stepped s c
      | .inr (c, t) => RotorLag.steppedOver s c t) (r.withThrusts thrusts)).reset) = r := by
  have h0 : r.thrusts = (fun _ => 0) ∧ r.reset = r := by
    unfold RotorLag.new at h
    split at h
    · cases h
    · split at h
      · cases h
      · split at h
        · cases h
        · cases h; exact ⟨rfl, rfl⟩
  refine ⟨h0.1, ?_⟩
  have key : ∀ s : RotorLag n T, (commands.foldl (fun s c => match c with
      | .inl c => RotorLag.stepped s c
      | .inr (c, t) => RotorLag.steppedOver s c t) s).reset = s.reset := by
    induction commands with
    | nil => intro s; rfl
    | cons c cs ih =>
      intro s
      rw [List.foldl_cons, ih]
      rcases c with c | ⟨c, t⟩ <;> rfl
  rw [key, ← h0.2]
  rfl

/-! ### Paths of one waypoint -/

/-- C67. A path of one waypoint has no length, and the closest point to anything is that waypoint, at the start; an
empty path has no length either. -/
theorem path_single {n : ℕ} (cap : ℕ) (x q : Fin n → ℝ) (p : PolylinePath n ℝ)
    (h : PolylinePath.tryFromPoints cap [x] = .ok p) :
    p.totalArcLength = 0 ∧ p.closestPoint q = .ok ⟨x, 0, 0, vnorm (vsub q x)⟩ ∧
    (PolylinePath.new : PolylinePath n ℝ).totalArcLength = 0 := by
  unfold PolylinePath.tryFromPoints at h
  split at h
  · cases h
  · split at h
    · cases h
    · cases h
      refine ⟨by simp [PolylinePath.totalArcLength, PolylinePath.cumulativeFrom], rfl, ?_⟩
      simp [PolylinePath.totalArcLength, PolylinePath.new]

example : ∃ p, PolylinePath.tryFromPoints 3 [![(1 : ℝ), 2]] = .ok p :=
  ⟨_, by simp [PolylinePath.tryFromPoints, vecIsFinite, Fns.isFinite]; rfl⟩

/-! ### Matrix equations -/

section
variable [Zero T] [One T] [NatCast T] [Add T] [Sub T] [Mul T] [Div T] [Neg T] [LT T] [DecidableLT T]
  [LE T] [DecidableLE T] [BEq T] [Max T] [Min T] [Fns T] {n m : ℕ}

theorem mIsFinite_false {r c : ℕ} (w : Matrix (Fin r) (Fin c) T) (i : Fin r) (j : Fin c)
    (h : Fns.isFinite (w i j) = false) : mIsFinite w = false := by
  unfold mIsFinite
  rw [List.all_eq_false]
  refine ⟨i, List.mem_finRange i, ?_⟩
  rw [Bool.not_eq_true, List.all_eq_false]
  exact ⟨j, List.mem_finRange j, by rw [h]; decide⟩

theorem mIsFinite_true {r c : ℕ} (w : Matrix (Fin r) (Fin c) T) (h : mIsFinite w = true) (i : Fin r) (j : Fin c) :
    Fns.isFinite (w i j) = true := by
  unfold mIsFinite at h
  exact List.all_eq_true.1 (List.all_eq_true.1 h i (List.mem_finRange i)) j (List.mem_finRange j)

/-- C37. Over any scalar, one entry that is not finite, in any matrix, makes both equations refuse the problem as not
finite. -/
theorem equations_refuse (largest : T) (a q : Matrix (Fin n) (Fin n) T) (b : Matrix (Fin n) (Fin m) T)
    (r : Matrix (Fin m) (Fin m) T) :
    (((∃ i j, Fns.isFinite (a i j) = false) ∨ ∃ i j, Fns.isFinite (q i j) = false) →
      solveLyapunov a q = .error .nonFinite) ∧
    (((∃ i j, Fns.isFinite (a i j) = false) ∨ (∃ i j, Fns.isFinite (b i j) = false) ∨
        (∃ i j, Fns.isFinite (q i j) = false) ∨ ∃ i j, Fns.isFinite (r i j) = false) →
      solveRiccati largest a b q r = .error .nonFinite ∧ Lqr.new largest a b q r = .error .nonFinite) := by
  constructor
  · intro h
    unfold solveLyapunov
    rw [if_pos]
    rcases h with ⟨i, j, h⟩ | ⟨i, j, h⟩ <;> simp [mIsFinite_false _ i j h]
  · intro h
    have : solveRiccati largest a b q r = .error .nonFinite := by
      unfold solveRiccati
      rw [if_pos]
      rcases h with ⟨i, j, h⟩ | ⟨i, j, h⟩ | ⟨i, j, h⟩ | ⟨i, j, h⟩ <;> simp [mIsFinite_false _ i j h]
    refine ⟨this, ?_⟩
    unfold Lqr.new
    rw [this]

/-- C37. Over any scalar, overflow included, an answer to either equation has finite entries only. -/
theorem equations_finite (largest : T) (a q : Matrix (Fin n) (Fin n) T) (b : Matrix (Fin n) (Fin m) T)
    (r : Matrix (Fin m) (Fin m) T) (P : Matrix (Fin n) (Fin n) T)
    (h : solveLyapunov a q = .ok P ∨ solveRiccati largest a b q r = .ok P) (i j : Fin n) :
    Fns.isFinite (P i j) = true := by
  refine mIsFinite_true P ?_ i j
  rcases h with h | h
  · unfold solveLyapunov at h
    split at h
    · cases h
    · split at h
      · cases h
      · have key : ∀ (k : ℕ) (t w : Matrix (Fin n) (Fin n) T), lyapunovLoop k t w = .ok P → mIsFinite P = true := by
          intro k
          induction k with
          | zero => intro t w h; cases h
          | succ k ih =>
            intro t w h
            rw [lyapunovLoop] at h
            split at h
            · cases h
            · next hc =>
              split at h
              · cases h
                simp only [Bool.or_eq_true, Bool.not_eq_true', not_or, Bool.not_eq_false] at hc
                exact hc.1.1
              · exact ih _ _ h
        exact key _ _ _ h
  · have key : ∀ (k : ℕ) (s c g : Matrix (Fin n) (Fin n) T), (0 < k ∨ mIsFinite c = true) →
        riccatiLoop largest k s c g = .ok P → mIsFinite P = true := by
      intro k
      induction k with
      | zero =>
        intro s c g hc h
        rw [riccatiLoop] at h
        cases h
        exact hc.resolve_left (lt_irrefl _)
      | succ k ih =>
        intro s c g _ h
        rw [riccatiLoop] at h
        split at h
        · cases h
        · simp only at h
          split at h
          · cases h
          · next hc =>
            simp only [Bool.or_eq_true, Bool.not_eq_true', not_or, Bool.not_eq_false] at hc
            split at h
            · cases h; exact hc.1.1.1.1
            · exact ih _ _ _ (Or.inr hc.1.1.1.1) h
    unfold solveRiccati at h
    split at h
    · cases h
    split at h
    · cases h
    split at h
    · cases h
    split at h
    · cases h
    next c hc =>
      split at h
      · cases h
      simp only at h
      split at h
      · cases h
      · cases h
        exact key _ _ _ _ (Or.inl (by norm_num)) hc

end

end Multicalc
