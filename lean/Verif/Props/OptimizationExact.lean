import Verif.Props.Optimization
import Mathlib.Analysis.Calculus.Deriv.Pow
import Mathlib.Analysis.Calculus.Deriv.Mul
import Mathlib.Analysis.Calculus.Deriv.Add

/-!
# What the least-squares solvers mean by their answers (C80)
-/

namespace Multicalc

open Matrix

variable {m n : ℕ}

theorem arrayNorm_eq (minPositive largest : ℝ) (v : Fin m → ℝ) (h : √(v ⬝ᵥ v) * m < √largest) :
    arrayNorm minPositive largest v = √(v ⬝ᵥ v) := by
  have e : v ⬝ᵥ v = ∑ i, v i ^ 2 := by simp only [dotProduct, sq]
  rw [e] at h ⊢
  have := enorm_tail minPositive largest 0 v _ h (by rw [Real.sq_sqrt (Finset.sum_nonneg fun i _ => sq_nonneg _)])
    (Real.sqrt_nonneg _)
  rw [finRange_from_zero] at this
  simpa [arrayNorm] using this

theorem real_allFinite (v : Fin m → ℝ) : allFinite v = true := by simp [allFinite, Fns.isFinite]

theorem real_matrixFinite (a : Matrix (Fin m) (Fin n) ℝ) : matrixFinite a = true := by simp [matrixFinite, Fns.isFinite]

/-! ### The gradient test -/

theorem column_zero {A : Matrix (Fin m) (Fin n) ℝ} {c : Fin n} (h : √(∑ i, A i c ^ 2) = 0) (b : Fin m → ℝ) : (Aᵀ *ᵥ b) c = 0 := by
  have hs : ∑ i, A i c ^ 2 = 0 := (Real.sqrt_eq_zero (Finset.sum_nonneg fun i _ => sq_nonneg _)).1 h
  have hz : ∀ i, A i c = 0 := by
    intro i
    have := (Finset.sum_eq_zero_iff_of_nonneg fun i _ => sq_nonneg (A i c)).1 hs i (Finset.mem_univ i)
    exact pow_eq_zero_iff (two_ne_zero) |>.1 this
  simp [mulVec, dotProduct, hz]

theorem gradientNorm_le_iff (A : Matrix (Fin m) (Fin n) ℝ) (b : Fin m → ℝ) (norms : Fin n → ℝ)
    (hn : ∀ c, norms c = √(∑ i, A i c ^ 2)) (fnorm gtol : ℝ) (hf : 0 < fnorm) (hg : 0 ≤ gtol) :
    GaussNewton.gradientNorm A b norms fnorm ≤ gtol ↔ ∀ c, |(Aᵀ *ᵥ b) c| ≤ gtol * (fnorm * √(∑ i, A i c ^ 2)) := by
  unfold GaussNewton.gradientNorm
  dsimp only
  obtain ⟨-, h2, h3⟩ := foldl_qrMax (fun c => norms c != 0)
    (fun c => |(Aᵀ *ᵥ b) c / (fnorm * norms c)|) (List.finRange n) 0
  have hgrad : ∀ c, mmulVec (mtranspose A) b c = (Aᵀ *ᵥ b) c := fun c => by
    rw [mmulVec_eq]; rfl
  simp only [hgrad, real_abs]
  have hval : ∀ c, norms c ≠ 0 → ∀ w, |(Aᵀ *ᵥ b) c / (fnorm * norms c)| ≤ w ↔ |(Aᵀ *ᵥ b) c| ≤ w * (fnorm * √(∑ i, A i c ^ 2)) := by
    intro c hc w
    have hp : 0 < fnorm * norms c := mul_pos hf (lt_of_le_of_ne (by rw [hn]; exact Real.sqrt_nonneg _) (Ne.symm hc))
    rw [abs_div, abs_of_pos hp, div_le_iff₀ hp, hn c]
  constructor
  · intro h c
    by_cases hc : norms c = 0
    · rw [column_zero (by rw [← hn c]; exact hc), abs_zero]
      exact mul_nonneg hg (mul_nonneg hf.le (Real.sqrt_nonneg _))
    · exact (hval c hc _).1 ((h2 c (List.mem_finRange c) (by simpa using hc)).trans h)
  · intro h
    rcases h3 with h3 | ⟨c, -, hp, h3⟩
    · rw [h3]; exact hg
    · rw [h3]
      exact (hval c (by simpa using hp) _).2 (h c)

/-- C80. Stopping on the gradient means the gradient is small: the Jacobian at the solution has every column nearly
orthogonal to the residuals there, within the tolerance, or the residual norm is zero. -/
theorem levenberg_marquardt_gtol (minPositive largest : ℝ) (hl : 0 < largest) (g : LevenbergMarquardt ℝ)
    (f : (Fin n → ℝ) → Fin m → ℝ) (jacobian : (Fin n → ℝ) → Except MinimizeError (Matrix (Fin m) (Fin n) ℝ))
    (hrange : ∀ x j, jacobian x = .ok j → ∀ c, √(∑ i, j i c ^ 2) * m < √largest)
    (x₀ : Fin n → ℝ) (r : MinimizationReport n ℝ) (h : (g.minimize minPositive largest f jacobian x₀).2 = .ok r)
    (hr : r.termination = .gtol) :
    ∃ j, jacobian r.solution = .ok j
      ∧ (enorm minPositive largest ((List.finRange m).map (f r.solution)) = 0
        ∨ ∀ c, |(jᵀ *ᵥ f r.solution) c| ≤ g.gtol * (enorm minPositive largest ((List.finRange m).map (f r.solution))
            * √(∑ i, j i c ^ 2))) := by
  have key : ∀ (left : ℕ) (s : LmState n ℝ) (base : ℕ),
      (LevenbergMarquardt.loop minPositive largest g f jacobian left s base).2 = .ok r →
      ∃ j, jacobian r.solution = .ok j
      ∧ (enorm minPositive largest ((List.finRange m).map (f r.solution)) = 0
        ∨ ∀ c, |(jᵀ *ᵥ f r.solution) c| ≤ g.gtol * (enorm minPositive largest ((List.finRange m).map (f r.solution))
            * √(∑ i, j i c ^ 2))) := by
    intro left
    induction left with
    | zero => intro s base h; cases h
    | succ left ih =>
      intro s base h
      unfold LevenbergMarquardt.loop at h
      dsimp only at h
      cases hjx : jacobian s.x with
      | error e => rw [hjx] at h; cases h
      | ok j =>
        rw [hjx] at h
        simp only [real_matrixFinite, Bool.not_true, Bool.false_eq_true, if_false] at h
        cases hq : PivotedQr.decompose minPositive largest j with
        | error e => rw [hq] at h; cases h
        | ok qr =>
          rw [hq] at h
          dsimp only at h
          by_cases h1 : (qr.intoDamped (f s.x)).maxAtbScaled (arrayNorm minPositive largest (f s.x)) ≤ g.gtol
          · rw [if_pos h1, LevenbergMarquardt.prepare_x] at h
            injection h with h
            subst h
            refine ⟨j, hjx, ?_⟩
            rcases (LevenbergMarquardt.arrayNorm_nonneg minPositive largest (f s.x)).eq_or_lt with h0 | h0
            · left; exact h0.symm
            · right
              intro c
              obtain ⟨k1, k2, -⟩ := max_atb_scaled_spec minPositive largest hl j (hrange _ _ hjx) qr hq (f s.x) _ h0
              by_cases hc : √(∑ i, j i c ^ 2) = 0
              · show |(jᵀ *ᵥ f s.x) c| ≤ _
                rw [column_zero hc, hc, abs_zero, mul_zero, mul_zero]
              · exact (k2 c hc).trans (mul_le_mul_of_nonneg_right h1 (mul_nonneg h0.le (Real.sqrt_nonneg _)))
          · rw [if_neg h1] at h
            have ht := LevenbergMarquardt.trials_sound minPositive largest g f (qr.intoDamped (f s.x)) 100
              (LevenbergMarquardt.rescale g (qr.intoDamped (f s.x)).columnNorms
                (LevenbergMarquardt.prepare minPositive largest g (qr.intoDamped (f s.x)).columnNorms s))
              (real_allFinite _)
            revert ht h
            cases LevenbergMarquardt.trials minPositive largest g f (qr.intoDamped (f s.x)) 100
              (LevenbergMarquardt.rescale g (qr.intoDamped (f s.x)).columnNorms
                (LevenbergMarquardt.prepare minPositive largest g (qr.intoDamped (f s.x)).columnNorms s)) with
            | mk tried o =>
              intro h ht
              cases o with
              | nonFinite => cases h
              | stop s' reason =>
                injection h with h
                have := (ht.2.2.1 s' reason rfl).2.2
                rw [← h] at hr
                exact absurd hr this
              | go s' acc => exact ih s' _ h
  unfold LevenbergMarquardt.minimize at h
  simp only [real_allFinite, Bool.not_true, Bool.false_eq_true, if_false] at h
  exact key _ _ _ h

/-- C80. The same for Gauss-Newton. -/
theorem gauss_newton_gtol (minPositive largest : ℝ) (hl : 0 < largest) (g : GaussNewton ℝ) (hg : 0 ≤ g.gtol)
    (f : (Fin n → ℝ) → Fin m → ℝ) (jacobian : (Fin n → ℝ) → Except MinimizeError (Matrix (Fin m) (Fin n) ℝ))
    (hrange : ∀ x j, jacobian x = .ok j → ∀ c, √(∑ i, j i c ^ 2) * m < √largest)
    (x₀ : Fin n → ℝ) (r : MinimizationReport n ℝ) (h : (g.minimize minPositive largest f jacobian x₀).2 = .ok r)
    (hr : r.termination = .gtol) :
    ∃ j, jacobian r.solution = .ok j
      ∧ (enorm minPositive largest ((List.finRange m).map (f r.solution)) = 0
        ∨ ∀ c, |(jᵀ *ᵥ f r.solution) c| ≤ g.gtol * (enorm minPositive largest ((List.finRange m).map (f r.solution))
            * √(∑ i, j i c ^ 2))) := by
  have key : ∀ (left : ℕ) (x : Fin n → ℝ) (base : ℕ),
      (GaussNewton.loop minPositive largest g f jacobian left x base).2 = .ok r →
      ∃ j, jacobian r.solution = .ok j
      ∧ (enorm minPositive largest ((List.finRange m).map (f r.solution)) = 0
        ∨ ∀ c, |(jᵀ *ᵥ f r.solution) c| ≤ g.gtol * (enorm minPositive largest ((List.finRange m).map (f r.solution))
            * √(∑ i, j i c ^ 2))) := by
    intro left
    induction left with
    | zero => intro s base h; cases h
    | succ left ih =>
      intro x base h
      unfold GaussNewton.loop at h
      dsimp only at h
      cases hjx : jacobian x with
      | error e => rw [hjx] at h; cases h
      | ok j =>
        rw [hjx] at h
        simp only [real_matrixFinite, Bool.not_true, Bool.false_eq_true, if_false] at h
        cases hq : PivotedQr.decompose minPositive largest j with
        | error e => rw [hq] at h; cases h
        | ok qr =>
          rw [hq] at h
          dsimp only at h
          by_cases h0 : arrayNorm minPositive largest (f x) = 0
          · rw [if_pos (by simpa using h0)] at h
            injection h with h
            subst h
            exact ⟨j, hjx, Or.inl h0⟩
          · rw [if_neg (by simpa using h0)] at h
            have hpos : 0 < arrayNorm minPositive largest (f x) :=
              lt_of_le_of_ne (LevenbergMarquardt.arrayNorm_nonneg _ _ _) (Ne.symm h0)
            by_cases h1 : GaussNewton.gradientNorm j (f x) qr.columnNorms (arrayNorm minPositive largest (f x)) ≤ g.gtol
            · rw [if_pos h1] at h
              injection h with h
              subst h
              obtain ⟨hn, -⟩ := decompose_of minPositive largest hl j (hrange _ _ hjx) qr hq
              exact ⟨j, hjx, Or.inr ((gradientNorm_le_iff j (f x) qr.columnNorms hn _ _ hpos hg).1 h1)⟩
            · rw [if_neg h1] at h
              cases hs : qr.solveLeastSquares (f x) with
              | error e => rw [hs] at h; cases h
              | ok step =>
                rw [hs] at h
                dsimp only at h
                revert h
                cases GaussNewton.lineSearch minPositive largest g.backtracking f x step
                  (arrayNorm minPositive largest (f x)) 20 1 with
                | mk tried o =>
                  intro h
                  cases o with
                  | none => cases h
                  | some pair =>
                    obtain ⟨alpha, xNew⟩ := pair
                    dsimp only at h
                    split_ifs at h
                    · injection h with h; rw [← h] at hr; cases hr
                    · injection h with h; rw [← h] at hr; cases hr
                    · exact ih xNew _ h
  unfold GaussNewton.minimize at h
  simp only [real_allFinite, Bool.not_true, Bool.false_eq_true, if_false] at h
  exact key _ _ _ h

/-- A bounded Jacobian. -/
example : ∀ (x : Fin 1 → ℝ) j, (fun _ : Fin 1 → ℝ => (.ok !![1; 2] : Except MinimizeError (Matrix (Fin 2) (Fin 1) ℝ))) x = .ok j →
    ∀ c, √(∑ i, j i c ^ 2) * (2 : ℕ) < √(1000 : ℝ) := by
  intro x j h c
  injection h with h
  subst h
  have h1 : √(∑ i, (!![1; 2] : Matrix (Fin 2) (Fin 1) ℝ) i c ^ 2) ≤ 3 := by
    apply Real.sqrt_le_iff.2
    fin_cases c
    simp [Fin.sum_univ_two]
    norm_num
  have h2 : (10 : ℝ) < √1000 := Real.lt_sqrt_of_sq_lt (by norm_num)
  push_cast
  linarith

/-! ### The damped step -/

theorem lambdaLoop_spec (minPositive largest : ℝ) (hmp : 0 < minPositive) (d : DampedLeastSquares n ℝ) (diag : Fin n → ℝ)
    (delta : ℝ) (left : ℕ) (s : LambdaState n ℝ) (h1 : 0 ≤ s.par) (h2 : 0 ≤ s.parl) :
    0 < (lambdaLoop minPositive largest d diag delta left s).1
    ∧ (lambdaLoop minPositive largest d diag delta left s).2
      = (d.solveWithDiagonal fun j => √(lambdaLoop minPositive largest d diag delta left s).1 * diag j).1 := by
  have hq : ∀ x y : ℝ, qrMax x y = max x y := by
    intro x y
    unfold qrMax
    split_ifs with h
    · exact (max_eq_right h.le).symm
    · exact (max_eq_left (not_lt.1 h)).symm
  induction left generalizing s with
  | zero =>
    unfold lambdaLoop
    dsimp only
    have hp : 0 < (if (s.par == 0) = true then qrMax minPositive (Fns.lit (1 / 1000) * s.paru) else s.par) := by
      by_cases hz : s.par = 0
      · rw [if_pos (by simpa using hz), hq]; exact lt_max_of_lt_left hmp
      · rw [if_neg (by simpa using hz)]; exact lt_of_le_of_ne h1 (Ne.symm hz)
    generalize (if (s.par == 0) = true then qrMax minPositive (Fns.lit (1 / 1000) * s.paru) else s.par) = par at *
    split_ifs <;> exact ⟨hp, rfl⟩
  | succ left ih =>
    unfold lambdaLoop
    dsimp only
    have hp : 0 < (if (s.par == 0) = true then qrMax minPositive (Fns.lit (1 / 1000) * s.paru) else s.par) := by
      by_cases hz : s.par = 0
      · rw [if_pos (by simpa using hz), hq]; exact lt_max_of_lt_left hmp
      · rw [if_neg (by simpa using hz)]; exact lt_of_le_of_ne h1 (Ne.symm hz)
    generalize (if (s.par == 0) = true then qrMax minPositive (Fns.lit (1 / 1000) * s.paru) else s.par) = par at *
    generalize arrayNorm minPositive largest (fun j => diag j * (d.solveWithDiagonal fun j => Fns.sqrt par * diag j).1 j) - delta = be
    by_cases c1 : Fns.abs be ≤ Fns.lit (1 / 10) * delta
    · rw [if_pos c1]; exact ⟨hp, rfl⟩
    rw [if_neg c1]
    by_cases c2 : (s.parl == 0 && decide (be ≤ s.boundaryErr) && decide (s.boundaryErr < 0)) = true
    · rw [if_pos c2]; exact ⟨hp, rfl⟩
    rw [if_neg c2]
    split
    · exact ⟨hp, rfl⟩
    · have hparl : 0 ≤ (if 0 < be then qrMax s.parl par else s.parl) := by
        split_ifs
        · rw [hq]; exact le_max_of_le_left h2
        · exact h2
      refine ih _ ?_ hparl
      dsimp only
      rw [hq]
      exact le_max_of_le_left hparl

/-- C80. The step the trust-region search returns solves the damped normal equations `(Jᵀ J + λ D²) p = Jᵀ r` with the
damping `λ ≥ 0` it returns beside it; an undamped step is inside the region, within a tenth. -/
theorem trust_region_step (minPositive largest : ℝ) (hmp : 0 < minPositive) (hl : 0 < largest) (A : Matrix (Fin m) (Fin n) ℝ)
    (hA : ∀ c, √(∑ i, A i c ^ 2) * m < √largest) (q : PivotedQr m n ℝ)
    (hq : PivotedQr.decompose minPositive largest A = .ok q) (b : Fin m → ℝ) (diag : Fin n → ℝ) (hd : ∀ c, 0 < diag c)
    (delta lambda₀ : ℝ) (hdelta : 0 < delta) (hlam : 0 ≤ lambda₀) :
    let result := determineLambda minPositive largest (q.intoDamped b) diag delta lambda₀
    0 ≤ result.1
    ∧ (∀ c, (Aᵀ *ᵥ (A *ᵥ result.2)) c + result.1 * diag c ^ 2 * result.2 c = (Aᵀ *ᵥ b) c)
    ∧ (result.1 = 0 →
      enorm minPositive largest ((List.finRange n).map fun j => diag j * result.2 j) ≤ delta + delta / 10) := by
  intro result
  have hres : result = determineLambda minPositive largest (q.intoDamped b) diag delta lambda₀ := rfl
  unfold determineLambda at hres
  dsimp only at hres
  have hten : (Fns.lit (1 / 10) : ℝ) = 1 / 10 := by simp [Fns.lit]
  by_cases hin : arrayNorm minPositive largest (fun j => diag j * (q.intoDamped b).solveWithZeroDiagonal.1 j) - delta
      ≤ Fns.lit (1 / 10) * delta
  · rw [if_pos hin] at hres
    rw [hres]
    obtain ⟨h1, -⟩ := undamped_solve_correct minPositive largest hl A hA q hq b
    refine ⟨le_rfl, fun c => ?_, fun _ => ?_⟩
    · dsimp only
      rw [zero_mul, zero_mul, add_zero]
      exact congrFun h1 c
    · rw [hten] at hin
      have hin' : enorm minPositive largest ((List.finRange n).map fun j => diag j * (q.intoDamped b).solveWithZeroDiagonal.1 j) - delta
        ≤ 1 / 10 * delta := hin
      dsimp only
      linarith
  · rw [if_neg hin] at hres
    have hq1 : ∀ x y : ℝ, qrMax x y = max x y := by
      intro x y
      unfold qrMax
      split_ifs with h
      · exact (max_eq_right h.le).symm
      · exact (max_eq_left (not_lt.1 h)).symm
    have hq2 : ∀ x y : ℝ, 0 ≤ x → 0 ≤ y → 0 ≤ qrMin x y := by
      intro x y hx hy
      unfold qrMin
      split_ifs
      · exact hy
      · exact hx
    have hbe : 0 ≤ arrayNorm minPositive largest (fun j => diag j * (q.intoDamped b).solveWithZeroDiagonal.1 j) - delta := by
      rw [hten] at hin
      have := not_le.1 hin
      linarith [mul_pos (show (0 : ℝ) < 1 / 10 by norm_num) hdelta]
    have hnn := fun (k : ℕ) (v : Fin k → ℝ) => LevenbergMarquardt.arrayNorm_nonneg minPositive largest v
    have hparl : 0 ≤ lambdaLower minPositive largest (q.intoDamped b) diag (q.intoDamped b).solveWithZeroDiagonal.1 delta
        (arrayNorm minPositive largest (fun j => diag j * (q.intoDamped b).solveWithZeroDiagonal.1 j))
        (arrayNorm minPositive largest (fun j => diag j * (q.intoDamped b).solveWithZeroDiagonal.1 j) - delta) := by
      unfold lambdaLower
      split_ifs
      · exact div_nonneg (div_nonneg (div_nonneg hbe hdelta.le) (hnn _ _)) (hnn _ _)
      · exact le_rfl
    have hg : 0 ≤ lambdaGradient minPositive largest (q.intoDamped b) diag := hnn _ _
    generalize lambdaGradient minPositive largest (q.intoDamped b) diag = gnorm at hres hg
    generalize lambdaLower minPositive largest (q.intoDamped b) diag _ delta _ _ = parl at hres hparl
    have hdx := hnn _ fun j => diag j * (q.intoDamped b).solveWithZeroDiagonal.1 j
    generalize arrayNorm minPositive largest (fun j => diag j * (q.intoDamped b).solveWithZeroDiagonal.1 j) = dx at hres hdx
    have hparu : 0 ≤ (if (gnorm / delta == 0) = true then minPositive / qrMin delta (Fns.lit (1 / 10)) else gnorm / delta) := by
      split_ifs
      · exact div_nonneg hmp.le (hq2 _ _ hdelta.le (by rw [hten]; norm_num))
      · exact div_nonneg hg hdelta.le
    generalize (if (gnorm / delta == 0) = true then minPositive / qrMin delta (Fns.lit (1 / 10)) else gnorm / delta) = paru at hres hparu
    have hpar : 0 ≤ (if (qrMin (qrMax lambda₀ parl) paru == 0) = true then gnorm / dx else qrMin (qrMax lambda₀ parl) paru) := by
      split_ifs
      · exact div_nonneg hg hdx
      · exact hq2 _ _ (by rw [hq1]; exact le_max_of_le_left hlam) hparu
    generalize (if (qrMin (qrMax lambda₀ parl) paru == 0) = true then gnorm / dx else qrMin (qrMax lambda₀ parl) paru) = par
      at hres hpar
    obtain ⟨h1, h2⟩ := lambdaLoop_spec minPositive largest hmp (q.intoDamped b) diag delta 9
      ⟨par, parl, paru, dx - delta, (q.intoDamped b).solveWithZeroDiagonal.1⟩ hpar hparl
    rw [← hres] at h1 h2
    have hinj : ∀ v, A *ᵥ v = 0 → (∀ c, (√result.1 * diag c) * v c = 0) → v = 0 := by
      intro v _ hv
      ext c
      have := hv c
      have hne : √result.1 * diag c ≠ 0 := (mul_pos (Real.sqrt_pos.2 h1) (hd c)).ne'
      exact (mul_eq_zero.1 this).resolve_left hne
    obtain ⟨h3, -⟩ := damped_solve_correct minPositive largest hl A hA q hq b (fun j => √result.1 * diag j) hinj
    rw [← h2] at h3
    refine ⟨h1.le, fun c => ?_, fun h => absurd h h1.ne'⟩
    rw [← h3 c, mul_pow, Real.sq_sqrt h1.le]

/-- A diagonal, a radius and a starting damping. -/
example : (∀ c, 0 < (![1, 2] : Fin 2 → ℝ) c) ∧ (0 : ℝ) < 100 ∧ (0 : ℝ) ≤ 0 := by
  refine ⟨fun c => ?_, by norm_num, le_rfl⟩
  fin_cases c <;> simp

/-- C80. The predicted reduction is exact for the linear model: when the step solves the damped normal equations, it is
the share by which `‖r − J p‖²` falls short of `‖r‖²`, and it is never negative. -/
theorem predicted_reduction_exact (A : Matrix (Fin m) (Fin n) ℝ) (b : Fin m → ℝ) (diag p : Fin n → ℝ) (par : ℝ) (hpar : 0 ≤ par)
    (hp : ∀ c, (Aᵀ *ᵥ (A *ᵥ p)) c + par * diag c ^ 2 * p c = (Aᵀ *ᵥ b) c) (hb : b ⬝ᵥ b ≠ 0) (fnorm1 : ℝ) :
    (LevenbergMarquardt.reductions √(b ⬝ᵥ b) fnorm1 √((A *ᵥ p) ⬝ᵥ (A *ᵥ p)) par √(∑ c, (diag c * p c) ^ 2)).2.1
      = 1 - ((b - A *ᵥ p) ⬝ᵥ (b - A *ᵥ p)) / (b ⬝ᵥ b)
    ∧ 0 ≤ 1 - ((b - A *ᵥ p) ⬝ᵥ (b - A *ᵥ p)) / (b ⬝ᵥ b) := by
  have hnn : ∀ v : Fin m → ℝ, 0 ≤ v ⬝ᵥ v := fun v => Finset.sum_nonneg fun i _ => mul_self_nonneg _
  have hs : 0 ≤ ∑ c, (diag c * p c) ^ 2 := Finset.sum_nonneg fun c _ => sq_nonneg _
  have hcross : (A *ᵥ p) ⬝ᵥ b = (A *ᵥ p) ⬝ᵥ (A *ᵥ p) + par * ∑ c, (diag c * p c) ^ 2 := by
    have e1 : (A *ᵥ p) ⬝ᵥ b = ∑ c, (Aᵀ *ᵥ b) c * p c := by
      rw [dotProduct_comm, dotProduct_mulVec, ← mulVec_transpose]; rfl
    have e2 : (A *ᵥ p) ⬝ᵥ (A *ᵥ p) = ∑ c, (Aᵀ *ᵥ (A *ᵥ p)) c * p c := by
      rw [dotProduct_mulVec, ← mulVec_transpose]; rfl
    rw [e1, e2, Finset.mul_sum, ← Finset.sum_add_distrib]
    refine Finset.sum_congr rfl fun c _ => ?_
    rw [← hp c]
    ring
  have hexp : (b - A *ᵥ p) ⬝ᵥ (b - A *ᵥ p) = b ⬝ᵥ b - ((A *ᵥ p) ⬝ᵥ (A *ᵥ p) + 2 * (par * ∑ c, (diag c * p c) ^ 2)) := by
    rw [sub_dotProduct, dotProduct_sub, dotProduct_sub, dotProduct_comm b (A *ᵥ p), hcross]
    ring
  have hmain : (LevenbergMarquardt.reductions √(b ⬝ᵥ b) fnorm1 √((A *ᵥ p) ⬝ᵥ (A *ᵥ p)) par √(∑ c, (diag c * p c) ^ 2)).2.1
      = ((A *ᵥ p) ⬝ᵥ (A *ᵥ p) + 2 * (par * ∑ c, (diag c * p c) ^ 2)) / (b ⬝ᵥ b) := by
    unfold LevenbergMarquardt.reductions
    simp only [real_sqrt]
    have h1 := Real.mul_self_sqrt (hnn b)
    have h2 := Real.mul_self_sqrt (hnn (A *ᵥ p))
    have h3 := Real.mul_self_sqrt hpar
    have h4 := Real.mul_self_sqrt hs
    rw [div_mul_div_comm, div_mul_div_comm, h1, h2, mul_mul_mul_comm, h3, h4]
    push_cast
    field_simp
  rw [hmain, hexp]
  refine ⟨by field_simp; ring, ?_⟩
  rw [sub_div, div_self hb]
  have : 0 ≤ ((A *ᵥ p) ⬝ᵥ (A *ᵥ p) + 2 * (par * ∑ c, (diag c * p c) ^ 2)) / (b ⬝ᵥ b) :=
    div_nonneg (add_nonneg (hnn _) (by positivity)) (hnn _)
  linarith

/-! ### Linear problems -/

/-- C80. Gauss-Newton on a linear problem whose matrix is not numerically singular: at most two evaluations, with or
without backtracking, and the answer is an exact least-squares solution, unless the starting point already passes the
gradient test. -/
theorem gauss_newton_linear (minPositive largest : ℝ) (hl : 0 < largest) (g : GaussNewton ℝ) (hg : 0 ≤ g.gtol)
    (hp : 2 ≤ g.patience) (A : Matrix (Fin m) (Fin n) ℝ) (hA : ∀ c, √(∑ i, A i c ^ 2) * m < √largest)
    (q : PivotedQr m n ℝ) (hq : PivotedQr.decompose minPositive largest A = .ok q)
    (hR : ∀ r : Fin n, 1 / 2 ^ 52 * (max m n : ℕ) * |q.triangular ⟨0, r.pos⟩ ⟨0, r.pos⟩| < |q.triangular r r|)
    (b : Fin m → ℝ) (x₀ : Fin n → ℝ) (hx : √((A *ᵥ x₀ - b) ⬝ᵥ (A *ᵥ x₀ - b)) * m < √largest) :
    ∃ r, (g.minimize minPositive largest (fun x => A *ᵥ x - b) (fun _ => .ok A) x₀).2 = .ok r
      ∧ (g.minimize minPositive largest (fun x => A *ᵥ x - b) (fun _ => .ok A) x₀).1.length ≤ 2
      ∧ ((r.solution = x₀ ∧ ∀ c, |(Aᵀ *ᵥ (A *ᵥ x₀ - b)) c|
            ≤ g.gtol * (√((A *ᵥ x₀ - b) ⬝ᵥ (A *ᵥ x₀ - b)) * √(∑ i, A i c ^ 2)))
        ∨ ∀ y, (A *ᵥ r.solution - b) ⬝ᵥ (A *ᵥ r.solution - b) ≤ (A *ᵥ y - b) ⬝ᵥ (A *ᵥ y - b)) := by
  obtain ⟨hn, -⟩ := decompose_of minPositive largest hl A hA q hq
  have hnn : ∀ v : Fin m → ℝ, 0 ≤ v ⬝ᵥ v := fun v => Finset.sum_nonneg fun i _ => mul_self_nonneg _
  have hleast : ∀ z, Aᵀ *ᵥ (A *ᵥ z) = Aᵀ *ᵥ b → ∀ y, (A *ᵥ z - b) ⬝ᵥ (A *ᵥ z - b) ≤ (A *ᵥ y - b) ⬝ᵥ (A *ᵥ y - b) := by
    intro z hz y
    rw [normal_least A b z y hz]
    linarith [hnn (A *ᵥ (y - z))]
  have hpass : ∀ (left : ℕ) (x : Fin n → ℝ) (k : ℕ), Aᵀ *ᵥ (A *ᵥ x - b) = 0 →
      ∃ r, GaussNewton.loop minPositive largest g (fun x => A *ᵥ x - b) (fun _ => .ok A) (left + 1) x k = ([], .ok r)
        ∧ r.solution = x := by
    intro left x k hz
    unfold GaussNewton.loop
    simp only [real_matrixFinite, Bool.not_true, Bool.false_eq_true, if_false, hq]
    by_cases h0 : arrayNorm minPositive largest (A *ᵥ x - b) = 0
    · rw [if_pos (by simpa using h0)]
      exact ⟨_, rfl, rfl⟩
    · rw [if_neg (by simpa using h0), if_pos]
      · exact ⟨_, rfl, rfl⟩
      · rw [gradientNorm_le_iff A _ _ hn _ _
          (lt_of_le_of_ne (LevenbergMarquardt.arrayNorm_nonneg _ _ _) (Ne.symm h0)) hg]
        intro c
        rw [hz, Pi.zero_apply, abs_zero]
        exact mul_nonneg hg (mul_nonneg (LevenbergMarquardt.arrayNorm_nonneg _ _ _) (Real.sqrt_nonneg _))
  obtain ⟨p, hp'⟩ : ∃ p, g.patience = p + 2 := ⟨g.patience - 2, by omega⟩
  unfold GaussNewton.minimize
  simp only [real_allFinite, Bool.not_true, Bool.false_eq_true, if_false, hp']
  rw [show p + 2 = (p + 1) + 1 from rfl]
  unfold GaussNewton.loop
  simp only [real_matrixFinite, Bool.not_true, Bool.false_eq_true, if_false, hq]
  have hnorm := arrayNorm_eq minPositive largest _ hx
  by_cases h0 : arrayNorm minPositive largest (A *ᵥ x₀ - b) = 0
  · rw [if_pos (by simpa using h0)]
    refine ⟨_, rfl, by simp, Or.inl ⟨rfl, fun c => ?_⟩⟩
    rw [hnorm] at h0
    have hz : A *ᵥ x₀ - b = 0 := dotProduct_self_zero ((Real.sqrt_eq_zero (hnn _)).1 h0).le
    rw [hz]
    simp
  rw [if_neg (by simpa using h0)]
  have hpos := lt_of_le_of_ne (LevenbergMarquardt.arrayNorm_nonneg minPositive largest (A *ᵥ x₀ - b)) (Ne.symm h0)
  by_cases h1 : GaussNewton.gradientNorm A (A *ᵥ x₀ - b) q.columnNorms (arrayNorm minPositive largest (A *ᵥ x₀ - b)) ≤ g.gtol
  · rw [if_pos h1]
    refine ⟨_, rfl, by simp, Or.inl ⟨rfl, ?_⟩⟩
    rw [gradientNorm_le_iff A _ _ hn _ _ hpos hg, hnorm] at h1
    exact h1
  rw [if_neg h1]
  obtain ⟨hs1, hs2⟩ := least_squares_correct minPositive largest hl A hA q hq (A *ᵥ x₀ - b)
  cases hs : q.solveLeastSquares (A *ᵥ x₀ - b) with
  | error e =>
    obtain ⟨-, r, hr⟩ := hs1 e hs
    exact absurd (hR r) (not_lt.2 hr)
  | ok step =>
    obtain ⟨-, hnormal, -⟩ := hs2 step hs
    dsimp only
    have hx1 : (fun k => x₀ k - 1 * step k) = x₀ - step := by ext k; simp
    have hz1 : Aᵀ *ᵥ (A *ᵥ (x₀ - step) - b) = 0 := by
      rw [mulVec_sub A, mulVec_sub, mulVec_sub, hnormal, mulVec_sub]; abel
    have hz2 : Aᵀ *ᵥ (A *ᵥ (x₀ - step)) = Aᵀ *ᵥ b := by
      rw [mulVec_sub] at hz1; exact sub_eq_zero.1 hz1
    have hdrop := normal_least A b (x₀ - step) x₀ hz2
    rw [show x₀ - (x₀ - step) = step by abel] at hdrop
    have hstep : 0 < (A *ᵥ step) ⬝ᵥ (A *ᵥ step) := by
      rcases (hnn (A *ᵥ step)).eq_or_lt with h | h
      · exfalso
        apply h1
        rw [gradientNorm_le_iff A _ _ hn _ _ hpos hg]
        intro c
        rw [← hnormal, dotProduct_self_zero h.symm.le, mulVec_zero, Pi.zero_apply, abs_zero]
        exact mul_nonneg hg (mul_nonneg hpos.le (Real.sqrt_nonneg _))
      · exact h
    have hlt : √((A *ᵥ (x₀ - step) - b) ⬝ᵥ (A *ᵥ (x₀ - step) - b)) < √((A *ᵥ x₀ - b) ⬝ᵥ (A *ᵥ x₀ - b)) :=
      Real.sqrt_lt_sqrt (hnn _) (by linarith)
    have hls : GaussNewton.lineSearch minPositive largest g.backtracking (fun x => A *ᵥ x - b) x₀ step
        (arrayNorm minPositive largest (A *ᵥ x₀ - b)) 20 1 = ([x₀ - step], some (1, x₀ - step)) := by
      unfold GaussNewton.lineSearch
      simp only [hx1, real_allFinite]
      cases g.backtracking with
      | false => rfl
      | true =>
        rw [arrayNorm_eq minPositive largest (A *ᵥ (x₀ - step) - b)
          (lt_of_le_of_lt (mul_le_mul_of_nonneg_right hlt.le (Nat.cast_nonneg m)) hx), hnorm]
        simp only [Bool.not_true, Bool.false_eq_true, if_false, Bool.true_and]
        rw [if_pos (decide_eq_true hlt)]
    rw [hls]
    dsimp only
    split_ifs
    · exact ⟨_, rfl, by simp, Or.inr (hleast _ hz2)⟩
    · exact ⟨_, rfl, by simp, Or.inr (hleast _ hz2)⟩
    · obtain ⟨r, hr, hrs⟩ := hpass p (x₀ - step) (1 + [x₀ - step].length) hz1
      rw [hr]
      exact ⟨r, rfl, by simp, Or.inr (by rw [hrs]; exact hleast _ hz2)⟩

/-- Fitting one coefficient to two readings from any start. -/
example : let A : Matrix (Fin 2) (Fin 1) ℝ := !![1; 2]
    (∀ c, √(∑ i, A i c ^ 2) * (2 : ℕ) < √(1000 : ℝ))
    ∧ ∃ q, PivotedQr.decompose 0 1000 A = .ok q
      ∧ ∀ r : Fin 1, 1 / 2 ^ 52 * ((max 2 1 : ℕ) : ℝ) * |q.triangular ⟨0, r.pos⟩ ⟨0, r.pos⟩| < |q.triangular r r| := by
  intro A
  have hA : ∀ c, √(∑ i, A i c ^ 2) * (2 : ℕ) < √(1000 : ℝ) := by
    intro c
    have h1 : √(∑ i, A i c ^ 2) ≤ 3 := by
      apply Real.sqrt_le_iff.2
      fin_cases c
      simp [A, Fin.sum_univ_two]
      norm_num
    have h2 : (10 : ℝ) < √1000 := Real.lt_sqrt_of_sq_lt (by norm_num)
    push_cast
    linarith
  refine ⟨hA, ?_⟩
  obtain ⟨q, hq, -, hfac, -⟩ := (qr_factorises 0 1000 (by norm_num) A hA).2 (by norm_num)
  refine ⟨q, hq, fun r => ?_⟩
  have hfac := congrFun (congrFun hfac 0) 0
  rw [mul_apply, Fin.sum_univ_one, submatrix_apply, Subsingleton.elim (q.permutation 0) 0] at hfac
  have hne : q.triangular 0 0 ≠ 0 := fun h => by rw [h] at hfac; simp [A] at hfac
  have hpos := abs_pos.2 hne
  rw [Subsingleton.elim r 0]
  show _ < |q.triangular 0 0|
  rw [show (⟨0, (0 : Fin 1).pos⟩ : Fin 1) = 0 from rfl]
  norm_num
  linarith

/-! ### Stopping where nothing has settled -/

/-- C80 (finding). "The sum of squared residuals stopped decreasing" may mean it merely came back: on
`f(x) = 5x/4 − x³/4`, started at 1, the default solver reports success at −1 after one step.  The residual there is as
large as at the start, its gradient is not zero, and the zero of `f` is at 0. -/
theorem gauss_newton_stalls (minPositive largest : ℝ) (hl : 1000000 ≤ largest) :
    let f : (Fin 1 → ℝ) → Fin 1 → ℝ := fun x _ => 5 / 4 * x 0 - x 0 ^ 3 / 4
    let jacobian : (Fin 1 → ℝ) → Except MinimizeError (Matrix (Fin 1) (Fin 1) ℝ) :=
      fun x => .ok fun _ _ => 5 / 4 - 3 / 4 * x 0 ^ 2
    (∀ x : ℝ, HasDerivAt (fun t => f (fun _ => t) 0) (5 / 4 - 3 / 4 * x ^ 2) x)
    ∧ (∃ r, (GaussNewton.default.minimize minPositive largest f jacobian fun _ => 1).2 = .ok r
      ∧ r.termination = .ftol ∧ r.solution = fun _ => -1)
    ∧ f (fun _ => 1) 0 = 1 ∧ f (fun _ => -1) 0 = -1 ∧ f (fun _ => 0) 0 = 0
    ∧ HasDerivAt (fun t => f (fun _ => t) 0 ^ 2) (-1) (-1) := by
  intro f jacobian
  have hd : ∀ x : ℝ, HasDerivAt (fun t => f (fun _ => t) 0) (5 / 4 - 3 / 4 * x ^ 2) x := by
    intro x
    have h : HasDerivAt (fun t : ℝ => 5 / 4 * t - t ^ 3 / 4) (5 / 4 * 1 - (3 : ℕ) * x ^ (3 - 1) * 1 / 4) x :=
      HasDerivAt.sub ((hasDerivAt_id x).const_mul (5 / 4)) (((hasDerivAt_id x).pow 3).div_const 4)
    refine HasDerivAt.congr_deriv h ?_
    push_cast
    ring
  have hm1 : f (fun _ => -1) 0 = -1 := by simp only [f]; norm_num
  have h1 : f (fun _ => 1) 0 = 1 := by simp only [f]; norm_num
  have h0 : f (fun _ => 0) 0 = 0 := by simp only [f]; norm_num
  refine ⟨hd, ?_, h1, hm1, h0, ?_⟩
  swap
  · have h := (hd (-1)).pow 2
    refine h.congr_deriv ?_
    rw [hm1]
    norm_num
  have hl0 : 0 < largest := by linarith
  have hsq : (1000 : ℝ) ≤ √largest := Real.le_sqrt_of_sq_le (by linarith)
  have hnorm : ∀ v : Fin 1 → ℝ, |v 0| < 1000 → arrayNorm minPositive largest v = |v 0| := by
    intro v hv
    have e : √(v ⬝ᵥ v) = |v 0| := by simp [dotProduct, Real.sqrt_mul_self_eq_abs]
    rw [arrayNorm_eq minPositive largest v (by rw [e]; push_cast; linarith), e]
  obtain ⟨J, hJ⟩ : ∃ J : Matrix (Fin 1) (Fin 1) ℝ, ∀ i c, J i c = 1 / 2 := ⟨fun _ _ => 1 / 2, fun _ _ => rfl⟩
  have hrange : ∀ c : Fin 1, √(∑ i : Fin 1, J i c ^ 2) * (1 : ℕ) < √largest := by
    intro c
    simp only [hJ, Finset.univ_unique, Finset.sum_const, Finset.card_singleton, one_smul, Real.sqrt_sq_eq_abs]
    rw [abs_of_pos (by norm_num)]
    push_cast
    linarith
  have hj : jacobian (fun _ => 1) = .ok J := by
    simp only [jacobian]
    congr 1
    ext i c
    rw [hJ]
    norm_num
  have hf1 : f (fun _ => 1) = fun _ => 1 := by ext i; rw [Subsingleton.elim i 0]; exact h1
  have hfm : f (fun _ => -1) = fun _ => -1 := by ext i; rw [Subsingleton.elim i 0]; exact hm1
  unfold GaussNewton.minimize
  simp only [real_allFinite, Bool.not_true, Bool.false_eq_true, if_false]
  rw [show (GaussNewton.default : GaussNewton ℝ).patience = 99 + 1 from rfl]
  unfold GaussNewton.loop
  simp only [hj, real_matrixFinite, Bool.not_true, Bool.false_eq_true, if_false]
  cases hq : PivotedQr.decompose minPositive largest J with
  | error e => simp [PivotedQr.decompose] at hq
  | ok q =>
    obtain ⟨hn, -⟩ := decompose_of minPositive largest hl0 _ hrange q hq
    dsimp only
    have hN1 : arrayNorm minPositive largest (f fun _ => 1) = 1 := by rw [hnorm _ (by rw [h1]; norm_num), h1, abs_one]
    have hNm : arrayNorm minPositive largest (f fun _ => -1) = 1 := by
      rw [hnorm _ (by rw [hm1]; norm_num), hm1, abs_neg, abs_one]
    rw [if_neg (by rw [hN1]; norm_num)]
    have htol : (GaussNewton.default : GaussNewton ℝ).gtol = 30 * (1 / 2 ^ 52) := by
      simp [GaussNewton.default, Fns.epsilon]
    have hxtol : (GaussNewton.default : GaussNewton ℝ).xtol = 30 * (1 / 2 ^ 52) := by
      simp [GaussNewton.default, Fns.epsilon]
    have hftol : (GaussNewton.default : GaussNewton ℝ).ftol = 30 * (1 / 2 ^ 52) := by
      simp [GaussNewton.default, Fns.epsilon]
    rw [if_neg]
    swap
    · rw [hN1, gradientNorm_le_iff _ _ _ hn _ _ one_pos (by rw [htol]; norm_num), htol, hf1]
      intro h
      have := h 0
      simp [mulVec, dotProduct, hJ] at this
      norm_num at this
    obtain ⟨hs1, hs2⟩ := least_squares_correct minPositive largest hl0 _ hrange q hq (f fun _ => 1)
    cases hs : q.solveLeastSquares (f fun _ => 1) with
    | error e =>
      exfalso
      obtain ⟨-, r, hr⟩ := hs1 e hs
      obtain ⟨q', hq', -, hfac, -⟩ := (qr_factorises minPositive largest hl0 J hrange).2 le_rfl
      rw [hq] at hq'
      injection hq' with hq'
      subst hq'
      have hfac := congrFun (congrFun hfac 0) 0
      rw [mul_apply, Fin.sum_univ_one, submatrix_apply, hJ] at hfac
      rw [Subsingleton.elim r 0] at hr
      have hne : q.triangular 0 0 ≠ 0 := fun h => by rw [h] at hfac; norm_num at hfac
      have hpos := abs_pos.2 hne
      have hr' : |q.triangular 0 0| ≤ 1 / 2 ^ 52 * ((max 1 1 : ℕ) : ℝ) * |q.triangular 0 0| := hr
      norm_num at hr'
      linarith
    | ok step =>
      have hstep : step = fun _ => 2 := by
        have := congrFun (hs2 step hs).2.1 0
        simp [mulVec, dotProduct, hf1, hJ] at this
        ext i
        rw [Subsingleton.elim i 0]
        linarith
      subst hstep
      have hx1 : (fun k : Fin 1 => (1 : ℝ) - 1 * 2) = fun _ => -1 := by ext k; norm_num
      have hls : GaussNewton.lineSearch minPositive largest (GaussNewton.default : GaussNewton ℝ).backtracking f (fun _ => 1) (fun _ => 2)
          (arrayNorm minPositive largest (f fun _ => 1)) 20 1 = ([fun _ => -1], some (1, fun _ => -1)) := by
        unfold GaussNewton.lineSearch
        simp only [hx1, real_allFinite]
        rfl
      dsimp only
      rw [hls]
      dsimp only
      rw [hN1, hNm, if_neg, if_pos]
      · exact ⟨_, rfl, rfl, rfl⟩
      · rw [hftol, real_abs, sub_self, abs_zero]; norm_num
      · rw [hnorm _ (by norm_num), hnorm _ (by norm_num), hxtol]
        norm_num

end Multicalc
