import Verif.Model.Unscented
import Verif.Props.Kalman
import Mathlib.Algebra.Order.Chebyshev

/-!
# The unscented Kalman filter (C60), and its refusal of bad measurements (C59)
-/

namespace Multicalc

open Matrix

variable {n m k r c : ℕ}

/-! ### The weighted sums -/

theorem sigmaMean_apply (w s : ℝ) (y : Fin r → ℝ) (p q : Matrix (Fin r) (Fin c) ℝ) (i : Fin r) :
    sigmaMean w s y p q i = w * y i + s * ∑ j, (p i j + q i j) := by
  have key : ∀ (l : List (Fin c)) (a : Fin r → ℝ),
      l.foldl (fun mean column => vadd mean (vscale (vadd (columnOf p column) (columnOf q column)) s)) a i
        = a i + s * (l.map fun j => p i j + q i j).sum := by
    intro l
    induction l with
    | nil => simp
    | cons x l ih =>
      intro a
      rw [List.foldl_cons, ih, List.map_cons, List.sum_cons]
      simp only [vadd, vscale, columnOf]
      ring
  unfold sigmaMean
  rw [key, ← List.sum_ofFn, List.ofFn_eq_map]
  simp only [vscale]
  ring

theorem sigmaSpread_apply (A : Matrix (Fin r) (Fin c) ℝ) (w s : ℝ) (y : Fin r → ℝ) (p q : Matrix (Fin r) (Fin k) ℝ)
    (a : Fin r → ℝ) (y' : Fin c → ℝ) (p' q' : Matrix (Fin c) (Fin k) ℝ) (a' : Fin c → ℝ) (i : Fin r) (j : Fin c) :
    sigmaSpread A w s y p q a y' p' q' a' i j = A i j + w * (y i - a i) * (y' j - a' j)
      + s * ∑ l, ((p i l - a i) * (p' j l - a' j) + (q i l - a i) * (q' j l - a' j)) := by
  have key : ∀ (l : List (Fin k)) (B : Matrix (Fin r) (Fin c) ℝ),
      l.foldl (fun acc column => addWeightedOuterProduct
        (addWeightedOuterProduct acc s (vsub (columnOf p column) a) (vsub (columnOf p' column) a'))
        s (vsub (columnOf q column) a) (vsub (columnOf q' column) a')) B i j
        = B i j + s * (l.map fun x => (p i x - a i) * (p' j x - a' j) + (q i x - a i) * (q' j x - a' j)).sum := by
    intro l
    induction l with
    | nil => simp
    | cons x l ih =>
      intro B
      rw [List.foldl_cons, ih, List.map_cons, List.sum_cons]
      simp only [addWeightedOuterProduct, madd, vsub, columnOf]
      ring
  unfold sigmaSpread
  rw [key, ← List.sum_ofFn, List.ofFn_eq_map]
  simp only [addWeightedOuterProduct, madd, vsub]

/-- The spread of two families of points, in terms of how far they sit from their centre points. -/
noncomputable def pointSpread (s g : ℝ) (D E : Matrix (Fin r) (Fin k) ℝ) (μ : Fin r → ℝ)
    (D' E' : Matrix (Fin c) (Fin k) ℝ) (ν : Fin c → ℝ) : Matrix (Fin r) (Fin c) ℝ :=
  s • (D * D'ᵀ + E * E'ᵀ) + g • vecMulVec μ ν

/-- The offsets of a family of points from its centre. -/
def offsets (p : Matrix (Fin r) (Fin k) ℝ) (y : Fin r → ℝ) : Matrix (Fin r) (Fin k) ℝ := fun i j => p i j - y i

/-- The sum of the offsets, weighted: how far the average sits from the centre. -/
def drift (s : ℝ) (D E : Matrix (Fin r) (Fin k) ℝ) : Fin r → ℝ := fun i => s * ∑ j, (D i j + E i j)

theorem sigmaMean_drift {w s : ℝ} (hw : w + 2 * c * s = 1) (y : Fin r → ℝ) (p q : Matrix (Fin r) (Fin c) ℝ) :
    sigmaMean w s y p q = y + drift s (offsets p y) (offsets q y) := by
  ext i
  rw [sigmaMean_apply, Pi.add_apply, drift]
  simp only [offsets]
  have : ∑ j, (p i j - y i + (q i j - y i)) = ∑ j, (p i j + q i j) - 2 * c * y i := by
    rw [show (fun j => p i j - y i + (q i j - y i)) = fun j => (p i j + q i j) - 2 * y i by
      funext j; ring, Finset.sum_sub_distrib, Finset.sum_const, Finset.card_univ, Fintype.card_fin, nsmul_eq_mul]
    ring
  rw [this]
  linear_combination y i * hw

theorem sigmaSpread_drift {w wc s g : ℝ} (hw : w + 2 * k * s = 1) (hg : wc = w + 1 + g) (A : Matrix (Fin r) (Fin c) ℝ)
    (y : Fin r → ℝ) (p q : Matrix (Fin r) (Fin k) ℝ) (y' : Fin c → ℝ) (p' q' : Matrix (Fin c) (Fin k) ℝ) :
    sigmaSpread A wc s y p q (sigmaMean w s y p q) y' p' q' (sigmaMean w s y' p' q')
      = A + pointSpread s g (offsets p y) (offsets q y) (drift s (offsets p y) (offsets q y))
          (offsets p' y') (offsets q' y') (drift s (offsets p' y') (offsets q' y')) := by
  ext i j
  rw [sigmaSpread_apply, sigmaMean_drift hw, sigmaMean_drift hw]
  simp only [pointSpread, Matrix.add_apply, Matrix.smul_apply, smul_eq_mul, Matrix.mul_apply, transpose_apply,
    vecMulVec_apply, Pi.add_apply]
  rw [← Finset.sum_add_distrib]
  generalize hD : offsets p y = D
  generalize hE : offsets q y = E
  generalize hD' : offsets p' y' = D'
  generalize hE' : offsets q' y' = E'
  have e1 : ∀ l, p i l = D i l + y i := fun l => by rw [← hD]; simp [offsets]
  have e2 : ∀ l, q i l = E i l + y i := fun l => by rw [← hE]; simp [offsets]
  have e3 : ∀ l, p' j l = D' j l + y' j := fun l => by rw [← hD']; simp [offsets]
  have e4 : ∀ l, q' j l = E' j l + y' j := fun l => by rw [← hE']; simp [offsets]
  simp only [e1, e2, e3, e4]
  generalize hμ : drift s D E i = μ
  generalize hν : drift s D' E' j = ν
  simp only [drift] at hμ hν
  have : ∑ l, ((D i l + y i - (y i + μ)) * (D' j l + y' j - (y' j + ν))
        + (E i l + y i - (y i + μ)) * (E' j l + y' j - (y' j + ν)))
      = ∑ l, (D i l * D' j l + E i l * E' j l) - μ * ∑ l, (D' j l + E' j l) - ν * ∑ l, (D i l + E i l)
        + 2 * k * (μ * ν) := by
    have h0 : (2 * (k : ℝ) * (μ * ν)) = ∑ _l : Fin k, 2 * (μ * ν) := by
      rw [Finset.sum_const, Finset.card_univ, Fintype.card_fin, nsmul_eq_mul]; ring
    rw [h0, Finset.mul_sum, Finset.mul_sum, ← Finset.sum_sub_distrib, ← Finset.sum_sub_distrib,
      ← Finset.sum_add_distrib]
    exact Finset.sum_congr rfl fun l _ => by ring
  rw [this, hg]
  linear_combination (-μ) * hν - ν * hμ + μ * ν * hw

/-- The quadratic form of the joint spread of two families is a weighted sum of squares. -/
theorem pointSpread_joint (s g : ℝ) (D E : Matrix (Fin r) (Fin k) ℝ) (D' E' : Matrix (Fin c) (Fin k) ℝ)
    (u : Fin r → ℝ) (v : Fin c → ℝ) :
    ∃ a b : Fin k → ℝ,
      u ⬝ᵥ pointSpread s g D E (drift s D E) D E (drift s D E) *ᵥ u
        + 2 * (u ⬝ᵥ pointSpread s g D E (drift s D E) D' E' (drift s D' E') *ᵥ v)
        + v ⬝ᵥ pointSpread s g D' E' (drift s D' E') D' E' (drift s D' E') *ᵥ v
      = s * ∑ j, (a j * a j + b j * b j) + g * ((s * ∑ j, (a j + b j)) * (s * ∑ j, (a j + b j))) := by
  have form : ∀ {r c : ℕ} (D E : Matrix (Fin r) (Fin k) ℝ) (D' E' : Matrix (Fin c) (Fin k) ℝ)
      (u : Fin r → ℝ) (v : Fin c → ℝ), u ⬝ᵥ pointSpread s g D E (drift s D E) D' E' (drift s D' E') *ᵥ v
        = s * ∑ j, ((Dᵀ *ᵥ u) j * (D'ᵀ *ᵥ v) j + (Eᵀ *ᵥ u) j * (E'ᵀ *ᵥ v) j)
          + g * ((s * ∑ j, ((Dᵀ *ᵥ u) j + (Eᵀ *ᵥ u) j)) * (s * ∑ j, ((D'ᵀ *ᵥ v) j + (E'ᵀ *ᵥ v) j))) := by
    intro r c D E D' E' u v
    have h1 : ∀ {r c : ℕ} (D : Matrix (Fin r) (Fin k) ℝ) (D' : Matrix (Fin c) (Fin k) ℝ) (u : Fin r → ℝ)
        (v : Fin c → ℝ), u ⬝ᵥ (D * D'ᵀ) *ᵥ v = ∑ j, (Dᵀ *ᵥ u) j * (D'ᵀ *ᵥ v) j := by
      intro r c D D' u v
      rw [← mulVec_mulVec, dotProduct_mulVec, ← mulVec_transpose]
      rfl
    have h2 : ∀ {r : ℕ} (D E : Matrix (Fin r) (Fin k) ℝ) (u : Fin r → ℝ),
        u ⬝ᵥ drift s D E = s * ∑ j, ((Dᵀ *ᵥ u) j + (Eᵀ *ᵥ u) j) := by
      intro r D E u
      simp only [dotProduct, drift, mulVec, transpose_apply]
      simp only [← Finset.sum_add_distrib, Finset.mul_sum]
      rw [Finset.sum_comm]
      exact Finset.sum_congr rfl fun _ _ => Finset.sum_congr rfl fun _ _ => by ring
    rw [pointSpread, add_mulVec, smul_mulVec, add_mulVec, smul_mulVec, vecMulVec_mulVec, dotProduct_add,
      dotProduct_smul, dotProduct_add, h1, h1, dotProduct_smul, ← Finset.sum_add_distrib]
    rw [show MulOpposite.op (drift s D' E' ⬝ᵥ v) • drift s D E = (drift s D' E' ⬝ᵥ v) • drift s D E from by
      ext; simp [mul_comm], dotProduct_smul, h2, dotProduct_comm _ v, h2]
    simp only [smul_eq_mul]
    ring
  refine ⟨Dᵀ *ᵥ u + D'ᵀ *ᵥ v, Eᵀ *ᵥ u + E'ᵀ *ᵥ v, ?_⟩
  rw [form, form, form]
  simp only [Pi.add_apply]
  generalize Dᵀ *ᵥ u = a
  generalize D'ᵀ *ᵥ v = a'
  generalize Eᵀ *ᵥ u = b
  generalize E'ᵀ *ᵥ v = b'
  have e1 : ∑ j, ((a j + a' j) * (a j + a' j) + (b j + b' j) * (b j + b' j))
      = ∑ j, (a j * a j + b j * b j) + 2 * ∑ j, (a j * a' j + b j * b' j) + ∑ j, (a' j * a' j + b' j * b' j) := by
    rw [Finset.mul_sum, ← Finset.sum_add_distrib, ← Finset.sum_add_distrib]
    exact Finset.sum_congr rfl fun j _ => by ring
  have e2 : ∑ j, (a j + a' j + (b j + b' j)) = ∑ j, (a j + b j) + ∑ j, (a' j + b' j) := by
    rw [← Finset.sum_add_distrib]
    exact Finset.sum_congr rfl fun j _ => by ring
  rw [e1, e2]
  ring

/-- The weighted sum of squares is not negative for the filter's weights. -/
theorem weighted_squares_nonneg {α β κ : ℝ} (hs : 0 < α * α * (k + κ)) (hβ : 0 ≤ β * k + α * α * κ)
    (a b : Fin k → ℝ) :
    0 ≤ 1 / (2 * (α * α * (k + κ))) * ∑ j, (a j * a j + b j * b j)
      + (β - α * α) * ((1 / (2 * (α * α * (k + κ))) * ∑ j, (a j + b j))
        * (1 / (2 * (α * α * (k + κ))) * ∑ j, (a j + b j))) := by
  set sp := α * α * (k + κ) with hsp
  have cs : (∑ j, (a j + b j)) * (∑ j, (a j + b j)) ≤ 2 * k * ∑ j, (a j * a j + b j * b j) := by
    have h1 : (∑ j, (a j + b j)) ^ 2 ≤ (Finset.univ : Finset (Fin k)).card * ∑ j, (a j + b j) ^ 2 :=
      sq_sum_le_card_mul_sum_sq
    rw [Finset.card_univ, Fintype.card_fin] at h1
    have h2 : ∑ j, (a j + b j) ^ 2 ≤ 2 * ∑ j, (a j * a j + b j * b j) := by
      rw [Finset.mul_sum]
      exact Finset.sum_le_sum fun j _ => by nlinarith [sq_nonneg (a j - b j)]
    nlinarith [mul_le_mul_of_nonneg_left h2 (Nat.cast_nonneg (α := ℝ) k)]
  have h0 : 0 ≤ ∑ j, (a j * a j + b j * b j) :=
    Finset.sum_nonneg fun j _ => add_nonneg (mul_self_nonneg _) (mul_self_nonneg _)
  generalize ∑ j, (a j * a j + b j * b j) = X at *
  generalize ∑ j, (a j + b j) = Y at *
  have e : 1 / (2 * sp) * X + (β - α * α) * ((1 / (2 * sp) * Y) * (1 / (2 * sp) * Y))
      = (2 * sp * X + (β - α * α) * (Y * Y)) / (4 * (sp * sp)) := by
    field_simp
    ring
  rw [e]
  refine div_nonneg ?_ (by positivity)
  rcases Nat.eq_zero_or_pos k with hk | hk
  · rw [hk] at cs
    have hy : Y * Y = 0 := le_antisymm (by simpa using cs) (mul_self_nonneg _)
    rw [hy, mul_zero, add_zero]
    positivity
  · have hk' : (0 : ℝ) < k := Nat.cast_pos.2 hk
    have h3 : 0 ≤ k * (2 * sp * X + (β - α * α) * (Y * Y)) := by
      have : k * (2 * sp * X + (β - α * α) * (Y * Y))
          = sp * (2 * k * X - Y * Y) + (β * k + α * α * κ) * (Y * Y) := by rw [hsp]; ring
      rw [this]
      exact add_nonneg (mul_nonneg hs.le (by linarith)) (mul_nonneg hβ (mul_self_nonneg _))
    exact nonneg_of_mul_nonneg_right h3 hk'

/-! ### One step of the filter, for models of any shape -/

theorem pointSpread_symm (s g : ℝ) (D E : Matrix (Fin r) (Fin k) ℝ) (μ : Fin r → ℝ) :
    (pointSpread s g D E μ D E μ)ᵀ = pointSpread s g D E μ D E μ := by
  simp only [pointSpread, transpose_add, transpose_smul, transpose_mul, transpose_transpose, transpose_vecMulVec]

theorem symmetrized_of_symm {A : Matrix (Fin n) (Fin n) ℝ} (h : Aᵀ = A) : symmetrized A = A :=
  (symmetrized_spec A).2.1 h

namespace UnscentedKalmanFilter

theorem side_eq (f : UnscentedKalmanFilter n m ℝ) : f.side = 1 / (2 * (f.alpha * f.alpha * (n + f.kappa))) := by
  simp [side, spreadFactor]

theorem weights_sum (f : UnscentedKalmanFilter n m ℝ) (hs : f.spreadFactor ≠ 0) :
    f.centreMean + 2 * n * f.side = 1 := by
  unfold centreMean side
  push_cast
  field_simp
  ring

theorem centreCovariance_eq (f : UnscentedKalmanFilter n m ℝ) :
    f.centreCovariance = f.centreMean + 1 + (f.beta - f.alpha * f.alpha) := by
  unfold centreCovariance; ring

theorem offsetDirections_spec (f : UnscentedKalmanFilter n m ℝ)
    (hP : Pd (f.spreadFactor • f.covariance + f.regularization • 1)) :
    ∃ L, f.offsetDirections = .ok L ∧ L * Lᵀ = f.spreadFactor • f.covariance + f.regularization • 1 := by
  obtain ⟨L, hL⟩ := cholesky_ok_of_pd _ hP.1 hP.2
  refine ⟨L, ?_, ?_⟩
  · have e : madd (mscale f.covariance f.spreadFactor) (mscale (midentity n) f.regularization)
        = f.spreadFactor • f.covariance + f.regularization • 1 := by
      rw [midentity_eq]
      ext i j
      simp [madd, mscale, mul_comm]
    unfold offsetDirections
    dsimp only
    rw [if_neg (by rw [real_mIsFinite]; simp), e, hL]
  · have := (cholesky_factors (k := 0) _ L hP.1 hL).1
    rwa [mmul_eq, mtranspose_eq] at this

/-- What a prediction leaves behind, whatever the model. -/
theorem predict_spec (f : UnscentedKalmanFilter n m ℝ) (hs : f.spreadFactor ≠ 0)
    (hP : Pd (f.spreadFactor • f.covariance + f.regularization • 1)) (hQ : f.processNoiseᵀ = f.processNoise)
    (model : (Fin n → ℝ) → Fin n → ℝ) :
    ∃ L g, L * Lᵀ = f.spreadFactor • f.covariance + f.regularization • 1 ∧ g = f.propagate model L
      ∧ f.predict model = ({ g with
          state := g.predictedMean
          covariance := f.processNoise + pointSpread f.side (f.beta - f.alpha * f.alpha)
            (offsets g.propagatedPlus g.propagatedCentre) (offsets g.propagatedMinus g.propagatedCentre)
            (drift f.side (offsets g.propagatedPlus g.propagatedCentre) (offsets g.propagatedMinus g.propagatedCentre))
            (offsets g.propagatedPlus g.propagatedCentre) (offsets g.propagatedMinus g.propagatedCentre)
            (drift f.side (offsets g.propagatedPlus g.propagatedCentre)
              (offsets g.propagatedMinus g.propagatedCentre)) }, .ok ())
      ∧ g.predictedMean = g.propagatedCentre + drift f.side (offsets g.propagatedPlus g.propagatedCentre)
          (offsets g.propagatedMinus g.propagatedCentre) := by
  obtain ⟨L, hL, hLL⟩ := f.offsetDirections_spec hP
  refine ⟨L, _, hLL, rfl, ?_, ?_⟩
  · have hw : (f.propagate model L).centreMean + 2 * n * (f.propagate model L).side = 1 := f.weights_sum hs
    unfold predict
    rw [hL]
    dsimp only
    rw [if_neg (by rw [real_vIsFinite, real_mIsFinite, real_mIsFinite]; simp),
      if_neg (by rw [real_vIsFinite, real_mIsFinite]; simp)]
    have e : (f.propagate model L).predictedSpread = _ :=
      sigmaSpread_drift hw (f.propagate model L).centreCovariance_eq _ _ _ _ _ _ _
    rw [e, symmetrized_of_symm]
    · rfl
    · rw [transpose_add, pointSpread_symm, show (f.propagate model L).processNoise = f.processNoise from rfl, hQ]
  · exact sigmaMean_drift (f.weights_sum hs) _ _ _

/-- What folding a residual in leaves behind. -/
theorem foldIn_spec (f : UnscentedKalmanFilter n m ℝ) (hP : f.covarianceᵀ = f.covariance) (centre : Fin m → ℝ)
    (plus minus : Matrix (Fin m) (Fin n) ℝ) (predicted residual : Fin m → ℝ)
    (hS : Pd (f.innovationSpread centre plus minus predicted)) :
    ∃ K, K * f.innovationSpread centre plus minus predicted = f.crossSpread centre plus minus predicted
      ∧ f.foldIn centre plus minus predicted residual = ({ f with
          innovation := residual
          innovationCovariance := f.innovationSpread centre plus minus predicted
          state := f.state + K *ᵥ residual
          covariance := f.covariance - K * f.innovationSpread centre plus minus predicted * Kᵀ }, .ok ()) := by
  obtain ⟨L, hL⟩ := cholesky_ok_of_pd _ hS.1 hS.2
  refine ⟨mtranspose (choleskySolveMatrix L (mtranspose (f.crossSpread centre plus minus predicted))), ?_, ?_⟩
  · have h := (cholesky_factors (k := n) _ L hS.1 hL).2.2.2.2.1 (mtranspose (f.crossSpread centre plus minus predicted))
    rw [mmul_eq] at h
    have h' := congrArg Matrix.transpose h
    rwa [transpose_mul, hS.1] at h'
  · unfold foldIn
    dsimp only
    rw [if_neg (by rw [real_mIsFinite, real_mIsFinite]; simp), hL]
    dsimp only
    rw [mmul_eq, mmul_eq, msub_eq, symmetrized_of_symm, mmulVec_eq]
    · rfl
    · rw [transpose_sub, hP, transpose_mul, transpose_mul, hS.1, mtranspose_eq, transpose_transpose,
        Matrix.mul_assoc]

/-- The readings the kept points would give, and what the filter makes of them. -/
theorem measurementSigmaPoints_spec (f : UnscentedKalmanFilter n m ℝ) (model : (Fin n → ℝ) → Fin m → ℝ) :
    f.measurementSigmaPoints model = .ok (model f.propagatedCentre,
      (fun row column => model (columnOf f.propagatedPlus column) row),
      (fun row column => model (columnOf f.propagatedMinus column) row),
      sigmaMean f.centreMean f.side (model f.propagatedCentre)
        (fun row column => model (columnOf f.propagatedPlus column) row)
        (fun row column => model (columnOf f.propagatedMinus column) row)) := by
  unfold measurementSigmaPoints
  dsimp only
  rw [if_neg (by rw [real_vIsFinite, real_vIsFinite]; simp [mIsFinite, Fns.isFinite])]

theorem update_eq (f : UnscentedKalmanFilter n m ℝ) (model : (Fin n → ℝ) → Fin m → ℝ) (z : Fin m → ℝ) :
    ∃ centre plus minus predicted, centre = model f.propagatedCentre
      ∧ (∀ j, columnOf plus j = model (columnOf f.propagatedPlus j))
      ∧ (∀ j, columnOf minus j = model (columnOf f.propagatedMinus j))
      ∧ predicted = sigmaMean f.centreMean f.side centre plus minus
      ∧ f.update model z = f.foldIn centre plus minus predicted (z - predicted)
      ∧ ∀ residual, f.updateWithResidual model residual = f.foldIn centre plus minus predicted residual := by
  refine ⟨_, _, _, _, rfl, fun _ => rfl, fun _ => rfl, rfl, ?_, fun residual => ?_⟩
  · unfold update
    rw [if_neg (by rw [real_vIsFinite]; simp), f.measurementSigmaPoints_spec model]
    rfl
  · unfold updateWithResidual
    rw [if_neg (by rw [real_vIsFinite]; simp), f.measurementSigmaPoints_spec model]

/-- The points kept by a prediction match the estimate it made: what an update relies on. -/
structure Fresh (f : UnscentedKalmanFilter n m ℝ) : Prop where
  state : f.state = f.predictedMean
  covariance : f.covariance = f.processNoise + pointSpread f.side (f.beta - f.alpha * f.alpha)
    (offsets f.propagatedPlus f.propagatedCentre) (offsets f.propagatedMinus f.propagatedCentre)
    (drift f.side (offsets f.propagatedPlus f.propagatedCentre) (offsets f.propagatedMinus f.propagatedCentre))
    (offsets f.propagatedPlus f.propagatedCentre) (offsets f.propagatedMinus f.propagatedCentre)
    (drift f.side (offsets f.propagatedPlus f.propagatedCentre) (offsets f.propagatedMinus f.propagatedCentre))

/-- The joint spread of the points and their readings, as the update sees it. -/
theorem spread_psd {f : UnscentedKalmanFilter n m ℝ} (hs : 0 < f.spreadFactor)
    (hβ : 0 ≤ f.beta * n + f.alpha * f.alpha * f.kappa) (D E : Matrix (Fin n) (Fin n) ℝ)
    (D' E' : Matrix (Fin m) (Fin n) ℝ) (u : Fin n → ℝ) (v : Fin m → ℝ) :
    0 ≤ u ⬝ᵥ pointSpread f.side (f.beta - f.alpha * f.alpha) D E (drift f.side D E) D E (drift f.side D E) *ᵥ u
      + 2 * (u ⬝ᵥ pointSpread f.side (f.beta - f.alpha * f.alpha) D E (drift f.side D E) D' E'
          (drift f.side D' E') *ᵥ v)
      + v ⬝ᵥ pointSpread f.side (f.beta - f.alpha * f.alpha) D' E' (drift f.side D' E') D' E'
          (drift f.side D' E') *ᵥ v := by
  obtain ⟨a, b, h⟩ := pointSpread_joint f.side (f.beta - f.alpha * f.alpha) D E D' E' u v
  rw [h, side_eq]
  exact weighted_squares_nonneg hs hβ a b

theorem predict_fresh (f : UnscentedKalmanFilter n m ℝ) (hs : 0 < f.spreadFactor)
    (hβ : 0 ≤ f.beta * n + f.alpha * f.alpha * f.kappa)
    (hP : Pd (f.spreadFactor • f.covariance + f.regularization • 1)) (hQ : Psd f.processNoise)
    (model : (Fin n → ℝ) → Fin n → ℝ) :
    (f.predict model).2 = .ok () ∧ (f.predict model).1.Fresh ∧ Psd ((f.predict model).1.covariance - f.processNoise)
    ∧ (f.predict model).1.processNoise = f.processNoise ∧ (f.predict model).1.measurementNoise = f.measurementNoise
    ∧ (f.predict model).1.alpha = f.alpha ∧ (f.predict model).1.beta = f.beta
    ∧ (f.predict model).1.kappa = f.kappa ∧ (f.predict model).1.regularization = f.regularization := by
  obtain ⟨L, g, hL, rfl, h, -⟩ := f.predict_spec hs.ne' hP hQ.1 model
  rw [h]
  refine ⟨rfl, ⟨rfl, rfl⟩, ⟨?_, fun x => ?_⟩, rfl, rfl, rfl, rfl, rfl, rfl⟩
  · dsimp only
    rw [add_sub_cancel_left, pointSpread_symm]
  · dsimp only
    rw [add_sub_cancel_left]
    have := spread_psd hs hβ (offsets (f.propagate model L).propagatedPlus (f.propagate model L).propagatedCentre)
      (offsets (f.propagate model L).propagatedMinus (f.propagate model L).propagatedCentre) (0 : Matrix (Fin m) _ ℝ) 0 x 0
    simpa using this

/-- One update of a filter that has just predicted. -/
theorem fresh_update (f : UnscentedKalmanFilter n m ℝ) (hf : f.Fresh) (hs : 0 < f.spreadFactor)
    (hβ : 0 ≤ f.beta * n + f.alpha * f.alpha * f.kappa) (hQ : Psd f.processNoise) (hR : Pd f.measurementNoise)
    (model : (Fin n → ℝ) → Fin m → ℝ) (z : Fin m → ℝ) :
    (f.update model z).2 = .ok () ∧ Psd ((f.update model z).1.covariance - f.processNoise)
    ∧ Psd (f.covariance - (f.update model z).1.covariance)
    ∧ (f.update model z).1.processNoise = f.processNoise ∧ (f.update model z).1.measurementNoise = f.measurementNoise
    ∧ (f.update model z).1.alpha = f.alpha ∧ (f.update model z).1.beta = f.beta
    ∧ (f.update model z).1.kappa = f.kappa ∧ (f.update model z).1.regularization = f.regularization := by
  obtain ⟨centre, plus, minus, predicted, -, -, -, h6, h2, -⟩ := f.update_eq model z
  have hw := f.weights_sum hs.ne'
  have hsym : f.covarianceᵀ = f.covariance := by rw [hf.covariance, transpose_add, hQ.1, pointSpread_symm]
  have hS : f.innovationSpread centre plus minus predicted = f.measurementNoise
      + pointSpread f.side (f.beta - f.alpha * f.alpha) (offsets plus centre) (offsets minus centre)
        (drift f.side (offsets plus centre) (offsets minus centre)) (offsets plus centre) (offsets minus centre)
        (drift f.side (offsets plus centre) (offsets minus centre)) := by
    unfold innovationSpread
    rw [h6, sigmaSpread_drift hw f.centreCovariance_eq, symmetrized_of_symm]
    rw [transpose_add, pointSpread_symm, hR.1]
  have hC : f.crossSpread centre plus minus predicted
      = pointSpread f.side (f.beta - f.alpha * f.alpha) (offsets f.propagatedPlus f.propagatedCentre)
        (offsets f.propagatedMinus f.propagatedCentre)
        (drift f.side (offsets f.propagatedPlus f.propagatedCentre) (offsets f.propagatedMinus f.propagatedCentre))
        (offsets plus centre) (offsets minus centre)
        (drift f.side (offsets plus centre) (offsets minus centre)) := by
    unfold crossSpread
    rw [h6, hf.state, predictedMean]
    exact (sigmaSpread_drift hw f.centreCovariance_eq 0 _ _ _ _ _ _).trans (zero_add _)
  have hjoint := spread_psd hs hβ (offsets f.propagatedPlus f.propagatedCentre)
    (offsets f.propagatedMinus f.propagatedCentre) (offsets plus centre) (offsets minus centre)
  rw [← hC] at hjoint
  have hcov := hf.covariance
  generalize pointSpread f.side (f.beta - f.alpha * f.alpha) (offsets f.propagatedPlus f.propagatedCentre)
    (offsets f.propagatedMinus f.propagatedCentre)
    (drift f.side (offsets f.propagatedPlus f.propagatedCentre) (offsets f.propagatedMinus f.propagatedCentre))
    (offsets f.propagatedPlus f.propagatedCentre) (offsets f.propagatedMinus f.propagatedCentre)
    (drift f.side (offsets f.propagatedPlus f.propagatedCentre) (offsets f.propagatedMinus f.propagatedCentre))
    = X at hcov hjoint
  have hZs := pointSpread_symm f.side (f.beta - f.alpha * f.alpha) (offsets plus centre) (offsets minus centre)
    (drift f.side (offsets plus centre) (offsets minus centre))
  generalize pointSpread f.side (f.beta - f.alpha * f.alpha) (offsets plus centre) (offsets minus centre)
        (drift f.side (offsets plus centre) (offsets minus centre)) (offsets plus centre) (offsets minus centre)
        (drift f.side (offsets plus centre) (offsets minus centre)) = Z at hS hjoint hZs
  have hZ : Psd Z := ⟨hZs, fun x => by simpa using hjoint 0 x⟩
  have hSpd : Pd (f.innovationSpread centre plus minus predicted) := by
    rw [hS, add_comm]; exact hZ.add_pd hR
  obtain ⟨K, hK, hfold⟩ := f.foldIn_spec hsym centre plus minus predicted (z - predicted) hSpd
  rw [h2, hfold]
  refine ⟨rfl, ⟨?_, fun x => ?_⟩, ?_, rfl, rfl, rfl, rfl, rfl, rfl⟩
  · dsimp only
    rw [transpose_sub, transpose_sub, hsym, hQ.1, transpose_mul, transpose_mul, hSpd.1, transpose_transpose,
      Matrix.mul_assoc]
  · dsimp only
    generalize f.innovationSpread centre plus minus predicted = S at *
    generalize f.crossSpread centre plus minus predicted = C at *
    subst hS hK
    have e0 := hjoint x (-(Kᵀ *ᵥ x))
    have e1 : ∀ B : Matrix (Fin m) (Fin m) ℝ, x ⬝ᵥ (K * B * Kᵀ) *ᵥ x = (Kᵀ *ᵥ x) ⬝ᵥ B *ᵥ (Kᵀ *ᵥ x) := by
      intro B
      rw [← mulVec_mulVec, ← mulVec_mulVec, dotProduct_mulVec, ← mulVec_transpose]
    have e2 : x ⬝ᵥ (K * (f.measurementNoise + Z)) *ᵥ (-(Kᵀ *ᵥ x))
        = -(x ⬝ᵥ (K * (f.measurementNoise + Z) * Kᵀ) *ᵥ x) := by
      rw [mulVec_neg, dotProduct_neg, mulVec_mulVec]
    rw [e2, mulVec_neg, dotProduct_neg, neg_dotProduct, neg_neg, e1] at e0
    have e3 : (Kᵀ *ᵥ x) ⬝ᵥ (f.measurementNoise + Z) *ᵥ (Kᵀ *ᵥ x)
        = (Kᵀ *ᵥ x) ⬝ᵥ f.measurementNoise *ᵥ (Kᵀ *ᵥ x) + (Kᵀ *ᵥ x) ⬝ᵥ Z *ᵥ (Kᵀ *ᵥ x) := by
      rw [add_mulVec, dotProduct_add]
    have hr := hR.psd.2 (Kᵀ *ᵥ x)
    have e4 : f.covariance - K * (f.measurementNoise + Z) * Kᵀ - f.processNoise
        = X - K * (f.measurementNoise + Z) * Kᵀ := by rw [hcov]; abel
    rw [e4, sub_mulVec, dotProduct_sub, e1]
    rw [e3] at e0 ⊢
    linarith
  · dsimp only
    rw [sub_sub_cancel]
    exact hSpd.psd.sandwich K

/-! ### Models of any shape: the covariance stays a covariance -/

/-- C60. Whatever the two models are, smooth or not: if the tuning was accepted and `β·n + α²·κ` is not negative (as
with the defaults), the scaled covariance can be factorised, the process noise is positive semidefinite and the
measurement noise positive definite, then a prediction and the update after it both succeed.  Both covariances are
symmetric, and neither falls below the process noise; an update never increases the covariance. -/
theorem ukf_step (f : UnscentedKalmanFilter n m ℝ) (hs : 0 < f.alpha * f.alpha * (n + f.kappa))
    (hβ : 0 ≤ f.beta * n + f.alpha * f.alpha * f.kappa)
    (hP : Pd ((f.alpha * f.alpha * (n + f.kappa)) • f.covariance + f.regularization • 1))
    (hQ : Psd f.processNoise) (hR : Pd f.measurementNoise) (process : (Fin n → ℝ) → Fin n → ℝ)
    (measure : (Fin n → ℝ) → Fin m → ℝ) (z : Fin m → ℝ) :
    (f.predict process).2 = .ok () ∧ Psd ((f.predict process).1.covariance - f.processNoise)
    ∧ ((f.predict process).1.update measure z).2 = .ok ()
    ∧ Psd (((f.predict process).1.update measure z).1.covariance - f.processNoise)
    ∧ Psd ((f.predict process).1.covariance - ((f.predict process).1.update measure z).1.covariance) := by
  obtain ⟨h1, h2, h3, h4, h5, h6, h7, h8, -⟩ := f.predict_fresh hs hβ hP hQ process
  have hs' : 0 < (f.predict process).1.spreadFactor := by unfold spreadFactor; rwa [h6, h8]
  have hβ' : 0 ≤ (f.predict process).1.beta * n + (f.predict process).1.alpha * (f.predict process).1.alpha
      * (f.predict process).1.kappa := by rwa [h6, h7, h8]
  obtain ⟨g1, g2, g3, -⟩ := (f.predict process).1.fresh_update h2 hs' hβ' (by rwa [h4]) (by rwa [h5]) measure z
  rw [h4] at g2
  exact ⟨h1, h3, g1, g2, g3⟩

/-- A prediction followed by an update. -/
noncomputable def cycle (f : UnscentedKalmanFilter n m ℝ)
    (input : ((Fin n → ℝ) → Fin n → ℝ) × ((Fin n → ℝ) → Fin m → ℝ) × (Fin m → ℝ)) : UnscentedKalmanFilter n m ℝ :=
  ((f.predict input.1).1.update input.2.1 input.2.2).1

/-- C60. From a positive definite covariance, with positive definite noises and a tuning whose `β·n + α²·κ` is not
negative, no sequence of models and measurements can make the filter fail or lose its covariance: after any number of
predictions and updates, each on models of any shape, the next pair succeeds and the covariance is positive
definite, no smaller than the process noise. -/
theorem ukf_history (f : UnscentedKalmanFilter n m ℝ) (hs : 0 < f.alpha * f.alpha * (n + f.kappa))
    (hβ : 0 ≤ f.beta * n + f.alpha * f.alpha * f.kappa) (hreg : 0 ≤ f.regularization) (hP : Pd f.covariance)
    (hQ : Pd f.processNoise) (hR : Pd f.measurementNoise)
    (inputs : List (((Fin n → ℝ) → Fin n → ℝ) × ((Fin n → ℝ) → Fin m → ℝ) × (Fin m → ℝ)))
    (process : (Fin n → ℝ) → Fin n → ℝ) (measure : (Fin n → ℝ) → Fin m → ℝ) (z : Fin m → ℝ) :
    Pd (inputs.foldl cycle f).covariance
    ∧ ((inputs.foldl cycle f).predict process).2 = .ok ()
    ∧ (((inputs.foldl cycle f).predict process).1.update measure z).2 = .ok ()
    ∧ Psd ((((inputs.foldl cycle f).predict process).1.update measure z).1.covariance - f.processNoise) := by
  have scaled : ∀ f : UnscentedKalmanFilter n m ℝ, 0 < f.alpha * f.alpha * (n + f.kappa) → 0 ≤ f.regularization →
      Pd f.covariance → Pd ((f.alpha * f.alpha * (n + f.kappa)) • f.covariance + f.regularization • 1) := by
    intro f hs hr hP
    rw [add_comm]
    refine Psd.add_pd ⟨by rw [transpose_smul, transpose_one], fun x => ?_⟩
      ⟨by rw [transpose_smul, hP.1], fun x hx => ?_⟩
    · rw [smul_mulVec, dotProduct_smul, smul_eq_mul]
      exact mul_nonneg hr (by rw [one_mulVec]; exact Finset.sum_nonneg fun i _ => mul_self_nonneg _)
    · rw [smul_mulVec, dotProduct_smul, smul_eq_mul]
      exact mul_pos hs (hP.2 x hx)
  induction inputs generalizing f with
  | nil =>
    obtain ⟨h1, -, h2, h3, -⟩ := f.ukf_step hs hβ (scaled f hs hreg hP) hQ.psd hR process measure z
    exact ⟨hP, h1, h2, h3⟩
  | cons i inputs ih =>
    obtain ⟨h1, h2, h3, h4, h5, h6, h7, h8, h9⟩ := f.predict_fresh hs hβ (scaled f hs hreg hP) hQ.psd i.1
    have hs' : 0 < (f.predict i.1).1.spreadFactor := by unfold spreadFactor; rwa [h6, h8]
    have hβ' : 0 ≤ (f.predict i.1).1.beta * n + (f.predict i.1).1.alpha * (f.predict i.1).1.alpha
        * (f.predict i.1).1.kappa := by rwa [h6, h7, h8]
    obtain ⟨g1, g2, -, g4, g5, g6, g7, g8, g9⟩ := (f.predict i.1).1.fresh_update h2 hs' hβ'
      (by rw [h4]; exact hQ.psd) (by rwa [h5]) i.2.1 i.2.2
    have hpn : (f.cycle i).processNoise = f.processNoise := g4.trans h4
    rw [h4] at g2
    have := ih (f.cycle i)
      (by rwa [show (f.cycle i).alpha = f.alpha from g6.trans h6, show (f.cycle i).kappa = f.kappa from g8.trans h8])
      (by rwa [show (f.cycle i).alpha = f.alpha from g6.trans h6, show (f.cycle i).kappa = f.kappa from g8.trans h8,
        show (f.cycle i).beta = f.beta from g7.trans h7])
      (by rwa [show (f.cycle i).regularization = f.regularization from g9.trans h9])
      (by have := g2.add_pd hQ; rwa [sub_add_cancel] at this)
      (by rwa [hpn])
      (by rwa [show (f.cycle i).measurementNoise = f.measurementNoise from g5.trans h5])
    rw [hpn] at this
    exact this

/-! ### Straight-line models -/

theorem offsets_line (F : Matrix (Fin m) (Fin n) ℝ) (b : Fin m → ℝ) (x : Fin n → ℝ) (A : Matrix (Fin n) (Fin k) ℝ) :
    offsets (fun row column => (F *ᵥ columnOf A column + b) row) (F *ᵥ x + b) = F * offsets A x := by
  ext i j
  simp only [offsets, Pi.add_apply, Matrix.mul_apply, mulVec, dotProduct, columnOf]
  rw [add_sub_add_right_eq_sub, ← Finset.sum_sub_distrib]
  exact Finset.sum_congr rfl fun l _ => by ring

theorem drift_pairs (s : ℝ) (D : Matrix (Fin r) (Fin k) ℝ) : drift s D (-D) = 0 := by
  ext i; simp [drift]

theorem pointSpread_pairs {s : ℝ} {sp : ℝ} (hs : s = 1 / (2 * sp)) (g : ℝ) (D : Matrix (Fin r) (Fin k) ℝ)
    (D' : Matrix (Fin c) (Fin k) ℝ) :
    pointSpread s g D (-D) (drift s D (-D)) D' (-D') (drift s D' (-D')) = sp⁻¹ • (D * D'ᵀ) := by
  rw [pointSpread, drift_pairs, drift_pairs, zero_vecMulVec, smul_zero, add_zero, transpose_neg, Matrix.neg_mul,
    Matrix.mul_neg, neg_neg, ← two_smul ℝ, smul_smul, hs]
  congr 1
  by_cases h : sp = 0
  · simp [h]
  · field_simp

/-- C60. The points drawn around an estimate stand for it exactly: their weights add up to one, their weighted
average is the state, and their weighted spread is the covariance with the regularisation, divided by the spread
factor, on its diagonal. -/
theorem ukf_points (f : UnscentedKalmanFilter n m ℝ) (hs : f.alpha * f.alpha * (n + f.kappa) ≠ 0)
    (hP : f.covarianceᵀ = f.covariance) (L : Matrix (Fin n) (Fin n) ℝ) (hL : f.offsetDirections = .ok L) :
    f.centreMean + ∑ _j : Fin n, (f.side + f.side) = 1
    ∧ (∀ i, f.centreMean * f.state i
        + ∑ j, (f.side * (f.state i + L i j) + f.side * (f.state i - L i j)) = f.state i)
    ∧ ∀ i l, f.centreCovariance * (f.state i - f.state i) * (f.state l - f.state l)
        + ∑ j, (f.side * ((f.state i + L i j) - f.state i) * ((f.state l + L l j) - f.state l)
          + f.side * ((f.state i - L i j) - f.state i) * ((f.state l - L l j) - f.state l))
        = f.covariance i l + if i = l then f.regularization / (f.alpha * f.alpha * (n + f.kappa)) else 0 := by
  have hw := f.weights_sum hs
  have hsum : ∑ _j : Fin n, (f.side + f.side) = 2 * n * f.side := by
    rw [Finset.sum_const, Finset.card_univ, Fintype.card_fin, nsmul_eq_mul]; ring
  refine ⟨by rw [hsum]; exact hw, fun i => ?_, fun i l => ?_⟩
  · have : ∑ j, (f.side * (f.state i + L i j) + f.side * (f.state i - L i j))
        = f.state i * ∑ _j : Fin n, (f.side + f.side) := by
      rw [Finset.mul_sum]; exact Finset.sum_congr rfl fun j _ => by ring
    rw [this, hsum]
    linear_combination f.state i * hw
  · have hLL : L * Lᵀ = f.spreadFactor • f.covariance + f.regularization • 1 := by
      unfold offsetDirections at hL
      dsimp only at hL
      rw [if_neg (by rw [real_mIsFinite]; simp)] at hL
      have e : madd (mscale f.covariance f.spreadFactor) (mscale (midentity n) f.regularization)
          = f.spreadFactor • f.covariance + f.regularization • 1 := by
        rw [midentity_eq]
        ext i j
        simp [madd, mscale, mul_comm]
      rw [e] at hL
      split at hL
      · cases hL
      · rename_i L' hc
        have hs' : (f.spreadFactor • f.covariance + f.regularization • (1 : Matrix (Fin n) (Fin n) ℝ)).IsSymm := by
          show _ᵀ = _
          rw [transpose_add, transpose_smul, transpose_smul, transpose_one, hP]
        have := (cholesky_factors (k := 0) _ L' hs' hc).1
        rw [mmul_eq, mtranspose_eq] at this
        cases hL
        exact this
    have h1 := congrFun (congrFun hLL i) l
    simp only [Matrix.mul_apply, transpose_apply, Matrix.add_apply, Matrix.smul_apply, smul_eq_mul,
      Matrix.one_apply] at h1
    have h2 : ∑ j, (f.side * ((f.state i + L i j) - f.state i) * ((f.state l + L l j) - f.state l)
          + f.side * ((f.state i - L i j) - f.state i) * ((f.state l - L l j) - f.state l))
        = 2 * f.side * ∑ j, L i j * L l j := by
      rw [Finset.mul_sum]; exact Finset.sum_congr rfl fun j _ => by ring
    rw [h2, h1, side_eq, spreadFactor]
    generalize f.alpha * f.alpha * (n + f.kappa) = sp at hs ⊢
    split_ifs <;> field_simp <;> ring

/-- A straight-line model leaves the points in pairs about the centre, whose spread is the propagated covariance. -/
theorem linear_points (f : UnscentedKalmanFilter n m ℝ) (hs : f.spreadFactor ≠ 0) (F : Matrix (Fin n) (Fin n) ℝ)
    (b : Fin n → ℝ) (L : Matrix (Fin n) (Fin n) ℝ)
    (hL : L * Lᵀ = f.spreadFactor • f.covariance + f.regularization • 1) :
    (f.propagate (fun x => F *ᵥ x + b) L).propagatedCentre = F *ᵥ f.state + b
    ∧ offsets (f.propagate (fun x => F *ᵥ x + b) L).propagatedPlus (F *ᵥ f.state + b) = F * L
    ∧ offsets (f.propagate (fun x => F *ᵥ x + b) L).propagatedMinus (F *ᵥ f.state + b) = -(F * L)
    ∧ f.spreadFactor⁻¹ • ((F * L) * (F * L)ᵀ)
      = F * (f.covariance + (f.regularization / f.spreadFactor) • 1) * Fᵀ := by
  refine ⟨rfl, ?_, ?_, ?_⟩
  · refine (offsets_line F b f.state fun i j => f.state i + L i j).trans ?_
    congr 1; ext i j; simp [offsets]
  · refine (offsets_line F b f.state fun i j => f.state i - L i j).trans ?_
    rw [← Matrix.mul_neg]; congr 1; ext i j; simp [offsets]
  · rw [transpose_mul, Matrix.mul_assoc F L, ← Matrix.mul_assoc L, hL, ← Matrix.mul_assoc, ← Matrix.smul_mul,
      ← Matrix.mul_smul, smul_add, smul_smul, smul_smul, inv_mul_cancel₀ hs, one_smul, inv_mul_eq_div]

/-- C60. On a straight-line process model the prediction is the Kalman filter's, whatever the tuning: the state is
the model's value and the covariance `F·P·Fᵀ + Q`, with the regularisation divided by the spread factor added to the
diagonal of `P`. -/
theorem ukf_linear_predict (f : UnscentedKalmanFilter n m ℝ) (hs : 0 < f.alpha * f.alpha * (n + f.kappa))
    (hP : Pd ((f.alpha * f.alpha * (n + f.kappa)) • f.covariance + f.regularization • 1))
    (hQ : f.processNoiseᵀ = f.processNoise) (F : Matrix (Fin n) (Fin n) ℝ) (b : Fin n → ℝ) :
    (f.predict fun x => F *ᵥ x + b).2 = .ok ()
    ∧ (f.predict fun x => F *ᵥ x + b).1.state = F *ᵥ f.state + b
    ∧ (f.predict fun x => F *ᵥ x + b).1.covariance
      = F * (f.covariance + (f.regularization / (f.alpha * f.alpha * (n + f.kappa))) • 1) * Fᵀ + f.processNoise := by
  obtain ⟨L, g, hL, rfl, h, hm⟩ := f.predict_spec hs.ne' hP hQ fun x => F *ᵥ x + b
  obtain ⟨h1, h2, h3, h4⟩ := f.linear_points hs.ne' F b L hL
  rw [h]
  rw [h1, h2, h3, drift_pairs, add_zero] at hm
  refine ⟨rfl, hm, ?_⟩
  dsimp only
  rw [h1, h2, h3, pointSpread_pairs (sp := f.spreadFactor) (by rw [side_eq]; rfl), h4, add_comm]
  rfl

/-- An update on a straight-line measurement model while the kept points sit in pairs about their centre. -/
theorem line_update (g : UnscentedKalmanFilter n m ℝ) (hs : g.spreadFactor ≠ 0) (D : Matrix (Fin n) (Fin n) ℝ)
    (h1 : offsets g.propagatedPlus g.propagatedCentre = D) (h2 : offsets g.propagatedMinus g.propagatedCentre = -D)
    (hP : g.covarianceᵀ = g.covariance) (A : Matrix (Fin n) (Fin n) ℝ) (hA : A = g.spreadFactor⁻¹ • (D * Dᵀ))
    (H : Matrix (Fin m) (Fin n) ℝ) (d : Fin m → ℝ) (hR : Pd (H * A * Hᵀ + g.measurementNoise)) (z : Fin m → ℝ) :
    ∃ K, K * (H * A * Hᵀ + g.measurementNoise) = A * Hᵀ
    ∧ g.update (fun x => H *ᵥ x + d) z = ({ g with
        innovation := z - (H *ᵥ g.propagatedCentre + d)
        innovationCovariance := H * A * Hᵀ + g.measurementNoise
        state := g.state + K *ᵥ (z - (H *ᵥ g.propagatedCentre + d))
        covariance := g.covariance - K * (H * A * Hᵀ + g.measurementNoise) * Kᵀ }, .ok ()) := by
  obtain ⟨centre, plus, minus, predicted, q1, q2, q3, q4, q5, -⟩ := g.update_eq (fun x => H *ᵥ x + d) z
  have hw := g.weights_sum hs
  have o1 : offsets plus centre = H * D := by
    rw [q1, show plus = fun row column => (H *ᵥ columnOf g.propagatedPlus column + d) row from by
      ext i j; exact congrFun (q2 j) i, offsets_line, h1]
  have o2 : offsets minus centre = -(H * D) := by
    rw [q1, show minus = fun row column => (H *ᵥ columnOf g.propagatedMinus column + d) row from by
      ext i j; exact congrFun (q3 j) i, offsets_line, h2, Matrix.mul_neg]
  have hpc : predicted = centre := by
    rw [q4, sigmaMean_drift hw, o1, o2, drift_pairs, add_zero]
  have hpred : predicted = H *ᵥ g.propagatedCentre + d := by rw [hpc, q1]
  have hside : g.side = 1 / (2 * g.spreadFactor) := by rw [side_eq]; rfl
  have hS : g.innovationSpread centre plus minus predicted = H * A * Hᵀ + g.measurementNoise := by
    unfold innovationSpread
    have : sigmaSpread g.measurementNoise g.centreCovariance g.side centre plus minus predicted centre plus minus
        predicted = H * A * Hᵀ + g.measurementNoise := by
      rw [q4, sigmaSpread_drift hw g.centreCovariance_eq, o1, o2, pointSpread_pairs hside, add_comm, hA]
      congr 1
      rw [transpose_mul H, Matrix.mul_smul, Matrix.smul_mul]
      simp only [Matrix.mul_assoc]
    rw [this, symmetrized_of_symm hR.1]
  have hC : g.crossSpread centre plus minus predicted = A * Hᵀ := by
    ext i j
    refine (sigmaSpread_apply 0 _ _ _ _ _ _ _ _ _ _ i j).trans ?_
    rw [hA, Matrix.smul_mul, Matrix.mul_assoc, ← transpose_mul, Matrix.zero_apply, zero_add]
    have e1 : ∀ l, plus j l - predicted j = (H * D) j l := fun l => by rw [hpc, ← o1]; rfl
    have e2 : ∀ l, minus j l - predicted j = -(H * D) j l := fun l => by
      rw [hpc, ← Matrix.neg_apply, ← o2]; rfl
    have e3 : ∀ l, g.propagatedPlus i l - g.propagatedMinus i l = 2 * D i l := fun l => by
      have a1 : g.propagatedPlus i l - g.propagatedCentre i = D i l := by rw [← h1]; rfl
      have a2 : g.propagatedMinus i l - g.propagatedCentre i = -D i l := by rw [← Matrix.neg_apply, ← h2]; rfl
      linear_combination a1 - a2
    simp only [e1, e2]
    rw [hpc, sub_self, mul_zero, Matrix.smul_apply, Matrix.mul_apply]
    have : ∀ l, (g.propagatedPlus i l - g.state i) * (H * D) j l + (g.propagatedMinus i l - g.state i) * -(H * D) j l
        = 2 * (D i l * (H * D) j l) := fun l => by linear_combination (H * D) j l * e3 l
    simp only [this, transpose_apply]
    rw [← Finset.mul_sum, hside, smul_eq_mul]
    field_simp
    ring
  obtain ⟨K, hK, hfold⟩ := g.foldIn_spec hP centre plus minus predicted (z - predicted) (by rw [hS]; exact hR)
  rw [hS, hC] at hK
  refine ⟨K, hK, ?_⟩
  rw [q5, hfold, hS, hpred]

/-- The two updates after a straight-line prediction. -/
theorem linear_update (f : UnscentedKalmanFilter n m ℝ) (hs : 0 < f.alpha * f.alpha * (n + f.kappa))
    (hP : Pd ((f.alpha * f.alpha * (n + f.kappa)) • f.covariance + f.regularization • 1))
    (hQ : f.processNoiseᵀ = f.processNoise) (F : Matrix (Fin n) (Fin n) ℝ) (b : Fin n → ℝ)
    (H : Matrix (Fin m) (Fin n) ℝ) (d : Fin m → ℝ) (A : Matrix (Fin n) (Fin n) ℝ)
    (hA : A = F * (f.covariance + (f.regularization / (f.alpha * f.alpha * (n + f.kappa))) • 1) * Fᵀ)
    (hR : Pd (H * A * Hᵀ + f.measurementNoise)) (z z' : Fin m → ℝ) (g g' : UnscentedKalmanFilter n m ℝ)
    (hg : g = ((f.predict fun x => F *ᵥ x + b).1.update (fun x => H *ᵥ x + d) z).1)
    (hg' : g' = (g.update (fun x => H *ᵥ x + d) z').1) :
    ∃ K, K * (H * A * Hᵀ + f.measurementNoise) = A * Hᵀ
    ∧ ((f.predict fun x => F *ᵥ x + b).1.update (fun x => H *ᵥ x + d) z).2 = .ok ()
    ∧ g.state = (F *ᵥ f.state + b) + K *ᵥ (z - (H *ᵥ (F *ᵥ f.state + b) + d))
    ∧ g.covariance = A + f.processNoise - K * (H * A * Hᵀ + f.measurementNoise) * Kᵀ
    ∧ g.innovationCovariance = H * A * Hᵀ + f.measurementNoise
    ∧ g.innovation = z - (H *ᵥ (F *ᵥ f.state + b) + d)
    ∧ (g.update (fun x => H *ᵥ x + d) z').2 = .ok ()
    ∧ g'.covariance = g.covariance - K * (H * A * Hᵀ + f.measurementNoise) * Kᵀ
    ∧ g'.innovation = z' - (H *ᵥ (F *ᵥ f.state + b) + d) := by
  obtain ⟨hp1, hp2, hp3⟩ := f.ukf_linear_predict hs hP hQ F b
  obtain ⟨L, y, hL, rfl, h, hm⟩ := f.predict_spec hs.ne' hP hQ fun x => F *ᵥ x + b
  obtain ⟨h1, h2, h3, h4⟩ := f.linear_points hs.ne' F b L hL
  have hA' : A = f.spreadFactor⁻¹ • ((F * L) * (F * L)ᵀ) := by rw [h4]; exact hA
  rw [← hA] at hp3
  have hAs : Aᵀ = A := by
    rw [hA', transpose_smul, transpose_mul, transpose_transpose]
  generalize hy : (f.predict fun x => F *ᵥ x + b).1 = y at *
  have e1 : y.propagatedCentre = F *ᵥ f.state + b := by rw [← hy, h]; exact h1
  have e2 : offsets y.propagatedPlus y.propagatedCentre = F * L := by rw [e1, ← hy, h]; exact h2
  have e3 : offsets y.propagatedMinus y.propagatedCentre = -(F * L) := by rw [e1, ← hy, h]; exact h3
  have e4 : y.measurementNoise = f.measurementNoise := by rw [← hy, h]; rfl
  have e5 : y.spreadFactor = f.spreadFactor := by rw [← hy, h]; rfl
  obtain ⟨K, hK, hu⟩ := y.line_update (by rw [e5]; exact hs.ne') (F * L) e2 e3 (by rw [hp3, transpose_add, hAs, hQ]) A
    (by rw [e5]; exact hA') H d (by rw [e4]; exact hR) z
  have hgs : g.covarianceᵀ = g.covariance := by
    rw [hg, hu]
    dsimp only
    rw [transpose_sub, hp3, transpose_add, hAs, hQ, transpose_mul, transpose_mul, transpose_transpose, e4, hR.1,
      Matrix.mul_assoc K]
  obtain ⟨K', hK', hu'⟩ := g.line_update (by rw [hg, hu]; show y.spreadFactor ≠ 0; rw [e5]; exact hs.ne') (F * L)
    (by rw [hg, hu]; exact e2) (by rw [hg, hu]; exact e3) hgs A
    (by rw [hg, hu]; exact (by rw [← e5] at hA'; exact hA')) H d (by rw [hg, hu]; exact (by rw [e4]; exact hR)) z'
  have hgm : g.measurementNoise = f.measurementNoise := by rw [hg, hu]; exact e4
  have hgc : g.propagatedCentre = F *ᵥ f.state + b := by rw [hg, hu]; exact e1
  rw [e4] at hK
  rw [hgm] at hK'
  have hKK : K' = K := by
    have : (K' - K) * (H * A * Hᵀ + f.measurementNoise) = 0 := by rw [Matrix.sub_mul, hK, hK', sub_self]
    have h0 := congrArg (· * (H * A * Hᵀ + f.measurementNoise)⁻¹) this
    simp only [Matrix.zero_mul] at h0
    rw [Matrix.mul_assoc, mul_nonsing_inv _ hR.det, Matrix.mul_one] at h0
    exact sub_eq_zero.1 h0
  refine ⟨K, hK, by rw [hu], ?_, ?_, ?_, ?_, by rw [hu'], ?_, ?_⟩
  · rw [hg, hu]; dsimp only; rw [hp2, e1]
  · rw [hg, hu]; dsimp only; rw [hp3, e4]
  · rw [hg, hu]; dsimp only; rw [e4]
  · rw [hg, hu]; dsimp only; rw [e1]
  · rw [hg', hu']; dsimp only; rw [hgm, hKK]
  · rw [hg', hu']; dsimp only; rw [hgc]

/-- C60 (partial: the claim is that the update equals the Kalman filter's; it does only without process noise). On
straight-line models without regularisation, from a positive definite covariance and with positive definite
measurement noise, a prediction and an update end where a Kalman filter **without process noise** ends, with the process
noise added to its covariance afterwards.  So with no process noise the two filters agree, tuning or no tuning. -/
theorem ukf_linear_update_partial (f : UnscentedKalmanFilter n m ℝ) (hs : 0 < f.alpha * f.alpha * (n + f.kappa))
    (hreg : f.regularization = 0) (hP : Pd f.covariance) (hQ : f.processNoiseᵀ = f.processNoise)
    (hR : Pd f.measurementNoise) (kf : KalmanFilter n m ℝ) (hx : kf.state = f.state)
    (hc : kf.covariance = f.covariance) (hn : kf.processNoise = 0) (hr : kf.measurementNoise = f.measurementNoise)
    (z : Fin m → ℝ) :
    ((f.predict fun x => kf.stateTransition *ᵥ x).1.update (fun x => kf.measurementModel *ᵥ x) z).2 = .ok ()
    ∧ ((f.predict fun x => kf.stateTransition *ᵥ x).1.update (fun x => kf.measurementModel *ᵥ x) z).1.state
      = (kf.predict.update z).1.state
    ∧ ((f.predict fun x => kf.stateTransition *ᵥ x).1.update (fun x => kf.measurementModel *ᵥ x) z).1.covariance
      = (kf.predict.update z).1.covariance + f.processNoise
    ∧ ((f.predict fun x => kf.stateTransition *ᵥ x).1.update (fun x => kf.measurementModel *ᵥ x) z).1.innovation
      = (kf.predict.update z).1.innovation
    ∧ ((f.predict fun x => kf.stateTransition *ᵥ x).1.update (fun x => kf.measurementModel *ᵥ x) z).1.innovationCovariance
      = (kf.predict.update z).1.innovationCovariance := by
  generalize hF : kf.stateTransition = F
  generalize hH : kf.measurementModel = H
  have eF : (fun x => F *ᵥ x) = fun x => F *ᵥ x + (0 : Fin n → ℝ) := by simp
  have eH : (fun x => H *ᵥ x) = fun x => H *ᵥ x + (0 : Fin m → ℝ) := by simp
  rw [eF, eH]
  have hA : Psd (F * f.covariance * Fᵀ) := hP.psd.sandwich F
  have hS : Pd (H * (F * f.covariance * Fᵀ) * Hᵀ + f.measurementNoise) := innovationCov_pd hA hR
  obtain ⟨K, hK, h1, h2, h3, h4, h5, -⟩ := f.linear_update hs
    (by
      rw [hreg, zero_smul, add_zero]
      refine ⟨by rw [transpose_smul, hP.1], fun x hx => ?_⟩
      rw [smul_mulVec, dotProduct_smul, smul_eq_mul]
      exact mul_pos hs (hP.2 x hx))
    hQ F 0 H 0 (F * f.covariance * Fᵀ) (by rw [hreg, zero_div, zero_smul, add_zero]) hS z z _ _ rfl rfl
  have hkp : kf.predict.covariance = F * f.covariance * Fᵀ := by
    simp only [KalmanFilter.predict, predictedCovariance, mmul_eq, madd_eq, mtranspose_eq, hF, hc, hn, add_zero]
  have hks : kf.predict.state = F *ᵥ f.state := by
    simp only [KalmanFilter.predict, mmulVec_eq, hF, hx]
  have hkh : kf.predict.measurementModel = H := hH
  have hkr : kf.predict.measurementNoise = f.measurementNoise := hr
  obtain ⟨K', hK', hu⟩ := KalmanFilter.update_spec kf.predict z (by rw [hkp]; exact hA)
    (by rw [hkp, hkh, hkr]; exact hS)
  rw [hkp, hkh, hkr] at hK'
  have hKK : K' = K := by
    have : (K' - K) * (H * (F * f.covariance * Fᵀ) * Hᵀ + f.measurementNoise) = 0 := by
      rw [Matrix.sub_mul, hK, hK', sub_self]
    have h0 := congrArg (· * (H * (F * f.covariance * Fᵀ) * Hᵀ + f.measurementNoise)⁻¹) this
    simp only [Matrix.zero_mul] at h0
    rw [Matrix.mul_assoc, mul_nonsing_inv _ hS.det, Matrix.mul_one] at h0
    exact sub_eq_zero.1 h0
  rw [hu]
  dsimp only
  refine ⟨h1, ?_, ?_, ?_, ?_⟩
  · rw [h2, hks, hkh, hKK, add_zero, add_zero]
  · rw [h3, hkp, hkh, hKK, ← naive_drop hA.1 hS.1 hK]
    abel
  · rw [h5, hks, hkh, add_zero, add_zero]
  · rw [h4, hkp, hkh, hkr]

/-- A scalar filter with unit covariance. -/
noncomputable def demoUkf (q w : ℝ) : UnscentedKalmanFilter 1 1 ℝ := new 0 1 (q • 1) (w • 1)

theorem demo_spread (q w : ℝ) : 0 < (demoUkf q w).alpha * (demoUkf q w).alpha * (((1 : ℕ) : ℝ) + (demoUkf q w).kappa) := by
  simp [demoUkf, new, Fns.lit]

theorem pd_smul {a : ℝ} (ha : 0 < a) : Pd (a • (1 : Matrix (Fin n) (Fin n) ℝ)) := by
  refine ⟨by rw [transpose_smul, transpose_one], fun x hx => ?_⟩
  rw [smul_mulVec, dotProduct_smul, smul_eq_mul]
  exact mul_pos ha (pd_one.2 x hx)

/-- Both updates of the scalar filter on the identity models. -/
theorem demo_run (q w z z' : ℝ) (hw : 0 < w) (g g' : UnscentedKalmanFilter 1 1 ℝ)
    (hg : g = (((demoUkf q w).predict fun x => x).1.update (fun x => x) fun _ => z).1)
    (hg' : g' = (g.update (fun x => x) fun _ => z').1) :
    (((demoUkf q w).predict fun x => x).1.update (fun x => x) fun _ => z).2 = .ok ()
    ∧ g.state 0 = z / (1 + w) ∧ g.covariance 0 0 = 1 + q - 1 / (1 + w)
    ∧ (g.update (fun x => x) fun _ => z').2 = .ok () ∧ g'.covariance 0 0 = 1 + q - 2 / (1 + w) := by
  have e : (fun x : Fin 1 → ℝ => x) = fun x => (1 : Matrix (Fin 1) (Fin 1) ℝ) *ᵥ x + 0 := by
    funext x; rw [one_mulVec, add_zero]
  rw [e] at hg hg' ⊢
  have hcov : (demoUkf q w).covariance = 1 := rfl
  have hreg : (demoUkf q w).regularization = 0 := rfl
  have hmn : (demoUkf q w).measurementNoise = w • 1 := rfl
  have hpn : (demoUkf q w).processNoise = q • 1 := rfl
  have hst : (demoUkf q w).state = 0 := rfl
  have hspread := demo_spread q w
  have hS : Pd ((1 : Matrix (Fin 1) (Fin 1) ℝ) * 1 * 1ᵀ + (demoUkf q w).measurementNoise) := by
    rw [hmn, transpose_one, Matrix.one_mul, Matrix.one_mul]
    exact pd_one.psd.add_pd (pd_smul hw)
  obtain ⟨K, hK, h1, h2, h3, -, -, h6, h7, -⟩ := (demoUkf q w).linear_update hspread
    (by rw [hcov, hreg, zero_smul, add_zero]; exact pd_smul hspread)
    (by rw [hpn, transpose_smul, transpose_one]) 1 0 1 0 1
    (by rw [hcov, hreg, zero_div, zero_smul, add_zero, transpose_one, Matrix.one_mul, Matrix.one_mul]) hS
    (fun _ => z) (fun _ => z') g g' hg hg'
  rw [hmn, transpose_one, Matrix.one_mul, Matrix.one_mul] at hK h3 h7
  have k0 := congrFun (congrFun hK 0) 0
  have c0 := congrFun (congrFun h3 0) 0
  have c1 := congrFun (congrFun h7 0) 0
  have s0 := congrFun h2 0
  rw [hst] at s0
  simp only [Matrix.mul_apply, Finset.univ_unique, Fin.default_eq_zero, Finset.sum_singleton, Matrix.add_apply,
    Matrix.smul_apply, Matrix.one_apply_eq, smul_eq_mul, mul_one, Matrix.sub_apply, transpose_apply, hpn] at k0 c0 c1
  simp [mulVec, dotProduct] at s0
  have hne : 1 + w ≠ 0 := by positivity
  have k1 : K 0 0 = 1 / (1 + w) := by field_simp; exact k0
  refine ⟨h1, ?_, ?_, h6, ?_⟩
  · rw [s0, k1]; ring
  · rw [c0, k0, k1]; ring
  · rw [c1, c0, k0, k1]; ring

/-- C60 (finding). With process noise the update is not the Kalman filter's.  The points an update works from were
drawn before the noise was added, so the noise is missing from the innovation covariance and from the gain: for the
scalar model `x' = x`, `z = x` with `P = Q = R = 1`, the Kalman filter moves two thirds of the way to a measurement and
ends with variance 2/3, this filter moves half of the way and reports 3/2. -/
theorem ukf_update_omits_process_noise_partial :
    let kf : KalmanFilter 1 1 ℝ := KalmanFilter.new 0 1 1 1 1 1
    let f : UnscentedKalmanFilter 1 1 ℝ := new 0 1 1 1
    (f.predict fun x => x).1.state = kf.predict.state ∧ (f.predict fun x => x).1.covariance = kf.predict.covariance
    ∧ ((f.predict fun x => x).1.update (fun x => x) fun _ => 6).2 = .ok ()
    ∧ ((f.predict fun x => x).1.update (fun x => x) fun _ => 6).1.state 0 = 3
    ∧ (kf.predict.update fun _ => 6).1.state 0 = 4
    ∧ ((f.predict fun x => x).1.update (fun x => x) fun _ => 6).1.covariance 0 0 = 3 / 2
    ∧ (kf.predict.update fun _ => 6).1.covariance 0 0 = 2 / 3 := by
  intro kf f
  have hf : f = demoUkf 1 1 := by simp only [f, demoUkf, one_smul]
  have e : (fun x : Fin 1 → ℝ => x) = fun x => (1 : Matrix (Fin 1) (Fin 1) ℝ) *ᵥ x + 0 := by
    funext x; rw [one_mulVec, add_zero]
  obtain ⟨h1, h2, h3, -⟩ := demo_run 1 1 6 0 one_pos _ _ rfl rfl
  rw [← hf] at h1 h2 h3
  have hcov : kf.predict.covariance = (2 : ℝ) • 1 := by
    simp only [kf, KalmanFilter.predict, KalmanFilter.new, predictedCovariance, mmul_eq, madd_eq, mtranspose_eq,
      transpose_one, Matrix.one_mul]
    rw [two_smul]
  have hst : kf.predict.state = 0 := by
    simp only [kf, KalmanFilter.predict, KalmanFilter.new, mmulVec_eq, one_mulVec]
  have hspread : 0 < f.alpha * f.alpha * (((1 : ℕ) : ℝ) + f.kappa) := by rw [hf]; exact demo_spread 1 1
  obtain ⟨-, p1, p2⟩ := f.ukf_linear_predict hspread
    (by
      rw [show f.covariance = 1 from rfl, show f.regularization = 0 from rfl, zero_smul, add_zero]
      exact pd_smul hspread)
    transpose_one 1 0
  have hH : kf.predict.measurementModel = 1 := rfl
  have hR : kf.predict.measurementNoise = 1 := rfl
  have hSeq : kf.predict.measurementModel * kf.predict.covariance * kf.predict.measurementModelᵀ
      + kf.predict.measurementNoise = (3 : ℝ) • 1 := by
    rw [hcov, hH, hR, transpose_one, Matrix.one_mul, Matrix.mul_one]
    rw [show (3 : ℝ) = 2 + 1 by norm_num, add_smul, one_smul]
  obtain ⟨K, hK, hu⟩ := kf.predict.update_spec (fun _ => 6) (by rw [hcov]; exact (pd_smul two_pos).psd)
    (by rw [hSeq]; exact pd_smul (by norm_num))
  rw [hSeq, hcov, hH, transpose_one, Matrix.mul_one, Matrix.mul_smul, Matrix.mul_one] at hK
  have k0 : K 0 0 = 2 / 3 := by
    have := congrFun (congrFun hK 0) 0
    simp only [Matrix.smul_apply, smul_eq_mul, Matrix.one_apply_eq] at this
    linarith
  refine ⟨?_, ?_, h1, by rw [h2]; norm_num, ?_, by rw [h3]; norm_num, ?_⟩
  · rw [e, p1, hst, one_mulVec, add_zero]; rfl
  · rw [e, p2, hcov, show f.covariance = 1 from rfl, show f.regularization = 0 from rfl,
      show f.processNoise = 1 from rfl, zero_div, zero_smul, add_zero, transpose_one, Matrix.one_mul, Matrix.one_mul,
      two_smul]
  · rw [hu]
    dsimp only
    rw [hst, hH]
    simp [mulVec, dotProduct, k0]
    norm_num
  · rw [hu]
    dsimp only
    rw [hcov, hH, Matrix.mul_one, Matrix.mul_smul, Matrix.mul_one]
    simp [k0]
    norm_num

/-- C60 (finding). Two updates after one prediction use the same points twice.  On straight-line models the second
update takes the whole reduction off the covariance again, and takes its innovation from the prediction, not from the
updated state; with a good sensor the variance it leaves is negative, and the call reports success. -/
theorem ukf_second_update_partial :
    let f : UnscentedKalmanFilter 1 1 ℝ := new 0 1 0 ((1 / 4 : ℝ) • 1)
    let g := ((f.predict fun x => x).1.update (fun x => x) fun _ => 1).1
    ((f.predict fun x => x).1.update (fun x => x) fun _ => 1).2 = .ok () ∧ g.covariance 0 0 = 1 / 5
    ∧ (g.update (fun x => x) fun _ => 1).2 = .ok ()
    ∧ (g.update (fun x => x) fun _ => 1).1.covariance 0 0 = -(3 / 5) := by
  intro f g
  have hf : f = demoUkf 0 (1 / 4) := by simp only [f, demoUkf, zero_smul]
  have hg : g = (((demoUkf 0 (1 / 4)).predict fun x => x).1.update (fun x => x) fun _ => 1).1 := by
    simp only [g, hf]
  obtain ⟨h1, -, h3, h4, h5⟩ := demo_run 0 (1 / 4) 1 1 (by norm_num) g _ hg rfl
  rw [← hf] at h1
  exact ⟨h1, by rw [h3]; norm_num, h4, by rw [h5]; norm_num⟩

/-- C60. An update of a filter that has never predicted succeeds, moves neither the state nor the covariance whatever
the model and the measurement, and records the innovation, whose covariance is the measurement noise. -/
theorem ukf_first_update (x : Fin n → ℝ) (P Q : Matrix (Fin n) (Fin n) ℝ) (R : Matrix (Fin m) (Fin m) ℝ)
    (hn : 0 < n) (hP : Pᵀ = P) (hR : Pd R) (model : (Fin n → ℝ) → Fin m → ℝ) (z : Fin m → ℝ) :
    (new x P Q R : UnscentedKalmanFilter n m ℝ).update model z
      = ({ (new x P Q R : UnscentedKalmanFilter n m ℝ) with
            innovation := z - model x
            innovationCovariance := R }, .ok ()) := by
  generalize hf : (new x P Q R : UnscentedKalmanFilter n m ℝ) = f
  have hsf : f.spreadFactor ≠ 0 := by
    rw [← hf]
    simp [spreadFactor, new, Fns.lit]
    exact hn.ne'
  have hw := f.weights_sum hsf
  obtain ⟨centre, plus, minus, predicted, q1, q2, q3, q4, q5, -⟩ := f.update_eq model z
  have hc : f.propagatedCentre = x := by rw [← hf]; rfl
  have hst : f.state = x := by rw [← hf]; rfl
  have hpl : ∀ j, columnOf f.propagatedPlus j = x := fun j => by rw [← hf]; rfl
  have hmi : ∀ j, columnOf f.propagatedMinus j = x := fun j => by rw [← hf]; rfl
  rw [hc] at q1
  have o1 : offsets plus centre = 0 := by
    ext i j
    have := congrFun (q2 j) i
    rw [hpl] at this
    show plus i j - centre i = 0
    rw [q1, ← this]
    exact sub_self _
  have o2 : offsets minus centre = 0 := by
    ext i j
    have := congrFun (q3 j) i
    rw [hmi] at this
    show minus i j - centre i = 0
    rw [q1, ← this]
    exact sub_self _
  have hd : ∀ s : ℝ, drift s (0 : Matrix (Fin m) (Fin n) ℝ) 0 = 0 := fun s => by ext i; simp [drift]
  have hpred : predicted = model x := by rw [q4, sigmaMean_drift hw, o1, o2, hd, add_zero, q1]
  have hmn : f.measurementNoise = R := by rw [← hf]; rfl
  have hS : f.innovationSpread centre plus minus predicted = R := by
    unfold innovationSpread
    rw [q4, sigmaSpread_drift hw f.centreCovariance_eq, o1, o2, hd, hmn]
    simp only [pointSpread, Matrix.zero_mul, zero_vecMulVec, smul_zero, add_zero]
    exact symmetrized_of_symm hR.1
  have hC : f.crossSpread centre plus minus predicted = 0 := by
    ext i j
    refine (sigmaSpread_apply 0 _ _ _ _ _ _ _ _ _ _ i j).trans ?_
    have e1 : ∀ l, f.propagatedPlus i l - f.state i = 0 := fun l => by rw [hst]; exact sub_eq_zero.2 (congrFun (hpl l) i)
    have e2 : ∀ l, f.propagatedMinus i l - f.state i = 0 := fun l => by rw [hst]; exact sub_eq_zero.2 (congrFun (hmi l) i)
    simp only [e1, e2]
    rw [hc, hst]
    simp
  have hcov : f.covariance = P := by rw [← hf]; rfl
  obtain ⟨K, hK, hfold⟩ := f.foldIn_spec (by rw [hcov, hP]) centre plus minus predicted (z - predicted)
    (by rw [hS]; exact hR)
  rw [hS, hC] at hK
  have hK0 : K = 0 := by
    have h0 := congrArg (· * R⁻¹) hK
    simp only [Matrix.zero_mul] at h0
    rwa [Matrix.mul_assoc, mul_nonsing_inv _ hR.det, Matrix.mul_one] at h0
  rw [q5, hfold, hS, hK0, zero_mulVec, add_zero, Matrix.zero_mul, Matrix.zero_mul, sub_zero, hpred]

/-- C60. The tuning calls accept exactly what they document and change nothing else: a spread `α²·(n + κ)` above zero,
and a regularisation that is not negative. -/
theorem ukf_tuning (f : UnscentedKalmanFilter n m ℝ) (α β κ ρ : ℝ) :
    (f.withScaling α β κ = if 0 < α * α * (n + κ) then .ok { f with alpha := α, beta := β, kappa := κ }
      else .error .invalidTuning)
    ∧ (f.withRegularization ρ = if 0 ≤ ρ then .ok { f with regularization := ρ } else .error .invalidTuning) := by
  constructor
  · unfold withScaling
    simp only [Fns.isFinite, Bool.not_true, Bool.or_self, Bool.false_eq_true, if_false, Bool.false_or,
      decide_eq_true_eq]
    by_cases h : 0 < α * α * (n + κ)
    · rw [if_neg (not_le.2 h), if_pos h]
    · rw [if_pos (not_lt.1 h), if_neg h]
  · unfold withRegularization
    simp only [Fns.isFinite, Bool.not_true, Bool.false_or, decide_eq_true_eq]
    by_cases h : 0 ≤ ρ
    · rw [if_neg (not_lt.2 h), if_pos h]
    · rw [if_pos (not_le.1 h), if_neg h]

/-- C60 (finding). The condition on `β` is needed and `with_scaling` does not check it: with `α = 1, β = -1, κ = 0` it
accepts the tuning, and predicting the scalar model `x² ` from zero with unit variance succeeds and reports a
variance of minus one. -/
theorem ukf_negative_beta_partial :
    ∃ f : UnscentedKalmanFilter 1 1 ℝ, (new 0 1 0 1 : UnscentedKalmanFilter 1 1 ℝ).withScaling 1 (-1) 0 = .ok f
      ∧ (f.predict fun x i => x i * x i).2 = .ok () ∧ (f.predict fun x i => x i * x i).1.covariance 0 0 = -1 := by
  have h := ((new 0 1 0 1 : UnscentedKalmanFilter 1 1 ℝ).ukf_tuning 1 (-1) 0 0).1
  rw [if_pos (by norm_num)] at h
  refine ⟨_, h, ?_⟩
  generalize hf : ({ (new 0 1 0 1 : UnscentedKalmanFilter 1 1 ℝ) with alpha := 1, beta := -1, kappa := 0 } :
    UnscentedKalmanFilter 1 1 ℝ) = f
  have hsp : f.spreadFactor = 1 := by rw [← hf]; simp [spreadFactor]
  have hcov : f.covariance = 1 := by rw [← hf]; rfl
  have hreg : f.regularization = 0 := by rw [← hf]; rfl
  have hpn : f.processNoise = 0 := by rw [← hf]; rfl
  have hst : f.state = 0 := by rw [← hf]; rfl
  have hside : f.side = 1 / 2 := by simp [side, hsp]
  have hg : f.beta - f.alpha * f.alpha = -2 := by rw [← hf]; norm_num
  obtain ⟨L, g, hL, hgd, hp, -⟩ := f.predict_spec (by rw [hsp]; exact one_ne_zero)
    (by rw [hsp, hcov, hreg, zero_smul, one_smul, add_zero]; exact pd_one) (by rw [hpn, transpose_zero])
    fun x i => x i * x i
  rw [hsp, hcov, hreg, zero_smul, one_smul, add_zero] at hL
  have hl : L 0 0 * L 0 0 = 1 := by
    have := congrFun (congrFun hL 0) 0
    simpa [Matrix.mul_apply] using this
  rw [hp]
  refine ⟨rfl, ?_⟩
  dsimp only
  have hc : g.propagatedCentre = 0 := by rw [hgd]; ext i; simp [propagate, hst]
  have hpl : g.propagatedPlus 0 0 = 1 := by rw [hgd]; simpa [propagate, hst, vadd, columnOf] using hl
  have hmi : g.propagatedMinus 0 0 = 1 := by rw [hgd]; simpa [propagate, hst, vsub, columnOf] using hl
  rw [hpn, hside, hg, zero_add]
  simp [pointSpread, drift, offsets, Matrix.mul_apply, hc, hpl, hmi, vecMulVec_apply]
  norm_num

/-- C60. After a successful update the normalised innovation is the innovation weighed by its own covariance and is
never negative; before any update it is refused. -/
theorem ukf_normalized_innovation {n m : ℕ} (f : UnscentedKalmanFilter n m ℝ) (hS : Pd f.innovationCovariance)
    (x : Fin n → ℝ) (P Q : Matrix (Fin n) (Fin n) ℝ) (R : Matrix (Fin (m + 1)) (Fin (m + 1)) ℝ) :
    (∃ ν, f.normalizedInnovationSquared = .ok ν ∧ 0 ≤ ν ∧ ν = f.innovation ⬝ᵥ f.innovationCovariance⁻¹ *ᵥ f.innovation)
    ∧ (UnscentedKalmanFilter.new x P Q R).normalizedInnovationSquared = .error .notPositiveDefinite := by
  constructor
  · obtain ⟨L, hL⟩ := cholesky_ok_of_pd _ hS.1 hS.2
    have hsol := ((cholesky_factors (k := 0) _ L hS.1 hL).2.2.2.1 f.innovation
      (f.innovationCovariance⁻¹ *ᵥ f.innovation)).1
      (by rw [mmulVec_eq, mulVec_mulVec, mul_nonsing_inv _ hS.det, one_mulVec])
    refine ⟨_, ?_, hS.inv.psd.2 f.innovation, rfl⟩
    unfold normalizedInnovationSquared
    rw [hL]
    dsimp only
    rw [← hsol, vdot_eq]
  · have hz : (UnscentedKalmanFilter.new x P Q R).innovationCovariance = (0 : Matrix _ _ ℝ) := rfl
    unfold normalizedInnovationSquared
    rw [hz]
    obtain ⟨h1, h2⟩ := cholesky_iff_positive_definite (0 : Matrix (Fin (m + 1)) (Fin (m + 1)) ℝ) (by simp [Matrix.IsSymm])
    cases hc : cholesky (0 : Matrix (Fin (m + 1)) (Fin (m + 1)) ℝ) with
    | error e => rfl
    | ok L =>
      have := h1.1 ⟨L, hc⟩ (fun _ => 1) (fun h => by have := congrFun h 0; simp at this)
      rw [vdot_eq, mmulVec_eq] at this
      simp at this

/-- A filter with an innovation covariance that is not the identity meets the hypothesis. -/
example : Pd ({ UnscentedKalmanFilter.new (T := ℝ) (n := 1) (m := 2) 0 1 1 1 with
    innovation := ![1, 2], innovationCovariance := (2 : ℝ) • 1 }).innovationCovariance :=
  pd_smul (by norm_num)

end UnscentedKalmanFilter

/-! ### Bad input, for every scalar type -/

section refusal
variable {T : Type} [Zero T] [One T] [NatCast T] [Add T] [Sub T] [Mul T] [Div T] [LT T] [DecidableLT T] [LE T]
  [DecidableLE T] [Fns T]

/-- C59. The unscented filter refuses a measurement or a residual with an entry that is not finite and is unchanged,
for every scalar type. -/
theorem ukf_refuses (f : UnscentedKalmanFilter n m T) (z : Fin m → T) (h : ∃ i, Fns.isFinite (z i) = false)
    (model : (Fin n → T) → Fin m → T) :
    f.update model z = (f, .error .nonFinite) ∧ f.updateWithResidual model z = (f, .error .nonFinite) := by
  have hz : vIsFinite z = false := by
    obtain ⟨i, hi⟩ := h
    rw [← Bool.not_eq_true, vIsFinite, List.all_eq_true]
    intro hc
    rw [hc i (List.mem_finRange i)] at hi
    cases hi
  constructor
  · unfold UnscentedKalmanFilter.update; rw [if_pos (by rw [hz]; rfl)]
  · unfold UnscentedKalmanFilter.updateWithResidual; rw [if_pos (by rw [hz]; rfl)]

/-- C59. Whatever the reason an unscented update fails for, the filter is exactly as it was; a prediction that fails
has changed at most the points kept for the next update, never the state or the covariance; and a prediction that
succeeds has met only finite points and leaves a finite state. -/
theorem ukf_failure_keeps (f : UnscentedKalmanFilter n m T) (z : Fin m → T) (measure : (Fin n → T) → Fin m → T)
    (process : (Fin n → T) → Fin n → T) :
    (∀ e, (f.update measure z).2 = .error e → (f.update measure z).1 = f)
    ∧ (∀ e, (f.updateWithResidual measure z).2 = .error e → (f.updateWithResidual measure z).1 = f)
    ∧ (∀ e, (f.predict process).2 = .error e → ∃ c p q, (f.predict process).1
        = { f with propagatedCentre := c, propagatedPlus := p, propagatedMinus := q })
    ∧ ((f.predict process).2 = .ok () → vIsFinite (f.predict process).1.state = true
        ∧ vIsFinite (process f.state) = true) := by
  have hfold : ∀ (centre : Fin m → T) plus minus predicted residual e,
      (f.foldIn centre plus minus predicted residual).2 = .error e →
      (f.foldIn centre plus minus predicted residual).1 = f := by
    intro centre plus minus predicted residual e he
    unfold UnscentedKalmanFilter.foldIn at he ⊢
    dsimp only at he ⊢
    split_ifs at he ⊢
    · rfl
    · split at he
      · rfl
      · cases he
  refine ⟨fun e he => ?_, fun e he => ?_, fun e he => ?_, fun h => ?_⟩
  · unfold UnscentedKalmanFilter.update at he ⊢
    split_ifs at he ⊢
    · rfl
    · split at he
      · rfl
      · exact hfold _ _ _ _ _ e he
  · unfold UnscentedKalmanFilter.updateWithResidual at he ⊢
    split_ifs at he ⊢
    · rfl
    · split at he
      · rfl
      · exact hfold _ _ _ _ _ e he
  · unfold UnscentedKalmanFilter.predict at he ⊢
    cases hd : f.offsetDirections with
    | error e' => exact ⟨_, _, _, rfl⟩
    | ok L =>
      rw [hd] at he
      dsimp only at he ⊢
      split_ifs at he ⊢
      · exact ⟨_, _, _, rfl⟩
      · exact ⟨_, _, _, rfl⟩
  · unfold UnscentedKalmanFilter.predict at h ⊢
    cases hd : f.offsetDirections with
    | error e' => rw [hd] at h; cases h
    | ok L =>
      rw [hd] at h
      dsimp only at h ⊢
      split_ifs at h ⊢ with h1 h2
      simp only [Bool.or_eq_true, not_or] at h1 h2
      have h3 : vIsFinite (f.propagate process L).propagatedCentre = true := by simpa using h1.1.1
      exact ⟨by simpa using h2.1, h3⟩

end refusal

/-- The default tuning meets the conditions asked for, in every dimension. -/
example (x : Fin 3 → ℝ) : 0 < (UnscentedKalmanFilter.new x 1 1 1 : UnscentedKalmanFilter 3 2 ℝ).alpha
      * (UnscentedKalmanFilter.new x 1 1 1 : UnscentedKalmanFilter 3 2 ℝ).alpha
      * (((3 : ℕ) : ℝ) + (UnscentedKalmanFilter.new x 1 1 1 : UnscentedKalmanFilter 3 2 ℝ).kappa)
    ∧ 0 ≤ (UnscentedKalmanFilter.new x 1 1 1 : UnscentedKalmanFilter 3 2 ℝ).beta * ((3 : ℕ) : ℝ)
      + (UnscentedKalmanFilter.new x 1 1 1 : UnscentedKalmanFilter 3 2 ℝ).alpha
        * (UnscentedKalmanFilter.new x 1 1 1 : UnscentedKalmanFilter 3 2 ℝ).alpha
        * (UnscentedKalmanFilter.new x 1 1 1 : UnscentedKalmanFilter 3 2 ℝ).kappa := by
  constructor <;> simp [UnscentedKalmanFilter.new, Fns.lit] <;> norm_num

/-- Models that are neither linear nor smooth, in two dimensions. -/
example : Pd ((UnscentedKalmanFilter.new (n := 2) (m := 1) ![1, 2] 1 1 1 : UnscentedKalmanFilter 2 1 ℝ).predict
    fun x => ![|x 0|, x 0 * x 1]).1.covariance := by
  have hs : 0 < (UnscentedKalmanFilter.new (n := 2) (m := 1) ![1, 2] 1 1 1 : UnscentedKalmanFilter 2 1 ℝ).spreadFactor := by
    simp [UnscentedKalmanFilter.new, UnscentedKalmanFilter.spreadFactor, Fns.lit]
  have h := (UnscentedKalmanFilter.ukf_step (n := 2) (m := 1) (UnscentedKalmanFilter.new ![1, 2] 1 1 1) hs
    (by simp [UnscentedKalmanFilter.new]) (by
      rw [show (UnscentedKalmanFilter.new (n := 2) (m := 1) ![1, 2] 1 1 1 : UnscentedKalmanFilter 2 1 ℝ).covariance = 1
        from rfl, show (UnscentedKalmanFilter.new (n := 2) (m := 1) ![1, 2] 1 1 1 :
          UnscentedKalmanFilter 2 1 ℝ).regularization = 0 from rfl, zero_smul, add_zero]
      exact UnscentedKalmanFilter.pd_smul hs) pd_one.psd pd_one (fun x => ![|x 0|, x 0 * x 1]) (fun x => ![x 0]) ![3]).2.1
  have := h.add_pd (pd_one (n := 2))
  rwa [show (UnscentedKalmanFilter.new (n := 2) (m := 1) ![1, 2] 1 1 1 : UnscentedKalmanFilter 2 1 ℝ).processNoise = 1
    from rfl, sub_add_cancel] at this

end Multicalc
