import Verif.Model.Ode
import Mathlib.LinearAlgebra.Matrix.ToLin
import Mathlib.Data.Matrix.Mul
import Mathlib.Analysis.Calculus.Deriv.Basic
import Mathlib.Analysis.Calculus.Deriv.Pow
import Mathlib.Analysis.Calculus.Deriv.Mul
import Mathlib.Analysis.Calculus.Deriv.Add
import Mathlib.Tactic

/-!
# Properties C20–C23: Runge–Kutta integrators
-/

namespace Multicalc
open Matrix
variable {T : Type} {n : ℕ}

/-! ## RK4 (C20) -/

section
variable [One T] [NatCast T] [Add T] [Mul T] [Div T]

/-- C20. Every scalar, every right-hand side: the observer is called exactly `steps + 1` times, the
`k`-th call sees the `k`-th iterate of one step from the initial condition, and the returned state is
the one seen last. -/
theorem rk4_observer (f : T → (Fin n → T) → (Fin n → T)) (t₀ : T) (y₀ : Fin n → T) (h : T)
    (steps : ℕ) :
    (rk4Integrate f t₀ y₀ h steps).1 = (List.range (steps + 1)).map
      (fun k => (fun p : T × (Fin n → T) => (p.1 + h, rk4Step f p.1 p.2 h))^[k] (t₀, y₀)) ∧
    (rk4Integrate f t₀ y₀ h steps).2 =
      ((fun p : T × (Fin n → T) => (p.1 + h, rk4Step f p.1 p.2 h))^[steps] (t₀, y₀)).2 := by
  have key : ∀ (steps : ℕ) (t : T) (y : Fin n → T),
      (t, y) :: (rk4Loop f h steps t y).1 = (List.range (steps + 1)).map
        (fun k => (fun p : T × (Fin n → T) => (p.1 + h, rk4Step f p.1 p.2 h))^[k] (t, y)) ∧
      (rk4Loop f h steps t y).2 =
        ((fun p : T × (Fin n → T) => (p.1 + h, rk4Step f p.1 p.2 h))^[steps] (t, y)).2 := by
    intro steps
    induction steps with
    | zero => intro t y; simp [rk4Loop]
    | succ m ih =>
      intro t y
      obtain ⟨i1, i2⟩ := ih (t + h) (rk4Step f t y h)
      rw [List.range_succ_eq_map]
      simp only [rk4Loop, List.map_cons, List.map_map, Function.iterate_zero, id_eq, i2]
      refine ⟨?_, by rw [Function.iterate_succ_apply]⟩
      rw [i1]
      simp [Function.comp_def, Function.iterate_succ_apply]
  exact key steps t₀ y₀

end

theorem rk4_times (f : ℝ → (Fin n → ℝ) → (Fin n → ℝ)) (t₀ : ℝ) (y₀ : Fin n → ℝ) (h : ℝ) (k : ℕ) :
    ((fun p : ℝ × (Fin n → ℝ) => (p.1 + h, rk4Step f p.1 p.2 h))^[k] (t₀, y₀)).1 = t₀ + k * h := by
  induction k with
  | zero => simp
  | succ k ih => rw [Function.iterate_succ_apply']; simp only [ih]; push_cast; ring

/-- Antiderivative of the cubic `a + b t + c t² + d t³`. -/
noncomputable def cubicPrimitive (a b c d t : ℝ) : ℝ :=
  a * t + b * t ^ 2 / 2 + c * t ^ 3 / 3 + d * t ^ 4 / 4

/-- C20. A right-hand side that is a cubic in time is integrated exactly, over any number of steps of
any size, at every node. -/
theorem rk4_cubic_exact (a b c d : Fin n → ℝ) (t₀ : ℝ) (y₀ : Fin n → ℝ) (h : ℝ) (steps : ℕ) :
    (rk4Integrate (fun t _ i => a i + b i * t + c i * t ^ 2 + d i * t ^ 3) t₀ y₀ h steps).1 =
      (List.range (steps + 1)).map (fun k : ℕ => (t₀ + k * h, fun i =>
        y₀ i + cubicPrimitive (a i) (b i) (c i) (d i) (t₀ + k * h) -
          cubicPrimitive (a i) (b i) (c i) (d i) t₀)) := by
  rw [(rk4_observer _ t₀ y₀ h steps).1]
  apply List.map_congr_left
  intro k hk
  clear hk
  induction k with
  | zero => simp
  | succ k ih =>
    rw [Function.iterate_succ_apply', ih]
    simp only [Prod.mk.injEq]
    refine ⟨by push_cast; ring, ?_⟩
    funext i
    simp only [rk4Step, vscale, Pi.add_apply, cubicPrimitive]
    push_cast
    field_simp
    ring

/-- C20. On every linear system `y' = A y` one step applies the degree-four Taylor polynomial of the
exponential of `h A`. -/
theorem rk4_linear (A : Matrix (Fin n) (Fin n) ℝ) (t h : ℝ) (y : Fin n → ℝ) :
    rk4Step (fun _ y => A *ᵥ y) t y h =
      y + h • (A *ᵥ y) + (h ^ 2 / 2) • (A ^ 2 *ᵥ y) + (h ^ 3 / 6) • (A ^ 3 *ᵥ y) +
        (h ^ 4 / 24) • (A ^ 4 *ᵥ y) := by
  have hv : ∀ (v : Fin n → ℝ) (c : ℝ), vscale v c = c • v := by
    intro v c; funext i; simp [vscale, mul_comm]
  have e2 : A ^ 2 *ᵥ y = A *ᵥ (A *ᵥ y) := by rw [pow_two, mulVec_mulVec]
  have e3 : A ^ 3 *ᵥ y = A *ᵥ (A *ᵥ (A *ᵥ y)) := by
    rw [pow_succ', mulVec_mulVec, mulVec_mulVec, pow_two, Matrix.mul_assoc]
  have e4 : A ^ 4 *ᵥ y = A *ᵥ (A *ᵥ (A *ᵥ (A *ᵥ y))) := by
    simp only [mulVec_mulVec]; congr 1; simp only [pow_succ, pow_zero, one_mul, Matrix.mul_assoc]
  rw [e2, e3, e4]
  simp only [rk4Step, hv, mulVec_add, mulVec_smul]
  funext i
  simp only [Pi.add_apply, Pi.smul_apply, smul_eq_mul]
  push_cast
  ring

example : rk4Step (fun _ (y : Fin 1 → ℝ) => (1 : Matrix (Fin 1) (Fin 1) ℝ) *ᵥ y) 0 (fun _ => 1) 1 =
    fun _ => 65 / 24 := by
  rw [rk4_linear]
  funext i
  simp
  norm_num

/-! ## The Dormand–Prince pair (C21) -/

/-- The stage matrix read off the code's constants. -/
def dopriA : Matrix (Fin 7) (Fin 7) ℚ :=
  !![0, 0, 0, 0, 0, 0, 0;
     Dopri.a21, 0, 0, 0, 0, 0, 0;
     Dopri.a31, Dopri.a32, 0, 0, 0, 0, 0;
     Dopri.a41, Dopri.a42, Dopri.a43, 0, 0, 0, 0;
     Dopri.a51, Dopri.a52, Dopri.a53, Dopri.a54, 0, 0, 0;
     Dopri.a61, Dopri.a62, Dopri.a63, Dopri.a64, Dopri.a65, 0, 0;
     Dopri.weight1, 0, Dopri.weight3, Dopri.weight4, Dopri.weight5, Dopri.weight6, 0]

/-- The nodes. -/
def dopriC : Fin 7 → ℚ := ![0, Dopri.node2, Dopri.node3, Dopri.node4, Dopri.node5, 1, 1]

/-- The weights of the propagated solution. -/
def dopriB : Fin 7 → ℚ :=
  ![Dopri.weight1, 0, Dopri.weight3, Dopri.weight4, Dopri.weight5, Dopri.weight6, 0]

/-- The error weights. -/
def dopriE : Fin 7 → ℚ :=
  ![Dopri.error1, 0, Dopri.error3, Dopri.error4, Dopri.error5, Dopri.error6, Dopri.error7]

/-- C21. The step is the explicit Runge–Kutta method with that stage matrix, those nodes and those
weights: for every right-hand side there are stages satisfying the Runge–Kutta equations from which
the returned state, error and last stage are formed. -/
theorem dopri_is_rungeKutta (f : ℝ → (Fin n → ℝ) → (Fin n → ℝ)) (t h : ℝ) (y : Fin n → ℝ) :
    ∃ K : Fin 7 → (Fin n → ℝ),
      (∀ i, K i = f (t + (dopriC i : ℝ) * h)
        (fun k => y k + h * ∑ j, (dopriA i j : ℝ) * K j k)) ∧
      (dopriStep f t y h (f t y)).1 = (fun k => y k + h * ∑ j, (dopriB j : ℝ) * K j k) ∧
      (dopriStep f t y h (f t y)).2.1 = (fun k => h * ∑ j, (dopriE j : ℝ) * K j k) ∧
      (dopriStep f t y h (f t y)).2.2 = K 6 := by
  unfold dopriStep
  simp only [Fns.lit]
  obtain ⟨k1, hk1⟩ : ∃ k, k = f t y := ⟨_, rfl⟩
  obtain ⟨k2, hk2⟩ : ∃ k, k = f (t + (Dopri.node2 : ℝ) * h)
    (y + vscale k1 ((Dopri.a21 : ℝ) * h)) := ⟨_, rfl⟩
  obtain ⟨k3, hk3⟩ : ∃ k, k = f (t + (Dopri.node3 : ℝ) * h)
    (y + vscale k1 ((Dopri.a31 : ℝ) * h) + vscale k2 ((Dopri.a32 : ℝ) * h)) := ⟨_, rfl⟩
  obtain ⟨k4, hk4⟩ : ∃ k, k = f (t + (Dopri.node4 : ℝ) * h)
    (y + vscale k1 ((Dopri.a41 : ℝ) * h) + vscale k2 ((Dopri.a42 : ℝ) * h)
      + vscale k3 ((Dopri.a43 : ℝ) * h)) := ⟨_, rfl⟩
  obtain ⟨k5, hk5⟩ : ∃ k, k = f (t + (Dopri.node5 : ℝ) * h)
    (y + vscale k1 ((Dopri.a51 : ℝ) * h) + vscale k2 ((Dopri.a52 : ℝ) * h)
      + vscale k3 ((Dopri.a53 : ℝ) * h) + vscale k4 ((Dopri.a54 : ℝ) * h)) := ⟨_, rfl⟩
  obtain ⟨k6, hk6⟩ : ∃ k, k = f (t + h)
    (y + vscale k1 ((Dopri.a61 : ℝ) * h) + vscale k2 ((Dopri.a62 : ℝ) * h)
      + vscale k3 ((Dopri.a63 : ℝ) * h) + vscale k4 ((Dopri.a64 : ℝ) * h)
      + vscale k5 ((Dopri.a65 : ℝ) * h)) := ⟨_, rfl⟩
  obtain ⟨k7, hk7⟩ : ∃ k, k = f (t + h)
    (y + vscale (vscale k1 (Dopri.weight1 : ℝ) + vscale k3 (Dopri.weight3 : ℝ)
      + vscale k4 (Dopri.weight4 : ℝ) + vscale k5 (Dopri.weight5 : ℝ)
      + vscale k6 (Dopri.weight6 : ℝ)) h) := ⟨_, rfl⟩
  simp only [← hk1, ← hk2, ← hk3, ← hk4, ← hk5, ← hk6, ← hk7]
  refine ⟨![k1, k2, k3, k4, k5, k6, k7], ?_, ?_, ?_, ?_⟩
  · intro i
    fin_cases i
    · simp [dopriC, dopriA, Fin.sum_univ_succ, hk1]
    · simp only [dopriC, dopriA, Fin.sum_univ_succ, hk2]
      simp
      congr 1; funext k; simp [vscale]; ring
    · simp only [dopriC, dopriA, Fin.sum_univ_succ, hk3]
      simp
      congr 1; funext k; simp [vscale]; ring
    · simp only [dopriC, dopriA, Fin.sum_univ_succ, hk4]
      simp
      congr 1; funext k; simp [vscale]; ring
    · simp only [dopriC, dopriA, Fin.sum_univ_succ, hk5]
      simp
      congr 1; funext k; simp [vscale]; ring
    · simp only [dopriC, dopriA, Fin.sum_univ_succ, hk6]
      simp
      congr 1; funext k; simp [vscale]; ring
    · simp only [dopriC, dopriA, Fin.sum_univ_succ, hk7]
      simp
      congr 1; funext k; simp [vscale]; ring
  · funext k
    simp [dopriB, Fin.sum_univ_succ, vscale]; ring
  · funext k
    simp [dopriE, Fin.sum_univ_succ, vscale]; ring
  · rfl

/-- Butcher's order conditions for the eight rooted trees with at most four vertices. -/
def OrderFour (A : Matrix (Fin 7) (Fin 7) ℚ) (b c : Fin 7 → ℚ) : Prop :=
  b ⬝ᵥ 1 = 1 ∧ b ⬝ᵥ c = 1 / 2 ∧
  b ⬝ᵥ (c * c) = 1 / 3 ∧ b ⬝ᵥ (A *ᵥ c) = 1 / 6 ∧
  b ⬝ᵥ (c * c * c) = 1 / 4 ∧ b ⬝ᵥ (c * (A *ᵥ c)) = 1 / 8 ∧
  b ⬝ᵥ (A *ᵥ (c * c)) = 1 / 12 ∧ b ⬝ᵥ (A *ᵥ (A *ᵥ c)) = 1 / 24

/-- The nine conditions for the rooted trees with five vertices. -/
def OrderFive (A : Matrix (Fin 7) (Fin 7) ℚ) (b c : Fin 7 → ℚ) : Prop :=
  b ⬝ᵥ (c * c * c * c) = 1 / 5 ∧ b ⬝ᵥ (c * c * (A *ᵥ c)) = 1 / 10 ∧
  b ⬝ᵥ ((A *ᵥ c) * (A *ᵥ c)) = 1 / 20 ∧ b ⬝ᵥ (c * (A *ᵥ (c * c))) = 1 / 15 ∧
  b ⬝ᵥ (A *ᵥ (c * c * c)) = 1 / 20 ∧ b ⬝ᵥ (c * (A *ᵥ (A *ᵥ c))) = 1 / 30 ∧
  b ⬝ᵥ (A *ᵥ (c * (A *ᵥ c))) = 1 / 40 ∧ b ⬝ᵥ (A *ᵥ (A *ᵥ (c * c))) = 1 / 60 ∧
  b ⬝ᵥ (A *ᵥ (A *ᵥ (A *ᵥ c))) = 1 / 120

theorem dopri_Ac : dopriA *ᵥ dopriC = ![0, 0, 9 / 200, 8 / 25, 32 / 81, 1 / 2, 1 / 2] := by
  funext i
  fin_cases i <;> simp [dopriA, dopriC, mulVec, dotProduct, Fin.sum_univ_succ, Dopri.a21, Dopri.a31,
    Dopri.a32, Dopri.a41, Dopri.a42, Dopri.a43, Dopri.a51, Dopri.a52, Dopri.a53, Dopri.a54,
    Dopri.a61, Dopri.a62, Dopri.a63, Dopri.a64, Dopri.a65, Dopri.weight1, Dopri.weight3,
    Dopri.weight4, Dopri.weight5, Dopri.weight6, Dopri.node2, Dopri.node3, Dopri.node4,
    Dopri.node5] <;> norm_num

/-- C21. The propagated solution satisfies all seventeen order conditions up to order five, the rows
sum to the nodes, the last row equals the weights (first same as last), the method is explicit, and
the error weights are the difference with an embedded formula of order four (and not five). -/
theorem dopri_order_conditions :
    (∀ i, ∑ j, dopriA i j = dopriC i) ∧ (∀ i j, i ≤ j → dopriA i j = 0) ∧ dopriA 6 = dopriB ∧
    OrderFour dopriA dopriB dopriC ∧ OrderFive dopriA dopriB dopriC ∧
    OrderFour dopriA (dopriB - dopriE) dopriC ∧ ¬ OrderFive dopriA (dopriB - dopriE) dopriC := by
  refine ⟨?_, ?_, ?_, ?_, ?_, ?_, ?_⟩
  · intro i
    fin_cases i <;> simp [dopriA, dopriC, Fin.sum_univ_succ, Dopri.a21, Dopri.a31,
      Dopri.a32, Dopri.a41, Dopri.a42, Dopri.a43, Dopri.a51, Dopri.a52, Dopri.a53, Dopri.a54,
      Dopri.a61, Dopri.a62, Dopri.a63, Dopri.a64, Dopri.a65, Dopri.weight1, Dopri.weight3,
      Dopri.weight4, Dopri.weight5, Dopri.weight6, Dopri.node2, Dopri.node3, Dopri.node4,
      Dopri.node5] <;> norm_num
  · intro i j hij
    fin_cases i <;> fin_cases j <;> first | rfl | (exact absurd hij (by decide))
  · funext j; fin_cases j <;> rfl
  all_goals
    simp only [OrderFour, OrderFive, dopri_Ac]
    simp [dopriA, dopriB, dopriC, dopriE, mulVec, dotProduct, Fin.sum_univ_succ, Dopri.a21,
      Dopri.a31, Dopri.a32, Dopri.a41, Dopri.a42, Dopri.a43, Dopri.a51, Dopri.a52, Dopri.a53,
      Dopri.a54, Dopri.a61, Dopri.a62, Dopri.a63, Dopri.a64, Dopri.a65, Dopri.weight1,
      Dopri.weight3, Dopri.weight4, Dopri.weight5, Dopri.weight6, Dopri.node2, Dopri.node3,
      Dopri.node4, Dopri.node5, Dopri.error1, Dopri.error3, Dopri.error4, Dopri.error5,
      Dopri.error6, Dopri.error7]
    try norm_num

/-- C21. On every linear system the step is the Taylor polynomial of degree five of the exponential
plus `(hA)^6 / 600`, the known stability polynomial of the pair. -/
theorem dopri_linear (A : Matrix (Fin n) (Fin n) ℝ) (t h : ℝ) (y : Fin n → ℝ) :
    (dopriStep (fun _ y => A *ᵥ y) t y h (A *ᵥ y)).1 =
      y + h • (A *ᵥ y) + (h ^ 2 / 2) • (A ^ 2 *ᵥ y) + (h ^ 3 / 6) • (A ^ 3 *ᵥ y) +
        (h ^ 4 / 24) • (A ^ 4 *ᵥ y) + (h ^ 5 / 120) • (A ^ 5 *ᵥ y) +
        (h ^ 6 / 600) • (A ^ 6 *ᵥ y) := by
  have hv : ∀ (v : Fin n → ℝ) (c : ℝ), vscale v c = c • v := by
    intro v c; funext i; simp [vscale, mul_comm]
  have e : ∀ k, A ^ (k + 1) *ᵥ y = A *ᵥ (A ^ k *ᵥ y) := by
    intro k; rw [pow_succ', mulVec_mulVec]
  rw [e 5, e 4, e 3, e 2, e 1, pow_one]
  simp only [dopriStep, hv, mulVec_add, mulVec_smul, Fns.lit]
  funext i
  simp only [Pi.add_apply, Pi.smul_apply, smul_eq_mul, Dopri.a21, Dopri.a31, Dopri.a32, Dopri.a41,
    Dopri.a42, Dopri.a43, Dopri.a51, Dopri.a52, Dopri.a53,
    Dopri.a54, Dopri.a61, Dopri.a62, Dopri.a63, Dopri.a64, Dopri.a65, Dopri.weight1,
    Dopri.weight3, Dopri.weight4, Dopri.weight5, Dopri.weight6]
  push_cast
  ring

/-- C21. A right-hand side that is a quartic in time is stepped exactly, and on a cubic the error
estimate is zero, for every step size. -/
theorem dopri_time_polynomial (a b c d e : Fin n → ℝ) (t h : ℝ) (y : Fin n → ℝ) :
    let f : ℝ → (Fin n → ℝ) → (Fin n → ℝ) :=
      fun t _ i => a i + b i * t + c i * t ^ 2 + d i * t ^ 3 + e i * t ^ 4
    (dopriStep f t y h (f t y)).1 = (fun i => y i +
      (cubicPrimitive (a i) (b i) (c i) (d i) (t + h) + e i * (t + h) ^ 5 / 5) -
      (cubicPrimitive (a i) (b i) (c i) (d i) t + e i * t ^ 5 / 5)) ∧
    (e = 0 → (dopriStep f t y h (f t y)).2.1 = 0) := by
  constructor
  · funext i
    simp only [dopriStep, Fns.lit, vscale, Pi.add_apply, cubicPrimitive, Dopri.weight1,
      Dopri.weight3, Dopri.weight4, Dopri.weight5, Dopri.weight6, Dopri.node2, Dopri.node3,
      Dopri.node4, Dopri.node5]
    push_cast
    field_simp
    ring
  · rintro rfl
    funext i
    simp only [dopriStep, Fns.lit, vscale, Pi.add_apply, Pi.zero_apply, Dopri.error1,
      Dopri.error3, Dopri.error4, Dopri.error5, Dopri.error6, Dopri.error7, Dopri.node2,
      Dopri.node3, Dopri.node4, Dopri.node5]
    push_cast
    field_simp
    ring

end Multicalc
