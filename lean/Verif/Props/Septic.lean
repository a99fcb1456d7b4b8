import Verif.Model.MinimumSnap
import Verif.Props.PolynomialConstruction
import Verif.Props.Piecewise
import Verif.Props.Expm

/-!
# Degree-seven pieces from endpoint data (C71)
-/

namespace Multicalc
namespace Poly

open Polynomial Matrix

/-- The polynomial with the eight coefficients `c`. -/
noncomputable def septic (c : Fin 8 → ℝ) : ℝ[X] := ofCoeffs (List.ofFn c)

theorem septic_eq (c : Fin 8 → ℝ) : septic c = C (c 0) + C (c 1) * X + C (c 2) * X ^ 2 + C (c 3) * X ^ 3 +
    C (c 4) * X ^ 4 + C (c 5) * X ^ 5 + C (c 6) * X ^ 6 + C (c 7) * X ^ 7 := by
  simp only [septic, List.ofFn_succ, List.ofFn_zero, ofCoeffs]
  simp [Fin.succ]
  ring

/-- The value (order 0) and the derivatives of a piece at one of its ends, against the outer parameter. -/
theorem endpointMapping_spec (s : ℝ) (c : Fin 8 → ℝ) (k : Fin 4) :
    (endpointMapping s *ᵥ c) (Fin.castAdd 4 k) = (Polynomial.derivative^[k] (septic c)).eval 0 * (1 / s ^ k.val) ∧
    (endpointMapping s *ᵥ c) (Fin.natAdd 4 k) = (Polynomial.derivative^[k] (septic c)).eval 1 * (1 / s ^ k.val) := by
  rw [septic_eq]
  fin_cases k <;> constructor <;>
    simp [mulVec, dotProduct, Fin.sum_univ_eight, endpointMapping, startWays, endWays, spanRaised, List.range_succ,
      Fin.castAdd, Fin.natAdd, Fin.castLE, div_eq_mul_inv] <;> ring

/-- The coefficients of a degree-seven piece in terms of its values and derivatives at its ends. -/
noncomputable def septicInverse (s : ℝ) : Matrix (Fin 8) (Fin 8) ℝ :=
  !![1, 0, 0, 0, 0, 0, 0, 0;
     0, 1 * s ^ 1, 0, 0, 0, 0, 0, 0;
     0, 0, 1/2 * s ^ 2, 0, 0, 0, 0, 0;
     0, 0, 0, 1/6 * s ^ 3, 0, 0, 0, 0;
     -35, -20 * s ^ 1, -5 * s ^ 2, -2/3 * s ^ 3, 35, -15 * s ^ 1, 5/2 * s ^ 2, -1/6 * s ^ 3;
     84, 45 * s ^ 1, 10 * s ^ 2, 1 * s ^ 3, -84, 39 * s ^ 1, -7 * s ^ 2, 1/2 * s ^ 3;
     -70, -36 * s ^ 1, -15/2 * s ^ 2, -2/3 * s ^ 3, 70, -34 * s ^ 1, 13/2 * s ^ 2, -1/2 * s ^ 3;
     20, 10 * s ^ 1, 2 * s ^ 2, 1/6 * s ^ 3, -20, 10 * s ^ 1, -2 * s ^ 2, 1/6 * s ^ 3]

theorem septicInverse_spec {s : ℝ} (hs : s ≠ 0) : endpointMapping s * septicInverse s = 1 := by
  ext i j
  rw [Matrix.mul_apply, Fin.sum_univ_eight]
  fin_cases i <;> fin_cases j <;>
    simp [endpointMapping, septicInverse, startWays, endWays, spanRaised, List.range_succ] <;>
    (try field_simp) <;> (try norm_num)

theorem endpointMappingInverse_ok {largest s : ℝ} (hs : s ≠ 0) {Y : Matrix (Fin 8) (Fin 8) ℝ}
    (h : endpointMappingInverse largest s = .ok Y) : Y = septicInverse s := by
  have h1 := (inverse_correct largest _ _ h).2
  rw [mmul_eq, midentity_eq] at h1
  calc Y = Y * (endpointMapping s * septicInverse s) := by rw [septicInverse_spec hs, Matrix.mul_one]
    _ = septicInverse s := by rw [← Matrix.mul_assoc, h1, Matrix.one_mul]

theorem endpointMapping_maxAbs {s m : ℝ} (hs : 0 < s) (h0 : 1 ≤ m) (h1 : s⁻¹ ≤ m) (h2 : (s ^ 2)⁻¹ ≤ m)
    (h3 : (s ^ 3)⁻¹ ≤ m) : maxAbs (endpointMapping s) ≤ 210 * m := by
  apply maxAbs_le _ (by linarith)
  intro i j
  have p1 : 0 < s⁻¹ := by positivity
  have p2 : 0 < (s ^ 2)⁻¹ := by positivity
  have p3 : 0 < (s ^ 3)⁻¹ := by positivity
  have e2 : s * s = s ^ 2 := by ring
  have e3 : s ^ 2 * s = s ^ 3 := by ring
  fin_cases i <;> fin_cases j <;>
    simp [endpointMapping, startWays, endWays, spanRaised, List.range_succ, div_eq_mul_inv, abs_mul, abs_of_pos hs, e2, e3,
      -inv_pow] <;>
    norm_num [abs_of_pos hs, -inv_pow] <;> linarith

theorem septicInverse_rows {s m : ℝ} (hs : 0 < s) (h0 : 1 ≤ m) (h1 : s ≤ m) (h2 : s ^ 2 ≤ m) (h3 : s ^ 3 ≤ m) (i : Fin 8) :
    ∑ j, |septicInverse s i j| ≤ 271 * m := by
  have p2 : 0 < s ^ 2 := by positivity
  have p3 : 0 < s ^ 3 := by positivity
  rw [Fin.sum_univ_eight]
  fin_cases i <;> simp [septicInverse, abs_mul, abs_of_pos hs] <;>
    norm_num [abs_of_pos hs] <;> linarith

/-- The conditions are solved for every span between a four-thousandth and four thousand. -/
theorem endpointMappingInverse_accepts {largest s : ℝ} (hl : 1 ≤ largest) (h1 : 1 / 4000 ≤ s) (h2 : s ≤ 4000) :
    endpointMappingInverse largest s = .ok (septicInverse s) := by
  have hs : 0 < s := by linarith
  have hm : ∃ a b : ℝ, 1 ≤ a ∧ s⁻¹ ≤ a ∧ (s ^ 2)⁻¹ ≤ a ∧ (s ^ 3)⁻¹ ≤ a ∧ 1 ≤ b ∧ s ≤ b ∧ s ^ 2 ≤ b ∧ s ^ 3 ≤ b ∧
      a * b ≤ 4000 ^ 3 := by
    rcases le_total s 1 with h | h
    · have e1 : (1 : ℝ) ≤ s⁻¹ := (one_le_inv₀ hs).2 h
      have e2 : (s ^ 2)⁻¹ ≤ (s ^ 3)⁻¹ := by
        rw [← inv_pow, ← inv_pow]; exact pow_le_pow_right₀ e1 (by norm_num)
      have e3 : s⁻¹ ≤ (s ^ 3)⁻¹ := by
        rw [← inv_pow]; exact le_self_pow₀ e1 (by norm_num)
      refine ⟨(s ^ 3)⁻¹, 1, e1.trans e3, e3, e2, le_rfl, le_rfl, h, pow_le_one₀ hs.le h, pow_le_one₀ hs.le h, ?_⟩
      rw [mul_one, ← inv_pow]
      have : s⁻¹ ≤ 4000 := by
        rw [inv_le_comm₀ hs (by norm_num)]; linarith
      exact pow_le_pow_left₀ (by positivity) this 3
    · have e1 : s⁻¹ ≤ 1 := inv_le_one_of_one_le₀ h
      refine ⟨1, s ^ 3, le_rfl, e1, inv_le_one_of_one_le₀ (one_le_pow₀ h), inv_le_one_of_one_le₀ (one_le_pow₀ h),
        one_le_pow₀ h, le_self_pow₀ h (by norm_num), pow_le_pow_right₀ h (by norm_num), le_rfl, ?_⟩
      rw [one_mul]
      exact pow_le_pow_left₀ hs.le h2 3
  obtain ⟨a, b, a0, a1, a2, a3, b0, b1, b2, b3, hab⟩ := hm
  have hmax := endpointMapping_maxAbs hs a0 a1 a2 a3
  have hmax0 := maxAbs_nonneg (endpointMapping s)
  have ha : a ≤ 4000 ^ 3 := by nlinarith
  obtain ⟨f, hf⟩ := lu_accepts largest (endpointMapping s) (septicInverse s)
    (by rw [mmul_eq, midentity_eq]; exact septicInverse_spec hs.ne')
    (by norm_num at ha ⊢; linarith)
    (fun i => by
      have hr := septicInverse_rows hs b0 b1 b2 b3 i
      have h0 : 0 ≤ ∑ j, |septicInverse s i j| := Finset.sum_nonneg fun _ _ => abs_nonneg _
      have : maxAbs (endpointMapping s) * ∑ j, |septicInverse s i j| ≤ 210 * a * (271 * b) :=
        mul_le_mul hmax hr h0 (by linarith)
      rw [mul_assoc]
      norm_num at hab ⊢
      linarith)
  have hi : endpointMappingInverse largest s = .ok f.inverse := by
    simp only [endpointMappingInverse, minverse, hf]
  rw [hi, endpointMappingInverse_ok hs.ne' hi]

theorem le_maxAbs {r c : ℕ} (m : Matrix (Fin r) (Fin c) ℝ) (i : Fin r) (j : Fin c) : |m i j| ≤ maxAbs m := by
  have hin : ∀ (f : Fin c → ℝ) (l : List (Fin c)) (x : ℝ), x ≤ l.foldl (fun best j => max best (f j)) x ∧
      ∀ j ∈ l, f j ≤ l.foldl (fun best j => max best (f j)) x := by
    intro f l
    induction l with
    | nil => intro x; simp
    | cons k l ih =>
      intro x
      obtain ⟨g1, g2⟩ := ih (max x (f k))
      refine ⟨(le_max_left _ _).trans g1, fun j hj => ?_⟩
      rcases List.mem_cons.1 hj with rfl | hj
      · exact (le_max_right _ _).trans g1
      · exact g2 j hj
  have hout : ∀ (l : List (Fin r)) (x : ℝ), x ≤ l.foldl (fun best i =>
      (List.finRange c).foldl (fun best j => max best (Fns.abs (m i j))) best) x ∧
      ∀ i ∈ l, ∀ j, |m i j| ≤ l.foldl (fun best i =>
        (List.finRange c).foldl (fun best j => max best (Fns.abs (m i j))) best) x := by
    intro l
    induction l with
    | nil => intro x; simp
    | cons k l ih =>
      intro x
      obtain ⟨f1, f2⟩ := hin (fun j => Fns.abs (m k j)) (List.finRange c) x
      obtain ⟨g1, g2⟩ := ih ((List.finRange c).foldl (fun best j => max best (Fns.abs (m k j))) x)
      refine ⟨f1.trans g1, fun i hi j => ?_⟩
      rcases List.mem_cons.1 hi with rfl | hi
      · exact (f2 j (List.mem_finRange j)).trans g1
      · exact g2 i hi j
  exact (hout (List.finRange r) 0).2 i (List.mem_finRange i) j

/-- C71. The degree-seven piece built from endpoint data: when the call succeeds, the result has eight coefficients and its
value and first three derivatives at both ends, against the outer parameter, are exactly those given; no other polynomial
of degree at most seven has them.  The call succeeds for every span from a four-thousandth to four thousand; a span that is
not positive is refused as such. -/
theorem fromEndpointDerivatives_spec (largest : ℝ) (start finish : Fin 4 → ℝ) (span : ℝ) :
    (span ≤ 0 → fromEndpointDerivatives largest start finish span = .error .spanNotPositive) ∧
    (0 < span → ∀ e, fromEndpointDerivatives largest start finish span = .error e → e = .linalg) ∧
    (1 ≤ largest → 1 / 4000 ≤ span → span ≤ 4000 → ∃ p, fromEndpointDerivatives largest start finish span = .ok p) ∧
    (∀ p, fromEndpointDerivatives largest start finish span = .ok p → p.length = 8 ∧
      (∀ k : Fin 4, iteratedDeriv k (fun t => evaluate p (t / span)) 0 = start k ∧
        iteratedDeriv k (fun t => evaluate p (t / span)) span = finish k) ∧
      ∀ q : List ℝ, q.length = 8 → (∀ k : Fin 4, iteratedDeriv k (fun t => evaluate q (t / span)) 0 = start k ∧
        iteratedDeriv k (fun t => evaluate q (t / span)) span = finish k) → q = p) := by
  have hfin : ¬ ((!Fns.isFinite span || (List.ofFn start ++ List.ofFn finish).any (fun value => !Fns.isFinite value)) =
      true) := by
    simp [Fns.isFinite]
  have hdata : ∀ (s : ℝ), 0 < s → ∀ (c : Fin 8 → ℝ) (k : Fin 4),
      iteratedDeriv k (fun t => evaluate (List.ofFn c) (t / s)) 0 = (endpointMapping s *ᵥ c) (Fin.castAdd 4 k) ∧
      iteratedDeriv k (fun t => evaluate (List.ofFn c) (t / s)) s = (endpointMapping s *ᵥ c) (Fin.natAdd 4 k) := by
    intro s hs c k
    have := iteratedDeriv_piece (septic c) 0 s k
    simp only [sub_zero] at this
    simp only [evaluate_eq_eval]
    rw [(endpointMapping_spec s c k).1, (endpointMapping_spec s c k).2]
    rw [show (fun t => Polynomial.eval (t / s) (ofCoeffs (List.ofFn c))) = fun u => (septic c).eval (u / s) from rfl, this]
    simp [hs.ne']
  unfold fromEndpointDerivatives
  rw [if_neg hfin]
  refine ⟨fun h => by rw [if_pos h], fun h e he => ?_, fun hl h1 h2 => ?_, fun p hp => ?_⟩
  · rw [if_neg (not_le.2 h)] at he
    dsimp only at he
    cases hi : endpointMappingInverse largest span with
    | error e' => rw [hi] at he; simp only [Except.error.injEq] at he; exact he.symm
    | ok Y => rw [hi] at he; cases he
  · rw [if_neg (by linarith), endpointMappingInverse_accepts hl h1 h2]
    exact ⟨_, rfl⟩
  · by_cases h : span ≤ 0
    · rw [if_pos h] at hp; cases hp
    · rw [if_neg h] at hp
      have hs : 0 < span := not_le.1 h
      dsimp only at hp
      cases hi : endpointMappingInverse largest span with
      | error e' => rw [hi] at hp; cases hp
      | ok Y =>
        rw [hi] at hp
        have hY := endpointMappingInverse_ok hs.ne' hi
        simp only [Except.ok.injEq] at hp
        rw [mmulVec_eq, hY] at hp
        have hc : endpointMapping span *ᵥ (septicInverse span *ᵥ Fin.append start finish) = Fin.append start finish := by
          rw [Matrix.mulVec_mulVec, septicInverse_spec hs.ne', Matrix.one_mulVec]
        subst hp
        refine ⟨by simp, fun k => ?_, fun q hq hk => ?_⟩
        · rw [(hdata span hs _ k).1, (hdata span hs _ k).2, hc]
          simp [-Fin.natAdd_eq_addNat]
        · obtain ⟨c, rfl⟩ : ∃ c : Fin 8 → ℝ, q = List.ofFn c :=
            ⟨fun i => q[i.val], by
              apply List.ext_getElem
              · simp [hq]
              · intro i h1 h2; rw [List.getElem_ofFn]⟩
          congr 1
          have h5 : endpointMapping span *ᵥ c = Fin.append start finish := by
            funext i
            refine Fin.addCases (m := 4) (n := 4) (motive := fun i => (endpointMapping span *ᵥ c) i =
              Fin.append start finish i) (fun k => ?_) (fun k => ?_) i
            · rw [← (hdata span hs c k).1, (hk k).1, Fin.append_left]
            · rw [← (hdata span hs c k).2, (hk k).2, Fin.append_right]
          have h6 : septicInverse span * endpointMapping span = 1 := mul_eq_one_comm.1 (septicInverse_spec hs.ne')
          rw [← h5, Matrix.mulVec_mulVec, h6, Matrix.one_mulVec]

example : ∃ p, fromEndpointDerivatives (10 ^ 30 : ℝ) ![0, 0, 0, 0] ![10, 0, 0, 0] 2 = .ok p :=
  (fromEndpointDerivatives_spec _ _ _ 2).2.2.1 (by norm_num) (by norm_num) (by norm_num)

/-- C71 (finding). The eight conditions always have exactly one solution, but the call reports that they cannot be solved
for short spans: in exact arithmetic, for every span up to a thirty-thousandth. -/
theorem fromEndpointDerivatives_short (largest : ℝ) (start finish : Fin 4 → ℝ) (span : ℝ) (h0 : 0 < span)
    (h1 : span ≤ 1 / 30000) : fromEndpointDerivatives largest start finish span = .error .linalg := by
  cases hr : fromEndpointDerivatives largest start finish span with
  | error e => rw [(fromEndpointDerivatives_spec largest start finish span).2.1 h0 e hr]
  | ok p =>
    exfalso
    unfold fromEndpointDerivatives at hr
    rw [if_neg (by simp [Fns.isFinite]), if_neg (not_le.2 h0)] at hr
    dsimp only at hr
    cases hi : endpointMappingInverse largest span with
    | error e' => rw [hi] at hr; cases hr
    | ok Y =>
      simp only [endpointMappingInverse, minverse] at hi
      cases hf : luDecompose largest (endpointMapping span) with
      | error e' => rw [hf] at hi; cases hi
      | ok f =>
        obtain ⟨σ, -, -, hA, hl1, hl2, -, hu, hp⟩ := lu_factors largest _ f hf
        have e0 := hA 0 0
        rw [mmul_eq, Matrix.mul_apply, Finset.sum_eq_single 0 (fun j _ hj => by
          rw [hl2 0 j (Fin.pos_of_ne_zero hj), zero_mul]) (by simp), hl1, one_mul] at e0
        have hp0 := hp 0
        rw [e0] at hp0
        have hle : |endpointMapping span (f.perm 0) 0| ≤ 1 := by
          generalize f.perm 0 = i
          fin_cases i <;> simp [endpointMapping]
        have hm := le_maxAbs (endpointMapping span) 7 7
        have h77 : endpointMapping span 7 7 = 210 * (span ^ 3)⁻¹ := by
          simp [endpointMapping, endWays, spanRaised, List.range_succ, div_eq_mul_inv]
          ring
        have h3 : (30000 : ℝ) ^ 3 ≤ (span ^ 3)⁻¹ := by
          rw [← inv_pow]
          refine pow_le_pow_left₀ (by norm_num) ?_ 3
          rw [le_inv_comm₀ (by norm_num) h0]; linarith
        rw [h77, abs_of_pos (by positivity)] at hm
        norm_num at h3 hp0
        linarith

example : (0 : ℝ) < 1 / 100000 ∧ (1 / 100000 : ℝ) ≤ 1 / 30000 := by norm_num

end Poly
end Multicalc
