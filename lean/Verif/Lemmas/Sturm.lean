import Verif.Lemmas.Polynomial
import Verif.Model.PolynomialRoots
import Mathlib.Topology.LocallyConstant.Basic
import Mathlib.Topology.Algebra.Polynomial
import Mathlib.Topology.Order.LeftRightNhds
import Mathlib.Topology.Order.DenselyOrdered

/-!
# Sturm's theorem

Sign variations of a chain of polynomials, up to the point where they count roots.
-/

namespace Multicalc
namespace Poly

open Polynomial Filter Topology

/-- Sign variations in a list of values; zeros are skipped; `prev` is the sign before the list. -/
noncomputable def sgnVar : Option Bool → List ℝ → ℕ
  | _, [] => 0
  | prev, v :: vs =>
    if v = 0 then sgnVar prev vs
    else (if prev = some (!decide (0 < v)) then 1 else 0) + sgnVar (some (decide (0 < v))) vs

theorem signChangesLoop_eq (x : ℝ) (prev : Option Bool) (n : ℕ) (chain : List (List ℝ)) :
    signChangesLoop x prev n chain = n + sgnVar prev (chain.map fun p => evaluate p x) := by
  induction chain generalizing prev n with
  | nil => simp [signChangesLoop, sgnVar]
  | cons p ps ih =>
    simp only [signChangesLoop, List.map_cons, sgnVar, beq_iff_eq]
    by_cases h : evaluate p x = 0
    · simp [h, ih]
    · rw [if_neg h, if_neg h, ih]
      cases prev with
      | none => simp
      | some q => cases q <;> by_cases hp : 0 < evaluate p x <;> simp [hp] <;> omega

theorem signChanges_eq (chain : List (List ℝ)) (x : ℝ) :
    signChanges chain x = sgnVar none ((chain.map ofCoeffs).map fun p => p.eval x) := by
  rw [signChanges, signChangesLoop_eq]
  simp [List.map_map, Function.comp_def, evaluate_eq_eval]

/-- The properties of a Sturm chain away from its head. -/
def SturmTail : List ℝ[X] → Prop
  | [] => False
  | [q] => ∀ x, q.eval x ≠ 0
  | [_, r] => ∀ x, r.eval x ≠ 0
  | q :: r :: s :: rest =>
    (∀ x, r.eval x = 0 → q.eval x * s.eval x < 0) ∧ SturmTail (r :: s :: rest)

theorem SturmTail.tail {q r : ℝ[X]} {rest : List ℝ[X]} (h : SturmTail (q :: r :: rest)) :
    SturmTail (r :: rest) := by
  cases rest with
  | nil => exact h
  | cons s rest => exact h.2

theorem SturmTail.coprime {q r : ℝ[X]} {rest : List ℝ[X]} (h : SturmTail (q :: r :: rest)) (x : ℝ)
    (hq : q.eval x = 0) : r.eval x ≠ 0 := by
  cases rest with
  | nil => exact h x
  | cons s rest =>
    intro hr
    have := h.1 x hr
    rw [hq, zero_mul] at this
    exact lt_irrefl _ this

theorem eventually_sign {q : ℝ[X]} {c : ℝ} (h : q.eval c ≠ 0) :
    ∀ᶠ x in 𝓝 c, q.eval x ≠ 0 ∧ (0 < q.eval x ↔ 0 < q.eval c) := by
  have hc : ContinuousAt (fun x => q.eval x) c := q.continuous.continuousAt
  rcases lt_or_gt_of_ne h with h1 | h1
  · filter_upwards [hc.eventually_lt_const h1] with x hx
    exact ⟨hx.ne, by constructor <;> intro h2 <;> linarith⟩
  · filter_upwards [hc.eventually_const_lt h1] with x hx
    exact ⟨hx.ne', by constructor <;> intro _ <;> assumption⟩

theorem sgnVar_tail_eventually : ∀ (n : ℕ) (q : ℝ[X]) (rest : List ℝ[X]), rest.length ≤ n →
    SturmTail (q :: rest) → ∀ c, q.eval c ≠ 0 →
    ∀ᶠ x in 𝓝 c, ∀ prev, sgnVar prev ((q :: rest).map fun p => p.eval x) =
      sgnVar prev ((q :: rest).map fun p => p.eval c) := by
  intro n
  induction n using Nat.strong_induction_on with
  | _ n ih =>
    intro q rest hlen hst c hq
    cases rest with
    | nil =>
      filter_upwards [eventually_sign hq] with x hx prev
      simp [sgnVar, hx.1, hq, hx.2]
    | cons r rest =>
      simp only [List.length_cons] at hlen
      by_cases hr : r.eval c = 0
      · cases rest with
        | nil => exact absurd hr (hst c)
        | cons s rest =>
          simp only [List.length_cons] at hlen
          have hqs := hst.1 c hr
          have hs : s.eval c ≠ 0 := by
            intro h; rw [h, mul_zero] at hqs; exact lt_irrefl _ hqs
          filter_upwards [eventually_sign hq, eventually_sign hs,
            ih (n - 2) (by omega) s rest (by omega) hst.2.tail c hs] with x hx1 hx2 hx3 prev
          have h3 := hx3
          simp only [List.map_cons, sgnVar, hx2.1, hs, if_false, hx2.2] at h3
          simp only [List.map_cons, sgnVar, hx1.1, hq, hx2.1, hs, hr, if_false, if_true, hx1.2, hx2.2]
          congr 1
          have e1 := h3 (some (decide (0 < q.eval c)))
          by_cases hrx : r.eval x = 0
          · simp only [hrx, if_true]; exact e1
          · simp only [hrx, if_false]
            rw [← e1]
            rcases lt_or_gt_of_ne hq with h1 | h1
            · have h2 : 0 < s.eval c := by
                by_contra hcon; nlinarith [not_lt.mp hcon]
              by_cases h4 : 0 < r.eval x <;> simp [h1.not_gt, h2, h4]
            · have h2 : s.eval c < 0 := by
                by_contra hcon; nlinarith [not_lt.mp hcon]
              by_cases h4 : 0 < r.eval x <;> simp [h1, h2.not_gt, h4]
      · filter_upwards [eventually_sign hq, ih (n - 1) (by omega) r rest (by omega) hst.tail c hr]
          with x hx1 hx2 prev
        simp only [List.map_cons] at hx2 ⊢
        rw [sgnVar, if_neg hx1.1, hx2]
        conv_rhs => rw [sgnVar, if_neg hq]
        simp only [hx1.2]

/-- The number of points of `Z` up to `x`. -/
def countUpTo (Z : Finset ℝ) (x : ℝ) [DecidablePred fun r : ℝ => r ≤ x] : ℕ :=
  (Z.filter fun r => r ≤ x).card

open Classical in
theorem countUpTo_eventually (Z : Finset ℝ) (c : ℝ) :
    (∀ᶠ x in 𝓝[>] c, countUpTo Z x = countUpTo Z c) ∧
    (∀ᶠ x in 𝓝[<] c, countUpTo Z x + (if c ∈ Z then 1 else 0) = countUpTo Z c) := by
  have hev : ∀ᶠ x in 𝓝 c, ∀ r ∈ Z, r ≠ c → (r ≤ x ↔ r ≤ c) := by
    rw [Filter.eventually_all_finset]
    intro r _
    rcases lt_trichotomy r c with h | h | h
    · filter_upwards [eventually_gt_nhds h] with x hx _
      exact ⟨fun _ => h.le, fun _ => (le_of_lt hx)⟩
    · exact Filter.Eventually.of_forall fun x hne => absurd h hne
    · filter_upwards [eventually_lt_nhds h] with x hx _
      exact ⟨fun h2 => absurd hx (not_lt.mpr h2), fun h2 => absurd h (not_lt.mpr h2)⟩
  constructor
  · filter_upwards [nhdsWithin_le_nhds hev, self_mem_nhdsWithin] with x hx hxc
    have hxc : c < x := hxc
    unfold countUpTo
    congr 1
    apply Finset.filter_congr
    intro r hr
    by_cases h : r = c
    · subst h; exact ⟨fun _ => le_rfl, fun _ => hxc.le⟩
    · exact hx r hr h
  · filter_upwards [nhdsWithin_le_nhds hev, self_mem_nhdsWithin] with x hx hxc
    have hxc : x < c := hxc
    unfold countUpTo
    have h1 : Z.filter (fun r => r ≤ x) = (Z.filter fun r => r ≤ c).erase c := by
      ext r
      rw [Finset.mem_erase, Finset.mem_filter, Finset.mem_filter]
      constructor
      · rintro ⟨h1, h2⟩
        have hne : r ≠ c := fun h => by rw [h] at h2; linarith
        exact ⟨hne, h1, (hx r h1 hne).mp h2⟩
      · rintro ⟨hne, h1, h2⟩
        exact ⟨h1, (hx r h1 hne).mpr h2⟩
    rw [h1, Finset.card_erase_eq_ite]
    by_cases hc : c ∈ Z
    · have hmem : c ∈ Z.filter fun r => r ≤ c := by simp [hc]
      have hpos : 0 < (Z.filter fun r => r ≤ c).card := Finset.card_pos.mpr ⟨c, hmem⟩
      rw [if_pos hmem, if_pos hc]; omega
    · rw [if_neg (by simp [hc]), if_neg hc]; rfl

open Classical in
/-- Sturm's theorem for a chain whose members have no common factor. -/
theorem sturm_coprime (q0 q1 : ℝ[X]) (rest : List ℝ[X]) (h0 : q0 ≠ 0)
    (hst : SturmTail (q0 :: q1 :: rest))
    (hright : ∀ c, q0.eval c = 0 → ∀ᶠ x in 𝓝[>] c, 0 < q0.eval x * q1.eval x)
    (hleft : ∀ c, q0.eval c = 0 → ∀ᶠ x in 𝓝[<] c, q0.eval x * q1.eval x < 0) (a b : ℝ) :
    sgnVar none ((q0 :: q1 :: rest).map fun p => p.eval a) + countUpTo q0.roots.toFinset a =
    sgnVar none ((q0 :: q1 :: rest).map fun p => p.eval b) + countUpTo q0.roots.toFinset b := by
  set F : ℝ → ℕ := fun x => sgnVar none ((q0 :: q1 :: rest).map fun p => p.eval x) +
    countUpTo q0.roots.toFinset x with hF
  have hloc : IsLocallyConstant F := by
    rw [IsLocallyConstant.iff_eventually_eq]
    intro c
    obtain ⟨hc1, hc2⟩ := countUpTo_eventually q0.roots.toFinset c
    have hmem : c ∈ q0.roots.toFinset ↔ q0.eval c = 0 := by
      rw [Multiset.mem_toFinset, mem_roots h0, IsRoot.def]
    have hR : ∀ᶠ x in 𝓝[>] c, F x = F c := by
      by_cases hz : q0.eval c = 0
      · have hq1 := hst.coprime c hz
        filter_upwards [hc1, hright c hz, nhdsWithin_le_nhds
          (sgnVar_tail_eventually rest.length q1 rest le_rfl hst.tail c hq1),
          nhdsWithin_le_nhds (eventually_sign hq1)] with x h1 h2 h3 h4
        simp only [hF, h1]
        congr 1
        have h3' := h3
        simp only [List.map_cons, sgnVar, h4.1, hq1, if_false, h4.2] at h3' ⊢
        rw [if_pos hz]
        have hx0 : q0.eval x ≠ 0 := fun h => by rw [h, zero_mul] at h2; exact lt_irrefl _ h2
        rw [if_neg hx0]
        have hs : (0 < q0.eval x ↔ 0 < q1.eval c) := by
          rw [← h4.2]
          exact pos_iff_pos_of_mul_pos h2
        have := h3' none
        simp only [reduceCtorEq, if_false, zero_add] at this ⊢
        rw [this]
        simp [hs]
      · filter_upwards [hc1, nhdsWithin_le_nhds
          (sgnVar_tail_eventually (rest.length + 1) q0 (q1 :: rest) (by simp) hst c hz)]
          with x h1 h2
        simp only [hF, h1, h2 none]
    have hL : ∀ᶠ x in 𝓝[<] c, F x = F c := by
      by_cases hz : q0.eval c = 0
      · have hq1 := hst.coprime c hz
        rw [if_pos (hmem.mpr hz)] at hc2
        filter_upwards [hc2, hleft c hz, nhdsWithin_le_nhds
          (sgnVar_tail_eventually rest.length q1 rest le_rfl hst.tail c hq1),
          nhdsWithin_le_nhds (eventually_sign hq1)] with x h1 h2 h3 h4
        simp only [hF]
        rw [← h1]
        have h3' := h3
        simp only [List.map_cons, sgnVar, h4.1, hq1, if_false, h4.2] at h3' ⊢
        rw [if_pos hz]
        have hx0 : q0.eval x ≠ 0 := fun h => by rw [h, zero_mul] at h2; exact lt_irrefl _ h2
        rw [if_neg hx0]
        have hs : (0 < q0.eval x ↔ ¬ 0 < q1.eval c) := by
          rw [← h4.2]
          constructor
          · intro h h'; nlinarith [mul_pos h h']
          · intro h
            by_contra hcon
            nlinarith [mul_nonneg_of_nonpos_of_nonpos (not_lt.mp hcon) (not_lt.mp h)]
        have := h3' none
        simp only [reduceCtorEq, if_false, zero_add] at this ⊢
        rw [this]
        by_cases h5 : 0 < q1.eval c
        · simp [hs, h5]; ring
        · simp [hs, h5]; ring
      · rw [if_neg (fun h => hz (hmem.mp h))] at hc2
        filter_upwards [hc2, nhdsWithin_le_nhds
          (sgnVar_tail_eventually (rest.length + 1) q0 (q1 :: rest) (by simp) hst c hz)]
          with x h1 h2
        simp only [hF, ← h1, h2 none, add_zero]
    rw [← nhdsNE_sup_pure, ← nhdsLT_sup_nhdsGT]
    simp only [Filter.eventually_sup]
    exact ⟨⟨hL, hR⟩, by simp⟩
  exact hloc.apply_eq_of_preconnectedSpace a b

/-! ### The chain that the code builds -/

section
variable {R : Type} [Field R] [BEq R] [LawfulBEq R]

theorem remainderLoop_spec {divisor : List R} {dd : ℕ} {dl : R} {P : R[X]}
    (hdd : degree divisor = some dd) (hdl : divisor[dd]? = some dl) {n : ℕ} :
    ∀ (power : ℕ) (w : List R) (Q : R[X]), w.length = n → power ≤ n →
      P = Q * ofCoeffs divisor + ofCoeffs w → (∀ k, power ≤ k → (ofCoeffs w).coeff k = 0) →
      (remainderLoop divisor dd dl power w).length = n ∧
      (∃ Q' : R[X], P = Q' * ofCoeffs divisor + ofCoeffs (remainderLoop divisor dd dl power w)) ∧
      ∀ k, dd ≤ k → (ofCoeffs (remainderLoop divisor dd dl power w)).coeff k = 0 := by
  have hD0 : ofCoeffs divisor ≠ 0 := by
    rcases degree_eq divisor with ⟨h1, -⟩ | ⟨h1, -⟩
    · simp [h1] at hdd
    · exact h1
  have hDdeg : (ofCoeffs divisor).natDegree = dd := by
    rcases degree_eq divisor with ⟨h1, -⟩ | ⟨-, h1⟩
    · simp [h1] at hdd
    · rw [h1] at hdd; simpa using hdd
  have hDl : (ofCoeffs divisor).coeff dd = dl := by
    rw [coeff_ofCoeffs, List.getD_eq_getElem?_getD, hdl]; rfl
  have hdl0 : dl ≠ 0 := by
    rw [← hDl, ← hDdeg]; simpa using hD0
  intro power
  induction power with
  | zero =>
    intro w Q hw _ heq htop
    simp only [remainderLoop]
    exact ⟨hw, ⟨Q, heq⟩, fun k _ => htop k (Nat.zero_le k)⟩
  | succ power ih =>
    intro w Q hw hp heq htop
    by_cases hle : power + 1 ≤ dd
    · simp only [remainderLoop, hle, if_true]
      exact ⟨hw, ⟨Q, heq⟩, fun k hk => htop k (by omega)⟩
    · by_cases hlead : w.getD power 0 = 0
      · have hstep : remainderLoop divisor dd dl (power + 1) w = remainderLoop divisor dd dl power w := by
          rw [remainderLoop]; simp only [hle, if_false, hlead, beq_self_eq_true, if_true]
        rw [hstep]
        refine ih w Q hw (by omega) heq fun k hk => ?_
        rcases Nat.lt_or_ge power k with h | h
        · exact htop k h
        · have : k = power := by omega
          subst this; rw [coeff_ofCoeffs, hlead]
      · have hb : (w.getD power 0 == 0) = false := by simpa using hlead
        have hstep : remainderLoop divisor dd dl (power + 1) w =
            remainderLoop divisor dd dl power
              ((subtractScaled (w.getD power 0 / dl) (power - dd) divisor w).set power 0) := by
          rw [remainderLoop]; simp only [hle, if_false, hb, Bool.false_eq_true]
        rw [hstep]
        set share := w.getD power 0 / dl with hshare
        have hsub : ofCoeffs (subtractScaled share (power - dd) divisor w) =
            ofCoeffs w - C share * X ^ (power - dd) * ofCoeffs divisor := by
          apply ofCoeffs_subtractScaled
          intro j hj
          rw [← coeff_ofCoeffs]
          apply coeff_eq_zero_of_natDegree_lt
          omega
        have hcoeff : ∀ k, power ≤ k →
            (ofCoeffs (subtractScaled share (power - dd) divisor w)).coeff k = 0 := by
          intro k hk
          rw [hsub, coeff_sub, mul_assoc, coeff_C_mul, coeff_X_pow_mul', if_pos (by omega)]
          rcases Nat.lt_or_ge power k with h | h
          · rw [htop k h, coeff_eq_zero_of_natDegree_lt (by omega)]; simp
          · have hk' : k = power := by omega
            subst hk'
            have : k - (k - dd) = dd := by omega
            rw [this, hDl, coeff_ofCoeffs, hshare]
            field_simp
            simp
        have hset : ofCoeffs ((subtractScaled share (power - dd) divisor w).set power 0) =
            ofCoeffs w - C share * X ^ (power - dd) * ofCoeffs divisor := by
          rw [← hsub]
          ext k
          rw [coeff_ofCoeffs, getD_set]
          split
          · rename_i hk; rw [← hk.1, hcoeff power le_rfl]
          · rw [coeff_ofCoeffs]
        refine ih _ (Q + C share * X ^ (power - dd)) (by simp [subtractScaled_length, hw])
          (by omega) ?_ ?_
        · rw [hset, heq]; ring
        · intro k hk
          rw [hset, ← hsub]
          exact hcoeff k hk

/-- `remainder` computes the Euclidean remainder. -/
theorem remainder_spec (p d : List R) :
    (ofCoeffs d = 0 ∧ remainder p d = none) ∨
    (ofCoeffs d ≠ 0 ∧ ∃ w, remainder p d = some w ∧ w.length = p.length ∧
      (∃ Q, ofCoeffs p = Q * ofCoeffs d + ofCoeffs w) ∧
      (ofCoeffs w).degree < (ofCoeffs d).degree) := by
  rcases degree_eq d with ⟨h1, h2⟩ | ⟨h, hdd⟩
  · left; exact ⟨h2, by simp [remainder, h1]⟩
  · right
    refine ⟨h, ?_⟩
    have hlt : (ofCoeffs d).natDegree < d.length :=
      (natDegree_lt_iff_degree_lt h).mpr (degree_ofCoeffs_lt d)
    have hdl : d[(ofCoeffs d).natDegree]? = some d[(ofCoeffs d).natDegree] :=
      List.getElem?_eq_getElem hlt
    obtain ⟨h1, h2, h3⟩ := remainderLoop_spec (P := ofCoeffs p) hdd hdl p.length p 0 rfl le_rfl
      (by simp) (fun k hk => by rw [coeff_ofCoeffs, getD_of_le p k hk])
    refine ⟨_, by simp only [remainder, hdd, Option.bind_some, hdl, Option.map_some], h1, h2, ?_⟩
    rw [degree_eq_natDegree h, degree_lt_iff_coeff_zero]
    exact h3

theorem ofCoeffs_neg (p : List R) : ofCoeffs (neg p) = -ofCoeffs p := by
  induction p with
  | nil => simp [neg]
  | cons a l ih =>
    have : neg (a :: l) = -a :: neg l := rfl
    rw [this]; simp [ih]; ring

theorem isZero_iff (p : List R) : isZero p = true ↔ ofCoeffs p = 0 := by
  simp only [isZero, List.all_eq_true, beq_iff_eq]
  constructor
  · intro h
    ext k
    rw [coeff_ofCoeffs, coeff_zero]
    by_cases hk : k < p.length
    · simpa [List.getD_eq_getElem?_getD, hk] using h p[k] (List.getElem_mem hk)
    · exact getD_of_le p k (not_lt.mp hk)
  · intro h c hc
    obtain ⟨k, hk, rfl⟩ := List.getElem_of_mem hc
    have := coeff_ofCoeffs p k
    rw [h] at this
    simpa [List.getD_eq_getElem?_getD, hk, eq_comm] using this

end

/-- The chain is a common factor times a chain with the Sturm properties. -/
theorem chainLoop_spec : ∀ (room : ℕ) (prev cur : List ℝ), ofCoeffs cur ≠ 0 →
    (ofCoeffs cur).natDegree ≤ room →
    ∃ (g q0 q1 : ℝ[X]) (rest : List ℝ[X]), g ≠ 0 ∧
      (prev :: cur :: chainLoop room prev cur).map ofCoeffs =
        (q0 :: q1 :: rest).map (fun q => q * g) ∧
      SturmTail (q0 :: q1 :: rest) := by
  intro room
  induction room with
  | zero =>
    intro prev cur hcur hdeg
    obtain ⟨k, hk⟩ := natDegree_eq_zero.mp (Nat.le_zero.mp hdeg)
    have hk0 : k ≠ 0 := by rintro rfl; rw [C_0] at hk; exact hcur hk.symm
    refine ⟨ofCoeffs cur, ofCoeffs prev * C k⁻¹, 1, [], hcur, ?_, ?_⟩
    · simp only [chainLoop, List.map_cons, List.map_nil, one_mul]
      rw [← hk, mul_assoc, ← C_mul, inv_mul_cancel₀ hk0, C_1, mul_one]
    · intro x; simp
  | succ room ih =>
    intro prev cur hcur hdeg
    rcases remainder_spec prev cur with ⟨h1, -⟩ | ⟨-, w, h1, h2, ⟨Q, h3⟩, h4⟩
    · exact absurd h1 hcur
    · by_cases hw : ofCoeffs w = 0
      · have hz : isZero w = true := (isZero_iff w).mpr hw
        refine ⟨ofCoeffs cur, Q, 1, [], hcur, ?_, ?_⟩
        · simp only [chainLoop, h1, hz, if_true, List.map_cons, List.map_nil, one_mul]
          rw [h3, hw, add_zero]
        · intro x; simp
      · have hz : ¬ (isZero w = true) := fun h => hw ((isZero_iff w).mp h)
        have hnw : ofCoeffs (neg w) = -ofCoeffs w := ofCoeffs_neg w
        have hnd : (ofCoeffs (neg w)).natDegree ≤ room := by
          rw [hnw, natDegree_neg]
          have := natDegree_lt_natDegree hw h4
          omega
        obtain ⟨g, q1, q2, rest, hg, hmap, hst⟩ := ih cur (neg w) (by
          rw [hnw]; exact neg_ne_zero.mpr hw) hnd
        simp only [List.map_cons, List.cons.injEq] at hmap
        obtain ⟨e1, e2, e3⟩ := hmap
        refine ⟨g, q1 * Q - q2, q1, q2 :: rest, hg, ?_, ?_, hst⟩
        · simp only [chainLoop, h1, hz, Bool.false_eq_true, if_false, List.map_cons]
          rw [e3, e2, e1, h3]
          rw [hnw] at e2
          congr 1
          · rw [e1]
            linear_combination -e2
        · intro x hx
          have hq2 := hst.coprime x hx
          simp only [eval_sub, eval_mul, hx, zero_mul, zero_sub]
          have : 0 < q2.eval x * q2.eval x := mul_self_pos.mpr hq2
          linarith

/-- Next to a root, a polynomial and its derivative agree in sign on the right and differ on the
left. -/
theorem sign_near_root (p : ℝ[X]) (hp : p ≠ 0) (c : ℝ) (hc : p.eval c = 0) :
    (∀ᶠ x in 𝓝[>] c, 0 < p.eval x * (Polynomial.derivative p).eval x) ∧
    (∀ᶠ x in 𝓝[<] c, p.eval x * (Polynomial.derivative p).eval x < 0) := by
  obtain ⟨u, hu, hdiv⟩ := exists_eq_pow_rootMultiplicity_mul_and_not_dvd p hp c
  set m := p.rootMultiplicity c with hm
  have hm1 : 0 < m := by rw [hm, rootMultiplicity_pos hp]; exact hc
  obtain ⟨k, hk⟩ : ∃ k, m = k + 1 := ⟨m - 1, by omega⟩
  have huc : u.eval c ≠ 0 := by
    intro h; exact hdiv (dvd_iff_isRoot.mpr h)
  set h := u * (C (m : ℝ) * u + (X - C c) * Polynomial.derivative u) with hh
  have hform : ∀ x, p.eval x * (Polynomial.derivative p).eval x = (x - c) ^ (2 * k + 1) * h.eval x := by
    intro x
    conv_lhs => rw [hu]
    rw [hk, derivative_mul, derivative_X_sub_C_pow]
    simp only [eval_mul, eval_add, eval_pow, eval_sub, eval_X, eval_C, hh, hk]
    push_cast
    ring
  have hpos : 0 < h.eval c := by
    simp only [hh, eval_mul, eval_add, eval_sub, eval_X, eval_C, sub_self, zero_mul, add_zero]
    have : 0 < u.eval c * u.eval c := mul_self_pos.mpr huc
    have hmp : (0 : ℝ) < m := by exact_mod_cast hm1
    nlinarith
  have hev : ∀ᶠ x in 𝓝 c, 0 < h.eval x := h.continuous.continuousAt.eventually_const_lt hpos
  constructor
  · filter_upwards [nhdsWithin_le_nhds hev, self_mem_nhdsWithin] with x hx hxc
    have hxc : c < x := hxc
    rw [hform]
    have : 0 < x - c := by linarith
    positivity
  · filter_upwards [nhdsWithin_le_nhds hev, self_mem_nhdsWithin] with x hx hxc
    have hxc : x < c := hxc
    rw [hform]
    have : (x - c) ^ (2 * k + 1) < 0 := Odd.pow_neg ⟨k, rfl⟩ (by linarith)
    exact mul_neg_of_neg_of_pos this hx

theorem sgnVar_scale (g : ℝ) (hg : g ≠ 0) (vals : List ℝ) (prev : Option Bool) :
    sgnVar (prev.map fun b => if 0 < g then b else !b) (vals.map (· * g)) = sgnVar prev vals := by
  induction vals generalizing prev with
  | nil => rfl
  | cons v vs ih =>
    simp only [List.map_cons, sgnVar, mul_eq_zero, hg, or_false]
    by_cases hv : v = 0
    · simp [hv, ih]
    · rw [if_neg hv, if_neg hv]
      have hs : (some (decide (0 < v * g)) : Option Bool) =
          (some (decide (0 < v))).map fun b => if 0 < g then b else !b := by
        rcases lt_or_gt_of_ne hg with h1 | h1 <;> rcases lt_or_gt_of_ne hv with h2 | h2
        · simp [mul_pos_of_neg_of_neg h2 h1, h1.not_gt, h2.not_gt]
        · simp [h1.not_gt, h2, (mul_neg_of_pos_of_neg h2 h1).not_gt]
        · simp [h1, h2.not_gt, (mul_neg_of_neg_of_pos h2 h1).not_gt]
        · simp [h1, h2, mul_pos h2 h1]
      rw [hs, ih]
      congr 1
      have hd : (decide (0 < v * g)) = if 0 < g then decide (0 < v) else !decide (0 < v) := by
        simpa using hs
      rw [hd]
      rcases prev with _ | b
      · simp
      · cases b <;> by_cases h1 : 0 < g <;> by_cases h2 : 0 < v <;> simp [h1, h2]

theorem sgnVar_zero (vals : List ℝ) (h : ∀ v ∈ vals, v = 0) (prev : Option Bool) :
    sgnVar prev vals = 0 := by
  induction vals with
  | nil => rfl
  | cons v vs ih =>
    simp only [sgnVar, h v (by simp), if_true]
    exact ih fun w hw => h w (by simp [hw])

open Classical in
/-- Everything the counting code relies on: away from repeated roots the sign changes of the chain
are a function `V` with `V + (number of roots so far)` constant; at a repeated root they are zero. -/
theorem chain_counts (p : List ℝ) (hdeg : 1 ≤ (ofCoeffs p).natDegree) :
    ∃ chain : List (List ℝ), rootCountingChain p = .ok (some chain) ∧
      chain.length ≤ p.length ∧
      ∃ V : ℝ → ℕ,
        (∀ x, ¬ ((ofCoeffs p).eval x = 0 ∧ (Polynomial.derivative (ofCoeffs p)).eval x = 0) →
          signChanges chain x = V x) ∧
        (∀ x, (ofCoeffs p).eval x = 0 → (Polynomial.derivative (ofCoeffs p)).eval x = 0 →
          signChanges chain x = 0) ∧
        ∀ a b, V a + countUpTo (ofCoeffs p).roots.toFinset a =
          V b + countUpTo (ofCoeffs p).roots.toFinset b := by
  have hp0 : ofCoeffs p ≠ 0 := by intro h; rw [h] at hdeg; simp at hdeg
  have hd0 : Polynomial.derivative (ofCoeffs p) ≠ 0 := by
    intro h
    have := natDegree_eq_zero_of_derivative_eq_zero h
    omega
  have hlen : (ofCoeffs p).natDegree < p.length :=
    (natDegree_lt_iff_degree_lt hp0).mpr (degree_ofCoeffs_lt p)
  have hchain : rootCountingChain p =
      .ok (some (p :: derivative p :: chainLoop (p.length - 2) p (derivative p))) := by
    rcases degree_eq p with ⟨-, h⟩ | ⟨-, h⟩
    · exact absurd h hp0
    · have hfin : isFinite p = true := by
        simp only [isFinite, List.all_eq_true]; intro x _; rfl
      simp [rootCountingChain, hfin, h, hdeg]
  obtain ⟨g, q0, q1, rest, hg, hmap, hst⟩ := chainLoop_spec (p.length - 2) p (derivative p)
    (by rw [ofCoeffs_derivative]; exact hd0) (by
      rw [ofCoeffs_derivative]
      have := natDegree_derivative_lt (p := ofCoeffs p) (by omega)
      omega)
  have hmap' := hmap
  simp only [List.map_cons, List.cons.injEq] at hmap'
  obtain ⟨e0, e1, -⟩ := hmap'
  rw [ofCoeffs_derivative] at e1
  have hq0 : q0 ≠ 0 := by rintro rfl; rw [zero_mul] at e0; exact hp0 e0
  have hsc : ∀ x, signChanges (p :: derivative p :: chainLoop (p.length - 2) p (derivative p)) x =
      sgnVar none (((q0 :: q1 :: rest).map fun q => q.eval x).map (· * g.eval x)) := by
    intro x
    rw [signChanges_eq, hmap]
    simp only [List.map_map, Function.comp_def, eval_mul]
  have hg0 : ∀ x, g.eval x = 0 ↔ ((ofCoeffs p).eval x = 0 ∧
      (Polynomial.derivative (ofCoeffs p)).eval x = 0) := by
    intro x
    rw [e0, e1] at *
    simp only [eval_mul]
    constructor
    · intro h; simp [h]
    · rintro ⟨h1, h2⟩
      by_contra hne
      have h3 := (mul_eq_zero.mp h1).resolve_right hne
      have h4 := (mul_eq_zero.mp h2).resolve_right hne
      exact hst.coprime x h3 h4
  -- the roots of `q0` are those of the polynomial
  have hroot : ∀ x, q0.eval x = 0 ↔ (ofCoeffs p).eval x = 0 := by
    intro x
    constructor
    · intro h; rw [e0, eval_mul, h, zero_mul]
    · intro h
      by_contra hne
      have hm0 : q0.rootMultiplicity x = 0 := rootMultiplicity_eq_zero hne
      have h1 : (ofCoeffs p).rootMultiplicity x = g.rootMultiplicity x := by
        conv_lhs => rw [e0]
        rw [rootMultiplicity_mul (by rw [← e0]; exact hp0), hm0, zero_add]
      have h2 : (Polynomial.derivative (ofCoeffs p)).rootMultiplicity x =
          q1.rootMultiplicity x + g.rootMultiplicity x := by
        conv_lhs => rw [e1]
        rw [rootMultiplicity_mul (by rw [← e1]; exact hd0)]
      have h3 := derivative_rootMultiplicity_of_root (p := ofCoeffs p) (t := x) h
      have h4 : 0 < (ofCoeffs p).rootMultiplicity x := (rootMultiplicity_pos hp0).mpr h
      omega
  have hroots : q0.roots.toFinset = (ofCoeffs p).roots.toFinset := by
    ext x
    rw [Multiset.mem_toFinset, Multiset.mem_toFinset, mem_roots hq0, mem_roots hp0, IsRoot.def,
      IsRoot.def, hroot]
  have hprod : ∀ x, (ofCoeffs p).eval x * (Polynomial.derivative (ofCoeffs p)).eval x =
      (q0.eval x * q1.eval x) * (g.eval x * g.eval x) := by
    intro x; rw [e1, eval_mul]; conv_lhs => rw [e0, eval_mul]
    ring
  refine ⟨_, hchain, ?_, fun x => sgnVar none ((q0 :: q1 :: rest).map fun q => q.eval x), ?_, ?_, ?_⟩
  · have hcl : ∀ (room : ℕ) (a b : List ℝ), (chainLoop room a b).length ≤ room := by
      intro room
      induction room with
      | zero => intro a b; simp [chainLoop]
      | succ room ih =>
        intro a b
        simp only [chainLoop]
        split
        · simp
        · split
          · simp
          · simpa using ih _ _
    have := hcl (p.length - 2) p (derivative p)
    simp only [List.length_cons]
    omega
  · intro x hx
    rw [hsc]
    have hgx : g.eval x ≠ 0 := fun h => hx ((hg0 x).mp h)
    exact sgnVar_scale (g.eval x) hgx _ none
  · intro x h1 h2
    rw [hsc]
    have hgx : g.eval x = 0 := (hg0 x).mpr ⟨h1, h2⟩
    apply sgnVar_zero
    intro v hv
    rw [hgx] at hv
    simp at hv
    tauto
  · intro a b
    rw [← hroots]
    refine sturm_coprime q0 q1 rest hq0 hst ?_ ?_ a b
    · intro c hc
      filter_upwards [(sign_near_root _ hp0 c ((hroot c).mp hc)).1] with x hx
      rw [hprod] at hx
      exact pos_of_mul_pos_left hx (mul_self_nonneg _)
    · intro c hc
      filter_upwards [(sign_near_root _ hp0 c ((hroot c).mp hc)).2] with x hx
      rw [hprod] at hx
      by_contra hcon
      exact absurd hx (not_lt.mpr (mul_nonneg (not_lt.mp hcon) (mul_self_nonneg _)))

end Poly
end Multicalc
