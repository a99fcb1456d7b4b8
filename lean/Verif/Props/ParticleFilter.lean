import Verif.Model.XR
import Verif.Props.Resampling
import Verif.Props.Kalman
import Verif.Props.Scalar

/-!
# Particle filter
-/

namespace Multicalc

namespace ParticleFilter

/-! ### Any scalar type -/

section LawFree

variable {T : Type} [Zero T] [One T] [NatCast T] [Add T] [Sub T] [Neg T] [Mul T] [Div T] [LT T] [LE T] [BEq T]
  [DecidableLT T] [DecidableLE T] [Max T] [Min T] [Fns T] {n m : ℕ} {R : Type}

/-- C59. A measurement that is not finite is refused and the filter keeps its particles, its weights and its source of
randomness; a noise that cannot be factorised is refused and the filter kept; no particles are refused at
construction. -/
theorem particle_refuses (source : RandomSource R T) (mp : T) (f : ParticleFilter n T R)
    (model : (Fin n → T) → Fin m → T) (likelihood : (Fin m → T) → (Fin m → T) → T) (z : Fin m → T)
    (hz : vIsFinite z = false) (Q : Matrix (Fin n) (Fin n) T) (e : LinalgError) (hQ : cholesky Q = .error e)
    (x : Fin n → T) (P : Matrix (Fin n) (Fin n) T) (r : R) :
    f.update source mp model likelihood z = (f, .error .nonFinite) ∧
    f.setProcessNoise Q = (f, .error .notPositiveDefinite) ∧
    fromRandom source 0 x P Q r = .error .weightsDegenerate := by
  refine ⟨by simp [update, hz], by simp [setProcessNoise, hQ], by simp [fromRandom]⟩

theorem roughenAxis_length (source : RandomSource R T) (k : T) (s : List (Fin n → T) × R) (axis : Fin n) :
    (roughenAxis source k s axis).1.length = s.1.length := by
  obtain ⟨ps, r⟩ := s
  cases ps with
  | nil => rfl
  | cons p ps =>
    simp only [roughenAxis]
    split_ifs
    · rfl
    · simp [drawMany_length]

theorem roughen_length (source : RandomSource R T) (f : ParticleFilter n T R) :
    (f.roughen source).particles.length = f.particles.length := by
  have : ∀ (l : List (Fin n)) (s : List (Fin n → T) × R),
      (l.foldl (roughenAxis source f.roughening) s).1.length = s.1.length := by
    intro l
    induction l with
    | nil => intro s; rfl
    | cons a l ih => intro s; simp only [List.foldl_cons]; rw [ih, roughenAxis_length]
  exact this _ _

/-- C61. Whatever the scalar type, resampling keeps the number of particles, makes every weight one over that number,
and without roughening every particle it leaves is one that was there, copied as often as the scheme picked it. -/
theorem resample_spec (source : RandomSource R T) (f : ParticleFilter n T R)
    (hlen : f.particles.length = f.weights.length) :
    (f.resample source).particles.length = f.particles.length ∧
    (f.resample source).weights = List.replicate f.weights.length (1 / (f.weights.length : T)) ∧
    (¬ 0 < f.roughening → (∀ p ∈ (f.resample source).particles, p ∈ f.particles) ∧
      ∀ k (hk : k < (f.resample source).particles.length),
        ∃ i, ∃ hi : i < f.particles.length, (resampleIndices f.resampling source f.weights f.random).1[k]? = some i ∧
          (f.resample source).particles[k] = f.particles[i]) := by
  obtain ⟨h1, h2, _, _⟩ := resample_in_range f.resampling source f.weights f.random
  have hw : (f.weights.map fun _ => 1 / (f.weights.length : T)) =
      List.replicate f.weights.length (1 / (f.weights.length : T)) := by simp
  refine ⟨?_, ?_, fun hr => ?_⟩
  · unfold resample
    split_ifs
    · rw [roughen_length]; simp [h1, hlen]
    · simp [h1, hlen]
  · unfold resample
    split_ifs
    · exact hw
    · exact hw
  · have e : (f.resample source).particles =
        (resampleIndices f.resampling source f.weights f.random).1.map fun i => f.particles.getD i fun _ => 0 := by
      unfold resample
      rw [if_neg hr]
    have key : ∀ k (hk : k < (f.resample source).particles.length),
        ∃ i, ∃ hi : i < f.particles.length, (resampleIndices f.resampling source f.weights f.random).1[k]? = some i ∧
          (f.resample source).particles[k] = f.particles[i] := by
      intro k hk
      have hk' : k < (resampleIndices f.resampling source f.weights f.random).1.length := by
        rw [e] at hk; simpa using hk
      refine ⟨(resampleIndices f.resampling source f.weights f.random).1[k], ?_, by simp [hk'], ?_⟩
      · rw [hlen]; exact h2 _ (List.getElem_mem _)
      · have hi : (resampleIndices f.resampling source f.weights f.random).1[k] < f.particles.length := by
          rw [hlen]; exact h2 _ (List.getElem_mem _)
        simp only [e, List.getElem_map]
        simp [List.getD, List.getElem?_eq_getElem hi]
    refine ⟨fun p hp => ?_, key⟩
    obtain ⟨k, hk, rfl⟩ := List.getElem_of_mem hp
    obtain ⟨i, hi, _, h⟩ := key k hk
    rw [h]; exact List.getElem_mem _

/-- C61. The number of particles and of weights never changes: not in `predict`, nor in an update of any kind, whether
it succeeds or fails. -/
theorem particle_count_kept (source : RandomSource R T) (mp : T) (f : ParticleFilter n T R)
    (hlen : f.particles.length = f.weights.length) (process : (Fin n → T) → Fin n → T) (score : (Fin n → T) → T) :
    ((f.predict source process).1.particles.length = f.particles.length ∧
      (f.predict source process).1.weights = f.weights) ∧
    ((f.updateWithLogWeights source mp score).1.particles.length = f.particles.length ∧
      (f.updateWithLogWeights source mp score).1.weights.length = f.weights.length) := by
  constructor
  · simp [predict, drawMany_length]
  · unfold updateWithLogWeights normalizeAndResample
    dsimp only
    split_ifs
    · exact ⟨rfl, rfl⟩
    · exact ⟨rfl, by simp [hlen]⟩
    · constructor
      · exact (resample_spec source _ (by simp [hlen])).1
      · rw [(resample_spec source _ (by simp [hlen])).2.1]; simp [hlen]
    · exact ⟨rfl, by simp [hlen]⟩

end LawFree

/-! ### The most probable particle -/

section Linear

variable {T : Type} [LinearOrder T] [Zero T] {n : ℕ} {R : Type}

theorem best_fold (ws : List T) (k : ℕ) (best : ℕ × T) (all : List T) (hall : ∀ j (hj : j < ws.length), all[k + j]? = some ws[j])
    (hb : all[best.1]? = some best.2) :
    let r := (ws.zipIdx k).foldl (fun best wi => if best.2 < wi.1 then (wi.2, wi.1) else best) best
    all[r.1]? = some r.2 ∧ best.2 ≤ r.2 ∧ ∀ w ∈ ws, w ≤ r.2 := by
  induction ws generalizing k best with
  | nil => simp [hb]
  | cons w ws ih =>
    simp only [List.zipIdx_cons, List.foldl_cons]
    have h0 := hall 0 (by simp)
    have hs : ∀ j (hj : j < ws.length), all[k + 1 + j]? = some ws[j] := fun j hj => by
      have := hall (j + 1) (by simpa using hj)
      rw [show k + 1 + j = k + (j + 1) by omega, this]; simp
    by_cases h : best.2 < w
    · rw [if_pos h]
      obtain ⟨a, b, c⟩ := ih (k + 1) (k, w) hs (by simpa using h0)
      refine ⟨a, h.le.trans b, fun v hv => ?_⟩
      rcases List.mem_cons.1 hv with rfl | hv
      · exact b
      · exact c v hv
    · rw [if_neg h]
      obtain ⟨a, b, c⟩ := ih (k + 1) best hs hb
      refine ⟨a, b, fun v hv => ?_⟩
      rcases List.mem_cons.1 hv with rfl | hv
      · exact (not_lt.1 h).trans b
      · exact c v hv

/-- C61. The most probable state is one of the particles, and no particle weighs more. -/
theorem map_heaviest (f : ParticleFilter n T R) (hlen : f.particles.length = f.weights.length)
    (hpos : 0 < f.particles.length) : ∃ i, ∃ hi : i < f.particles.length, ∃ hw : i < f.weights.length,
      f.maximumAPosterioriState = f.particles[i] ∧ ∀ w ∈ f.weights, w ≤ f.weights[i] := by
  have h0 : 0 < f.weights.length := hlen ▸ hpos
  obtain ⟨a, _, c⟩ := best_fold f.weights 0 (0, f.weights.getD 0 0) f.weights
    (fun j hj => by simp [hj]) (by simp [List.getD, List.getElem?_eq_getElem h0])
  obtain ⟨hi, e⟩ := List.getElem?_eq_some_iff.1 a
  refine ⟨_, hlen ▸ hi, hi, ?_, fun w hw => (c w hw).trans_eq e.symm⟩
  have hi' : (f.weights.zipIdx.foldl (fun best wi => if best.2 < wi.1 then (wi.2, wi.1) else best)
    (0, f.weights.getD 0 0)).1 < f.particles.length := hlen ▸ hi
  show f.particles.getD _ _ = _
  rw [List.getD, List.getElem?_eq_getElem hi']; rfl

end Linear

/-! ### With infinities and NaN -/

section Special

open XR

variable {n m : ℕ} {R : Type}

theorem xr_lt_trans {a b c : XR} (h1 : a < b) (h2 : b < c) : a < c := by
  cases a <;> cases b <;> cases c <;> simp_all [XR.fin_lt] <;> first | exact h1.elim | exact h2.elim | trivial | linarith

/-- The largest of the log-weights, as the code finds it. -/
noncomputable def largestOf (start : XR) (L : List XR) : XR :=
  L.foldl (fun largest l => if largest < l then l else largest) start

theorem xr_not_lt_trans {a b c : XR} (hb : b ≠ nan) (h1 : ¬ a < b) (h2 : ¬ b < c) : ¬ a < c := by
  intro h
  cases b with
  | nan => exact hb rfl
  | fin b =>
    cases a with
    | nan => exact not_nan_lt _ h
    | pinf => exact not_pinf_lt _ h
    | ninf => exact h1 trivial
    | fin a =>
      cases c with
      | nan => exact not_lt_nan _ h
      | pinf => exact h2 trivial
      | ninf => exact not_lt_ninf _ h
      | fin c => rw [fin_lt] at *; linarith
  | pinf =>
    cases a with
    | nan => exact not_nan_lt _ h
    | pinf => exact not_pinf_lt _ h
    | ninf => exact h1 trivial
    | fin a => exact h1 trivial
  | ninf =>
    cases c with
    | nan => exact not_lt_nan _ h
    | pinf => exact h2 trivial
    | ninf => exact not_lt_ninf _ h
    | fin c => exact h2 trivial

theorem largestOf_spec (L : List XR) (start : XR) (hs : start ≠ nan) :
    ¬ largestOf start L < start ∧ (∀ l ∈ L, ¬ largestOf start L < l) ∧ (largestOf start L = start ∨ largestOf start L ∈ L) := by
  induction L generalizing start with
  | nil => exact ⟨not_lt_self _, by simp, Or.inl rfl⟩
  | cons l L ih =>
    simp only [largestOf, List.foldl_cons]
    by_cases h : start < l
    · rw [if_pos h]
      obtain ⟨a, b, c⟩ := ih l (fun e => by rw [e] at h; exact not_lt_nan _ h)
      unfold largestOf at a b c
      refine ⟨fun hc => a (xr_lt_trans hc h), fun v hv => ?_, ?_⟩
      · rcases List.mem_cons.1 hv with rfl | hv
        · exact a
        · exact b v hv
      · rcases c with c | c
        · exact Or.inr (by rw [c]; simp)
        · exact Or.inr (by simp [c])
    · rw [if_neg h]
      obtain ⟨a, b, c⟩ := ih start hs
      unfold largestOf at a b c
      refine ⟨a, fun v hv => ?_, ?_⟩
      · rcases List.mem_cons.1 hv with rfl | hv
        · exact xr_not_lt_trans hs a h
        · exact b v hv
      · rcases c with c | c
        · exact Or.inl c
        · exact Or.inr (by simp [c])

/-- The unnormalised weight of a log-weight once the largest is taken off. -/
noncomputable def relativeWeight (m : ℝ) : XR → ℝ
  | .fin a => Real.exp (a - m)
  | _ => 0

theorem relativeWeight_nonneg (m : ℝ) (l : XR) : 0 ≤ relativeWeight m l := by
  cases l with
  | fin a => exact (Real.exp_pos _).le
  | _ => exact le_refl _

theorem xr_relative {m : ℝ} {l : XR} (h : ¬ XR.fin m < l) (hn : l ≠ nan) :
    Fns.exp (l - XR.fin m) = XR.fin (relativeWeight m l) := by
  cases l with
  | nan => exact absurd rfl hn
  | pinf => exact absurd trivial h
  | ninf => rfl
  | fin a => rw [fin_sub]; rfl

theorem xr_sum (f : ℝ → ℝ) (l : List ℝ) (z : ℝ) :
    (l.map fun x => XR.fin (f x)).foldl (fun s w => s + w) (XR.fin z) = XR.fin (z + (l.map f).sum) := by
  induction l generalizing z with
  | nil => simp
  | cons a l ih => simp [ih, add_assoc]

theorem xr_sum_nan (l : List XR) (z : XR) (h : z = nan ∨ nan ∈ l) : l.foldl (fun s w => s + w) z = nan := by
  induction l generalizing z with
  | nil => simpa using h
  | cons a l ih =>
    rw [List.foldl_cons]
    apply ih
    rcases h with rfl | h
    · exact Or.inl (nan_add _)
    · rcases List.mem_cons.1 h with h | h
      · exact Or.inl (by rw [← h]; exact add_nan _)
      · exact Or.inr h

/-- The normalised weights of log-weights whose largest is `m`. -/
noncomputable def normalizedWeights (m : ℝ) (L : List XR) : List ℝ :=
  L.map fun l => relativeWeight m l / (L.map (relativeWeight m)).sum

/-- What a filter does once it has its new weights. -/
noncomputable def settle (source : RandomSource R XR) (f : ParticleFilter n XR R) (ws : List ℝ) : ParticleFilter n XR R :=
  let g : ParticleFilter n XR R := { f with weights := ws.map XR.fin }
  if g.effectiveSampleSize < g.resampleThreshold then g.resample source else g

theorem normalize_cases (source : RandomSource R XR) (f : ParticleFilter n XR R) (L : List XR) :
    (∃ m : ℝ, nan ∉ L ∧ (∀ l ∈ L, ¬ XR.fin m < l) ∧ XR.fin m ∈ L ∧
      1 ≤ (L.map (relativeWeight m)).sum ∧
      f.normalizeAndResample source L = (settle source f (normalizedWeights m L), .ok ())) ∨
    (nan ∈ L ∧ ∃ ws, (ws = f.weights ∨ nan ∈ ws) ∧
      f.normalizeAndResample source L = ({ f with weights := ws }, .error .weightsDegenerate) ∧
      ((∃ x, XR.fin x ∈ L) → pinf ∉ L → nan ∈ ws)) ∨
    (nan ∉ L ∧ (pinf ∈ L ∨ ∀ l ∈ L, l = ninf) ∧
      f.normalizeAndResample source L = (f, .error .weightsDegenerate)) := by
  obtain ⟨_, h2, h3⟩ := largestOf_spec L ninf (by simp)
  have hM : L.foldl (fun largest l => if largest < l then l else largest) Fns.negInfinity = largestOf ninf L := rfl
  have bad : ¬ (∃ m, largestOf ninf L = XR.fin m) →
      f.normalizeAndResample source L = (f, .error .weightsDegenerate) ∧ (pinf ∈ L ∨ ∀ l ∈ L, l = ninf ∨ l = nan) := by
    intro hno
    have hfin : Fns.isFinite (largestOf ninf L) = false := by
      cases h : largestOf ninf L with
      | fin a => exact absurd ⟨a, h⟩ hno
      | _ => rfl
    refine ⟨by simp [normalizeAndResample, hM, hfin], ?_⟩
    cases h : largestOf ninf L with
    | fin a => exact absurd ⟨a, h⟩ hno
    | pinf =>
      rcases h3 with h3 | h3
      · rw [h3] at h; exact absurd h (by simp)
      · exact Or.inl (h ▸ h3)
    | nan =>
      rcases h3 with h3 | h3
      · rw [h3] at h; exact absurd h (by simp)
      · by_cases hp : pinf ∈ L
        · exact Or.inl hp
        · exfalso
          have : ∀ (l : List XR) (s : XR), s ≠ nan → largestOf s l ≠ nan := by
            intro l
            induction l with
            | nil => intro s hs; exact hs
            | cons a l ih =>
              intro s hs
              simp only [largestOf, List.foldl_cons]
              split_ifs with hc
              · exact ih a (fun e => by rw [e] at hc; exact not_lt_nan _ hc)
              · exact ih s hs
          exact this L ninf (by simp) h
    | ninf =>
      refine Or.inr fun l hl => ?_
      have := h2 l hl
      rw [h] at this
      cases l with
      | nan => exact Or.inr rfl
      | ninf => exact Or.inl rfl
      | fin a => exact absurd trivial this
      | pinf => exact absurd trivial this
  by_cases hm : ∃ m, largestOf ninf L = XR.fin m
  · obtain ⟨m, hm⟩ := hm
    rw [hm] at h2 h3
    have hmem : XR.fin m ∈ L := h3.resolve_left (by simp)
    by_cases hn : nan ∈ L
    · right; left
      refine ⟨hn, L.map fun l => Fns.exp (l - XR.fin m), Or.inr ?_, ?_, fun _ _ => ?_⟩
      · exact List.mem_map.2 ⟨nan, hn, by rw [nan_sub]; rfl⟩
      · have hs : (L.map fun l => Fns.exp (l - XR.fin m)).foldl (fun s w => s + w) (0 : XR) = nan :=
          xr_sum_nan _ _ (Or.inr (List.mem_map.2 ⟨nan, hn, by rw [nan_sub]; rfl⟩))
        simp only [normalizeAndResample, hM, hm]
        rw [if_neg (by simp [Fns.isFinite])]
        simp only [hs]
        rw [if_pos (by simp [Fns.isFinite])]
      · exact List.mem_map.2 ⟨nan, hn, by rw [nan_sub]; rfl⟩
    · left
      have hraw : (L.map fun l => Fns.exp (l - XR.fin m)) = (L.map (relativeWeight m)).map fun x => XR.fin x := by
        rw [List.map_map]
        exact List.map_congr_left fun l hl => xr_relative (h2 l hl) (fun e => hn (e ▸ hl))
      have hsum : 1 ≤ (L.map (relativeWeight m)).sum := by
        have h1 : relativeWeight m (XR.fin m) = 1 := by simp [relativeWeight]
        have := List.single_le_sum (l := L.map (relativeWeight m)) (by
          intro x hx
          simp only [List.mem_map] at hx
          obtain ⟨l, _, rfl⟩ := hx
          exact relativeWeight_nonneg _ _) _ (List.mem_map.2 ⟨_, hmem, rfl⟩)
        rwa [h1] at this
      have hs : ((L.map (relativeWeight m)).map fun x => XR.fin x).foldl (fun s w => s + w) (0 : XR) =
          XR.fin (L.map (relativeWeight m)).sum := by
        have := xr_sum id (L.map (relativeWeight m)) 0
        simpa using this
      refine ⟨m, hn, h2, hmem, hsum, ?_⟩
      simp only [normalizeAndResample, hM, hm]
      rw [if_neg (by simp [Fns.isFinite])]
      simp only [hraw, hs]
      rw [if_neg (by simp [Fns.isFinite]; linarith)]
      have hw : (((L.map (relativeWeight m)).map fun x => XR.fin x).map fun w => w / XR.fin (L.map (relativeWeight m)).sum) =
          (normalizedWeights m L).map XR.fin := by
        unfold normalizedWeights
        simp only [List.map_map]
        refine List.map_congr_left fun l _ => ?_
        simp only [Function.comp]
        exact fin_div _ _ (by linarith)
      rw [hw]
      rfl
  · obtain ⟨b1, b2⟩ := bad hm
    right
    by_cases hn : nan ∈ L
    · left
      refine ⟨hn, f.weights, Or.inl rfl, b1, fun ⟨x, hx⟩ hp => ?_⟩
      rcases b2 with b2 | b2
      · exact absurd b2 hp
      · rcases b2 _ hx with h | h <;> simp at h
    · right
      refine ⟨hn, ?_, b1⟩
      rcases b2 with b2 | b2
      · exact Or.inl b2
      · exact Or.inr fun l hl => (b2 l hl).resolve_right fun e => hn (e ▸ hl)

theorem normalizedWeights_normalized {m : ℝ} {L : List XR} (h : 1 ≤ (L.map (relativeWeight m)).sum) :
    Normalized (normalizedWeights m L) := by
  constructor
  · intro w hw
    simp only [normalizedWeights, List.mem_map] at hw
    obtain ⟨l, _, rfl⟩ := hw
    exact div_nonneg (relativeWeight_nonneg _ _) (by linarith)
  · unfold normalizedWeights
    have e : (L.map fun l => relativeWeight m l / (L.map (relativeWeight m)).sum) =
        (L.map (relativeWeight m)).map fun x => x * ((L.map (relativeWeight m)).sum)⁻¹ := by
      rw [List.map_map]; rfl
    rw [e, List.sum_map_mul_right, List.map_id', mul_inv_cancel₀ (by linarith)]

theorem xr_ess (f : ParticleFilter n XR R) (ws : List ℝ) (hw : f.weights = ws.map XR.fin)
    (hs : (ws.map fun w => w * w).sum ≠ 0) : f.effectiveSampleSize = XR.fin (1 / (ws.map fun w => w * w).sum) := by
  unfold effectiveSampleSize
  have : ∀ (l : List ℝ) (z : ℝ), (l.map XR.fin).foldl (fun s w => s + w * w) (XR.fin z) =
      XR.fin (z + (l.map fun w => w * w).sum) := by
    intro l
    induction l with
    | nil => intro z; simp
    | cons a l ih => intro z; simp [ih, add_assoc]
  rw [hw, show ((0 : XR)) = XR.fin 0 from rfl, this, zero_add]
  exact fin_div _ _ hs

theorem sq_sum_bounds {ws : List ℝ} (h : Normalized ws) :
    0 < (ws.map fun w => w * w).sum ∧ (ws.map fun w => w * w).sum ≤ 1 ∧ 1 ≤ ws.length * (ws.map fun w => w * w).sum ∧
    (1 = ws.length * (ws.map fun w => w * w).sum ↔ ∀ w ∈ ws, w = 1 / ws.length) := by
  have hpos : 0 < ws.length := by
    rcases Nat.eq_zero_or_pos ws.length with h0 | h0
    · rw [List.length_eq_zero_iff] at h0; have := h.2; rw [h0] at this; simp at this
    · exact h0
  have hle1 : ∀ w ∈ ws, w ≤ 1 := fun w hw => by
    rw [← h.2]; exact List.single_le_sum h.1 w hw
  have hvar : ∀ (l : List ℝ) (c : ℝ), (l.map fun w => (w - c) * (w - c)).sum =
      (l.map fun w => w * w).sum - 2 * c * l.sum + l.length * (c * c) := by
    intro l c
    induction l with
    | nil => simp
    | cons a l ih => simp only [List.map_cons, List.sum_cons, ih, List.length_cons]; push_cast; ring
  have hn : (0 : ℝ) < ws.length := by exact_mod_cast hpos
  have hv := hvar ws (1 / ws.length)
  rw [h.2] at hv
  have hv' : (ws.map fun w : ℝ => (w - 1 / ws.length) * (w - 1 / ws.length)).sum =
      (ws.map fun w => w * w).sum - 1 / ws.length := by rw [hv]; field_simp; ring
  have hnn : ∀ x ∈ ws.map (fun w => (w - 1 / (ws.length : ℝ)) * (w - 1 / ws.length)), 0 ≤ x := by
    intro x hx
    simp only [List.mem_map] at hx
    obtain ⟨w, _, rfl⟩ := hx
    exact mul_self_nonneg _
  have hge : 1 / (ws.length : ℝ) ≤ (ws.map fun w => w * w).sum := by
    have := List.sum_nonneg hnn; linarith
  have hp : (0 : ℝ) < 1 / ws.length := by positivity
  refine ⟨by linarith, ?_, ?_, ?_⟩
  · rw [← h.2]
    have : ∀ l : List ℝ, (∀ w ∈ l, 0 ≤ w ∧ w ≤ 1) → (l.map fun w => w * w).sum ≤ l.sum := by
      intro l
      induction l with
      | nil => simp
      | cons a l ih =>
        intro hl
        have h1 := ih fun w hw => hl w (by simp [hw])
        obtain ⟨h2, h3⟩ := hl a (by simp)
        simp only [List.map_cons, List.sum_cons]
        nlinarith
    exact this ws fun w hw => ⟨h.1 w hw, hle1 w hw⟩
  · rwa [div_le_iff₀' hn] at hge
  · constructor
    · intro he
      have hz : (ws.map fun w => (w - 1 / (ws.length : ℝ)) * (w - 1 / ws.length)).sum = 0 := by
        rw [hv', sub_eq_zero, eq_div_iff hn.ne']; linarith
      intro w hw
      have h1 := List.single_le_sum hnn _ (List.mem_map.2 ⟨w, hw, rfl⟩)
      rw [hz] at h1
      have h2 := mul_self_nonneg (w - 1 / (ws.length : ℝ))
      have := mul_self_eq_zero.1 (le_antisymm h1 h2)
      linarith
    · intro he
      have : (ws.map fun w => w * w) = List.replicate ws.length (1 / (ws.length : ℝ) * (1 / ws.length)) := by
        rw [List.eq_replicate_iff]
        refine ⟨by simp, fun b hb => ?_⟩
        simp only [List.mem_map] at hb
        obtain ⟨w, hw, rfl⟩ := hb
        rw [he w hw]
      rw [this, List.sum_replicate, nsmul_eq_mul]
      field_simp

/-- C61. With weights that sum to one the effective sample size lies between one and the number of particles, and it is
that number exactly when all weights are equal. -/
theorem ess_range (f : ParticleFilter n XR R) (ws : List ℝ) (hw : f.weights = ws.map XR.fin) (h : Normalized ws) :
    ∃ e : ℝ, f.effectiveSampleSize = XR.fin e ∧ 1 ≤ e ∧ e ≤ f.weights.length ∧
      (e = f.weights.length ↔ ∀ w ∈ ws, w = 1 / ws.length) := by
  obtain ⟨h0, h1, h2, h3⟩ := sq_sum_bounds h
  refine ⟨_, xr_ess f ws hw h0.ne', ?_, ?_, ?_⟩
  · rwa [le_div_iff₀ h0, one_mul]
  · rw [hw, List.length_map, div_le_iff₀ h0]; exact h2
  · rw [hw, List.length_map, ← h3, div_eq_iff h0.ne']

/-- C61. From any state whatever, NaN and infinite weights, states and scores included, an update that succeeds leaves
weights that are finite, not negative and sum to one, and it leaves as many as before. -/
theorem update_normalizes (source : RandomSource R XR) (mp : XR) (f : ParticleFilter n XR R)
    (hlen : f.particles.length = f.weights.length) (score : (Fin n → XR) → XR)
    (hok : (f.updateWithLogWeights source mp score).2 = .ok ()) :
    ∃ ws : List ℝ, (f.updateWithLogWeights source mp score).1.weights = ws.map XR.fin ∧ (∀ w ∈ ws, 0 ≤ w) ∧
      ws.sum = 1 ∧ ws.length = f.weights.length := by
  unfold updateWithLogWeights at hok ⊢
  rcases normalize_cases source f (List.zipWith (fun particle weight => recoverableLogWeight mp weight + score particle)
    f.particles f.weights) with ⟨m, _, _, _, hs, e⟩ | ⟨_, ws, _, e, _⟩ | ⟨_, _, e⟩
  · rw [e]
    have hN := normalizedWeights_normalized hs
    set ws := normalizedWeights m (List.zipWith (fun particle weight => recoverableLogWeight mp weight + score particle)
      f.particles f.weights) with hws
    have hl : ws.length = f.weights.length := by simp [hws, normalizedWeights, hlen]
    simp only [settle]
    split_ifs with hc
    · have hpos : 0 < ws.length := by
        rcases Nat.eq_zero_or_pos ws.length with h0 | h0
        · rw [List.length_eq_zero_iff] at h0; have := hN.2; rw [h0] at this; simp at this
        · exact h0
      have hn : (0 : ℝ) < ws.length := by exact_mod_cast hpos
      refine ⟨List.replicate ws.length (1 / ws.length), ?_, ?_, ?_, by simp [hl]⟩
      · rw [(resample_spec source _ (by simp [hl, hlen])).2.1]
        simp only [List.length_map, List.map_replicate]
        congr 1
        exact fin_div _ _ hn.ne'
      · intro w hw
        rw [List.eq_of_mem_replicate hw]; positivity
      · rw [List.sum_replicate, nsmul_eq_mul]; field_simp
    · exact ⟨ws, rfl, hN.1, hN.2, hl⟩
  · rw [e] at hok; simp at hok
  · rw [e] at hok; simp at hok

/-- The prior the code uses: a weight that has run down to zero counts as the least positive number. -/
noncomputable def priorWeight (mp w : ℝ) : ℝ := if w = 0 then mp else w

theorem xr_log_nonneg {x : ℝ} (hx : 0 < x) : Fns.log (XR.fin x) = XR.fin (Real.log x) := by
  simp [Fns.log, hx.not_gt, hx.ne']

theorem xr_log_mul {p q : ℝ} (hp : 0 < p) (hq : 0 ≤ q) :
    Fns.log (XR.fin p) + Fns.log (XR.fin q) = Fns.log (XR.fin (p * q)) := by
  rcases hq.eq_or_lt with rfl | hq
  · rw [xr_log_nonneg hp, mul_zero]
    simp [Fns.log]
    rfl
  · rw [xr_log_nonneg hp, xr_log_nonneg hq, xr_log_nonneg (mul_pos hp hq), fin_add, Real.log_mul hp.ne' hq.ne']

theorem relativeWeight_log {m x : ℝ} (hx : 0 ≤ x) : relativeWeight m (Fns.log (XR.fin x)) = x / Real.exp m := by
  rcases hx.eq_or_lt with rfl | hx
  · simp [Fns.log, relativeWeight]
  · rw [xr_log_nonneg hx]
    simp [relativeWeight, Real.exp_sub, Real.exp_log hx]

/-- C61. The update is Bayes' rule: when the score of each particle is the logarithm of its likelihood (`-∞` for
likelihood zero) and some particle has a positive one, each new weight is old weight times likelihood, over the sum of
these products. Then the filter resamples exactly if the effective sample size is below the threshold. A particle whose
weight had run down to zero starts again from the least positive number. -/
theorem update_bayes (source : RandomSource R XR) (mp : ℝ) (hmp : 0 < mp) (f : ParticleFilter n XR R) (ws : List ℝ)
    (hw : f.weights = ws.map XR.fin) (h0 : ∀ w ∈ ws, 0 ≤ w) (score : (Fin n → XR) → XR) (lik : (Fin n → XR) → ℝ)
    (hlik : ∀ p ∈ f.particles, 0 ≤ lik p ∧ score p = Fns.log (XR.fin (lik p)))
    (xs : List ℝ) (hxs : xs = List.zipWith (fun p w => (if w = 0 then mp else w) * lik p) f.particles ws)
    (hpos : ∃ x ∈ xs, 0 < x) :
    let g : ParticleFilter n XR R := { f with weights := xs.map fun x => XR.fin (x / xs.sum) }
    f.updateWithLogWeights source (XR.fin mp) score =
      (if g.effectiveSampleSize < g.resampleThreshold then g.resample source else g, .ok ()) := by
  have hprior : ∀ w ∈ ws, 0 < priorWeight mp w ∧
      recoverableLogWeight (XR.fin mp) (XR.fin w) = Fns.log (XR.fin (priorWeight mp w)) := by
    intro w hwm
    unfold priorWeight recoverableLogWeight
    rw [show ((0 : XR)) = XR.fin 0 from rfl, fin_beq]
    by_cases hz : w = 0
    · simp [hz, hmp]
    · simp [hz, lt_of_le_of_ne (h0 w hwm) (Ne.symm hz)]
  have hL : (List.zipWith (fun particle weight => recoverableLogWeight (XR.fin mp) weight + score particle)
      f.particles f.weights) = xs.map fun x => Fns.log (XR.fin x) := by
    rw [hw, hxs]
    have : ∀ (ps : List (Fin n → XR)) (l : List ℝ), (∀ p ∈ ps, 0 ≤ lik p ∧ score p = Fns.log (XR.fin (lik p))) →
        (∀ w ∈ l, 0 < priorWeight mp w ∧
          recoverableLogWeight (XR.fin mp) (XR.fin w) = Fns.log (XR.fin (priorWeight mp w))) →
        List.zipWith (fun particle weight => recoverableLogWeight (XR.fin mp) weight + score particle) ps (l.map XR.fin) =
        (List.zipWith (fun p w => (if w = 0 then mp else w) * lik p) ps l).map fun x => Fns.log (XR.fin x) := by
      intro ps
      induction ps with
      | nil => intros; simp
      | cons p ps ih =>
        intro l hp hl
        cases l with
        | nil => simp
        | cons w l =>
          simp only [List.map_cons, List.zipWith_cons_cons, List.map_cons]
          rw [ih l (fun q hq => hp q (by simp [hq])) (fun v hv => hl v (by simp [hv]))]
          rw [(hl w (by simp)).2, (hp p (by simp)).2, xr_log_mul (hl w (by simp)).1 (hp p (by simp)).1]
          rfl
    exact this _ _ hlik hprior
  have hx0 : ∀ x ∈ xs, 0 ≤ x := by
    intro x hx
    rw [hxs] at hx
    have : ∀ (ps : List (Fin n → XR)) (l : List ℝ), (∀ p ∈ ps, 0 ≤ lik p) → (∀ w ∈ l, 0 < priorWeight mp w) →
        ∀ x ∈ List.zipWith (fun p w => (if w = 0 then mp else w) * lik p) ps l, 0 ≤ x := by
      intro ps
      induction ps with
      | nil => intros; simp_all
      | cons p ps ih =>
        intro l hp hl x hx
        cases l with
        | nil => simp at hx
        | cons w l =>
          simp only [List.zipWith_cons_cons, List.mem_cons] at hx
          rcases hx with rfl | hx
          · exact mul_nonneg (hl w (by simp)).le (hp p (by simp))
          · exact ih l (fun q hq => hp q (by simp [hq])) (fun v hv => hl v (by simp [hv])) x hx
    exact this _ _ (fun p hp => (hlik p hp).1) (fun w hwm => (hprior w hwm).1) x hx
  have hlog : ∀ l ∈ (xs.map fun x => Fns.log (XR.fin x)), l = ninf ∨ ∃ a, l = XR.fin a := by
    intro l hl
    simp only [List.mem_map] at hl
    obtain ⟨x, hx, rfl⟩ := hl
    rcases (hx0 x hx).eq_or_lt with rfl | h
    · left; simp [Fns.log]
    · right; exact ⟨_, xr_log_nonneg h⟩
  obtain ⟨x0, hx0m, hx0p⟩ := hpos
  intro g
  unfold updateWithLogWeights
  rw [hL]
  rcases normalize_cases source f (xs.map fun x => Fns.log (XR.fin x)) with ⟨m, _, _, _, hs, e⟩ | ⟨hn, _⟩ | ⟨_, hb, _⟩
  · rw [e]
    have hw' : normalizedWeights m (xs.map fun x => Fns.log (XR.fin x)) = xs.map fun x => x / xs.sum := by
      unfold normalizedWeights
      simp only [List.map_map]
      have e1 : xs.map (relativeWeight m ∘ fun x => Fns.log (XR.fin x)) = xs.map fun x => x * (Real.exp m)⁻¹ :=
        List.map_congr_left fun x hx => relativeWeight_log (hx0 x hx)
      rw [e1, List.sum_map_mul_right, List.map_id']
      refine List.map_congr_left fun x hx => ?_
      simp only [Function.comp]
      rw [relativeWeight_log (hx0 x hx)]
      have := Real.exp_pos m
      have hsp : 0 < xs.sum := lt_of_lt_of_le hx0p (List.single_le_sum hx0 _ hx0m)
      field_simp
    rw [hw']
    simp only [settle, g, List.map_map]
    rfl
  · rcases hlog _ hn with h | ⟨a, h⟩ <;> simp at h
  · exfalso
    rcases hb with hb | hb
    · rcases hlog _ hb with h | ⟨a, h⟩ <;> simp at h
    · have := hb _ (List.mem_map.2 ⟨x0, hx0m, rfl⟩)
      rw [xr_log_nonneg hx0p] at this
      simp at this

/-- C61. When every score is `-∞`, or one is `+∞` and none is NaN, the update reports degenerate weights and leaves the
filter as it was. -/
theorem update_degenerate (source : RandomSource R XR) (mp : ℝ) (hmp : 0 < mp) (f : ParticleFilter n XR R)
    (ws : List ℝ) (hw : f.weights = ws.map XR.fin) (h0 : ∀ w ∈ ws, 0 ≤ w)
    (hlen : f.particles.length = f.weights.length) (score : (Fin n → XR) → XR)
    (h : (∀ p ∈ f.particles, score p = ninf) ∨
      (∃ p ∈ f.particles, score p = pinf) ∧ ∀ p ∈ f.particles, score p ≠ nan) :
    f.updateWithLogWeights source (XR.fin mp) score = (f, .error .weightsDegenerate) := by
  have hprior : ∀ w ∈ f.weights, ∃ a, recoverableLogWeight (XR.fin mp) w = XR.fin a := by
    intro w hwm
    rw [hw] at hwm
    simp only [List.mem_map] at hwm
    obtain ⟨v, hv, rfl⟩ := hwm
    unfold recoverableLogWeight
    rw [show ((0 : XR)) = XR.fin 0 from rfl, fin_beq]
    by_cases hz : v = 0
    · simp only [hz, decide_true, if_true]; exact ⟨_, xr_log_nonneg hmp⟩
    · simp only [hz, decide_false]
      exact ⟨_, by rw [if_neg (by simp)]; exact xr_log_nonneg (lt_of_le_of_ne (h0 v hv) (Ne.symm hz))⟩
  have hzip : ∀ l ∈ List.zipWith (fun particle weight => recoverableLogWeight (XR.fin mp) weight + score particle)
      f.particles f.weights, ∃ a, ∃ p ∈ f.particles, l = XR.fin a + score p := by
    intro l hl
    obtain ⟨i, hi, rfl⟩ := List.getElem_of_mem hl
    simp only [List.length_zipWith, lt_min_iff] at hi
    obtain ⟨a, ha⟩ := hprior f.weights[i] (List.getElem_mem hi.2)
    exact ⟨a, f.particles[i], List.getElem_mem hi.1, by simp [ha]⟩
  have hcover : ∀ p ∈ f.particles, ∃ a, XR.fin a + score p ∈
      List.zipWith (fun particle weight => recoverableLogWeight (XR.fin mp) weight + score particle)
      f.particles f.weights := by
    intro p hp
    obtain ⟨i, hi, rfl⟩ := List.getElem_of_mem hp
    obtain ⟨a, ha⟩ := hprior f.weights[i] (List.getElem_mem (hlen ▸ hi))
    refine ⟨a, ?_⟩
    rw [List.mem_iff_getElem]
    exact ⟨i, by simp [← hlen, hi], by simp [ha]⟩
  unfold updateWithLogWeights
  rcases normalize_cases source f (List.zipWith (fun particle weight => recoverableLogWeight (XR.fin mp) weight +
    score particle) f.particles f.weights) with ⟨m, _, hle, hm, _, _⟩ | ⟨hn, _⟩ | ⟨_, _, e⟩
  · exfalso
    rcases h with h | ⟨⟨p, hp, hs⟩, _⟩
    · obtain ⟨a, p, hp, e⟩ := hzip _ hm
      rw [h p hp] at e
      exact absurd e (by show XR.fin m ≠ ninf; simp)
    · obtain ⟨a, ha⟩ := hcover p hp
      rw [hs] at ha
      exact hle _ ha (show XR.fin m < pinf from trivial)
  · exfalso
    obtain ⟨a, p, hp, e⟩ := hzip _ hn
    have hne : score p ≠ nan := by
      rcases h with h | ⟨_, h⟩
      · rw [h p hp]; simp
      · exact h p hp
    cases hs : score p with
    | nan => exact hne hs
    | fin b => rw [hs] at e; exact absurd e (by simp)
    | pinf => rw [hs] at e; exact absurd e (by show nan ≠ pinf; simp)
    | ninf => rw [hs] at e; exact absurd e (by show nan ≠ ninf; simp)
  · exact e

/-- Updates one after another, whatever each reports. -/
noncomputable def updateMany (source : RandomSource R XR) (mp : XR) (f : ParticleFilter n XR R) :
    List ((Fin n → XR) → XR) → ParticleFilter n XR R
  | [] => f
  | score :: scores => updateMany source mp (f.updateWithLogWeights source mp score).1 scores

theorem poisoned_step (source : RandomSource R XR) (mp : XR) (f : ParticleFilter n XR R)
    (hlen : f.particles.length = f.weights.length) (hn : nan ∈ f.weights) (score : (Fin n → XR) → XR) :
    (f.updateWithLogWeights source mp score).2 = .error .weightsDegenerate ∧
    nan ∈ (f.updateWithLogWeights source mp score).1.weights ∧
    (f.updateWithLogWeights source mp score).1.particles = f.particles ∧
    (f.updateWithLogWeights source mp score).1.particles.length =
      (f.updateWithLogWeights source mp score).1.weights.length := by
  have hk := (particle_count_kept source mp f hlen (fun p => p) score).2
  have hL : nan ∈ List.zipWith (fun particle weight => recoverableLogWeight mp weight + score particle)
      f.particles f.weights := by
    obtain ⟨i, hi, e⟩ := List.getElem_of_mem hn
    rw [List.mem_iff_getElem]
    refine ⟨i, by simp [hlen, hi], ?_⟩
    rw [List.getElem_zipWith, e]
    have : recoverableLogWeight mp nan = nan := rfl
    rw [this, nan_add]
  unfold updateWithLogWeights at hk ⊢
  rcases normalize_cases source f (List.zipWith (fun particle weight => recoverableLogWeight mp weight +
    score particle) f.particles f.weights) with ⟨m, h, _⟩ | ⟨_, ws, hws, e, _⟩ | ⟨h, _⟩
  · exact absurd hL h
  · rw [hk.1, hk.2]
    refine ⟨by rw [e], ?_, by rw [e], hlen⟩
    rw [e]
    rcases hws with rfl | hws
    · exact hn
    · exact hws
  · exact absurd hL h

/-- C61 (finding). One NaN score is for ever: the update reports degenerate weights but has already written the weights
with the NaN among them, and from then on every update fails, whatever the scores. So the claim that an error leaves the
filter usable is false. -/
theorem particle_nan_poisons_partial (source : RandomSource R XR) (mp : ℝ) (hmp : 0 < mp) (f : ParticleFilter n XR R)
    (ws : List ℝ) (hw : f.weights = ws.map XR.fin) (h0 : ∀ w ∈ ws, 0 ≤ w)
    (hlen : f.particles.length = f.weights.length) (score : (Fin n → XR) → XR)
    (hnan : ∃ p ∈ f.particles, score p = nan) (hfin : ∃ p ∈ f.particles, ∃ s, score p = XR.fin s)
    (hinf : ∀ p ∈ f.particles, score p ≠ pinf) :
    (f.updateWithLogWeights source (XR.fin mp) score).2 = .error .weightsDegenerate ∧
    nan ∈ (f.updateWithLogWeights source (XR.fin mp) score).1.weights ∧
    ∀ (later : List ((Fin n → XR) → XR)) (next : (Fin n → XR) → XR),
      ((updateMany source (XR.fin mp) (f.updateWithLogWeights source (XR.fin mp) score).1 later).updateWithLogWeights
        source (XR.fin mp) next).2 = .error .weightsDegenerate := by
  have hprior : ∀ w ∈ f.weights, ∃ a, recoverableLogWeight (XR.fin mp) w = XR.fin a := by
    intro w hwm
    rw [hw] at hwm
    simp only [List.mem_map] at hwm
    obtain ⟨v, hv, rfl⟩ := hwm
    unfold recoverableLogWeight
    rw [show ((0 : XR)) = XR.fin 0 from rfl, fin_beq]
    by_cases hz : v = 0
    · simp only [hz, decide_true, if_true]; exact ⟨_, xr_log_nonneg hmp⟩
    · simp only [hz, decide_false]
      exact ⟨_, by rw [if_neg (by simp)]; exact xr_log_nonneg (lt_of_le_of_ne (h0 v hv) (Ne.symm hz))⟩
  have hcover : ∀ p ∈ f.particles, ∃ a, XR.fin a + score p ∈
      List.zipWith (fun particle weight => recoverableLogWeight (XR.fin mp) weight + score particle)
      f.particles f.weights := by
    intro p hp
    obtain ⟨i, hi, rfl⟩ := List.getElem_of_mem hp
    obtain ⟨a, ha⟩ := hprior f.weights[i] (List.getElem_mem (hlen ▸ hi))
    refine ⟨a, ?_⟩
    rw [List.mem_iff_getElem]
    exact ⟨i, by simp [← hlen, hi], by simp [ha]⟩
  have hzip : ∀ l ∈ List.zipWith (fun particle weight => recoverableLogWeight (XR.fin mp) weight + score particle)
      f.particles f.weights, ∃ a, ∃ p ∈ f.particles, l = XR.fin a + score p := by
    intro l hl
    obtain ⟨i, hi, rfl⟩ := List.getElem_of_mem hl
    simp only [List.length_zipWith, lt_min_iff] at hi
    obtain ⟨a, ha⟩ := hprior f.weights[i] (List.getElem_mem hi.2)
    exact ⟨a, f.particles[i], List.getElem_mem hi.1, by simp [ha]⟩
  obtain ⟨p, hp, hpn⟩ := hnan
  obtain ⟨a, ha⟩ := hcover p hp
  rw [hpn, add_nan] at ha
  have hk := (particle_count_kept source (XR.fin mp) f hlen (fun p => p) score).2
  have first : (f.updateWithLogWeights source (XR.fin mp) score).2 = .error .weightsDegenerate ∧
      nan ∈ (f.updateWithLogWeights source (XR.fin mp) score).1.weights := by
    unfold updateWithLogWeights
    rcases normalize_cases source f (List.zipWith (fun particle weight => recoverableLogWeight (XR.fin mp) weight +
      score particle) f.particles f.weights) with ⟨m, h, _⟩ | ⟨_, ws', _, e, hin⟩ | ⟨h, _⟩
    · exact absurd ha h
    · rw [e]
      refine ⟨rfl, hin ?_ ?_⟩
      · obtain ⟨q, hq, s, hs⟩ := hfin
        obtain ⟨b, hb⟩ := hcover q hq
        rw [hs, fin_add] at hb
        exact ⟨_, hb⟩
      · intro hp'
        obtain ⟨b, q, hq, e'⟩ := hzip _ hp'
        cases hs : score q with
        | nan => rw [hs] at e'; simp at e'
        | fin c => rw [hs] at e'; simp at e'
        | pinf => exact hinf q hq hs
        | ninf => rw [hs] at e'; exact absurd e' (by show pinf ≠ ninf; simp)
    · exact absurd ha h
  refine ⟨first.1, first.2, fun later next => ?_⟩
  have all : ∀ (l : List ((Fin n → XR) → XR)) (g : ParticleFilter n XR R), g.particles.length = g.weights.length →
      nan ∈ g.weights → ((updateMany source (XR.fin mp) g l).updateWithLogWeights source (XR.fin mp) next).2 =
        .error .weightsDegenerate := by
    intro l
    induction l with
    | nil => intro g hg hgn; exact (poisoned_step source _ g hg hgn next).1
    | cons s l ih =>
      intro g hg hgn
      obtain ⟨_, b, _, d⟩ := poisoned_step source (XR.fin mp) g hg hgn s
      exact ih _ d b
  exact all later _ (by rw [hk.1, hk.2, hlen]) first.2

end Special

/-! ### Reals -/

section Real

open Matrix

variable {n m : ℕ} {R : Type}

theorem weighted_fold {A : Type} (f : A → ℝ) (l : List (A × ℝ)) (z : ℝ) :
    l.foldl (fun s pw => s + f pw.1 * pw.2) z = z + (l.map fun pw => f pw.1 * pw.2).sum := by
  induction l generalizing z with
  | nil => simp
  | cons a l ih => simp [ih, add_assoc]

theorem mean_eq (f : ParticleFilter n ℝ R) (i : Fin n) :
    f.mean i = ((f.particles.zip f.weights).map fun pw => pw.1 i * pw.2).sum := by
  unfold mean
  have : ∀ (l : List ((Fin n → ℝ) × ℝ)) (z : Fin n → ℝ), (l.foldl (fun total pw => vadd total (vscaleBy pw.1 pw.2)) z) i =
      z i + (l.map fun pw => pw.1 i * pw.2).sum := by
    intro l
    induction l with
    | nil => intro z; simp
    | cons a l ih =>
      intro z
      simp only [List.foldl_cons, List.map_cons, List.sum_cons]
      rw [ih]
      simp only [vadd, vscaleBy]
      ring
  rw [this]; simp

/-- C61. The mean is the weighted average, so it never leaves the convex hull of the particles: any half-space that
holds every particle holds the mean. -/
theorem mean_in_hull (f : ParticleFilter n ℝ R) (hlen : f.particles.length = f.weights.length)
    (hN : Normalized f.weights) (a : Fin n → ℝ) (c : ℝ) (h : ∀ p ∈ f.particles, ∑ i, a i * p i ≤ c) :
    ∑ i, a i * f.mean i ≤ c := by
  have e : ∑ i, a i * f.mean i = ((f.particles.zip f.weights).map fun pw => (∑ i, a i * pw.1 i) * pw.2).sum := by
    simp only [mean_eq]
    have : ∀ l : List ((Fin n → ℝ) × ℝ), ∑ i, a i * (l.map fun pw => pw.1 i * pw.2).sum =
        (l.map fun pw => (∑ i, a i * pw.1 i) * pw.2).sum := by
      intro l
      induction l with
      | nil => simp
      | cons x l ih =>
        simp only [List.map_cons, List.sum_cons, mul_add, Finset.sum_add_distrib, ih, Finset.sum_mul]
        congr 1
        exact Finset.sum_congr rfl fun i _ => by ring
    exact this _
  rw [e]
  have : ∀ (ps : List (Fin n → ℝ)) (ws : List ℝ), ps.length = ws.length → (∀ p ∈ ps, ∑ i, a i * p i ≤ c) →
      (∀ w ∈ ws, 0 ≤ w) → ((ps.zip ws).map fun pw => (∑ i, a i * pw.1 i) * pw.2).sum ≤ c * ws.sum := by
    intro ps
    induction ps with
    | nil => intro ws hl _ _; cases ws with
      | nil => simp
      | cons => simp at hl
    | cons p ps ih =>
      intro ws hl hp hw
      cases ws with
      | nil => simp at hl
      | cons w ws =>
        simp only [List.zip_cons_cons, List.map_cons, List.sum_cons]
        have h1 := ih ws (by simpa using hl) (fun q hq => hp q (by simp [hq])) (fun v hv => hw v (by simp [hv]))
        have h2 := mul_le_mul_of_nonneg_right (hp p (by simp)) (hw w (by simp))
        linarith
  have := this f.particles f.weights hlen h hN.1
  rwa [hN.2, mul_one] at this

/-- C61. The Gaussian likelihood scores a particle by minus half the squared residual in the metric of the inverse
noise covariance. -/
theorem gaussian_score (N L : Matrix (Fin m) (Fin m) ℝ) (hN : N.IsSymm) (hL : cholesky N = .ok L)
    (predicted z : Fin m → ℝ) :
    gaussianLogWeight L predicted z = -(1 / 2) * ((z - predicted) ⬝ᵥ N⁻¹ *ᵥ (z - predicted)) := by
  obtain ⟨_, _, _, hsol, _, hdet, hpos, _⟩ := cholesky_factors (k := m) N L hN hL
  have hu : IsUnit N.det := isUnit_iff_ne_zero.2 hpos.ne'
  have e : N⁻¹ *ᵥ (z - predicted) = choleskySolve L (z - predicted) := by
    apply (hsol _ _).1
    rw [mmulVec_eq, Matrix.mulVec_mulVec, Matrix.mul_nonsing_inv _ hu, Matrix.one_mulVec]
  rw [e]
  unfold gaussianLogWeight
  dsimp only
  rw [show (fun i => z i - predicted i) = z - predicted from rfl, vdot_eq]
  norm_num

/-- C61. A new filter has the particles asked for, each the initial mean plus a factor of the initial covariance times
normal draws, all of the same weight; and predicting adds a factor of the process noise times fresh draws to the
moved particle, leaving the weights alone. -/
theorem particle_noise (source : RandomSource R ℝ) (count : ℕ) (hc : 0 < count) (x : Fin n → ℝ)
    (P Q : Matrix (Fin n) (Fin n) ℝ) (hP : Pd P) (hQ : Pd Q) (r : R) :
    ∃ f LP LQ, fromRandom source count x P Q r = .ok f ∧ LP * LPᵀ = P ∧ LQ * LQᵀ = Q ∧
      f.particles.length = count ∧ f.weights = List.replicate count (1 / (count : ℝ)) ∧ Normalized f.weights ∧
      (∀ k (hk : k < f.particles.length), ∃ z ∈ (drawMany (normalVector source n) count r).1,
        f.particles[k] = x + LP *ᵥ z) ∧
      ∀ (g : ParticleFilter n ℝ R) (process : (Fin n → ℝ) → Fin n → ℝ), g.processNoiseFactor = f.processNoiseFactor →
        (g.predict source process).1.weights = g.weights ∧ (g.predict source process).2 = .ok () ∧
        ∀ k (hk : k < g.particles.length), ∃ z ∈ (drawMany (normalVector source n) g.particles.length g.random).1,
          (g.predict source process).1.particles[k]? = some (process g.particles[k] + LQ *ᵥ z) := by
  obtain ⟨LP, hLP⟩ := cholesky_ok_of_pd P hP.1 hP.2
  obtain ⟨LQ, hLQ⟩ := cholesky_ok_of_pd Q hQ.1 hQ.2
  have fP := (cholesky_factors (k := n) P LP hP.1 hLP).1
  have fQ := (cholesky_factors (k := n) Q LQ hQ.1 hLQ).1
  rw [mmul_eq, mtranspose_eq] at fP fQ
  have hcr : (0 : ℝ) < count := by exact_mod_cast hc
  refine ⟨_, LP, LQ, by
    unfold fromRandom
    rw [if_neg hc.ne', hLP]
    simp only [hLQ]
    rfl, fP, fQ, by simp [drawMany_length], rfl, ⟨?_, ?_⟩, ?_, ?_⟩
  · intro w hw; rw [List.eq_of_mem_replicate hw]; positivity
  · rw [List.sum_replicate, nsmul_eq_mul]; field_simp
  · intro k hk
    simp only [List.length_map] at hk
    refine ⟨_, List.getElem_mem hk, ?_⟩
    simp only [List.getElem_map, mmulVec_eq]
    rfl
  · intro g process hg
    refine ⟨rfl, ?_, fun k hk => ?_⟩
    · simp only [predict]
      rw [if_pos]
      rw [List.all_eq_true]
      intro p _
      exact real_vIsFinite p
    · have hz : k < (drawMany (normalVector source n) g.particles.length g.random).1.length := by
        rw [drawMany_length]; exact hk
      refine ⟨_, List.getElem_mem hz, ?_⟩
      simp only [predict]
      rw [List.getElem?_eq_getElem (by simp [drawMany_length, hk]), List.getElem_zipWith, hg]
      simp only [mmulVec_eq]
      rfl

end Real

/-! ### A failed prediction -/

/-- A filter on the line with one particle of weight one. -/
noncomputable def lone (x : XR) : ParticleFilter 1 XR Unit :=
  ⟨[fun _ => x], [1], fun _ _ => 0, .systematic, 0, 0, ()⟩

/-- A source that always draws one half and zero. -/
noncomputable def still : RandomSource Unit XR := ⟨fun r => (XR.fin (1 / 2), r), fun r => (0, r)⟩

/-- C59 (finding). A prediction that fails has already replaced the particles: the error does not leave the filter as it
was. -/
theorem particle_predict_overwrites_partial :
    ((lone (XR.fin 1)).predict still fun _ _ => XR.pinf).2 = .error .nonFinite ∧
    ((lone (XR.fin 1)).predict still fun _ _ => XR.pinf).1.particles ≠ (lone (XR.fin 1)).particles := by
  have hp : ((lone (XR.fin 1)).predict still fun _ _ => XR.pinf).1.particles = [fun _ => XR.pinf] := by
    simp only [predict, lone, drawMany, List.length_singleton, List.zipWith_cons_cons, List.zipWith_nil_right,
      normalVector, still]
    congr 1
  constructor
  · show (if ((lone (XR.fin 1)).predict still fun _ _ => XR.pinf).1.particles.all vIsFinite then
      (.ok () : Except EstimationError Unit) else .error .nonFinite) = _
    rw [hp, if_neg (by simp [vIsFinite, Fns.isFinite])]
  · rw [hp]
    intro h
    have := congrFun (List.cons_eq_cons.1 h).1 0
    exact absurd this (by simp)

/-! ### The hypotheses are met -/

/-- Two particles, one of them three times as heavy. -/
noncomputable def pairFilter : ParticleFilter 1 XR Unit :=
  ⟨[fun _ => 0, fun _ => 1], [XR.fin (1 / 4), XR.fin (3 / 4)], fun _ _ => 0, .residual, 0, 0, ()⟩

example : pairFilter.particles.length = pairFilter.weights.length ∧
    pairFilter.weights = [(1 / 4 : ℝ), 3 / 4].map XR.fin ∧ Normalized [(1 / 4 : ℝ), 3 / 4] ∧ ¬ 0 < pairFilter.roughening :=
  ⟨rfl, rfl, ⟨by intro w hw; simp at hw; rcases hw with rfl | rfl <;> norm_num, by norm_num⟩, by
    show ¬ XR.fin 0 < XR.fin 0; simp⟩

/-- The update of the two particles whose likelihoods are one half and zero succeeds. -/
example : (pairFilter.updateWithLogWeights still (XR.fin 1) fun p =>
    Fns.log (XR.fin (if p 0 == 0 then 1 / 2 else 0))).2 = .ok () := by
  have := update_bayes still 1 one_pos pairFilter [1 / 4, 3 / 4] rfl (by
    intro w hw; simp at hw; rcases hw with rfl | rfl <;> norm_num) (fun p =>
    Fns.log (XR.fin (if p 0 == 0 then 1 / 2 else 0))) (fun p => if p 0 == 0 then 1 / 2 else 0)
    (fun p _ => ⟨by split_ifs <;> norm_num, rfl⟩) _ rfl ⟨1 / 4 * (1 / 2), by simp [pairFilter], by norm_num⟩
  rw [this]

/-- The scores of `particle_nan_poisons_partial` and `update_degenerate`. -/
example : (∃ p ∈ pairFilter.particles, (fun p : Fin 1 → XR => if p 0 == 0 then XR.nan else XR.fin 0) p = XR.nan) ∧
    (∃ p ∈ pairFilter.particles, ∃ s, (fun p : Fin 1 → XR => if p 0 == 0 then XR.nan else XR.fin 0) p = XR.fin s) ∧
    ∀ p ∈ pairFilter.particles, (fun p : Fin 1 → XR => if p 0 == 0 then XR.nan else XR.fin 0) p ≠ XR.pinf := by
  refine ⟨⟨fun _ => 0, by simp [pairFilter], by simp⟩, ⟨fun _ => 1, by simp [pairFilter], 0, by simp⟩, fun p _ => ?_⟩
  dsimp only
  split_ifs <;> simp

example : ∀ p ∈ pairFilter.particles, (fun _ : Fin 1 → XR => XR.ninf) p = XR.ninf := fun _ _ => rfl

example : Pd (1 : Matrix (Fin 2) (Fin 2) ℝ) ∧ vIsFinite (fun _ : Fin 1 => XR.nan) = false :=
  ⟨pd_one, by simp [vIsFinite, Fns.isFinite]⟩

end ParticleFilter

end Multicalc
