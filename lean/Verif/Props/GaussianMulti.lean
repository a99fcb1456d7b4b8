import Verif.Props.GaussianTables
import Mathlib.MeasureTheory.Integral.Pi

/-!
# Gaussian quadrature in several variables (C117)

Every nested loop is a weighted sum, so that the integrator is a product rule: linear in the
integrand, independent of the order in which the variables are listed, and multiplicative on
products of functions of one variable.
-/

namespace Multicalc.GaussianTables

open MeasureTheory Set

/-- What one level of the quadrature makes of a function. -/
noncomputable def level (m : GaussianMethod) (t : List (ℚ × ℚ)) (l : ℝ × ℝ) (h : ℝ → ℝ) : ℝ :=
  match m with
  | .legendre => (l.2 - l.1) / 2 * (t.map fun p => (p.1 : ℝ) * h ((l.2 - l.1) / 2 * (p.2 : ℝ) + (l.2 + l.1) / 2)).sum
  | _ => (t.map fun p => (p.1 : ℝ) * h (p.2 : ℝ)).sum

/-- The levels nested, outermost first. -/
noncomputable def nested {n : ℕ} (m : GaussianMethod) (t : List (ℚ × ℚ)) (f : (Fin n → ℝ) → ℝ) :
    List (Fin n × (ℝ × ℝ)) → (Fin n → ℝ) → ℝ
  | [], p => f p
  | (v, l) :: r, p => level m t l fun x => nested m t f r (Function.update p v x)

/-- A level is a finite weighted sum. -/
theorem level_sum (m : GaussianMethod) (t : List (ℚ × ℚ)) (l : ℝ × ℝ) :
    ∃ s : List (ℝ × ℝ), ∀ h, level m t l h = (s.map fun p => p.1 * h p.2).sum := by
  cases m
  · refine ⟨t.map fun p => ((l.2 - l.1) / 2 * (p.1 : ℝ), (l.2 - l.1) / 2 * (p.2 : ℝ) + (l.2 + l.1) / 2), fun h => ?_⟩
    simp only [level, List.map_map, Function.comp_def, mul_assoc, List.sum_map_mul_left]
  · exact ⟨t.map fun p => ((p.1 : ℝ), (p.2 : ℝ)), fun h => by simp [level, Function.comp_def]⟩
  · exact ⟨t.map fun p => ((p.1 : ℝ), (p.2 : ℝ)), fun h => by simp [level, Function.comp_def]⟩

theorem level_linear (m : GaussianMethod) (t : List (ℚ × ℚ)) (l : ℝ × ℝ) (a b : ℝ) (f g : ℝ → ℝ) :
    level m t l (fun x => a * f x + b * g x) = a * level m t l f + b * level m t l g := by
  obtain ⟨s, hs⟩ := level_sum m t l
  rw [hs, hs, hs]
  clear hs
  induction s with
  | nil => simp
  | cons p s ih => simp only [List.map_cons, List.sum_cons, ih]; ring

theorem level_mul (m : GaussianMethod) (t : List (ℚ × ℚ)) (l : ℝ × ℝ) (c : ℝ) (f : ℝ → ℝ) :
    level m t l (fun x => c * f x) = c * level m t l f := by
  have := level_linear m t l c 0 f f
  simpa using this

theorem level_swap (m : GaussianMethod) (t : List (ℚ × ℚ)) (k l : ℝ × ℝ) (F : ℝ → ℝ → ℝ) :
    level m t k (fun x => level m t l fun y => F x y) = level m t l (fun y => level m t k fun x => F x y) := by
  obtain ⟨s, hs⟩ := level_sum m t k
  simp only [hs]
  clear hs
  induction s with
  | nil =>
    have := level_mul m t l 0 fun _ => 0
    simp only [zero_mul] at this
    simp [this]
  | cons p s ih =>
    simp only [List.map_cons, List.sum_cons, ih]
    have := level_linear m t l p.1 1 (fun y => F p.2 y) fun y => (s.map fun q => q.1 * F q.2 y).sum
    simp only [one_mul] at this
    exact this.symm

/-! ### The loops compute the nested sums -/

theorem gaussianSum_ok (t : List (ℚ × ℚ)) (h : ℝ → ℝ) (F : ℝ → Except IntegrateFailure ℝ) (hF : ∀ x, F x = .ok (h x)) :
    gaussianSum t F = .ok (t.map fun p => (p.1 : ℝ) * h (p.2 : ℝ)).sum := by
  have key : ∀ acc : ℝ, t.foldlM (fun ans (wx : ℚ × ℚ) => do
      let v ← F (Fns.lit wx.2)
      return ans + Fns.lit wx.1 * v) acc =
      (.ok (acc + (t.map fun p => (p.1 : ℝ) * h (p.2 : ℝ)).sum) : Except IntegrateFailure ℝ) := by
    induction t with
    | nil => intro acc; simp; rfl
    | cons p t ih =>
      intro acc
      simp only [List.foldlM_cons, hF]
      simp only [hF] at ih
      refine (ih _).trans ?_
      simp only [List.map_cons, List.sum_cons]
      show (Except.ok (acc + (p.1 : ℝ) * h (p.2 : ℝ) + _) : Except IntegrateFailure ℝ) = _
      rw [add_assoc]
  have := key 0
  rw [zero_add] at this
  exact this

theorem half_lit (x : ℝ) : x * (Fns.lit (1 / 2) : ℝ) = x / 2 := by
  show x * (((1 / 2 : ℚ)) : ℝ) = x / 2
  push_cast; ring

theorem finiteSample_real (x : ℝ) : finiteSample x = .ok x := by
  simp only [finiteSample, real_isFinite, if_true]

theorem legendre_nested {n : ℕ} (t : List (ℚ × ℚ)) (f : (Fin n → ℝ) → ℝ) :
    ∀ (ls : List (Fin n × (ℝ × ℝ))) (p : Fin n → ℝ), ls ≠ [] →
      gaussLegendreMulti t f ls p = .ok (nested .legendre t f ls p) := by
  intro ls
  induction ls with
  | nil => intro p h; exact absurd rfl h
  | cons q r ih =>
    intro p _
    obtain ⟨v, a, b⟩ := q
    cases r with
    | nil =>
      simp only [gaussLegendreMulti, half_lit, nested, level]
      rw [gaussianSum_ok t (fun x => f (Function.update p v ((b - a) / 2 * x + (b + a) / 2))) _
        fun x => finiteSample_real _]
      rfl
    | cons q' r' =>
      simp only [gaussLegendreMulti, half_lit]
      rw [gaussianSum_ok t
        (fun x => nested .legendre t f (q' :: r') (Function.update p v ((b - a) / 2 * x + (b + a) / 2))) _
        fun x => ih _ (by simp)]
      rfl

theorem canonical_nested {n : ℕ} {m : GaussianMethod} (hm : m ≠ .legendre) (t : List (ℚ × ℚ)) (f : (Fin n → ℝ) → ℝ) :
    ∀ (ls : List (Fin n × (ℝ × ℝ))) (p : Fin n → ℝ), ls ≠ [] →
      gaussCanonicalMulti t f (ls.map Prod.fst) p = .ok (nested m t f ls p) := by
  have hl : ∀ l h, level m t l h = (t.map fun p => (p.1 : ℝ) * h (p.2 : ℝ)).sum := by
    intro l h
    cases m <;> first | exact absurd rfl hm | rfl
  intro ls
  induction ls with
  | nil => intro p h; exact absurd rfl h
  | cons q r ih =>
    intro p _
    obtain ⟨v, l⟩ := q
    cases r with
    | nil =>
      simp only [List.map_cons, List.map_nil, gaussCanonicalMulti, nested, hl]
      exact gaussianSum_ok t _ _ fun x => finiteSample_real _
    | cons q' r' =>
      simp only [List.map_cons, gaussCanonicalMulti]
      rw [nested, hl]
      exact gaussianSum_ok t _ _ fun x => ih _ (by simp)

theorem checkIndices_ok {n : ℕ} (ls : List (Fin n × (ℝ × ℝ))) :
    checkIndices (n := n) (ls.map fun l => (l.1.val, l.2)) = .ok ls := by
  induction ls with
  | nil => rfl
  | cons q r ih =>
    simp only [List.map_cons, checkIndices, q.1.isLt, dif_pos, ih]
    rfl

theorem checkLimits_ok (m : GaussianMethod) (ls : List (ℝ × ℝ)) (h : ∀ l ∈ ls, gaussianLimitOk m l = true) :
    gaussianCheckLimits m ls = .ok () := by
  induction ls with
  | nil => rfl
  | cons l r ih =>
    rw [gaussianCheckLimits, if_pos (h l (by simp))]
    exact ih fun k hk => h k (by simp [hk])

theorem single_ok {tables : GaussianMethod → ℕ → List (ℚ × ℚ)} {m : GaussianMethod} {order : ℕ} (h1 : 1 ≤ order)
    (h30 : order ≤ 30) {f : ℝ → ℝ} {l : ℝ × ℝ} (hl : gaussianLimitOk m l = true) :
    gaussianSingle tables m order f [l] = .ok (level m (tables m order) l f) := by
  have hlim : gaussianCheckLimits m [l] = .ok () := checkLimits_ok m _ (by simpa using hl)
  have hn : gaussianNodes tables m order = .ok (tables m order) := by rw [gaussianNodes, if_neg (by omega)]
  simp only [gaussianSingle, hn, hlim, bind, Except.bind, List.reverse_singleton, List.length_singleton]
  obtain ⟨a, b⟩ := l
  cases m
  · simp only [gaussLegendreSingle, half_lit]
    rw [gaussianSum_ok _ (fun x => f ((b - a) / 2 * x + (b + a) / 2)) _ fun x => finiteSample_real _]
    rfl
  · exact gaussianSum_ok _ _ _ fun x => finiteSample_real _
  · exact gaussianSum_ok _ _ _ fun x => finiteSample_real _

theorem single_refuses {tables : GaussianMethod → ℕ → List (ℚ × ℚ)} {m : GaussianMethod} {order : ℕ} {f : ℝ → ℝ}
    {l : ℝ × ℝ} {v : ℝ} (h : gaussianSingle tables m order f [l] = .ok v) :
    1 ≤ order ∧ order ≤ 30 ∧ gaussianLimitOk m l = true := by
  by_cases ho : order = 0 ∨ 30 < order
  · simp [gaussianSingle, gaussianNodes, ho, bind, Except.bind] at h
  · by_cases hl : gaussianLimitOk m l = true
    · exact ⟨by omega, by omega, hl⟩
    · simp [gaussianSingle, gaussianNodes, ho, gaussianCheckLimits, hl, bind, Except.bind] at h

theorem multi_ok {n : ℕ} {tables : GaussianMethod → ℕ → List (ℚ × ℚ)} {m : GaussianMethod} {order : ℕ} (h1 : 1 ≤ order)
    (h30 : order ≤ 30) (f : (Fin n → ℝ) → ℝ) {ls : List (Fin n × (ℝ × ℝ))} (hne : ls ≠ [])
    (hl : ∀ l ∈ ls, gaussianLimitOk m l.2 = true) (p : Fin n → ℝ) :
    gaussianMulti tables m order f (ls.map fun l => (l.1.val, l.2)) p =
      .ok (nested m (tables m order) f ls.reverse p) := by
  have hlim : gaussianCheckLimits m ((ls.map fun l => (l.1.val, l.2)).map Prod.snd) = .ok () := by
    refine checkLimits_ok m _ fun l h => ?_
    simp only [List.map_map, List.mem_map, Function.comp_apply] at h
    obtain ⟨q, hq, rfl⟩ := h
    exact hl q hq
  have hn : gaussianNodes tables m order = .ok (tables m order) := by rw [gaussianNodes, if_neg (by omega)]
  have hr : ls.reverse ≠ [] := by simpa using hne
  simp only [gaussianMulti, hn, hlim, checkIndices_ok, bind, Except.bind]
  cases m
  · exact legendre_nested _ _ _ _ hr
  · exact canonical_nested (by decide) _ _ _ _ hr
  · exact canonical_nested (by decide) _ _ _ _ hr

theorem multi_refuses {n : ℕ} {tables : GaussianMethod → ℕ → List (ℚ × ℚ)} {m : GaussianMethod} {order : ℕ}
    {f : (Fin n → ℝ) → ℝ} {limits : List (ℕ × (ℝ × ℝ))} {p : Fin n → ℝ} {v : ℝ}
    (h : gaussianMulti tables m order f limits p = .ok v) :
    1 ≤ order ∧ order ≤ 30 ∧ ∃ ls : List (Fin n × (ℝ × ℝ)), ls ≠ [] ∧ limits = (ls.map fun l => (l.1.val, l.2)) ∧
      ∀ l ∈ ls, gaussianLimitOk m l.2 = true := by
  have hE := gaussian_errors tables m order (fun x : ℝ => x) [] f limits p
  by_cases ho : order = 0 ∨ 30 < order
  · rw [(hE.1 (by omega)).2] at h
    cases h
  obtain ⟨_, h2, h3⟩ := hE.2 (by omega) (by omega)
  have hl : ∀ l ∈ limits, gaussianLimitOk m l.2 = true := by
    by_contra hc
    push Not at hc
    obtain ⟨l, hl, hb⟩ := hc
    rw [h2 ⟨l, hl, by simpa using hb⟩] at h
    cases h
  have hi : ∀ l ∈ limits, l.1 < n := by
    by_contra hc
    push Not at hc
    rw [h3 hl hc] at h
    cases h
  refine ⟨by omega, by omega, limits.attach.map fun l => (⟨l.1.1, hi l.1 l.2⟩, l.1.2), ?_, ?_, ?_⟩
  · intro he
    have : limits = [] := by simpa using he
    subst this
    cases m <;> simp [gaussianMulti, gaussianNodes, ho, gaussianCheckLimits, checkIndices, gaussLegendreMulti,
      gaussCanonicalMulti, bind, Except.bind] at h
  · simp only [List.map_map, Function.comp_def]
    exact (List.attach_map_subtype_val _).symm
  · intro l hl'
    simp only [List.map_map, List.mem_map, List.mem_attach, true_and, Subtype.exists] at hl'
    obtain ⟨q, hq, rfl⟩ := hl'
    exact hl q hq

/-! ### The product rule -/

theorem nested_product {n : ℕ} (m : GaussianMethod) (t : List (ℚ × ℚ)) (g : Fin n → ℝ → ℝ) (values : Fin n → ℝ) :
    ∀ (ls : List (Fin n × (ℝ × ℝ))) (p : Fin n → ℝ), (ls.map Prod.fst).Nodup →
      (∀ l ∈ ls, level m t l.2 (g l.1) = values l.1) →
      nested m t (fun x => ∏ i, g i (x i)) ls p =
        ∏ i, if i ∈ ls.map Prod.fst then values i else g i (p i) := by
  intro ls
  induction ls with
  | nil => intro p _ _; simp [nested]
  | cons q r ih =>
    intro p hnd hv
    obtain ⟨v, l⟩ := q
    rw [List.map_cons, List.nodup_cons] at hnd
    have hvr : v ∉ r.map Prod.fst := hnd.1
    rw [nested]
    have e : ∀ x, nested m t (fun x => ∏ i, g i (x i)) r (Function.update p v x) =
        (∏ i ∈ Finset.univ.erase v, if i ∈ r.map Prod.fst then values i else g i (p i)) * g v x := by
      intro x
      rw [ih _ hnd.2 fun k hk => hv k (by simp [hk]), ← Finset.prod_erase_mul _ _ (Finset.mem_univ v)]
      congr 1
      · refine Finset.prod_congr rfl fun i hi => ?_
        rw [Function.update_of_ne (Finset.ne_of_mem_erase hi)]
      · rw [if_neg hvr, Function.update_self]
    rw [show (fun x => nested m t (fun x => ∏ i, g i (x i)) r (Function.update p v x)) = _ from funext e, level_mul, hv (v, l) (by simp), ← Finset.prod_erase_mul Finset.univ _ (Finset.mem_univ v)]
    congr 1
    · refine Finset.prod_congr rfl fun i hi => ?_
      have := Finset.ne_of_mem_erase hi
      have hmem : i ∈ ((v, l) :: r).map Prod.fst ↔ i ∈ r.map Prod.fst := by
        rw [List.map_cons, List.mem_cons]
        exact or_iff_right this
      exact if_congr hmem.symm rfl rfl
    · exact (if_pos (by rw [List.map_cons]; exact List.mem_cons_self)).symm

/-- C117. The integral of a product of functions of one variable each, over distinct variables listed in
any order, is the product of the integrals that the single-variable integrator returns; a variable that
is not integrated keeps its value in the point. -/
theorem gauss_multi_product {n : ℕ} (tables : GaussianMethod → ℕ → List (ℚ × ℚ)) (m : GaussianMethod) (order : ℕ)
    (g : Fin n → ℝ → ℝ) (limits : List (Fin n × (ℝ × ℝ))) (hne : limits ≠ []) (hnd : (limits.map Prod.fst).Nodup)
    (point values : Fin n → ℝ)
    (hv : ∀ l ∈ limits, gaussianSingle tables m order (g l.1) [l.2] = .ok (values l.1)) :
    gaussianMulti tables m order (fun x => ∏ i, g i (x i)) (limits.map fun l => (l.1.val, l.2)) point =
      .ok (∏ i, if i ∈ limits.map Prod.fst then values i else g i (point i)) := by
  obtain ⟨l0, hl0⟩ := List.exists_mem_of_ne_nil _ hne
  obtain ⟨h1, h30, _⟩ := single_refuses (hv l0 hl0)
  rw [multi_ok h1 h30 _ hne (fun l hl => (single_refuses (hv l hl)).2.2),
    nested_product m _ g values _ _ (by rw [List.map_reverse]; exact List.nodup_reverse.2 hnd)]
  · congr 1
    refine Finset.prod_congr rfl fun i _ => ?_
    rw [List.map_reverse]
    simp only [List.mem_reverse]
  · intro l hl
    rw [List.mem_reverse] at hl
    have := hv l hl
    rw [single_ok h1 h30 (single_refuses this).2.2] at this
    exact Except.ok.inj this

/-- C117. The integral is linear in the integrand. -/
theorem gauss_multi_linear {n : ℕ} (tables : GaussianMethod → ℕ → List (ℚ × ℚ)) (m : GaussianMethod) (order : ℕ)
    (f g : (Fin n → ℝ) → ℝ) (limits : List (ℕ × (ℝ × ℝ))) (point : Fin n → ℝ) {u v : ℝ} (a b : ℝ)
    (hu : gaussianMulti tables m order f limits point = .ok u)
    (hv : gaussianMulti tables m order g limits point = .ok v) :
    gaussianMulti tables m order (fun x => a * f x + b * g x) limits point = .ok (a * u + b * v) := by
  obtain ⟨h1, h30, ls, hne, rfl, hl⟩ := multi_refuses hu
  rw [multi_ok h1 h30 _ hne hl] at hu hv ⊢
  rw [← Except.ok.inj hu, ← Except.ok.inj hv]
  congr 1
  clear hu hv
  generalize ls.reverse = r
  induction r generalizing point with
  | nil => rfl
  | cons q r ih =>
    obtain ⟨w, l⟩ := q
    simp only [nested]
    rw [← level_linear]
    congr 1
    funext x
    exact ih _

/-- C117. The order in which distinct variables are listed does not matter. -/
theorem gauss_multi_order {n : ℕ} (tables : GaussianMethod → ℕ → List (ℚ × ℚ)) (m : GaussianMethod) (order : ℕ)
    (f : (Fin n → ℝ) → ℝ) {limits limits' : List (ℕ × (ℝ × ℝ))} (hperm : limits.Perm limits')
    (hnd : (limits.map Prod.fst).Nodup) (point : Fin n → ℝ) {v : ℝ}
    (hv : gaussianMulti tables m order f limits point = .ok v) :
    gaussianMulti tables m order f limits' point = .ok v := by
  obtain ⟨h1, h30, ls, hne, rfl, hl⟩ := multi_refuses hv
  have hi : ∀ l ∈ limits', l.1 < n ∧ gaussianLimitOk m l.2 = true := by
    intro l hl'
    have := hperm.mem_iff.2 hl'
    obtain ⟨q, hq, rfl⟩ := List.mem_map.1 this
    exact ⟨q.1.isLt, hl q hq⟩
  obtain ⟨ls', e', hp'⟩ : ∃ ls' : List (Fin n × (ℝ × ℝ)), limits' = (ls'.map fun l => (l.1.val, l.2)) ∧ ls.Perm ls' := by
    have e' : limits' = ((limits'.attach.map fun l =>
        ((⟨l.1.1, (hi l.1 l.2).1⟩, l.1.2) : Fin n × (ℝ × ℝ))).map fun l => (l.1.val, l.2)) := by
      simp only [List.map_map, Function.comp_def]
      exact (List.attach_map_subtype_val _).symm
    refine ⟨_, e', ?_⟩
    rw [e'] at hperm
    refine (List.map_perm_map_iff ?_).1 hperm
    rintro ⟨a, l⟩ ⟨b, k⟩ h
    simp only [Prod.mk.injEq] at h ⊢
    exact ⟨Fin.ext h.1, h.2⟩
  subst e'
  have hne' : ls' ≠ [] := fun h => hne (by subst h; simpa using hp')
  rw [multi_ok h1 h30 _ hne hl] at hv
  rw [multi_ok h1 h30 _ hne' fun l h => hl l (hp'.mem_iff.2 h), ← hv]
  have hnd' : (ls.map Prod.fst).Nodup := by
    have : (ls.map Prod.fst).map Fin.val = (ls.map fun l => (l.1.val, l.2)).map Prod.fst := by
      simp [List.map_map, Function.comp_def]
    rw [← this] at hnd
    exact List.Nodup.of_map _ hnd
  have hR : ls.reverse.Perm ls'.reverse := (List.reverse_perm _).trans (hp'.trans (List.reverse_perm _).symm)
  have hN : (ls.reverse.map Prod.fst).Nodup := by rw [List.map_reverse]; exact List.nodup_reverse.2 hnd'
  have key : ∀ a b : List (Fin n × (ℝ × ℝ)), a.Perm b → (a.map Prod.fst).Nodup → ∀ p,
      nested m (tables m order) f b p = nested m (tables m order) f a p := by
    intro a b hab
    induction hab with
    | nil => intro _ p; rfl
    | cons q _ ih =>
      intro hN p
      rw [List.map_cons, List.nodup_cons] at hN
      obtain ⟨w, l⟩ := q
      simp only [nested]
      congr 1
      funext x
      exact ih hN.2 _
    | swap q q' r =>
      intro hN p
      obtain ⟨w, l⟩ := q
      obtain ⟨w', l'⟩ := q'
      have hww : w' ≠ w := by
        intro h
        simp [h] at hN
      simp only [nested]
      rw [level_swap]
      congr 1
      funext x
      congr 1
      funext y
      rw [Function.update_comm hww]
    | trans _ _ ih1 ih2 =>
      rename_i a b c hab hbc
      intro hN p
      rw [ih2 ((hab.map Prod.fst).nodup_iff.1 hN), ih1 hN]
  rw [key _ _ hR hN]

/-- C117. Gauss-Legendre over a box: the value for a product of polynomials, each of degree below twice
the order, differs from the integral over the box by no more than the relative rounding of the literals
compounds to; sums of such products follow by `gauss_multi_linear`. -/
theorem gauss_multi_box {n order : ℕ} (h1 : 1 ≤ order) (h30 : order ≤ 30) (p : Fin n → Polynomial ℝ)
    (hp : ∀ i, (p i).natDegree < 2 * order) (a b : Fin n → ℝ) (hab : ∀ i, a i < b i) (vars : List (Fin n))
    (hne : vars ≠ []) (hnd : vars.Nodup) (hall : ∀ i, i ∈ vars) (point : Fin n → ℝ) :
    ∃ v, gaussianMulti tables .legendre order (fun x => ∏ i, (p i).eval (x i))
        (vars.map fun i => (i.val, (a i, b i))) point = .ok v ∧
      |v - ∫ x in Set.univ.pi fun i => Icc (a i) (b i), ∏ i, (p i).eval (x i)| ≤
        ∏ i, (|∫ x in a i..b i, (p i).eval x| + (b i - a i) * (3 / 10 ^ 15 * ∑ k ∈ Finset.range (2 * order),
          |((p i).comp (Polynomial.C ((b i - a i) / 2) * Polynomial.X + Polynomial.C ((b i + a i) / 2))).coeff k|)) -
        ∏ i, |∫ x in a i..b i, (p i).eval x| := by
  have hs := fun i => gauss_legendre h1 h30 (hab i) (p i) (hp i) (fun x => (p i).eval x)
    (Polynomial.continuous _).continuousOn (η := 0) (fun x _ => by simp)
  choose w hw hb using hs
  refine ⟨∏ i, w i, ?_, ?_⟩
  · have := gauss_multi_product tables .legendre order (fun i x => (p i).eval x) (vars.map fun i => (i, (a i, b i)))
      (by simpa using hne) (by simpa [List.map_map, Function.comp_def] using hnd) point w (by
        intro l hl
        obtain ⟨i, _, rfl⟩ := List.mem_map.1 hl
        exact hw i)
    rw [List.map_map] at this
    simp only [Function.comp_def] at this
    rw [this]
    simp [hall]
  · have hI : ∫ x in Set.univ.pi fun i => Icc (a i) (b i), ∏ i, (p i).eval (x i) =
        ∏ i, ∫ x in a i..b i, (p i).eval x := by
      rw [volume_pi, Measure.restrict_pi_pi, integral_fintype_prod_eq_prod (fun i x => (p i).eval x)]
      refine Finset.prod_congr rfl fun i _ => ?_
      rw [intervalIntegral.integral_of_le (hab i).le, integral_Icc_eq_integral_Ioc]
    rw [hI]
    have key : ∀ (s : Finset (Fin n)) (w J e : Fin n → ℝ), (∀ i, |w i - J i| ≤ e i) →
        |∏ i ∈ s, w i - ∏ i ∈ s, J i| ≤ ∏ i ∈ s, (|J i| + e i) - ∏ i ∈ s, |J i| := by
      intro s w J e h
      induction s using Finset.induction_on with
      | empty => simp
      | insert i s hi ih =>
        rw [Finset.prod_insert hi, Finset.prod_insert hi, Finset.prod_insert hi, Finset.prod_insert hi]
        have hP : |∏ i ∈ s, w i| ≤ ∏ i ∈ s, (|J i| + e i) := by
          rw [Finset.abs_prod]
          refine Finset.prod_le_prod (fun i _ => abs_nonneg _) fun j _ => ?_
          have := abs_add_le (J j) (w j - J j)
          rw [add_sub_cancel] at this
          linarith [h j]
        have e1 : w i * ∏ i ∈ s, w i - J i * ∏ i ∈ s, J i =
            (w i - J i) * ∏ i ∈ s, w i + J i * (∏ i ∈ s, w i - ∏ i ∈ s, J i) := by ring
        have he : 0 ≤ e i := (abs_nonneg _).trans (h i)
        rw [e1]
        refine (abs_add_le _ _).trans ?_
        rw [abs_mul, abs_mul]
        have t1 := mul_le_mul (h i) hP (abs_nonneg _) he
        have t2 := mul_le_mul_of_nonneg_left ih (abs_nonneg (J i))
        linarith
    refine key Finset.univ w _ _ fun i => ?_
    have := hb i
    simpa using this

/-- Order 2 integrates `x³ y²` over `[0, 1] × [0, 2]`, `y` listed first. -/
example : ∃ v, gaussianMulti tables .legendre 2
    (fun x => ∏ i, ((![Polynomial.X ^ 3, Polynomial.X ^ 2] : Fin 2 → Polynomial ℝ) i).eval (x i))
    (([1, 0] : List (Fin 2)).map fun i => (i.val, ((0 : ℝ), (![1, 2] : Fin 2 → ℝ) i))) 0 = .ok v := by
  obtain ⟨v, hv, _⟩ := gauss_multi_box (n := 2) (order := 2) (by norm_num) (by norm_num)
    ![Polynomial.X ^ 3, Polynomial.X ^ 2] (by intro i; fin_cases i <;> simp) 0 ![1, 2]
    (by intro i; fin_cases i <;> simp) [1, 0] (by simp) (by simp) (by intro i; fin_cases i <;> simp) 0
  exact ⟨v, hv⟩

end Multicalc.GaussianTables
