import Verif.Model.Mapping
import Mathlib.Tactic

/-!
# Ray casting (C63)
-/

namespace Multicalc
namespace OccupancyMap

section lawfree
variable {T : Type} [Zero T] [One T] [NatCast T] [Add T] [Sub T] [Neg T] [Mul T] [Div T] [LT T] [LE T]
  [DecidableLT T] [DecidableLE T] [BEq T] [Max T] [Min T] [Fns T] [AsUsize T]

/-- How many more steps an index can take in its direction before it has left the map. -/
def remaining (step : ℤ) (length : ℕ) (index : ℤ) : ℤ := if step = 1 then length - index else index + 1

theorem castLoop_stops (m : OccupancyMap T) (maxR : T) (sc sr : ℤ) (hc : sc = 1 ∨ sc = -1)
    (hr : sr = 1 ∨ sr = -1) (kc kr : T) : ∀ (n : ℕ) (c r : ℤ) (e nc nr : T), -1 ≤ c → c ≤ m.columns →
    -1 ≤ r → r ≤ m.rows → 1 ≤ remaining sc m.columns c + remaining sr m.rows r →
    remaining sc m.columns c + remaining sr m.rows r ≤ n →
    ∃ out, ∀ n', n ≤ n' → castLoop m maxR sc sr kc kr n' c r e nc nr = some out := by
  intro n
  induction n with
  | zero => intro c r e nc nr h1 h2 h3 h4 h5 h6; push_cast at h6; omega
  | succ n ih =>
    intro c r e nc nr h1 h2 h3 h4 h5 h6
    by_cases g1 : maxR < e
    · exact ⟨none, fun n' hn' => by
        obtain ⟨k, rfl⟩ : ∃ k, n' = k + 1 := ⟨n' - 1, by omega⟩
        rw [castLoop, if_pos g1]⟩
    by_cases g2 : c < 0 ∨ r < 0
    · exact ⟨none, fun n' hn' => by
        obtain ⟨k, rfl⟩ : ∃ k, n' = k + 1 := ⟨n' - 1, by omega⟩
        rw [castLoop, if_neg g1, if_pos g2]⟩
    by_cases g3 : m.columns ≤ c.toNat ∨ m.rows ≤ r.toNat
    · exact ⟨none, fun n' hn' => by
        obtain ⟨k, rfl⟩ : ∃ k, n' = k + 1 := ⟨n' - 1, by omega⟩
        rw [castLoop, if_neg g1, if_neg g2, if_pos g3]⟩
    by_cases g4 : m.isOccupied r.toNat c.toNat
    · exact ⟨some e, fun n' hn' => by
        obtain ⟨k, rfl⟩ : ∃ k, n' = k + 1 := ⟨n' - 1, by omega⟩
        rw [castLoop, if_neg g1, if_neg g2, if_neg g3, if_pos g4]⟩
    push_cast at h6
    by_cases g5 : nc < nr
    · obtain ⟨out, ho⟩ := ih (c + sc) r nc (nc + kc) nr (by rcases hc with h | h <;> omega)
        (by rcases hc with h | h <;> omega) h3 h4
        (by unfold remaining at *; rcases hc with h | h <;> rcases hr with h' | h' <;> simp [h, h'] at * <;> omega)
        (by unfold remaining at *; rcases hc with h | h <;> rcases hr with h' | h' <;> simp [h, h'] at * <;> omega)
      refine ⟨out, fun n' hn' => ?_⟩
      obtain ⟨k, rfl⟩ : ∃ k, n' = k + 1 := ⟨n' - 1, by omega⟩
      rw [castLoop, if_neg g1, if_neg g2, if_neg g3, if_neg g4, if_pos g5]
      exact ho k (by omega)
    · obtain ⟨out, ho⟩ := ih c (r + sr) nr nc (nr + kr) h1 h2 (by rcases hr with h | h <;> omega)
        (by rcases hr with h | h <;> omega)
        (by unfold remaining at *; rcases hc with h | h <;> rcases hr with h' | h' <;> simp [h, h'] at * <;> omega)
        (by unfold remaining at *; rcases hc with h | h <;> rcases hr with h' | h' <;> simp [h, h'] at * <;> omega)
      refine ⟨out, fun n' hn' => ?_⟩
      obtain ⟨k, rfl⟩ : ∃ k, n' = k + 1 := ⟨n' - 1, by omega⟩
      rw [castLoop, if_neg g1, if_neg g2, if_neg g3, if_neg g4, if_neg g5]
      exact ho k (by omega)

theorem clampIndex_range (v : T) (n : ℕ) (hn : n ≠ 0) : 0 ≤ clampIndex v n ∧ clampIndex v n < n := by
  unfold clampIndex
  dsimp only
  split_ifs <;> omega

theorem axisStep_cases (d : T) : axisStep d = 1 ∨ axisStep d = -1 := by
  unfold axisStep; split_ifs <;> simp

/-- C63. `cast_ray` stops: for every map of every size, every start, bearing and range — NaN and infinities
included, and whatever the rounding — its loop makes at most as many passes as the map has columns and rows
together, and allowing it more passes changes nothing. -/
theorem castRay_terminates (m : OccupancyMap T) (sx sy bearing maxR : T) (passes : ℕ)
    (h : m.columns + m.rows ≤ passes) :
    castRayRun m sx sy bearing maxR passes = some (castRay m sx sy bearing maxR) := by
  suffices H : ∃ out, ∀ n', m.columns + m.rows ≤ n' → castRayRun m sx sy bearing maxR n' = some out by
    obtain ⟨out, ho⟩ := H
    unfold castRay
    rw [ho passes h, ho _ le_rfl]; rfl
  unfold castRayRun
  by_cases h0 : m.columns = 0 ∨ m.rows = 0
  · exact ⟨none, fun n _ => by rw [if_pos h0]⟩
  simp only [if_neg h0]
  cases he : entryDistance m sx sy (Fns.cos bearing) (Fns.sin bearing) with
  | none => exact ⟨none, fun n _ => rfl⟩
  | some e =>
    dsimp only
    by_cases h1 : maxR < e
    · exact ⟨none, fun n _ => by rw [if_pos h1]⟩
    simp only [if_neg h1]
    push Not at h0
    have c1 := clampIndex_range ((sx + e * Fns.cos bearing - m.originX) / m.resolution) _ h0.1
    have c2 := clampIndex_range ((sy + e * Fns.sin bearing - m.originY) / m.resolution) _ h0.2
    have s1 := axisStep_cases (Fns.cos bearing)
    have s2 := axisStep_cases (Fns.sin bearing)
    obtain ⟨out, ho⟩ := castLoop_stops m maxR _ _ s1 s2 (stride (Fns.cos bearing) m.resolution)
      (stride (Fns.sin bearing) m.resolution) (m.columns + m.rows)
      (clampIndex ((sx + e * Fns.cos bearing - m.originX) / m.resolution) m.columns)
      (clampIndex ((sy + e * Fns.sin bearing - m.originY) / m.resolution) m.rows) e _ _
      (by omega) (by omega) (by omega) (by omega)
      (by unfold remaining; split_ifs <;> omega) (by unfold remaining; push_cast; split_ifs <;> omega)
    exact ⟨out, fun n hn => ho n hn⟩

end lawfree

/-! ## Where the reported distance lies -/

/-- The point `p` of an axis is strictly inside cell `i`. -/
def OpenAt (o res : ℝ) (i : ℤ) (p : ℝ) : Prop := o + i * res < p ∧ p < o + (i + 1) * res

/-- The point `p` of an axis is inside cell `i`, edges counted. -/
def ClosedAt (o res : ℝ) (i : ℤ) (p : ℝ) : Prop := o + i * res ≤ p ∧ p ≤ o + (i + 1) * res

/-- Where the far edge of cell `c` is along the beam. -/
noncomputable def nextReal (s d o res : ℝ) (c : ℤ) : ℝ := (o + (if 0 < d then (c : ℝ) + 1 else c) * res - s) / d

/-- The same with "never" for a beam that does not move along the axis. -/
noncomputable def nextXR (s d o res : ℝ) (c : ℤ) : XR := if d = 0 then .pinf else .fin (nextReal s d o res c)

/-- The step as the code computes it. -/
noncomputable def dirStep (d : ℝ) : ℤ := if 0 < d then 1 else -1

theorem axisStep_fin (d : ℝ) : axisStep (XR.fin d) = dirStep d := by
  unfold axisStep dirStep; simp

theorem nextXR_stride (s d o res : ℝ) (c : ℤ) :
    nextXR s d o res c + stride (XR.fin d) (XR.fin res) = nextXR s d o res (c + dirStep d) := by
  unfold nextXR stride
  by_cases h : d = 0
  · simp [h]; rfl
  · have ha : |d| ≠ 0 := abs_ne_zero.2 h
    simp only [XR.zero_def, XR.fin_beq, h, decide_false, if_false, Bool.false_eq_true]
    show XR.fin _ + XR.fin res / XR.fin |d| = _
    rw [XR.fin_div _ _ ha, XR.fin_add]
    congr 1
    unfold nextReal dirStep
    rcases lt_or_gt_of_ne h with h' | h'
    · have hn : ¬ 0 < d := by linarith
      simp only [if_neg hn, abs_of_neg h']; push_cast; field_simp; ring
    · simp only [if_pos h', abs_of_pos h']; push_cast; field_simp; ring

theorem boundaryDistance_fin (s d o res : ℝ) (c : ℤ) (hc : 0 ≤ c) :
    boundaryDistance (XR.fin s) (XR.fin d) c (axisStep (XR.fin d)) (XR.fin o) (XR.fin res) = nextXR s d o res c := by
  unfold boundaryDistance nextXR
  rw [axisStep_fin]
  by_cases h : d = 0
  · simp [h]; rfl
  · simp only [XR.zero_def, XR.fin_beq, h, decide_false, if_false, Bool.false_eq_true, XR.natCast_def,
      XR.fin_mul, XR.fin_add, XR.fin_sub, XR.fin_div _ _ h]
    congr 1
    unfold nextReal dirStep
    have e : ∀ z : ℤ, 0 ≤ z → ((z.toNat : ℕ) : ℝ) = (z : ℝ) := fun z hz => by
      have : ((z.toNat : ℕ) : ℤ) = z := Int.toNat_of_nonneg hz
      exact_mod_cast congrArg (fun w : ℤ => (w : ℝ)) this
    split_ifs <;> first | omega | (rw [e _ (by omega)]; done) | (rw [e _ (by omega)]; push_cast; done) | (rw [e _ (by omega)]; push_cast; rfl)

theorem axis_next {s d o res : ℝ} (hres : 0 < res) {c : ℤ} {r : ℝ} (h : ClosedAt o res c (s + r * d)) :
    (d ≠ 0 → r ≤ nextReal s d o res c ∧ ClosedAt o res (c + dirStep d) (s + nextReal s d o res c * d)) ∧
    (∀ t, r ≤ t → (d ≠ 0 → t ≤ nextReal s d o res c) → ClosedAt o res c (s + t * d)) := by
  unfold ClosedAt nextReal dirStep at *
  rcases lt_trichotomy d 0 with hd | hd | hd
  · rw [if_neg (by linarith), if_neg (by linarith)]
    refine ⟨fun hn => ⟨?_, ?_⟩, fun t ht ht' => ?_⟩
    · rw [le_div_iff_of_neg hd]; linarith
    · rw [div_mul_cancel₀ _ hn]; push_cast; constructor <;> linarith
    · have := ht' hd.ne; rw [le_div_iff_of_neg hd] at this
      constructor <;> nlinarith
  · subst hd
    refine ⟨fun hn => absurd rfl hn, fun t _ _ => by simpa using h⟩
  · rw [if_pos hd, if_pos hd]
    refine ⟨fun hn => ⟨?_, ?_⟩, fun t ht ht' => ?_⟩
    · rw [le_div_iff₀ hd]; linarith
    · rw [div_mul_cancel₀ _ hn]; push_cast; constructor <;> linarith
    · have := ht' hd.ne'; rw [le_div_iff₀ hd] at this
      constructor <;> nlinarith

theorem axis_exit {s d o res : ℝ} (hres : 0 < res) {c : ℤ} {len : ℕ} {r : ℝ}
    (h : ClosedAt o res c (s + r * d)) (hlow : 0 ≤ c ∨ d < 0) (hhigh : c < len ∨ 0 < d)
    (hout : c < 0 ∨ (len : ℤ) ≤ c) : ∀ t, r ≤ t → ∀ i : ℕ, i < len → ¬ OpenAt o res i (s + t * d) := by
  intro t ht i hi hop
  unfold ClosedAt OpenAt at *
  rcases hout with hc | hc
  · have hd : d < 0 := by rcases hlow with h' | h'; omega; exact h'
    have h1 : (c : ℝ) + 1 ≤ 0 := by exact_mod_cast hc
    have h2 : (0 : ℝ) ≤ i := Nat.cast_nonneg i
    have h3 : t * d ≤ r * d := by nlinarith
    have h4 : ((c : ℝ) + 1) * res ≤ 0 := by nlinarith
    have h5 : 0 ≤ (i : ℝ) * res := by positivity
    have := hop.1; push_cast at this
    linarith [h.2]
  · have hd : 0 < d := by rcases hhigh with h' | h'; omega; exact h'
    have h1 : (len : ℝ) ≤ c := by exact_mod_cast hc
    have h2 : (i : ℝ) + 1 ≤ len := by exact_mod_cast hi
    have h3 : r * d ≤ t * d := by nlinarith
    have h4 : ((i : ℝ) + 1) * res ≤ c * res := by nlinarith
    have := hop.2; push_cast at this
    linarith [h.1]

theorem open_closed {o res p : ℝ} (hres : 0 < res) {c i : ℤ} (hc : ClosedAt o res c p) (hi : OpenAt o res i p) :
    i = c := by
  unfold ClosedAt OpenAt at *
  have h1 : (i : ℝ) * res < (c + 1) * res := by linarith
  have h2 : (c : ℝ) * res < (i + 1) * res := by linarith
  have h1' : (i : ℝ) < c + 1 := lt_of_mul_lt_mul_right h1 hres.le
  have h2' : (c : ℝ) < i + 1 := lt_of_mul_lt_mul_right h2 hres.le
  have h3 : i < c + 1 := by exact_mod_cast h1'
  have h4 : c < i + 1 := by exact_mod_cast h2'
  omega

/-- A map whose numbers are finite and whose cells have a size, as any `DynamicOccupancyGrid` is. -/
structure FiniteMap (m : OccupancyMap XR) (ox oy res : ℝ) : Prop where
  resolution : m.resolution = .fin res
  originX : m.originX = .fin ox
  originY : m.originY = .fin oy
  pos : 0 < res
  columns : m.columns ≤ usizeMax
  rows : m.rows ≤ usizeMax

/-- The world point `(x, y)` is strictly inside a blocked cell of the map. -/
def InBlocked (m : OccupancyMap XR) (ox oy res x y : ℝ) : Prop :=
  ∃ row column : ℕ, row < m.rows ∧ column < m.columns ∧ m.isOccupied row column = true ∧
    OpenAt ox res column x ∧ OpenAt oy res row y

/-- The world point `(x, y)` is in a blocked cell of the map, edges counted. -/
def OnBlocked (m : OccupancyMap XR) (ox oy res x y : ℝ) : Prop :=
  ∃ row column : ℕ, row < m.rows ∧ column < m.columns ∧ m.isOccupied row column = true ∧
    ClosedAt ox res column x ∧ ClosedAt oy res row y

theorem lt_of_range {maxR : XR} {r t : ℝ} (h : maxR < XR.fin r) (h' : ¬ maxR < XR.fin t) : t < r := by
  cases maxR with
  | fin M => simp at h h'; linarith
  | pinf => simp at h
  | ninf => simp at h'
  | nan => simp at h

theorem castLoop_spec (m : OccupancyMap XR) {ox oy res : ℝ} (hres : 0 < res) (sx sy dx dy : ℝ)
    (hdir : dx ≠ 0 ∨ dy ≠ 0) (maxR : XR) : ∀ (n : ℕ) (c w : ℤ) (r : ℝ) (out : Option XR), 0 ≤ r →
    ClosedAt ox res c (sx + r * dx) → ClosedAt oy res w (sy + r * dy) →
    (0 ≤ c ∨ dx < 0) → (c < m.columns ∨ 0 < dx) → (0 ≤ w ∨ dy < 0) → (w < m.rows ∨ 0 < dy) →
    (∀ t, 0 ≤ t → t < r → ¬ InBlocked m ox oy res (sx + t * dx) (sy + t * dy)) →
    castLoop m maxR (dirStep dx) (dirStep dy) (stride (.fin dx) (.fin res)) (stride (.fin dy) (.fin res)) n
      c w (.fin r) (nextXR sx dx ox res c) (nextXR sy dy oy res w) = some out →
    (∀ d, out = some d → ∃ t, d = .fin t ∧ 0 ≤ t ∧ ¬ maxR < d ∧ OnBlocked m ox oy res (sx + t * dx) (sy + t * dy) ∧
      ∀ u, 0 ≤ u → u < t → ¬ InBlocked m ox oy res (sx + u * dx) (sy + u * dy)) ∧
    (out = none → ∀ u, 0 ≤ u → ¬ maxR < XR.fin u → ¬ InBlocked m ox oy res (sx + u * dx) (sy + u * dy)) := by
  intro n
  induction n with
  | zero => intro c w r out _ _ _ _ _ _ _ _ h; simp [castLoop] at h
  | succ n ih =>
    intro c w r out hr hcx hcy hl1 hh1 hl2 hh2 hbefore h
    rw [castLoop] at h
    split_ifs at h with g1 g2 g3 g4 g5
    · cases h
      exact ⟨fun d hd => by simp at hd, fun _ u hu hmu => hbefore u hu (lt_of_range g1 hmu)⟩
    · cases h
      refine ⟨fun d hd => by simp at hd, fun _ u hu hmu hin => ?_⟩
      rcases lt_or_ge u r with hur | hur
      · exact hbefore u hu hur hin
      · obtain ⟨i, j, hi, hj, -, ho1, ho2⟩ := hin
        rcases g2 with g2 | g2
        · exact axis_exit hres hcx hl1 hh1 (Or.inl g2) u hur j hj ho1
        · exact axis_exit hres hcy hl2 hh2 (Or.inl g2) u hur i hi ho2
    · cases h
      refine ⟨fun d hd => by simp at hd, fun _ u hu hmu hin => ?_⟩
      rcases lt_or_ge u r with hur | hur
      · exact hbefore u hu hur hin
      · obtain ⟨i, j, hi, hj, -, ho1, ho2⟩ := hin
        rcases g3 with g3 | g3
        · exact axis_exit hres hcx hl1 hh1 (Or.inr (by omega)) u hur j hj ho1
        · exact axis_exit hres hcy hl2 hh2 (Or.inr (by omega)) u hur i hi ho2
    · cases h
      refine ⟨fun d hd => ?_, fun hd => by simp at hd⟩
      cases hd
      push Not at g2 g3
      refine ⟨r, rfl, hr, g1, ⟨w.toNat, c.toNat, g3.2, g3.1, g4, ?_, ?_⟩, hbefore⟩
      · rw [Int.toNat_of_nonneg g2.1]; exact hcx
      · rw [Int.toNat_of_nonneg g2.2]; exact hcy
    · push Not at g2 g3
      have hdx : dx ≠ 0 := by rintro rfl; simp [nextXR] at g5
      have hxle : dy ≠ 0 → nextReal sx dx ox res c ≤ nextReal sy dy oy res w := fun hdy => by
        simp [nextXR, hdx, hdy] at g5; exact g5.le
      obtain ⟨hx1, hx2⟩ := axis_next hres hcx
      obtain ⟨hy1, hy2⟩ := axis_next hres hcy
      have hge := (hx1 hdx).1
      rw [nextXR_stride] at h
      have e : nextXR sx dx ox res c = XR.fin (nextReal sx dx ox res c) := by simp [nextXR, hdx]
      rw [e] at h
      refine ih _ w _ out (hr.trans hge) (hx1 hdx).2 (hy2 _ hge hxle) ?_ ?_ hl2 hh2 ?_ h
      · unfold dirStep; split_ifs with hp
        · left; omega
        · right; exact lt_of_le_of_ne (not_lt.1 hp) hdx
      · unfold dirStep; split_ifs with hp
        · right; exact hp
        · left; omega
      · intro t ht0 ht hin
        rcases lt_or_ge t r with hur | hur
        · exact hbefore t ht0 hur hin
        · obtain ⟨i, j, hi, hj, hocc, ho1, ho2⟩ := hin
          have e1 := open_closed hres (hx2 t hur fun _ => ht.le) ho1
          have e2 := open_closed hres (hy2 t hur fun hy => ht.le.trans (hxle hy)) ho2
          rw [← e1, ← e2] at g4
          exact g4 (by simpa using hocc)
    · push Not at g2 g3
      have hdy : dy ≠ 0 := by
        rintro rfl
        have hdx : dx ≠ 0 := by simpa using hdir
        exact g5 (by simp [nextXR, hdx])
      have hyle : dx ≠ 0 → nextReal sy dy oy res w ≤ nextReal sx dx ox res c := fun hdx => by
        simp [nextXR, hdx, hdy] at g5; exact g5
      obtain ⟨hx1, hx2⟩ := axis_next hres hcx
      obtain ⟨hy1, hy2⟩ := axis_next hres hcy
      have hge := (hy1 hdy).1
      rw [nextXR_stride] at h
      have e : nextXR sy dy oy res w = XR.fin (nextReal sy dy oy res w) := by simp [nextXR, hdy]
      rw [e] at h
      refine ih c _ _ out (hr.trans hge) (hx2 _ hge hyle) (hy1 hdy).2 hl1 hh1 ?_ ?_ ?_ h
      · unfold dirStep; split_ifs with hp
        · left; omega
        · right; exact lt_of_le_of_ne (not_lt.1 hp) hdy
      · unfold dirStep; split_ifs with hp
        · right; exact hp
        · left; omega
      · intro t ht0 ht hin
        rcases lt_or_ge t r with hur | hur
        · exact hbefore t ht0 hur hin
        · obtain ⟨i, j, hi, hj, hocc, ho1, ho2⟩ := hin
          have e1 := open_closed hres (hx2 t hur fun hx => ht.le.trans (hyle hx)) ho1
          have e2 := open_closed hres (hy2 t hur fun _ => ht.le) ho2
          rw [← e1, ← e2] at g4
          exact g4 (by simpa using hocc)

/-- An interval of distances as the code keeps it: the near end may be minus infinity, the far end infinity. -/
def Ends (nf : XR × XR) (In : ℝ → Prop) : Prop :=
  (nf.1 = .ninf ∨ ∃ a, nf.1 = .fin a) ∧ (nf.2 = .pinf ∨ ∃ b, nf.2 = .fin b) ∧
    ∀ t, In t ↔ (nf.1 ≤ XR.fin t ∧ XR.fin t ≤ nf.2)

theorem ninf_max (a : ℝ) : max XR.ninf (XR.fin a) = XR.fin a := by
  rw [XR.max_of_ne (by simp) (by simp)]; simp

theorem pinf_min (a : ℝ) : min XR.pinf (XR.fin a) = XR.fin a := by
  rw [XR.min_of_ne (by simp) (by simp)]; simp

theorem slabStep_spec (nf : XR × XR) (In : ℝ → Prop) (h : Ends nf In) (s d low high : ℝ) (hlh : low ≤ high) :
    (slabStep nf (.fin s) (.fin d) (.fin low) (.fin high) = none → ∀ t, ¬ (low ≤ s + t * d ∧ s + t * d ≤ high)) ∧
    (∀ nf', slabStep nf (.fin s) (.fin d) (.fin low) (.fin high) = some nf' →
      Ends nf' fun t => In t ∧ low ≤ s + t * d ∧ s + t * d ≤ high) := by
  unfold slabStep
  by_cases hd : d = 0
  · subst hd
    simp only [XR.zero_def, XR.fin_beq, decide_true, if_true, XR.fin_lt, mul_zero, add_zero]
    split_ifs with hc
    · refine ⟨fun _ t ht => ?_, fun nf' h' => by simp at h'⟩
      rcases hc with hc | hc <;> linarith [ht.1, ht.2]
    · push Not at hc
      refine ⟨fun h' => by simp at h', fun nf' h' => ?_⟩
      cases h'
      exact ⟨h.1, h.2.1, fun t => by rw [← h.2.2 t]; exact ⟨fun x => x.1, fun x => ⟨x, hc.1, hc.2⟩⟩⟩
  · simp only [XR.zero_def, XR.one_def, XR.fin_beq, decide_eq_true_eq, if_neg hd, XR.fin_div _ _ hd, XR.fin_sub,
      XR.fin_mul, XR.fin_lt]
    refine ⟨fun h' => by simp at h', fun nf' h' => ?_⟩
    obtain ⟨a, b, hab, hnf⟩ : ∃ a b : ℝ, (∀ t, (low ≤ s + t * d ∧ s + t * d ≤ high) ↔ a ≤ t ∧ t ≤ b) ∧
        nf' = (max nf.1 (.fin a), min nf.2 (.fin b)) := by
      rcases lt_or_gt_of_ne hd with hd' | hd'
      · refine ⟨(high - s) * (1 / d), (low - s) * (1 / d), fun t => ?_, ?_⟩
        · rw [mul_one_div, mul_one_div, div_le_iff_of_neg hd', le_div_iff_of_neg hd']
          constructor <;> rintro ⟨h1, h2⟩ <;> constructor <;> linarith
        · have hle : (high - s) * (1 / d) ≤ (low - s) * (1 / d) := by
            have : 1 / d < 0 := by rw [one_div]; exact inv_lt_zero.2 hd'
            nlinarith
          rcases lt_or_eq_of_le hle with hlt | heq
          · rw [if_pos hlt] at h'; exact (Option.some.inj h').symm
          · rw [if_neg (by linarith)] at h'; rw [heq]; rw [heq] at h'
            exact (Option.some.inj h').symm
      · refine ⟨(low - s) * (1 / d), (high - s) * (1 / d), fun t => ?_, ?_⟩
        · rw [mul_one_div, mul_one_div, div_le_iff₀ hd', le_div_iff₀ hd']
          constructor <;> rintro ⟨h1, h2⟩ <;> constructor <;> linarith
        · have hle : (low - s) * (1 / d) ≤ (high - s) * (1 / d) := by
            have : 0 < 1 / d := by positivity
            nlinarith
          rw [if_neg (by linarith)] at h'
          exact (Option.some.inj h').symm
    subst hnf
    obtain ⟨h1, h2, h3⟩ := h
    refine ⟨?_, ?_, fun t => ?_⟩
    · rcases h1 with h1 | ⟨x, h1⟩
      · right; exact ⟨a, by simp only [h1, ninf_max]⟩
      · right; exact ⟨max x a, by simp only [h1, XR.fin_max]⟩
    · rcases h2 with h2 | ⟨x, h2⟩
      · right; exact ⟨b, by simp only [h2, pinf_min]⟩
      · right; exact ⟨min x b, by simp only [h2, XR.fin_min]⟩
    · show In t ∧ (low ≤ s + t * d ∧ s + t * d ≤ high) ↔ max nf.1 (XR.fin a) ≤ XR.fin t ∧ XR.fin t ≤ min nf.2 (XR.fin b)
      rw [hab t, h3 t]
      have k1 : (max nf.1 (XR.fin a) ≤ XR.fin t) ↔ nf.1 ≤ XR.fin t ∧ a ≤ t := by
        rcases h1 with h1 | ⟨x, h1⟩
        · rw [h1]
          have : (max XR.ninf (XR.fin a)) = XR.fin a := ninf_max a
          rw [this, XR.fin_le]
          exact ⟨fun h => ⟨trivial, h⟩, fun h => h.2⟩
        · rw [h1]; simp
      have k2 : (XR.fin t ≤ min nf.2 (XR.fin b)) ↔ XR.fin t ≤ nf.2 ∧ t ≤ b := by
        rcases h2 with h2 | ⟨x, h2⟩
        · rw [h2]
          have : (min XR.pinf (XR.fin b)) = XR.fin b := pinf_min b
          rw [this, XR.fin_le]
          exact ⟨fun h => ⟨trivial, h⟩, fun h => h.2⟩
        · rw [h2]; simp
      rw [k1, k2]; tauto

/-- The world point `(x, y)` is on the map, edges counted. -/
def OnMap (m : OccupancyMap XR) (ox oy res x y : ℝ) : Prop :=
  (ox ≤ x ∧ x ≤ ox + m.columns * res) ∧ oy ≤ y ∧ y ≤ oy + m.rows * res

theorem entryDistance_spec {m : OccupancyMap XR} {ox oy res : ℝ} (hm : FiniteMap m ox oy res) (sx sy dx dy : ℝ) :
    (entryDistance m (.fin sx) (.fin sy) (.fin dx) (.fin dy) = none →
      ∀ t, 0 ≤ t → ¬ OnMap m ox oy res (sx + t * dx) (sy + t * dy)) ∧
    (∀ e, entryDistance m (.fin sx) (.fin sy) (.fin dx) (.fin dy) = some e → ∃ r, e = .fin r ∧ 0 ≤ r ∧
      OnMap m ox oy res (sx + r * dx) (sy + r * dy) ∧
      ∀ t, 0 ≤ t → t < r → ¬ OnMap m ox oy res (sx + t * dx) (sy + t * dy)) := by
  have hp := hm.pos
  have hx : ox ≤ ox + m.columns * res := by have : (0 : ℝ) ≤ m.columns * res := by positivity
                                            linarith
  have hy : oy ≤ oy + m.rows * res := by have : (0 : ℝ) ≤ m.rows * res := by positivity
                                         linarith
  have h0 : Ends (XR.ninf, XR.pinf) fun _ => True :=
    ⟨Or.inl rfl, Or.inl rfl, fun t => ⟨fun _ => ⟨trivial, trivial⟩, fun _ => trivial⟩⟩
  obtain ⟨a1, a2⟩ := slabStep_spec _ _ h0 sx dx ox _ hx
  unfold entryDistance
  simp only [hm.resolution, hm.originX, hm.originY, XR.natCast_def, XR.fin_mul, XR.fin_add]
  change _ ∧ _
  cases h1 : slabStep (Fns.negInfinity, Fns.infinity) (XR.fin sx) (XR.fin dx) (XR.fin ox)
      (XR.fin (ox + m.columns * res)) with
  | none => exact ⟨fun _ t _ ht => a1 h1 t ht.1, fun e he => by simp at he⟩
  | some nf =>
    obtain ⟨b1, b2⟩ := slabStep_spec _ _ (a2 nf h1) sy dy oy _ hy
    dsimp only
    cases h2 : slabStep nf (XR.fin sy) (XR.fin dy) (XR.fin oy) (XR.fin (oy + m.rows * res)) with
    | none => exact ⟨fun _ t _ ht => b1 h2 t ht.2, fun e he => by simp at he⟩
    | some nf' =>
      obtain ⟨c1, c2, c3⟩ := b2 nf' h2
      have c4 : ∀ t, OnMap m ox oy res (sx + t * dx) (sy + t * dy) ↔ (nf'.1 ≤ XR.fin t ∧ XR.fin t ≤ nf'.2) :=
        fun t => by rw [← c3 t]; unfold OnMap; tauto
      dsimp only
      split_ifs with hc
      · refine ⟨fun _ t ht hon => ?_, fun e he => by simp at he⟩
        obtain ⟨d1, d2⟩ := (c4 t).1 hon
        rcases c1 with c1 | ⟨a, c1⟩ <;> rcases c2 with c2 | ⟨b, c2⟩ <;> rw [c1] at hc d1 <;> rw [c2] at hc d2
        · simp at hc
        · simp at hc d2; linarith
        · simp at hc
        · simp at hc d1 d2; rcases hc with hc | hc <;> linarith
      · refine ⟨fun h' => by simp at h', fun e he => ?_⟩
        have he' := (Option.some.inj he).symm
        subst he'
        push Not at hc
        rcases c1 with c1 | ⟨a, c1⟩
        · refine ⟨0, by rw [c1]; exact ninf_max 0, le_rfl, (c4 0).2 ⟨by rw [c1]; trivial, ?_⟩, fun t h1 h2 => by linarith⟩
          rcases c2 with c2 | ⟨b, c2⟩
          · rw [c2]; trivial
          · rw [c2] at hc ⊢; simpa using hc.2
        · refine ⟨max a 0, by rw [c1]; simp, le_max_right _ _, (c4 _).2 ⟨by rw [c1]; simp, ?_⟩, fun t h1 h2 hon => ?_⟩
          · rcases c2 with c2 | ⟨b, c2⟩
            · rw [c2]; trivial
            · rw [c1, c2] at hc; rw [c2]; simpa using hc
          · have := ((c4 t).1 hon).1
            rw [c1, XR.fin_le] at this
            rcases lt_max_iff.1 h2 with h2 | h2 <;> linarith

theorem clampIndex_fin (u : ℝ) (n : ℕ) (hn : n ≠ 0) (hmax : n ≤ usizeMax) (h0 : 0 ≤ u) (h1 : u ≤ n) :
    ((clampIndex (XR.fin u) n : ℤ) : ℝ) ≤ u ∧ u ≤ clampIndex (XR.fin u) n + 1 ∧
    (u < n → clampIndex (XR.fin u) n = ⌊u⌋) := by
  have hf0 : 0 ≤ ⌊u⌋ := Int.floor_nonneg.2 h0
  have hfl : ((⌊u⌋ : ℤ) : ℝ) ≤ u := Int.floor_le u
  have hfu : u < (⌊u⌋ : ℤ) + 1 := Int.lt_floor_add_one u
  have hfloor : Fns.floor (XR.fin u) = XR.fin ((⌊u⌋ : ℤ) : ℝ) := rfl
  have has : asUsize (XR.fin ((⌊u⌋ : ℤ) : ℝ)) = min ⌊u⌋.toNat usizeMax := by
    show min ⌊((⌊u⌋ : ℤ) : ℝ)⌋₊ usizeMax = _
    rw [← Int.floor_toNat, Int.floor_intCast]
  have hle : ⌊u⌋ ≤ n := by exact_mod_cast (hfl.trans h1)
  unfold clampIndex
  dsimp only
  rw [hfloor, has]
  have hnot : ¬ (XR.fin ((⌊u⌋ : ℤ) : ℝ) < 0) := by simp; exact_mod_cast hf0
  rw [if_neg hnot]
  split_ifs with h
  · have hge : ⌊u⌋ = n := by omega
    have hun : (n : ℝ) ≤ u := by rw [hge] at hfl; exact_mod_cast hfl
    refine ⟨?_, ?_, fun h' => by linarith⟩ <;> push_cast <;> linarith
  · have e : ((min ⌊u⌋.toNat usizeMax : ℕ) : ℤ) = ⌊u⌋ := by omega
    rw [e]
    exact ⟨hfl, hfu.le, fun _ => rfl⟩

/-- C63. `cast_ray` reports the first blocked cell. For every map with finite numbers, every start, bearing
and range (even infinite or NaN): a reported distance is within range, the beam at that distance is on a
blocked cell, and the beam is inside no blocked cell before it; when nothing is reported, the beam is inside
no blocked cell anywhere within range. -/
theorem castRay_first {m : OccupancyMap XR} {ox oy res : ℝ} (hm : FiniteMap m ox oy res) (sx sy θ : ℝ) (maxR : XR) :
    (∀ d, castRay m (.fin sx) (.fin sy) (.fin θ) maxR = some d → ∃ t, d = .fin t ∧ 0 ≤ t ∧ ¬ maxR < d ∧
      OnBlocked m ox oy res (sx + t * Real.cos θ) (sy + t * Real.sin θ) ∧
      ∀ u, 0 ≤ u → u < t → ¬ InBlocked m ox oy res (sx + u * Real.cos θ) (sy + u * Real.sin θ)) ∧
    (castRay m (.fin sx) (.fin sy) (.fin θ) maxR = none → ∀ u, 0 ≤ u → ¬ maxR < XR.fin u →
      ¬ InBlocked m ox oy res (sx + u * Real.cos θ) (sy + u * Real.sin θ)) := by
  have hrun := castRay_terminates m (XR.fin sx) (XR.fin sy) (XR.fin θ) maxR _ le_rfl
  generalize castRay m (XR.fin sx) (XR.fin sy) (XR.fin θ) maxR = out at hrun
  have hin : ∀ x y, InBlocked m ox oy res x y → OnMap m ox oy res x y := by
    rintro x y ⟨i, j, hi, hj, -, ⟨h1, h2⟩, h3, h4⟩
    have hp := hm.pos
    have e1 : ((j : ℝ) + 1) * res ≤ m.columns * res := by
      have : (j : ℝ) + 1 ≤ m.columns := by exact_mod_cast hj
      nlinarith
    have e2 : ((i : ℝ) + 1) * res ≤ m.rows * res := by
      have : (i : ℝ) + 1 ≤ m.rows := by exact_mod_cast hi
      nlinarith
    have e3 : 0 ≤ (j : ℝ) * res := by positivity
    have e4 : 0 ≤ (i : ℝ) * res := by positivity
    push_cast at h1 h2 h3 h4
    exact ⟨⟨by linarith, by linarith⟩, by linarith, by linarith⟩
  unfold castRayRun at hrun
  split_ifs at hrun with g0
  · cases hrun
    refine ⟨fun d h => by simp at h, fun _ u _ _ ⟨i, j, hi, hj, _⟩ => by omega⟩
  push Not at g0
  have hcos : (Fns.cos (XR.fin θ) : XR) = .fin (Real.cos θ) := rfl
  have hsin : (Fns.sin (XR.fin θ) : XR) = .fin (Real.sin θ) := rfl
  simp only [hcos, hsin] at hrun
  obtain ⟨s1, s2⟩ := entryDistance_spec hm sx sy (Real.cos θ) (Real.sin θ)
  cases he : entryDistance m (XR.fin sx) (XR.fin sy) (XR.fin (Real.cos θ)) (XR.fin (Real.sin θ)) with
  | none =>
    rw [he] at hrun; cases hrun
    exact ⟨fun d h => by simp at h, fun _ u hu _ h => s1 he u hu (hin _ _ h)⟩
  | some e =>
    obtain ⟨r, rfl, hr0, hon, hbef⟩ := s2 e he
    rw [he] at hrun
    dsimp only at hrun
    split_ifs at hrun with g1
    · cases hrun
      exact ⟨fun d h => by simp at h, fun _ u hu hmu h => hbef u hu (lt_of_range g1 hmu) (hin _ _ h)⟩
    have hp := hm.pos
    simp only [hm.resolution, hm.originX, hm.originY, XR.fin_mul, XR.fin_add, XR.fin_sub,
      XR.fin_div _ _ hp.ne'] at hrun
    have key : ∀ (o s d : ℝ) (n : ℕ), n ≠ 0 → n ≤ usizeMax → o ≤ s + r * d → s + r * d ≤ o + n * res →
        ClosedAt o res (clampIndex (XR.fin ((s + r * d - o) / res)) n) (s + r * d) := by
      intro o s d n hn hmax h1 h2
      obtain ⟨k1, k2, -⟩ := clampIndex_fin ((s + r * d - o) / res) n hn hmax
        (div_nonneg (by linarith) hp.le) ((div_le_iff₀ hp).2 (by linarith))
      rw [le_div_iff₀ hp] at k1
      rw [div_le_iff₀ hp] at k2
      exact ⟨by linarith, by linarith⟩
    have kx := key ox sx (Real.cos θ) m.columns g0.1 hm.columns hon.1.1 hon.1.2
    have ky := key oy sy (Real.sin θ) m.rows g0.2 hm.rows hon.2.1 hon.2.2
    have rx := clampIndex_range (XR.fin ((sx + r * Real.cos θ - ox) / res)) _ g0.1
    have ry := clampIndex_range (XR.fin ((sy + r * Real.sin θ - oy) / res)) _ g0.2
    rw [boundaryDistance_fin _ _ _ _ _ rx.1, boundaryDistance_fin _ _ _ _ _ ry.1, axisStep_fin, axisStep_fin] at hrun
    refine castLoop_spec m hp sx sy _ _ ?_ maxR _ _ _ _ out hr0 kx ky (Or.inl rx.1) (Or.inl rx.2) (Or.inl ry.1)
      (Or.inl ry.2) (fun t h0 ht h => hbef t h0 ht (hin _ _ h)) hrun
    by_contra hno
    push Not at hno
    have := Real.sin_sq_add_cos_sq θ
    rw [hno.1, hno.2] at this; norm_num at this

/-- A map three cells wide and two high with one blocked cell: the laws of the beam apply to it. -/
example : ∃ m : OccupancyMap XR, m.isOccupied 1 2 = true ∧ FiniteMap m (-1) 0 (1 / 2) ∧
    ∀ sx sy bearing maxR, castRayRun m sx sy bearing maxR 5 = some (castRay m sx sy bearing maxR) :=
  ⟨⟨3, 2, .fin (1 / 2), .fin (-1), .fin 0, fun r c => r == 1 && c == 2⟩, rfl,
    ⟨rfl, rfl, rfl, by norm_num, by show 3 ≤ usizeMax; decide, by show 2 ≤ usizeMax; decide⟩,
    fun sx sy bearing maxR => castRay_terminates _ sx sy bearing maxR 5 (by show 3 + 2 ≤ 5; omega)⟩

end OccupancyMap
end Multicalc
