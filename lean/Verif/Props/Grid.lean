import Verif.Props.Mapping
import Verif.Props.Scalar
import Mathlib.Analysis.SpecialFunctions.Trigonometric.Bounds
import Mathlib.Analysis.Real.Pi.Bounds

/-!
# Cell lookup, the growable grid and drawing on it (C64)
-/

namespace Multicalc
namespace OccupancyMap

/-- The point `p` of an axis is in cell `i`, the lower edge counted. -/
def HalfOpenAt (o res : ℝ) (i : ℕ) (p : ℝ) : Prop := o + i * res ≤ p ∧ p < o + (i + 1) * res

theorem asUsize_floor (u : ℝ) : asUsize (Fns.floor (XR.fin u)) = min ⌊u⌋.toNat usizeMax := by
  show min ⌊((⌊u⌋ : ℤ) : ℝ)⌋₊ usizeMax = _
  rw [← Int.floor_toNat, Int.floor_intCast]

theorem floor_neg_iff (u : ℝ) : (Fns.floor (XR.fin u) < 0) ↔ ⌊u⌋ < 0 := by
  show XR.fin ((⌊u⌋ : ℤ) : ℝ) < XR.fin 0 ↔ _
  simp

theorem halfOpen_iff {o res p : ℝ} (hres : 0 < res) (i n : ℕ) (hn : n ≤ usizeMax) :
    (¬ ⌊(p - o) / res⌋ < 0 ∧ min ⌊(p - o) / res⌋.toNat usizeMax < n ∧ min ⌊(p - o) / res⌋.toNat usizeMax = i) ↔
      (i < n ∧ HalfOpenAt o res i p) := by
  unfold HalfOpenAt
  have h : (⌊(p - o) / res⌋ = (i : ℤ)) ↔ (o + i * res ≤ p ∧ p < o + (i + 1) * res) := by
    rw [Int.floor_eq_iff, le_div_iff₀ hres, div_lt_iff₀ hres]
    push_cast
    constructor <;> rintro ⟨h1, h2⟩ <;> constructor <;> linarith
  rw [← h]
  constructor
  · rintro ⟨h1, h2, h3⟩; exact ⟨by omega, by omega⟩
  · rintro ⟨h1, h2⟩; refine ⟨by omega, by omega, by omega⟩

/-- C64. `cell_of` names the cell that holds the point: on a map with finite numbers and for a finite point,
the answer is `(row, column)` exactly when that cell is on the map and the point lies in it, lower edges
counted and upper ones not; otherwise there is no answer. -/
theorem cellOf_iff {m : OccupancyMap XR} {ox oy res : ℝ} (hm : FiniteMap m ox oy res) (px py : ℝ)
    (row column : ℕ) :
    m.cellOf (.fin px) (.fin py) = some (row, column) ↔
      row < m.rows ∧ column < m.columns ∧ HalfOpenAt ox res column px ∧ HalfOpenAt oy res row py := by
  have hp := hm.pos
  have hx := halfOpen_iff (p := px) (o := ox) hp column m.columns hm.columns
  have hy := halfOpen_iff (p := py) (o := oy) hp row m.rows hm.rows
  unfold cellOf
  simp only [hm.resolution, hm.originX, hm.originY, XR.fin_sub, XR.fin_div _ _ hp.ne', floor_neg_iff, asUsize_floor]
  split_ifs with h1 h2
  · constructor
    · intro h; simp at h
    · rintro ⟨a, b, c, d⟩
      have := hx.2 ⟨b, c⟩; have := hy.2 ⟨a, d⟩; omega
  · constructor
    · intro h
      have h := Option.some.inj h
      have e1 := congrArg Prod.fst h
      have e2 := congrArg Prod.snd h
      dsimp only at e1 e2
      obtain ⟨a, b⟩ := hx.1 ⟨by omega, h2.1, e2⟩
      obtain ⟨c, d⟩ := hy.1 ⟨by omega, h2.2, e1⟩
      exact ⟨c, a, b, d⟩
    · rintro ⟨a, b, c, d⟩
      rw [(hx.2 ⟨b, c⟩).2.2, (hy.2 ⟨a, d⟩).2.2]
  · constructor
    · intro h; simp at h
    · rintro ⟨a, b, c, d⟩
      have := hx.2 ⟨b, c⟩; have := hy.2 ⟨a, d⟩
      exact absurd ⟨by omega, by omega⟩ h2

/-- C64. Every point of the map's square lies in exactly one cell, which `cell_of` finds, and every other
point gets no answer. -/
theorem cellOf_total {m : OccupancyMap XR} {ox oy res : ℝ} (hm : FiniteMap m ox oy res) (px py : ℝ) :
    ((ox ≤ px ∧ px < ox + m.columns * res ∧ oy ≤ py ∧ py < oy + m.rows * res) →
      ∃ row column, m.cellOf (.fin px) (.fin py) = some (row, column)) ∧
    (¬ (ox ≤ px ∧ px < ox + m.columns * res ∧ oy ≤ py ∧ py < oy + m.rows * res) →
      m.cellOf (.fin px) (.fin py) = none) := by
  have hp := hm.pos
  constructor
  · rintro ⟨h1, h2, h3, h4⟩
    have aux : ∀ (o p : ℝ) (n : ℕ), o ≤ p → p < o + n * res → ∃ i : ℕ, i < n ∧ HalfOpenAt o res i p := by
      intro o p n ha hb
      have hq0 : 0 ≤ (p - o) / res := div_nonneg (by linarith) hp.le
      refine ⟨⌊(p - o) / res⌋₊, ?_, ?_, ?_⟩
      · rw [Nat.floor_lt hq0, div_lt_iff₀ hp]; linarith
      · have := Nat.floor_le hq0; rw [le_div_iff₀ hp] at this; linarith
      · have := Nat.lt_floor_add_one ((p - o) / res); rw [div_lt_iff₀ hp] at this; linarith
    obtain ⟨j, hj, hj'⟩ := aux ox px m.columns h1 h2
    obtain ⟨i, hi, hi'⟩ := aux oy py m.rows h3 h4
    exact ⟨i, j, (cellOf_iff hm px py i j).2 ⟨hi, hj, hj', hi'⟩⟩
  · intro hno
    cases hc : m.cellOf (.fin px) (.fin py) with
    | none => rfl
    | some ij =>
      obtain ⟨i, j⟩ := ij
      obtain ⟨hi, hj, ⟨a, b⟩, c, d⟩ := (cellOf_iff hm px py i j).1 hc
      exfalso; apply hno
      have e1 : (0 : ℝ) ≤ j * res := by positivity
      have e2 : (0 : ℝ) ≤ i * res := by positivity
      have e3 : ((j : ℝ) + 1) * res ≤ m.columns * res := by
        have : (j : ℝ) + 1 ≤ m.columns := by exact_mod_cast hj
        nlinarith
      have e4 : ((i : ℝ) + 1) * res ≤ m.rows * res := by
        have : (i : ℝ) + 1 ≤ m.rows := by exact_mod_cast hi
        nlinarith
      refine ⟨by linarith, by linarith, by linarith, by linarith⟩

/-- C64. The middle of a cell is looked up as that cell. -/
theorem cellOf_center {m : OccupancyMap XR} {ox oy res : ℝ} (hm : FiniteMap m ox oy res) (row column : ℕ)
    (hr : row < m.rows) (hc : column < m.columns) :
    m.cellOf (.fin (ox + (column + 1 / 2) * res)) (.fin (oy + (row + 1 / 2) * res)) = some (row, column) := by
  have hp := hm.pos
  refine (cellOf_iff hm _ _ _ _).2 ⟨hr, hc, ⟨?_, ?_⟩, ?_, ?_⟩ <;> nlinarith

/-- C64. An infinitely far point is off every map. -/
theorem cellOf_infinite {m : OccupancyMap XR} {ox oy res : ℝ} (hm : FiniteMap m ox oy res) (p : XR) :
    m.cellOf .pinf p = none ∧ m.cellOf .ninf p = none ∧ m.cellOf p .pinf = none ∧ m.cellOf p .ninf = none := by
  have hp := hm.pos
  have hdiv1 : ∀ o : ℝ, (XR.pinf - XR.fin o) / XR.fin res = XR.pinf := fun o => by
    show XR.div (XR.add XR.pinf (XR.neg (XR.fin o))) (XR.fin res) = _
    simp only [XR.neg, XR.add, XR.div]
    rw [if_neg (by linarith)]
  have hdiv2 : ∀ o : ℝ, (XR.ninf - XR.fin o) / XR.fin res = XR.ninf := fun o => by
    show XR.div (XR.add XR.ninf (XR.neg (XR.fin o))) (XR.fin res) = _
    simp only [XR.neg, XR.add, XR.div]
    rw [if_neg (by linarith)]
  have f1 : (Fns.floor XR.pinf : XR) = .pinf := rfl
  have f2 : (Fns.floor XR.ninf : XR) = .ninf := rfl
  have a1 : asUsize XR.pinf = usizeMax := rfl
  have hc := hm.columns
  have hr := hm.rows
  unfold cellOf
  simp only [hm.resolution, hm.originX, hm.originY, hdiv1, hdiv2, f1, f2, a1, XR.zero_def, XR.ninf_lt_fin, true_or,
    or_true, if_true, and_true, true_and]
  constructor
  · split_ifs <;> first | rfl | omega
  · split_ifs <;> first | rfl | omega

/-- C63. A beam that starts in a blocked cell reads zero, whatever its bearing. -/
theorem castRay_start_blocked {m : OccupancyMap XR} {ox oy res : ℝ} (hm : FiniteMap m ox oy res) (sx sy θ : ℝ)
    (maxR : XR) (hmax : ¬ maxR < XR.fin 0) (row column : ℕ)
    (hc : m.cellOf (.fin sx) (.fin sy) = some (row, column)) (hocc : m.isOccupied row column = true) :
    m.castRay (.fin sx) (.fin sy) (.fin θ) maxR = some (.fin 0) := by
  obtain ⟨hi, hj, ⟨a, b⟩, c, d⟩ := (cellOf_iff hm sx sy row column).1 hc
  have hp := hm.pos
  have e1 : (0 : ℝ) ≤ column * res := by positivity
  have e2 : (0 : ℝ) ≤ row * res := by positivity
  have e3 : ((column : ℝ) + 1) * res ≤ m.columns * res := by
    have : (column : ℝ) + 1 ≤ m.columns := by exact_mod_cast hj
    nlinarith
  have e4 : ((row : ℝ) + 1) * res ≤ m.rows * res := by
    have : (row : ℝ) + 1 ≤ m.rows := by exact_mod_cast hi
    nlinarith
  have hon : ∀ θ', OnMap m ox oy res (sx + 0 * θ') (sy + 0 * Real.sin θ) := fun θ' => by
    unfold OnMap; simp only [zero_mul, add_zero]
    refine ⟨⟨by linarith, by linarith⟩, by linarith, by linarith⟩
  obtain ⟨s1, s2⟩ := entryDistance_spec hm sx sy (Real.cos θ) (Real.sin θ)
  have hcos : (Fns.cos (XR.fin θ) : XR) = .fin (Real.cos θ) := rfl
  have hsin : (Fns.sin (XR.fin θ) : XR) = .fin (Real.sin θ) := rfl
  unfold castRay castRayRun
  rw [if_neg (by omega)]
  simp only [hcos, hsin]
  cases he : entryDistance m (XR.fin sx) (XR.fin sy) (XR.fin (Real.cos θ)) (XR.fin (Real.sin θ)) with
  | none => exact absurd (hon _) (s1 he 0 le_rfl)
  | some e =>
    obtain ⟨r, rfl, hr0, -, hbef⟩ := s2 e he
    have hr : r = 0 := by
      by_contra hne
      exact hbef 0 le_rfl (lt_of_le_of_ne hr0 (Ne.symm hne)) (hon _)
    subst hr
    dsimp only
    rw [if_neg hmax]
    simp only [hm.resolution, hm.originX, hm.originY, XR.fin_mul, XR.fin_add, XR.fin_sub,
      XR.fin_div _ _ hp.ne', zero_mul, add_zero]
    have k : ∀ (o p : ℝ) (i n : ℕ), i < n → n ≤ usizeMax → o + i * res ≤ p → p < o + (i + 1) * res →
        clampIndex (XR.fin ((p - o) / res)) n = (i : ℤ) := by
      intro o p i n hin hn h1 h2
      have hin' : (i : ℝ) + 1 ≤ n := by exact_mod_cast hin
      have hq0 : 0 ≤ (p - o) / res := div_nonneg (by have : (0 : ℝ) ≤ i * res := by positivity
                                                     linarith) hp.le
      have hq1 : (p - o) / res < n := by rw [div_lt_iff₀ hp]; nlinarith
      rw [(clampIndex_fin _ n (by omega) hn hq0 hq1.le).2.2 hq1, Int.floor_eq_iff, le_div_iff₀ hp, div_lt_iff₀ hp]
      push_cast
      constructor <;> linarith
    rw [k ox sx column m.columns hj hm.columns a b, k oy sy row m.rows hi hm.rows c d]
    obtain ⟨n, hn⟩ : ∃ n, m.columns + m.rows = n + 1 := ⟨m.columns + m.rows - 1, by omega⟩
    rw [hn, castLoop, if_neg hmax, if_neg (by omega), if_neg (by simp; omega), if_pos (by simpa using hocc)]
    rfl

/-- C64 (finding). `cell_of` says a point outside the map has no cell, but a point that is not a number is
answered with cell `(0, 0)` on every map with finite numbers, and `occupy_point` then blocks that cell. -/
theorem cellOf_nan {m : OccupancyMap XR} (hc : 0 < m.columns) (hr : 0 < m.rows) :
    m.cellOf .nan .nan = some (0, 0) := by
  have f1 : (Fns.floor XR.nan : XR) = .nan := rfl
  have a1 : asUsize XR.nan = 0 := rfl
  unfold cellOf
  simp only [XR.nan_sub, XR.nan_div, f1, a1, XR.not_nan_lt, or_self, if_false]
  rw [if_pos ⟨hc, hr⟩]

end OccupancyMap

namespace DynamicOccupancyGrid
open OccupancyMap

section lawfree
variable {T : Type} [Zero T] [One T] [NatCast T] [Add T] [Sub T] [Neg T] [Mul T] [Div T] [LT T] [LE T]
  [DecidableLT T] [DecidableLE T] [BEq T] [Max T] [Min T] [Fns T] [AsUsize T]

/-- The grid stores one value per cell. -/
def WellSized (g : DynamicOccupancyGrid T) : Prop := g.cells.length = g.columns * g.rows

theorem indexOf_some {g : DynamicOccupancyGrid T} {row column k : ℕ} :
    g.indexOf row column = some k ↔ row < g.rows ∧ column < g.columns ∧ k = row * g.columns + column := by
  unfold indexOf
  split_ifs with h
  · constructor
    · intro h'; exact ⟨h.1, h.2, (Option.some.inj h').symm⟩
    · rintro ⟨_, _, rfl⟩; rfl
  · constructor
    · intro h'; simp at h'
    · rintro ⟨a, b, _⟩; exact absurd ⟨a, b⟩ h

theorem index_lt {rows columns row column : ℕ} (hr : row < rows) (hc : column < columns) :
    row * columns + column < columns * rows := by
  calc row * columns + column < row * columns + columns := by omega
    _ = (row + 1) * columns := by ring
    _ ≤ rows * columns := Nat.mul_le_mul_right _ hr
    _ = columns * rows := Nat.mul_comm _ _

theorem index_inj {columns r c r' c' : ℕ} (hc : c < columns) (hc' : c' < columns)
    (h : r * columns + c = r' * columns + c') : r = r' ∧ c = c' := by
  have h0 : 0 < columns := by omega
  have e1 : (r * columns + c) / columns = r := by
    rw [Nat.add_comm, Nat.add_mul_div_right _ _ h0, Nat.div_eq_of_lt hc]; omega
  have e2 : (r' * columns + c') / columns = r' := by
    rw [Nat.add_comm, Nat.add_mul_div_right _ _ h0, Nat.div_eq_of_lt hc']; omega
  have : r = r' := by rw [← e1, ← e2, h]
  subst this
  exact ⟨rfl, by omega⟩

/-- C64. `try_new` refuses exactly the empty grid, the one with more cells than a `usize` counts, numbers
that are not finite and a cell size at or below zero, in that order; otherwise it returns a grid of the given
shape with every cell free. -/
theorem tryNew_spec (columns rows : ℕ) (resolution originX originY : T) :
    (columns = 0 ∨ rows = 0 → tryNew columns rows resolution originX originY = .error .emptyGrid) ∧
    (columns ≠ 0 → rows ≠ 0 → usizeMax < columns * rows →
      tryNew columns rows resolution originX originY = .error .gridTooLarge) ∧
    (columns ≠ 0 → rows ≠ 0 → columns * rows ≤ usizeMax →
      (Fns.isFinite resolution = false ∨ Fns.isFinite originX = false ∨ Fns.isFinite originY = false) →
      tryNew columns rows resolution originX originY = .error .nonFinite) ∧
    (columns ≠ 0 → rows ≠ 0 → columns * rows ≤ usizeMax → Fns.isFinite resolution = true →
      Fns.isFinite originX = true → Fns.isFinite originY = true →
      (resolution ≤ 0 → tryNew columns rows resolution originX originY = .error .nonPositiveResolution) ∧
      (¬ resolution ≤ 0 → ∃ g, tryNew columns rows resolution originX originY = .ok g ∧ g.WellSized ∧
        g.columns = columns ∧ g.rows = rows ∧ g.resolution = resolution ∧ g.originX = originX ∧
        g.originY = originY ∧ ∀ row column, g.isOccupied row column = false)) := by
  unfold tryNew
  refine ⟨fun h => if_pos h, fun h1 h2 h3 => ?_, fun h1 h2 h3 h4 => ?_, fun h1 h2 h3 a b c => ⟨fun h => ?_, fun h => ?_⟩⟩
  · rw [if_neg (by omega), if_pos h3]
  · rw [if_neg (by omega), if_neg (by omega), if_pos]
    rcases h4 with h | h | h <;> simp [h]
  · rw [if_neg (by omega), if_neg (by omega), if_neg (by simp [a, b, c]), if_pos h]
  · rw [if_neg (by omega), if_neg (by omega), if_neg (by simp [a, b, c]), if_neg h]
    refine ⟨_, rfl, by simp [WellSized], rfl, rfl, rfl, rfl, rfl, fun row column => ?_⟩
    unfold isOccupied
    split
    · rfl
    · rw [List.getElem?_replicate]; split_ifs <;> rfl

theorem setCell_shape (g : DynamicOccupancyGrid T) (row column : ℕ) (b : Bool) :
    (g.setCell row column b).columns = g.columns ∧ (g.setCell row column b).rows = g.rows ∧
    (g.setCell row column b).resolution = g.resolution ∧ (g.setCell row column b).originX = g.originX ∧
    (g.setCell row column b).originY = g.originY ∧ (g.WellSized → (g.setCell row column b).WellSized) := by
  unfold setCell
  split
  · exact ⟨rfl, rfl, rfl, rfl, rfl, id⟩
  · exact ⟨rfl, rfl, rfl, rfl, rfl, fun h => by simpa [WellSized] using h⟩

/-- C64. `set_cell` changes the named cell and no other, and is ignored off the map; `clear` frees every cell;
no query or write reaches past the storage. -/
theorem setCell_spec (g : DynamicOccupancyGrid T) (hg : g.WellSized) (row column : ℕ) (b : Bool) :
    (row < g.rows → column < g.columns → (g.setCell row column b).isOccupied row column = b) ∧
    (∀ r c, (r, c) ≠ (row, column) → (g.setCell row column b).isOccupied r c = g.isOccupied r c) ∧
    (¬ (row < g.rows ∧ column < g.columns) → g.setCell row column b = g) ∧
    (¬ (row < g.rows ∧ column < g.columns) → g.isOccupied row column = false) ∧
    (∀ r c, g.clear.isOccupied r c = false) ∧
    (∀ k, g.indexOf row column = some k → k < g.cells.length) := by
  refine ⟨fun hr hc => ?_, fun r c hne => ?_, fun h => ?_, fun h => ?_, fun r c => ?_, fun k hk => ?_⟩
  · have hi : g.indexOf row column = some (row * g.columns + column) := indexOf_some.2 ⟨hr, hc, rfl⟩
    have hi' : ∀ cells, ({ g with cells := cells } : DynamicOccupancyGrid T).indexOf row column =
        some (row * g.columns + column) := fun _ => hi
    unfold setCell isOccupied
    simp only [hi, hi']
    rw [List.getElem?_set_self (by rw [hg]; exact index_lt hr hc)]; rfl
  · unfold setCell
    cases hi : g.indexOf row column with
    | none => rfl
    | some k =>
      have hi' : ∀ cells, ({ g with cells := cells } : DynamicOccupancyGrid T).indexOf r c = g.indexOf r c :=
        fun _ => rfl
      unfold isOccupied
      simp only [hi']
      cases hj : g.indexOf r c with
      | none => rfl
      | some k' =>
        obtain ⟨h1, h2, h3⟩ := indexOf_some.1 hi
        obtain ⟨h4, h5, h6⟩ := indexOf_some.1 hj
        dsimp only
        rw [List.getElem?_set_ne]
        intro heq
        obtain ⟨e1, e2⟩ := index_inj h2 h5 (by omega : row * g.columns + column = r * g.columns + c)
        exact hne (by rw [e1, e2])
  · unfold setCell indexOf; rw [if_neg h]
  · unfold isOccupied indexOf; rw [if_neg h]
  · unfold isOccupied clear
    split
    · rfl
    · rename_i k _; rw [List.getElem?_map]; cases g.cells[k]? <;> rfl
  · obtain ⟨h1, h2, rfl⟩ := indexOf_some.1 hk
    rw [hg]; exact index_lt h1 h2

/-- A grid drawn on: same shape, and a cell is blocked exactly when it was or one of the listed points is
looked up as it. -/
def DrawnWith (g g' : DynamicOccupancyGrid T) (P : T → T → Prop) : Prop :=
  g'.columns = g.columns ∧ g'.rows = g.rows ∧ g'.resolution = g.resolution ∧ g'.originX = g.originX ∧
  g'.originY = g.originY ∧ g'.WellSized ∧
  ∀ r c, g'.isOccupied r c = true ↔
    (g.isOccupied r c = true ∨ ∃ px py, P px py ∧ g.toMap.cellOf px py = some (r, c))

theorem cellOf_congr {g g' : DynamicOccupancyGrid T} (h1 : g'.columns = g.columns) (h2 : g'.rows = g.rows)
    (h3 : g'.resolution = g.resolution) (h4 : g'.originX = g.originX) (h5 : g'.originY = g.originY) (px py : T) :
    g'.toMap.cellOf px py = g.toMap.cellOf px py := by
  unfold OccupancyMap.cellOf toMap
  simp only [h1, h2, h3, h4, h5]

theorem cellOf_on {m : OccupancyMap T} {px py : T} {r c : ℕ} (h : m.cellOf px py = some (r, c)) :
    r < m.rows ∧ c < m.columns := by
  unfold OccupancyMap.cellOf at h
  dsimp only at h
  split_ifs at h with h1 h2
  cases h
  exact ⟨h2.2, h2.1⟩

theorem DrawnWith.refl {g : DynamicOccupancyGrid T} (hg : g.WellSized) : DrawnWith g g fun _ _ => False :=
  ⟨rfl, rfl, rfl, rfl, rfl, hg, fun r c => by simp⟩

theorem DrawnWith.trans {g g' g'' : DynamicOccupancyGrid T} {P Q : T → T → Prop} (h : DrawnWith g g' P)
    (h' : DrawnWith g' g'' Q) : DrawnWith g g'' fun x y => P x y ∨ Q x y := by
  obtain ⟨a1, a2, a3, a4, a5, a6, a7⟩ := h
  obtain ⟨b1, b2, b3, b4, b5, b6, b7⟩ := h'
  refine ⟨b1.trans a1, b2.trans a2, b3.trans a3, b4.trans a4, b5.trans a5, b6, fun r c => ?_⟩
  rw [b7, a7]
  simp only [cellOf_congr a1 a2 a3 a4 a5]
  constructor
  · rintro ((h | ⟨x, y, h, h'⟩) | ⟨x, y, h, h'⟩)
    · exact Or.inl h
    · exact Or.inr ⟨x, y, Or.inl h, h'⟩
    · exact Or.inr ⟨x, y, Or.inr h, h'⟩
  · rintro (h | ⟨x, y, h | h, h'⟩)
    · exact Or.inl (Or.inl h)
    · exact Or.inl (Or.inr ⟨x, y, h, h'⟩)
    · exact Or.inr ⟨x, y, h, h'⟩

theorem DrawnWith.congr {g g' : DynamicOccupancyGrid T} {P Q : T → T → Prop} (h : DrawnWith g g' P)
    (hPQ : ∀ x y, P x y ↔ Q x y) : DrawnWith g g' Q := by
  obtain ⟨a1, a2, a3, a4, a5, a6, a7⟩ := h
  exact ⟨a1, a2, a3, a4, a5, a6, fun r c => by rw [a7]; simp only [hPQ]⟩

/-- C64. `occupy_point` blocks the cell the point is in, if there is one, and nothing else. -/
theorem occupyPoint_spec (g : DynamicOccupancyGrid T) (hg : g.WellSized) (px py : T) :
    DrawnWith g (g.occupyPoint px py) fun x y => x = px ∧ y = py := by
  unfold occupyPoint
  cases h : g.toMap.cellOf px py with
  | none =>
    refine ⟨rfl, rfl, rfl, rfl, rfl, hg, fun r c => ⟨Or.inl, ?_⟩⟩
    rintro (h' | ⟨x, y, ⟨rfl, rfl⟩, h'⟩)
    · exact h'
    · rw [h] at h'; simp at h'
  | some rc =>
    obtain ⟨r0, c0⟩ := rc
    obtain ⟨hr, hc⟩ := cellOf_on h
    obtain ⟨a1, a2, a3, a4, a5, a6⟩ := setCell_shape g r0 c0 true
    obtain ⟨s1, s2, -⟩ := setCell_spec g hg r0 c0 true
    refine ⟨a1, a2, a3, a4, a5, a6 hg, fun r c => ?_⟩
    dsimp only
    by_cases he : (r, c) = (r0, c0)
    · cases he
      rw [s1 hr hc]
      exact ⟨fun _ => Or.inr ⟨px, py, ⟨rfl, rfl⟩, h⟩, fun _ => rfl⟩
    · rw [s2 r c he]
      refine ⟨Or.inl, ?_⟩
      rintro (h' | ⟨x, y, ⟨rfl, rfl⟩, h'⟩)
      · exact h'
      · rw [h] at h'; exact absurd (Option.some.inj h').symm he

theorem foldl_drawn {α : Type} (f : DynamicOccupancyGrid T → α → DynamicOccupancyGrid T) (P : α → T → T → Prop)
    (res : T) (hf : ∀ g a, g.WellSized → g.resolution = res → DrawnWith g (f g a) (P a)) :
    ∀ (l : List α) (g : DynamicOccupancyGrid T), g.WellSized → g.resolution = res →
      DrawnWith g (l.foldl f g) fun x y => ∃ a ∈ l, P a x y := by
  intro l
  induction l with
  | nil => intro g hg _; exact (DrawnWith.refl hg).congr fun x y => by simp
  | cons a l ih =>
    intro g hg hr
    have h1 := hf g a hg hr
    have h2 := ih (f g a) h1.2.2.2.2.2.1 (h1.2.2.1.trans hr)
    exact (h1.trans h2).congr fun x y => by simp

/-- The points `occupy_polyline` samples on the edge from `a` to `b`. -/
def OnEdge (step : T) (a b : T × T) (x y : T) : Prop :=
  ∃ k ≤ edgeSamples step a b, x = (edgePoint a b (edgeSamples step a b) k).1 ∧
    y = (edgePoint a b (edgeSamples step a b) k).2

theorem occupyEdge_spec (g : DynamicOccupancyGrid T) (hg : g.WellSized) (step : T) (a b : T × T) :
    DrawnWith g (g.occupyEdge step a b) (OnEdge step a b) := by
  unfold occupyEdge
  refine (foldl_drawn _ (fun k x y => x = (edgePoint a b (edgeSamples step a b) k).1 ∧
    y = (edgePoint a b (edgeSamples step a b) k).2) g.resolution (fun g k hg _ => occupyPoint_spec g hg _ _)
    _ g hg rfl).congr fun x y => ?_
  unfold OnEdge
  constructor
  · rintro ⟨k, hk, h⟩; exact ⟨k, by simpa [Nat.lt_succ_iff] using hk, h⟩
  · rintro ⟨k, hk, h⟩; exact ⟨k, by simpa [Nat.lt_succ_iff] using hk, h⟩

/-- C64. `occupy_polyline` blocks exactly the cells holding a sample point of one of its edges — the joined
list of points, and the edge back to the first when `closed` — and leaves every other cell as it was. -/
theorem occupyPolyline_spec (g : DynamicOccupancyGrid T) (hg : g.WellSized) (polyline : List (T × T))
    (closed : Bool) :
    DrawnWith g (g.occupyPolyline polyline closed) fun x y => ∃ k a b,
      k < (if closed then polyline.length else polyline.length - 1) ∧ polyline[k]? = some a ∧
      polyline[(k + 1) % polyline.length]? = some b ∧ OnEdge (Fns.lit (2 / 5) * g.resolution) a b x y := by
  unfold occupyPolyline
  refine (foldl_drawn _ (fun k x y => ∃ a b, polyline[k]? = some a ∧
    polyline[(k + 1) % max polyline.length 1]? = some b ∧ OnEdge (Fns.lit (2 / 5) * g.resolution) a b x y)
    g.resolution (fun g' k hg' _ => ?_) _ g hg rfl).congr fun x y => ?_
  · cases h1 : polyline[k]? with
    | none => exact (DrawnWith.refl hg').congr fun x y => by simp
    | some a =>
      cases h2 : polyline[(k + 1) % max polyline.length 1]? with
      | none => exact (DrawnWith.refl hg').congr fun x y => by simp
      | some b => exact (occupyEdge_spec g' hg' _ a b).congr fun x y => by simp
  · constructor
    · rintro ⟨k, hk, a, b, h1, h2, h3⟩
      rw [List.mem_range] at hk
      have : max polyline.length 1 = polyline.length := by
        obtain ⟨h, -⟩ := List.getElem?_eq_some_iff.1 h1; omega
      rw [this] at h2
      exact ⟨k, a, b, hk, h1, h2, h3⟩
    · rintro ⟨k, a, b, hk, h1, h2, h3⟩
      refine ⟨k, by rw [List.mem_range]; exact hk, a, b, h1, ?_, h3⟩
      have : max polyline.length 1 = polyline.length := by
        obtain ⟨h, -⟩ := List.getElem?_eq_some_iff.1 h1; omega
      rw [this]; exact h2

end lawfree

/-! ## Drawing is gap-free -/

theorem hypot_fin (x y : ℝ) : hypot (XR.fin x) (XR.fin y) = XR.fin (Real.sqrt (x * x + y * y)) := by
  have h : hypot (XR.fin x) (XR.fin y) = XR.fin (hypot x y) := by
    unfold hypot
    have ha : ∀ z : ℝ, (Fns.abs (XR.fin z) : XR) = XR.fin |z| := fun _ => rfl
    have hb : ∀ z : ℝ, (Fns.abs z : ℝ) = |z| := fun _ => rfl
    simp only [ha, hb, XR.fin_lt]
    by_cases hc : |y| < |x|
    · simp only [if_pos hc]
      by_cases h0 : |x| = 0
      · simp [h0]
      · simp only [XR.zero_def, XR.fin_beq, h0, decide_false, XR.fin_div _ _ h0, beq_iff_eq, if_false,
          Bool.false_eq_true, XR.fin_mul, XR.one_def, XR.fin_add]
        have hs : (Fns.sqrt (XR.fin (1 + |y| / |x| * (|y| / |x|))) : XR) =
            XR.fin (Real.sqrt (1 + |y| / |x| * (|y| / |x|))) := by
          show (if _ then _ else _) = _
          rw [if_neg]; nlinarith [mul_self_nonneg (|y| / |x|)]
        rw [hs, XR.fin_mul]; rfl
    · simp only [if_neg hc]
      by_cases h0 : |y| = 0
      · simp [h0]
      · simp only [XR.zero_def, XR.fin_beq, h0, decide_false, XR.fin_div _ _ h0, beq_iff_eq, if_false,
          Bool.false_eq_true, XR.fin_mul, XR.one_def, XR.fin_add]
        have hs : (Fns.sqrt (XR.fin (1 + |x| / |y| * (|x| / |y|))) : XR) =
            XR.fin (Real.sqrt (1 + |x| / |y| * (|x| / |y|))) := by
          show (if _ then _ else _) = _
          rw [if_neg]; nlinarith [mul_self_nonneg (|x| / |y|)]
        rw [hs, XR.fin_mul]; rfl
  rw [h]; congr 1
  rw [hypot_eq]; congr 1; ring

theorem edgeSamples_fin (res ax ay bx by' : ℝ) (hres : 0 < res)
    (hfit : Real.sqrt ((bx - ax) ^ 2 + (by' - ay) ^ 2) ≤ (2 / 5 * res) * usizeMax) :
    1 ≤ edgeSamples (Fns.lit (2 / 5) * XR.fin res) (XR.fin ax, XR.fin ay) (XR.fin bx, XR.fin by') ∧
    Real.sqrt ((bx - ax) ^ 2 + (by' - ay) ^ 2) ≤ (2 / 5 * res) *
      (edgeSamples (Fns.lit (2 / 5) * XR.fin res) (XR.fin ax, XR.fin ay) (XR.fin bx, XR.fin by') : ℕ) := by
  have hl : (Fns.lit (2 / 5) : XR) * XR.fin res = XR.fin (2 / 5 * res) := by
    show XR.fin _ * XR.fin res = _
    rw [XR.fin_mul]; norm_num
  have hs : 0 < 2 / 5 * res := by positivity
  set L := Real.sqrt ((bx - ax) ^ 2 + (by' - ay) ^ 2) with hL
  have hn : edgeSamples (Fns.lit (2 / 5) * XR.fin res) (XR.fin ax, XR.fin ay) (XR.fin bx, XR.fin by') =
      min ⌊max ((⌈L / (2 / 5 * res)⌉ : ℤ) : ℝ) 1⌋₊ usizeMax := by
    unfold edgeSamples
    simp only [XR.fin_sub]
    rw [hl, hypot_fin, XR.fin_div _ _ hs.ne', show (bx - ax) * (bx - ax) + (by' - ay) * (by' - ay) =
      (bx - ax) ^ 2 + (by' - ay) ^ 2 by ring, ← hL]
    have : (Fns.ceil (XR.fin (L / (2 / 5 * res))) : XR) = XR.fin ((⌈L / (2 / 5 * res)⌉ : ℤ) : ℝ) := rfl
    rw [this, XR.one_def, XR.fin_max]; rfl
  rw [hn]
  have h1 : 1 ≤ ⌊max ((⌈L / (2 / 5 * res)⌉ : ℤ) : ℝ) 1⌋₊ := by
    rw [Nat.one_le_floor_iff]; exact le_max_right _ _
  refine ⟨le_min h1 (by decide), ?_⟩
  rw [Nat.cast_min, mul_min_of_nonneg _ _ hs.le]
  refine le_min ?_ hfit
  rw [← div_le_iff₀' hs]
  have hc : L / (2 / 5 * res) ≤ ((⌈L / (2 / 5 * res)⌉ : ℤ) : ℝ) := Int.le_ceil _
  have hc0 : 0 ≤ ⌈L / (2 / 5 * res)⌉ := Int.ceil_nonneg (div_nonneg (Real.sqrt_nonneg _) hs.le)
  refine hc.trans ?_
  have : ⌈L / (2 / 5 * res)⌉ ≤ (⌊max ((⌈L / (2 / 5 * res)⌉ : ℤ) : ℝ) 1⌋₊ : ℤ) := by
    have h3 : (⌈L / (2 / 5 * res)⌉.toNat : ℕ) ≤ ⌊max ((⌈L / (2 / 5 * res)⌉ : ℤ) : ℝ) 1⌋₊ := by
      refine Nat.le_floor ?_
      refine le_trans ?_ (le_max_left _ _)
      have : ((⌈L / (2 / 5 * res)⌉.toNat : ℕ) : ℤ) = ⌈L / (2 / 5 * res)⌉ := Int.toNat_of_nonneg hc0
      exact_mod_cast this.le
    omega
  exact_mod_cast this

theorem edgePoint_fin (ax ay bx by' : ℝ) (n k : ℕ) (hn : n ≠ 0) :
    edgePoint (XR.fin ax, XR.fin ay) (XR.fin bx, XR.fin by') n k =
      (XR.fin (ax + k / n * (bx - ax)), XR.fin (ay + k / n * (by' - ay))) := by
  have : (n : ℝ) ≠ 0 := Nat.cast_ne_zero.2 hn
  unfold edgePoint
  simp [XR.fin_div _ _ this]

theorem halfOpen_near {o res p q : ℝ} (hres : 0 < res) {i j : ℕ} (hi : HalfOpenAt o res i p)
    (hj : HalfOpenAt o res j q) (hpq : |p - q| ≤ res) : i ≤ j + 1 ∧ j ≤ i + 1 := by
  obtain ⟨h1, h2⟩ := abs_le.1 hpq
  unfold HalfOpenAt at hi hj
  have a : (i : ℝ) * res < (j + 2) * res := by linarith [hi.1, hj.2]
  have b : (j : ℝ) * res < (i + 2) * res := by linarith [hi.2, hj.1]
  have a' : (i : ℝ) < j + 2 := lt_of_mul_lt_mul_right a hres.le
  have b' : (j : ℝ) < i + 2 := lt_of_mul_lt_mul_right b hres.le
  have a'' : i < j + 2 := by exact_mod_cast a'
  have b'' : j < i + 2 := by exact_mod_cast b'
  omega

/-- C64. An edge drawn by `occupy_polyline` has no holes: both its ends are sampled, every point of it is
within a fifth of a cell of a sampled point, and two sampled points in a row lie in the same cell or in
touching ones (sides or corners). For every edge short enough for its samples to be counted. -/
theorem polyline_edge_dense {m : OccupancyMap XR} {ox oy res : ℝ} (hm : FiniteMap m ox oy res)
    (ax ay bx by' : ℝ) (hfit : Real.sqrt ((bx - ax) ^ 2 + (by' - ay) ^ 2) ≤ (2 / 5 * res) * usizeMax) :
    let step : XR := Fns.lit (2 / 5) * XR.fin res
    let a : XR × XR := (.fin ax, .fin ay)
    let b : XR × XR := (.fin bx, .fin by')
    OnEdge step a b (.fin ax) (.fin ay) ∧ OnEdge step a b (.fin bx) (.fin by') ∧
    (∀ τ, 0 ≤ τ → τ ≤ 1 → ∃ x y, OnEdge step a b (.fin x) (.fin y) ∧
      Real.sqrt ((ax + τ * (bx - ax) - x) ^ 2 + (ay + τ * (by' - ay) - y) ^ 2) ≤ res / 5) ∧
    (∀ k, k < edgeSamples step a b → ∀ r c r' c',
      m.cellOf (edgePoint a b (edgeSamples step a b) k).1 (edgePoint a b (edgeSamples step a b) k).2 = some (r, c) →
      m.cellOf (edgePoint a b (edgeSamples step a b) (k + 1)).1 (edgePoint a b (edgeSamples step a b) (k + 1)).2 =
        some (r', c') → r ≤ r' + 1 ∧ r' ≤ r + 1 ∧ c ≤ c' + 1 ∧ c' ≤ c + 1) := by
  intro step a b
  have hp := hm.pos
  obtain ⟨h1, h2⟩ := edgeSamples_fin res ax ay bx by' hp hfit
  set L := Real.sqrt ((bx - ax) ^ 2 + (by' - ay) ^ 2) with hL
  set n := edgeSamples step a b with hn
  have hn0 : n ≠ 0 := by omega
  have hnr : (0 : ℝ) < n := by exact_mod_cast h1
  have hpt : ∀ k, edgePoint a b n k = (XR.fin (ax + k / n * (bx - ax)), XR.fin (ay + k / n * (by' - ay))) :=
    fun k => edgePoint_fin ax ay bx by' n k hn0
  have hdist : ∀ σ τ : ℝ, Real.sqrt ((ax + τ * (bx - ax) - (ax + σ * (bx - ax))) ^ 2 +
      (ay + τ * (by' - ay) - (ay + σ * (by' - ay))) ^ 2) = |τ - σ| * L := by
    intro σ τ
    rw [show (ax + τ * (bx - ax) - (ax + σ * (bx - ax))) ^ 2 + (ay + τ * (by' - ay) - (ay + σ * (by' - ay))) ^ 2 =
      (τ - σ) ^ 2 * ((bx - ax) ^ 2 + (by' - ay) ^ 2) by ring, Real.sqrt_mul (sq_nonneg _), Real.sqrt_sq_eq_abs]
  have hLn : L / n ≤ 2 / 5 * res := by rw [div_le_iff₀ hnr]; exact h2
  refine ⟨⟨0, Nat.zero_le _, by rw [hpt]; simp, by rw [hpt]; simp⟩,
    ⟨n, le_rfl, by rw [hpt]; simp [hnr.ne'], by rw [hpt]; simp [hnr.ne']⟩, fun τ h0 h1' => ?_, fun k hk r c r' c' e1 e2 => ?_⟩
  · have hfl : ⌊τ * n + 1 / 2⌋₊ ≤ n := by
      have : ⌊τ * n + 1 / 2⌋₊ < n + 1 := by
        rw [Nat.floor_lt (by positivity)]; push_cast; nlinarith
      omega
    refine ⟨_, _, ⟨⌊τ * n + 1 / 2⌋₊, hfl, by rw [hpt], by rw [hpt]⟩, ?_⟩
    rw [hdist]
    have f1 := Nat.floor_le (show 0 ≤ τ * n + 1 / 2 by positivity)
    have f2 := Nat.lt_floor_add_one (τ * n + 1 / 2)
    have habs : |τ - (⌊τ * n + 1 / 2⌋₊ : ℝ) / n| ≤ 1 / (2 * n) := by
      rw [abs_le]
      have e : τ - (⌊τ * n + 1 / 2⌋₊ : ℝ) / n = (τ * n - ⌊τ * n + 1 / 2⌋₊) / n := by field_simp
      have e' : 1 / (2 * (n : ℝ)) = (1 / 2) / n := by field_simp
      rw [e, e', ← neg_div]
      constructor <;> apply div_le_div_of_nonneg_right _ hnr.le <;> linarith
    calc _ ≤ 1 / (2 * (n : ℝ)) * L := mul_le_mul_of_nonneg_right habs (Real.sqrt_nonneg _)
      _ = L / n / 2 := by field_simp
      _ ≤ res / 5 := by linarith
  · rw [hpt] at e1 e2
    obtain ⟨-, -, a1, a2⟩ := (cellOf_iff hm _ _ _ _).1 e1
    obtain ⟨-, -, b1, b2⟩ := (cellOf_iff hm _ _ _ _).1 e2
    have hk1 : ((k + 1 : ℕ) : ℝ) / n - k / n = 1 / n := by push_cast; field_simp; ring
    have hle : ∀ u v : ℝ, |u| ≤ Real.sqrt (u ^ 2 + v ^ 2) := fun u v => by
      rw [← Real.sqrt_sq_eq_abs]; exact Real.sqrt_le_sqrt (by nlinarith [sq_nonneg v])
    have hbx : |bx - ax| ≤ L := hle _ _
    have hby : |by' - ay| ≤ L := by rw [hL, add_comm]; exact hle _ _
    have hx : |ax + (k : ℝ) / n * (bx - ax) - (ax + ((k + 1 : ℕ) : ℝ) / n * (bx - ax))| ≤ res := by
      rw [show ax + (k : ℝ) / n * (bx - ax) - (ax + ((k + 1 : ℕ) : ℝ) / n * (bx - ax)) =
        -((((k + 1 : ℕ) : ℝ) / n - k / n) * (bx - ax)) by ring, hk1, abs_neg, abs_mul, abs_of_pos (by positivity)]
      calc _ ≤ 1 / (n : ℝ) * L := mul_le_mul_of_nonneg_left hbx (by positivity)
        _ = L / n := by ring
        _ ≤ res := by linarith
    have hy : |ay + (k : ℝ) / n * (by' - ay) - (ay + ((k + 1 : ℕ) : ℝ) / n * (by' - ay))| ≤ res := by
      rw [show ay + (k : ℝ) / n * (by' - ay) - (ay + ((k + 1 : ℕ) : ℝ) / n * (by' - ay)) =
        -((((k + 1 : ℕ) : ℝ) / n - k / n) * (by' - ay)) by ring, hk1, abs_neg, abs_mul, abs_of_pos (by positivity)]
      calc _ ≤ 1 / (n : ℝ) * L := mul_le_mul_of_nonneg_left hby (by positivity)
        _ = L / n := by ring
        _ ≤ res := by linarith
    obtain ⟨c1, c2⟩ := halfOpen_near hp a1 b1 hx
    obtain ⟨r1, r2⟩ := halfOpen_near hp a2 b2 hy
    exact ⟨r1, r2, c1, c2⟩

/-! ## Circles -/

theorem circleLoop_stops (cx cy radius step : XR) (hstep : step = .pinf ∨ ∃ s, step = .fin s ∧ 1 / 1000 ≤ s) :
    ∀ (n : ℕ) (a : ℝ) (g : DynamicOccupancyGrid XR), 2 * Real.pi ≤ a + n / 1000 →
      ∃ g', circleLoop cx cy radius step (n + 2) (.fin a) g = some g' := by
  have hpi : ((2 : ℕ) : XR) * Fns.pi = .fin (2 * Real.pi) := by
    show XR.fin _ * XR.fin _ = _
    rw [XR.fin_mul]; norm_num
  intro n
  induction n with
  | zero =>
    intro a g h
    refine ⟨g, ?_⟩
    rw [circleLoop, hpi, if_neg]
    simpa using h
  | succ n ih =>
    intro a g h
    rw [circleLoop, hpi]
    split_ifs with hc
    · rcases hstep with rfl | ⟨s, rfl, hs⟩
      · have : XR.fin a + XR.pinf = XR.pinf := rfl
        rw [this, circleLoop, hpi, if_neg (by simp)]
        exact ⟨_, rfl⟩
      · rw [XR.fin_add]
        refine ih _ _ ?_
        push_cast at h; linarith
    · exact ⟨g, rfl⟩

theorem circleStep_cases (g : DynamicOccupancyGrid XR) (radius : XR) :
    g.circleStep radius = .pinf ∨ ∃ s, g.circleStep radius = .fin s ∧ 1 / 1000 ≤ s := by
  unfold circleStep
  have hl : (Fns.lit (1 / 1000) : XR) = .fin (1 / 1000) := by
    show XR.fin _ = _
    norm_num
  rw [hl]
  cases Fns.lit (2 / 5) * g.resolution / radius with
  | fin x => right; exact ⟨max x (1 / 1000), by simp, le_max_right _ _⟩
  | pinf => left; rw [XR.max_of_ne (by simp) (by simp)]; simp
  | ninf => right; exact ⟨1 / 1000, ninf_max _, le_rfl⟩
  | nan => right; exact ⟨1 / 1000, by simp, le_rfl⟩

/-- C64. `occupy_circle` stops for every grid, centre and radius, infinite and NaN ones included: its loop
makes at most 6285 passes. -/
theorem occupyCircle_terminates (g : DynamicOccupancyGrid XR) (cx cy radius : XR) :
    ∃ g', g.occupyCircleRun cx cy radius 6286 = some g' := by
  unfold occupyCircleRun
  refine circleLoop_stops cx cy radius _ (circleStep_cases g radius) 6284 0 g ?_
  have := Real.pi_lt_d4
  norm_num; linarith

theorem circleLoop_drawn (cx cy radius s : ℝ) (hs : 0 < s) :
    ∀ (n : ℕ) (a : ℝ) (g g' : DynamicOccupancyGrid XR), g.WellSized →
      circleLoop (.fin cx) (.fin cy) (.fin radius) (.fin s) n (.fin a) g = some g' →
      DrawnWith g g' fun x y => ∃ k : ℕ, a + k * s < 2 * Real.pi ∧
        x = .fin (cx + radius * Real.cos (a + k * s)) ∧ y = .fin (cy + radius * Real.sin (a + k * s)) := by
  have hpi : ((2 : ℕ) : XR) * Fns.pi = .fin (2 * Real.pi) := by
    show XR.fin _ * XR.fin _ = _
    rw [XR.fin_mul]; norm_num
  intro n
  induction n with
  | zero => intro a g g' _ h; simp [circleLoop] at h
  | succ n ih =>
    intro a g g' hg h
    rw [circleLoop, hpi] at h
    split_ifs at h with hc
    · rw [XR.fin_lt] at hc
      have e1 : (XR.fin cx + XR.fin radius * Fns.cos (XR.fin a) : XR) = .fin (cx + radius * Real.cos a) := rfl
      have e2 : (XR.fin cy + XR.fin radius * Fns.sin (XR.fin a) : XR) = .fin (cy + radius * Real.sin a) := rfl
      rw [e1, e2, XR.fin_add] at h
      have d1 := occupyPoint_spec g hg (XR.fin (cx + radius * Real.cos a)) (.fin (cy + radius * Real.sin a))
      have d2 := ih (a + s) _ g' d1.2.2.2.2.2.1 h
      refine (d1.trans d2).congr fun x y => ?_
      constructor
      · rintro (⟨rfl, rfl⟩ | ⟨k, hk, rfl, rfl⟩)
        · exact ⟨0, by simpa using hc, by simp, by simp⟩
        · refine ⟨k + 1, ?_, ?_, ?_⟩ <;> push_cast <;> rw [show a + (k + 1) * s = a + s + k * s by ring]
          exact hk
      · rintro ⟨k, hk, rfl, rfl⟩
        cases k with
        | zero => left; simp
        | succ k =>
          right
          refine ⟨k, ?_, ?_, ?_⟩ <;> push_cast at * <;> rw [show a + s + k * s = a + (k + 1) * s by ring]
          exact hk
    · cases h
      rw [XR.fin_lt, not_lt] at hc
      refine (DrawnWith.refl hg).congr fun x y => ⟨fun h => h.elim, ?_⟩
      rintro ⟨k, hk, -⟩
      have : (0 : ℝ) ≤ k * s := by positivity
      linarith

/-- C64. A rim of radius up to 400 cells is drawn without gaps: what is blocked are exactly the cells of
sampled rim points, and every point of the rim has a sampled point within two fifths of a cell of it in each
coordinate, whose cell (when on the map) is blocked and is the rim point's own or touches it.

Partial: for larger rims it is false, see `circle_gap`. -/
theorem circle_dense_partial {g g' : DynamicOccupancyGrid XR} {ox oy res : ℝ} (hg : g.WellSized)
    (hm : FiniteMap g.toMap ox oy res) (cx cy radius : ℝ) (hr : 0 < radius) (hr' : radius ≤ 400 * res)
    (hrun : g.occupyCircleRun (.fin cx) (.fin cy) (.fin radius) 6286 = some g') (φ : ℝ) (h0 : 0 ≤ φ)
    (h1 : φ < 2 * Real.pi) :
    ∃ ψ, |cx + radius * Real.cos φ - (cx + radius * Real.cos ψ)| ≤ 2 / 5 * res ∧
      |cy + radius * Real.sin φ - (cy + radius * Real.sin ψ)| ≤ 2 / 5 * res ∧
      ∀ r c, g.toMap.cellOf (.fin (cx + radius * Real.cos ψ)) (.fin (cy + radius * Real.sin ψ)) = some (r, c) →
        g'.isOccupied r c = true ∧
        ∀ r' c', g.toMap.cellOf (.fin (cx + radius * Real.cos φ)) (.fin (cy + radius * Real.sin φ)) = some (r', c') →
          r ≤ r' + 1 ∧ r' ≤ r + 1 ∧ c ≤ c' + 1 ∧ c' ≤ c + 1 := by
  have hp := hm.pos
  have hs0 : 0 < 2 / 5 * res / radius := by positivity
  have hstep : g.circleStep (XR.fin radius) = .fin (2 / 5 * res / radius) := by
    unfold circleStep
    have : g.resolution = .fin res := hm.resolution
    rw [this]
    show max (XR.fin _ * XR.fin res / XR.fin radius) (XR.fin _) = _
    rw [XR.fin_mul, XR.fin_div _ _ hr.ne', XR.fin_max]
    congr 1
    push_cast
    rw [max_eq_left]
    rw [le_div_iff₀ hr]; linarith
  unfold occupyCircleRun at hrun
  rw [hstep] at hrun
  have hd := circleLoop_drawn cx cy radius _ hs0 6286 0 g g' hg hrun
  set s := 2 / 5 * res / radius with hs
  have hrs : radius * s = 2 / 5 * res := by rw [hs]; field_simp
  have f1 : (⌊φ / s⌋₊ : ℝ) * s ≤ φ := by
    have := Nat.floor_le (show 0 ≤ φ / s by positivity)
    rwa [le_div_iff₀ hs0] at this
  have f2 : φ < (⌊φ / s⌋₊ : ℝ) * s + s := by
    have := Nat.lt_floor_add_one (φ / s)
    rw [div_lt_iff₀ hs0] at this; linarith
  have hab : |φ - ⌊φ / s⌋₊ * s| ≤ s := by rw [abs_le]; constructor <;> linarith
  have hx : |cx + radius * Real.cos φ - (cx + radius * Real.cos (⌊φ / s⌋₊ * s))| ≤ 2 / 5 * res := by
    rw [show cx + radius * Real.cos φ - (cx + radius * Real.cos (⌊φ / s⌋₊ * s)) =
      radius * (Real.cos φ - Real.cos (⌊φ / s⌋₊ * s)) by ring, abs_mul, abs_of_pos hr, ← hrs]
    exact mul_le_mul_of_nonneg_left ((Real.abs_cos_sub_cos_le _ _).trans hab) hr.le
  have hy : |cy + radius * Real.sin φ - (cy + radius * Real.sin (⌊φ / s⌋₊ * s))| ≤ 2 / 5 * res := by
    rw [show cy + radius * Real.sin φ - (cy + radius * Real.sin (⌊φ / s⌋₊ * s)) =
      radius * (Real.sin φ - Real.sin (⌊φ / s⌋₊ * s)) by ring, abs_mul, abs_of_pos hr, ← hrs]
    exact mul_le_mul_of_nonneg_left ((Real.abs_sin_sub_sin_le _ _).trans hab) hr.le
  refine ⟨⌊φ / s⌋₊ * s, hx, hy, fun r c hc => ⟨?_, fun r' c' hc' => ?_⟩⟩
  · refine (hd.2.2.2.2.2.2 r c).2 (Or.inr ⟨_, _, ⟨⌊φ / s⌋₊, ?_, ?_, ?_⟩, hc⟩)
    · linarith
    · simp
    · simp
  · obtain ⟨-, -, a1, a2⟩ := (cellOf_iff hm _ _ _ _).1 hc
    obtain ⟨-, -, b1, b2⟩ := (cellOf_iff hm _ _ _ _).1 hc'
    obtain ⟨c1, c2⟩ := halfOpen_near hp b1 a1 (by linarith)
    obtain ⟨d1, d2⟩ := halfOpen_near hp b2 a2 (by linarith)
    exact ⟨d2, d1, c2, c1⟩

theorem rim_points_miss {m : OccupancyMap XR} (hm : FiniteMap m 9990 (5 / 2) 1) (hr : m.rows = 5) (k : ℕ)
    (hk : (k : ℝ) / 1000 < 2 * Real.pi) :
    m.cellOf (.fin (0 + 10000 * Real.cos (k / 1000))) (.fin (0 + 10000 * Real.sin (k / 1000))) = none := by
  refine (cellOf_total hm _ _).2 ?_
  rintro ⟨h1, -, h3, h4⟩
  rw [hr] at h4
  norm_num at h1 h3 h4
  have hpi := Real.pi_gt_d2
  rcases Nat.eq_zero_or_pos k with rfl | hk0
  · norm_num at h3
  have hk1 : (1 : ℝ) / 1000 ≤ (k : ℝ) / 1000 := by
    have : (1 : ℝ) ≤ k := by exact_mod_cast hk0
    linarith
  set a := (k : ℝ) / 1000 with ha
  rcases le_or_gt a (Real.pi / 2) with h | h
  · have hmono : Real.sin (1 / 1000) ≤ Real.sin a :=
      Real.sin_le_sin_of_le_of_le_pi_div_two (by linarith) h hk1
    have hs : (1 : ℝ) / 1000 - (1 / 1000) ^ 3 / 6 < Real.sin (1 / 1000) :=
      Real.sin_gt_sub_cube (by norm_num)
    norm_num at hs
    linarith
  · rcases le_or_gt a (Real.pi + Real.pi / 2) with h' | h'
    · have := Real.cos_nonpos_of_pi_div_two_le_of_le h.le h'
      linarith
    · have : Real.sin a < 0 := by
        have h5 : Real.sin (a - 2 * Real.pi) = Real.sin a := Real.sin_sub_two_pi a
        rw [← h5]
        exact Real.sin_neg_of_neg_of_neg_pi_lt (by linarith) (by linarith)
      linarith

/-- C64 (finding). `occupy_circle` says the rim is walked in steps small enough to leave no gap, but its
smallest step is a thousandth of a radian: beyond a radius of 400 cells consecutive rim points are further
apart than that. Here a rim of radius 10000 crosses a map of 5 by 12 unit cells, not one cell of it is
blocked, and a beam fired at the rim from inside goes through. -/
theorem circle_gap :
    ∃ (g g' : DynamicOccupancyGrid XR) (x y : ℝ), g.WellSized ∧ g.columns = 12 ∧ g.rows = 5 ∧
      tryNew 12 5 (.fin 1) (.fin 9990) (.fin (5 / 2)) = .ok g ∧
      g.occupyCircleRun (.fin 0) (.fin 0) (.fin 10000) 6286 = some g' ∧
      x ^ 2 + y ^ 2 = 10000 ^ 2 ∧ g.toMap.cellOf (.fin x) (.fin y) = some (2, 9) ∧
      (∀ row column, g'.isOccupied row column = false) ∧
      g'.toMap.castRay (.fin 9990) (.fin 5) (.fin 0) .pinf = none := by
  have hnew := (tryNew_spec 12 5 (XR.fin 1) (.fin 9990) (.fin (5 / 2))).2.2.2 (by decide) (by decide) (by decide)
    rfl rfl rfl
  obtain ⟨g, hg, hw, h1, h2, h3, h4, h5, h6⟩ := hnew.2 (by simp)
  have hm : FiniteMap g.toMap 9990 (5 / 2) 1 :=
    ⟨h3, h4, h5, one_pos, by show g.columns ≤ _; rw [h1]; decide, by show g.rows ≤ _; rw [h2]; decide⟩
  have hstep : g.circleStep (XR.fin 10000) = .fin (1 / 1000) := by
    unfold circleStep
    rw [h3]
    show max (XR.fin _ * XR.fin 1 / XR.fin 10000) (XR.fin _) = _
    rw [XR.fin_mul, XR.fin_div _ _ (by norm_num), XR.fin_max]
    norm_num
  have hpi : ((2 : ℕ) : XR) * Fns.pi = .fin (2 * Real.pi) := by
    show XR.fin _ * XR.fin _ = _
    rw [XR.fin_mul]; norm_num
  have hloop : ∀ (n k : ℕ) (g' : DynamicOccupancyGrid XR),
      circleLoop (.fin 0) (.fin 0) (.fin 10000) (.fin (1 / 1000)) n (.fin (k / 1000)) g = some g' → g' = g := by
    intro n
    induction n with
    | zero => intro k g' h; simp [circleLoop] at h
    | succ n ih =>
      intro k g' h
      rw [circleLoop, hpi] at h
      split_ifs at h with hc
      · have hp : g.occupyPoint (XR.fin 0 + XR.fin 10000 * Fns.cos (XR.fin (k / 1000)))
            (XR.fin 0 + XR.fin 10000 * Fns.sin (XR.fin (k / 1000))) = g := by
          have := rim_points_miss hm h2 k (by simpa using hc)
          unfold occupyPoint
          have e1 : (XR.fin 0 + XR.fin 10000 * Fns.cos (XR.fin (k / 1000)) : XR) =
            .fin (0 + 10000 * Real.cos (k / 1000)) := rfl
          have e2 : (XR.fin 0 + XR.fin 10000 * Fns.sin (XR.fin (k / 1000)) : XR) =
            .fin (0 + 10000 * Real.sin (k / 1000)) := rfl
          rw [e1, e2, this]
        rw [hp, XR.fin_add] at h
        refine ih (k + 1) g' ?_
        rw [← h]; congr 2; push_cast; ring
      · exact (Option.some.inj h).symm
  obtain ⟨g', hg'⟩ := occupyCircle_terminates g (.fin 0) (.fin 0) (.fin 10000)
  have hgg : g' = g := by
    refine hloop 6286 0 g' ?_
    rw [← hg']; unfold occupyCircleRun; rw [hstep]; congr 1; simp
  have hx0 : (0 : ℝ) ≤ 10000 ^ 2 - 5 ^ 2 := by norm_num
  refine ⟨g, g', Real.sqrt (10000 ^ 2 - 5 ^ 2), 5, hw, h1, h2, hg, hg', ?_, ?_, ?_, ?_⟩
  · rw [Real.sq_sqrt hx0]; ring
  · have l1 : (9999 : ℝ) ≤ Real.sqrt (10000 ^ 2 - 5 ^ 2) := Real.le_sqrt_of_sq_le (by norm_num)
    have l2 : Real.sqrt (10000 ^ 2 - 5 ^ 2) < 10000 := by
      rw [Real.sqrt_lt' (by norm_num)]; norm_num
    refine (cellOf_iff hm _ _ _ _).2 ⟨?_, ?_, ⟨?_, ?_⟩, ?_, ?_⟩
    · show 2 < g.rows; omega
    · show 9 < g.columns; omega
    all_goals norm_num
    · norm_num at l1; linarith
    · norm_num at l2; linarith
  · rw [hgg]; exact h6
  · rw [hgg]
    cases hc : g.toMap.castRay (.fin 9990) (.fin 5) (.fin 0) .pinf with
    | none => rfl
    | some d =>
      obtain ⟨t, -, -, -, ⟨i, j, -, -, hocc, -⟩, -⟩ := (castRay_first hm 9990 5 0 .pinf).1 d hc
      have : g.isOccupied i j = true := hocc
      rw [h6] at this; cases this

/-- A grid as above exists: `try_new` builds one, and the lookups are not vacuous on it. -/
example : ∃ g : DynamicOccupancyGrid XR, tryNew 4 3 (.fin (1 / 2)) (.fin (-1)) (.fin 0) = .ok g ∧ g.WellSized ∧
    FiniteMap g.toMap (-1) 0 (1 / 2) ∧ g.toMap.cellOf (.fin (-1 / 2)) (.fin 0) = some (0, 1) ∧
    (g.occupyPoint (.fin (-1 / 2)) (.fin 0)).isOccupied 0 1 = true := by
  obtain ⟨g, hg, hw, h1, h2, h3, h4, h5, -⟩ := ((tryNew_spec 4 3 (XR.fin (1 / 2)) (.fin (-1)) (.fin 0)).2.2.2
    (by decide) (by decide) (by decide) rfl rfl rfl).2 (by simp)
  have hm : FiniteMap g.toMap (-1) 0 (1 / 2) :=
    ⟨h3, h4, h5, by norm_num, by show g.columns ≤ _; rw [h1]; decide, by show g.rows ≤ _; rw [h2]; decide⟩
  have hc : g.toMap.cellOf (.fin (-1 / 2)) (.fin 0) = some (0, 1) := by
    refine (cellOf_iff hm _ _ _ _).2 ⟨by show 0 < g.rows; omega, by show 1 < g.columns; omega, ⟨?_, ?_⟩, ?_, ?_⟩ <;>
      norm_num
  exact ⟨g, hg, hw, hm, hc, ((occupyPoint_spec g hw _ _).2.2.2.2.2.2 0 1).2 (Or.inr ⟨_, _, ⟨rfl, rfl⟩, hc⟩)⟩

end DynamicOccupancyGrid
end Multicalc
