import Verif.Model.FilterBank
import Verif.Props.BiquadResponse

/-!
C124: changing running filters, and running one shape over every component of a vector.
-/

namespace Multicalc

variable {T : Type}

/-- C124. `set_section` is refused exactly when the cascade has no such section, and then changes
nothing.  Otherwise that section alone gets the new weights; every section keeps its memory, so the
reported value does not move. -/
theorem set_section_spec [Zero T] (fs : List (Biquad T)) (index : ℕ) (c : BiquadCoefficients T) :
    (fs.length ≤ index → cascadeSetSection fs index c = (.error .sectionIndexOutOfRange, fs)) ∧
    (index < fs.length → (cascadeSetSection fs index c).1 = .ok () ∧
      (cascadeSetSection fs index c).2.length = fs.length ∧
      (∀ f, fs[index]? = some f → (cascadeSetSection fs index c).2[index]? =
        some ⟨c, f.firstState, f.secondState, f.lastOutput⟩) ∧
      (∀ k, k ≠ index → (cascadeSetSection fs index c).2[k]? = fs[k]?) ∧
      cascadeValue (cascadeSetSection fs index c).2 = cascadeValue fs) := by
  refine ⟨fun h => if_pos h, fun h => ?_⟩
  have e : cascadeSetSection fs index c =
      (.ok (), fs.modify index fun f => f.setCoefficients c) := if_neg (not_le.mpr h)
  rw [e]
  refine ⟨rfl, by simp, fun f hf => ?_, fun k hk => ?_, ?_⟩
  · simp [List.getElem?_modify, hf, Biquad.setCoefficients]
  · simp [List.getElem?_modify, Ne.symm hk]
  · unfold cascadeValue
    rw [List.getLast?_eq_getElem?, List.getLast?_eq_getElem?, List.length_modify, List.getElem?_modify]
    cases fs[fs.length - 1]? with
    | none => rfl
    | some f => by_cases hk : index = fs.length - 1 <;> simp [hk, Biquad.setCoefficients]

/-- A cascade of two sections, its second retuned. -/
example (c d e : BiquadCoefficients T) [Zero T] :
    cascadeSetSection (cascadeNew [c, d]) 1 e = (.ok (), [Biquad.new c, Biquad.new e]) := rfl

/-- C124. `reset` puts a cascade back where a new one with the same weights starts: the two are the
same filter, whatever was fed before, so every later output agrees, and the reported value is zero. -/
theorem cascade_reset_fresh [Zero T] (fs : List (Biquad T)) :
    cascadeReset fs = cascadeNew (fs.map fun f => f.coefficients) ∧
    (cascadeReset fs).length = fs.length ∧
    cascadeValue (cascadeReset fs) = 0 := by
  refine ⟨by simp [cascadeReset, cascadeNew, Biquad.reset, Biquad.new], by simp [cascadeReset], ?_⟩
  unfold cascadeValue cascadeReset
  rw [List.getLast?_map]
  cases fs.getLast? <;> rfl

/-- C124. A run of samples never changes any section's weights, so `reset` after any run rebuilds the
cascade as it was first built. -/
theorem cascade_reset_after_run [Zero T] [Add T] [Sub T] [Mul T] (cs : List (BiquadCoefficients T))
    (xs : List T) :
    cascadeReset (runFilter cascadeFilter (cascadeNew cs) xs).2 = cascadeNew cs := by
  have key : ∀ (fs : List (Biquad T)) (x : T), (cascadeFilter fs x).2.map (fun f => f.coefficients) =
      fs.map fun f => f.coefficients := by
    intro fs
    induction fs with
    | nil => intro x; rfl
    | cons f fs ih => intro x; simp [cascadeFilter, ih, Biquad.filter]
  have run : ∀ (xs : List T) (fs : List (Biquad T)),
      (runFilter cascadeFilter fs xs).2.map (fun f => f.coefficients) =
      fs.map fun f => f.coefficients := by
    intro xs
    induction xs with
    | nil => intro fs; rfl
    | cons x xs ih => intro fs; simp only [runFilter]; rw [ih, key]
  rw [(cascade_reset_fresh _).1, run]
  simp [cascadeNew, Biquad.new]

/-- What may be done to a multi-channel filter. -/
inductive BankCommand (n : ℕ) (T : Type)
  | sample (x : Fin n → T)
  | retune (c : BiquadCoefficients T)
  | settle (v : Fin n → T)
  | reset

section bank
variable [Zero T] [One T] [Add T] [Sub T] [Mul T] [Div T] {n : ℕ}

/-- The multi-channel filter after each command, with the value it then reports. -/
def bankRun : MultiChannelBiquad n T → List (BankCommand n T) → List (Fin n → T)
  | _, [] => []
  | f, .sample x :: rest => (f.filter x).1 :: bankRun (f.filter x).2 rest
  | f, .retune c :: rest => (f.setCoefficients c).value :: bankRun (f.setCoefficients c) rest
  | f, .settle v :: rest => (f.settleTo v).value :: bankRun (f.settleTo v) rest
  | f, .reset :: rest => f.reset.value :: bankRun f.reset rest

/-- One ordinary filter given one component of every command. -/
def lineRun (i : Fin n) : Biquad T → List (BankCommand n T) → List T
  | _, [] => []
  | f, .sample x :: rest => (f.filter (x i)).1 :: lineRun i (f.filter (x i)).2 rest
  | f, .retune c :: rest => f.lastOutput :: lineRun i ⟨c, f.firstState, f.secondState, f.lastOutput⟩ rest
  | f, .settle v :: rest => (f.settleTo (v i)).lastOutput :: lineRun i (f.settleTo (v i)) rest
  | f, .reset :: rest => 0 :: lineRun i (Biquad.new f.coefficients) rest

/-- C124. Whatever is done to a multi-channel filter, in any order and for any length, every channel
reports what a single filter of the same shape would, given that component alone: channels never mix,
retuning keeps each channel's memory, and clearing starts each afresh. -/
theorem multi_channel_independent (c : BiquadCoefficients T) (cmds : List (BankCommand n T)) (i : Fin n) :
    (bankRun (MultiChannelBiquad.new c) cmds).map (fun v => v i) = lineRun i (Biquad.new c) cmds := by
  have key : ∀ (cmds : List (BankCommand n T)) (f : MultiChannelBiquad n T),
      (bankRun f cmds).map (fun v => v i) = lineRun i (f.channels i) cmds := by
    intro cmds
    induction cmds with
    | nil => intro f; rfl
    | cons cmd rest ih =>
      intro f
      cases cmd <;> simp only [bankRun, lineRun, List.map_cons, ih] <;> rfl
  exact key cmds _

/-- C124. The value a multi-channel filter reports is its latest output. -/
theorem multi_channel_value (f : MultiChannelBiquad n T) (x : Fin n → T) :
    (f.filter x).2.value = (f.filter x).1 := rfl

end bank

/-- C124. The first two outputs after a change of weights still use what the old weights made of the
last two samples, and from the third on the new weights' difference equation holds as if the recorded
inputs and outputs had always been its own. -/
theorem retune_transition {K : Type} [Field K] (f : Biquad K) (c : BiquadCoefficients K) (x : ℕ → K) (n : ℕ) :
    let old := f.coefficients
    let g := (biquadAfter f x (n + 2)).setCoefficients c
    let y := biquadOut f x
    let z := biquadOut g fun k => x (n + 2 + k)
    z 0 = c.b0 * x (n + 2) + (old.b1 * x (n + 1) - old.a1 * y (n + 1)) + (old.b2 * x n - old.a2 * y n) ∧
    z 1 = c.b0 * x (n + 3) + (c.b1 * x (n + 2) - c.a1 * z 0) + (old.b2 * x (n + 1) - old.a2 * y (n + 1)) ∧
    ∀ k, z (k + 2) = c.b0 * x (n + 2 + (k + 2)) + c.b1 * x (n + 2 + (k + 1)) + c.b2 * x (n + 2 + k)
      - c.a1 * z (k + 1) - c.a2 * z k := by
  intro old g y z
  have h0 : biquadAfter g (fun k => x (n + 2 + k)) 0 = g := rfl
  have gf : g.firstState = old.b1 * x (n + 1) - old.a1 * y (n + 1) + (old.b2 * x n - old.a2 * y n) := by
    show (biquadAfter f x (n + 2)).firstState = _
    rw [biquadAfter_first, biquadAfter_second]
  have gs : g.secondState = old.b2 * x (n + 1) - old.a2 * y (n + 1) := by
    show (biquadAfter f x (n + 2)).secondState = _
    rw [biquadAfter_second]
  refine ⟨?_, ?_, fun k => biquad_difference g _ k⟩
  · show biquadOut g _ 0 = _
    rw [biquadOut_eq, h0, gf]
    show c.b0 * x (n + 2 + 0) + _ = _
    rw [add_zero]; ring
  · show biquadOut g _ 1 = _
    rw [biquadOut_eq, biquadAfter_first, h0, gs]
    show c.b0 * x (n + 2 + 1) + (c.b1 * x (n + 2 + 0) - c.a1 * z 0 + _) = _
    rw [add_zero]; ring

/-- C124. Retuning a filter that has settled on a steady input moves its next output by the input times
the change in the leading weight, whatever else the new weights are. -/
theorem retune_disturbance {K : Type} [Field K] (f : Biquad K) (c : BiquadCoefficients K) (v : K)
    (hg : 1 + f.coefficients.a1 + f.coefficients.a2 ≠ 0) :
    (((f.settleTo v).setCoefficients c).filter v).1 - (f.settleTo v).lastOutput =
      (c.b0 - f.coefficients.b0) * v := by
  have h := biquad_settle f v hg 0
  have e : biquadOut (f.settleTo v) (fun _ => v) 0 =
      f.coefficients.b0 * v + (f.settleTo v).firstState := biquadOut_eq _ _ 0
  have e' : (((f.settleTo v).setCoefficients c).filter v).1 = c.b0 * v + (f.settleTo v).firstState := rfl
  simp only at h
  rw [h.2, e', ← h.1, e]; ring

/-- A settled filter whose next output after a retune is off by exactly a quarter of the input. -/
example : (((Biquad.new (⟨1/2, 1/2, 0, 0, 0, 1⟩ : BiquadCoefficients ℚ)).settleTo 4).setCoefficients
    ⟨3/4, 1/4, 0, 0, 0, 1⟩ |>.filter 4).1 = 5 := by
  norm_num [Biquad.new, Biquad.settleTo, Biquad.setCoefficients, Biquad.filter]

/-- C124. However a filter was retuned and fed before, once its weights are stable and stay put its
output approaches that of a filter that ran with them from rest. -/
theorem retune_forgets (f : Biquad ℝ) (c : BiquadCoefficients ℝ) (hs : c.isStable = true) (x : ℕ → ℝ) :
    Filter.Tendsto (fun n => biquadOut (f.setCoefficients c) x n - biquadOut (Biquad.new c) x n)
      Filter.atTop (nhds 0) := by
  have hc : (Biquad.new c).coefficients = (f.setCoefficients c).coefficients := by
    simp only [Biquad.new, Biquad.setCoefficients]
  have hs' : (f.setCoefficients c).coefficients.isStable = true := by
    simpa only [Biquad.setCoefficients] using hs
  exact biquad_forgets_state (f.setCoefficients c) (Biquad.new c) hc hs' x

/-- Stable weights exist. -/
example : (⟨1, 0, 0, -1/2, 1/4, 1⟩ : BiquadCoefficients ℝ).isStable = true := by
  rw [isStable_iff_cond]; norm_num [abs_lt]

end Multicalc
