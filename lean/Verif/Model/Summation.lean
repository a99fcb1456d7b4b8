import Mathlib.Data.Nat.Size
import Verif.Model.Scalar

/-!
# Running sums

Models `crates/multicalc/src/utils/summation.rs`.
-/

namespace Multicalc

/-- `BLOCK`, `summation.rs:18`. -/
def sumBlock : ℕ := 128

/-- `LEVELS`, `summation.rs:19`. -/
def sumLevels : ℕ := 32

/-- `struct PairwiseSum`, `summation.rs:24-29`.  The array of `LEVELS` slots is a function on the
slot number; only slots below `LEVELS` are ever read or written. -/
structure PairwiseSum (T : Type) where
  tree : ℕ → T
  occupied : BitVec 64
  blockSum : T
  blockCount : ℕ

namespace PairwiseSum
variable {T : Type} [Zero T] [Add T]

/-- `PairwiseSum::new`, `summation.rs:34-41`. -/
def new : PairwiseSum T := ⟨fun _ => 0, 0, 0, 0⟩

/-- The carry loop of `push`, `summation.rs:60-64`, from a given level; returns the value, the
occupancy word and the level reached. -/
def carry (tree : ℕ → T) (occupied : BitVec 64) (value : T) (level : ℕ) : T × BitVec 64 × ℕ :=
  if h : level < sumLevels ∧ (occupied &&& (1#64 <<< level)) ≠ 0 then
    carry tree (occupied &&& ~~~(1#64 <<< level)) (tree level + value) (level + 1)
  else (value, occupied, level)
termination_by sumLevels - level
decreasing_by omega

/-- `PairwiseSum::push`, `summation.rs:57-71`. -/
def push (s : PairwiseSum T) (value : T) : PairwiseSum T :=
  let r := carry s.tree s.occupied value 0
  let level := if r.2.2 = sumLevels then sumLevels - 1 else r.2.2
  { s with
    tree := Function.update s.tree level r.1
    occupied := r.2.1 ||| (1#64 <<< level) }

/-- `PairwiseSum::add`, `summation.rs:44-54`. -/
def add (s : PairwiseSum T) (value : T) : PairwiseSum T :=
  let s := { s with blockSum := s.blockSum + value, blockCount := s.blockCount + 1 }
  if s.blockCount = sumBlock then
    { s.push s.blockSum with blockSum := 0, blockCount := 0 }
  else s

/-- `PairwiseSum::total`, `summation.rs:75-88`; `64 - leading_zeros` is the bit length. -/
def total (s : PairwiseSum T) : T :=
  (List.range s.occupied.toNat.size).foldl
    (fun sum level => if (s.occupied &&& (1#64 <<< level)) ≠ 0 then sum + s.tree level else sum)
    s.blockSum

end PairwiseSum

/-- `struct KahanSum`, `summation.rs:108-111`. -/
structure KahanSum (T : Type) where
  sum : T
  compensation : T

namespace KahanSum
variable {T : Type} [Zero T] [Add T] [Sub T]

/-- `KahanSum::new`, `summation.rs:116-121`. -/
def new : KahanSum T := ⟨0, 0⟩

/-- `KahanSum::add`, `summation.rs:124-129`. -/
def add (s : KahanSum T) (value : T) : KahanSum T :=
  let y := value - s.compensation
  let next := s.sum + y
  { compensation := (next - s.sum) - y, sum := next }

/-- `KahanSum::total`, `summation.rs:133-135`. -/
def total (s : KahanSum T) : T := s.sum

end KahanSum

/-- `enum SummationMethod`, `summation.rs:96-102`. -/
inductive SummationMethod | pairwise | kahan
deriving DecidableEq

/-- `Acc::new`, `Acc::add` for each term, `Acc::total`, `summation.rs:143-169`: the sum of a series
with the chosen accumulator. -/
def accSum {T : Type} [Zero T] [Add T] [Sub T] (m : SummationMethod) (terms : List T) : T :=
  match m with
  | .pairwise => (terms.foldl PairwiseSum.add PairwiseSum.new).total
  | .kahan => (terms.foldl KahanSum.add KahanSum.new).total

end Multicalc
