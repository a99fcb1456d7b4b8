import Verif.Model.Scalar

/-!
# The random number generator

Models `crates/multicalc/src/random.rs`.  Machine words are `BitVec`, so wrap-around is exact.
-/

namespace Multicalc

/-- `PCG_MULTIPLIER`, `random.rs:144`. -/
def pcgMultiplier : BitVec 64 := 6364136223846793005#64

/-- `DEFAULT_STREAM`, `random.rs:149`. -/
def defaultStream : BitVec 64 := 0xda3e39cb94b95bdb#64

/-- `struct Pcg32`, `random.rs:86-90`. -/
structure Pcg32 (T : Type) where
  state : BitVec 64
  increment : BitVec 64
  cache : Option T

namespace Pcg32
variable {T : Type}

/-- The output permutation, `random.rs:127-129`. -/
def output (previous : BitVec 64) : BitVec 32 :=
  let xorshifted : BitVec 32 := (((previous >>> 18) ^^^ previous) >>> 27).setWidth 32
  let rotation : Nat := ((previous >>> 59).setWidth 32).toNat
  xorshifted.rotateRight rotation

/-- `Pcg32::next_u32`, `random.rs:116-130`. -/
def nextU32 (g : Pcg32 T) : BitVec 32 × Pcg32 T :=
  let previous := g.state
  (output previous, { g with state := previous * pcgMultiplier + g.increment })

/-- `Pcg32::with_stream`, `random.rs:102-112`. -/
def withStream (seed stream : BitVec 64) : Pcg32 T :=
  let g : Pcg32 T := { state := 0, increment := (stream <<< 1) ||| 1, cache := none }
  let g := g.nextU32.2
  let g := { g with state := g.state + seed }
  g.nextU32.2

/-- `Pcg32::new`, `random.rs:95-97`. -/
def new (seed : BitVec 64) : Pcg32 T := withStream seed defaultStream

/-- `RandomSource::next_u64`, `random.rs:21-23`. -/
def nextU64 (g : Pcg32 T) : BitVec 64 × Pcg32 T :=
  let (hi, g) := g.nextU32
  let (lo, g) := g.nextU32
  ((hi.setWidth 64 <<< 32) ||| lo.setWidth 64, g)

/-- The word-to-float conversion of `next_unit` for `f64`, `random.rs:69`.
The integer is below `2^53` and the factor is a power of two, so the float result is exact and is
given here as a rational. -/
def unit64OfWord (w : BitVec 64) : ℚ := ((w >>> 11).toNat : ℚ) * (1 / 2 ^ 53)

/-- The word-to-float conversion of `next_unit` for `f32`, `random.rs:77`; exact as above. -/
def unit32OfWord (w : BitVec 32) : ℚ := ((w >>> 8).toNat : ℚ) * (1 / 2 ^ 24)

/-- `next_unit` for `f64`, `random.rs:67-70`. -/
def nextUnit64 (g : Pcg32 T) : ℚ × Pcg32 T :=
  let (w, g) := g.nextU64
  (unit64OfWord w, g)

/-- `next_unit` for `f32`, `random.rs:76-78`. -/
def nextUnit32 (g : Pcg32 T) : ℚ × Pcg32 T :=
  let (w, g) := g.nextU32
  (unit32OfWord w, g)

variable [Zero T] [One T] [NatCast T] [Add T] [Sub T] [Mul T] [Div T] [Neg T] [LT T]
  [DecidableLT T] [Fns T]

/-- The rejection loop of `standard_normal`, `random.rs:40-50`, on the 64-bit uniform draw.
The loop in the code is unbounded; here it has fuel and `none` means every trial was rejected. -/
def normalLoop : Nat → Pcg32 T → Option (T × Pcg32 T)
  | 0, _ => none
  | fuel + 1, g =>
    let (u, g) := g.nextUnit64
    let (v, g) := g.nextUnit64
    let x : T := 2 * Fns.lit u - 1
    let y : T := 2 * Fns.lit v - 1
    let radiusSquared := powi x 2 + powi y 2
    if 0 < radiusSquared ∧ radiusSquared < 1 then
      let scale := Fns.sqrt (-2 * Fns.log radiusSquared / radiusSquared)
      some (x * scale, { g with cache := some (y * scale) })
    else normalLoop fuel g

/-- `RandomSource::standard_normal`, `random.rs:35-51`; `get_cache` takes the cache,
`random.rs:136-138`. -/
def standardNormal (fuel : Nat) (g : Pcg32 T) : Option (T × Pcg32 T) :=
  match g.cache with
  | some c => some (c, { g with cache := none })
  | none => normalLoop fuel g

end Pcg32
end Multicalc
