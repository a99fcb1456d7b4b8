import Verif.Model.SavitzkyGolay
import Verif.Model.Svd

/-!
# The solver behind the Savitzky–Golay filter
-/

namespace Multicalc
variable {T : Type} {W P : ℕ}

/-- `fit.pseudo_inverse()?` in `SavitzkyGolay::build`, `savitzky_golay.rs:171`, with the conversion
`From<LinalgError> for SignalError`, `error.rs`; the error carried inside is not kept. -/
def sgPseudoInverse [Zero T] [One T] [NatCast T] [Add T] [Sub T] [Mul T] [Div T] [Neg T] [LT T]
    [DecidableLT T] [LE T] [DecidableLE T] [BEq T] [Fns T] (fit : Fin W → Fin P → T) :
    Except SignalError (Fin P → Fin W → T) :=
  match pseudoInverse fit with
  | .error _ => .error .linalg
  | .ok inverse => .ok inverse

/-- `SavitzkyGolay::reset`, `savitzky_golay.rs:114-118`. -/
def SavitzkyGolay.reset [Zero T] (f : SavitzkyGolay W T) : SavitzkyGolay W T :=
  { f with ring := Ring.empty W }

end Multicalc
