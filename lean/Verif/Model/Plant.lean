import Verif.Model.Spatial

/-!
# Plant models: rotor lag and multirotor mixing

`crates/multicalc/src/plant`.
-/

namespace Multicalc

/-- `PlantError` (`error.rs:261-279`). -/
inductive PlantError where
  | nonFinite | nonPositiveArmLength | nonPositiveTorqueRatio | invalidThrustLimits
  | rotorLayoutNotIndependent | nonPositiveTimeConstant | nonPositiveTimestep
  | linalg (e : LinalgError)
  deriving DecidableEq, Repr

/-- `RotorLag` (`plant/rotor_lag.rs:62-68`). -/
structure RotorLag (n : ℕ) (T : Type) where
  timeConstant : T
  timestep : T
  carriedOver : T
  caughtUp : T
  thrusts : Fin n → T

/-- `RotorSpin` (`plant/multirotor_mixing.rs:14-19`). -/
inductive RotorSpin where
  | clockwise | counterClockwise

/-- `RotorCommands` (`plant/multirotor_mixing.rs:24-27`). -/
structure RotorCommands (n : ℕ) (T : Type) where
  thrusts : Fin n → T
  saturated : Bool

/-- `MultirotorMixer` (`plant/multirotor_mixing.rs:107-112`). -/
structure MultirotorMixer (n : ℕ) (T : Type) where
  allocation : Matrix (Fin 4) (Fin n) T
  distribution : Matrix (Fin n) (Fin 4) T
  minimumThrust : T
  maximumThrust : T

section
variable {T : Type} [Zero T] [One T] [NatCast T] [Add T] [Sub T] [Mul T] [Div T] [Neg T] [LT T]
  [DecidableLT T] [LE T] [DecidableLE T] [Fns T] {n : ℕ}

/-- `RotorLag::new` (`plant/rotor_lag.rs:84-103`). -/
def RotorLag.new (timeConstant timestep : T) : Except PlantError (RotorLag n T) :=
  if !Fns.isFinite timeConstant || !Fns.isFinite timestep then .error .nonFinite
  else if timeConstant ≤ 0 then .error .nonPositiveTimeConstant
  else if timestep ≤ 0 then .error .nonPositiveTimestep
  else
    let ticksOfLag := -timestep / timeConstant
    .ok ⟨timeConstant, timestep, Fns.exp ticksOfLag, -Fns.expm1 ticksOfLag, fun _ => 0⟩

/-- `RotorLag::with_thrusts` (`plant/rotor_lag.rs:110-113`). -/
def RotorLag.withThrusts (r : RotorLag n T) (thrusts : Fin n → T) : RotorLag n T :=
  { r with thrusts }

/-- `RotorLag::stepped` (`plant/rotor_lag.rs:122-128`): the thrusts returned are those of the new
state. -/
def RotorLag.stepped (r : RotorLag n T) (commanded : Fin n → T) : RotorLag n T :=
  { r with thrusts := fun rotor => r.carriedOver * r.thrusts rotor + r.caughtUp * commanded rotor }

/-- `RotorLag::stepped_over` (`plant/rotor_lag.rs:138-151`). -/
def RotorLag.steppedOver (r : RotorLag n T) (commanded : Fin n → T) (timestep : T) : RotorLag n T :=
  let ticksOfLag := -timestep / r.timeConstant
  let carriedOver := Fns.exp ticksOfLag
  let caughtUp := -Fns.expm1 ticksOfLag
  { r with thrusts := fun rotor => carriedOver * r.thrusts rotor + caughtUp * commanded rotor }

/-- `RotorLag::rate` (`plant/rotor_lag.rs:157-159`). -/
def RotorLag.rate (r : RotorLag n T) (commanded : Fin n → T) : Fin n → T := fun rotor =>
  (commanded rotor - r.thrusts rotor) / r.timeConstant

/-- `RotorLag::reset` (`plant/rotor_lag.rs:184-186`). -/
def RotorLag.reset (r : RotorLag n T) : RotorLag n T := { r with thrusts := fun _ => 0 }

/-- The allocation matrix (`plant/multirotor_mixing.rs:150-161`). -/
def mixerAllocation (positions : Fin n → Fin 3 → T) (spins : Fin n → RotorSpin)
    (torquePerThrust : T) : Matrix (Fin 4) (Fin n) T := fun row rotor =>
  if row = 0 then 1
  else if row = 1 then positions rotor 1
  else if row = 2 then -positions rotor 0
  else match spins rotor with
    | .clockwise => torquePerThrust
    | .counterClockwise => -torquePerThrust

/-- `MultirotorMixer::new` (`plant/multirotor_mixing.rs:128-184`).  `Matrix::pseudo_inverse`
(`linear_algebra/svd.rs:211-217`) is a parameter. -/
def MultirotorMixer.new
    (pseudoInverse : Matrix (Fin 4) (Fin n) T → Except LinalgError (Matrix (Fin n) (Fin 4) T))
    (positions : Fin n → Fin 3 → T) (spins : Fin n → RotorSpin)
    (torquePerThrust minimumThrust maximumThrust : T) : Except PlantError (MultirotorMixer n T) :=
  if !Fns.isFinite torquePerThrust || !Fns.isFinite minimumThrust || !Fns.isFinite maximumThrust
      || (List.finRange n).any (fun i => !vecIsFinite (positions i)) then .error .nonFinite
  else if torquePerThrust ≤ 0 then .error .nonPositiveTorqueRatio
  else if maximumThrust ≤ minimumThrust then .error .invalidThrustLimits
  else
    let allocation := mixerAllocation positions spins torquePerThrust
    match pseudoInverse allocation with
    | .error e => .error (.linalg e)
    | .ok distribution =>
      let roundTrip := mmul allocation distribution
      let bar : T := Fns.lit (1 / 10000)
      if (List.finRange 4).any fun row => (List.finRange 4).any fun col =>
          let wanted : T := if row = col then 1 else 0
          decide (bar < Fns.abs (roundTrip row col - wanted))
      then .error .rotorLayoutNotIndependent
      else .ok ⟨allocation, distribution, minimumThrust, maximumThrust⟩

/-- `MultirotorMixer::rotor_thrusts` (`plant/multirotor_mixing.rs:215-237`); the flag that the closure
sets is the disjunction over the rotors. -/
def MultirotorMixer.rotorThrusts (m : MultirotorMixer n T) (collective : T) (torque : Fin 3 → T) :
    RotorCommands n T :=
  let share := mmulVec m.distribution ![collective, torque 0, torque 1, torque 2]
  ⟨fun rotor =>
    if share rotor < m.minimumThrust then m.minimumThrust
    else if m.maximumThrust < share rotor then m.maximumThrust
    else share rotor,
   (List.finRange n).any fun rotor =>
    decide (share rotor < m.minimumThrust) || decide (m.maximumThrust < share rotor)⟩

/-- `MultirotorMixer::wrench` (`plant/multirotor_mixing.rs:245-251`). -/
def MultirotorMixer.wrench (m : MultirotorMixer n T) (thrusts : Fin n → T) : Wrench T :=
  let produced := mmulVec m.allocation thrusts
  ⟨![0, 0, produced 0], ![produced 1, produced 2, produced 3]⟩

/-- The positions of `quadrotor_x` (`plant/multirotor_mixing.rs:276-282`). -/
def quadrotorPositions (armLength : T) : Fin 4 → Fin 3 → T :=
  let h := armLength / Fns.sqrt ((2 : ℕ) : T)
  ![![h, -h, 0], ![-h, h, 0], ![h, h, 0], ![-h, -h, 0]]

/-- The spins of `quadrotor_x` (`plant/multirotor_mixing.rs:283-288`). -/
def quadrotorSpins : Fin 4 → RotorSpin :=
  ![.clockwise, .clockwise, .counterClockwise, .counterClockwise]

/-- `MultirotorMixer::quadrotor_x` (`plant/multirotor_mixing.rs:264-296`). -/
def MultirotorMixer.quadrotorX
    (pseudoInverse : Matrix (Fin 4) (Fin 4) T → Except LinalgError (Matrix (Fin 4) (Fin 4) T))
    (armLength torquePerThrust minimumThrust maximumThrust : T) :
    Except PlantError (MultirotorMixer 4 T) :=
  if !Fns.isFinite armLength then .error .nonFinite
  else if armLength ≤ 0 then .error .nonPositiveArmLength
  else MultirotorMixer.new pseudoInverse (quadrotorPositions armLength) quadrotorSpins torquePerThrust
    minimumThrust maximumThrust

end

end Multicalc
