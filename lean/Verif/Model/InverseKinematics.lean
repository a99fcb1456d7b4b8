import Verif.Model.KinematicTree
import Verif.Model.Attitude
import Verif.Model.Svd

/-!
# Inverse kinematics

`crates/multicalc/src/kinematics/{kinematic_jacobian,inverse_kinematics,multi_start_inverse_kinematics}.rs`.

A `Vector::get` outside its range gives `none` (`KinematicTree.reading`); a `get_mut` outside its range
writes nothing (`writeAt`).
-/

namespace Multicalc

open KinematicTree

variable {maxJoints maxConfig : ℕ} {T : Type}

/-- Writing one slot of a vector, nothing if it is outside. -/
def writeAt (c : Fin maxConfig → T) (k : ℕ) (v : T) : Fin maxConfig → T := fun i => if i.val = k then v else c i

variable [Zero T] [One T] [NatCast T] [Add T] [Sub T] [Mul T] [Div T] [Neg T] [LT T]
  [DecidableLT T] [LE T] [DecidableLE T] [BEq T] [Max T] [Min T] [Fns T]

/-! ### Least squares on the Jacobian -/

/-- The weight test (`kinematic_jacobian.rs:191-198`, `inverse_kinematics.rs:263-271`). -/
def weightsOk (columns : ℕ) (jointWeights : Fin maxConfig → T) : Bool :=
  (List.range columns).all fun index =>
    match reading jointWeights index with
    | none => false
    | some weight => !decide (weight ≤ 0)

/-- `weighted_transpose` (`kinematic_jacobian.rs:187-210`). -/
def KinematicJacobian.weightedTranspose (J : KinematicJacobian maxConfig T) (jointWeights : Fin maxConfig → T) :
    Except KinematicsError (Matrix (Fin maxConfig) (Fin 6) T) :=
  if weightsOk J.columns jointWeights = false then .error .nonPositiveWeight
  else .ok fun index row => if J.columns ≤ index.val then 0 else J.entries row index / jointWeights index

/-- `smallest_singular_value` (`kinematic_jacobian.rs:239-247`). -/
def KinematicJacobian.smallestSingularValue (J : KinematicJacobian maxConfig T) : Except KinematicsError T :=
  match svd (mmul J.entries (mtranspose J.entries)) with
  | .error e => .error (.linalg e)
  | .ok d => .ok (Fns.sqrt (max (d.singularValues 5) 0))

/-- `SingularityKind` (`kinematic_jacobian.rs:31-40`). -/
inductive SingularityKind where
  | none | positional | rotational | mixed
  deriving DecidableEq, Repr

/-- `classify_singularity` (`kinematic_jacobian.rs:285-326`). -/
def KinematicJacobian.classifySingularity (J : KinematicJacobian maxConfig T) (threshold : T) :
    Except KinematicsError SingularityKind :=
  match svd (mmul J.entries (mtranspose J.entries)) with
  | .error e => .error (.linalg e)
  | .ok d =>
    let smallest := Fns.sqrt (max (d.singularValues 5) 0)
    if threshold ≤ smallest then .ok .none
    else
      let linearSquared := ([0, 1, 2] : List (Fin 6)).foldl (fun acc row => acc + d.right row 5 * d.right row 5) 0
      let angularSquared := ([3, 4, 5] : List (Fin 6)).foldl (fun acc row => acc + d.right row 5 * d.right row 5) 0
      let twoThirds : T := Fns.lit (2 / 3)
      let total := linearSquared + angularSquared
      .ok (if total ≤ 0 then .mixed
        else if twoThirds * total < linearSquared then .positional
        else if twoThirds * total < angularSquared then .rotational
        else .mixed)

/-- `damped_pseudo_inverse` (`kinematic_jacobian.rs:360-369`). -/
def KinematicJacobian.dampedPseudoInverse (J : KinematicJacobian maxConfig T) (jointWeights : Fin maxConfig → T)
    (damping : T) : Except KinematicsError (Matrix (Fin maxConfig) (Fin 6) T) :=
  match J.weightedTranspose jointWeights with
  | .error e => .error e
  | .ok weighted =>
    let damped := madd (mmul J.entries weighted) (mscale (midentity 6) (damping * damping))
    match svd damped with
    | .error e => .error (.linalg e)
    | .ok d => .ok (mmul weighted d.pseudoInverse)

/-- `null_space_projector` (`kinematic_jacobian.rs:415-423`). -/
def KinematicJacobian.nullSpaceProjector (J : KinematicJacobian maxConfig T) (jointWeights : Fin maxConfig → T)
    (damping : T) : Except KinematicsError (Matrix (Fin maxConfig) (Fin maxConfig) T) :=
  match J.dampedPseudoInverse jointWeights damping with
  | .error e => .error e
  | .ok inverse => .ok (msub (midentity maxConfig) (mmul inverse J.entries))

/-! ### The solver -/

/-- `InverseKinematicsTermination` (`inverse_kinematics.rs:16-24`). -/
inductive IkTermination where
  | converged | stalled | iterationBudget
  deriving DecidableEq, Repr

/-- `InverseKinematicsReport` (`inverse_kinematics.rs:32-43`). -/
structure IkReport (maxConfig : ℕ) (T : Type) where
  jointPositions : Fin maxConfig → T
  positionError : T
  orientationError : T
  iterations : ℕ
  termination : IkTermination

/-- `SecondaryObjective` (`inverse_kinematics.rs:50-57`). -/
inductive SecondaryObjective (maxConfig : ℕ) (T : Type) where
  | none
  | preferredPosture (reference : Fin maxConfig → T)
  | jointLimitMargin

/-- `InverseKinematics` (`inverse_kinematics.rs:76-88`); the builder methods (`:119-195`) set one field each. -/
structure InverseKinematics (maxConfig : ℕ) (T : Type) where
  positionTolerance : T
  orientationTolerance : T
  maximumIterations : ℕ
  singularValueThreshold : T
  maximumDamping : T
  maximumStepNorm : T
  minimumStepNorm : T
  respectLimits : Bool
  jointWeights : Fin maxConfig → T
  secondaryObjective : SecondaryObjective maxConfig T
  secondaryGain : T

/-- `InverseKinematics::new` (`inverse_kinematics.rs:101-115`). -/
def InverseKinematics.new : InverseKinematics maxConfig T :=
  ⟨Fns.lit (1 / 10 ^ 6), Fns.lit (1 / 10 ^ 6), 100, Fns.lit (1 / 10 ^ 3), Fns.lit (1 / 10 ^ 2), Fns.lit (1 / 5),
    Fns.lit (1 / 10 ^ 12), true, fun _ => 1, .none, Fns.lit (1 / 10)⟩

/-- `split_error` (`inverse_kinematics.rs:444-450`). -/
def splitError (taskError : Fin 6 → T) : T × T := (vnorm (head3 taskError), vnorm (tail3 taskError))

/-- `joint_step` (`inverse_kinematics.rs:457-499`). -/
def jointStep (J : KinematicJacobian maxConfig T) (taskError : Fin 6 → T) (secondaryBias jointWeights : Fin maxConfig → T)
    (singularValueThreshold maximumDamping : T) : Except KinematicsError (Fin maxConfig → T) :=
  match J.weightedTranspose jointWeights with
  | .error e => .error e
  | .ok weighted =>
    let base := mmul J.entries weighted
    match svd base with
    | .error e => .error (.linalg e)
    | .ok d =>
      let smallest := Fns.sqrt (max (d.singularValues 5) 0)
      let dampingSquared :=
        if singularValueThreshold ≤ smallest then 0
        else
          let ratio := smallest / singularValueThreshold
          maximumDamping * maximumDamping * (1 - ratio * ratio)
      match svd (madd base (mscale (midentity 6) dampingSquared)) with
      | .error e => .error (.linalg e)
      | .ok damped =>
        let taskStep := mmulVec weighted (damped.solve taskError)
        let projected := mmulVec weighted (damped.solve (mmulVec J.entries secondaryBias))
        .ok (vadd taskStep (vsub secondaryBias projected))

/-- What the secondary objective wants of one joint (`inverse_kinematics.rs:532-553`). -/
def secondaryWanted (objective : SecondaryObjective maxConfig T) (j : Joint T) (offset : ℕ) (value gain : T) :
    Option T :=
  match objective with
  | .none => none
  | .preferredPosture reference =>
    match reading reference offset with
    | none => none
    | some preferred =>
      if j.kind = .continuous then some (gain * wrapToPi (preferred - value)) else some (gain * (preferred - value))
  | .jointLimitMargin =>
    match j.limits with
    | none => none
    | some (lower, upper) =>
      if lower < upper then
        let midpoint := (lower + upper) * half
        some (gain * (midpoint - value) / (upper - lower))
      else none

/-- `secondary_bias` (`inverse_kinematics.rs:504-560`); with no objective every joint is passed over, which leaves the
zeros the Rust returns at once. -/
def secondaryBias (objective : SecondaryObjective maxConfig T) (t : KinematicTree maxJoints maxConfig T)
    (configuration : Fin maxConfig → T) (gain : T) : Fin maxConfig → T :=
  (List.range t.len).foldl (fun bias index =>
    match t.joint index, t.configOffset index, t.velocityOffset index with
    | some joint, some configAt, some velocityAt =>
      if joint.kind = .fixed ∨ joint.kind = .floating then bias
      else
        match reading configuration configAt with
        | none => bias
        | some value =>
          match secondaryWanted objective joint configAt value gain with
          | none => bias
          | some wanted => writeAt bias velocityAt wanted
    | _, _, _ => bias) fun _ => 0

/-- Copying some slots (`inverse_kinematics.rs:587-594`). -/
def copySlots (src dst : Fin maxConfig → T) (at_ width : ℕ) : Fin maxConfig → T :=
  fun i => if at_ ≤ i.val ∧ i.val < at_ + width then src i else dst i

/-- The slots of the moving joints (`inverse_kinematics.rs:571-595`). -/
def maskedStep (step : Fin maxConfig → T) (t : KinematicTree maxJoints maxConfig T) : Fin maxConfig → T :=
  (List.range t.len).foldl (fun masked index =>
    match t.joint index, t.velocityOffset index with
    | some joint, some velocityAt =>
      if joint.kind = .fixed then masked
      else copySlots step masked velocityAt (if joint.kind = .floating then 6 else 1)
    | _, _ => masked) fun _ => 0

/-- `limited_step` (`inverse_kinematics.rs:566-602`). -/
def limitedStep (step : Fin maxConfig → T) (t : KinematicTree maxJoints maxConfig T) (maximumStepNorm : T) :
    Fin maxConfig → T :=
  let masked := maskedStep step t
  let norm := vnorm masked
  if maximumStepNorm < norm ∧ 0 < norm then vscaleBy masked (maximumStepNorm / norm) else masked

/-- `hold_inside_limits` (`inverse_kinematics.rs:415-440`). -/
def InverseKinematics.holdInsideLimits (s : InverseKinematics maxConfig T) (t : KinematicTree maxJoints maxConfig T)
    (configuration : Fin maxConfig → T) : Fin maxConfig → T :=
  if s.respectLimits = false then configuration
  else
    (List.range t.len).foldl (fun c index =>
      match t.joint index with
      | none => c
      | some joint =>
        if joint.kind = .floating then c
        else
          match joint.limits, t.configOffset index with
          | some (lower, upper), some configAt =>
            match reading c configAt with
            | none => c
            | some slot => writeAt c configAt (min (max slot lower) upper)
          | _, _ => c) configuration

/-- A floating joint after a step (`inverse_kinematics.rs:337-374`). -/
def floatStep (configuration step next : Fin maxConfig → T) (configAt velocityAt : ℕ) : Fin maxConfig → T :=
  match FreeJointState.fromGeneralizedVectors
      (fun slot : Fin 7 => (reading configuration (configAt + slot)).getD 0) (fun _ => 0) with
  | none => next
  | some free =>
    let dLinear : Fin 3 → T := fun row => (reading step (velocityAt + row)).getD 0
    let dAngular : Fin 3 → T := fun row => (reading step (velocityAt + 3 + row)).getD 0
    let newFree : FreeJointState T :=
      ⟨⟨attitudeStep free.pose.rotation dAngular 1, vadd free.pose.translation dLinear⟩, ⟨fun _ => 0, fun _ => 0⟩⟩
    let place := newFree.generalizedPosition
    (List.finRange 7).foldl (fun next slot => writeAt next (configAt + slot.val) (place slot)) next

/-- The configuration after a step, before the limits (`inverse_kinematics.rs:324-380`). -/
def advanced (t : KinematicTree maxJoints maxConfig T) (configuration step : Fin maxConfig → T) : Fin maxConfig → T :=
  (List.range t.len).foldl (fun next index =>
    match t.joint index, t.configOffset index, t.velocityOffset index with
    | some joint, some configAt, some velocityAt =>
      if joint.kind = .floating then floatStep configuration step next configAt velocityAt
      else
        match reading next configAt, reading step velocityAt with
        | some dst, some change => writeAt next configAt (dst + change)
        | _, _ => next
    | _, _, _ => next) configuration

/-- The tool's pose at a configuration (`inverse_kinematics.rs:282-285`, `398-401`). -/
def toolPose (t : KinematicTree maxJoints maxConfig T) (toolIndex : ℕ) (configuration : Fin maxConfig → T) :
    Except KinematicsError (KinematicTreeState T × SE3 T) :=
  match t.forwardKinematics configuration with
  | .error e => .error e
  | .ok state =>
    match state.pose toolIndex with
    | none => .error .toolIndexOutOfRange
    | some current => .ok (state, current)

/-- The step one iteration takes (`inverse_kinematics.rs:304-322`). -/
def InverseKinematics.iterationStep (s : InverseKinematics maxConfig T) (t : KinematicTree maxJoints maxConfig T)
    (toolIndex : ℕ) (configuration : Fin maxConfig → T) (state : KinematicTreeState T) (taskError : Fin 6 → T) :
    Except KinematicsError (Fin maxConfig → T) :=
  match t.geometricJacobian state toolIndex .body with
  | .error e => .error e
  | .ok jacobian =>
    let bias := secondaryBias s.secondaryObjective t configuration s.secondaryGain
    match jointStep jacobian taskError bias s.jointWeights s.singularValueThreshold s.maximumDamping with
    | .error e => .error e
    | .ok step => .ok (limitedStep step t s.maximumStepNorm)

/-- The loop of `solve` and what follows it (`inverse_kinematics.rs:280-411`).  The first argument is what is left of the
budget, the second the iterations made. -/
def InverseKinematics.loop (s : InverseKinematics maxConfig T) (t : KinematicTree maxJoints maxConfig T) (toolIndex : ℕ)
    (target : SE3 T) : ℕ → ℕ → (Fin maxConfig → T) → Except KinematicsError (IkReport maxConfig T)
  | 0, iterations, configuration =>
    if 0 < iterations then
      match toolPose t toolIndex configuration with
      | .error e => .error e
      | .ok (_, current) =>
        let errors := splitError (current.inverse.compose target).log
        .ok ⟨configuration, errors.1, errors.2, iterations, .iterationBudget⟩
    else .ok ⟨configuration, 0, 0, iterations, .iterationBudget⟩
  | budget + 1, iterations, configuration =>
    match toolPose t toolIndex configuration with
    | .error e => .error e
    | .ok (state, current) =>
      let taskError := (current.inverse.compose target).log
      let errors := splitError taskError
      if errors.1 ≤ s.positionTolerance ∧ errors.2 ≤ s.orientationTolerance then
        .ok ⟨configuration, errors.1, errors.2, iterations + 1, .converged⟩
      else
        match s.iterationStep t toolIndex configuration state taskError with
        | .error e => .error e
        | .ok step =>
          let next := s.holdInsideLimits t (advanced t configuration step)
          if vnorm (vsub next configuration) ≤ s.minimumStepNorm then
            .ok ⟨configuration, errors.1, errors.2, iterations + 1, .stalled⟩
          else s.loop t toolIndex target budget (iterations + 1) next

/-- `InverseKinematics::solve` (`inverse_kinematics.rs:242-412`). -/
def InverseKinematics.solve (s : InverseKinematics maxConfig T) (t : KinematicTree maxJoints maxConfig T) (toolIndex : ℕ)
    (target : SE3 T) (seed : Fin maxConfig → T) : Except KinematicsError (IkReport maxConfig T) :=
  if t.len ≤ toolIndex then .error .toolIndexOutOfRange
  else if vecIsFinite seed = false ∨ vecIsFinite target.translation = false ∨
      (Fns.isFinite target.rotation.quaternion.w && Fns.isFinite target.rotation.quaternion.x &&
        Fns.isFinite target.rotation.quaternion.y && Fns.isFinite target.rotation.quaternion.z) = false then
    .error .nonFinite
  else if weightsOk t.velocityLen s.jointWeights = false then .error .nonPositiveWeight
  else s.loop t toolIndex target s.maximumIterations 0 (s.holdInsideLimits t seed)

/-! ### Several starts -/

/-- `MultiStartInverseKinematics` (`multi_start_inverse_kinematics.rs:32-41`). -/
structure MultiStart (maxStarts maxConfig : ℕ) (T : Type) where
  solver : InverseKinematics maxConfig T
  distinctThreshold : T
  jitterSpan : T

/-- `MultiStartReport` (`multi_start_inverse_kinematics.rs:235-239`): the first `solution_count` solutions and the
number of starts. -/
structure MultiStartReport (maxConfig : ℕ) (T : Type) where
  solutions : List (IkReport maxConfig T)
  attempts : ℕ

/-- `insert` (`multi_start_inverse_kinematics.rs:263-281`). -/
def MultiStartReport.insert (r : MultiStartReport maxConfig T) (maxStarts : ℕ) (t : KinematicTree maxJoints maxConfig T)
    (candidate : IkReport maxConfig T) (distinctThreshold : T) : MultiStartReport maxConfig T :=
  if r.solutions.any fun existing =>
      decide (t.configurationDistance existing.jointPositions candidate.jointPositions < distinctThreshold) then r
  else if r.solutions.length < maxStarts then { r with solutions := r.solutions ++ [candidate] }
  else r

/-- One start (`multi_start_inverse_kinematics.rs:138-144`, `178-183`). -/
def MultiStart.attempt {maxStarts : ℕ} (m : MultiStart maxStarts maxConfig T) (t : KinematicTree maxJoints maxConfig T)
    (toolIndex : ℕ) (target : SE3 T) (r : MultiStartReport maxConfig T) (seed : Fin maxConfig → T) :
    Except KinematicsError (MultiStartReport maxConfig T) :=
  match m.solver.solve t toolIndex target seed with
  | .error e => .error e
  | .ok attempt =>
    let r := { r with attempts := r.attempts + 1 }
    .ok (if attempt.termination = .converged then r.insert maxStarts t attempt m.distinctThreshold else r)

/-- `solve_from_seeds` (`multi_start_inverse_kinematics.rs:127-146`). -/
def MultiStart.solveFromSeeds {maxStarts : ℕ} (m : MultiStart maxStarts maxConfig T)
    (t : KinematicTree maxJoints maxConfig T) (toolIndex : ℕ) (target : SE3 T) (seeds : List (Fin maxConfig → T)) :
    Except KinematicsError (MultiStartReport maxConfig T) :=
  if maxStarts < seeds.length then .error .startCapacityExceeded
  else seeds.foldlM (m.attempt t toolIndex target) ⟨[], 0⟩

/-- `jittered_seed` (`multi_start_inverse_kinematics.rs:190-224`).  `next` is the source: its draw and the source after
it. -/
def jitteredSeed {R : Type} (next : R → T × R) (t : KinematicTree maxJoints maxConfig T) (baseSeed : Fin maxConfig → T)
    (source : R) (jitterSpan : T) : (Fin maxConfig → T) × R :=
  (List.range t.len).foldl (fun (s : (Fin maxConfig → T) × R) index =>
    match t.joint index, t.configOffset index with
    | some joint, some offset =>
      if joint.kind = .fixed ∨ joint.kind = .floating then s
      else
        match reading baseSeed offset with
        | none => s
        | some baseReading =>
          let draw := next s.2
          let value := match joint.limits with
            | some (lower, upper) => lower + draw.1 * (upper - lower)
            | none => baseReading + (draw.1 * ((2 : ℕ) : T) - 1) * jitterSpan
          (writeAt s.1 offset value, draw.2)
    | _, _ => s) (baseSeed, source)

/-- The seeds of `solve_seeded` (`multi_start_inverse_kinematics.rs:172-177`), and the source afterwards. -/
def MultiStart.seeds {maxStarts : ℕ} {R : Type} (m : MultiStart maxStarts maxConfig T) (next : R → T × R)
    (t : KinematicTree maxJoints maxConfig T) (baseSeed : Fin maxConfig → T) : ℕ → R → List (Fin maxConfig → T) × R
  | 0, source => ([], source)
  | count + 1, source =>
    let jittered := jitteredSeed next t baseSeed source m.jitterSpan
    let rest := m.seeds next t baseSeed count jittered.2
    (jittered.1 :: rest.1, rest.2)

/-- `solve_seeded` (`multi_start_inverse_kinematics.rs:156-186`).  The Rust draws each seed just before solving from it;
the solver draws nothing, so the model draws them all first.  The source after an error is not modelled. -/
def MultiStart.solveSeeded {maxStarts : ℕ} {R : Type} (m : MultiStart maxStarts maxConfig T) (next : R → T × R)
    (t : KinematicTree maxJoints maxConfig T) (toolIndex : ℕ) (target : SE3 T) (baseSeed : Fin maxConfig → T)
    (source : R) (count : ℕ) : Except KinematicsError (MultiStartReport maxConfig T) :=
  if maxStarts < count then .error .startCapacityExceeded
  else
    let seeds := if count = 0 then [] else baseSeed :: (m.seeds next t baseSeed (count - 1) source).1
    seeds.foldlM (m.attempt t toolIndex target) ⟨[], 0⟩

/-- `closest_to` (`multi_start_inverse_kinematics.rs:308-326`), keeping the solution instead of its index. -/
def MultiStartReport.closestTo (r : MultiStartReport maxConfig T) (t : KinematicTree maxJoints maxConfig T)
    (reference : Fin maxConfig → T) : Option (IkReport maxConfig T) :=
  (r.solutions.foldl (fun (best : Option (IkReport maxConfig T × T)) solution =>
    let distance := t.configurationDistance solution.jointPositions reference
    match best with
    | some (_, bestDistance) => if distance < bestDistance then some (solution, distance) else best
    | none => some (solution, distance)) none).map Prod.fst

end Multicalc
