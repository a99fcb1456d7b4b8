import Verif.Model.Kalman
import Verif.Model.Mapping

/-!
# Particle filter and Monte Carlo localisation

Models `crates/multicalc/src/estimation/particle_filter.rs` and
`crates/multicalc/src/estimation/monte_carlo_localizer.rs`.

The source of randomness is any pair of functions giving the next unit draw and the next normal draw with the source
that is left (`RandomSource`, `random.rs:14-60`).  The scratch buffers are not part of the model.
-/

namespace Multicalc

/-- `RandomSource` (`random.rs:14-60`), as far as the filter uses it. -/
structure RandomSource (R T : Type) where
  nextUnit : R → T × R
  standardNormal : R → T × R

/-- `ResamplingScheme` (`particle_filter.rs:34-47`). -/
inductive ResamplingScheme
  | systematic | stratified | multinomial | residual
  deriving DecidableEq

/-- `count` draws in order. -/
def drawMany {R A : Type} (draw : R → A × R) : ℕ → R → List A × R
  | 0, r => ([], r)
  | count + 1, r =>
    let first := draw r
    let rest := drawMany draw count first.2
    (first.1 :: rest.1, rest.2)

section Schemes

variable {T : Type} [Zero T] [One T] [NatCast T] [Add T] [Sub T] [Mul T] [Div T] [LT T] [LE T] [DecidableLT T]
  [DecidableLE T] [Fns T]

/-- The inner loop of both walks, `particle_filter.rs:96-99` and `120-123`.  `weights[source]` is in range because
`source < count` and the two lengths are equal; out of range the model reads zero where Rust would panic. -/
def advanceSource (weights : List T) (count : ℕ) (position : T) (source : ℕ) (runningSum : T) : ℕ × T :=
  if runningSum ≤ position ∧ source + 1 < count then
    advanceSource weights count position (source + 1) (runningSum + weights.getD (source + 1) 0)
  else (source, runningSum)
  termination_by count - source
  decreasing_by omega

/-- The outer loop of both walks, `particle_filter.rs:94-101` and `117-125`: the source caught by each position. -/
def walkSources (weights : List T) (count : ℕ) : List T → ℕ → T → List ℕ
  | [], _, _ => []
  | position :: rest, source, runningSum =>
    let caught := advanceSource weights count position source runningSum
    caught.1 :: walkSources weights count rest caught.1 caught.2

variable {R : Type}

/-- `systematic`, `particle_filter.rs:80-102`. -/
def systematicIndices (source : RandomSource R T) (weights : List T) (r : R) (count : ℕ) : List ℕ × R :=
  let offset := source.nextUnit r
  (walkSources weights count ((List.range count).map fun step : ℕ => (offset.1 + (step : T)) / (count : T)) 0
    (weights.getD 0 0), offset.2)

/-- `stratified`, `particle_filter.rs:105-126`; the draws do not depend on the walk, so they are made first. -/
def stratifiedIndices (source : RandomSource R T) (weights : List T) (r : R) (count : ℕ) : List ℕ × R :=
  let offsets := drawMany source.nextUnit count r
  (walkSources weights count (List.zipWith (fun offset (step : ℕ) => (offset + (step : T)) / (count : T)) offsets.1
    (List.range count)) 0 (weights.getD 0 0), offsets.2)

/-- The loop of `draw_from_weights`, `particle_filter.rs:180-187`; `last` is `weights.len() - 1`. -/
def firstReaching (draw : T) (last : ℕ) : List T → ℕ → T → ℕ
  | [], _, _ => last
  | weight :: rest, source, runningSum =>
    if draw ≤ runningSum + weight then source else firstReaching draw last rest (source + 1) (runningSum + weight)

/-- `draw_from_weights`, `particle_filter.rs:179-188`. -/
def drawFromWeights (weights : List T) (draw : T) : ℕ := firstReaching draw (weights.length - 1) weights 0 0

/-- `multinomial`, `particle_filter.rs:129-140`. -/
def multinomialIndices (source : RandomSource R T) (weights : List T) (r : R) (count : ℕ) : List ℕ × R :=
  let draws := drawMany source.nextUnit count r
  (draws.1.map (drawFromWeights weights), draws.2)

/-- The inner loop of `residual`, `particle_filter.rs:156-161`: how many copies are laid with `free` slots left. -/
def layCopies (target : T) : ℕ → T → ℕ
  | 0, _ => 0
  | free + 1, laid => if laid < target then 1 + layCopies target free (laid + 1) else 0

/-- The loop laying whole copies, `particle_filter.rs:153-162`. -/
def layWhole (count : ℕ) : List T → ℕ → List ℕ → List ℕ
  | [], _, filled => filled
  | weight :: rest, source, filled =>
    let copies := layCopies (Fns.floor ((count : T) * weight)) (count - filled.length) 0
    layWhole count rest (source + 1) (filled ++ List.replicate copies source)

/-- A weight's leftover fraction, `particle_filter.rs:167-168` and `200-201`. -/
def leftover (count : ℕ) (weight : T) : T := (count : T) * weight - Fns.floor ((count : T) * weight)

/-- `remainder_sum`, `particle_filter.rs:165-169`. -/
def remainderSum (count : ℕ) (weights : List T) : T :=
  weights.foldl (fun sum weight => sum + leftover count weight) 0

/-- `draw_from_remainders`, `particle_filter.rs:192-207`. -/
def drawFromRemainders (weights : List T) (count : ℕ) (draw : T) : ℕ :=
  firstReaching draw (weights.length - 1) (weights.map fun weight => leftover count weight / remainderSum count weights)
    0 0

/-- `residual`, `particle_filter.rs:144-175`. -/
def residualIndices (source : RandomSource R T) (weights : List T) (r : R) (count : ℕ) : List ℕ × R :=
  let whole := layWhole count weights 0 []
  let draws := drawMany source.nextUnit (count - whole.length) r
  (whole ++ draws.1.map (drawFromRemainders weights count), draws.2)

/-- `ResamplingScheme::resample_indices`, `particle_filter.rs:60-76`, for `indices` as long as `weights`, as documented
and as the filter calls it. -/
def resampleIndices (scheme : ResamplingScheme) (source : RandomSource R T) (weights : List T) (r : R) :
    List ℕ × R :=
  if weights.isEmpty then ([], r)
  else match scheme with
    | .systematic => systematicIndices source weights r weights.length
    | .stratified => stratifiedIndices source weights r weights.length
    | .multinomial => multinomialIndices source weights r weights.length
    | .residual => residualIndices source weights r weights.length

end Schemes

variable {T : Type} [Zero T] [One T] [NatCast T] [Add T] [Sub T] [Neg T] [Mul T] [Div T] [LT T] [LE T] [BEq T]
  [DecidableLT T] [DecidableLE T] [Max T] [Min T] [Fns T]

/-- `recoverable_log_weight`, `particle_filter.rs:210-216`; `minPositive` is `T::MIN_POSITIVE`. -/
def recoverableLogWeight (minPositive weight : T) : T :=
  if weight == 0 then Fns.log minPositive else Fns.log weight

/-- `GaussianLikelihood::log_weight`, `particle_filter.rs:260-271`, with the factor of the noise. -/
def gaussianLogWeight {m : ℕ} (factor : Matrix (Fin m) (Fin m) T) (predicted measurement : Fin m → T) : T :=
  let residual : Fin m → T := (fun i => measurement i - predicted i);
  (-(1 / ((2 : ℕ) : T))) * vdot residual (choleskySolve factor residual)

/-- `ParticleFilter`, `particle_filter.rs:328-344`, without the scratch buffers. -/
structure ParticleFilter (n : ℕ) (T R : Type) where
  particles : List (Fin n → T)
  weights : List T
  processNoiseFactor : Matrix (Fin n) (Fin n) T
  resampling : ResamplingScheme
  resampleThreshold : T
  roughening : T
  random : R

namespace ParticleFilter

variable {n : ℕ} {R : Type}

/-- `Vector::from_fn(|_| random.standard_normal())`, in index order. -/
def normalVector (source : RandomSource R T) (n : ℕ) (r : R) : (Fin n → T) × R :=
  let draws := drawMany source.standardNormal n r
  (fun i => draws.1.getD i 0, draws.2)

/-- `from_random`, `particle_filter.rs:383-451`. -/
def fromRandom (source : RandomSource R T) (particleCount : ℕ) (initialMean : Fin n → T)
    (initialCovariance processNoise : Matrix (Fin n) (Fin n) T) (random : R) :
    Except EstimationError (ParticleFilter n T R) :=
  if particleCount = 0 then .error .weightsDegenerate
  else match cholesky initialCovariance with
    | .error _ => .error .notPositiveDefinite
    | .ok initialFactor =>
      match cholesky processNoise with
      | .error _ => .error .notPositiveDefinite
      | .ok processNoiseFactor =>
        let samples := drawMany (normalVector source n) particleCount random
        .ok
          { particles := samples.1.map fun sample => vadd initialMean (mmulVec initialFactor sample)
            weights := List.replicate particleCount (1 / (particleCount : T))
            processNoiseFactor
            resampling := .systematic
            resampleThreshold := (particleCount : T) * (1 / ((2 : ℕ) : T))
            roughening := 0
            random := samples.2 }

/-- `set_process_noise`, `particle_filter.rs:481-490`. -/
def setProcessNoise (f : ParticleFilter n T R) (processNoise : Matrix (Fin n) (Fin n) T) :
    ParticleFilter n T R × Except EstimationError Unit :=
  match cholesky processNoise with
  | .error _ => (f, .error .notPositiveDefinite)
  | .ok factor => ({ f with processNoiseFactor := factor }, .ok ())

/-- `predict`, `particle_filter.rs:496-520`: every particle is replaced even when one is not finite. -/
def predict (source : RandomSource R T) (f : ParticleFilter n T R) (processModel : (Fin n → T) → Fin n → T) :
    ParticleFilter n T R × Except EstimationError Unit :=
  let noise := drawMany (normalVector source n) f.particles.length f.random
  let particles := List.zipWith (fun particle sample =>
    vadd (processModel particle) (mmulVec f.processNoiseFactor sample)) f.particles noise.1
  ({ f with particles, random := noise.2 },
    if particles.all vIsFinite then .ok () else .error .nonFinite)

/-- `effective_sample_size`, `particle_filter.rs:730-736`. -/
def effectiveSampleSize (f : ParticleFilter n T R) : T :=
  1 / f.weights.foldl (fun sum weight => sum + weight * weight) 0

/-- The jitter of one axis in `roughen`, `particle_filter.rs:692-714`. -/
def roughenAxis (source : RandomSource R T) (roughening : T) (state : List (Fin n → T) × R) (axis : Fin n) :
    List (Fin n → T) × R :=
  match state.1 with
  | [] => state
  | first :: _ =>
    let lowest := state.1.foldl (fun low particle => if particle axis < low then particle axis else low) (first axis)
    let highest := state.1.foldl (fun high particle => if high < particle axis then particle axis else high) (first axis)
    let scale := roughening * (highest - lowest)
    if scale ≤ 0 then state
    else
      let draws := drawMany source.standardNormal state.1.length state.2
      (List.zipWith (fun particle draw => Function.update particle axis (particle axis + scale * draw)) state.1 draws.1,
        draws.2)

/-- `roughen`, `particle_filter.rs:689-715`. -/
def roughen (source : RandomSource R T) (f : ParticleFilter n T R) : ParticleFilter n T R :=
  let jittered := (List.finRange n).foldl (roughenAxis source f.roughening) (f.particles, f.random)
  { f with particles := jittered.1, random := jittered.2 }

/-- `resample`, `particle_filter.rs:666-687`; every picked index is in range (`resample_in_range`), out of range the
model reads zero where Rust would panic. -/
def resample (source : RandomSource R T) (f : ParticleFilter n T R) : ParticleFilter n T R :=
  let picked := resampleIndices f.resampling source f.weights f.random
  let g : ParticleFilter n T R :=
    { f with
      particles := picked.1.map fun i => f.particles.getD i fun _ => 0
      weights := f.weights.map fun _ => 1 / (f.weights.length : T)
      random := picked.2 }
  if 0 < f.roughening then g.roughen source else g

/-- `normalize_and_resample`, `particle_filter.rs:625-662`, on the log-weights. -/
def normalizeAndResample (source : RandomSource R T) (f : ParticleFilter n T R) (logWeights : List T) :
    ParticleFilter n T R × Except EstimationError Unit :=
  let largest := logWeights.foldl (fun largest l => if largest < l then l else largest) Fns.negInfinity
  if !Fns.isFinite largest then (f, .error .weightsDegenerate)
  else
    let raw := logWeights.map fun l => Fns.exp (l - largest)
    let sum := raw.foldl (fun sum weight => sum + weight) 0
    if decide (sum ≤ 0) || !Fns.isFinite sum then ({ f with weights := raw }, .error .weightsDegenerate)
    else
      let g : ParticleFilter n T R := { f with weights := raw.map fun weight => weight / sum }
      (if g.effectiveSampleSize < g.resampleThreshold then g.resample source else g, .ok ())

/-- `update_with_log_weights`, `particle_filter.rs:607-620`. -/
def updateWithLogWeights (source : RandomSource R T) (minPositive : T) (f : ParticleFilter n T R)
    (score : (Fin n → T) → T) : ParticleFilter n T R × Except EstimationError Unit :=
  f.normalizeAndResample source
    (List.zipWith (fun particle weight => recoverableLogWeight minPositive weight + score particle) f.particles f.weights)

/-- `update`, `particle_filter.rs:528-554`. -/
def update {m : ℕ} (source : RandomSource R T) (minPositive : T) (f : ParticleFilter n T R)
    (measurementModel : (Fin n → T) → Fin m → T) (likelihood : (Fin m → T) → (Fin m → T) → T)
    (measurement : Fin m → T) : ParticleFilter n T R × Except EstimationError Unit :=
  if !vIsFinite measurement then (f, .error .nonFinite)
  else f.updateWithLogWeights source minPositive fun particle => likelihood (measurementModel particle) measurement

/-- `mean`, `particle_filter.rs:739-745`. -/
def mean (f : ParticleFilter n T R) : Fin n → T :=
  (f.particles.zip f.weights).foldl (fun total pw => vadd total (vscaleBy pw.1 pw.2)) fun _ => 0

/-- `maximum_a_posteriori_state`, `particle_filter.rs:749-760`. -/
def maximumAPosterioriState (f : ParticleFilter n T R) : Fin n → T :=
  let best := f.weights.zipIdx.foldl (fun best wi => if best.2 < wi.1 then (wi.2, wi.1) else best)
    (0, f.weights.getD 0 0)
  f.particles.getD best.1 fun _ => 0

end ParticleFilter

/-! ### Monte Carlo localisation -/

/-- `BeamModel`, `monte_carlo_localizer.rs:38-45`. -/
structure BeamModel (T : Type) where
  rangeDeviation : T
  agreementReward : T
  mismatchPenalty : T

/-- `beam_score`, `monte_carlo_localizer.rs:305-321`. -/
def beamScore (fromTheMap : Option T) (measured : T) (believed : Bool) (model : BeamModel T) : T :=
  match fromTheMap, believed with
  | some range, true =>
    let error := (range - measured) / model.rangeDeviation
    Fns.lit (-1 / 2) * error * error
  | none, false => model.agreementReward
  | _, _ => model.mismatchPenalty

/-- `BeamModel::default`, `monte_carlo_localizer.rs:47-55`. -/
def BeamModel.standard : BeamModel T := ⟨Fns.lit (1 / 10), Fns.lit (1 / 10), Fns.lit (-5)⟩

/-- The score `MonteCarloLocalizer::update` gives one guess, `monte_carlo_localizer.rs:180-192`; `castRay` is the map's
`cast_ray`. -/
def localizerScore {beams : ℕ} (castRay : T → T → T → T → Option T) (geometry : ScanGeometry beams T)
    (model : BeamModel T) (scan : Fin beams → T) (guess : Fin 3 → T) : T :=
  (List.finRange beams).foldl (fun score (index : Fin beams) =>
    match geometry.beamAngle index.val with
    | none => score
    | some offset =>
      score + beamScore (castRay (guess 0) (guess 1) (guess 2 + offset) geometry.maximumRange) (scan index)
        (geometry.rangeIsValid (scan index)) model) 0

/-- `is_converged`, `monte_carlo_localizer.rs:261-265`, on the spread of the estimate. -/
def localizerConverged (spread : Matrix (Fin 3) (Fin 3) T) (positionLimit headingLimit : T) : Bool :=
  decide (spread 0 0 + spread 1 1 < positionLimit) && decide (spread 2 2 < headingLimit)

/-- `LocalizationMotion::eval`, `monte_carlo_localizer.rs:293-301`. -/
def localizationMotion (deltaArcLength deltaHeading : T) (state : Fin 3 → T) : Fin 3 → T :=
  let heading := state 2
  ![state 0 + deltaArcLength * Fns.cos heading, state 1 + deltaArcLength * Fns.sin heading,
    wrapToPi (heading + deltaHeading)]

/-- The sums of `estimate`'s first loop, `monte_carlo_localizer.rs:222-231`. -/
def localizerSums (cloud : List ((Fin 3 → T) × T)) : T × T × T × T :=
  cloud.foldl (fun s gw => (s.1 + gw.2 * gw.1 0, s.2.1 + gw.2 * gw.1 1, s.2.2.1 + gw.2 * Fns.sin (gw.1 2),
    s.2.2.2 + gw.2 * Fns.cos (gw.1 2))) (0, 0, 0, 0)

/-- `MonteCarloLocalizer::estimate`, `monte_carlo_localizer.rs:215-256`. -/
def localizerEstimate (particles : List (Fin 3 → T)) (weights : List T) :
    (Fin 3 → T) × Matrix (Fin 3) (Fin 3) T :=
  let cloud := particles.zip weights
  let sums := localizerSums cloud
  let meanX := sums.1
  let meanY := sums.2.1
  let sineSum := sums.2.2.1
  let cosineSum := sums.2.2.2
  let heading := Fns.atan2 sineSum cosineSum
  let resultant := min (hypot sineSum cosineSum) 1
  let headingSpread := max ((1 - resultant) * ((2 : ℕ) : T)) (Fns.lit (1 / 1000000))
  let spread := cloud.foldl (fun s gw =>
    (s.1 + gw.2 * (gw.1 0 - meanX) * (gw.1 0 - meanX), s.2.1 + gw.2 * (gw.1 1 - meanY) * (gw.1 1 - meanY),
      s.2.2 + gw.2 * (gw.1 0 - meanX) * (gw.1 1 - meanY))) (0, 0, 0)
  (![meanX, meanY, heading],
    !![spread.1, spread.2.2, 0; spread.2.2, spread.2.1, 0; 0, 0, headingSpread])

/-! ### Ready-made models, `estimation/models.rs` -/

/-- `ConstantTurnAndSpeed::eval`, `models.rs:42-64`. -/
def constantTurnAndSpeed (timestep : T) (state : Fin 5 → T) : Fin 5 → T :=
  let x := state 0
  let y := state 1
  let heading := state 2
  let speed := state 3
  let turnRate := state 4
  let nextHeading := heading + turnRate * timestep
  let next : T × T :=
    if Fns.lit (1 / 1000000) < Fns.abs turnRate then
      let radius := speed / turnRate
      (x + radius * (Fns.sin nextHeading - Fns.sin heading), y + radius * (Fns.cos heading - Fns.cos nextHeading))
    else (x + speed * Fns.cos heading * timestep, y + speed * Fns.sin heading * timestep)
  ![next.1, next.2, wrapToPi nextHeading, speed, turnRate]

/-- `DirectMeasurement::try_new`, `models.rs:100-107`. -/
def directMeasurementTryNew (stateDimension : ℕ) {m : ℕ} (indices : Fin m → ℕ) : Except EstimationError (Fin m → ℕ) :=
  if (List.finRange m).any fun k => decide (stateDimension ≤ indices k) then .error .stateIndexOutOfRange
  else .ok indices

/-- `DirectMeasurement::eval`, `models.rs:121-130`. -/
def directMeasurementEval {n m : ℕ} (indices : Fin m → ℕ) (state : Fin n → T) : Fin m → T :=
  fun k => if h : indices k < n then state ⟨indices k, h⟩ else 0

/-- `residual_with_wrapped_angles`, `models.rs:155-169`. -/
def residualWithWrappedAngles {m : ℕ} (measured predicted : Fin m → T) (angular : List ℕ) : Fin m → T :=
  fun k =>
    let difference := measured k - predicted k
    if angular.contains k.val then wrapToPi difference else difference

end Multicalc
