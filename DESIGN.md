# Design of the formal model of multicalc

## What is modelled and how

The library is generic over a scalar trait.  The Lean model follows the same idea.
Model functions take a scalar type `T` together with exactly the operations they use
(`Add T`, `Mul T`, `LT T`, decidable comparison, `BEq T`, and a class `Fns T` for the
transcendental and predicate operations).  Each theorem then chooses how much to assume.

* Law-free theorems hold for every `T` with no algebraic law at all.  They cover f32 and f64
  including NaN, infinities and rounding.
* Linear-order theorems assume comparisons form a linear order but leave arithmetic arbitrary.
  They cover finite floats with any rounding.
* Field theorems assume exact arithmetic (R or any ordered field).  Rounding is not covered there.
* `XR` (reals with two infinities and NaN) is an instance used for NaN and infinity behaviour.

Rust arrays become `Fin n -> T` or `List T`.  Loops become folds or recursion on fuel.
Functions with `&mut self` return the new state.  `Result` and `Option` stay data.

Layout of `lean/Verif`:

* `Model/` holds the definitions, each with the file and lines it models.
* `Lemmas/` holds helper lemmas.
* `Props/` holds the property theorems.  The comment above each starts with the property id.

## Trusted base

* Lean 4.33.0 kernel, axioms `propext`, `Classical.choice`, `Quot.sound` only.
* The reading of the Rust source recorded in the comment above each definition.
* Floating-point rounding is not modelled, except where a theorem is law-free or order-only.

## Properties: plan and result

### C01 Generator never falls into a short cycle

Model next_u32 on BitVec 64. Prove the state map x -> a x + c with c odd, a = 1 mod 4 has exact order 2^64 (2-adic induction, Hull-Dobell), then lift to the generator.

Status: proved.  Theorems: `Pcg32.pcg_period`, `Pcg32.pcg_visits_every_position`, `Pcg32.pcg_equidistributed`, `Pcg32.pcg_stream_top_bit_ignored`.

Also proved: each state is visited once per period and each 32-bit word is drawn exactly 2^32 times per period.

### C02 Uniform draws stay in [0,1)

Model next_unit on BitVec words; prove range and grid over rationals.

Status: proved.  Theorems: `Pcg32.nextUnit64_range`, `Pcg32.nextUnit32_range`, `Pcg32.unit64_uniform`.

The float conversion is exact (a 53-bit or 24-bit integer times a power of two), so it is given as a rational.

### C03 Same seed, same history, same draws; draws do not depend on how they are batched

Model whole generator with cached normal as a state machine over op lists; prove next_u64 decomposition and position advance count per op.

Status: proved.  Theorems: `Pcg32.draws_follow_stream`.

### C04 Polar normal pairs satisfy the Box-Muller identity and are served in order

Model the polar transform over R with an abstract source of points; prove the pair identities and the cache discipline.

Status: proved.  Theorems: `Pcg32.standardNormal_pair`, `Pcg32.standardNormal_terminates`, `Pcg32.standardNormal_serves_cache`, `Pcg32.cache_survives_raw_draws`.

The rejection loop is unbounded in the code and has fuel in the model; `standardNormal_terminates` shows enough fuel always exists for every generator a user can hold.

### C05 wrap_to_pi is a representative of the same angle in [-pi, pi]

Model over R with round-half-away-from-zero; prove range, congruence, trig invariance.

Status: proved.  Theorems: `wrapToPi_spec`, `wrapToPi_id`.

### C06 powi is the integer power

Model the squaring loop on the i32 magnitude; prove equality with zpow over any field.

Status: proved.  Theorems: `powi_eq_zpow`.

### C07 hypot is the Euclidean length

Model the scaled formula; prove over R.

Status: proved.  Theorems: `hypot_eq`, `hypot_symm`.

### C08 Comparison-based max/min/clamp keep values in range

Generic over any linear order (rounding-independent).

Status: proved.  Theorems: `signum_spec`, `safeDiv_ieee`, `smax_spec`, `smin_spec`, `sclamp_spec`.

### C09 Dual numbers give the exact first derivative

The free functions derivative and partial (Props/DefaultStep) reduce to autoDiffSingle_one and autoDiffMulti_one.

Status: proved.  Theorems: `free_derivative`, `autoDiffMulti_one`, `autoDiffSingle_one`, `jacobian_autodiff`.

At points where every performed operation is smooth and no comparison ties (`Expr.SmoothAt`), over the reals.

### C10 Hyper-dual numbers give exact second and mixed partial derivatives

Differentiate the dual run itself along a second (third) curve; one chain-rule lemma per primitive with its second and third derivative.

Status: proved.  Theorems: `free_second_derivative`, `autoDiffMulti_two`, `hyperDual_first`, `autoDiffSingle_two`, `autoDiffMulti_three`, `autoDiffMulti_symm`, `autoDiff_errors`, `hessian_entries`, `hessian_total`.

Derivatives over the reals at smooth points; Hessian symmetry, entries and errors for every scalar type with a NaN.

### C11 Jets carry Taylor coefficients through every operation

Taylor coefficients of analytic functions form a ring with derivation (Leibniz); each recurrence in the jet loops is the coefficient form of a local identity (u·u = f, u' = f'u, w·θ' = xy' - yx', ...), and a fill loop computes the unique solution.

Status: proved.  Theorems: `jet_taylor`, `autoDiffSingle_high`, `jet_along_curve`.

Over the reals, any jet length, at points where every performed operation is smooth and no comparison ties.

### C12 Autodiff runs the same branch as the plain evaluation

Induction on the program: the value part of every overloaded operation is the plain operation, so every comparison agrees. Hyper-dual division and jet loops need one law each; a binary64 model refutes the law for division.

Status: partial.  Theorems: `dual_clamp`, `hyperDual_clamp`, `dual_value`, `hyperDual_value_partial`, `jet_clamp`, `jet_value_partial`, `autodiff_value_real`, `hyperDual_branch_differs`.

`Dual` for every scalar and any rounding; `HyperDual` and `Jet` under the exact laws they rely on, which hold over the reals. In rounded arithmetic `HyperDual` is refuted.

### C13 Finite differences are exact on low-degree polynomials

One divided difference of a polynomial equals the derivative up to two (central: three) lower degrees; iterate. Several variables: sums of products.

Status: proved.  Theorems: `fd_column`, `fdDiff_exact`, `fdSingle_exact`, `fdMulti_exact`, `fd_errors`.

Exactness over the reals for every order and number of variables; refusals for every scalar type.

### C14 Pairwise summation loses no term

Model block/level carry structure; invariant on total by induction on additions.

Status: proved.  Theorems: `PairwiseSum.pairwise_total_eq_sum`, `PairwiseSum.pairwise_levels_in_range`, `accSum_eq_sum`.

### C15 Kahan summation equals the sum in exact arithmetic and its compensation is zero there

Model Kahan update; induction.

Status: proved.  Theorems: `kahan_total_eq_sum`, `accSum_eq_sum`.

### C16 Bisection keeps a sign-changing bracket and stays inside it

Model loop as fuel recursion; invariants law-free or in a linear order.

Status: proved.  Theorems: `bisection_report`, `bisection_stays_inside`.

Holds for every scalar whose computed midpoint stays in the interval (`MidpointInside`, proved for the reals).

### C17 Bisection returns near a true root for continuous functions

Adds continuity, intermediate value theorem, halving of width.

Status: proved.  Theorems: `bisection_true_root`, `bisection_converges`, `bisection_default_budget_too_small`.

### C18 Brent keeps its bracket and never exceeds its budget

Model loop state; invariants.

Status: proved.  Theorems: `brent_gives_up`, `brent_report`, `brent_true_root`, `brent_stays_inside`.

Over the reals. The bracket-width test may fire with the other end at twice the tolerance, so the true-root bound is twice the tolerance.

### C19 Newton only reports a root it has checked

Model loop with backtracking; invariants.

Status: proved.  Theorems: `newton_converges`, `newton_report`, `newton_errors`, `newton_affine`.

### C20 RK4 is exact on cubics in time and calls its observer steps+1 times

Model step/integrate; exactness by ring.

Status: proved.  Theorems: `rk4_observer`, `rk4_cubic_exact`, `rk4_linear`.

### C21 The Dormand-Prince tableau is consistent to order five

Model tableau as rationals; norm_num on each condition.

Status: proved.  Theorems: `dopri_is_rungeKutta`, `dopri_order_conditions`, `dopri_linear`, `dopri_time_polynomial`.

### C22 The adaptive solver lands exactly on the end time or reports an error

Model loop with explicit error-norm oracle; invariants over linear ordered field.

Status: proved.  Theorems: `rk45_steps`, `rk45_rejects_span`, `rk45_no_overshoot`.

Contiguity, budget and end test hold for every scalar (rounding included); direction, no overshoot and the step cap are over the reals with a positive `max_step`.

### C23 Dense output interpolates the accepted step

Field identities and HasDerivAt.

Status: proved.  Theorems: `interpolate_ends`, `interpolate_cubic`.

### C24 Moving average is the mean of the last WINDOW samples, for any history

Ring-buffer refinement to list of samples.

Status: proved.  Theorems: `movingAverage_mean`, `movingAverageNew_ok_iff`, `movingAverage_const`.

### C25 Running median is a median of the last WINDOW samples and rejects spikes

Ring buffer plus insertion sort; median characterisation by counting.

Status: proved.  Theorems: `runningMedian_mem`, `runningMedian_median`, `runningMedian_rejects_spikes`.

### C26 Savitzky-Golay reproduces polynomials up to its degree

Normal equations solution reproduces polynomials.

Status: proved.  Theorems: `sg_reproduces_polynomials`, `sg_constructors`, `sg_accepts`, `sg_constant_fit`, `sg_line_fit`, `sg_reset`.

The pseudo-inverse is a parameter with the hypothesis that it is a left inverse of the fit matrix; this fails when the SVD cutoff drops a singular value (very long windows with many terms).

### C27 Slew limiter never moves faster than its rates and converges

State machine over histories in an ordered field.

Status: proved.  Theorems: `slew_step`, `slew_first`, `slew_between`, `slew_converges`, `slewNew_ok_iff`, `reset_is_fresh`.

### C28 Deadband and hysteresis behave as documented for every history

State machine over histories.

Status: proved.  Theorems: `hysteresis_reset`, `deadband_zero_iff`, `deadband_recentered`, `deadband_plain`, `hysteresis_history`, `hysteresis_inside`.

### C29 One-pole low-pass is a convex average: bounded, no overshoot, unit DC gain

State machine over histories; convexity.

Status: proved.  Theorems: `onePole_bounded`, `onePole_step_response`, `onePole_converges`, `onePole_fromCutoff`, `onePole_fromCutoff_range`, `reset_is_fresh`.

### C30 Biquad designs are stable with the documented DC/Nyquist gain

Real analysis of the design formulas with tan; negation witness for small Q.

Status: partial.  Theorems: `lowPass_highPass_stable`, `bandPass_notch_stable_partial`, `bandPass_notch_unstable`, `design_gains`.

Stability of band-pass and notch holds only above the bound in `bandPass_notch_stable_partial`; the negation is proved with a witness.

### C31 is_stable is exactly the pole criterion

Jury criterion for monic quadratics over C; decay of the recursion.

Status: proved.  Theorems: `isStable_iff_poles`, `biquad_zero_input_decays`, `biquad_forgets_state`, `biquad_input_vanishes`.

### C32 Biquad filtering implements the difference equation

State machine refinement to difference equation.

Status: proved.  Theorems: `biquad_difference`, `biquad_difference_start`, `biquad_settle`, `biquad_linear`.

### C33 PID output always respects its limits

Generic over linear order with arbitrary arithmetic.

Status: proved.  Theorems: `Pid.output_in_limits`, `Pid.output_in_limits_special`.

### C34 PID anti-windup never integrates further into saturation

Case analysis of update over an ordered field.

Status: proved.  Theorems: `derivative_filter`, `Pid.integral_accumulates`, `Pid.integral_held`, `Pid.integral_bounded`, `Pid.textbook`.

### C35 PID gain changes are bumpless and resume_from resumes

Field identities.

Status: partial.  Theorems: `Pid.setGains_bump_partial`, `Pid.setGains_not_bumpless`, `Pid.resumeFrom_output`, `Pid.resumeFrom_exact`, `Pid.resumeFrom_outside_limits`.

`resume_from` is exact within the limits; the documented bumpless claim for `set_gains` is refuted.

### C36 Pure pursuit steers on the circle through the lookahead point

The curvature equation of a circle tangent at the robot, solved uniquely; signs by the positive denominator.

Status: proved.  Theorems: `pursuit_reaches`, `pursuit_curvature`.

### C37 LQR/Lyapunov results are the certified sums

The doubling pass carries the first `2^j` terms of the series; the residual telescopes. The Riccati answer is characterised by its own residual check. The stability claim is refuted by a diagonal system evaluated in full.

Status: partial.  Theorems: `equations_refuse`, `equations_finite`, `lyapunov_result`, `lyapunov_answers`, `lyapunov_energy_partial`, `lqr_new_spec`, `lqr_certifies_unstable`, `certify_stability_posdef`.

Success does not certify stability (`lqr_certifies_unstable`); what a returned matrix satisfies exactly is proved.

### C38 Follow-the-gap commands stay inside their limits

Props/FollowTheGap: loop invariant of the gap search for any linear order and any arithmetic; limits over the reals; a simulation shows the special-value run equals the real run on the cleaned scan.

Status: proved.  Theorems: `FollowTheGap.compute_sanitized`, `FollowTheGap.compute_gap`, `FollowTheGap.compute_clearance`, `FollowTheGap.tryNew_valid`, `FollowTheGap.compute_limits`, `FollowTheGap.gap_width`, `FollowTheGap.aim_rule`, `FollowTheGap.compute_special`, `FollowTheGap.compute_limits_special`, `FollowTheGap.compute_refuses`.

Any scan and any number of beams, NaN and infinite readings included; the search for any rounding.

### C39 LU solve solves

Loop invariant on the packed matrix: permuted input equals finished columns times rows plus the untouched block; a zero pivot column kills every permutation product.

Status: proved.  Theorems: `lu_accepts`, `lu_factors`, `lu_solves`, `solve_sound`.

### C40 Cholesky succeeds exactly on positive definite matrices

symmetric_positive_definite is rewritten as F Fᵀ + I/4 (Props/MatrixBuilders); the quadratic form is |Fᵀx|² + |x|²/4, so cholesky_iff_positive_definite applies.

Status: proved.  Theorems: `cholesky_iff_positive_definite`, `cholesky_factors`, `cholesky_reads_lower`, `symmetric_positive_definite_spec`.

### C41 Closed-form determinant and inverse up to 4x4 agree with the definition

Closed forms by ring identities, larger sizes by the elimination result.

Status: proved.  Theorems: `determinant_correct`, `determinant_closed_forms`, `inverse_correct`, `inverse_refuses_singular`.

### C42 Matrix algebra obeys the ring laws

Fold loops equal finite sums; the laws are then Mathlib's matrix laws.

Status: proved.  Theorems: `matrix_ring_laws`, `cross_laws`, `vtryNormalized_spec`, `symmetrized_spec`.

### C43 Symmetric eigen-decomposition rotations are orthogonal similarity steps

Each rotation is an orthogonal similarity; the off-diagonal mass drops by twice the square of the removed entry; selection sort invariant.

Status: proved.  Theorems: `symmetricEigen_spec`, `symmetricEigen_refuses`, `clamped_symmetric`, `clamped_spec`, `eigen_derived`, `eigen_condition_number`.

### C44 Quaternion product is associative with multiplicative norm, and rotation is a homomorphism

Polynomial identities, the unit-norm hypothesis used as a ring relation.

Status: proved.  Theorems: `quaternion_algebra`, `rotation_laws`.

### C45 Quaternion, matrix and axis-angle agree

The nine products of components determine the quaternion up to sign; each pivot branch divides by a component shown large.

Status: proved.  Theorems: `toRotationMatrix_spec`, `tryFromRotationMatrix_spec`, `tryFromRotationMatrix_toRotationMatrix`, `fromAxisAngle_rodrigues`, `fromAxisAngle_tiny_axis`, `axisAngle_roundtrip`.

### C46 SO(3)/SE(3) are groups acting on points

The tangent space of SO(2) (Props/MatrixBuilders): derivatives of sine and cosine entry by entry, the addition theorems for the Jacobians.

Status: proved.  Theorems: `try_from_quaternion`, `so3_tryFromMatrix_rotation`, `so3_tryFromMatrix_only`, `so2_group`, `so2_matrix_interpolate`, `so2_tryFromMatrix_near`, `se2_group`, `se2_adjoint`, `so2_tangent`, `so3_group`, `se3_group`, `so3_fromQuaternion`.

### C47 exp and log are mutually inverse on the documented range

Polar form of the two-argument arctangent; the series branches are bounded by cubic sine bounds.

Status: proved.  Theorems: `so2_group`, `se2_exp_log`, `se2_log_exp_small`, `se2_jacobian_inverse`, `se2_jacobian_adjoint`, `exp_spec`, `quat_exp_spec`, `quat_log_exp`, `so3_log_exp`, `so3_jacobian`, `se3_exp_log`, `so3_exp_log`.

SO(3) for every angle (exact, or bounded by the squared angle in the series branch), SE(2) likewise, SE(3) and the Jacobians exact from 0.013 rad; the SE(3) series branch below that has no bound here; the full SE(3) Jacobians with `q_matrix_se3` are C101.

### C48 Twists and wrenches transform consistently and power is frame independent

Rotation preserves dot and cross products; matrix identities follow by testing on all vectors.

Status: proved.  Theorems: `se2_adjoint`, `twist_wrench_transport`, `adjoint_spec`, `adjoint_multiplicative`, `spatial_cross_laws`.

### C49 Spatial inertia transforms consistently

Momentum transport is the single lemma; energy, congruence and merging follow from it.

Status: proved.  Theorems: `from_diagonal_inertia`, `inertia_transport`, `inertia_congruence`, `inertia_combined`, `inertia_about_energy`, `inertia_new`, `inertia_transport_not_valid`, `freeJoint_tiny_refused`.

### C50 Rigid body accelerations satisfy Newton-Euler about any reference point

Props/RigidBody: the two laws as an equivalence; curves following `state_derivative` are differentiated (a carried vector changes by its own change plus spin cross it), constants by a vanishing derivative; the step along a principal axis and straight by induction.

Status: proved.  Theorems: `RigidBody.rigid_body_new`, `RigidBody.accelerations_laws`, `RigidBody.motion_norm`, `RigidBody.motion_balance`, `RigidBody.motion_free`, `RigidBody.step_axis`, `RigidBody.step_straight`, `RigidBody.steps_free_spin`, `RigidBody.state_vector_round_trip`, `RigidBody.state_derivative_tiny`.

Laws for every body, facing, spin and wrench; conservation along every curve that follows `state_derivative`; `stepped` is exact for straight motion and for spin about a principal axis through the balance point, its error elsewhere is not bounded.

### C51 Rotor lag is the exact solution of the first-order lag

Props/Plant: closed form over the reals; the derivative gives the flow; folds over histories.

Status: proved.  Theorems: `rotor_lag_reset`, `rotorLag_new_errors`, `rotorLag_flow`, `rotorLag_no_overshoot`, `rotorLag_history`.

### C52 Mixer thrusts are always within limits and saturation is reported exactly

Props/Plant: order-only reasoning for limits and flag (any rounding); the constructor's round-trip check gives the achieved wrench for any pseudo-inverse; XR for infinite commands.

Status: proved.  Theorems: `mixer_limits`, `mixer_wrench_physical`, `mixer_achieves`, `quadrotor_even`, `mixer_infinite_command`.

The pseudo-inverse is a parameter; the accuracy of an unsaturated wrench is what the constructor's round-trip test guarantees (1e-4), exact for an exact inverse.

### C53 Forward kinematics composes joint transforms along the tree

Props/KinematicTree: induction over pushes gives well-formed trees; the sweep satisfies the pose recurrence; screw motions of single joints by the exponential's axis laws.

Status: proved.  Theorems: `KinematicTree.built_wellFormed`, `KinematicTree.push_errors`, `KinematicTree.offsets_partition`, `KinematicTree.fk_recurrence`, `KinematicTree.fk_local`, `KinematicTree.fk_refusals`, `KinematicTree.push_axis`, `KinematicTree.link_motion`, `KinematicTree.push_limit_errors`, `KinematicTree.push_accepts_iff`.

### C54 The geometric Jacobian is the derivative of forward kinematics

Props/GeometricJacobian: induction up the tree of "this frame moves with this twist" (product rule for poses); the marked columns sum to the same twist; single columns by freezing all other readings.

Status: partial.  Theorems: `KinematicTree.jacobian_errors`, `KinematicTree.jacobian_twist_partial`, `KinematicTree.jacobian_column_partial`, `KinematicTree.jacobian_zero_columns`, `KinematicTree.floating_origin_jacobian_wrong`.

Any tree, configuration and joint velocity, at turns that are zero or beyond the 30/2^52 series threshold; a floating joint whose origin is turned is refuted with a witness.

### C55 Differential drive conversions are mutually inverse

Props/Drive: field identities; the step equals the closed-form circular arc, hence splits for lists of pieces by induction, has the unicycle's velocity; Taylor bounds (Lemmas/TrigBounds) for the series branch.

Status: proved.  Theorems: `drive_odometry`, `drive_new`, `drive_inverse`, `drive_rolling`, `odometry_exact`, `odometry_small`, `odometry_split`, `odometry_split_whole`, `odometry_unicycle`, `odometry_chord`, `odometry_eval`.

### C56 Segment and point distance queries are true minima

Props/Collision: the box-constrained convex quadratic satisfies the variational inequality in every branch; solids as point sets; check as a fold over any linear order; XR for NaN.

Status: partial.  Theorems: `closest_point_on_segment`, `closest_points_between_segments_partial`, `segment_pair_wrong`, `distance_to_partial`, `capsule_distance_wrong`, `check_errors`, `check_spec`, `query_push`, `check_ignores_nan`.

Exact except for segments between 0 and 2^-26 long (error at most 2^-25) and for non-parallel pairs whose squared sine area is at most 2^-52, where the code is wrong (witnesses proved).

### C57 IK results are what they say

the loop is an induction on the budget carrying what the report must say (any arithmetic); the limits are an invariant of the clamping fold; the position bound comes from the inverse left Jacobian never shortening a vector for rotation vectors up to pi; the travel bound from clamping being a contraction about points inside the limits.

Status: proved.  Theorems: `secondary_wanted`, `float_step`, `iteration_descends`, `ik_report_not_best`, `joint_step_optimal`, `secondary_bias_spec`, `ik_report`, `ik_refusals`, `ik_no_iterations`, `ik_inside_limits`, `ik_total`, `ik_distance`, `limited_step`, `advanced_step`, `ik_travel`, `joint_step_task`.

### C58 Kalman update keeps covariance symmetric positive semidefinite and never increases it

Props/Kalman: matrix identities for any dimensions with a gain solving K S = P Hᵀ; induction over histories of calls; completing the square gives the weighted least-squares point.

Status: proved.  Theorems: `KalmanFilter.kalman_update`, `KalmanFilter.kalman_information`, `KalmanFilter.kalman_predict`, `KalmanFilter.kalman_history`, `KalmanFilter.kalman_data_free`, `KalmanFilter.kalman_least_squares`, `KalmanFilter.kalman_normalized_innovation`, `ExtendedKalmanFilter.ekf_linear`, `ExtendedKalmanFilter.ekf_covariance`.

Over the reals, any dimensions and any history of calls; the extended filter takes its differentiator as a parameter.

### C59 Filters reject bad input without corrupting state

Props/Kalman, Props/Attitude: law-free, for every scalar type.

Status: partial.  Theorems: `attitude_refuses`, `attitude_failure_keeps`, `ErrorStateKalmanFilter.eskf_refuses`, `ErrorStateKalmanFilter.eskf_failure_keeps`, `ErrorStateKalmanFilter.failed_prediction_moves`, `ErrorStateKalmanFilter.eskf_predict_finite`, `kalman_refuses`, `kalman_failure_keeps`, `snap_refuses_nonfinite`, `ParticleFilter.particle_refuses`, `ParticleFilter.particle_predict_overwrites_partial`, `ukf_refuses`, `ukf_failure_keeps`.

Kalman, extended and unscented Kalman, particle, Mahony and Madgwick filters, for every scalar type; `ParticleFilter::predict` is refuted: its error leaves the particles replaced.

### C60 UKF weights reproduce mean and covariance; linear models give the Kalman filter

Props/Unscented: the weighted sums rewritten in terms of offsets from the centre point; their joint quadratic form is a weighted sum of squares, non-negative by Cauchy-Schwarz; linear models make the offsets cancel in pairs.

Status: partial.  Theorems: `UnscentedKalmanFilter.ukf_step`, `UnscentedKalmanFilter.ukf_history`, `UnscentedKalmanFilter.ukf_points`, `UnscentedKalmanFilter.ukf_linear_predict`, `UnscentedKalmanFilter.ukf_linear_update_partial`, `UnscentedKalmanFilter.ukf_update_omits_process_noise_partial`, `UnscentedKalmanFilter.ukf_second_update_partial`, `UnscentedKalmanFilter.ukf_first_update`, `UnscentedKalmanFilter.ukf_tuning`, `UnscentedKalmanFilter.ukf_negative_beta_partial`, `UnscentedKalmanFilter.ukf_normalized_innovation`.

Sigma points and linear prediction exact; positive (semi)definiteness for models of any shape and any history of predict/update pairs. The update equals the Kalman filter's only without process noise; with it, refuted by a witness. Two updates after one prediction can leave a negative variance.

### C61 Particle weights are a probability vector after every successful update

Props/ParticleNoise: draws are iterates of the source, so the k-th draw is the source advanced k times; roughening by induction on the axes done, the spread of an axis not yet reached being that of the resampled cloud.

Status: partial.  Theorems: `ParticleFilter.resample_spec`, `ParticleFilter.particle_count_kept`, `ParticleFilter.map_heaviest`, `ParticleFilter.ess_range`, `ParticleFilter.update_normalizes`, `ParticleFilter.update_bayes`, `ParticleFilter.update_degenerate`, `ParticleFilter.particle_nan_poisons_partial`, `ParticleFilter.mean_in_hull`, `ParticleFilter.gaussian_score`, `ParticleFilter.particle_noise`, `ParticleFilter.draws_successive`, `ParticleFilter.roughening_moves`, `ParticleFilter.particle_draws`.

Any state and any scores, NaN and infinities included. That an error leaves the filter usable is refuted: a NaN score stays for ever (`particle_nan_poisons_partial`).

### C62 Resampling schemes choose proportionally

Props/Resampling: ranges law-free; the walk's copies of a particle are the positions between two partial sums, counted by ceilings; the residual scheme by induction over the particles.

Status: partial.  Theorems: `resample_in_range`, `systematic_copies`, `systematic_unbiased`, `stratified_copies`, `multinomial_pick`, `residual_copies_partial`, `multinomial_never_zero_partial`, `multinomial_zero_draw_partial`.

Ranges and counts for any scalar type; copies over the reals. A draw of exactly zero makes the multinomial and residual schemes pick a first particle of no weight (`multinomial_zero_draw_partial`).

### C63 Ray casting terminates and reports the first occupied cell

Props/Mapping: law-free measure (steps left on each axis) bounds the passes; over XR an invariant of the walk (the beam at the entry distance is in the current cell, nothing blocked before it) gives the first blocked cell.

Status: proved.  Theorems: `OccupancyMap.castRay_start_blocked`, `OccupancyMap.castRay_terminates`, `OccupancyMap.castRay_first`.

### C64 Cell lookup finds the one cell holding a point; drawing blocks exactly the cells drawn

Props/Grid: floor and half-open cells; storage index bijection for any scalar; drawing as unions of looked-up points; density of samples by the chosen step.

Status: partial.  Theorems: `OccupancyMap.cellOf_iff`, `OccupancyMap.cellOf_total`, `OccupancyMap.cellOf_center`, `OccupancyMap.cellOf_infinite`, `OccupancyMap.cellOf_nan`, `DynamicOccupancyGrid.tryNew_spec`, `DynamicOccupancyGrid.setCell_spec`, `DynamicOccupancyGrid.occupyPoint_spec`, `DynamicOccupancyGrid.occupyPolyline_spec`, `DynamicOccupancyGrid.polyline_edge_dense`, `DynamicOccupancyGrid.occupyCircle_terminates`, `DynamicOccupancyGrid.circle_dense_partial`, `DynamicOccupancyGrid.circle_gap`.

Everything holds except drawing very large circles (radius above 400 cells) and looking up NaN points, both refuted with witnesses.

### C65 Nearest beam is nearest

Props/Scan: field algebra and rounding to the nearest integer.

Status: proved.  Theorems: `ScanGeometry.tryNew_cases`, `ScanGeometry.rangeIsValid_iff`, `ScanGeometry.constructed_valid`, `ScanGeometry.beam_angles`, `ScanGeometry.nearest_beam`, `ScanGeometry.nearest_beam_angle`.

### C66 Motion profiles reach the target within limits

walk the phases as one function of time; each phase is a polynomial whose derivative is the next component, phases chain, and the planned times multiply out to the target distance. Stretching is a change of variable in the walk.

Status: proved.  Theorems: `profile_peak`, `profile_motion`, `profile_jerk_limited`, `profile_errors`, `profile_non_finite`, `profile_stretched`, `synchronized_finish`, `synchronized_duration`, `synchronized_empty_nan`.

Both plan kinds, stretching and synchronising, over the reals. A synchronised profile of no axes accepts a NaN time (finding).

### C67 Closest point on a polyline is a true nearest point

Props/PolylinePath: law-free append lemma for building; clamped minimiser of a quadratic per leg; invariant of the scan over legs; arc lengths are monotone and name one point.

Status: partial.  Theorems: `path_single`, `push_eq_tryFromPoints`, `path_errors`, `closestPoint_nearest`, `atArc_unique`, `lookahead_stop_partial`, `lookahead_loop`, `closest_then_lookahead`, `path_too_short`, `lookahead_before_start`.

Everything holds except look-ahead targets before the start in stop mode, refuted with a witness.

### C68 Polynomial evaluation and arithmetic agree with algebra

Coefficient lists map to Mathlib polynomials by `ofCoeffs`; every loop is an identity there.

Status: proved.  Theorems: `Poly.polynomial_meaning`, `Poly.polynomial_degree`, `Poly.polynomial_linear`, `Poly.polynomial_multiply`, `Poly.polynomial_compose`, `Poly.polynomial_divide`, `Poly.polynomial_derivative`, `Poly.polynomial_all_derivatives`, `Poly.polynomial_integral`, `Poly.polynomial_substitutions`, `Poly.polynomial_resize`.

### C69 Closed-form roots are exactly the real roots

Factor each polynomial by the roots the formula returns; multiset equality with `Polynomial.roots`.

Status: proved.  Theorems: `Poly.quadratic_roots`, `Poly.linear_roots`, `Poly.cubic_roots`, `Poly.cubic_triple_root_once`, `Poly.quartic_roots`.

### C70 Sturm count is the number of distinct real roots

Sturm's theorem proved from scratch: local constancy of the sign variation plus the root count.

Status: partial.  Theorems: `Poly.sturm_count_partial`, `Poly.sturm_repeated_lower`, `Poly.sturm_repeated_lower_witness`, `Poly.sturm_repeated_upper`, `Poly.sturm_constant_panics`, `Poly.realRootsIn_never_converges`, `Poly.realRootsIn_partial`, `Poly.cauchyRootBound_spec`.

The claim holds when neither end point is a repeated root; the other cases are refuted with witnesses.

### C71 Interpolation passes through its points

Product of linear factors, Newton's divided differences and the Hermite endpoint systems as identities of Mathlib polynomials.

Status: proved.  Theorems: `Poly.fromRoots_spec`, `Poly.fromPoints_spec`, `Poly.chebyshevNodes_spec`, `Poly.fromEndpointSlopes_spec`, `Poly.fromEndpointDerivatives_spec`, `Poly.fromEndpointDerivatives_short`.

Covers roots, points, Chebyshev nodes, endpoint slopes and degree-seven endpoint data; least squares and jets are under C115.

### C72 Piecewise evaluation selects the right piece

Induction over the pieces; the integral is compared with Mathlib's interval integral of the evaluation.

Status: proved.  Theorems: `Poly.piecewise_evaluate`, `Poly.piecewise_accepted`, `Poly.piecewise_derivatives`, `Poly.piecewise_nth_derivative`, `Poly.piecewise_integral`, `Poly.piecewise_integral_additive`.

### C73 Multivariate polynomial operations preserve meaning

Lists of terms map to `MvPolynomial`; each operation is the operation there.

Status: partial.  Theorems: `try_from_terms`, `Poly.multivariate_evaluate_partial`, `Poly.multivariate_exponent_saturates`, `Poly.collect_like_terms_spec`, `Poly.multivariate_add`, `Poly.multivariate_add_room`, `Poly.multivariate_multiply`, `Poly.multivariate_multiply_room`, `Poly.multivariate_partial_derivative`, `Poly.multivariate_partial_derivative_room`, `Poly.multivariate_antiderivative`, `Poly.multivariate_substitute_partial`, `Poly.multivariate_substitute_room`, `Poly.multivariate_degrees`, `Poly.multivariate_to_univariate`, `Poly.multivariate_from_univariate`.

Evaluation agrees with the polynomial when no exponent is above `i32::MAX`; beyond it is refuted with a witness. The polynomial identities of the operations hold without that bound.

### C74 Composite quadrature is exact on polynomials of its degree for any interval count the constructor produces

Props/Integration: the rules are folds over nodes; panels are exact for degree <= 1, 3, 5 by a telescoping primitive, lifted to many variables by iterated integrals; trapezoidal error bound from Mathlib.

Status: proved.  Theorems: `fromParameters_count`, `iterative_exact`, `integral_exact`, `iterativeMulti_exact`, `iterativeSingle_repeated`, `booles_unrounded_wrong`, `trapezoidal_error_bound`, `iterativeSingle_nested`.

### C75 Integration limits are classified consistently

Props/Integration: law-free case analysis of classification and of what the samples do; XR for the order of NaN and infinite limits; changes of variable shown one-to-one with the weight equal to the derivative.

Status: proved.  Theorems: `single_nonFinite`, `multi_nonFinite`, `iterations_zero_first`, `classify_iff`, `limits_ill_defined`, `mapSample_bijection`, `mapSample_integral`, `tBounds_inside`, `gaussian_errors`, `gaussian_limits`, `gaussianSum_outcome`.

### C76 Line integrals telescope for gradients, reverse sign with the curve, and converge

Props/VectorField: the loop is a sum over chords; telescoping for gradients of quadratics; mean-value bound on each chord for general fields; the flux functions shown not to compute the flux.

Status: partial.  Theorems: `line_integral_quadratic_2d`, `line_integral_quadratic_3d`, `line_integral_constant`, `line_integral_reverse`, `line_errors`, `line_integral_error_2d`, `line_integral_error_3d`, `flux_integral_partial`, `flux_is_not_flux`.

### C77 Divergence of a curl and curl of a gradient vanish

Props/VectorField: combination of C09/C10 (partial derivatives) and symmetry of mixed partials.

Status: proved.  Theorems: `curl_divergence_spec`, `curl_gradient`, `divergence_curl`.

### C78 Linear and quadratic approximations match value and derivatives

Props/Approximation: law-free description of what the approximators store; exact algebra over the reals for the forms and the metrics; XR for the quadratic, whose Hessian loop needs a NaN sentinel.

Status: proved.  Theorems: `linear_approximate_spec`, `quadratic_approximate_spec`, `metrics_nan`, `approximation_forms`, `approximation_tangent`, `linear_approximation_autodiff`, `metrics_spec`, `quadratic_reproduced`, `adjusted_counts`.

### C79 Discretisation formulas are exact

Props/Discretization: the augmented matrix is block triangular, so Pade numerators, denominators and powers are too (intertwining with the block projections); the corner block of its exponential is identified by differentiating; van Loan symmetry because the augmented matrix is Hamiltonian, which Pade approximants turn into exactly symplectic.

Status: partial.  Theorems: `zoh_accuracy`, `zoh_nilpotent`, `zoh_hold`, `zoh_semigroup_partial`, `zoh_semigroup_fails`, `van_loan_accuracy`, `van_loan_symmetric`, `van_loan_nilpotent`, `timestep_refused`, `white_noise_rank_one`.

Accuracy is for exact arithmetic; the semigroup law is refuted in general and proved where the exponential is exact.

### C80 Solvers never exceed their evaluation budgets

Props/Optimization: one soundness record (evaluations, points seen, report) carried through the loops by induction, for every scalar type; descent with real arithmetic. Props/OptimizationExact: what gradient termination means, the trust-region step solves the damped equations, the predicted reduction is exact.

Status: proved.  Theorems: `gauss_newton_verdicts`, `gauss_newton_run`, `gauss_newton_backtracks`, `levenberg_marquardt_run`, `minimize_underdetermined`, `levenberg_marquardt_descends`, `levenberg_marquardt_step_descends`, `levenberg_marquardt_gtol`, `gauss_newton_gtol`, `trust_region_step`, `predicted_reduction_exact`, `gauss_newton_linear`, `gauss_newton_stalls`.

### C81 Pairwise summation error grows with log n

Same generic invariant as C14 with a relative-error claim at each tree depth.

Status: proved.  Theorems: `PairwiseSum.pairwise_error_bound`.

### C82 PID after a bad reading

XR scalar; invariant that the integral stays NaN.

Status: proved.  Theorems: `pid_reset_fresh`, `pid_first_update`, `Pid.nan_measurement_sticks`, `Pid.reset_forgets`.

### C83 magnitude_at and phase_at describe the running filter

Complex exponential solves the difference equation; difference to any run decays.

Status: proved.  Theorems: `magnitude_phase`, `biquad_steady_state`, `biquad_steady_state_cos`.

### C84 Cascade equals its sections in series

Induction over sections using the steady state with a vanishing disturbance.

Status: proved.  Theorems: `cascade_series`, `cascade_steady_state`, `cascade_settle`, `harmonicNotch_removes`.

### C85 Grid output of the adaptive solver

Induction over accepted steps and the leftover grid; the failing case is a step that stops inside the end tolerance.

Status: partial.  Theorems: `grid_values`, `grid_refuses_valid_times`, `grid_served_partial`.

The claim that every grid within the span is served is false (`grid_refuses_valid_times`); it holds when the last step ends on the final time (`grid_served_partial`).

### C86 Compensated summation error does not grow with the number of terms

Invariant on the corrected total (sum minus compensation); each step adds order u in the new term only.

Status: proved.  Theorems: `kahan_error_bound`.

### C87 from_two_vectors is the shortest rotation between two directions

The half-way vector gives the half-angle quaternion; the antiparallel branch uses a perpendicular axis shown nonzero.

Status: proved.  Theorems: `fromTwoVectors_spec`, `fromTwoVectors_zero`.

### C88 from_two_direction_pairs recovers the orientation

Two orthonormal triads, their change of basis is a rotation matrix, then the matrix-to-quaternion theorem.

Status: proved.  Theorems: `fromTwoDirectionPairs_spec`, `fromTwoDirectionPairs_parallel`.

### C89 slerp moves along the shortest arc at constant angular speed

Two-vector combination with sine weights has unit norm by the addition theorem; the angle is read off by the arccosine.

Status: proved.  Theorems: `rotationAngleTo_spec`, `slerp_spec`.

### C90 Euler angles are yaw-pitch-roll and convert back

Half-angle identities for the five matrix entries read back; a rotation matrix is determined by its first column and last row off the poles.

Status: partial.  Theorems: `fromEulerZyx_spec`, `toEulerZyx_fromEulerZyx`, `fromEulerZyx_toEulerZyx_partial`, `toEulerZyx_band_mismatch`.

Exact outside the gimbal-lock band and at the poles; inside the band it is refuted with a witness.

### C91 Motion profiles are time-optimal

a rival is averaged with its own reversal, so its acceleration vanishes half-way; it then stays under the planned ramp, by comparing derivatives interval by interval, and falls short of half the distance.

Status: proved.  Theorems: `trapezoid_time_optimal`, `jerk_time_optimal`.

### C92 Attitude integration follows the turn rate and never leaves the rotations

Props/Attitude: half-angle addition along an axis; induction over steps for the exact nodes and for the length; Rodrigues' formula differentiated.

Status: proved.  Theorems: `integrate_attitude_shape`, `attitude_steps_add`, `integrate_attitude_exact`, `attitude_step_derivative`, `integrate_attitude_norm`, `accelerated_steps_add`.

Exactness for turns of zero or at least 30/2^52 per step; the length bound for every turn.

### C93 Complementary attitude filters keep rotations, settle, and leave agreeing readings alone

Props/Attitude: induction over histories; the corrected facing moves along the great circle, so the lean obeys a one-dimensional law.

Status: proved.  Theorems: `attitude_stays_rotation`, `attitude_agree`, `mahony_finds_level`, `mahony_settles`, `madgwick_finds_level`, `madgwick_settles`, `madgwick_bounded_nudge`, `reference_directions`, `attitude_free_fall`, `with_reference_directions`.

Settling is proved with the push sensor alone on a still body; an upside-down start is never corrected (`madgwick_finds_level`).

### C94 Monte Carlo localisation scores, moves and summarises guesses correctly

Props/Localizer: beam by beam comparison of sums; the heading by Cauchy-Schwarz in the plane.

Status: proved.  Theorems: `converged_means`, `converged_iff`, `truth_scores_best`, `localization_motion`, `estimate_position`, `estimate_heading`, `estimate_spread`.

### C95 Ready-made process and measurement models

Props/Localizer: derivatives of the arc; Taylor bounds for the straightened one.

Status: partial.  Theorems: `constant_turn_exact`, `constant_turn_straight`, `constant_turn_compose`, `direct_measurement`, `residual_wrapped`, `residual_half_turn_partial`.

Everything holds except the documented half-open range of a wrapped residual: a difference of pi comes back as -pi.

### C96 Pivoted QR and least squares

Props/Qr, Props/LeastSquares: each Householder step multiplies by an orthogonal matrix; the packed form denotes the product; normal equations from orthogonality.

Status: proved.  Theorems: `qr_factorises`, `least_squares_correct`, `least_squares_rank_deficient`, `enorm_spec`.

### C97 Damped least squares

Props/Damped: each Givens elimination keeps the Gram matrix and the right-hand side of the stacked system.

Status: proved.  Theorems: `damped_solve_correct`, `undamped_solve_correct`, `cholesky_factor_solve`, `max_atb_scaled_spec`, `a_x_norm_spec`, `is_non_singular_spec`.

### C98 Singular value decomposition and pseudo-inverse

each rotation of the one-sided Jacobi iteration keeps left = A * right and right orthogonal, makes its two columns perpendicular and multiplies the product of squared column lengths by one minus the squared cosine of their angle; so a sweep either rotates nothing (everything is perpendicular to rounding) or shrinks that product.  The pseudo-inverse results are pure algebra on U D V^T.  The hypothesis of exact perpendicularity in the Moore-Penrose theorems is what a floating-point or sixty-sweep run only approximates; it holds exactly for one column and for perpendicular columns (svd_orthogonal_columns).

Status: partial.  Theorems: `svd_spec`, `svd_orthogonal_columns`, `svd_two_columns`, `svd_wide`, `svd_not_finite`, `svd_left_orthonormal_partial`, `svd_rank`, `svd_pseudo_inverse_eq`, `svd_truncation_error`, `svd_moore_penrose`, `svd_solve`, `pseudo_inverse_wide`, `svd_default_cutoff`, `svd_condition_number`.

### C99 Jacobian inverses, singularities and multi-start

K = M M^+ - 1 satisfies K M K^T = 0, which for M = B B^T + c 1 forces K B = 0; everything about the damped inverse and the projector follows.  Multi-start is an induction over the seeds.  As in C98 exactness of the inner decomposition is a hypothesis where the result needs it.

Status: partial.  Theorems: `damped_pseudo_inverse_optimal`, `null_space_projector_spec`, `null_space_damped_partial`, `geometric_jacobian_padded`, `smallest_singular_value_bound`, `smallest_singular_value_deficient`, `classify_singularity_spec`, `multi_start_report`, `multi_start_refusals`, `solve_seeded_seeds`, `closest_to_least`, `jittered_seed_range`.

### C100 The matrix exponential

Lemmas/Pade: the (6,6) Pade approximant as a power series identity, so its remainder is bounded in any Banach algebra; Lemmas/MatrixExp: column-sum norms; Props/Expm: the elimination in `lu` accepts the denominator because it is near the identity; squaring multiplies relative errors.

Status: proved.  Theorems: `expm_accuracy`, `expm_nilpotent`, `expm_inverse`, `expm_finite`, `expm_overflow_hangs`.

### C101 Jacobians of the exponential maps are their derivatives

Props/LieJacobian: Rodrigues coefficients as functions of the squared angle, their derivatives in terms of themselves, one polynomial identity per component; the coupling block reduced by triple-product identities first.  Props/PlanarJacobian: the planar coefficients' derivatives are the coupling coefficients.

Status: proved.  Theorems: `so3_coefficients`, `se3_coefficients`, `so3_left_jacobian_derivative`, `so3_right_jacobian`, `se3_left_jacobian_derivative`, `se3_right_jacobian`, `se3_jacobian_inverse`, `se2_left_jacobian_derivative`, `se2_right_jacobian`, `se2_right_jacobian_inverse`.

SO3 for every rotation vector above the exponential's own threshold (6.7e-15); SE3 derivative for rotation parts above 0.051, where every coefficient uses its closed form; below, the coefficients are bounded but the derivative of the branchy map is not stated.

### C102 The error-state Kalman filter

the fifteen error numbers are five groups of three, so every 15x15 matrix is handled by blocks; the transition and the reset are invertible, so definiteness survives; the gain facts are those of C58; the sensor Jacobian is the autodiff theorem of C01 applied to the sixteen numbers of the state, whose dual parts are computed from the exponential at zero.

Status: proved.  Theorems: `ErrorStateKalmanFilter.eskf_predict`, `ErrorStateKalmanFilter.eskf_fold`, `ErrorStateKalmanFilter.eskf_update`, `ErrorStateKalmanFilter.eskf_condition`, `ErrorStateKalmanFilter.eskf_history`, `NominalState.error_of_plus`, `NominalState.plus_of_error`, `ErrorStateKalmanFilter.transition_velocity_position`, `ErrorStateKalmanFilter.transition_rotation`, `ErrorStateKalmanFilter.transition_gyroscope_bias`, `ErrorStateKalmanFilter.measurement_jacobian_exact`, `ErrorStateKalmanFilter.nees_spec`, `ErrorStateKalmanFilter.eskf_normalized_innovation`, `ErrorStateKalmanFilter.noise_density_depends_on_rate`, `ErrorStateKalmanFilter.random_walk_rate_free`, `ErrorStateKalmanFilter.eskf_refuses`, `ErrorStateKalmanFilter.eskf_failure_keeps`, `ErrorStateKalmanFilter.failed_prediction_moves`, `ErrorStateKalmanFilter.eskf_predict_finite`, `ErrorStateKalmanFilter.eskf_standing_still`.

The transition's rotation row is exact for errors without a gyroscope-bias part when the step's own turn is a unit quaternion; its gyroscope-bias column is shown to be the identity in place of the right Jacobian. Rounding is not modelled.

### C103 The attitude controller brings the body onto a moving target

the relative rotation is a quaternion product, so the pointing error and misalignment are polynomials in it; the derivative of the energy along the closed loop; a cross term makes the energy strictly decreasing at an exponential rate inside the half-turn level set. The example's motion is a pendulum from the Picard-Lindelof theorem.

Status: proved.  Theorems: `GeometricAttitude.attitude_error_length`, `GeometricAttitude.attitude_error_axis`, `GeometricAttitude.balance`, `GeometricAttitude.torque_frame_free`, `GeometricAttitude.attitude_new`, `GeometricAttitude.Tracking.misalignment_deriv`, `GeometricAttitude.Tracking.rate_error_dynamics`, `GeometricAttitude.Tracking.energy_deriv`, `GeometricAttitude.Tracking.energy_falls`, `GeometricAttitude.attitude_converges`.

Exact arithmetic, the controller's inertia equal to the body's, and a torque applied in continuous time; motors, sampling and rounding are not modelled.

### C104 A thrust command produces exactly the acceleration asked for

the frame (forward, side, up) is a rotation; the forward axis maximises the product with the heading by Cauchy-Schwarz applied to the two cross products with the up axis.

Status: proved.  Theorems: `thrust_command`, `thrust_level`, `thrust_refuses`.

### C105 A minimum-snap plan is the one cheapest path through its waypoints

assembling the planner's system is a fold; one invariant says what every entry is. Solving it makes the settled data balance against every change that respects the fixed slots. Integration by parts four times turns that balance into the orthogonality of the snap of the curve to the snap of any difference, so a competitor's cost is the curve's cost plus the cost of the difference (`cost_split`); no cost and no starting data means no difference (`no_cost`). `glue` and `within_eq` move between the pieces and one path on a closed interval. Over the real numbers; rounding is not modelled.

Status: proved.  Theorems: `minimum_snap_optimal`, `MinimumSnapPlanner.minimum_snap_verdicts`, `MinimumSnapPlanner.minimum_snap_one_segment`, `MinimumSnapPlanner.minimum_snap_short`, `MinimumSnapPlanner.minimum_snap_two_segments`, `durations_from_average_speed`, `snap_refuses_nonfinite`.

Over the real numbers; the loops, validation, padding and symmetrisation are modelled as written. Two capacities are arguments.

### C106 Newton's method on systems does the documented steps, converges quadratically, and reports honestly

one specification of the line search and one of the loop (`systemSearch_spec`, `systemLoop_spec`) give reports and errors. A one-dimensional Taylor bound along the segment to the root, applied to each component, bounds the error of a full step by half the Lipschitz constant times the square of the distance (`Tame.contract`); induction over the loop gives convergence and the budget. The same bound serves the scalar solver (`newton_converges`, C19).

Status: proved.  Theorems: `newton_system_report`, `newton_system_error`, `newton_system_step_exact`, `newton_system_converges`, `newton_system_default`, `newton_system_root_unique`, `newton_system_affine`, `newton_system_last_step_untested`.

Reports and errors for every scalar type; steps, convergence and affine systems over the real numbers, with the LU conditioning check as written. Convergence is for the default, without backtracking.

### C107 Resolving a URDF accepts exactly the trees, and lists their bodies in depth-first order

the loop over the joints has one invariant (driven, incoming, children). Depth below the root is unique, so it is smaller than the number of links and the walk ends; the walk's bodies and the links visited are related by a predicate that survives appending. Links left over have a predecessor among themselves, so the pigeonhole principle gives a cycle above them.

Status: proved.  Theorems: `Urdf.urdf_build_ok`, `Urdf.urdf_build_error`, `Urdf.urdf_build_terminates`, `Urdf.urdf_build_iff`, `Urdf.urdf_names_distinct`, `Urdf.urdf_cycle_names_wrong_link`.

Starts from the parsed link and joint lists; the XML text and the attribute readers are not modelled. Strings compare by code point, which agrees with Rust's byte order on UTF-8.

### C108 A robot model becomes the kinematic tree its bodies describe, whole or along one chain

climbing parents strictly decreases the index; every wanted slot finds its parent among earlier slots, so no `unreachable!` is reached; the two trees hold the same joints, so the recurrence of forward kinematics gives equal poses by induction along the path. The MJCF walk keeps its invariant by mutual induction over the document.

Status: proved.  Theorems: `RobotModel.robot_path`, `RobotModel.robot_tree`, `RobotModel.robot_chain_tree`, `RobotModel.robot_tree_errors`, `RobotModel.robot_chain_errors`, `RobotModel.robot_chain_pose`, `RobotModel.urdf_model_ordered`, `mjcf_model_ordered`, `robot_tree_free_first`, `mjcf_floating_base_not_root`.

The MJCF reader is modelled from each body's parsed attributes on; that its joint reader describes only hinges and slides is a hypothesis, as is that the URDF joint reader describes no weld.

### C109 Inertia read from MJCF geoms is that of the matter they describe

The solids are defined as sets of points (a capsule is the set of points within its radius of a segment) and `Lemmas/Solids.lean` computes their volume and all first and second moments by slicing and polar coordinates; the ellipsoid is a scaled ball, odd moments vanish by reflection. `geom_inertia` and `mjcf_body_inertia` then say that what is read are integrals over the placed solids; the parallel-axis theorem is proved on the way. Sizes are assumed positive: the reader itself accepts negative sizes when a mass is stated, and the theorems say nothing about those. Parsing of the attribute text is outside the model, and numbers are exact reals.

Status: proved.  Theorems: `Mjcf.geom_volume_spread`, `Mjcf.geom_inertia`, `Mjcf.geom_accepts`, `Mjcf.geom_refusals`, `Mjcf.composite_inertia`, `Mjcf.composite_accepts`, `Mjcf.mjcf_body_inertia`, `Mjcf.mjcf_body_accepts`.

### C110 MJCF attributes mean what the class hierarchy, the compiler settings and the inertial element say

induction over nested default blocks with the list of enclosing blocks carried along (`pathsOf`); layers merged attribute by attribute equal the first that states it; case analysis of joint settings against the declarative relation `Travel`; eigenvectors of the turned tensor from orthogonality of the rotation's columns.

Status: proved.  Theorems: `mjcf_classes`, `mjcf_geom_precedence`, `mjcf_joint_precedence`, `mjcf_second_unnamed_block`, `mjcf_joint`, `mjcf_joint_count`, `mjcf_stated_inertia`, `mjcf_stated_inertia_accepts`, `mjcf_inertia_source`.

### C111 Gaussian quadrature of every order integrates what polynomials below twice its order approximate

the 90 tables are transcribed literal by literal; all 2n moments of each are compared with the exact ones by kernel evaluation over natural numbers (`decide +kernel`, no `native_decide`), with Mathlib's 20-digit bounds on pi for the Hermite family; from the moments, linearity gives all polynomials, positivity of weights and nodes inside the range give all functions near a polynomial, and substitution gives all intervals.

Status: proved.  Theorems: `GaussianTables.gauss_legendre`, `GaussianTables.gauss_laguerre`, `GaussianTables.gauss_hermite`.

### C112 URDF elements are read as the specification means them

Model/Urdf starts from the element tree roxmltree returns, with str::parse::<f64> as a parameter; Props/Urdf gives white-space splitting an inductive specification, each reader a case split into what it yields and why it refuses, and composes them with C107 into a statement about whole documents.

Status: proved.  Theorems: `Urdf.urdf_numbers`, `Urdf.urdf_first_child`, `Urdf.urdf_origin`, `Urdf.urdf_inertial`, `Urdf.urdf_joint`, `Urdf.urdf_load`.

### C113 Source generated from a robot model rebuilds that model

Model/Codegen represents the emitted text by its statements and gives them a meaning (`run`); that meaning is compared with C108's tree builder by a simulation over the list of joints, trees of different capacities being related by what they hold.

Status: proved.  Theorems: `Codegen.source_errors`, `Codegen.source_limit`, `Codegen.source_compiles`, `Codegen.source_rebuilds`, `Codegen.source_runs`, `Codegen.source_converts`, `Codegen.source_limit_witness`, `Codegen.source_panics`, `Codegen.source_infinite`, `Codegen.source_comment`.

The text around the numbers, and that a finite number written with `{:?}` reads back as itself, are trusted; the statements and their meaning are modelled.

### C114 An MJCF model split over several files loads as one document

Model/MjcfDocument works on lists of tags; tag matching is proved inverse to rendering a tree, and one induction over the tree with arbitrary text on both sides (`splice_forest`) shows that overwriting from the last include to the first is substitution on the tree. Chains of includes give the theorems on circles and depth.

Status: proved.  Theorems: `Mjcf.include_assembly`, `Mjcf.include_load`, `Mjcf.include_needs_file`, `Mjcf.include_circle`, `Mjcf.include_too_deep`, `Mjcf.include_succeeds`, `Mjcf.include_nested_panics`.

Dividing the text into tags and reading a tag's name and attributes are trusted (roxmltree); ranges count tags rather than bytes.

### C115 A least-squares polynomial is the best one, and a jet's polynomial is its Taylor polynomial

Normal equations of the scaled design matrix carried back through the affine substitution; the Gram determinant bounds the last pivot for lines; the vanishing polynomial of the nodes refutes uniqueness when there are too few.

Status: proved.  Theorems: `Poly.fit_least_squares`, `Poly.fit_undetermined`, `Poly.fit_line_succeeds`, `Poly.from_jet_copies`, `Poly.from_jet_taylor`.

Over the reals; the sample count is at most the cube root of the largest number. A fit of three or more coefficients may still be refused as badly conditioned; only lines are proved always to be found.

### C116 The distance between configurations is a distance

The wrapped difference is the least over all whole turns; Minkowski's inequality on the per-joint lengths; induction over the links for zero distance, up to the sign of the quaternion.

Status: proved.  Theorems: `KinematicTree.distance_symmetric`, `KinematicTree.distance_explicit`, `KinematicTree.distance_whole_turns`, `KinematicTree.distance_triangle`, `KinematicTree.distance_zero_same_pose`.

The triangle inequality is proved for trees without a floating base; with one it holds only up to the logarithm's small-angle series. Zero distance implies equal poses except for freely turning readings inside the exponential's series threshold.

### C117 Gaussian quadrature in several variables is the product rule

each level of the nested loops is a finite weighted sum, so that the whole is `nested`, proved equal to the loops by induction on the levels; products split by induction with `Function.update`, linearity and the exchange of two levels are facts about finite sums, permutations follow by `List.Perm` induction; the bound over a box is C111 for each factor together with Mathlib's Fubini theorem for products.

Status: proved.  Theorems: `GaussianTables.gauss_multi_product`, `GaussianTables.gauss_multi_linear`, `GaussianTables.gauss_multi_order`, `GaussianTables.gauss_multi_box`, `GaussianTables.gauss_single_repeated`.

### C118 Delay and decibels of filters and cascades

numerator and denominator of each design are written in polar form (the denominator times one sample of advance has positive imaginary part, so its arctangent never wraps); the steady state is C83/C84 restated in seconds; the decibel literal is compared with 20/ln 10 through Mathlib's bounds on ln 2 and ln 5; the removed frequency is proved over the reals with infinities.

Status: proved.  Theorems: `low_pass_delay`, `high_pass_delay`, `band_pass_delay`, `notch_delay`, `delay_means`, `cascade_delay_means`, `cascade_delay_sum`, `decibels_spec`, `decibels_removed`, `pure_delay_reported_early`.

### C119 An MJCF document loads as the robot its elements describe

Props/MjcfRead: mutual induction on the element tree; a body list with the bodies around each is computed from the document alone, and the walk's output is matched to it place by place, parents by position; attribute readers are turned into equivalences with what the texts spell.

Status: partial.  Theorems: `Mjcf.mjcf_compiler`, `Mjcf.mjcf_geom_attributes`, `Mjcf.mjcf_joint_attributes`, `Mjcf.mjcf_orientation`, `mjcf_default_elements`, `mjcf_top_level`, `mjcf_load`, `mjcf_pose`, `mjcf_joint_element`, `mjcf_inertia_elements`, `mjcf_include_inside`, `mjcf_second_worldbody_partial`, `mjcf_root_include_lost_partial`.

The element tree is that of roxmltree; record-level errors do not name their body. Partial because `ignored()` promises every top-level element nothing was read from, and a second worldbody or compiler is read by nobody and not listed.

### C120 Brent's method converges on every sign change

Props/BrentConverges: every pass cuts the bracket by a quarter, or takes a step less than half the step before last, or swaps the ends; after a swap the three values are ordered so that inverse quadratic interpolation moves at least half the bracket; induction on the number of quarter cuts, with an inner induction on the exponents of the last two steps.

Status: proved.  Theorems: `brent_converges`, `brent_interpolates`, `brent_affine`.

### C121 The integrators converge to the solution of the differential equation

stage differences bounded by the Lipschitz constant, local error by the mean value inequality, accumulated by induction over steps; fourth order on linear systems by Taylor's theorem on the solution.

Status: proved.  Theorems: `rk45_converges`, `rk45_grid_converges`, `rk4_stable`, `rk4_converges`, `rk4_linear_order`.

### C122 The composite rules converge on every continuous integrand, each at its own order

the rule is split into panels by induction along its sample walk; each panel has positive weights adding up to its width and is exact on the polynomials of the rule; Taylor's theorem gives the orders.

Status: proved.  Theorems: `composite_error`, `composite_converges`, `composite_lipschitz`, `composite_order`.

### C123 Finite differences converge to the derivative, at the stated order

mean-value induction: differentiation commutes with each divided difference, so the order-n nested difference is the n-th derivative at an interior point of the window (fdWindow/fdInner); error bounds from the mean value inequality; central second order via a two-sided Taylor bound pushed through the recursion; mixed partials by the same argument along coordinate axes (HasLineDerivAt); Jacobian columns row by row.

Status: proved.  Theorems: `fdSingle_mean_value`, `fdSingle_error`, `fdSingle_central_error`, `fdSingle_converges`, `fdMulti_mean_value`, `fdColumn_mean_value`.

### C124 Retuning and clearing running filters, and one filter over every component of a vector

law-free for the bookkeeping (list and command-sequence induction); field arithmetic for the retune transition; the real-number forgetting theorem of C31 for stability

Status: proved.  Theorems: `set_section_spec`, `cascade_reset_fresh`, `cascade_reset_after_run`, `multi_channel_independent`, `multi_channel_value`, `retune_transition`, `retune_disturbance`, `retune_forgets`.

### C125 Normalising a vector

law-free for in place against copy; reals for length and direction; extended reals for special values; arithmetic with overflow for the counterexample

Status: partial.  Theorems: `try_normalize_in_place`, `try_normalized_spec`, `try_normalized_special`, `try_normalized_infinite_partial`, `try_normalized_overflow_partial`.

Proved for finite vectors over exact reals, for NaN entries, and for in place against copy. Missing because false: infinite entries, and finite entries whose squares overflow.

### C126 Nothing that is not a number gets lost in a linear solve

any arithmetic with absorbing NaN: invariant of the elimination loop (some entry stays NaN, the permutation stays onto) and of the substitution folds; extended reals for infinite entries (the ill-conditioning test against an infinite scale)

Status: partial.  Theorems: `solve_keeps_nan`, `cholesky_keeps_nan`, `inverse_keeps_nan`, `solve_vouches`, `cholesky_positive_partial`, `singular_means_zero_column_partial`.

Proved: a NaN or infinite entry is refused or shows up as NaN in the answer. Missing because false: that cholesky's diagonal is strictly positive whenever it returns, and that Singular (and a zero determinant from five rows on) means an all-zero pivot column.

### C127 Noise in finite differences and the default step

The perturbation bound is an induction over the order; the balance of the default steps is AM-GM written as squares ((a+b)^3 - 27/4 a^2 b = (a-2b)^2 (a+b/4)); the error combines it with C123.

Status: proved.  Theorems: `fdSingle_noise`, `default_step_balances`, `default_step_error`.

### C128 Checked access to vectors and matrices

List.ofFn_mul identifies the row-major slice; the rest is case analysis on the bounds.

Status: proved.  Theorems: `try_from_slice_iff`, `try_from_row_slice_iff`, `checked_reads`, `checked_writes`.

### C129 Levenberg-Marquardt resizes its trust region as documented, and rejected steps always shrink it

the directional derivative is minus a sum of squares, so the shrink factor is at most a half; induction on the retries.

Status: proved.  Theorems: `levenberg_marquardt_verdicts`, `trust_region_resize`, `rejected_trials_shrink`, `trial_verdicts`.

## Where the code and its documentation disagree

Each item has a theorem in the model with a concrete witness unless it says otherwise.

* Streams that differ only in their top bit are the same generator, although the documentation says distinct streams are independent (`pcg_stream_top_bit_ignored`).
* `BiquadCoefficients` band-pass and notch designs with a small quality factor are accepted and unstable, although `is_stable` is documented as always true for designs (`bandPass_notch_unstable`; the true condition is `bandPass_notch_stable_partial`).
* `Pid::set_gains` says the next call returns what the old gains would have given; it does not when the derivative moved, the error changed or the integral gain changed (`Pid.setGains_not_bumpless`, complete accounting in `Pid.setGains_bump_partial`).
* `Pid::resume_from` returns exactly the given command only when that command is within the output limits (`Pid.resumeFrom_outside_limits`).
* One NaN measurement pins every later PID output to the lower output limit until `reset` (`Pid.nan_measurement_sticks`).
* `Bisection` says halving always fits within the default budget of 100 iterations; a step function on the bracket ±2^60 exhausts it (`bisection_default_budget_too_small`; the sufficient budget is `bisection_converges`).
* `Rk45::solve_on_grid` can refuse a grid inside the span: when a step lands within the solver's end tolerance but short of the final time, the last grid time belongs to no step and the answer is `LimitsIllDefined` although `solve` succeeds (`grid_refuses_valid_times`; the remaining case is `grid_served_partial`).
* `Polynomial::real_roots` on a cubic with a triple root lists it once, although the documentation says repeated roots are listed as often as they occur (`cubic_triple_root_once`).
* `count_real_roots` is wrong when an end point is a repeated root: zero for a repeated lower end (`sturm_repeated_lower`), too many for a repeated upper end (`sturm_repeated_upper`). The correct range is `sturm_count_partial`.
* `real_roots_in` on x²(x-1) over (-4, 4] fails for every tolerance and budget (`realRootsIn_never_converges`).
* `count_real_roots` on a nonzero constant stored in two or more coefficients computes `1 - 2` in `usize` and panics with overflow checks (`sturm_constant_panics`).
* `MultivariatePolynomial::evaluate`, `gradient_at` and `substitute` saturate exponents above `i32::MAX`: the product of two terms `x^(2^30)` is accepted and evaluates to `-1` at `-1` (`multivariate_exponent_saturates`; the range without saturation is `multivariate_evaluate_partial`).
* `Lqr::certify_stability` can certify a loop that does not settle: the settling test compares the last increment with the whole norm, so `A = diag(0, 2)` without input and cost `diag(2^60, 1)` passes both the Riccati residual check and the Lyapunov solve (`lqr_certifies_unstable`; the exact energy balance is `lyapunov_energy_partial`).
* `Quaternion::from_axis_angle` documents the identity for a zero-length axis only; every axis of length at most one rounding unit gives the identity whatever the angle (`fromAxisAngle_tiny_axis`).
* `SpatialInertia::from_parts` relies on bodies derived from validated ones never violating `new`'s constraints; turning an accepted (not positive definite) inertia gives a negative diagonal entry (`inertia_transport_not_valid`).
* `FreeJointState::from_generalized_vectors` documents `None` for all-zero orientation numbers only; any orientation of length at most one rounding unit is refused (`freeJoint_tiny_refused`).
* `Quaternion::to_euler_zyx` snaps the pitch to the pole inside a band and says reconstruction still matches; off the pole it misses by about 1e-7 (`toEulerZyx_band_mismatch`; outside the band and at the poles it is exact, `fromEulerZyx_toEulerZyx_partial`).
* A program run on `HyperDual` can take the other branch than the plain run: `HyperDual` divides by multiplying with the rounded reciprocal, so `49/49 < 1` holds there in binary64 (`hyperDual_branch_differs`).
* C74: iteration counts above 12000 are not rounded to a multiple of the panel size, so Boole's and Simpson's rules are then wrong even on a constant (`booles_unrounded_wrong`).
* C76: `flux_integral_2d` and `_3d` subtract the line-integral components instead of forming the flux; for constant fields the value is P*dx - Q*dy where the flux is P*dy - Q*dx (`flux_is_not_flux`).
* `MultirotorMixer::rotor_thrusts` documents that a command that is not finite comes back not finite; an infinite push is clamped to finite thrusts (`mixer_infinite_command`).
* Segment distance uses absolute thresholds (`denominator > EPSILON`): non-parallel segments are taken for parallel and a wrong, larger distance is reported (`segment_pair_wrong`; `capsule_distance_wrong`: overlapping capsules reported 0.4 apart).
* `CollisionQuery::check` passes over a pair whose clearance is NaN; `is_clear` then answers true (`check_ignores_nan`).
* `geometric_jacobian` gives a floating joint's place readings the world's axes whatever the joint's origin, while forward kinematics turns the readings by the origin; with a turned origin the column is not the derivative (`floating_origin_jacobian_wrong`; all other joints and unturned floating ones: `jacobian_twist_partial`).
* `OccupancyMap::cell_of` answers `Some((0, 0))` for a NaN point instead of `None`, so `occupy_point` blocks that cell (`cellOf_nan`).
* `occupy_circle` leaves gaps for radii above 400 cells because its angular step is at least 1e-3: a rim of radius 10000 cells crosses a map without blocking a single cell of it (`circle_gap`; up to 400 cells it is gap-free, `circle_dense_partial`).
* C66: `SynchronizedProfile::<0>::state_at` returns `Ok` for a time that is not finite, although the documentation says `NonFinite`; `synchronized_empty_nan`.
* `PolylinePath::lookahead_point` in `Stop` mode prolongs the first leg backwards when `from_arc_length + lookahead` is negative instead of staying on the path (`lookahead_before_start`; non-negative targets: `lookahead_stop_partial`).
* `MadgwickFilter` says recovery from a badly wrong start takes a predictable time; from exactly upside down (push opposite to the estimate) it never starts, as no direction is picked (second part of `madgwick_finds_level`).
* C62: `draw_from_weights` compares `draw <= running_sum`, and unit draws include zero, so a first particle of weight zero is picked on a zero draw (`multinomial_zero_draw_partial`).
* C61: a NaN log-weight makes `update_with_log_weights` report `WeightsDegenerate` after the weights were overwritten with NaN; every later update then fails (`particle_nan_poisons_partial`).
* C59: `ParticleFilter::predict` returns `NonFinite` after replacing the particles (`particle_predict_overwrites_partial`).
* C95: `residual_with_wrapped_angles` documents the range (-pi, pi]; a difference of exactly pi gives -pi (`residual_half_turn_partial`).
* C60: `UnscentedKalmanFilter::update` works from points drawn before the process noise was added, so the noise is missing from the innovation covariance and the gain; on a linear model with P = Q = R = 1 the gain is 1/2 where the Kalman filter's is 2/3 (`ukf_update_omits_process_noise_partial`; exact relation: `ukf_linear_update_partial`).
* C60: a second `update` after one `predict` uses the same points again and subtracts the whole reduction a second time; the variance can become negative and the call reports `Ok` (`ukf_second_update_partial`).
* C60: `with_scaling` accepts a negative `beta`, for which a prediction can report a negative variance (`ukf_negative_beta_partial`; none can for `beta*n + alpha^2*kappa >= 0`, `ukf_history`).
* C50: `state_derivative` returns all zeros, so the body stops dead, for any orientation of length at most 2^-52, not only the all-zero one the documentation names (`state_derivative_tiny`).
* C80: `GaussNewton` reports `Ftol`, documented as "the sum of squared residuals stopped decreasing", whenever two successive residual norms agree; on f(x) = 5x/4 - x^3/4 started at 1 the default solver stops successfully at -1, where |f| = 1 as at the start and the gradient is not zero (`gauss_newton_stalls`).
* C98: `svd` documents U as having orthonormal columns (svd.rs); beside a zero singular value the column of U is zero instead, e.g. the zero matrix gives U = 0 (`svd_left_orthonormal_partial`, C98).
* C57: `solve` with a budget of no iterations reports errors of zero whatever the target (`ik_no_iterations`).
* C99: `null_space_projector` and `SecondaryObjective` are documented as leaving the tool where it is; with any damping (always, for arms of fewer than six joints inside `solve`) the projected rates move the tool whenever the unprojected ones do (`null_space_damped_partial`).
* C100: `expm` never returns when a column sum of its argument overflows to infinity: `norm = norm / 2` stays infinite, so the scaling loop runs for ever (`expm_overflow_hangs`).
* C79: the semigroup law of `zoh` (two steps compose to one of the summed length) holds exactly for nilpotent systems only; for the scalar system x' = x it fails in exact arithmetic because the exponential is a Pade approximant (`zoh_semigroup_fails`).
* C102: the error-state filter's noise densities are documented per square root hertz but used as the deviation of each reading, (density dt)^2 per step: over the same time, reading n times claims a velocity variance of a^2 tau^2 / n, which depends on the rate (`noise_density_depends_on_rate`); the bias random walks do scale as documented.
* C102, C59: a prediction of the error-state filter that fails because the covariance is not finite has already moved the state and replaced the covariance (`failed_prediction_moves`).
* C103: the controller is documented as having no orientation it breaks down at; with body and target at rest a half turn apart about any axis the torque is exactly zero, so the body stays there (`balance`). Convergence is proved from every error with less energy than that.
* C71: `Polynomial::<8>::from_endpoint_derivatives` reports that its eight conditions cannot be solved for every span up to 1/30000, although they always have exactly one solution: the conditions are posed against the outer parameter, so their entries grow as the inverse cube of the span and the conditioning check refuses them (`fromEndpointDerivatives_short`).
* C105: `plan` refuses every request with a segment of 1/30000 or less as a linear-algebra error, whatever the waypoints (`minimum_snap_short`): the pivot check of the 8 by 8 endpoint system compares entries scaled by different powers of the duration. The request itself is valid and has exactly one answer.
* C106: `with_ftol` is documented as "the solver stops when `‖F(x)‖ ≤ ftol`", but the residual reached by the last permitted iteration is never compared with `ftol`: with a budget of one iteration, `x - 1 = 0` from zero lands on the root exactly and the answer is `DidNotConverge` (`newton_system_last_step_untested`).
* C107: `CyclicLinkage` is documented to carry a link on the cycle, and its message says the link hangs off itself. It carries the first link the walk missed, which may merely hang off the cycle (`urdf_cycle_names_wrong_link`). What is proved is that a cycle exists and that the reported link lies on or below one.
* C108: `has_floating_base` is documented as saying whether the root body has a free joint. The MJCF reader sets it when any top-level body has one, so a welded first body followed by a free one reports a floating base, and such a model never becomes a kinematic tree (`mjcf_floating_base_not_root`).
* C110: "blocks nest, each inheriting its parent's settings", but a `<default>` without a class is not a scope: a second unnamed block beside the first replaces (does not merge with) what the first said for the whole file, and an unnamed block inside a class writes the file-wide root (`mjcf_second_unnamed_block`).
* C112: `ModelError::NoBodies` cannot be returned by the URDF reader (urdf/mod.rs:38-40): a document without links is already refused with `MissingRootLink` (`urdf_load`).
* C113: `VALIDATION_CAPACITY` is 128, "large enough for any model this reader parses". Nothing limits what the readers parse: a model of more bodies is refused with `CapacityExceeded` whatever capacity the options ask for, although `kinematic_tree` builds it (`source_limit`, `source_limit_witness`).
* C113: `with_configuration_capacity` is not checked when the source is written. A value too small gives source that compiles and panics at its `unreachable!("the model this was written from was checked")` (`source_panics`).
* C113: single precision is the default, and a number too large for it is written `inf`, which does not compile (`source_infinite`).
* C113: a body name is written into a `//` comment unchanged, so a name with a line break in it (`&#10;` in the XML) puts the rest of the name into the code (`source_comment`).
* C114: an `<include>` inside an `<include>` (malformed MJCF) is not refused: the inner one is overwritten first, the range kept for the outer one is then wrong, and `load_path` panics in `replace_range` or removes what follows the include (`include_nested_panics`). The theorems about splicing therefore ask that no include stands inside another.
* C118: the comment in `phase_at` that two arctangents keep the phase right past half a turn is false: `feed_forward = [0, 0, 1]`, which delays by exactly two samples, reports at 0.3 of the sampling rate a delay of minus four thirds of a sample, while a cascade of two one-sample delays reports two (`pure_delay_reported_early`). For the four designs the phase is on the right turn.
* C119: a document with a second `<worldbody>` beside the first, which is what an `<include>` placed next to the including file's own `<worldbody>` produces, loads as if the second were not there: its bodies are silently lost, and `ignored()` does not list it although it is documented to list top-level elements the reader consumed nothing from (`mjcf_second_worldbody_partial`, `mjcf_root_include_lost_partial`). The same include inside the `<worldbody>` works.
* C125: try_normalized accepts a vector with an infinite entry and returns NaN entries; a finite vector whose squares overflow comes back as the zero vector. The documentation promises length one unless the vector is zero or has a NaN entry.
* C126: `cholesky` tests `diag <= 0`, which NaN passes, so a matrix with NaN is factorised although the documentation promises a strictly positive diagonal; an infinite diagonal entry passes too and `solve` then answers zero (`cholesky_positive_partial`). `lu_decompose` reports `Singular`, and `determinant` returns zero from five rows on, for a column of zero followed by NaN, which is documented as an all-zero column (`singular_means_zero_column_partial`).
* C57: inverse_kinematics.rs:28 says that a solve that did not converge still carries its best configuration. It carries the last one: a slider one hundredth from its target, with a preferred posture at one and a single iteration, is returned at one half, where the error is fifty times that of its seed (`ik_report_not_best`).
