{
 "claims": [
  {
   "property": "C01",
   "status": "proved",
   "theorems": [
    "Multicalc.Pcg32.pcg_period",
    "Multicalc.Pcg32.pcg_visits_every_position",
    "Multicalc.Pcg32.pcg_equidistributed",
    "Multicalc.Pcg32.pcg_stream_top_bit_ignored"
   ],
   "note": "Also proved: each state is visited once per period and each 32-bit word is drawn exactly 2^32 times per period."
  },
  {
   "property": "C02",
   "status": "proved",
   "theorems": [
    "Multicalc.Pcg32.nextUnit64_range",
    "Multicalc.Pcg32.nextUnit32_range",
    "Multicalc.Pcg32.unit64_uniform"
   ],
   "note": "The float conversion is exact (a 53-bit or 24-bit integer times a power of two), so it is given as a rational."
  },
  {
   "property": "C03",
   "status": "proved",
   "theorems": [
    "Multicalc.Pcg32.draws_follow_stream"
   ],
   "note": ""
  },
  {
   "property": "C04",
   "status": "proved",
   "theorems": [
    "Multicalc.Pcg32.standardNormal_pair",
    "Multicalc.Pcg32.standardNormal_terminates",
    "Multicalc.Pcg32.standardNormal_serves_cache",
    "Multicalc.Pcg32.cache_survives_raw_draws"
   ],
   "note": "The rejection loop is unbounded in the code and has fuel in the model; `standardNormal_terminates` shows enough fuel always exists for every generator a user can hold."
  },
  {
   "property": "C05",
   "status": "proved",
   "theorems": [
    "Multicalc.wrapToPi_spec",
    "Multicalc.wrapToPi_id"
   ],
   "note": ""
  },
  {
   "property": "C06",
   "status": "proved",
   "theorems": [
    "Multicalc.powi_eq_zpow"
   ],
   "note": ""
  },
  {
   "property": "C07",
   "status": "proved",
   "theorems": [
    "Multicalc.hypot_eq",
    "Multicalc.hypot_symm"
   ],
   "note": ""
  },
  {
   "property": "C08",
   "status": "proved",
   "theorems": [
    "Multicalc.signum_spec",
    "Multicalc.safeDiv_ieee",
    "Multicalc.smax_spec",
    "Multicalc.smin_spec",
    "Multicalc.sclamp_spec"
   ],
   "note": ""
  },
  {
   "property": "C09",
   "status": "proved",
   "theorems": [
    "Multicalc.free_derivative",
    "Multicalc.autoDiffMulti_one",
    "Multicalc.autoDiffSingle_one",
    "Multicalc.jacobian_autodiff"
   ],
   "note": "At points where every performed operation is smooth and no comparison ties (`Expr.SmoothAt`), over the reals."
  },
  {
   "property": "C10",
   "status": "proved",
   "theorems": [
    "Multicalc.free_second_derivative",
    "Multicalc.autoDiffMulti_two",
    "Multicalc.hyperDual_first",
    "Multicalc.autoDiffSingle_two",
    "Multicalc.autoDiffMulti_three",
    "Multicalc.autoDiffMulti_symm",
    "Multicalc.autoDiff_errors",
    "Multicalc.hessian_entries",
    "Multicalc.hessian_total"
   ],
   "note": "Derivatives over the reals at smooth points; Hessian symmetry, entries and errors for every scalar type with a NaN."
  },
  {
   "property": "C11",
   "status": "proved",
   "theorems": [
    "Multicalc.jet_taylor",
    "Multicalc.autoDiffSingle_high",
    "Multicalc.jet_along_curve"
   ],
   "note": "Over the reals, any jet length, at points where every performed operation is smooth and no comparison ties."
  },
  {
   "property": "C12",
   "status": "partial",
   "theorems": [
    "Multicalc.dual_clamp",
    "Multicalc.hyperDual_clamp",
    "Multicalc.dual_value",
    "Multicalc.hyperDual_value_partial",
    "Multicalc.jet_clamp",
    "Multicalc.jet_value_partial",
    "Multicalc.autodiff_value_real",
    "Multicalc.hyperDual_branch_differs"
   ],
   "note": "`Dual` for every scalar and any rounding; `HyperDual` and `Jet` under the exact laws they rely on, which hold over the reals. In rounded arithmetic `HyperDual` is refuted."
  },
  {
   "property": "C13",
   "status": "proved",
   "theorems": [
    "Multicalc.fd_column",
    "Multicalc.fdDiff_exact",
    "Multicalc.fdSingle_exact",
    "Multicalc.fdMulti_exact",
    "Multicalc.fd_errors"
   ],
   "note": "Exactness over the reals for every order and number of variables; refusals for every scalar type."
  },
  {
   "property": "C14",
   "status": "proved",
   "theorems": [
    "Multicalc.PairwiseSum.pairwise_total_eq_sum",
    "Multicalc.PairwiseSum.pairwise_levels_in_range",
    "Multicalc.accSum_eq_sum"
   ],
   "note": ""
  },
  {
   "property": "C15",
   "status": "proved",
   "theorems": [
    "Multicalc.kahan_total_eq_sum",
    "Multicalc.accSum_eq_sum"
   ],
   "note": ""
  },
  {
   "property": "C16",
   "status": "proved",
   "theorems": [
    "Multicalc.bisection_report",
    "Multicalc.bisection_stays_inside"
   ],
   "note": "Holds for every scalar whose computed midpoint stays in the interval (`MidpointInside`, proved for the reals)."
  },
  {
   "property": "C17",
   "status": "proved",
   "theorems": [
    "Multicalc.bisection_true_root",
    "Multicalc.bisection_converges",
    "Multicalc.bisection_default_budget_too_small"
   ],
   "note": ""
  },
  {
   "property": "C18",
   "status": "proved",
   "theorems": [
    "Multicalc.brent_gives_up",
    "Multicalc.brent_report",
    "Multicalc.brent_true_root",
    "Multicalc.brent_stays_inside"
   ],
   "note": "Over the reals. The bracket-width test may fire with the other end at twice the tolerance, so the true-root bound is twice the tolerance."
  },
  {
   "property": "C19",
   "status": "proved",
   "theorems": [
    "Multicalc.newton_converges",
    "Multicalc.newton_report",
    "Multicalc.newton_errors",
    "Multicalc.newton_affine"
   ],
   "note": ""
  },
  {
   "property": "C20",
   "status": "proved",
   "theorems": [
    "Multicalc.rk4_observer",
    "Multicalc.rk4_cubic_exact",
    "Multicalc.rk4_linear"
   ],
   "note": ""
  },
  {
   "property": "C21",
   "status": "proved",
   "theorems": [
    "Multicalc.dopri_is_rungeKutta",
    "Multicalc.dopri_order_conditions",
    "Multicalc.dopri_linear",
    "Multicalc.dopri_time_polynomial"
   ],
   "note": ""
  },
  {
   "property": "C22",
   "status": "proved",
   "theorems": [
    "Multicalc.rk45_steps",
    "Multicalc.rk45_rejects_span",
    "Multicalc.rk45_no_overshoot"
   ],
   "note": "Contiguity, budget and end test hold for every scalar (rounding included); direction, no overshoot and the step cap are over the reals with a positive `max_step`."
  },
  {
   "property": "C23",
   "status": "proved",
   "theorems": [
    "Multicalc.interpolate_ends",
    "Multicalc.interpolate_cubic"
   ],
   "note": ""
  },
  {
   "property": "C24",
   "status": "proved",
   "theorems": [
    "Multicalc.movingAverage_mean",
    "Multicalc.movingAverageNew_ok_iff",
    "Multicalc.movingAverage_const"
   ],
   "note": ""
  },
  {
   "property": "C25",
   "status": "proved",
   "theorems": [
    "Multicalc.runningMedian_mem",
    "Multicalc.runningMedian_median",
    "Multicalc.runningMedian_rejects_spikes"
   ],
   "note": ""
  },
  {
   "property": "C26",
   "status": "proved",
   "theorems": [
    "Multicalc.sg_reproduces_polynomials",
    "Multicalc.sg_constructors",
    "Multicalc.sg_accepts",
    "Multicalc.sg_constant_fit",
    "Multicalc.sg_line_fit",
    "Multicalc.sg_reset"
   ],
   "note": "The pseudo-inverse is a parameter with the hypothesis that it is a left inverse of the fit matrix; this fails when the SVD cutoff drops a singular value (very long windows with many terms)."
  },
  {
   "property": "C27",
   "status": "proved",
   "theorems": [
    "Multicalc.slew_step",
    "Multicalc.slew_first",
    "Multicalc.slew_between",
    "Multicalc.slew_converges",
    "Multicalc.slewNew_ok_iff",
    "Multicalc.reset_is_fresh"
   ],
   "note": ""
  },
  {
   "property": "C28",
   "status": "proved",
   "theorems": [
    "Multicalc.hysteresis_reset",
    "Multicalc.deadband_zero_iff",
    "Multicalc.deadband_recentered",
    "Multicalc.deadband_plain",
    "Multicalc.hysteresis_history",
    "Multicalc.hysteresis_inside"
   ],
   "note": ""
  },
  {
   "property": "C29",
   "status": "proved",
   "theorems": [
    "Multicalc.onePole_bounded",
    "Multicalc.onePole_step_response",
    "Multicalc.onePole_converges",
    "Multicalc.onePole_fromCutoff",
    "Multicalc.onePole_fromCutoff_range",
    "Multicalc.reset_is_fresh"
   ],
   "note": ""
  },
  {
   "property": "C30",
   "status": "partial",
   "theorems": [
    "Multicalc.lowPass_highPass_stable",
    "Multicalc.bandPass_notch_stable_partial",
    "Multicalc.bandPass_notch_unstable",
    "Multicalc.design_gains"
   ],
   "note": "Stability of band-pass and notch holds only above the bound in `bandPass_notch_stable_partial`; the negation is proved with a witness."
  },
  {
   "property": "C31",
   "status": "proved",
   "theorems": [
    "Multicalc.isStable_iff_poles",
    "Multicalc.biquad_zero_input_decays",
    "Multicalc.biquad_forgets_state",
    "Multicalc.biquad_input_vanishes"
   ],
   "note": ""
  },
  {
   "property": "C32",
   "status": "proved",
   "theorems": [
    "Multicalc.biquad_difference",
    "Multicalc.biquad_difference_start",
    "Multicalc.biquad_settle",
    "Multicalc.biquad_linear"
   ],
   "note": ""
  },
  {
   "property": "C33",
   "status": "proved",
   "theorems": [
    "Multicalc.Pid.output_in_limits",
    "Multicalc.Pid.output_in_limits_special"
   ],
   "note": ""
  },
  {
   "property": "C34",
   "status": "proved",
   "theorems": [
    "Multicalc.derivative_filter",
    "Multicalc.Pid.integral_accumulates",
    "Multicalc.Pid.integral_held",
    "Multicalc.Pid.integral_bounded",
    "Multicalc.Pid.textbook"
   ],
   "note": ""
  },
  {
   "property": "C35",
   "status": "partial",
   "theorems": [
    "Multicalc.Pid.setGains_bump_partial",
    "Multicalc.Pid.setGains_not_bumpless",
    "Multicalc.Pid.resumeFrom_output",
    "Multicalc.Pid.resumeFrom_exact",
    "Multicalc.Pid.resumeFrom_outside_limits"
   ],
   "note": "`resume_from` is exact within the limits; the documented bumpless claim for `set_gains` is refuted."
  },
  {
   "property": "C36",
   "status": "proved",
   "theorems": [
    "Multicalc.pursuit_reaches",
    "Multicalc.pursuit_curvature"
   ],
   "note": ""
  },
  {
   "property": "C37",
   "status": "partial",
   "theorems": [
    "Multicalc.equations_refuse",
    "Multicalc.equations_finite",
    "Multicalc.lyapunov_result",
    "Multicalc.lyapunov_answers",
    "Multicalc.lyapunov_energy_partial",
    "Multicalc.lqr_new_spec",
    "Multicalc.lqr_certifies_unstable",
    "Multicalc.certify_stability_posdef"
   ],
   "note": "Success does not certify stability (`lqr_certifies_unstable`); what a returned matrix satisfies exactly is proved."
  },
  {
   "property": "C38",
   "status": "proved",
   "theorems": [
    "Multicalc.FollowTheGap.compute_sanitized",
    "Multicalc.FollowTheGap.compute_gap",
    "Multicalc.FollowTheGap.compute_clearance",
    "Multicalc.FollowTheGap.tryNew_valid",
    "Multicalc.FollowTheGap.compute_limits",
    "Multicalc.FollowTheGap.gap_width",
    "Multicalc.FollowTheGap.aim_rule",
    "Multicalc.FollowTheGap.compute_special",
    "Multicalc.FollowTheGap.compute_limits_special",
    "Multicalc.FollowTheGap.compute_refuses"
   ],
   "note": "Any scan and any number of beams, NaN and infinite readings included; the search for any rounding."
  },
  {
   "property": "C39",
   "status": "proved",
   "theorems": [
    "Multicalc.lu_accepts",
    "Multicalc.lu_factors",
    "Multicalc.lu_solves",
    "Multicalc.solve_sound"
   ],
   "note": ""
  },
  {
   "property": "C40",
   "status": "proved",
   "theorems": [
    "Multicalc.cholesky_iff_positive_definite",
    "Multicalc.cholesky_factors",
    "Multicalc.cholesky_reads_lower",
    "Multicalc.symmetric_positive_definite_spec"
   ],
   "note": ""
  },
  {
   "property": "C41",
   "status": "proved",
   "theorems": [
    "Multicalc.determinant_correct",
    "Multicalc.determinant_closed_forms",
    "Multicalc.inverse_correct",
    "Multicalc.inverse_refuses_singular"
   ],
   "note": ""
  },
  {
   "property": "C42",
   "status": "proved",
   "theorems": [
    "Multicalc.matrix_ring_laws",
    "Multicalc.cross_laws",
    "Multicalc.vtryNormalized_spec",
    "Multicalc.symmetrized_spec"
   ],
   "note": ""
  },
  {
   "property": "C43",
   "status": "proved",
   "theorems": [
    "Multicalc.symmetricEigen_spec",
    "Multicalc.symmetricEigen_refuses",
    "Multicalc.clamped_symmetric",
    "Multicalc.clamped_spec",
    "Multicalc.eigen_derived",
    "Multicalc.eigen_condition_number"
   ],
   "note": ""
  },
  {
   "property": "C44",
   "status": "proved",
   "theorems": [
    "Multicalc.quaternion_algebra",
    "Multicalc.rotation_laws"
   ],
   "note": ""
  },
  {
   "property": "C45",
   "status": "proved",
   "theorems": [
    "Multicalc.toRotationMatrix_spec",
    "Multicalc.tryFromRotationMatrix_spec",
    "Multicalc.tryFromRotationMatrix_toRotationMatrix",
    "Multicalc.fromAxisAngle_rodrigues",
    "Multicalc.fromAxisAngle_tiny_axis",
    "Multicalc.axisAngle_roundtrip"
   ],
   "note": ""
  },
  {
   "property": "C46",
   "status": "proved",
   "theorems": [
    "Multicalc.try_from_quaternion",
    "Multicalc.so3_tryFromMatrix_rotation",
    "Multicalc.so3_tryFromMatrix_only",
    "Multicalc.so2_group",
    "Multicalc.so2_matrix_interpolate",
    "Multicalc.so2_tryFromMatrix_near",
    "Multicalc.se2_group",
    "Multicalc.se2_adjoint",
    "Multicalc.so2_tangent",
    "Multicalc.so3_group",
    "Multicalc.se3_group",
    "Multicalc.so3_fromQuaternion"
   ],
   "note": ""
  },
  {
   "property": "C47",
   "status": "proved",
   "theorems": [
    "Multicalc.so2_group",
    "Multicalc.se2_exp_log",
    "Multicalc.se2_log_exp_small",
    "Multicalc.se2_jacobian_inverse",
    "Multicalc.se2_jacobian_adjoint",
    "Multicalc.exp_spec",
    "Multicalc.quat_exp_spec",
    "Multicalc.quat_log_exp",
    "Multicalc.so3_log_exp",
    "Multicalc.so3_jacobian",
    "Multicalc.se3_exp_log",
    "Multicalc.so3_exp_log"
   ],
   "note": "SO(3) for every angle (exact, or bounded by the squared angle in the series branch), SE(2) likewise, SE(3) and the Jacobians exact from 0.013 rad; the SE(3) series branch below that has no bound here; the full SE(3) Jacobians with `q_matrix_se3` are C101."
  },
  {
   "property": "C48",
   "status": "proved",
   "theorems": [
    "Multicalc.se2_adjoint",
    "Multicalc.twist_wrench_transport",
    "Multicalc.adjoint_spec",
    "Multicalc.adjoint_multiplicative",
    "Multicalc.spatial_cross_laws"
   ],
   "note": ""
  },
  {
   "property": "C49",
   "status": "proved",
   "theorems": [
    "Multicalc.from_diagonal_inertia",
    "Multicalc.inertia_transport",
    "Multicalc.inertia_congruence",
    "Multicalc.inertia_combined",
    "Multicalc.inertia_about_energy",
    "Multicalc.inertia_new",
    "Multicalc.inertia_transport_not_valid",
    "Multicalc.freeJoint_tiny_refused"
   ],
   "note": ""
  },
  {
   "property": "C50",
   "status": "proved",
   "theorems": [
    "Multicalc.RigidBody.rigid_body_new",
    "Multicalc.RigidBody.accelerations_laws",
    "Multicalc.RigidBody.motion_norm",
    "Multicalc.RigidBody.motion_balance",
    "Multicalc.RigidBody.motion_free",
    "Multicalc.RigidBody.step_axis",
    "Multicalc.RigidBody.step_straight",
    "Multicalc.RigidBody.steps_free_spin",
    "Multicalc.RigidBody.state_vector_round_trip",
    "Multicalc.RigidBody.state_derivative_tiny"
   ],
   "note": "Laws for every body, facing, spin and wrench; conservation along every curve that follows `state_derivative`; `stepped` is exact for straight motion and for spin about a principal axis through the balance point, its error elsewhere is not bounded."
  },
  {
   "property": "C51",
   "status": "proved",
   "theorems": [
    "Multicalc.rotor_lag_reset",
    "Multicalc.rotorLag_new_errors",
    "Multicalc.rotorLag_flow",
    "Multicalc.rotorLag_no_overshoot",
    "Multicalc.rotorLag_history"
   ],
   "note": ""
  },
  {
   "property": "C52",
   "status": "proved",
   "theorems": [
    "Multicalc.mixer_limits",
    "Multicalc.mixer_wrench_physical",
    "Multicalc.mixer_achieves",
    "Multicalc.quadrotor_even",
    "Multicalc.mixer_infinite_command"
   ],
   "note": "The pseudo-inverse is a parameter; the accuracy of an unsaturated wrench is what the constructor's round-trip test guarantees (1e-4), exact for an exact inverse."
  },
  {
   "property": "C53",
   "status": "proved",
   "theorems": [
    "Multicalc.KinematicTree.built_wellFormed",
    "Multicalc.KinematicTree.push_errors",
    "Multicalc.KinematicTree.offsets_partition",
    "Multicalc.KinematicTree.fk_recurrence",
    "Multicalc.KinematicTree.fk_local",
    "Multicalc.KinematicTree.fk_refusals",
    "Multicalc.KinematicTree.push_axis",
    "Multicalc.KinematicTree.link_motion",
    "Multicalc.KinematicTree.push_limit_errors",
    "Multicalc.KinematicTree.push_accepts_iff"
   ],
   "note": ""
  },
  {
   "property": "C54",
   "status": "partial",
   "theorems": [
    "Multicalc.KinematicTree.jacobian_errors",
    "Multicalc.KinematicTree.jacobian_twist_partial",
    "Multicalc.KinematicTree.jacobian_column_partial",
    "Multicalc.KinematicTree.jacobian_zero_columns",
    "Multicalc.KinematicTree.floating_origin_jacobian_wrong"
   ],
   "note": "Any tree, configuration and joint velocity, at turns that are zero or beyond the 30/2^52 series threshold; a floating joint whose origin is turned is refuted with a witness."
  },
  {
   "property": "C55",
   "status": "proved",
   "theorems": [
    "Multicalc.drive_odometry",
    "Multicalc.drive_new",
    "Multicalc.drive_inverse",
    "Multicalc.drive_rolling",
    "Multicalc.odometry_exact",
    "Multicalc.odometry_small",
    "Multicalc.odometry_split",
    "Multicalc.odometry_split_whole",
    "Multicalc.odometry_unicycle",
    "Multicalc.odometry_chord",
    "Multicalc.odometry_eval"
   ],
   "note": ""
  },
  {
   "property": "C56",
   "status": "partial",
   "theorems": [
    "Multicalc.closest_point_on_segment",
    "Multicalc.closest_points_between_segments_partial",
    "Multicalc.segment_pair_wrong",
    "Multicalc.distance_to_partial",
    "Multicalc.capsule_distance_wrong",
    "Multicalc.check_errors",
    "Multicalc.check_spec",
    "Multicalc.query_push",
    "Multicalc.check_ignores_nan"
   ],
   "note": "Exact except for segments between 0 and 2^-26 long (error at most 2^-25) and for non-parallel pairs whose squared sine area is at most 2^-52, where the code is wrong (witnesses proved)."
  },
  {
   "property": "C57",
   "status": "proved",
   "theorems": [
    "Multicalc.secondary_wanted",
    "Multicalc.float_step",
    "Multicalc.iteration_descends",
    "Multicalc.ik_report_not_best",
    "Multicalc.joint_step_optimal",
    "Multicalc.secondary_bias_spec",
    "Multicalc.ik_report",
    "Multicalc.ik_refusals",
    "Multicalc.ik_no_iterations",
    "Multicalc.ik_inside_limits",
    "Multicalc.ik_total",
    "Multicalc.ik_distance",
    "Multicalc.limited_step",
    "Multicalc.advanced_step",
    "Multicalc.ik_travel",
    "Multicalc.joint_step_task"
   ],
   "note": ""
  },
  {
   "property": "C58",
   "status": "proved",
   "theorems": [
    "Multicalc.KalmanFilter.kalman_update",
    "Multicalc.KalmanFilter.kalman_information",
    "Multicalc.KalmanFilter.kalman_predict",
    "Multicalc.KalmanFilter.kalman_history",
    "Multicalc.KalmanFilter.kalman_data_free",
    "Multicalc.KalmanFilter.kalman_least_squares",
    "Multicalc.KalmanFilter.kalman_normalized_innovation",
    "Multicalc.ExtendedKalmanFilter.ekf_linear",
    "Multicalc.ExtendedKalmanFilter.ekf_covariance"
   ],
   "note": "Over the reals, any dimensions and any history of calls; the extended filter takes its differentiator as a parameter."
  },
  {
   "property": "C59",
   "status": "partial",
   "theorems": [
    "Multicalc.attitude_refuses",
    "Multicalc.attitude_failure_keeps",
    "Multicalc.ErrorStateKalmanFilter.eskf_refuses",
    "Multicalc.ErrorStateKalmanFilter.eskf_failure_keeps",
    "Multicalc.ErrorStateKalmanFilter.failed_prediction_moves",
    "Multicalc.ErrorStateKalmanFilter.eskf_predict_finite",
    "Multicalc.kalman_refuses",
    "Multicalc.kalman_failure_keeps",
    "Multicalc.snap_refuses_nonfinite",
    "Multicalc.ParticleFilter.particle_refuses",
    "Multicalc.ParticleFilter.particle_predict_overwrites_partial",
    "Multicalc.ukf_refuses",
    "Multicalc.ukf_failure_keeps"
   ],
   "note": "Kalman, extended and unscented Kalman, particle, Mahony and Madgwick filters, for every scalar type; `ParticleFilter::predict` is refuted: its error leaves the particles replaced."
  },
  {
   "property": "C60",
   "status": "partial",
   "theorems": [
    "Multicalc.UnscentedKalmanFilter.ukf_step",
    "Multicalc.UnscentedKalmanFilter.ukf_history",
    "Multicalc.UnscentedKalmanFilter.ukf_points",
    "Multicalc.UnscentedKalmanFilter.ukf_linear_predict",
    "Multicalc.UnscentedKalmanFilter.ukf_linear_update_partial",
    "Multicalc.UnscentedKalmanFilter.ukf_update_omits_process_noise_partial",
    "Multicalc.UnscentedKalmanFilter.ukf_second_update_partial",
    "Multicalc.UnscentedKalmanFilter.ukf_first_update",
    "Multicalc.UnscentedKalmanFilter.ukf_tuning",
    "Multicalc.UnscentedKalmanFilter.ukf_negative_beta_partial",
    "Multicalc.UnscentedKalmanFilter.ukf_normalized_innovation"
   ],
   "note": "Sigma points and linear prediction exact; positive (semi)definiteness for models of any shape and any history of predict/update pairs. The update equals the Kalman filter's only without process noise; with it, refuted by a witness. Two updates after one prediction can leave a negative variance."
  },
  {
   "property": "C61",
   "status": "partial",
   "theorems": [
    "Multicalc.ParticleFilter.resample_spec",
    "Multicalc.ParticleFilter.particle_count_kept",
    "Multicalc.ParticleFilter.map_heaviest",
    "Multicalc.ParticleFilter.ess_range",
    "Multicalc.ParticleFilter.update_normalizes",
    "Multicalc.ParticleFilter.update_bayes",
    "Multicalc.ParticleFilter.update_degenerate",
    "Multicalc.ParticleFilter.particle_nan_poisons_partial",
    "Multicalc.ParticleFilter.mean_in_hull",
    "Multicalc.ParticleFilter.gaussian_score",
    "Multicalc.ParticleFilter.particle_noise",
    "Multicalc.ParticleFilter.draws_successive",
    "Multicalc.ParticleFilter.roughening_moves",
    "Multicalc.ParticleFilter.particle_draws"
   ],
   "note": "Any state and any scores, NaN and infinities included. That an error leaves the filter usable is refuted: a NaN score stays for ever (`particle_nan_poisons_partial`)."
  },
  {
   "property": "C62",
   "status": "partial",
   "theorems": [
    "Multicalc.resample_in_range",
    "Multicalc.systematic_copies",
    "Multicalc.systematic_unbiased",
    "Multicalc.stratified_copies",
    "Multicalc.multinomial_pick",
    "Multicalc.residual_copies_partial",
    "Multicalc.multinomial_never_zero_partial",
    "Multicalc.multinomial_zero_draw_partial"
   ],
   "note": "Ranges and counts for any scalar type; copies over the reals. A draw of exactly zero makes the multinomial and residual schemes pick a first particle of no weight (`multinomial_zero_draw_partial`)."
  },
  {
   "property": "C63",
   "status": "proved",
   "theorems": [
    "Multicalc.OccupancyMap.castRay_start_blocked",
    "Multicalc.OccupancyMap.castRay_terminates",
    "Multicalc.OccupancyMap.castRay_first"
   ],
   "note": ""
  },
  {
   "property": "C64",
   "status": "partial",
   "theorems": [
    "Multicalc.OccupancyMap.cellOf_iff",
    "Multicalc.OccupancyMap.cellOf_total",
    "Multicalc.OccupancyMap.cellOf_center",
    "Multicalc.OccupancyMap.cellOf_infinite",
    "Multicalc.OccupancyMap.cellOf_nan",
    "Multicalc.DynamicOccupancyGrid.tryNew_spec",
    "Multicalc.DynamicOccupancyGrid.setCell_spec",
    "Multicalc.DynamicOccupancyGrid.occupyPoint_spec",
    "Multicalc.DynamicOccupancyGrid.occupyPolyline_spec",
    "Multicalc.DynamicOccupancyGrid.polyline_edge_dense",
    "Multicalc.DynamicOccupancyGrid.occupyCircle_terminates",
    "Multicalc.DynamicOccupancyGrid.circle_dense_partial",
    "Multicalc.DynamicOccupancyGrid.circle_gap"
   ],
   "note": "Everything holds except drawing very large circles (radius above 400 cells) and looking up NaN points, both refuted with witnesses."
  },
  {
   "property": "C65",
   "status": "proved",
   "theorems": [
    "Multicalc.ScanGeometry.tryNew_cases",
    "Multicalc.ScanGeometry.rangeIsValid_iff",
    "Multicalc.ScanGeometry.constructed_valid",
    "Multicalc.ScanGeometry.beam_angles",
    "Multicalc.ScanGeometry.nearest_beam",
    "Multicalc.ScanGeometry.nearest_beam_angle"
   ],
   "note": ""
  },
  {
   "property": "C66",
   "status": "proved",
   "theorems": [
    "Multicalc.profile_peak",
    "Multicalc.profile_motion",
    "Multicalc.profile_jerk_limited",
    "Multicalc.profile_errors",
    "Multicalc.profile_non_finite",
    "Multicalc.profile_stretched",
    "Multicalc.synchronized_finish",
    "Multicalc.synchronized_duration",
    "Multicalc.synchronized_empty_nan"
   ],
   "note": "Both plan kinds, stretching and synchronising, over the reals. A synchronised profile of no axes accepts a NaN time (finding)."
  },
  {
   "property": "C67",
   "status": "partial",
   "theorems": [
    "Multicalc.path_single",
    "Multicalc.push_eq_tryFromPoints",
    "Multicalc.path_errors",
    "Multicalc.closestPoint_nearest",
    "Multicalc.atArc_unique",
    "Multicalc.lookahead_stop_partial",
    "Multicalc.lookahead_loop",
    "Multicalc.closest_then_lookahead",
    "Multicalc.path_too_short",
    "Multicalc.lookahead_before_start"
   ],
   "note": "Everything holds except look-ahead targets before the start in stop mode, refuted with a witness."
  },
  {
   "property": "C68",
   "status": "proved",
   "theorems": [
    "Multicalc.Poly.polynomial_meaning",
    "Multicalc.Poly.polynomial_degree",
    "Multicalc.Poly.polynomial_linear",
    "Multicalc.Poly.polynomial_multiply",
    "Multicalc.Poly.polynomial_compose",
    "Multicalc.Poly.polynomial_divide",
    "Multicalc.Poly.polynomial_derivative",
    "Multicalc.Poly.polynomial_all_derivatives",
    "Multicalc.Poly.polynomial_integral",
    "Multicalc.Poly.polynomial_substitutions",
    "Multicalc.Poly.polynomial_resize"
   ],
   "note": ""
  },
  {
   "property": "C69",
   "status": "proved",
   "theorems": [
    "Multicalc.Poly.quadratic_roots",
    "Multicalc.Poly.linear_roots",
    "Multicalc.Poly.cubic_roots",
    "Multicalc.Poly.cubic_triple_root_once",
    "Multicalc.Poly.quartic_roots"
   ],
   "note": ""
  },
  {
   "property": "C70",
   "status": "partial",
   "theorems": [
    "Multicalc.Poly.sturm_count_partial",
    "Multicalc.Poly.sturm_repeated_lower",
    "Multicalc.Poly.sturm_repeated_lower_witness",
    "Multicalc.Poly.sturm_repeated_upper",
    "Multicalc.Poly.sturm_constant_panics",
    "Multicalc.Poly.realRootsIn_never_converges",
    "Multicalc.Poly.realRootsIn_partial",
    "Multicalc.Poly.cauchyRootBound_spec"
   ],
   "note": "The claim holds when neither end point is a repeated root; the other cases are refuted with witnesses."
  },
  {
   "property": "C71",
   "status": "proved",
   "theorems": [
    "Multicalc.Poly.fromRoots_spec",
    "Multicalc.Poly.fromPoints_spec",
    "Multicalc.Poly.chebyshevNodes_spec",
    "Multicalc.Poly.fromEndpointSlopes_spec",
    "Multicalc.Poly.fromEndpointDerivatives_spec",
    "Multicalc.Poly.fromEndpointDerivatives_short"
   ],
   "note": "Covers roots, points, Chebyshev nodes, endpoint slopes and degree-seven endpoint data; least squares and jets are under C115."
  },
  {
   "property": "C72",
   "status": "proved",
   "theorems": [
    "Multicalc.Poly.piecewise_evaluate",
    "Multicalc.Poly.piecewise_accepted",
    "Multicalc.Poly.piecewise_derivatives",
    "Multicalc.Poly.piecewise_nth_derivative",
    "Multicalc.Poly.piecewise_integral",
    "Multicalc.Poly.piecewise_integral_additive"
   ],
   "note": ""
  },
  {
   "property": "C73",
   "status": "partial",
   "theorems": [
    "Multicalc.try_from_terms",
    "Multicalc.Poly.multivariate_evaluate_partial",
    "Multicalc.Poly.multivariate_exponent_saturates",
    "Multicalc.Poly.collect_like_terms_spec",
    "Multicalc.Poly.multivariate_add",
    "Multicalc.Poly.multivariate_add_room",
    "Multicalc.Poly.multivariate_multiply",
    "Multicalc.Poly.multivariate_multiply_room",
    "Multicalc.Poly.multivariate_partial_derivative",
    "Multicalc.Poly.multivariate_partial_derivative_room",
    "Multicalc.Poly.multivariate_antiderivative",
    "Multicalc.Poly.multivariate_substitute_partial",
    "Multicalc.Poly.multivariate_substitute_room",
    "Multicalc.Poly.multivariate_degrees",
    "Multicalc.Poly.multivariate_to_univariate",
    "Multicalc.Poly.multivariate_from_univariate"
   ],
   "note": "Evaluation agrees with the polynomial when no exponent is above `i32::MAX`; beyond it is refuted with a witness. The polynomial identities of the operations hold without that bound."
  },
  {
   "property": "C74",
   "status": "proved",
   "theorems": [
    "Multicalc.fromParameters_count",
    "Multicalc.iterative_exact",
    "Multicalc.integral_exact",
    "Multicalc.iterativeMulti_exact",
    "Multicalc.iterativeSingle_repeated",
    "Multicalc.booles_unrounded_wrong",
    "Multicalc.trapezoidal_error_bound",
    "Multicalc.iterativeSingle_nested"
   ],
   "note": ""
  },
  {
   "property": "C75",
   "status": "proved",
   "theorems": [
    "Multicalc.single_nonFinite",
    "Multicalc.multi_nonFinite",
    "Multicalc.iterations_zero_first",
    "Multicalc.classify_iff",
    "Multicalc.limits_ill_defined",
    "Multicalc.mapSample_bijection",
    "Multicalc.mapSample_integral",
    "Multicalc.tBounds_inside",
    "Multicalc.gaussian_errors",
    "Multicalc.gaussian_limits",
    "Multicalc.gaussianSum_outcome"
   ],
   "note": ""
  },
  {
   "property": "C76",
   "status": "partial",
   "theorems": [
    "Multicalc.line_integral_quadratic_2d",
    "Multicalc.line_integral_quadratic_3d",
    "Multicalc.line_integral_constant",
    "Multicalc.line_integral_reverse",
    "Multicalc.line_errors",
    "Multicalc.line_integral_error_2d",
    "Multicalc.line_integral_error_3d",
    "Multicalc.flux_integral_partial",
    "Multicalc.flux_is_not_flux"
   ],
   "note": ""
  },
  {
   "property": "C77",
   "status": "proved",
   "theorems": [
    "Multicalc.curl_divergence_spec",
    "Multicalc.curl_gradient",
    "Multicalc.divergence_curl"
   ],
   "note": ""
  },
  {
   "property": "C78",
   "status": "proved",
   "theorems": [
    "Multicalc.linear_approximate_spec",
    "Multicalc.quadratic_approximate_spec",
    "Multicalc.metrics_nan",
    "Multicalc.approximation_forms",
    "Multicalc.approximation_tangent",
    "Multicalc.linear_approximation_autodiff",
    "Multicalc.metrics_spec",
    "Multicalc.quadratic_reproduced",
    "Multicalc.adjusted_counts"
   ],
   "note": ""
  },
  {
   "property": "C79",
   "status": "partial",
   "theorems": [
    "Multicalc.zoh_accuracy",
    "Multicalc.zoh_nilpotent",
    "Multicalc.zoh_hold",
    "Multicalc.zoh_semigroup_partial",
    "Multicalc.zoh_semigroup_fails",
    "Multicalc.van_loan_accuracy",
    "Multicalc.van_loan_symmetric",
    "Multicalc.van_loan_nilpotent",
    "Multicalc.timestep_refused",
    "Multicalc.white_noise_rank_one"
   ],
   "note": "Accuracy is for exact arithmetic; the semigroup law is refuted in general and proved where the exponential is exact."
  },
  {
   "property": "C80",
   "status": "proved",
   "theorems": [
    "Multicalc.gauss_newton_verdicts",
    "Multicalc.gauss_newton_run",
    "Multicalc.gauss_newton_backtracks",
    "Multicalc.levenberg_marquardt_run",
    "Multicalc.minimize_underdetermined",
    "Multicalc.levenberg_marquardt_descends",
    "Multicalc.levenberg_marquardt_step_descends",
    "Multicalc.levenberg_marquardt_gtol",
    "Multicalc.gauss_newton_gtol",
    "Multicalc.trust_region_step",
    "Multicalc.predicted_reduction_exact",
    "Multicalc.gauss_newton_linear",
    "Multicalc.gauss_newton_stalls"
   ],
   "note": ""
  },
  {
   "property": "C81",
   "status": "proved",
   "theorems": [
    "Multicalc.PairwiseSum.pairwise_error_bound"
   ],
   "note": ""
  },
  {
   "property": "C82",
   "status": "proved",
   "theorems": [
    "Multicalc.pid_reset_fresh",
    "Multicalc.pid_first_update",
    "Multicalc.Pid.nan_measurement_sticks",
    "Multicalc.Pid.reset_forgets"
   ],
   "note": ""
  },
  {
   "property": "C83",
   "status": "proved",
   "theorems": [
    "Multicalc.magnitude_phase",
    "Multicalc.biquad_steady_state",
    "Multicalc.biquad_steady_state_cos"
   ],
   "note": ""
  },
  {
   "property": "C84",
   "status": "proved",
   "theorems": [
    "Multicalc.cascade_series",
    "Multicalc.cascade_steady_state",
    "Multicalc.cascade_settle",
    "Multicalc.harmonicNotch_removes"
   ],
   "note": ""
  },
  {
   "property": "C85",
   "status": "partial",
   "theorems": [
    "Multicalc.grid_values",
    "Multicalc.grid_refuses_valid_times",
    "Multicalc.grid_served_partial"
   ],
   "note": "The claim that every grid within the span is served is false (`grid_refuses_valid_times`); it holds when the last step ends on the final time (`grid_served_partial`)."
  },
  {
   "property": "C86",
   "status": "proved",
   "theorems": [
    "Multicalc.kahan_error_bound"
   ],
   "note": ""
  },
  {
   "property": "C87",
   "status": "proved",
   "theorems": [
    "Multicalc.fromTwoVectors_spec",
    "Multicalc.fromTwoVectors_zero"
   ],
   "note": ""
  },
  {
   "property": "C88",
   "status": "proved",
   "theorems": [
    "Multicalc.fromTwoDirectionPairs_spec",
    "Multicalc.fromTwoDirectionPairs_parallel"
   ],
   "note": ""
  },
  {
   "property": "C89",
   "status": "proved",
   "theorems": [
    "Multicalc.rotationAngleTo_spec",
    "Multicalc.slerp_spec"
   ],
   "note": ""
  },
  {
   "property": "C90",
   "status": "partial",
   "theorems": [
    "Multicalc.fromEulerZyx_spec",
    "Multicalc.toEulerZyx_fromEulerZyx",
    "Multicalc.fromEulerZyx_toEulerZyx_partial",
    "Multicalc.toEulerZyx_band_mismatch"
   ],
   "note": "Exact outside the gimbal-lock band and at the poles; inside the band it is refuted with a witness."
  },
  {
   "property": "C91",
   "status": "proved",
   "theorems": [
    "Multicalc.trapezoid_time_optimal",
    "Multicalc.jerk_time_optimal"
   ],
   "note": ""
  },
  {
   "property": "C92",
   "status": "proved",
   "theorems": [
    "Multicalc.integrate_attitude_shape",
    "Multicalc.attitude_steps_add",
    "Multicalc.integrate_attitude_exact",
    "Multicalc.attitude_step_derivative",
    "Multicalc.integrate_attitude_norm",
    "Multicalc.accelerated_steps_add"
   ],
   "note": "Exactness for turns of zero or at least 30/2^52 per step; the length bound for every turn."
  },
  {
   "property": "C93",
   "status": "proved",
   "theorems": [
    "Multicalc.attitude_stays_rotation",
    "Multicalc.attitude_agree",
    "Multicalc.mahony_finds_level",
    "Multicalc.mahony_settles",
    "Multicalc.madgwick_finds_level",
    "Multicalc.madgwick_settles",
    "Multicalc.madgwick_bounded_nudge",
    "Multicalc.reference_directions",
    "Multicalc.attitude_free_fall",
    "Multicalc.with_reference_directions"
   ],
   "note": "Settling is proved with the push sensor alone on a still body; an upside-down start is never corrected (`madgwick_finds_level`)."
  },
  {
   "property": "C94",
   "status": "proved",
   "theorems": [
    "Multicalc.converged_means",
    "Multicalc.converged_iff",
    "Multicalc.truth_scores_best",
    "Multicalc.localization_motion",
    "Multicalc.estimate_position",
    "Multicalc.estimate_heading",
    "Multicalc.estimate_spread"
   ],
   "note": ""
  },
  {
   "property": "C95",
   "status": "partial",
   "theorems": [
    "Multicalc.constant_turn_exact",
    "Multicalc.constant_turn_straight",
    "Multicalc.constant_turn_compose",
    "Multicalc.direct_measurement",
    "Multicalc.residual_wrapped",
    "Multicalc.residual_half_turn_partial"
   ],
   "note": "Everything holds except the documented half-open range of a wrapped residual: a difference of pi comes back as -pi."
  },
  {
   "property": "C96",
   "status": "proved",
   "theorems": [
    "Multicalc.qr_factorises",
    "Multicalc.least_squares_correct",
    "Multicalc.least_squares_rank_deficient",
    "Multicalc.enorm_spec"
   ],
   "note": ""
  },
  {
   "property": "C97",
   "status": "proved",
   "theorems": [
    "Multicalc.damped_solve_correct",
    "Multicalc.undamped_solve_correct",
    "Multicalc.cholesky_factor_solve",
    "Multicalc.max_atb_scaled_spec",
    "Multicalc.a_x_norm_spec",
    "Multicalc.is_non_singular_spec"
   ],
   "note": ""
  },
  {
   "property": "C98",
   "status": "partial",
   "theorems": [
    "Multicalc.svd_spec",
    "Multicalc.svd_orthogonal_columns",
    "Multicalc.svd_two_columns",
    "Multicalc.svd_wide",
    "Multicalc.svd_not_finite",
    "Multicalc.svd_left_orthonormal_partial",
    "Multicalc.svd_rank",
    "Multicalc.svd_pseudo_inverse_eq",
    "Multicalc.svd_truncation_error",
    "Multicalc.svd_moore_penrose",
    "Multicalc.svd_solve",
    "Multicalc.pseudo_inverse_wide",
    "Multicalc.svd_default_cutoff",
    "Multicalc.svd_condition_number"
   ],
   "note": ""
  },
  {
   "property": "C99",
   "status": "partial",
   "theorems": [
    "Multicalc.damped_pseudo_inverse_optimal",
    "Multicalc.null_space_projector_spec",
    "Multicalc.null_space_damped_partial",
    "Multicalc.geometric_jacobian_padded",
    "Multicalc.smallest_singular_value_bound",
    "Multicalc.smallest_singular_value_deficient",
    "Multicalc.classify_singularity_spec",
    "Multicalc.multi_start_report",
    "Multicalc.multi_start_refusals",
    "Multicalc.solve_seeded_seeds",
    "Multicalc.closest_to_least",
    "Multicalc.jittered_seed_range"
   ],
   "note": ""
  },
  {
   "property": "C100",
   "status": "proved",
   "theorems": [
    "Multicalc.expm_accuracy",
    "Multicalc.expm_nilpotent",
    "Multicalc.expm_inverse",
    "Multicalc.expm_finite",
    "Multicalc.expm_overflow_hangs"
   ],
   "note": ""
  },
  {
   "property": "C101",
   "status": "proved",
   "theorems": [
    "Multicalc.so3_coefficients",
    "Multicalc.se3_coefficients",
    "Multicalc.so3_left_jacobian_derivative",
    "Multicalc.so3_right_jacobian",
    "Multicalc.se3_left_jacobian_derivative",
    "Multicalc.se3_right_jacobian",
    "Multicalc.se3_jacobian_inverse",
    "Multicalc.se2_left_jacobian_derivative",
    "Multicalc.se2_right_jacobian",
    "Multicalc.se2_right_jacobian_inverse"
   ],
   "note": "SO3 for every rotation vector above the exponential's own threshold (6.7e-15); SE3 derivative for rotation parts above 0.051, where every coefficient uses its closed form; below, the coefficients are bounded but the derivative of the branchy map is not stated."
  },
  {
   "property": "C102",
   "status": "proved",
   "theorems": [
    "Multicalc.ErrorStateKalmanFilter.eskf_predict",
    "Multicalc.ErrorStateKalmanFilter.eskf_fold",
    "Multicalc.ErrorStateKalmanFilter.eskf_update",
    "Multicalc.ErrorStateKalmanFilter.eskf_condition",
    "Multicalc.ErrorStateKalmanFilter.eskf_history",
    "Multicalc.NominalState.error_of_plus",
    "Multicalc.NominalState.plus_of_error",
    "Multicalc.ErrorStateKalmanFilter.transition_velocity_position",
    "Multicalc.ErrorStateKalmanFilter.transition_rotation",
    "Multicalc.ErrorStateKalmanFilter.transition_gyroscope_bias",
    "Multicalc.ErrorStateKalmanFilter.measurement_jacobian_exact",
    "Multicalc.ErrorStateKalmanFilter.nees_spec",
    "Multicalc.ErrorStateKalmanFilter.eskf_normalized_innovation",
    "Multicalc.ErrorStateKalmanFilter.noise_density_depends_on_rate",
    "Multicalc.ErrorStateKalmanFilter.random_walk_rate_free",
    "Multicalc.ErrorStateKalmanFilter.eskf_refuses",
    "Multicalc.ErrorStateKalmanFilter.eskf_failure_keeps",
    "Multicalc.ErrorStateKalmanFilter.failed_prediction_moves",
    "Multicalc.ErrorStateKalmanFilter.eskf_predict_finite",
    "Multicalc.ErrorStateKalmanFilter.eskf_standing_still"
   ],
   "note": "The transition's rotation row is exact for errors without a gyroscope-bias part when the step's own turn is a unit quaternion; its gyroscope-bias column is shown to be the identity in place of the right Jacobian. Rounding is not modelled."
  },
  {
   "property": "C103",
   "status": "proved",
   "theorems": [
    "Multicalc.GeometricAttitude.attitude_error_length",
    "Multicalc.GeometricAttitude.attitude_error_axis",
    "Multicalc.GeometricAttitude.balance",
    "Multicalc.GeometricAttitude.torque_frame_free",
    "Multicalc.GeometricAttitude.attitude_new",
    "Multicalc.GeometricAttitude.Tracking.misalignment_deriv",
    "Multicalc.GeometricAttitude.Tracking.rate_error_dynamics",
    "Multicalc.GeometricAttitude.Tracking.energy_deriv",
    "Multicalc.GeometricAttitude.Tracking.energy_falls",
    "Multicalc.GeometricAttitude.attitude_converges"
   ],
   "note": "Exact arithmetic, the controller's inertia equal to the body's, and a torque applied in continuous time; motors, sampling and rounding are not modelled."
  },
  {
   "property": "C104",
   "status": "proved",
   "theorems": [
    "Multicalc.thrust_command",
    "Multicalc.thrust_level",
    "Multicalc.thrust_refuses"
   ],
   "note": ""
  },
  {
   "property": "C105",
   "status": "proved",
   "theorems": [
    "Multicalc.minimum_snap_optimal",
    "Multicalc.MinimumSnapPlanner.minimum_snap_verdicts",
    "Multicalc.MinimumSnapPlanner.minimum_snap_one_segment",
    "Multicalc.MinimumSnapPlanner.minimum_snap_short",
    "Multicalc.MinimumSnapPlanner.minimum_snap_two_segments",
    "Multicalc.durations_from_average_speed",
    "Multicalc.snap_refuses_nonfinite"
   ],
   "note": "Over the real numbers; the loops, validation, padding and symmetrisation are modelled as written. Two capacities are arguments."
  },
  {
   "property": "C106",
   "status": "proved",
   "theorems": [
    "Multicalc.newton_system_report",
    "Multicalc.newton_system_error",
    "Multicalc.newton_system_step_exact",
    "Multicalc.newton_system_converges",
    "Multicalc.newton_system_default",
    "Multicalc.newton_system_root_unique",
    "Multicalc.newton_system_affine",
    "Multicalc.newton_system_last_step_untested"
   ],
   "note": "Reports and errors for every scalar type; steps, convergence and affine systems over the real numbers, with the LU conditioning check as written. Convergence is for the default, without backtracking."
  },
  {
   "property": "C107",
   "status": "proved",
   "theorems": [
    "Multicalc.Urdf.urdf_build_ok",
    "Multicalc.Urdf.urdf_build_error",
    "Multicalc.Urdf.urdf_build_terminates",
    "Multicalc.Urdf.urdf_build_iff",
    "Multicalc.Urdf.urdf_names_distinct",
    "Multicalc.Urdf.urdf_cycle_names_wrong_link"
   ],
   "note": "Starts from the parsed link and joint lists; the XML text and the attribute readers are not modelled. Strings compare by code point, which agrees with Rust's byte order on UTF-8."
  },
  {
   "property": "C108",
   "status": "proved",
   "theorems": [
    "Multicalc.RobotModel.robot_path",
    "Multicalc.RobotModel.robot_tree",
    "Multicalc.RobotModel.robot_chain_tree",
    "Multicalc.RobotModel.robot_tree_errors",
    "Multicalc.RobotModel.robot_chain_errors",
    "Multicalc.RobotModel.robot_chain_pose",
    "Multicalc.RobotModel.urdf_model_ordered",
    "Multicalc.mjcf_model_ordered",
    "Multicalc.robot_tree_free_first",
    "Multicalc.mjcf_floating_base_not_root"
   ],
   "note": "The MJCF reader is modelled from each body's parsed attributes on; that its joint reader describes only hinges and slides is a hypothesis, as is that the URDF joint reader describes no weld."
  },
  {
   "property": "C109",
   "status": "proved",
   "theorems": [
    "Multicalc.Mjcf.geom_volume_spread",
    "Multicalc.Mjcf.geom_inertia",
    "Multicalc.Mjcf.geom_accepts",
    "Multicalc.Mjcf.geom_refusals",
    "Multicalc.Mjcf.composite_inertia",
    "Multicalc.Mjcf.composite_accepts",
    "Multicalc.Mjcf.mjcf_body_inertia",
    "Multicalc.Mjcf.mjcf_body_accepts"
   ],
   "note": ""
  },
  {
   "property": "C110",
   "status": "proved",
   "theorems": [
    "mjcf_classes",
    "mjcf_geom_precedence",
    "mjcf_joint_precedence",
    "mjcf_second_unnamed_block",
    "mjcf_joint",
    "mjcf_joint_count",
    "mjcf_stated_inertia",
    "mjcf_stated_inertia_accepts",
    "mjcf_inertia_source"
   ],
   "note": ""
  },
  {
   "property": "C111",
   "status": "proved",
   "theorems": [
    "Multicalc.GaussianTables.gauss_legendre",
    "Multicalc.GaussianTables.gauss_laguerre",
    "Multicalc.GaussianTables.gauss_hermite"
   ],
   "note": ""
  },
  {
   "property": "C112",
   "status": "proved",
   "theorems": [
    "Multicalc.Urdf.urdf_numbers",
    "Multicalc.Urdf.urdf_first_child",
    "Multicalc.Urdf.urdf_origin",
    "Multicalc.Urdf.urdf_inertial",
    "Multicalc.Urdf.urdf_joint",
    "Multicalc.Urdf.urdf_load"
   ],
   "note": ""
  },
  {
   "property": "C113",
   "status": "proved",
   "theorems": [
    "Multicalc.Codegen.source_errors",
    "Multicalc.Codegen.source_limit",
    "Multicalc.Codegen.source_compiles",
    "Multicalc.Codegen.source_rebuilds",
    "Multicalc.Codegen.source_runs",
    "Multicalc.Codegen.source_converts",
    "Multicalc.Codegen.source_limit_witness",
    "Multicalc.Codegen.source_panics",
    "Multicalc.Codegen.source_infinite",
    "Multicalc.Codegen.source_comment"
   ],
   "note": "The text around the numbers, and that a finite number written with `{:?}` reads back as itself, are trusted; the statements and their meaning are modelled."
  },
  {
   "property": "C114",
   "status": "proved",
   "theorems": [
    "Multicalc.Mjcf.include_assembly",
    "Multicalc.Mjcf.include_load",
    "Multicalc.Mjcf.include_needs_file",
    "Multicalc.Mjcf.include_circle",
    "Multicalc.Mjcf.include_too_deep",
    "Multicalc.Mjcf.include_succeeds",
    "Multicalc.Mjcf.include_nested_panics"
   ],
   "note": "Dividing the text into tags and reading a tag's name and attributes are trusted (roxmltree); ranges count tags rather than bytes."
  },
  {
   "property": "C115",
   "status": "proved",
   "theorems": [
    "Multicalc.Poly.fit_least_squares",
    "Multicalc.Poly.fit_undetermined",
    "Multicalc.Poly.fit_line_succeeds",
    "Multicalc.Poly.from_jet_copies",
    "Multicalc.Poly.from_jet_taylor"
   ],
   "note": "Over the reals; the sample count is at most the cube root of the largest number. A fit of three or more coefficients may still be refused as badly conditioned; only lines are proved always to be found."
  },
  {
   "property": "C116",
   "status": "proved",
   "theorems": [
    "Multicalc.KinematicTree.distance_symmetric",
    "Multicalc.KinematicTree.distance_explicit",
    "Multicalc.KinematicTree.distance_whole_turns",
    "Multicalc.KinematicTree.distance_triangle",
    "Multicalc.KinematicTree.distance_zero_same_pose"
   ],
   "note": "The triangle inequality is proved for trees without a floating base; with one it holds only up to the logarithm's small-angle series. Zero distance implies equal poses except for freely turning readings inside the exponential's series threshold."
  },
  {
   "property": "C117",
   "status": "proved",
   "theorems": [
    "Multicalc.GaussianTables.gauss_multi_product",
    "Multicalc.GaussianTables.gauss_multi_linear",
    "Multicalc.GaussianTables.gauss_multi_order",
    "Multicalc.GaussianTables.gauss_multi_box",
    "Multicalc.GaussianTables.gauss_single_repeated"
   ],
   "note": ""
  },
  {
   "property": "C118",
   "status": "proved",
   "theorems": [
    "Multicalc.low_pass_delay",
    "Multicalc.high_pass_delay",
    "Multicalc.band_pass_delay",
    "Multicalc.notch_delay",
    "Multicalc.delay_means",
    "Multicalc.cascade_delay_means",
    "Multicalc.cascade_delay_sum",
    "Multicalc.decibels_spec",
    "Multicalc.decibels_removed",
    "Multicalc.pure_delay_reported_early"
   ],
   "note": ""
  },
  {
   "property": "C119",
   "status": "partial",
   "theorems": [
    "Multicalc.Mjcf.mjcf_compiler",
    "Multicalc.Mjcf.mjcf_geom_attributes",
    "Multicalc.Mjcf.mjcf_joint_attributes",
    "Multicalc.Mjcf.mjcf_orientation",
    "Multicalc.mjcf_default_elements",
    "mjcf_top_level",
    "mjcf_load",
    "mjcf_pose",
    "mjcf_joint_element",
    "mjcf_inertia_elements",
    "mjcf_include_inside",
    "mjcf_second_worldbody_partial",
    "mjcf_root_include_lost_partial"
   ],
   "note": "The element tree is that of roxmltree; record-level errors do not name their body. Partial because `ignored()` promises every top-level element nothing was read from, and a second worldbody or compiler is read by nobody and not listed."
  },
  {
   "property": "C120",
   "status": "proved",
   "theorems": [
    "Multicalc.brent_converges",
    "Multicalc.brent_interpolates",
    "Multicalc.brent_affine"
   ],
   "note": ""
  },
  {
   "property": "C121",
   "status": "proved",
   "theorems": [
    "Multicalc.rk45_converges",
    "Multicalc.rk45_grid_converges",
    "Multicalc.rk4_stable",
    "Multicalc.rk4_converges",
    "Multicalc.rk4_linear_order"
   ],
   "note": ""
  },
  {
   "property": "C122",
   "status": "proved",
   "theorems": [
    "Multicalc.composite_error",
    "Multicalc.composite_converges",
    "Multicalc.composite_lipschitz",
    "Multicalc.composite_order"
   ],
   "note": ""
  },
  {
   "property": "C123",
   "status": "proved",
   "theorems": [
    "Multicalc.fdSingle_mean_value",
    "Multicalc.fdSingle_error",
    "Multicalc.fdSingle_central_error",
    "Multicalc.fdSingle_converges",
    "Multicalc.fdMulti_mean_value",
    "Multicalc.fdColumn_mean_value"
   ],
   "note": ""
  },
  {
   "property": "C124",
   "status": "proved",
   "theorems": [
    "Multicalc.set_section_spec",
    "Multicalc.cascade_reset_fresh",
    "Multicalc.cascade_reset_after_run",
    "Multicalc.multi_channel_independent",
    "Multicalc.multi_channel_value",
    "Multicalc.retune_transition",
    "Multicalc.retune_disturbance",
    "Multicalc.retune_forgets"
   ],
   "note": ""
  },
  {
   "property": "C125",
   "status": "partial",
   "theorems": [
    "Multicalc.try_normalize_in_place",
    "Multicalc.try_normalized_spec",
    "Multicalc.try_normalized_special",
    "Multicalc.try_normalized_infinite_partial",
    "Multicalc.try_normalized_overflow_partial"
   ],
   "note": "Proved for finite vectors over exact reals, for NaN entries, and for in place against copy. Missing because false: infinite entries, and finite entries whose squares overflow."
  },
  {
   "property": "C126",
   "status": "partial",
   "theorems": [
    "Multicalc.solve_keeps_nan",
    "Multicalc.cholesky_keeps_nan",
    "Multicalc.inverse_keeps_nan",
    "Multicalc.solve_vouches",
    "Multicalc.cholesky_positive_partial",
    "Multicalc.singular_means_zero_column_partial"
   ],
   "note": "Proved: a NaN or infinite entry is refused or shows up as NaN in the answer. Missing because false: that cholesky's diagonal is strictly positive whenever it returns, and that Singular (and a zero determinant from five rows on) means an all-zero pivot column."
  },
  {
   "property": "C127",
   "status": "proved",
   "theorems": [
    "Multicalc.fdSingle_noise",
    "Multicalc.default_step_balances",
    "Multicalc.default_step_error"
   ],
   "note": ""
  },
  {
   "property": "C128",
   "status": "proved",
   "theorems": [
    "Multicalc.try_from_slice_iff",
    "Multicalc.try_from_row_slice_iff",
    "Multicalc.checked_reads",
    "Multicalc.checked_writes"
   ],
   "note": ""
  },
  {
   "property": "C129",
   "status": "proved",
   "theorems": [
    "Multicalc.levenberg_marquardt_verdicts",
    "Multicalc.trust_region_resize",
    "Multicalc.rejected_trials_shrink",
    "Multicalc.trial_verdicts"
   ],
   "note": ""
  }
 ]
}