{"id": "C01", "title": "Generator never falls into a short cycle", "statement": "For every seed and stream, the internal position of the PCG generator returns to where it started only after exactly 2^64 draws of next_u32 (and multiples of that), so no seed gives a short or stuck stream.", "quantifier": "all 2^64 seeds, all 2^64 stream selectors, all numbers of draws", "why_tests_cant": "a test can only run a few million draws of a few seeds; the claim is about 2^64 draws of 2^128 generators", "anchors": ["crates/multicalc/src/random.rs: Pcg32::with_stream, Pcg32::next_u32"]}
{"id": "C02", "title": "Uniform draws stay in [0,1)", "statement": "Every uniform draw (f64 and f32) from any generator state is at least 0, strictly below 1, is an exact multiple of 2^-53 (2^-24), and every such grid value comes from some underlying word.", "quantifier": "all generator states", "why_tests_cant": "a boundary word that yields exactly 1.0 has probability 2^-53 and is never hit by sampling", "anchors": ["crates/multicalc/src/random.rs: RandomScalar::next_unit, Pcg32::next_u64"]}
{"id": "C03", "title": "Same seed, same history, same draws; draws do not depend on how they are batched", "statement": "The outputs of a generator are a function of (seed, stream, sequence of calls) only, next_u64 is exactly two next_u32 draws with the first in the high half, and a draw advances the position in a way that does not depend on the position's cached normal.", "quantifier": "all seeds, streams and call sequences", "why_tests_cant": "holds over arbitrary interleavings of next_u32/next_u64/normal draws", "anchors": ["crates/multicalc/src/random.rs: Pcg32"]}
{"id": "C04", "title": "Polar normal pairs satisfy the Box-Muller identity and are served in order", "statement": "Whenever a pair of normals is generated from an accepted point (x,y) with 0 < s = x^2+y^2 < 1, the two values served (this call and the next) satisfy z0^2+z1^2 = -2 ln s and z0*y = z1*x; the second is served exactly once and without consuming randomness.", "quantifier": "all generator states and all accepted points", "why_tests_cant": "identity over a continuum of accepted points", "anchors": ["crates/multicalc/src/random.rs: standard_normal"]}
{"id": "C05", "title": "wrap_to_pi is a representative of the same angle in [-pi, pi]", "statement": "For every real angle, wrap_to_pi(x) lies in [-pi, pi], differs from x by an integer multiple of 2*pi, has the same sine and cosine, and is idempotent on (-pi, pi).", "quantifier": "all real angles", "why_tests_cant": "uncountable domain, edge at odd multiples of pi", "anchors": ["crates/multicalc/src/scalar/numeric.rs: Numeric::wrap_to_pi"]}
{"id": "C06", "title": "powi is the integer power", "statement": "powi(x, n) equals x^n for every integer exponent including zero and negative ones (x nonzero for negative), for plain scalars.", "quantifier": "all x and all i32 exponents", "why_tests_cant": "2^32 exponents and all x", "anchors": ["crates/multicalc/src/scalar/numeric.rs: Numeric::powi"]}
{"id": "C07", "title": "hypot is the Euclidean length", "statement": "hypot(a,b) = sqrt(a^2+b^2) for every pair of reals including zeros, and is symmetric and sign-independent.", "quantifier": "all pairs of reals", "why_tests_cant": "uncountable domain with a branch at zero", "anchors": ["crates/multicalc/src/scalar/numeric.rs: Numeric::hypot"]}
{"id": "C08", "title": "Comparison-based max/min/clamp keep values in range", "statement": "clamp(x, lo, hi) with lo <= hi is in [lo, hi] and equals x when x already is; max/min return one of their arguments and bound both, for any rounding behaviour of the scalar.", "quantifier": "all values of any totally ordered scalar", "why_tests_cant": "all inputs", "anchors": ["crates/multicalc/src/scalar/numeric.rs: Numeric::{max,min,clamp}"]}
{"id": "C09", "title": "Dual numbers give the exact first derivative", "statement": "For every function written with the supported operations, evaluating it on Dual(x,1) gives the function's value and its derivative at x, at every x where each operation used is differentiable.", "quantifier": "all expression trees over the scalar operations and all points", "why_tests_cant": "one test per function cannot cover arbitrary compositions", "anchors": ["crates/multicalc/src/scalar/dual.rs: impl Numeric for Dual, Add/Sub/Mul/Div for Dual", "crates/multicalc/src/numerical_derivative/autodiff.rs: AutoDiffSingle::differentiate"]}
{"id": "C10", "title": "Hyper-dual numbers give exact second and mixed partial derivatives", "statement": "For every multi-variable function written with the supported operations, seeding directions i and j gives the value, both first partials and the mixed second partial d2f/dxi dxj exactly; the result is the same with i and j exchanged.", "quantifier": "all expression trees, all points in the smooth domain, all index pairs", "why_tests_cant": "arbitrary compositions", "anchors": ["crates/multicalc/src/scalar/hyper_dual.rs: impl Numeric for HyperDual", "crates/multicalc/src/numerical_derivative/autodiff.rs: AutoDiffMulti::differentiate", "crates/multicalc/src/numerical_derivative/hessian.rs: Hessian::evaluate"]}
{"id": "C11", "title": "Jets carry Taylor coefficients through every operation", "statement": "Evaluating a function on Jet::variable(x) gives in slot k the k-th Taylor coefficient of the function at x, so derivative(k) is the true k-th derivative for each supported order.", "quantifier": "all expression trees, all points in the smooth domain, all orders below the jet length", "why_tests_cant": "arbitrary compositions and arbitrary orders", "anchors": ["crates/multicalc/src/scalar/jet.rs: Jet", "crates/multicalc/src/numerical_derivative/autodiff.rs: AutoDiffSingle::differentiate"]}
{"id": "C12", "title": "Autodiff runs the same branch as the plain evaluation", "statement": "The value part of any Dual/HyperDual/Jet computation equals the plain computation, whatever comparisons the user's function makes on its scalars.", "quantifier": "all programs built from scalar operations and comparisons", "why_tests_cant": "branching programs are unbounded in number", "anchors": ["crates/multicalc/src/scalar/dual.rs", "crates/multicalc/src/scalar/hyper_dual.rs", "crates/multicalc/src/scalar/jet.rs"]}
{"id": "C13", "title": "Finite differences are exact on low-degree polynomials", "statement": "Central differences give the exact first derivative of every quadratic, forward/backward of every affine function, whatever the positive step; a zero step is StepSizeZero, a negative or non-finite one InvalidStepSize, order 0 is OrderZero, in that precedence.", "quantifier": "all polynomials of the degree, all points, all steps", "why_tests_cant": "uncountable domain", "anchors": ["crates/multicalc/src/numerical_derivative/finite_difference.rs: FiniteDifferenceSingle::differentiate, FiniteDifferenceConfig::check_step_size"]}
{"id": "C14", "title": "Pairwise summation loses no term", "statement": "After any sequence of n additions the pairwise accumulator's total is, in exact arithmetic, the sum of all n terms; level bookkeeping never overflows its fixed number of levels for any count the machine can reach.", "quantifier": "all sequences of terms of any length", "why_tests_cant": "block and carry boundaries occur at 128*2^k terms", "anchors": ["crates/multicalc/src/utils/summation.rs: PairwiseSum"]}
{"id": "C15", "title": "Kahan summation equals the sum in exact arithmetic and its compensation is zero there", "statement": "After any sequence of additions the compensated accumulator's total equals the plain sum when arithmetic is exact.", "quantifier": "all sequences", "why_tests_cant": "all lengths", "anchors": ["crates/multicalc/src/utils/summation.rs: KahanSum"]}
{"id": "C16", "title": "Bisection keeps a sign-changing bracket and stays inside it", "statement": "For every function and every bracket accepted, bisection evaluates the function only inside the bracket, any root returned lies inside the initial bracket, and the returned point satisfies the residual or bracket-width test that its termination reason names; the number of iterations reported never exceeds the budget.", "quantifier": "all functions (even discontinuous), all brackets, all tolerances and budgets", "why_tests_cant": "arbitrary functions", "anchors": ["crates/multicalc/src/root_finding/bisection.rs: Bisection::find"]}
{"id": "C17", "title": "Bisection returns near a true root for continuous functions", "statement": "If the function is continuous and bisection returns through the bracket-width test, a true root lies within the reported tolerance of the returned point; with positive x tolerance and enough budget for the bracket width it always returns Ok.", "quantifier": "all continuous functions and brackets", "why_tests_cant": "arbitrary functions", "anchors": ["crates/multicalc/src/root_finding/bisection.rs: Bisection::find"]}
{"id": "C18", "title": "Brent keeps its bracket and never exceeds its budget", "statement": "Brent's method keeps two points with opposite signs around a root, every trial point lies between them, the returned root lies in the initial bracket, and iterations never exceed the budget.", "quantifier": "all functions, brackets and budgets", "why_tests_cant": "arbitrary functions", "anchors": ["crates/multicalc/src/root_finding/brent.rs: Brent::find"]}
{"id": "C19", "title": "Newton only reports a root it has checked", "statement": "If Newton's method returns through the residual test, |f(root)| <= ftol at the returned point; the number of iterations and halvings is bounded by the configured budgets for every function; a zero derivative is reported as Singular, a non-finite value as NonFinite.", "quantifier": "all functions and starting points", "why_tests_cant": "arbitrary functions", "anchors": ["crates/multicalc/src/root_finding/newton.rs: Newton::find"]}
{"id": "C20", "title": "RK4 is exact on cubics in time and calls its observer steps+1 times", "statement": "For a right-hand side that depends on time only as a cubic, RK4 integrates exactly; for every right-hand side the observer sees exactly steps+1 states starting with the initial one, at times t0, t0+h, ...", "quantifier": "all right-hand sides, step counts and steps", "why_tests_cant": "arbitrary functions and counts", "anchors": ["crates/multicalc/src/ode/rk4.rs: Rk4::step, Rk4::integrate"]}
{"id": "C21", "title": "The Dormand-Prince tableau is consistent to order five", "statement": "The coefficients in the code satisfy all 17 order conditions up to order five for the propagated solution, the row-sum conditions, the first-same-as-last property, and the error weights are the difference with a formula of order four.", "quantifier": "the coefficient table as read by every step", "why_tests_cant": "a coefficient typo can pass loose accuracy tests", "anchors": ["crates/multicalc/src/ode/rk45.rs: dopri_step and coefficient table"]}
{"id": "C22", "title": "The adaptive solver lands exactly on the end time or reports an error", "statement": "Whenever the adaptive solver returns Ok, the accepted steps are contiguous, start at time_start, never overshoot time_final, and end within EPSILON(1+|tf|) of it, in either time direction; the number of attempts never exceeds max_steps; each accepted step has error norm at most one.", "quantifier": "all right-hand sides, spans, tolerances, step limits", "why_tests_cant": "arbitrary functions and step histories", "anchors": ["crates/multicalc/src/ode/rk45.rs: Rk45::for_each_step"]}
{"id": "C23", "title": "Dense output interpolates the accepted step", "statement": "The cubic Hermite interpolant agrees with the step's end states and end slopes and reproduces every cubic exactly.", "quantifier": "all steps and query times", "why_tests_cant": "uncountable domain", "anchors": ["crates/multicalc/src/ode/rk45.rs: Step::interpolate"]}
{"id": "C24", "title": "Moving average is the mean of the last WINDOW samples, for any history", "statement": "After any non-empty input history the moving average equals the mean of the last WINDOW samples with history before the first sample padded with the first sample; a constant input gives that constant from the first sample.", "quantifier": "all histories of any length and all window sizes", "why_tests_cant": "ring-buffer wrap-around at arbitrary phase", "anchors": ["crates/multicalc/src/signal_processing/window.rs: MovingAverage"]}
{"id": "C25", "title": "Running median is a median of the last WINDOW samples and rejects spikes", "statement": "After any history the running median is an element of the (padded) window with at most half of the window strictly below and at most half strictly above, hence is between the window's minimum and maximum.", "quantifier": "all histories and window sizes", "why_tests_cant": "ring buffer phase and sorting", "anchors": ["crates/multicalc/src/signal_processing/window.rs: RunningMedian"]}
{"id": "C26", "title": "Savitzky-Golay reproduces polynomials up to its degree", "statement": "When the window holds samples of a polynomial of degree at most the fit's, the smoothed value and derivative equal the polynomial's.", "quantifier": "all polynomials of the degree", "why_tests_cant": "uncountable domain", "anchors": ["crates/multicalc/src/signal_processing/savitzky_golay.rs: SavitzkyGolay"]}
{"id": "C27", "title": "Slew limiter never moves faster than its rates and converges", "statement": "Each output differs from the previous by at most the rate times the time step in each direction, an input already reachable is passed through unchanged, and holding the input constant the output reaches it in finitely many steps and stays.", "quantifier": "all input sequences", "why_tests_cant": "arbitrary histories", "anchors": ["crates/multicalc/src/signal_processing/conditioning.rs: SlewRateLimiter"]}
{"id": "C28", "title": "Deadband and hysteresis behave as documented for every history", "statement": "Deadband outputs zero exactly inside the band and is monotone/odd/continuous (recentred form); hysteresis changes state only by crossing the opposite threshold, so inputs wandering strictly between the thresholds never change the output.", "quantifier": "all inputs / all histories", "why_tests_cant": "arbitrary histories", "anchors": ["crates/multicalc/src/signal_processing/conditioning.rs: Deadband, Hysteresis"]}
{"id": "C29", "title": "One-pole low-pass is a convex average: bounded, no overshoot, unit DC gain", "statement": "Every output lies between the smallest and largest input seen so far, a constant input is a fixed point, and a step response converges geometrically to the input.", "quantifier": "all histories", "why_tests_cant": "arbitrary histories", "anchors": ["crates/multicalc/src/signal_processing/one_pole.rs: OnePoleLowPass"]}
{"id": "C30", "title": "Biquad designs are stable with the documented DC/Nyquist gain", "statement": "Every low-pass and high-pass design accepted by the constructor has both poles strictly inside the unit circle, low-pass DC gain 1 and Nyquist gain 0 (high-pass the reverse, notch both 1, band-pass both 0); band-pass and notch designs are documented always stable.", "quantifier": "all sample times, corner frequencies and Q the constructor accepts", "why_tests_cant": "uncountable parameter space; a tangent crossing pi/2 for small Q is easily missed", "anchors": ["crates/multicalc/src/signal_processing/biquad.rs: Biquad::{low_pass,high_pass,band_pass,notch,is_stable}"]}
{"id": "C31", "title": "is_stable is exactly the pole criterion", "statement": "is_stable holds exactly when every root of z^2 + a1 z + a2 has modulus below one; a stable biquad's zero-input response decays to zero from every state.", "quantifier": "all coefficient pairs and all states", "why_tests_cant": "uncountable", "anchors": ["crates/multicalc/src/signal_processing/biquad.rs: Biquad::is_stable"]}
{"id": "C32", "title": "Biquad filtering implements the difference equation", "statement": "For every input history the transposed-form output satisfies y[n] = b0 x[n]+b1 x[n-1]+b2 x[n-2]-a1 y[n-1]-a2 y[n-2], and after settle_to(x) a constant input x gives a constant output equal to DC gain times x.", "quantifier": "all histories and coefficients", "why_tests_cant": "arbitrary histories", "anchors": ["crates/multicalc/src/signal_processing/biquad.rs: Biquad::update, settle_to"]}
{"id": "C33", "title": "PID output always respects its limits", "statement": "For every gain set, every history of setpoints, measurements and time steps, and every rounding behaviour, each PID output lies within [output_min, output_max].", "quantifier": "all histories", "why_tests_cant": "arbitrary histories, saturation and anti-windup interplay", "anchors": ["crates/multicalc/src/control/pid.rs: Pid::update"]}
{"id": "C34", "title": "PID anti-windup never integrates further into saturation", "statement": "When the unsaturated output is beyond a limit and the error would push it further, the integral state does not change in that direction; otherwise it accumulates exactly the integral gain times error times step.", "quantifier": "all states and inputs", "why_tests_cant": "arbitrary histories", "anchors": ["crates/multicalc/src/control/pid.rs: Pid::update"]}
{"id": "C35", "title": "PID gain changes are bumpless and resume_from resumes", "statement": "Changing gains leaves the next output for the same error and zero derivative unchanged; resume_from(output) makes the next output equal to the one given when it is within limits.", "quantifier": "all states and gains", "why_tests_cant": "arbitrary state", "anchors": ["crates/multicalc/src/control/pid.rs: Pid::set_gains, Pid::resume_from"]}
{"id": "C36", "title": "Pure pursuit steers on the circle through the lookahead point", "statement": "The curvature returned is that of the unique circle tangent to the heading at the vehicle and passing through the lookahead point; it is zero exactly when the point is straight ahead or behind and its sign is the side the point is on.", "quantifier": "all poses and lookahead points", "why_tests_cant": "uncountable", "anchors": ["crates/multicalc/src/control/pure_pursuit.rs"]}
{"id": "C37", "title": "LQR/Lyapunov results are the certified sums", "statement": "When the discrete Lyapunov solver returns P it is exactly the partial sum of (A^T)^k Q A^k for k < 2^m, hence symmetric/PSD with Q, with residual exactly (A^T)^(2^m) Q A^(2^m); the number of doublings is bounded. The documented claim that success certifies stability is checked.", "quantifier": "all matrices A, Q of all sizes", "why_tests_cant": "all matrices", "anchors": ["crates/multicalc/src/linear_algebra/lyapunov.rs", "crates/multicalc/src/control/lqr.rs: certify_stability"]}
{"id": "C38", "title": "Follow-the-gap commands stay inside their limits", "statement": "For every scan (including NaN and infinite readings), the commanded speed lies between zero and cruise speed and the turn command within its limit.", "quantifier": "all scans", "why_tests_cant": "arbitrary scan arrays", "anchors": ["crates/multicalc/src/control/follow_the_gap.rs"]}
{"id": "C39", "title": "LU solve solves", "statement": "Whenever LU factorisation succeeds, P*A = L*U with L unit lower triangular (entries bounded by one in magnitude) and U upper triangular, solve(b) satisfies A x = b, the determinant is the true determinant, and inverse is a two-sided inverse; Singular is reported only for matrices that really are singular.", "quantifier": "all sizes, all real matrices, all right-hand sides", "why_tests_cant": "all matrices of all sizes with arbitrary pivot orders", "anchors": ["crates/multicalc/src/linear_algebra/lu.rs"]}
{"id": "C40", "title": "Cholesky succeeds exactly on positive definite matrices", "statement": "For symmetric A, cholesky returns a lower triangular L with positive diagonal and L L^T = A iff A is positive definite; solve returns the solution of A x = b. symmetric_positive_definite builds M M^T + I/4 from the entries, so its result is symmetric, positive definite and accepted by cholesky; on too few entries it panics.", "quantifier": "all sizes, all symmetric real matrices", "why_tests_cant": "all matrices", "anchors": ["crates/multicalc/src/linear_algebra/cholesky.rs", "crates/multicalc/src/linear_algebra/matrix.rs"]}
{"id": "C41", "title": "Closed-form determinant and inverse up to 4x4 agree with the definition", "statement": "The closed-form determinant for sizes 1..4 equals the Leibniz determinant for every matrix; an inverse returned is a two-sided inverse.", "quantifier": "all matrices up to 4x4", "why_tests_cant": "uncountable", "anchors": ["crates/multicalc/src/linear_algebra/matrix.rs: determinant, inverse"]}
{"id": "C42", "title": "Matrix algebra obeys the ring laws", "statement": "Matrix product/transpose/identity/trace/outer/scale behave as in linear algebra for all sizes: associativity, distributivity, (AB)^T = B^T A^T, identity laws, matrix-vector product compatibility.", "quantifier": "all sizes and entries", "why_tests_cant": "all sizes", "anchors": ["crates/multicalc/src/linear_algebra/matrix.rs", "crates/multicalc/src/linear_algebra/vector.rs"]}
{"id": "C43", "title": "Symmetric eigen-decomposition rotations are orthogonal similarity steps", "statement": "Every Jacobi sweep keeps V orthogonal and V^T A V equal to the working matrix, so the result has orthonormal directions, eigenvalues sorted largest first summing to the trace, and a residual of A v = lambda v that never exceeds the off-diagonal mass of A; the residual is below n*eps*max|A| unless the sixty-sweep cap was reached with every sweep still removing mass. clamped is exactly symmetric and its quadratic form is at least the floor.", "quantifier": "all symmetric matrices of all sizes, any number of sweeps", "why_tests_cant": "all matrices", "anchors": ["crates/multicalc/src/linear_algebra/symmetric_eigendecomposition.rs"]}
{"id": "C44", "title": "Quaternion product is associative with multiplicative norm, and rotation is a homomorphism", "statement": "Quaternion multiplication is associative, norm is multiplicative, conjugate reverses products, rotating by a product is rotating twice, and unit quaternions preserve dot products, cross products (orientation) and lengths.", "quantifier": "all quaternions and vectors", "why_tests_cant": "uncountable", "anchors": ["crates/multicalc/src/spatial/quaternion.rs"]}
{"id": "C45", "title": "Quaternion, matrix and axis-angle agree", "statement": "to_matrix of a unit quaternion is a rotation matrix (orthogonal, determinant one) acting exactly as rotate; from_axis_angle gives unit quaternions that fix the axis; from_rotation_matrix inverts to_matrix up to sign.", "quantifier": "all unit quaternions", "why_tests_cant": "branches on the largest diagonal entry", "anchors": ["crates/multicalc/src/spatial/quaternion.rs: to_matrix, from_rotation_matrix, from_axis_angle"]}
{"id": "C46", "title": "SO(3)/SE(3) are groups acting on points", "statement": "Composition is associative with identity and inverse, act is a group action, inverse undoes act, and distances are preserved, for 2D and 3D poses. In the plane, hat and vee are inverse on antisymmetric matrices, hat is the velocity of the rotation matrix, and the adjoint and the left and right Jacobians are what conjugation and exp make them.", "quantifier": "all poses and points", "why_tests_cant": "uncountable", "anchors": ["crates/multicalc/src/spatial/lie/so3.rs", "crates/multicalc/src/spatial/lie/se3.rs", "crates/multicalc/src/spatial/lie/so2.rs", "crates/multicalc/src/spatial/lie/se2.rs"]}
{"id": "C47", "title": "exp and log are mutually inverse on the documented range", "statement": "For every rotation vector of length below pi, log(exp(v)) = v and exp(log(q)) is the same rotation as q for every unit quaternion; small-angle branches are consistent.", "quantifier": "all rotation vectors below pi / all rotations", "why_tests_cant": "branch switch at small angles and at pi", "anchors": ["crates/multicalc/src/spatial/lie/so3.rs: exp, log", "crates/multicalc/src/spatial/quaternion.rs"]}
{"id": "C48", "title": "Twists and wrenches transform consistently and power is frame independent", "statement": "adjoint(T1 T2) = adjoint(T1) adjoint(T2), wrench transport is the dual, and power wrench·twist is the same in every frame; spatial cross products satisfy the Jacobi identity and duality.", "quantifier": "all poses, twists and wrenches", "why_tests_cant": "uncountable", "anchors": ["crates/multicalc/src/spatial/twist.rs", "crates/multicalc/src/spatial/wrench.rs"]}
{"id": "C49", "title": "Spatial inertia transforms consistently", "statement": "Kinetic energy is the same in every frame, combined bodies add their 6x6 inertias, and transformed inertia equals the congruence of the 6x6 inertia.", "quantifier": "all inertias and poses", "why_tests_cant": "uncountable", "anchors": ["crates/multicalc/src/spatial/inertia.rs"]}
{"id": "C50", "title": "Rigid body accelerations satisfy Newton-Euler about any reference point", "statement": "The accelerations returned satisfy Newton's law for the centre of mass and Euler's law about it, for every centre of mass offset, orientation, rate and wrench; torque-free motion conserves kinetic energy and angular momentum rate.", "quantifier": "all bodies, states and wrenches", "why_tests_cant": "uncountable", "anchors": ["crates/multicalc/src/dynamics/rigid_body.rs: RigidBody::accelerations"]}
{"id": "C51", "title": "Rotor lag is the exact solution of the first-order lag", "statement": "stepped(dt) is the exact flow of tau*x' = command - x: it composes over split time steps, never overshoots the command, converges geometrically, and stays in the range of commands for every history.", "quantifier": "all histories of commands and steps", "why_tests_cant": "arbitrary histories", "anchors": ["crates/multicalc/src/plant/rotor_lag.rs"]}
{"id": "C52", "title": "Mixer thrusts are always within limits and saturation is reported exactly", "statement": "Every thrust returned lies in [min,max], the saturated flag is set iff some unclamped share fell outside, and when it is not set the achieved wrench is the requested one to within the 1e-4 relative accuracy the constructor checks (exactly so for an exact inverse).", "quantifier": "all wrenches and accepted rotor layouts", "why_tests_cant": "uncountable", "anchors": ["crates/multicalc/src/plant/multirotor_mixing.rs"]}
{"id": "C53", "title": "Forward kinematics composes joint transforms along the tree", "statement": "Each link pose is the parent pose times the joint origin times the joint motion, for every tree shape accepted by push; a revolute joint fixes its anchor and axis, configuration offsets partition the configuration vector.", "quantifier": "all trees built by any sequence of pushes and all configurations", "why_tests_cant": "arbitrary tree shapes", "anchors": ["crates/multicalc/src/kinematics/kinematic_tree.rs"]}
{"id": "C54", "title": "The geometric Jacobian is the derivative of forward kinematics", "statement": "Each Jacobian column equals the twist of the tool obtained by differentiating forward kinematics along that joint coordinate.", "quantifier": "all trees and configurations", "why_tests_cant": "uncountable", "anchors": ["crates/multicalc/src/kinematics/kinematic_tree.rs: geometric_jacobian"]}
{"id": "C55", "title": "Differential drive conversions are mutually inverse", "statement": "to_body(to_wheels(v)) = v and conversely for every accepted geometry; odometry over an arc is independent of how the arc is split.", "quantifier": "all velocities and geometries", "why_tests_cant": "uncountable", "anchors": ["crates/multicalc/src/kinematics/differential_drive.rs", "crates/multicalc/src/kinematics/odometry.rs"]}
{"id": "C56", "title": "Segment and point distance queries are true minima", "statement": "closest_point_on_segment returns the nearest point of the segment, and the distance between two segments is the minimum over all point pairs.", "quantifier": "all segments and points", "why_tests_cant": "many regions and degenerate cases", "anchors": ["crates/multicalc/src/kinematics/collision.rs"]}
{"id": "C57", "title": "IK results are what they say", "statement": "Converged implies both tolerances are met at the returned configuration; every returned configuration is inside joint limits; iterations never exceed the budget.", "quantifier": "all trees, targets, seeds and settings", "why_tests_cant": "arbitrary inputs", "anchors": ["crates/multicalc/src/kinematics/inverse_kinematics.rs"]}
{"id": "C58", "title": "Kalman update keeps covariance symmetric positive semidefinite and never increases it", "statement": "With symmetric PSD covariance and positive definite measurement noise, update always succeeds, the Joseph posterior is symmetric PSD and not larger than the prior, equals the naive form, and equals the information-form posterior when the prior is invertible.", "quantifier": "all dimensions, models and histories", "why_tests_cant": "all matrices and histories", "anchors": ["crates/multicalc/src/estimation/kalman_filter.rs"]}
{"id": "C59", "title": "Filters reject bad input without corrupting state", "statement": "A non-finite measurement or reading returns NonFinite and leaves state and covariance as they were, for every filter documented as checked.", "quantifier": "all states and inputs", "why_tests_cant": "arbitrary inputs with NaN/infinite entries in any position", "anchors": ["crates/multicalc/src/estimation/kalman_filter.rs", "crates/multicalc/src/estimation/extended_kalman_filter.rs", "crates/multicalc/src/estimation/mahony_filter.rs", "crates/multicalc/src/estimation/madgwick_filter.rs", "crates/multicalc/src/estimation/particle_filter.rs"]}
{"id": "C60", "title": "UKF weights reproduce mean and covariance; linear models give the Kalman filter", "statement": "The sigma points' weighted mean is the state and weighted covariance the covariance (plus regularisation); on linear models predict and update equal the Kalman filter's.", "quantifier": "all dimensions, tunings, states", "why_tests_cant": "all matrices", "anchors": ["crates/multicalc/src/estimation/unscented_kalman_filter.rs"]}
{"id": "C61", "title": "Particle weights are a probability vector after every successful update", "statement": "After every successful update the weights are non-negative and sum to one, the effective sample size lies in [1, n], and resampling resets them to uniform while choosing only existing particles.", "quantifier": "all histories, particle counts and likelihoods", "why_tests_cant": "arbitrary histories", "anchors": ["crates/multicalc/src/estimation/particle_filter.rs"]}
{"id": "C62", "title": "Resampling schemes choose proportionally", "statement": "Systematic resampling copies particle i either floor(n w_i) or ceil(n w_i) times, stratified within one more, sources are non-decreasing and in range, residual copies at least floor(n w_i), and no scheme chooses a particle with zero weight.", "quantifier": "all weight vectors and all random draws in [0,1)", "why_tests_cant": "uncountable draws", "anchors": ["crates/multicalc/src/estimation/particle_filter.rs: resampling functions"]}
{"id": "C63", "title": "Ray casting terminates and reports the first occupied cell", "statement": "cast_ray stops within columns+rows passes for every map, start, bearing and range (NaN included). A distance reported is within range, the beam there is on a blocked cell, and before it the beam is inside no blocked cell; without a report the beam is inside no blocked cell within range. A beam starting in a blocked cell reads zero.", "quantifier": "all maps of all sizes, all rays", "why_tests_cant": "arbitrary grid sizes and angles", "anchors": ["crates/multicalc/src/mapping/occupancy_grid.rs: cast_ray"]}
{"id": "C64", "title": "Cell lookup finds the one cell holding a point; drawing blocks exactly the cells drawn", "statement": "cell_of gives the unique cell whose half-open square holds the point (in particular for the cell's middle), None for points outside; set_cell changes one cell, nothing indexes out of bounds; occupy_point, occupy_polyline and occupy_circle block exactly the cells of their sample points, and the samples leave no gaps.", "quantifier": "all maps and points", "why_tests_cant": "arbitrary sizes", "anchors": ["crates/multicalc/src/mapping/occupancy_grid.rs: cell_of"]}
{"id": "C65", "title": "Nearest beam is nearest", "statement": "nearest_beam_index(angle) returns the beam whose angle is closest to the query; beam_angle is strictly increasing and spans the field of view.", "quantifier": "all geometries and angles", "why_tests_cant": "uncountable", "anchors": ["crates/multicalc/src/mapping/scan_geometry.rs"]}
{"id": "C66", "title": "Motion profiles reach the target within limits", "statement": "Every planned profile, trapezoidal or jerk-limited, starts at rest at the start, is at rest exactly on the target from its duration on, never exceeds the speed, acceleration and jerk limits, never backs up, and its velocity is the derivative of its position at every instant (its acceleration the derivative of its velocity when jerk-limited). Stretching to a longer duration only slows time. Synchronised axes finish together, each on its own target and within its own limits.", "quantifier": "all distances, limits, strategies, times and numbers of axes", "why_tests_cant": "uncountable, several phase cases", "anchors": ["crates/multicalc/src/motion/motion_profile.rs"]}
{"id": "C67", "title": "Closest point on a polyline is a true nearest point", "statement": "closest_point minimises distance over the whole path; arc length parameter is consistent with point_at; lookahead never goes past the end in Stop mode.", "quantifier": "all paths of any number of points and all query points", "why_tests_cant": "arbitrary sizes", "anchors": ["crates/multicalc/src/motion/polyline_path.rs"]}
{"id": "C68", "title": "Polynomial evaluation and arithmetic agree with algebra", "statement": "evaluate is the value of sum c_k x^k; add, multiply, compose, scale, shift and derivative/integral agree with the corresponding operations on functions; division satisfies p = q d + r with degree r below degree d; overflow of capacity is reported, never truncated.", "quantifier": "all coefficient arrays of any size and all points", "why_tests_cant": "all sizes", "anchors": ["crates/multicalc/src/polynomial/polynomial.rs"]}
{"id": "C69", "title": "Closed-form roots are exactly the real roots", "statement": "For every polynomial of degree at most four, x is among real_roots iff p(x) = 0; roots are sorted.", "quantifier": "all coefficients", "why_tests_cant": "branch structure of cubic and quartic formulas", "anchors": ["crates/multicalc/src/polynomial/roots.rs: real_roots"]}
{"id": "C70", "title": "Sturm count is the number of distinct real roots", "statement": "count_real_roots(lower, upper) is the number of distinct roots in (lower, upper]; real_roots_in returns them all.", "quantifier": "all polynomials and intervals", "why_tests_cant": "repeated roots at end points or midpoints", "anchors": ["crates/multicalc/src/polynomial/roots.rs: count_real_roots, real_roots_in"]}
{"id": "C71", "title": "Interpolation passes through its points", "statement": "from_points returns a polynomial taking the given value at each given distinct abscissa; from_roots vanishes exactly at the roots; endpoint constructors match all given end derivatives.", "quantifier": "all distinct nodes and values, any count", "why_tests_cant": "all sizes", "anchors": ["crates/multicalc/src/polynomial/construction.rs"]}
{"id": "C72", "title": "Piecewise evaluation selects the right piece", "statement": "Evaluation at t uses the piece whose interval contains t (clamped outside), definite integral is additive over intervals and antisymmetric, derivatives are with respect to global time.", "quantifier": "all piecewise polynomials and times", "why_tests_cant": "arbitrary sizes", "anchors": ["crates/multicalc/src/polynomial/piecewise.rs"]}
{"id": "C73", "title": "Multivariate polynomial operations preserve meaning", "statement": "add_into, multiply_into, substitute, partial_derivative, collect_like_terms agree with the operation on functions at every point.", "quantifier": "all term lists and points", "why_tests_cant": "all sizes", "anchors": ["crates/multicalc/src/polynomial/multivariate.rs"]}
{"id": "C74", "title": "Composite quadrature is exact on polynomials of its degree for any interval count the constructor produces", "statement": "Boole is exact for degree 5, Simpson 3/8 for degree 3 and trapezoid for degree 1, for every interval and every interval count the rule fits; from_parameters makes every positive count up to 12000 fit (larger counts are left alone, and then the rule is wrong even on constants); multiple integrals of functions polynomial in each variable give the iterated integral; for smooth integrands the trapezoid error is at most (b-a)^3 max|f''| / (12 n^2).", "quantifier": "all polynomials of the degree, all intervals, all iteration counts", "why_tests_cant": "interval counts not multiple of the rule's block break the weights", "anchors": ["crates/multicalc/src/numerical_integration/iterative_integration.rs"]}
{"id": "C75", "title": "Integration limits are classified consistently", "statement": "NaN, equal or reversed limits are LimitsIllDefined; a zero iteration count is reported before limits; any non-finite sample gives NonFinite; the transforms for infinite limits are one-to-one onto the half-line or line, and the weight they report is the absolute value of their derivative, so the transformed integral is the original one.", "quantifier": "all limits and integrands", "why_tests_cant": "special values", "anchors": ["crates/multicalc/src/numerical_integration/integrator.rs", "crates/multicalc/src/numerical_integration/iterative_integration.rs"]}
{"id": "C76", "title": "Line integrals telescope for gradients, reverse sign with the curve, and converge", "statement": "line_integral of the gradient of a quadratic along any sampled curve is the end-point difference of the quadratic; a constant field gives field·displacement whatever the curve; traversing the curve backwards negates the answer; for a C1 curve and a field Lipschitz along it the answer is within dim·L·M·(b-a)²/N of the true integral; a zero count, then limits not in increasing order, are reported; flux is the integral of the normal component (refuted: see DESIGN).", "quantifier": "all curves and iteration counts", "why_tests_cant": "uncountable", "anchors": ["crates/multicalc/src/vector_field/line_integral.rs", "crates/multicalc/src/vector_field/flux_integral.rs"]}
{"id": "C77", "title": "Divergence of a curl and curl of a gradient vanish", "statement": "With the autodiff differentiator, curl of the gradient field of any quadratic and divergence of a curl field are zero; curl/divergence equal their definitions in terms of partial derivatives.", "quantifier": "all fields", "why_tests_cant": "uncountable", "anchors": ["crates/multicalc/src/vector_field/curl.rs", "crates/multicalc/src/vector_field/divergence.rs"]}
{"id": "C78", "title": "Linear and quadratic approximations match value and derivatives", "statement": "predict at the expansion point is the function's value, coefficients are the gradient, intercept form equals predict everywhere, and a quadratic function is reproduced exactly everywhere; goodness metrics satisfy RMSE^2 = MSE, MAE <= RMSE, R^2 <= 1.", "quantifier": "all functions, points, sample sets", "why_tests_cant": "uncountable", "anchors": ["crates/multicalc/src/approximation/linear_approximation.rs", "crates/multicalc/src/approximation/quadratic_approximation.rs", "crates/multicalc/src/approximation/mod.rs: compute_metrics"]}
{"id": "C79", "title": "Discretisation formulas are exact", "statement": "q_discrete_white_noise is symmetric PSD rank-one with the documented entries; zoh returns the transition and input matrices of the held-input response within a stated error, exactly for integrator chains; van_loan returns the transition matrix and the accumulated noise within a stated error, always exactly symmetric, and exactly for integrator chains; both refuse exactly the negative and non-finite time steps. Two zoh steps compose to one step of the summed length (semigroup law) where the exponential is exact.", "quantifier": "all systems, noises, time steps and variances", "why_tests_cant": "uncountable", "anchors": ["crates/multicalc/src/discretization/mod.rs"]}
{"id": "C80", "title": "Solvers never exceed their evaluation budgets", "statement": "Gauss-Newton and Levenberg-Marquardt terminate within patience*(budget) evaluations for every residual function, report only points whose residual they computed, and Levenberg-Marquardt never increases the residual norm along accepted steps.", "quantifier": "all residual functions and starting points", "why_tests_cant": "arbitrary functions", "anchors": ["crates/multicalc/src/optimization/gauss_newton.rs", "crates/multicalc/src/optimization/levenberg_marquardt.rs"]}
{"id": "C81", "title": "Pairwise summation error grows with log n", "statement": "For every scalar whose addition has relative error at most u, the pairwise total of n terms differs from the exact sum by at most ((1+u)^(128 + bitlength(n/128)) - 1) times the sum of absolute values, for n < 128*2^32.", "quantifier": "all series of terms, all rounding behaviours of addition", "why_tests_cant": "a bound over every series and every rounding pattern", "anchors": ["crates/multicalc/src/utils/summation.rs: PairwiseSum"]}
{"id": "C82", "title": "PID after a bad reading", "statement": "After one NaN measurement every later output is the lower output limit, whatever is measured, until reset; reset restores the controller completely.", "quantifier": "all gains, limits, states and later histories", "why_tests_cant": "needs every later history", "anchors": ["crates/multicalc/src/control/pid.rs: Pid::update, Pid::reset"]}
{"id": "C83", "title": "magnitude_at and phase_at describe the running filter", "statement": "Fed a sinusoid, a stable biquad settles from any state to the same sinusoid scaled by magnitude_at and shifted by phase_at.", "quantifier": "all stable coefficients, frequencies, amplitudes, phases and initial states", "why_tests_cant": "a limit over infinite runs", "anchors": ["crates/multicalc/src/signal_processing/biquad.rs: magnitude_at, phase_at, filter"]}
{"id": "C84", "title": "Cascade equals its sections in series", "statement": "A cascade's output is its sections applied one after another, its magnitude and phase describe its steady state, settle_to leaves no transient, and the harmonic notches remove every requested harmonic.", "quantifier": "all cascades of any length and all inputs", "why_tests_cant": "any number of sections and infinite runs", "anchors": ["crates/multicalc/src/signal_processing/cascade.rs: BiquadCascade, harmonic_notch_coefficients"]}
{"id": "C85", "title": "Grid output of the adaptive solver", "statement": "Every value solve_on_grid writes is the dense output of the accepted step containing its time, one per requested time; a grid sorted in the direction of integration and inside the span is served whenever the solve succeeds.", "quantifier": "all right-hand sides, configurations and grids", "why_tests_cant": "arbitrary grids against arbitrary step histories; the end-of-span rounding case never occurs in a typical test", "anchors": ["crates/multicalc/src/ode/rk45.rs: Rk45::solve_on_grid"]}
{"id": "C86", "title": "Compensated summation error does not grow with the number of terms", "statement": "With per-operation relative error u, the compensated accumulator's total of n terms is off by at most (5u + 11 n u^2) times the sum of magnitudes, for n u <= 1/16.", "quantifier": "all scalars with relative-error addition and subtraction, all series", "why_tests_cant": "rounding errors of arbitrarily long series", "anchors": ["crates/multicalc/src/utils/summation.rs: KahanSum"]}
{"id": "C87", "title": "from_two_vectors is the shortest rotation between two directions", "statement": "For any two nonzero vectors the returned quaternion is unit, carries the first direction exactly onto the second (also when opposite) and turns by exactly the angle between them; a zero vector yields the identity.", "quantifier": "all vectors", "why_tests_cant": "degenerate antiparallel case and all directions", "anchors": ["crates/multicalc/src/spatial/quaternion.rs: from_two_vectors, unit_direction"]}
{"id": "C88", "title": "from_two_direction_pairs recovers the orientation", "statement": "Whenever neither pair is parallel an orientation comes back that carries the primary observed direction exactly onto the primary reference one and the observed plane onto the reference plane; parallel or zero directions yield None.", "quantifier": "all direction pairs", "why_tests_cant": "uncountable; four matrix-to-quaternion branches", "anchors": ["crates/multicalc/src/spatial/lie/so3.rs: from_two_direction_pairs, try_from_matrix"]}
{"id": "C89", "title": "slerp moves along the shortest arc at constant angular speed", "statement": "For unit endpoints slerp at 0 is the start, at 1 the end (up to sign), stays on the unit sphere, and at fraction t it is exactly t times the angle away from the start; the angle between rotations lies in [0, pi] and ignores sign.", "quantifier": "all unit quaternions and fractions", "why_tests_cant": "uncountable, branch on nearly equal ends and on sign", "anchors": ["crates/multicalc/src/spatial/quaternion.rs: slerp, rotation_angle_to"]}
{"id": "C90", "title": "Euler angles are yaw-pitch-roll and convert back", "statement": "from_euler_zyx is the product of the three axis rotations (yaw, then pitch, then roll, intrinsic) and to_euler_zyx recovers the angles away from the poles; the documented behaviour in the gimbal-lock band is checked.", "quantifier": "all angles", "why_tests_cant": "branches near the poles", "anchors": ["crates/multicalc/src/spatial/quaternion.rs: from_euler_zyx, to_euler_zyx"]}
{"id": "C91", "title": "Motion profiles are time-optimal", "statement": "No motion from rest to rest over the requested distance that respects the same limits finishes sooner than the planned profile: against the trapezoidal plan any motion whose speed stays within the limit and whose velocity is Lipschitz with the acceleration limit; against the jerk-limited plan any motion whose speed and acceleration stay within their limits, whose acceleration is Lipschitz with the jerk limit, and which has zero velocity and acceleration at both ends.", "quantifier": "all distances, limits and rival motions", "why_tests_cant": "the rivals are a function space", "anchors": ["crates/multicalc/src/motion/motion_profile.rs"]}
{"id": "C92", "title": "Attitude integration follows the turn rate and never leaves the rotations", "statement": "attitude_step turns a body exactly as its body-axis rate says, steps about one axis add up and can be undone; integrate_attitude shows the start and one node per step, reports exactly the documented errors, is exact for rates along one axis that change linearly with time, and keeps the quaternion's length within rounding of one over any number of steps.", "quantifier": "all facings, rates, step counts and rate functions", "why_tests_cant": "a test checks a few rates and step counts; exactness and drift are claims over all of them", "anchors": ["crates/multicalc/src/ode/exponential_map.rs"]}
{"id": "C93", "title": "Complementary attitude filters keep rotations, settle, and leave agreeing readings alone", "statement": "Mahony and Madgwick filters keep a unit facing over any history of readings; when push and magnetometer agree with the facing they nudge neither facing nor offset; on a still body the Mahony lean shrinks by k sin(lean) a step and geometrically overall, and the Madgwick lean by a fixed amount a step, so recovery takes a predictable time; nonsense readings move a Madgwick facing by at most its gain; reference directions are made orthonormal or refused.", "quantifier": "all facings, readings, gains and histories", "why_tests_cant": "tests run one start and one gain and look at the end; the law per step and over any history is not sampled", "anchors": ["crates/multicalc/src/estimation/attitude_correction.rs", "crates/multicalc/src/estimation/mahony_filter.rs", "crates/multicalc/src/estimation/madgwick_filter.rs"]}
{"id": "C94", "title": "Monte Carlo localisation scores, moves and summarises guesses correctly", "statement": "A guess from which the map looks exactly as the scan reads scores at least as high as every other guess (with a negative mismatch penalty no greater than the agreement reward), and a guess scoring as high agrees with every believed reading. A motion step moves each guess by the arc length along its heading and turns it by the turn, wrapped. The estimate's position is the weighted mean, its heading maximises the weighted mean cosine to the guesses' headings (so it is right across the half turn), and the spread is a symmetric positive-semidefinite covariance whose heading entry lies in [1e-6, 2].", "quantifier": "for all maps (any ray caster), scan geometries, scans, guesses, clouds and normalised weights", "why_tests_cant": "Tests run one room and one cloud; optimality over all guesses and headings, and semidefiniteness for every cloud, range over infinitely many inputs.", "anchors": ["crates/multicalc/src/estimation/monte_carlo_localizer.rs"]}
{"id": "C95", "title": "Ready-made process and measurement models", "statement": "ConstantTurnAndSpeed is the exact motion at constant speed and turn rate (its position's derivative in the timestep is the speed along the turned heading; steps compose), and below the tiny-turn threshold it is off the arc by at most |speed*turn rate|*timestep^2. DirectMeasurement accepts exactly the index lists inside the state and reads those components in order. residual_with_wrapped_angles is the plain difference except on angular components, where it is the difference up to whole turns of least magnitude.", "quantifier": "for all real states, timesteps, index lists, measurements and predictions", "why_tests_cant": "Tests check a straight step and one turning step; the flow property and minimality hold for all real inputs.", "anchors": ["crates/multicalc/src/estimation/models.rs"]}
{"id": "C96", "title": "Pivoted QR and least squares", "statement": "PivotedQr::decompose of a matrix with at least as many rows as columns produces orthonormal columns Q, an upper-triangular R with diagonal entries of non-increasing size and a permutation with A P = Q R. solve_least_squares returns the unique point of least residual, solving the normal equations, or reports Singular exactly when a diagonal entry of R is negligible beside the first; a rank-deficient matrix is always Singular. A wide matrix is Underdetermined.", "quantifier": "for all real matrices of any size whose column norms are inside the scalar's range, and all right-hand sides", "why_tests_cant": "Tests factor a handful of small matrices; orthogonality, the pivot order and optimality of the answer over all competitors are statements about every matrix.", "anchors": ["crates/multicalc/src/linear_algebra/qr.rs"]}
{"id": "C97", "title": "Damped least squares", "statement": "solve_with_diagonal returns the unique solution of (A^T A + D^2) x = A^T b, the minimiser of |A x - b|^2 + |D x|^2, together with a factor of A^T A + D^2 whose solves are solves with that matrix; solve_with_zero_diagonal solves the plain normal equations and is the basic solution when the matrix is rank deficient; max_a_t_b_scaled is the largest scaled gradient component and a_x_norm the norm of A x.", "quantifier": "for all real matrices of any size inside the scalar's range, right-hand sides and diagonals", "why_tests_cant": "Tests compare two or three systems with a reference; uniqueness and minimality range over all competitors.", "anchors": ["crates/multicalc/src/linear_algebra/qr.rs"]}
{"id": "C98", "title": "Singular value decomposition and pseudo-inverse", "statement": "For every matrix at least as tall as wide, svd returns factors whose product is the matrix, with orthogonal right vectors, non-negative descending singular values carrying the matrix's sum of squares, and left vectors of unit length beside non-zero singular values; the left vectors are mutually perpendicular to one unit of rounding unless every one of the sixty sweeps was needed. rank counts the singular values above the tolerance, and with exactly perpendicular left vectors the pseudo-inverse satisfies the four Moore-Penrose conditions and solve returns the shortest least-squares solution.", "quantifier": "all matrices of all shapes, all right-hand sides, all tolerances", "why_tests_cant": "the factors depend on an iteration whose length depends on the data; tests compare a handful of small matrices, mostly of full rank", "anchors": ["crates/multicalc/src/linear_algebra/svd.rs:71-343"]}
{"id": "C99", "title": "Jacobian inverses, singularities and multi-start", "statement": "damped_pseudo_inverse gives the joint rates that minimise the squared twist error plus damping squared times the weighted squared rates, reproducing every reachable twist without damping; null_space_projector projects onto the rates that leave the tool at rest; smallest_singular_value is the least that a unit wrench does at the joints, zero below six columns; classify_singularity names the dominant part of the lost direction. Multi-start inverse kinematics keeps converged answers only, pairwise distinct, in seed order, misses none, and closest_to picks the nearest.", "quantifier": "all Jacobians, weights, dampings, trees, seeds and sources", "why_tests_cant": "minimality and completeness quantify over all alternatives; the seeds and the trees are unbounded", "anchors": ["crates/multicalc/src/kinematics/kinematic_jacobian.rs:187-423", "crates/multicalc/src/kinematics/multi_start_inverse_kinematics.rs"]}
{"id": "C100", "title": "The matrix exponential", "statement": "expm on a finite matrix stops and returns exp(A)(1+E) with the column sums of E at most exp(max(1,4v)/2^53)-1 for column sums of A at most v; it is exact on matrices whose thirteenth power vanishes; expm(A) expm(-A) is exactly the identity; what it returns is finite. If a column sum overflows to infinity the scaling loop never stops.", "quantifier": "all square matrices, all sizes up to 2^50", "why_tests_cant": "accuracy must hold on an uncountable domain; termination quantifies over all inputs", "anchors": ["crates/multicalc/src/linear_algebra/expm.rs"]}
{"id": "C101", "title": "Jacobians of the exponential maps are their derivatives", "statement": "For SO3 and SE3, moving the argument of exp by a small multiple of eta moves every point with the velocity field of left_jacobian(x) eta (exactly above the series thresholds, within the first omitted term below, for SO3); the right Jacobian is the same change seen in the moved frame (Ad(exp) J_r = J_l); the closed-form inverses are inverse; the series branches agree with the closed forms to the first omitted term.", "quantifier": "all rotation vectors, twists, directions and points (inverse: up to pi)", "why_tests_cant": "a derivative is a limit over uncountably many perturbations; the coupling block has four independent coefficients, each with its own series branch", "anchors": ["crates/multicalc/src/spatial/lie/mod.rs:35-162", "crates/multicalc/src/spatial/lie/so3.rs:248-278", "crates/multicalc/src/spatial/lie/se3.rs:364-394"]}
{"id": "C102", "title": "The error-state Kalman filter", "statement": "From a positive (semi)definite covariance every prediction and correction succeeds and keeps it so along any history of calls, and the facing stays a rotation. A prediction carries the covariance through the error's own transition, whose rows are the derivatives of the motion model in the error (exactly, or up to the terms the documentation omits). A correction uses the exact Jacobian of the sensor in the error, the gain of least covariance, moves the state by that error, and carries the covariance through the reset. Error and state are inverse to each other. Non-finite input is refused and changes nothing; a failed correction changes nothing.", "quantifier": "all filters, readings, steps, sensors built from the supported operations, call histories of any length", "why_tests_cant": "the invariant concerns histories of unbounded length; exactness of the transition and the Jacobian is about all fifteen directions at every state", "anchors": ["crates/multicalc/src/estimation/error_state_kalman_filter.rs"]}
{"id": "C103", "title": "The attitude controller brings the body onto a moving target", "statement": "GeometricAttitudeController::torque, driving a rigid body of the controller's own inertia, makes the pointing error and the rate error relative to any smoothly moving target die out exponentially whenever the starting error is short of a half turn (in energy); the torque depends only on the relative facing, the pointing error of a body turned by the rotation vector phi is (sin|phi|/|phi|) phi, and with everything at rest the torque vanishes exactly when aligned or a half turn off. new accepts exactly positive gains with a positive definite inertia.", "quantifier": "For all positive gains, all positive definite inertias, all targets and rates, all motions of the closed loop over any length of time", "why_tests_cant": "A convergence statement over all closed-loop motions, targets and inertias; a simulation checks one trajectory for one tuning", "anchors": ["crates/multicalc/src/control/geometric_attitude.rs:59-142"]}
{"id": "C104", "title": "A thrust command produces exactly the acceleration asked for", "statement": "thrust_command_from_acceleration returns a rotation and a thrust whose product, less gravity, is exactly the commanded acceleration; the body's side axis is square to the wanted heading and its forward axis is the direction square to the push that is closest to the heading, equal to the heading in level flight; it fails exactly when the push is zero or along the heading, and refuses arguments that are not finite.", "quantifier": "For all commanded accelerations, headings and gravities; refusals for every number type", "why_tests_cant": "The optimality of the forward axis quantifies over all directions, and exactness over all commands; tests use a few tolerance checks", "anchors": ["crates/multicalc/src/control/thrust_command.rs:17-127"]}
{"id": "C105", "title": "A minimum-snap plan is the one cheapest path through its waypoints", "statement": "MinimumSnapPlanner::plan, when it succeeds, returns a curve that along every axis has continuous velocity, acceleration and jerk, is at each waypoint at the running total of the durations, and starts and ends with the given velocity, acceleration and jerk; every other path that does all this has at least as large an integral of the squared fourth derivative, and only the returned curve attains it. The refusals mean what they are documented to mean; a request without those faults is refused only by the conditioning check of a linear solve. durations_from_average_speed gives each segment its straight-line distance divided by the speed.", "quantifier": "for all planners, dimensions, numbers of waypoints, waypoint positions, positive durations and boundary derivatives, and all competing paths that are three times continuously differentiable and four times on each segment", "why_tests_cant": "optimality is a comparison against infinitely many competing paths, most of them not polynomial, for every number of segments; a test can only compare against a few", "anchors": ["crates/multicalc/src/motion/minimum_snap.rs:20-460", "crates/multicalc/src/polynomial/construction.rs:287-426"]}
{"id": "C106", "title": "Newton's method on systems does the documented steps, converges quadratically, and reports honestly", "statement": "NewtonSystem::solve returns only points reached by the documented steps: along the solution of J d = -F(x), the whole of it without backtracking, and with backtracking the first of the lengths 1, 1/2, ..., 2^-20 that lowers the norm of F, or the last. The report's norm is the norm of F at the returned point, the test it names holds there and held nowhere before, and the iterations are within the budget; every error has a cause found at a point so reached. Near a root with an invertible, slowly varying Jacobian the error after k steps is at most r q^(2^k - 1), and any budget that brings this below the tolerance yields a report. Affine systems are solved exactly in two iterations.", "quantifier": "for all functions, Jacobians, settings, starting points and dimensions; convergence for all systems satisfying the stated bounds on a ball around a root", "why_tests_cant": "the order of convergence is a statement about all starts in a region and all systems of a class; tests run a few systems from a few starts and cannot tell that no other start fails", "anchors": ["crates/multicalc/src/root_finding/newton_system.rs:46-216"]}
{"id": "C107", "title": "Resolving a URDF accepts exactly the trees, and lists their bodies in depth-first order", "statement": "For every list of links and joints: the URDF reader accepts it exactly when every joint names two declared links, no link is the child of two joints, one link is nobody's child, every link lies below it, and no joint floats. On acceptance there is one body per link, all with different names; parents come before children; body 0 is the root at the origin; each other body takes its pose, joint and parent from the one joint that leads to its link; siblings come in the order of their joints. On refusal the error names a true defect of the file. The walk always ends.", "quantifier": "every list of links and joints, of any length and in any order, including cyclic, duplicated and disconnected ones", "why_tests_cant": "Files with cycles, duplicate names or links declared in any order are unbounded in number, and a test cannot show that a recursive walk over every such file ends.", "anchors": ["crates/multicalc-robot-model/src/urdf/tree.rs:18-110", "crates/multicalc-robot-model/src/urdf/tree.rs:119-160", "crates/multicalc-robot-model/src/error.rs:110-135"]}
{"id": "C108", "title": "A robot model becomes the kinematic tree its bodies describe, whole or along one chain", "statement": "For every model whose parents come before their children (shown of both readers): `path_to` returns the bodies from a root to the named body, each the parent of the next, and refuses exactly the unknown names; `kinematic_tree` makes slot i the joint of body i under the slot of its parent; `kinematic_tree_to` makes slot k the k-th body of the path under slot k-1; the chain places each of its bodies where the whole tree does; nothing panics, and errors name the first joint that follows another, the capacity, or the tree's own refusal.", "quantifier": "every body list of any length, every tip name, every capacity and every configuration", "why_tests_cant": "The `unreachable!` branches and the agreement of two differently indexed trees concern all models and configurations; tests load a handful of files.", "anchors": ["crates/multicalc-robot-model/src/lib.rs:160-226", "crates/multicalc-robot-model/src/lib.rs:232-308", "crates/multicalc-robot-model/src/mjcf/body.rs:44-170"]}
{"id": "C109", "title": "Inertia read from MJCF geoms is that of the matter they describe", "statement": "For a body of an MJCF file that states no inertia, the mass, center of mass and inertia tensor the reader produces are those of uniform matter filling the shapes its geoms describe: the ball, ellipsoid, box, cylinder or capsule named by each geom's type and size, placed by pos and quat or between the two points of fromto, with the stated mass or density (1000 by default). Massless geoms are skipped whatever they state, geoms that cannot be placed or integrated are refused by name, and every other geom is accepted.", "quantifier": "for all lists of geoms, all default tables, all sizes, placements, masses and densities", "why_tests_cant": "Tests compare a few shapes with constants computed by the same formulas; that the formulas are the integrals over the solids, in any pose and for any number of geoms, needs integration over the solids themselves.", "anchors": ["crates/multicalc-robot-model/src/mjcf/geometry.rs:46-295", "crates/multicalc-robot-model/src/mjcf/body.rs:214-260"]}
{"id": "C110", "title": "MJCF attributes mean what the class hierarchy, the compiler settings and the inertial element say", "statement": "For every list of <default> blocks and every class name, the settings of the class are, attribute by attribute, the last element of the innermost block around the last block of that name which states it; an unknown class is an error. For a geom or joint, its own attributes win over its class, that over the body's childclass, that over the unnamed root. A joint is read as exactly the hinge or slide its settings describe: unit axis along the stated one, angles of hinges (and only of hinges) converted from degrees when the compiler says so, travel limits decided by limited/range/autolimits, an unlimited hinge continuous. A stated inertia is the tensor with the given principal moments along the turned axes, or the six stated entries in the order xx yy zz xy xz yz; and inertiafromgeom decides whether it or the geoms are used.", "quantifier": "for all nestings of default blocks, class names, attribute values, joint elements and inertial elements", "why_tests_cant": "Precedence is a statement about every combination of four layers and eighteen attributes and arbitrarily deep nesting; the orientation of a turned tensor is a statement about all quaternions. Tests fix one file.", "anchors": ["crates/multicalc-robot-model/src/mjcf/defaults.rs", "crates/multicalc-robot-model/src/mjcf/joint.rs", "crates/multicalc-robot-model/src/mjcf/body.rs:128-212", "crates/multicalc-robot-model/src/mjcf/compiler.rs:64-71"]}
{"id": "C111", "title": "Gaussian quadrature of every order integrates what polynomials below twice its order approximate", "statement": "For every order n from 1 to 30 and each of the three families, with the weights and nodes actually written in the library: weights are positive, nodes lie in the integration range, and for every polynomial p of degree below 2n and every function f within eta of p on the range, GaussianSingle::integrate returns a value whose distance from the integral of f (over [a,b]; against exp(-x) on the positive numbers; against exp(-x^2) on the line) is at most about 2*eta times the total weight plus about 1e-14 times the size of p. In particular (eta = 0) polynomials of degree below 2n are integrated up to the rounding of the table's literals.", "quantifier": "for all orders 1..30, all three families, all intervals, all polynomials of degree below 2n and all functions they approximate", "why_tests_cant": "A test integrates a few functions to a loose tolerance; a wrong digit in one of 1395 weight-node pairs shows only for some polynomials at some order. Exactness for all polynomials is a statement about all 2n moments of each table, and about all intervals and functions.", "anchors": ["crates/multicalc/src/gaussian_tables/legendre.rs", "crates/multicalc/src/gaussian_tables/hermite.rs", "crates/multicalc/src/gaussian_tables/laguerre.rs", "crates/multicalc/src/gaussian_tables/mod.rs:28-44", "crates/multicalc/src/numerical_integration/gaussian_integration.rs:113-216"]}
{"id": "C112", "title": "URDF elements are read as the specification means them", "statement": "For every XML document: an attribute that should hold n numbers is read as exactly the n numbers its text spells, however spaced, and any other text is refused with the element, attribute and text; an <origin> places a frame by xyz and by fixed-axis roll-pitch-yaw (R = Rz Ry Rx); an <inertial> yields the stated mass, the origin as centre of mass and the stated tensor turned into link axes so that every pair of vectors keeps the bilinear value the file gives, and is refused, when everything is stated, only if the mass is not positive or the tensor not positive definite; a <joint> yields the stated links, pose, kind, unit axis, limits, damping, friction and mimic, with the documented defaults, and is refused only for a missing, unreadable, unsupported or directionless statement; loading yields one body per link with the stated inertia, pose and joint, lists the unread top-level elements once each in order, and never reports NoBodies.", "quantifier": "For all element trees (any nesting, attributes, text), all number parsers, and all attribute names and counts.", "why_tests_cant": "Tests read a handful of files; a swapped rpy order, a transposed rotation, a truncating vector reader or a limit taken for a continuous joint can agree with every sampled file.", "anchors": ["crates/multicalc-robot-model/src/xml.rs:8-134", "crates/multicalc-robot-model/src/urdf/link.rs:19-87", "crates/multicalc-robot-model/src/urdf/joint.rs:12-156", "crates/multicalc-robot-model/src/urdf/mod.rs:15-50"]}
{"id": "C113", "title": "Source generated from a robot model rebuilds that model", "statement": "RobotModel::to_rust_source writes a function that, when called, returns the tree kinematic_tree (or kinematic_tree_to, with a tip) builds from the same model with the capacities written in the source: the same joints, of the same kinds, in the same order, on the same parents, with the same poses, axes, anchors, limits, offsets, armature, damping and friction. Every number written in double precision is a Rust literal. In another precision every number is the converted one. With the configuration capacity left to the generator the emitted function never reaches its unreachable!. Of models of at most 128 bodies, to_rust_source refuses what the tree builder refuses, with the same error.", "quantifier": "For every model, every set of options, and every tip", "why_tests_cant": "The emitted text is only compiled for the few models in the test directory; a field left out of the emission, a wrong parent index after cutting a chain, or a capacity that is one short shows only in a model that has that field or that shape", "anchors": ["crates/multicalc-robot-model/src/codegen.rs:33-38", "crates/multicalc-robot-model/src/codegen.rs:126-171", "crates/multicalc-robot-model/src/codegen.rs:175-329", "crates/multicalc/src/kinematics/kinematic_tree.rs:179-248"]}
{"id": "C114", "title": "An MJCF model split over several files loads as one document", "statement": "mjcf::load_path reads the document in which every <include> element, wherever it stands, is replaced by the elements inside the root of the file it names, that file having been assembled the same way first, with its names resolved beside it. For files with no include inside an include, it succeeds exactly when that document exists, and splicing by text ranges never panics and never leaves an include behind. Files that include each other in a circle, reached from anywhere, end in an error rather than in endless recursion; IncludeTooDeep is reported only when nine includes follow one another, and files that nest at most eight deep load. load_str refuses every document with an include.", "quantifier": "For every file system, every set of documents, every number and nesting of includes", "why_tests_cant": "The ranges of all includes are noted before the first is overwritten, and texts change length as they are; only documents with several includes at different depths show an order or offset mistake, and no test covers every shape", "anchors": ["crates/multicalc-robot-model/src/mjcf/document.rs:11-59", "crates/multicalc-robot-model/src/mjcf/mod.rs:15-51"]}
{"id": "C115", "title": "A least-squares polynomial is the best one, and a jet's polynomial is its Taylor polynomial", "statement": "fit_least_squares either reports why it cannot fit (fewer points than coefficients, one shared position, equations it cannot solve) or returns the only polynomial of the requested size with the least sum of squared misses; it always refuses when fewer positions are distinct than there are coefficients, and always finds a straight line when two positions differ. from_jet has the value and the derivatives of the program at the point of expansion, to the jet's order, and refuses a jet that does not fit.", "quantifier": "all sample counts and coefficient counts, all nodes and values, all rival polynomials, all programs and jet orders", "why_tests_cant": "Minimality ranges over every rival polynomial and uniqueness over every equal sum; a test compares with one known answer.", "anchors": ["crates/multicalc/src/polynomial/construction.rs"]}
{"id": "C116", "title": "The distance between configurations is a distance", "statement": "configuration_distance is never negative, symmetric and zero from a configuration to itself; each joint adds the plain difference, the shortest way round, or the offset and angle of a floating base, according to its kind; whole turns of a freely turning joint change nothing; without a floating base a detour is never shorter; and configurations at distance zero put every link in the same place.", "quantifier": "all trees built by pushes, all pairs and triples of configurations, all whole turns", "why_tests_cant": "Every tree and every pair of configurations; a test tries one joint.", "anchors": ["crates/multicalc/src/kinematics/kinematic_tree.rs"]}
{"id": "C117", "title": "Gaussian quadrature in several variables is the product rule", "statement": "Over exact reals, for every family, order 1 to 30 and list of distinct variables with admissible limits, GaussianMulti applied to a product of functions of one variable each returns the product of the values GaussianSingle returns for the factors; a variable that is not integrated keeps the value it has in the point. The value is linear in the integrand and does not depend on the order in which the variables are listed. With the library's Gauss-Legendre tables a product of polynomials of degree below twice the order is therefore integrated over any box to within the compounded rounding of the table's literals.", "quantifier": "all families, orders, numbers of variables, limits, points and integrands (products; linear combinations of arbitrary integrands); all polynomials for the bound", "why_tests_cant": "a test integrates a few chosen functions over two or three variables; the recursion nests as deep as the caller lists variables, and a wrong variable or wrong point shows only when the integrand is not symmetric", "anchors": ["crates/multicalc/src/numerical_integration/gaussian_integration.rs:253", "crates/multicalc/src/numerical_integration/gaussian_integration.rs:301", "crates/multicalc/src/numerical_integration/gaussian_integration.rs:373"]}
{"id": "C118", "title": "Delay and decibels of filters and cascades", "statement": "A stable filter or cascade fed a sinusoid settles to that sinusoid set back in time by delay_at; a cascade's delay is the sum of its sections'; a low-pass is late by less than half a period at every frequency, a high-pass early by less than half, a band-pass early below its centre, undelayed at it and late above, a notch late below and early above, by less than a quarter; magnitude_in_decibels_at is twenty decimal logarithms of the magnitude, adds over sections and is negative infinity exactly where the filter removes the frequency.", "quantifier": "all designs, cut-offs, quality factors, sampling times and frequencies below half the sampling rate; all cascades", "why_tests_cant": "tests check the sign at one cutoff; whether a phase sits on the right turn depends on the whole range of frequencies", "anchors": ["crates/multicalc/src/signal_processing/biquad.rs:210", "crates/multicalc/src/signal_processing/biquad.rs:223", "crates/multicalc/src/signal_processing/biquad.rs:247", "crates/multicalc/src/signal_processing/cascade.rs:102", "crates/multicalc/src/signal_processing/cascade.rs:120"]}
{"id": "C119", "title": "An MJCF document loads as the robot its elements describe", "statement": "mjcf::load_str turns a parsed document into a model exactly as the elements say: it is refused if an include is left in it, if a compiler setting, default block or body cannot be read, or if there is no worldbody or no body in it, and otherwise there is one body per body element, in the order the tags open, each with the name, pose, joint and inertia its own element states under the class of the nearest childclass, hanging from the body directly around it; the base floats exactly if some body's one joint is free; bodies that an include brings into the worldbody load as if written there; and every top-level element that is not read is listed as ignored.", "quantifier": "for all element trees, all attribute texts and all readings of numbers, whatever the scalar type", "why_tests_cant": "Documents nest without bound, and the parent, class and order of a body depend on everything around it; tests load a handful of fixed files.", "anchors": ["crates/multicalc-robot-model/src/mjcf/body.rs:44-180", "crates/multicalc-robot-model/src/mjcf/mod.rs:24-52", "crates/multicalc-robot-model/src/mjcf/compiler.rs:31-62", "crates/multicalc-robot-model/src/mjcf/defaults.rs:30-185", "crates/multicalc-robot-model/src/xml.rs:11-140"]}
{"id": "C120", "title": "Brent's method converges on every sign change", "statement": "Whatever the function, continuous or not, once its values at the two ends have opposite signs Brent's method returns an answer as soon as the budget reaches a bound that depends only on the bracket's width and the tolerance; on an affine function it needs one iteration and returns the exact root, and where the inverse of the function is a quadratic the interpolated point is the exact root.", "quantifier": "all functions, brackets, positive step tolerances, nonnegative residual tolerances and sufficient budgets", "why_tests_cant": "the guarantee is over every function, including ones built to defeat the interpolation steps", "anchors": ["crates/multicalc/src/root_finding/brent.rs: Brent::solve", "crates/multicalc/src/root_finding/brent.rs: inverse_quadratic_interpolation"]}
{"id": "C121", "title": "The integrators converge to the solution of the differential equation", "statement": "On every right-hand side that is Lipschitz in state and time, every state Rk4 shows its observer differs from the true solution by at most a constant times the step, two runs part no faster than the true solutions may, and on linear systems the error shrinks with the fourth power of the step. The adaptive Rk45 does the same with max_step, whatever its tolerances, both at its own steps and at every time requested from solve_on_grid.", "quantifier": "all Lipschitz right-hand sides, solutions, dimensions, step counts, step sizes, tolerances and grids; exact arithmetic", "why_tests_cant": "a test compares a few equations with a few known solutions at a few step sizes", "anchors": ["crates/multicalc/src/ode/rk4.rs: Rk4::step, Rk4::integrate", "crates/multicalc/src/ode/rk45.rs: for_each_step, solve, solve_on_grid", "crates/multicalc/src/ode/tableau.rs"]}
{"id": "C122", "title": "The composite rules converge on every continuous integrand, each at its own order", "statement": "With enough panels every composite rule comes as close as asked to the integral of any continuous function over a finite interval; on a Lipschitz integrand the error is at most 2 L (b-a)^2 over the number of panels; on smooth integrands it shrinks with the square (trapezoidal), fourth power (Simpson 3/8) and sixth power (Boole) of the number of panels; in general it is at most twice the distance of the integrand from the polynomials of the rule, times the length of the interval.", "quantifier": "all continuous, Lipschitz or smooth integrands, intervals, panel counts and accumulators; exact arithmetic", "why_tests_cant": "convergence is a statement about every integrand and every count", "anchors": ["crates/multicalc/src/numerical_integration/iterative_integration.rs: booles, simpsons, trapezoidal, IterativeSingle"]}
{"id": "C123", "title": "Finite differences converge to the derivative, at the stated order", "statement": "For a function that is not a polynomial: an order-n difference equals the n-th derivative at some point strictly within the sum of the steps (right of the point for Forward, left for Backward), so its error is at most that distance times a bound on derivative n+1; a Central difference is second-order accurate for every n; as the step shrinks every method converges. Mixed partial differences equal the mixed partial at a point that moved only in the differentiated coordinates, and each Jacobian column entry is the partial derivative within one step.", "quantifier": "all functions with the derivatives, all points, orders, positive steps and step multipliers, all three methods, any number of variables", "why_tests_cant": "a test samples a few functions and steps; the error order and the location of the sampled points hold for all of them", "anchors": ["crates/multicalc/src/numerical_derivative/finite_difference.rs: FiniteDifferenceSingle::differentiate, FiniteDifferenceMulti::differentiate, FiniteDifferenceMulti::jacobian_column"]}
{"id": "C124", "title": "Retuning and clearing running filters, and one filter over every component of a vector", "statement": "set_section changes one section's weights and nothing else, or is refused and changes nothing; reset rebuilds the cascade as first built; whatever sequence of samples, retunes, settles and resets a multi-channel filter is given, each channel reports what a single filter given that component alone would; a retuned filter's first outputs combine old memory with new weights exactly, a settled one is moved by the change in the leading weight times the input, and a stable one forgets how it was retuned.", "quantifier": "all cascades, all command sequences of any length, all weights and inputs", "why_tests_cant": "any interleaving of commands and runs of any length", "anchors": ["crates/multicalc/src/signal_processing/cascade.rs: BiquadCascade::set_section, BiquadCascade::reset, MultiChannelBiquad", "crates/multicalc/src/signal_processing/biquad.rs: Biquad::set_coefficients"]}
{"id": "C125", "title": "Normalising a vector", "statement": "try_normalized declines exactly the zero vector and vectors with a NaN entry; any other vector comes back with length one, pointing the same way; normalising in place gives the same vector, or declines and leaves the vector as it was.", "quantifier": "all vectors of any length, with and without special values", "why_tests_cant": "every length, direction and magnitude, and the special values", "anchors": ["crates/multicalc/src/linear_algebra/vector.rs: Vector::normalized, Vector::try_normalized, Vector::normalize, Vector::try_normalize"]}
{"id": "C126", "title": "Nothing that is not a number gets lost in a linear solve", "statement": "For every square matrix, in any arithmetic where NaN is absorbing: if an entry is NaN and lu_decompose nevertheless returns a factorization, every solution and every column of the inverse contains a NaN; a NaN in the right-hand side leaves one in the solution; a NaN in the triangle cholesky reads stays in its place in the factor and reaches every solution; closed-form inverses do the same. With IEEE specials, a matrix with an infinite entry is always refused by lu_decompose, so a solution or inverse free of NaN certifies that the matrix was finite. The documented promises that cholesky's diagonal is strictly positive and that Singular means an all-zero pivot column fail for NaN.", "quantifier": "all sizes, all matrices and right-hand sides, all scalar arithmetics with absorbing NaN (and IEEE specials for the infinite entries)", "why_tests_cant": "The position of the NaN, the pivoting path and the size are unbounded; a test fixes one of each.", "anchors": ["crates/multicalc/src/linear_algebra/lu.rs:50-130", "crates/multicalc/src/linear_algebra/lu.rs:196-260", "crates/multicalc/src/linear_algebra/cholesky.rs:41-128", "crates/multicalc/src/linear_algebra/matrix.rs:260-275", "crates/multicalc/src/linear_algebra/matrix.rs:395-611"]}
{"id": "C127", "title": "Noise in finite differences and the default step", "statement": "If every function value is off by at most delta, a finite difference of order n is off by at most delta times the product of the amplifications of its differences (1/step for central, 2/step for one-sided), and for the first derivative no smaller bound holds. The one-sided default step minimises eps/h + h; the central default step brings eps/h + h^2 within a cube-root-of-32/27 factor of the minimum; with values off by K eps the default central first derivative is right to (K + B/6) eps^(2/3).", "quantifier": "all configurations with positive step and multiplier, all orders, all functions and perturbations, all alternative steps", "why_tests_cant": "every function, every perturbation and every alternative step", "anchors": ["crates/multicalc/src/numerical_derivative/mode.rs", "crates/multicalc/src/numerical_derivative/finite_difference.rs"]}
{"id": "C128", "title": "Checked access to vectors and matrices", "statement": "try_from_slice and try_from_row_slice accept exactly the slices of the right length and store them in (row-major) order; get answers exactly inside the bounds; try_row and try_column are given exactly when their own index is inside and agree with get; a write through get_mut is possible exactly where get answers, changes that entry and no other.", "quantifier": "all sizes (including zero), entries, indices and slices", "why_tests_cant": "all sizes and indices", "anchors": ["crates/multicalc/src/linear_algebra/matrix.rs", "crates/multicalc/src/linear_algebra/vector.rs"]}
{"id": "C129", "title": "Levenberg-Marquardt resizes its trust region as documented, and rejected steps always shrink it", "statement": "After a trial that does not end the search, the radius and the damping follow from the share of the predicted reduction that was had: a share of a quarter or less shrinks the radius to between a tenth and a half (of the old radius, or of ten step lengths if that is less) and raises the damping by the same factor; three quarters or more, or an undamped step, sets the radius to twice the step and halves the damping; otherwise both stay. The step is taken exactly when the share is at least 1e-4. So k consecutive rejected trials leave the point unchanged and the radius at most its start over 2^k. A trial that ends the search on the objective means both the actual and the predicted relative reduction are within the tolerance; one that ends it on the step means the new radius is within the tolerance times the scaled size of the point.", "quantifier": "all residual functions, factorisations, states of the search and numbers of retries", "why_tests_cant": "A test sees the gain ratios its own problems happen to produce; the bounds on the shrink factor depend on the sign of the directional derivative for every step.", "anchors": ["crates/multicalc/src/optimization/levenberg_marquardt.rs:200-280", "crates/multicalc/src/optimization/trust_region.rs"]}
