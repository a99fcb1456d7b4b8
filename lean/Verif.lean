import Verif.Props.Scalar
import Verif.Props.Random
import Verif.Props.Summation
import Verif.Props.Signal
import Verif.Props.Pid
import Verif.Props.BiquadResponse
import Verif.Props.BiquadDelay
import Verif.Props.RootFinding
import Verif.Props.Ode
import Verif.Props.Rk45
import Verif.Props.SavitzkyGolay
import Verif.Props.SavitzkyGolayExact
import Verif.Props.Polynomial
import Verif.Props.PolynomialRoots
import Verif.Props.Sturm
import Verif.Props.PolynomialConstruction
import Verif.Props.Piecewise
import Verif.Props.Multivariate
import Verif.Props.LinearAlgebra
import Verif.Props.Eigen
import Verif.Props.EigenCondition
import Verif.Props.Lqr
import Verif.Props.Quaternion
import Verif.Props.Rotation
import Verif.Props.Directions
import Verif.Props.RotationMaps
import Verif.Props.Slerp
import Verif.Props.Lie
import Verif.Props.Rigid
import Verif.Props.Screw
import Verif.Props.AutodiffValue
import Verif.Props.Autodiff
import Verif.Props.Derivatives
import Verif.Props.Jets
import Verif.Props.FiniteDifference
import Verif.Props.FiniteDifferenceError
import Verif.Props.Integration
import Verif.Props.VectorField
import Verif.Props.VectorNormalize
import Verif.Props.Approximation
import Verif.Props.Plant
import Verif.Props.Drive
import Verif.Props.Collision
import Verif.Model.KinematicTree
import Verif.Props.KinematicTree
import Verif.Props.GeometricJacobian
import Verif.Model.Mapping
import Verif.Props.Mapping
import Verif.Props.Grid
import Verif.Props.Scan
import Verif.Model.MotionProfile
import Verif.Lemmas.MotionProfile
import Verif.Props.MotionProfile
import Verif.Props.MotionOptimal
import Verif.Model.PolylinePath
import Verif.Props.PolylinePath
import Verif.Model.FollowTheGap
import Verif.Props.FilterBank
import Verif.Props.FollowTheGap
import Verif.Model.Kalman
import Verif.Props.Kalman
import Verif.Props.Unscented
import Verif.Model.Attitude
import Verif.Props.Attitude
import Verif.Model.ParticleFilter
import Verif.Props.Resampling
import Verif.Props.ParticleFilter
import Verif.Props.ParticleNoise
import Verif.Props.PlanarJacobian
import Verif.Props.Localizer
import Verif.Model.RigidBody
import Verif.Props.RigidBody
import Verif.Model.Qr
import Verif.Props.Qr
import Verif.Props.LeastSquares
import Verif.Props.Damped
import Verif.Model.Optimization
import Verif.Props.Optimization
import Verif.Props.OptimizationExact
import Verif.Props.TrustRegion
import Verif.Props.LmVerdicts
import Verif.Props.GaussNewtonVerdicts
import Verif.Model.Svd
import Verif.Props.Svd
import Verif.Model.InverseKinematics
import Verif.Props.InverseKinematics
import Verif.Props.JacobianInverse
import Verif.Props.IkStep
import Verif.Props.IkNotBest
import Verif.Props.IkDescent
import Verif.Props.MultiStart
import Verif.Model.Discretization
import Verif.Lemmas.Pade
import Verif.Lemmas.MatrixExp
import Verif.Props.Expm
import Verif.Props.Discretization
import Verif.Model.LieJacobian
import Verif.Props.LieJacobian
import Verif.Model.ErrorStateKalman
import Verif.Props.ErrorStateKalman
import Verif.Model.GeometricAttitude
import Verif.Props.GeometricAttitude
import Verif.Model.MinimumSnap
import Verif.Props.ErrorStateRest
import Verif.Props.Septic
import Verif.Lemmas.Snap
import Verif.Lemmas.SnapPaths
import Verif.Lemmas.SnapAssembly
import Verif.Props.MinimumSnap
import Verif.Props.NewtonSystem
import Verif.Model.RobotModel
import Verif.Props.UrdfTree
import Verif.Props.Urdf
import Verif.Props.Codegen
import Verif.Props.MjcfDocument
import Verif.Props.RobotModel
import Verif.Props.GeomInertia
import Verif.Props.Mjcf
import Verif.Props.MjcfRead
import Verif.Props.GaussianTables
import Verif.Props.GaussianMulti
import Verif.Props.Derived
import Verif.Model.PolynomialFit
import Verif.Props.PolynomialFit
import Verif.Props.ConfigurationDistance
import Verif.Props.EdgeCases
import Verif.Props.BrentConverges
import Verif.Props.Rk4Converges
import Verif.Props.Rk45Converges
import Verif.Props.CompositeRules
import Verif.Props.PushRefusals
import Verif.Props.RepeatedIntegrals
import Verif.Props.MotionPeak
import Verif.Props.NonFiniteSolve
import Verif.Model.MatrixBuilders
import Verif.Props.MatrixBuilders
import Verif.Model.DefaultStep
import Verif.Props.DefaultStep
import Verif.Model.CheckedAccess
import Verif.Props.CheckedAccess
