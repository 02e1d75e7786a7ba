import Verif.Basic
import Verif.Jnp
import Verif.LinAlg
import Verif.Rng
import Verif.Model.ProgressBar
import Verif.Model.Utils
import Verif.Model.Foster
import Verif.Model.ItoStratonovich
import Verif.Model.SdeSolver
import Verif.Model.Euler
import Verif.Model.EulerMaruyama
import Verif.Model.Prior
import Verif.Model.Calibration
import Verif.Model.Kalman
import Verif.Model.EkfSolvers
import Verif.Model.Ssm
import Verif.Model.Taylor15
import Verif.Model.Ivp
import Verif.Model.Scripts
import Verif.Lemmas.Scan
import Verif.Lemmas.SdeSolver
import Verif.Spec.Grid
import Verif.Props.SdeSolver
import Verif.Props.ProgressBar
import Verif.Props.Ito
import Verif.Spec.Gaussian
import Verif.Lemmas.Gaussian
import Verif.Lemmas.Foster
import Verif.Lemmas.EulerMaruyama
import Verif.Spec.Brownian
import Verif.Props.Foster
import Verif.Props.FosterBrownian
import Verif.Props.EulerMaruyama
import Verif.Lemmas.Index
import Verif.Spec.Keys
import Verif.Props.Utils
import Verif.Props.Keys
import Verif.Lemmas.LinAlg
import Verif.Spec.Kalman
import Verif.Lemmas.Kalman
import Verif.Lemmas.Conditioning
import Verif.Props.Kalman
import Verif.Lemmas.Exp
import Verif.Spec.Prior
import Verif.Lemmas.Prior
import Verif.Lemmas.Trapezoid
import Verif.Lemmas.Transition
import Verif.Lemmas.Ioup
import Verif.Lemmas.Matern
import Verif.Props.Prior
import Verif.Props.PriorExact
import Verif.Spec.Ekf
import Verif.Lemmas.Ekf
import Verif.Lemmas.EkfIbm
import Verif.Lemmas.EkfModes
import Verif.Props.Ekf
import Verif.Props.EkfSde
import Verif.Props.EkfRun
import Verif.Props.EkfWrappers
import Verif.Lemmas.Calibration
import Verif.Props.Calibration
import Verif.Props.Ssm
import Verif.Spec.Taylor15
import Verif.Lemmas.Taylor15
import Verif.Props.Taylor15
import Verif.Spec.Lyapunov
import Verif.Lemmas.Lyapunov
import Verif.Lemmas.Ivp
import Verif.Props.Ivp
import Verif.Spec.Sde
import Verif.Lemmas.Convergence
import Verif.Props.EkfConvergence
import Verif.Spec.Parabola
import Verif.Lemmas.Moments
import Verif.Lemmas.LinTrap
import Verif.Props.WeakBias
import Verif.Props.Parabola
import Verif.Lemmas.LinearLaw
import Verif.Props.IbmLaw
import Verif.Spec.BrownianGrid
import Verif.Props.Driver
import Verif.Lemmas.EkfSpline
import Verif.Props.SplineEkf
import Verif.Spec.Posterior
import Verif.Lemmas.EkfRos
import Verif.Lemmas.Spectral
import Verif.Lemmas.Triangular
import Verif.Props.RosEkf
import Verif.Props.Posterior
import Verif.Spec.Strong
import Verif.Lemmas.AdditiveOde
import Verif.Lemmas.OdeExists
import Verif.Lemmas.Strong
import Verif.Lemmas.BrownianSup
import Verif.Lemmas.StrongMoments
import Verif.Props.Strong
import Verif.Spec.BrownianVec
import Verif.Lemmas.BrownianVec
import Verif.Lemmas.NormalLimit
import Verif.Lemmas.MatchedLaw
import Verif.Props.Matched
import Verif.Lemmas.TrapStrong
import Verif.Lemmas.TrapStep
import Verif.Lemmas.TrapConsist
import Verif.Lemmas.EulerPath
import Verif.Lemmas.L2Local
import Verif.Lemmas.L2Moments
import Verif.Lemmas.L2Core
import Verif.Lemmas.L2Strong
import Verif.Props.StrongEkf
import Verif.Lemmas.WeakLaw
import Verif.Lemmas.LevyShapes
import Verif.Lemmas.LevyBrownian
import Verif.Props.WeakEkf
import Verif.Props.SampledEkf
import Verif.Spec.Filtering
import Verif.Lemmas.Bayes
import Verif.Props.Bayes
import Verif.Props.InitDeriv
import Verif.Lemmas.SsmBlocks
import Verif.Lemmas.SsmAdditive
import Verif.Lemmas.NoiseSum
import Verif.Props.SsmAdditive
import Verif.Lemmas.Alg3Chain
import Verif.Props.Alg3Posterior
import Verif.Model.ScriptsPathwise
import Verif.Props.LowMemory
import Verif.Props.LinearReference
import Verif.Lemmas.FineLaw
import Verif.Props.MeasuredError
import Verif.Lemmas.Cutoff
import Verif.Lemmas.Localise
import Verif.Lemmas.OneSided
import Verif.Lemmas.RamTransfer
import Verif.Props.LocalOrder
import Verif.Props.FhnOrder
import Verif.Lemmas.EulerStep
import Verif.Lemmas.Perturbed
import Verif.Props.EulerSde
import Verif.Lemmas.MartPert
import Verif.Lemmas.RosStep
import Verif.Lemmas.Alg3Step
import Verif.Lemmas.Alg3Bounds
import Verif.Props.StrongEkf1
import Verif.Lemmas.DrawTransfer
import Verif.Lemmas.DrawNoise
import Verif.Lemmas.DrawStrong
import Verif.Props.DrawOrder
import Verif.Spec.MeasurableQr
import Verif.Lemmas.MeasurableQr
import Verif.Lemmas.Ekf1Draw
import Verif.Props.DrawOrder1
import Verif.Props.DrawOrderSteps
import Verif.Lemmas.Alg3Strong
import Verif.Props.Alg3Order
import Verif.Props.Alg3Order1
import Verif.Lemmas.Alg3Scalar
import Verif.Lemmas.Alg3Bias
import Verif.Lemmas.Alg3Noise
import Verif.Props.Alg3Fails
import Verif.Model.ScriptsChecks
import Verif.Lemmas.ExpLipschitz
import Verif.Props.ExpLipschitz
import Verif.Lemmas.ExpEm
import Verif.Props.LocalCheck
import Verif.Lemmas.SsmHeun
import Verif.Lemmas.SsmEkf1
import Verif.Props.SsmOrder
import Verif.Spec.BlockEkf
import Verif.Lemmas.BlockEkf
import Verif.Lemmas.BlockStep
import Verif.Lemmas.BlockStrong
import Verif.Lemmas.ExpTaylor
import Verif.Lemmas.BlockPriors
import Verif.Model.ScriptsComparison
import Verif.Lemmas.QuadGain
import Verif.Lemmas.BlockTransfer
import Verif.Props.PriorComparison
import Verif.Model.ScriptsPosterior
import Verif.Props.PosteriorScripts
import Verif.Lemmas.CalibrationStep
import Verif.Props.SanityCheck
import Verif.Props.CalibratedSize
import Verif.Lemmas.CalibrationLower
import Verif.Lemmas.CalibrationPath
import Verif.Lemmas.CalibrationLaw
import Verif.Lemmas.CalibrationMain
import Verif.Lemmas.CalibrationBounded
import Verif.Lemmas.CalibrationLocal
import Verif.Props.CalibratedLipschitz
import Verif.Props.CalibrationCoverage
import Verif.Model.Notebooks
import Verif.Props.PathPlot
import Verif.Props.BandPlot
import Verif.Lemmas.Regression
import Verif.Props.OrderFit
import Verif.Props.ErrorEstimators
import Verif.Model.ScriptsSsm
import Verif.Lemmas.SolutionSpread
import Verif.Lemmas.SsmProb
import Verif.Props.SsmPaths
import Verif.Lemmas.PathScheme
import Verif.Lemmas.GainStep
import Verif.Lemmas.GainLimit
import Verif.Lemmas.GapSpread
import Verif.Lemmas.BlockSqrt
import Verif.Lemmas.GainPriors
import Verif.Props.SamePrior
import Verif.Lemmas.LinearSolution
import Verif.Lemmas.LawMoments
import Verif.Model.Tests
import Verif.Props.LinearMoments
import Verif.Model.ScriptsStored
import Verif.Props.StoredExperiment
import Verif.Spec.RosScheme
import Verif.Lemmas.RosScheme
import Verif.Props.RosScheme
import Verif.Lemmas.RosMatrix
import Verif.Lemmas.RosConsist
import Verif.Lemmas.RosRun
import Verif.Lemmas.RosDraw
import Verif.Props.StrongRos
import Verif.Props.StrongRosProb
import Verif.Lemmas.LinEuler
import Verif.Props.GbmEuler
import Verif.Props.TestFoster
import Verif.Props.TestEuler
import Verif.Props.Order15
import Verif.Props.HypoOrder
import Verif.Props.Lin15
import Verif.Props.FirstStep
import Verif.Props.ItoLinear
import Verif.Props.EulerLinear
import Verif.Props.TestEkf
import Verif.Props.HeunLinear
import Verif.Props.RosLinear
import Verif.Props.SplineLinear
import Verif.Props.Stationary
import Verif.Props.StationarySolver
