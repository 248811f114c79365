import Verif.Base.Fl
import Verif.Base.Scan
import Verif.Lemmas.AbcAdaptiveLaw
import Verif.Lemmas.AbcAdaptiveLink
import Verif.Lemmas.AbcThreshold
import Verif.Lemmas.Accepted
import Verif.Lemmas.Adaptation
import Verif.Lemmas.AliveAdaptive
import Verif.Lemmas.AliveAdaptiveRun
import Verif.Lemmas.AliveAdaptiveStep
import Verif.Lemmas.AliveLaw
import Verif.Lemmas.AliveNet
import Verif.Lemmas.AliveVariance
import Verif.Lemmas.Bfgs
import Verif.Lemmas.Categorical
import Verif.Lemmas.Cholesky
import Verif.Lemmas.Doeblin
import Verif.Lemmas.EnkfStep
import Verif.Lemmas.EnsembleLimit
import Verif.Lemmas.Ergodic
import Verif.Lemmas.ErgodicLag
import Verif.Lemmas.ErgodicMixing
import Verif.Lemmas.ErrorBars
import Verif.Lemmas.ExpDraw
import Verif.Lemmas.GaussChar
import Verif.Lemmas.GaussCov
import Verif.Lemmas.GaussMap
import Verif.Lemmas.GaussMoments
import Verif.Lemmas.GaussProduct
import Verif.Lemmas.GaussScale
import Verif.Lemmas.HMCInvariant
import Verif.Lemmas.InProb
import Verif.Lemmas.Leapfrog
import Verif.Lemmas.Loop
import Verif.Lemmas.MatGauss
import Verif.Lemmas.Mcmc
import Verif.Lemmas.Measure
import Verif.Lemmas.MetropolisErgodic
import Verif.Lemmas.Nonreversible
import Verif.Lemmas.NormalDraw
import Verif.Lemmas.Overlap
import Verif.Lemmas.Pooling
import Verif.Lemmas.QN
import Verif.Lemmas.QuantileLimit
import Verif.Lemmas.RWInvariant
import Verif.Lemmas.Rejection
import Verif.Lemmas.Reversible
import Verif.Lemmas.RunTails
import Verif.Lemmas.Segments
import Verif.Lemmas.Smc
import Verif.Lemmas.SmcAdaptive
import Verif.Lemmas.SmcAdaptiveEnd
import Verif.Lemmas.SmcAdaptiveLink
import Verif.Lemmas.SmcAdaptiveMoves
import Verif.Lemmas.SmcAdaptiveNext
import Verif.Lemmas.SmcAdaptivePositive
import Verif.Lemmas.SmcAdaptiveProgress
import Verif.Lemmas.SmcAdaptiveRun
import Verif.Lemmas.SmcAdaptiveStart
import Verif.Lemmas.SmcAdaptiveStep
import Verif.Lemmas.SmcLaw
import Verif.Lemmas.SmcRmFamily
import Verif.Lemmas.SmcRmLink
import Verif.Lemmas.SmcRmMoves
import Verif.Lemmas.SmcRmRun
import Verif.Lemmas.SmcVariance
import Verif.Lemmas.Stein
import Verif.Lemmas.Stream
import Verif.Lemmas.Subtape
import Verif.Lemmas.SubtapeRuns
import Verif.Lemmas.Tape
import Verif.Lemmas.TapeMoves
import Verif.Lemmas.TekiStep
import Verif.Model.Abc
import Verif.Model.AbcScenarios
import Verif.Model.AbcSessions
import Verif.Model.AbcSmc
import Verif.Model.Backward
import Verif.Model.Bandwidth
import Verif.Model.Bfgs
import Verif.Model.Cdict
import Verif.Model.CompiledLeapfrog
import Verif.Model.Corrections
import Verif.Model.Covariance
import Verif.Model.EnsembleFilter
import Verif.Model.Files
import Verif.Model.Filtering
import Verif.Model.Gaussian
import Verif.Model.GaussianConstruct
import Verif.Model.Heap
import Verif.Model.Kalman
import Verif.Model.Kernels
import Verif.Model.Keys
import Verif.Model.LinearInverse
import Verif.Model.Loop
import Verif.Model.Mcmc
import Verif.Model.Metrics
import Verif.Model.MetropolisHastings
import Verif.Model.MixtureSessions
import Verif.Model.NonlinearGaussian
import Verif.Model.OneDim
import Verif.Model.OnlineSessions
import Verif.Model.OnlineSmoothing
import Verif.Model.Plots
import Verif.Model.QN
import Verif.Model.Run
import Verif.Model.Scenario
import Verif.Model.ScenarioKwargs
import Verif.Model.Sessions
import Verif.Model.Smc
import Verif.Model.SmcMore
import Verif.Model.SmoothingSessions
import Verif.Model.Ssm
import Verif.Model.SsmConstruct
import Verif.Model.SsmObject
import Verif.Model.SsmScenarios
import Verif.Model.StandardMcmc
import Verif.Model.Startup
import Verif.Model.Svgd
import Verif.Model.SvgdSessions
import Verif.Model.Teki
import Verif.Model.TemperedSessions
import Verif.Model.ToyExamples
import Verif.Model.TwoDim
import Verif.Model.TwoDimPlot
import Verif.Model.Utils
import Verif.Props.Abc
import Verif.Props.AbcAccepted
import Verif.Props.AbcErgodic
import Verif.Props.AbcErrorBars
import Verif.Props.AbcImportanceLaw
import Verif.Props.AbcImportanceLimit
import Verif.Props.AbcLaw
import Verif.Props.AbcLimit
import Verif.Props.AbcMixing
import Verif.Props.AbcPriors
import Verif.Props.AbcScenarios
import Verif.Props.AbcSessions
import Verif.Props.AbcSmc
import Verif.Props.AbcSmcAdaptive
import Verif.Props.AbcSmcConsistency
import Verif.Props.AbcSmcLaw
import Verif.Props.AbcSmcMore
import Verif.Props.AbcTails
import Verif.Props.AcceptanceRate
import Verif.Props.AdaptiveAverage
import Verif.Props.AdaptiveErgodic
import Verif.Props.Backward
import Verif.Props.BackwardLaw
import Verif.Props.Bandwidth
import Verif.Props.Bfgs
import Verif.Props.Cdict
import Verif.Props.ChainConvergence
import Verif.Props.ChainDiagnostics
import Verif.Props.ChainErgodic
import Verif.Props.ChainLaw
import Verif.Props.ChainTails
import Verif.Props.ChainsAdaptive
import Verif.Props.ChainsFriction
import Verif.Props.ChainsSameLaw
import Verif.Props.CompiledLeapfrog
import Verif.Props.Continue
import Verif.Props.Corrections
import Verif.Props.Covariance
import Verif.Props.EnkfLimit
import Verif.Props.EnsembleFilter
import Verif.Props.Evals
import Verif.Props.FfbsConsistency
import Verif.Props.FfbsLaw
import Verif.Props.FfbsLawGauss
import Verif.Props.Files
import Verif.Props.FilterConsistency
import Verif.Props.FilterLaw
import Verif.Props.FilterLawGauss
import Verif.Props.Filtering
import Verif.Props.FrictionErgodic
import Verif.Props.Gaussian
import Verif.Props.GaussianConstruct
import Verif.Props.GkLaw
import Verif.Props.HMCInvariant
import Verif.Props.Heap
import Verif.Props.IndependentChains
import Verif.Props.IndependentChainsAbc
import Verif.Props.JumpLaw
import Verif.Props.Kalman
import Verif.Props.Kernels
import Verif.Props.Keys
import Verif.Props.KeysMore
import Verif.Props.Ksd
import Verif.Props.Leapfrog
import Verif.Props.LinearInverse
import Verif.Props.Loop
import Verif.Props.Mcmc
import Verif.Props.Metrics
import Verif.Props.MetropolisHastings
import Verif.Props.MixingRate
import Verif.Props.MixtureSessions
import Verif.Props.NonlinearGaussian
import Verif.Props.OneDim
import Verif.Props.OnlineFilterSmoothing
import Verif.Props.OnlineLaw
import Verif.Props.OnlineSessions
import Verif.Props.OnlineSmoothing
import Verif.Props.OnlineSmoothingLaw
import Verif.Props.OptimalLaw
import Verif.Props.Plots
import Verif.Props.PooledAbcSmc
import Verif.Props.PooledFilters
import Verif.Props.PooledSmc
import Verif.Props.QN
import Verif.Props.QNInvariant
import Verif.Props.RWInvariant
import Verif.Props.Ricker
import Verif.Props.RobbinsMonro
import Verif.Props.RunErrorBars
import Verif.Props.RunErrorBarsFilters
import Verif.Props.RunErrorBarsSmc
import Verif.Props.RunTailsAbc
import Verif.Props.RunTailsFilters
import Verif.Props.RunTailsSmc
import Verif.Props.Scenario
import Verif.Props.ScenarioKwargs
import Verif.Props.Sessions
import Verif.Props.Smc
import Verif.Props.SmcAdaptive
import Verif.Props.SmcAdaptiveEnd
import Verif.Props.SmcConsistency
import Verif.Props.SmcLaw
import Verif.Props.SmcMore
import Verif.Props.SmcRm
import Verif.Props.SmcStall
import Verif.Props.SmoothingSessions
import Verif.Props.Ssm
import Verif.Props.SsmConstruct
import Verif.Props.SsmObject
import Verif.Props.SsmScenarios
import Verif.Props.Startup
import Verif.Props.Stitching
import Verif.Props.StitchingLaw
import Verif.Props.Svgd
import Verif.Props.SvgdDescent
import Verif.Props.SvgdSessions
import Verif.Props.Teki
import Verif.Props.TekiChain
import Verif.Props.TekiLaw
import Verif.Props.TekiLimit
import Verif.Props.TekiStop
import Verif.Props.TemperedSessions
import Verif.Props.ToyExamples
import Verif.Props.Transformed
import Verif.Props.TwoDim
import Verif.Props.TwoDimPlot
import Verif.Props.Unadjusted
import Verif.Props.Utils
import Verif.Spec.Eki
import Verif.Spec.Gaussian
import Verif.Spec.InProb
import Verif.Spec.LinearGaussian
import Verif.Spec.Tape
