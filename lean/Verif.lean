import Verif.Prelude
import Verif.Model.Prob
import Verif.Model.DiscretePdf
import Verif.Model.MCPdf
import Verif.Model.Mixture
import Verif.Model.DiscreteConditionalPdf
import Verif.Model.Models
import Verif.Model.HistogramFilter
import Verif.Spec.Discrete
import Verif.Spec.Moments
import Verif.Spec.Table
import Verif.Lemmas.Table
import Verif.Lemmas.DiscretePdf
import Verif.Lemmas.MCPdf
import Verif.Lemmas.Moments
import Verif.Lemmas.Mixture
import Verif.Lemmas.DiscreteConditionalPdf
import Verif.Props.Discrete
import Verif.Props.MCPdf
import Verif.Props.Moments
import Verif.Props.Mixture
import Verif.Props.DiscreteConditional
import Verif.Spec.Bayes
import Verif.Lemmas.Bayes
import Verif.Lemmas.HistogramFilter
import Verif.Props.Histogram
import Verif.Props.Models
import Verif.Model.ParticleFilter
import Verif.Model.MixtureParticleFilter
import Verif.Spec.Particles
import Verif.Lemmas.ParticleFilter
import Verif.Lemmas.MixtureParticleFilter
import Verif.Props.ParticleFilterSetup
import Verif.Props.ParticleFilterFixture
import Verif.Props.ParticleFilter
import Verif.Props.MixtureParticleFilter
import Verif.Spec.Linear
import Verif.Spec.GaussianDensity
import Verif.Model.MatrixWrapper
import Verif.Model.Kalman
import Verif.Lemmas.Linear
import Verif.Lemmas.Kalman
import Verif.Lemmas.KalmanStack
import Verif.Lemmas.KalmanRun
import Verif.Props.KalmanSetup
import Verif.Props.Kalman
import Verif.Props.KalmanFamily
import Verif.Spec.Cholesky
import Verif.Model.Cholesky
import Verif.Model.Gaussian
import Verif.Lemmas.Cholesky
import Verif.Lemmas.CholeskyMain
import Verif.Lemmas.Gaussian
import Verif.Lemmas.GaussianLaw
import Verif.Props.Cholesky
import Verif.Props.Gaussian
import Verif.Props.GaussianLaw
import Verif.Model.SRKalman
import Verif.Spec.IteratedKalman
import Verif.Lemmas.SRKalman
import Verif.Props.SRKalman
import Verif.Model.RauchTungStriebel
import Verif.Spec.Smoothing
import Verif.Lemmas.Smoothing
import Verif.Props.Smoothing
import Verif.Props.Trajectory
import Verif.Model.ParticleSmoother
import Verif.Spec.ParticleSmoothing
import Verif.Lemmas.ParticleSmoother
import Verif.Props.ParticleSmoother
import Verif.Model.Uniform
import Verif.Spec.Uniform
import Verif.Lemmas.Uniform
import Verif.Props.Uniform
import Verif.Props.UniformLaw
import Verif.Model.LinearConditional
import Verif.Spec.LinearConditional
import Verif.Lemmas.LinearConditional
import Verif.Props.LinearConditional
import Verif.Props.LinearModelLaw
import Verif.Model.VectorWrapper
import Verif.Spec.VectorWrapper
import Verif.Lemmas.VectorWrapper
import Verif.Props.VectorWrapper
import Verif.Props.SmallInverse
import Verif.Model.SymmetricStorage
import Verif.Props.SymmetricStorage
import Verif.Model.SVD
import Verif.Spec.SVD
import Verif.Lemmas.SVDBase
import Verif.Lemmas.SVDIterate
import Verif.Lemmas.SVDLoop
import Verif.Lemmas.SVDReflect
import Verif.Lemmas.SVDBidiag
import Verif.Lemmas.SVD
import Verif.Lemmas.SVDTwo
import Verif.Lemmas.Pseudoinverse
import Verif.Props.SVD
import Verif.Model.Heap
import Verif.Model.ObjectHeap
import Verif.Spec.ObjectHeap
import Verif.Lemmas.ObjectHeap
import Verif.Lemmas.ObjectClasses
import Verif.Lemmas.ObjectAssign
import Verif.Props.ObjectHeap
import Verif.Model.FilterReset
import Verif.Spec.FilterReset
import Verif.Lemmas.FilterReset
import Verif.Lemmas.ParticleReset
import Verif.Props.FilterReset
import Verif.Model.EKParticleFilter
import Verif.Spec.EKProposal
import Verif.Lemmas.EKProposal
import Verif.Props.EKProposal
import Verif.Spec.EKParticleFilter
import Verif.Lemmas.EKParticleFilter
import Verif.Lemmas.EKParticleFilterRun
import Verif.Props.EKParticleFilter
import Verif.Spec.Coordinates
import Verif.Lemmas.Coordinates
import Verif.Props.Coordinates
import Verif.Spec.LinearWorld
import Verif.Lemmas.LinearWorld
import Verif.Props.LinearWorld
import Verif.Model.Toolkit
import Verif.Spec.Toolkit
import Verif.Lemmas.Toolkit
import Verif.Props.Toolkit
import Verif.Model.Ginac
import Verif.Spec.Ginac
import Verif.Lemmas.Ginac
import Verif.Props.Ginac
import Verif.Spec.KalmanOrder
import Verif.Lemmas.KalmanOrder
import Verif.Props.KalmanOrder
import Verif.Spec.Sampling
import Verif.Lemmas.OrderStatistics
import Verif.Lemmas.Ripley
import Verif.Props.ParticleStart
import Verif.Props.Ripley
import Verif.Spec.ExactFilter
import Verif.Lemmas.ParticleConvergence
import Verif.Lemmas.ParticleRun
import Verif.Props.ParticleConvergence
import Verif.Props.ParticleToss
import Verif.Lemmas.Clouds
import Verif.Lemmas.CloudPair
import Verif.Lemmas.CloudResample
import Verif.Lemmas.CloudSources
import Verif.Lemmas.CloudFilter
import Verif.Lemmas.ParticleResampleRun
import Verif.Lemmas.ParticleResampleCloud
import Verif.Spec.Resampling
import Verif.Props.ParticleResampling
import Verif.Props.ParticleResamplingToss
import Verif.Spec.Forgetting
import Verif.Props.Forgetting
import Verif.Spec.Rounding
import Verif.Model.Rounded
import Verif.Lemmas.Rounded
import Verif.Props.Rounding
import Verif.Spec.PriorMean
import Verif.Props.PriorMean
import Verif.Props.LeastSquares
import Verif.Model.FilterCopy
import Verif.Spec.FilterCopy
import Verif.Lemmas.FilterCopy
import Verif.Props.FilterCopy
import Verif.Model.MatrixProgram
import Verif.Spec.MatrixProgram
import Verif.Lemmas.MatrixProgram
import Verif.Props.MatrixProgram
import Verif.Spec.Propagation
import Verif.Lemmas.Propagation
import Verif.Props.Propagation
import Verif.Model.ExamplePdfs
import Verif.Spec.ExamplePdfs
import Verif.Props.ExamplePdfs
import Verif.Model.RoundedMCPdf
import Verif.Spec.RoundedSampling
import Verif.Lemmas.RoundedMCPdf
import Verif.Props.RoundedSampling
import Verif.Spec.GaussNewton
import Verif.Props.GaussNewton
import Verif.Spec.Identification
import Verif.Lemmas.Identification
import Verif.Props.Identification
import Verif.Spec.Steady
import Verif.Lemmas.Steady
import Verif.Props.Steady
import Verif.Model.ScriptOperators
import Verif.Spec.ScriptOperators
import Verif.Lemmas.ScriptOperators
import Verif.Props.ScriptOperators
import Verif.Model.RoundedKalman
import Verif.Spec.RoundedKalman
import Verif.Lemmas.RoundedKalman
import Verif.Props.RoundedKalman
import Verif.Spec.RoundedMatrix
import Verif.Lemmas.RoundedMatrix
import Verif.Props.RoundedKalmanMany
import Verif.Spec.Evidence
import Verif.Lemmas.Evidence
import Verif.Props.Evidence
import Verif.Spec.Split
import Verif.Props.Split
import Verif.Model.RoundedParticle
import Verif.Props.RoundedParticleSetup
import Verif.Lemmas.RoundedParticle
import Verif.Lemmas.RoundedResample
import Verif.Props.RoundedParticle
import Verif.Lemmas.RoundedIdentity
import Verif.Spec.Innovations
import Verif.Props.InnovationsSetup
import Verif.Lemmas.Innovations
import Verif.Props.Innovations
import Verif.Spec.BestEstimate
import Verif.Lemmas.BestEstimate
import Verif.Props.BestEstimate
import Verif.Spec.HiddenWorld
import Verif.Lemmas.HiddenWorld
import Verif.Props.HiddenWorld
import Verif.Spec.Certain
import Verif.Lemmas.Certain
import Verif.Props.Certain
import Verif.Spec.Mild
import Verif.Lemmas.Mild
import Verif.Props.Mild
import Verif.Props.SmoothWorldSetup
import Verif.Lemmas.SmoothWorld
import Verif.Props.SmoothWorld
import Verif.Spec.ParticleCount
import Verif.Lemmas.ParticleCount
import Verif.Props.ParticleCount
import Verif.Spec.ParticleResampleCount
import Verif.Lemmas.CloudBound
import Verif.Lemmas.ParticleResampleBound
import Verif.Props.ParticleResampleCount
import Verif.Props.ParticleMoments
import Verif.Spec.NormalLaw
import Verif.Lemmas.NormalLaw
import Verif.Model.LinearParticle
import Verif.Props.KalmanExact
import Verif.Props.LinearParticle
import Verif.Props.LinearParticleLine
import Verif.Spec.MixtureLaw
import Verif.Lemmas.MixtureRun
import Verif.Lemmas.MixtureStep
import Verif.Lemmas.MixtureLimit
import Verif.Lemmas.MixtureCloud
import Verif.Props.MixtureConvergence
import Verif.Spec.Unrelated
import Verif.Lemmas.Unrelated
import Verif.Lemmas.UnrelatedStates
import Verif.Props.Unrelated
import Verif.Spec.Reduced
import Verif.Lemmas.Reduced
import Verif.Props.Reduced
import Verif.Spec.Superposition
import Verif.Props.Superposition
import Verif.Spec.StateMap
import Verif.Lemmas.StateMap
import Verif.Props.StateMap
import Verif.Props.StateMapMixture
import Verif.Props.StateMapExample
import Verif.Model.AsirFilter
import Verif.Spec.Auxiliary
import Verif.Lemmas.Auxiliary
import Verif.Props.AuxiliarySetup
import Verif.Props.Auxiliary
import Verif.Props.AuxiliaryExample
import Verif.Spec.Merging
import Verif.Lemmas.Merging
import Verif.Props.Merging
import Verif.Model.FormulaModels
import Verif.Spec.FormulaModels
import Verif.Lemmas.FormulaModels
import Verif.Props.FormulaModels
import Verif.Spec.MoreReadings
import Verif.Lemmas.MoreReadings
import Verif.Props.MoreReadings
import Verif.Spec.SmootherLaws
import Verif.Props.SmootherLaws
import Verif.Model.SmootherProgram
import Verif.Props.SmootherProgram
import Verif.Model.DiscreteProgram
import Verif.Spec.DiscreteProgram
import Verif.Props.DiscreteProgram
import Verif.Model.LinearProgram
import Verif.Spec.LinearProgram
import Verif.Props.LinearProgram
import Verif.Model.CompareFilters
import Verif.Spec.CompareFilters
import Verif.Props.CompareFilters
import Verif.Lemmas.NonlinearMoments
import Verif.Lemmas.BootDraws
import Verif.Model.ParticleProgram
import Verif.Spec.ParticleProgram
import Verif.Lemmas.ParticleProgram
import Verif.Props.ParticleProgram
import Verif.Spec.LongRun
import Verif.Lemmas.LongRun
import Verif.Props.LongRun
import Verif.Props.CompareReadings
import Verif.Spec.SampleOrder
import Verif.Lemmas.SampleOrder
import Verif.Lemmas.SampleOrderLaw
import Verif.Props.SampleOrder
import Verif.Props.SampleOrderMoves
import Verif.Spec.Drift
import Verif.Lemmas.Drift
import Verif.Props.Drift
import Verif.Spec.Ordered
import Verif.Lemmas.Ordered
import Verif.Props.Ordered
import Verif.Spec.Lasting
import Verif.Lemmas.LastingBackward
import Verif.Lemmas.LastingStep
import Verif.Lemmas.LastingRun
import Verif.Lemmas.LastingStuck
import Verif.Props.Lasting
import Verif.Lemmas.WrongStart
import Verif.Props.WrongStart
import Verif.Spec.WrongModels
import Verif.Lemmas.WrongModels
import Verif.Props.WrongModels
import Verif.Spec.WrongReadings
import Verif.Props.WrongReadings
