import Verif.Lemmas.Alias
import Verif.Lemmas.Axes
import Verif.Lemmas.Counter
import Verif.Lemmas.Flat
import Verif.Lemmas.Float
import Verif.Lemmas.Float32
import Verif.Lemmas.FloatErr
import Verif.Lemmas.Gauss
import Verif.Lemmas.Girsanov
import Verif.Lemmas.LinAlg
import Verif.Lemmas.Norm
import Verif.Lemmas.Run
import Verif.Lemmas.SM3
import Verif.Lemmas.Steps
import Verif.Lemmas.Tree
import Verif.Lemmas.Unbounded
import Verif.Model.Alias
import Verif.Model.Base
import Verif.Model.Bind
import Verif.Model.Defaults
import Verif.Model.Dtype
import Verif.Model.Dual
import Verif.Model.Estimators
import Verif.Model.Examples
import Verif.Model.Float
import Verif.Model.LinAlg
import Verif.Model.Loss
import Verif.Model.Privacy
import Verif.Model.PyFloat
import Verif.Model.Reverse
import Verif.Model.Schedule
import Verif.Model.SecondOrder
import Verif.Model.Transform
import Verif.Model.Wrappers
import Verif.Num
import Verif.Props.AGC
import Verif.Props.Acceleration
import Verif.Props.Accumulation
import Verif.Props.AccumulationNoise
import Verif.Props.AdagradRegret
import Verif.Props.Adam
import Verif.Props.AdamDivergence
import Verif.Props.AdamStationary
import Verif.Props.Alias
import Verif.Props.AliasReal
import Verif.Props.ApplyEvery
import Verif.Props.Averaging
import Verif.Props.Balance
import Verif.Props.Baseline
import Verif.Props.BaselineBias
import Verif.Props.Bind
import Verif.Props.Broadcast
import Verif.Props.Centralize
import Verif.Props.Chain
import Verif.Props.Checkpoint
import Verif.Props.ClippedSgd
import Verif.Props.Clipping
import Verif.Props.Congruence
import Verif.Props.Constrain
import Verif.Props.Contamination
import Verif.Props.ControlVariates
import Verif.Props.Convergence
import Verif.Props.Counters
import Verif.Props.DecayNoise
import Verif.Props.DecaySchedules
import Verif.Props.DefaultForms
import Verif.Props.Defaults
import Verif.Props.DeltaUnbiased
import Verif.Props.DifferentialPrivacy
import Verif.Props.Downhill
import Verif.Props.DownhillApply
import Verif.Props.DpUtility
import Verif.Props.Dtype
import Verif.Props.EffectiveRate
import Verif.Props.Ensemble
import Verif.Props.Equilibrium
import Verif.Props.EstimatedCoeffs
import Verif.Props.Examples
import Verif.Props.Faults
import Verif.Props.Flatten
import Verif.Props.FloatAccumulation
import Verif.Props.FloatAdam
import Verif.Props.FloatClip
import Verif.Props.FloatDownhill
import Verif.Props.FloatExact
import Verif.Props.FloatLoss
import Verif.Props.FloatMoments
import Verif.Props.FloatSchedule
import Verif.Props.FloatSgd
import Verif.Props.FloatStationary
import Verif.Props.FloatTies
import Verif.Props.Forgetting
import Verif.Props.ForgettingRms
import Verif.Props.Freeze
import Verif.Props.GradientFlow
import Verif.Props.Groups
import Verif.Props.GroupsTraining
import Verif.Props.ImplicitBias
import Verif.Props.Inject
import Verif.Props.Interp
import Verif.Props.InterpPace
import Verif.Props.InverseRoot
import Verif.Props.Join
import Verif.Props.Labels
import Verif.Props.LabelsTraining
import Verif.Props.Lazy
import Verif.Props.Linear
import Verif.Props.LinearModels
import Verif.Props.Locality
import Verif.Props.Lookahead
import Verif.Props.LookaheadConv
import Verif.Props.LookaheadEdge
import Verif.Props.LookaheadNeutral
import Verif.Props.LookaheadNoise
import Verif.Props.Loss
import Verif.Props.LossAD
import Verif.Props.LossGrad
import Verif.Props.LossScaling
import Verif.Props.LossSmooth
import Verif.Props.Masked
import Verif.Props.MeasureValued
import Verif.Props.MetaGrad
import Verif.Props.Mismatch
import Verif.Props.Modules
import Verif.Props.Moments
import Verif.Props.Momentum
import Verif.Props.MomentumNoise
import Verif.Props.MultiSteps
import Verif.Props.MultiStepsFaults
import Verif.Props.NesterovNoise
import Verif.Props.Neutral
import Verif.Props.Noise
import Verif.Props.NoisySgd
import Verif.Props.NonConvex
import Verif.Props.Norms
import Verif.Props.Order
import Verif.Props.ParameterAveraging
import Verif.Props.PowerCertificate
import Verif.Props.PowerIteration
import Verif.Props.Privacy
import Verif.Props.Projection
import Verif.Props.QuadraticFloor
import Verif.Props.QuadraticMomentum
import Verif.Props.Reflection
import Verif.Props.Regroup
import Verif.Props.Regularized
import Verif.Props.RelativeSteps
import Verif.Props.Rename
import Verif.Props.Reverse
import Verif.Props.RootConvergence
import Verif.Props.Rotation
import Verif.Props.SM3
import Verif.Props.SM3Regret
import Verif.Props.Scaling
import Verif.Props.SchedulePace
import Verif.Props.Schedules
import Verif.Props.SecondOrder
import Verif.Props.Stability
import Verif.Props.StabilityEdge
import Verif.Props.Stationary
import Verif.Props.Stochastic
import Verif.Props.Structure
import Verif.Props.TargetLag
import Verif.Props.TiedUnits
import Verif.Props.Tracking
import Verif.Props.Unbiased
import Verif.Props.UnitChange
import Verif.Props.Update
import Verif.Props.Variance
import Verif.Props.WeightDecay
import Verif.Props.Wrappers
import Verif.Spec.Geo
import Verif.Spec.History
import Verif.Spec.SubHistory
import Verif.Tree
