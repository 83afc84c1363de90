import Verif.Core.Arr
import Verif.Core.KerSem
import Verif.Core.Rand
import Verif.Lemmas.Adapted
import Verif.Lemmas.AlCsmc
import Verif.Lemmas.AlsCsmc
import Verif.Lemmas.AlsKernel
import Verif.Lemmas.AlsLong
import Verif.Lemmas.AlsThree
import Verif.Lemmas.AtpCsmc
import Verif.Lemmas.AtpDensity
import Verif.Lemmas.AtpFlat
import Verif.Lemmas.AtpsLast
import Verif.Lemmas.AtpsTarget
import Verif.Lemmas.AuxFamily
import Verif.Lemmas.AuxPass
import Verif.Lemmas.AuxRules
import Verif.Lemmas.Averages
import Verif.Lemmas.ChainInv
import Verif.Lemmas.Chol
import Verif.Lemmas.CoerciveGrad
import Verif.Lemmas.Consistent
import Verif.Lemmas.ConsistentRuns
import Verif.Lemmas.Contract
import Verif.Lemmas.CsmcBackward
import Verif.Lemmas.CsmcCore
import Verif.Lemmas.CsmcForward
import Verif.Lemmas.CsmcKernel
import Verif.Lemmas.CsmcParam
import Verif.Lemmas.CsmcReduce
import Verif.Lemmas.Doeblin
import Verif.Lemmas.DoeblinCsmc
import Verif.Lemmas.DoeblinExists
import Verif.Lemmas.DoeblinNear
import Verif.Lemmas.Drivers
import Verif.Lemmas.EnergyAcf
import Verif.Lemmas.EnergyMoments
import Verif.Lemmas.ErgodicExp
import Verif.Lemmas.Esjd
import Verif.Lemmas.EsjdGuard
import Verif.Lemmas.EsjdMany
import Verif.Lemmas.EsjdMoments
import Verif.Lemmas.ExpRuns
import Verif.Lemmas.Experiments
import Verif.Lemmas.FamilyKernels
import Verif.Lemmas.FarPotentials
import Verif.Lemmas.Figures
import Verif.Lemmas.FinSum
import Verif.Lemmas.FlaggedChain
import Verif.Lemmas.FlatKernels
import Verif.Lemmas.FlatSchemes
import Verif.Lemmas.FlatSteps
import Verif.Lemmas.FlatWeights
import Verif.Lemmas.Follow
import Verif.Lemmas.Gauss
import Verif.Lemmas.GaussMoments
import Verif.Lemmas.GaussSys
import Verif.Lemmas.Genealogy
import Verif.Lemmas.Gradients
import Verif.Lemmas.HeavyMoves
import Verif.Lemmas.HitTarget
import Verif.Lemmas.ImhMany
import Verif.Lemmas.IsoGauss
import Verif.Lemmas.Jensen
import Verif.Lemmas.Kalman
import Verif.Lemmas.KalmanLaws
import Verif.Lemmas.KeyFree
import Verif.Lemmas.Keys
import Verif.Lemmas.LagAverages
import Verif.Lemmas.LagRuns
import Verif.Lemmas.LagSums
import Verif.Lemmas.LargeAuxSteps
import Verif.Lemmas.LargeSteps
import Verif.Lemmas.LargeTrajSteps
import Verif.Lemmas.LgWrong
import Verif.Lemmas.LgWrongFinal
import Verif.Lemmas.LgWrongKernel
import Verif.Lemmas.LgWrongLong
import Verif.Lemmas.LgWrongLongFinal
import Verif.Lemmas.LgWrongLongKernel
import Verif.Lemmas.LongAverages
import Verif.Lemmas.ManyKernel
import Verif.Lemmas.ManyLoss
import Verif.Lemmas.ManyParticles
import Verif.Lemmas.MargCsmc
import Verif.Lemmas.MargDensity
import Verif.Lemmas.Marginal
import Verif.Lemmas.MarkovKernels
import Verif.Lemmas.Martingale
import Verif.Lemmas.MatGauss
import Verif.Lemmas.Minorize
import Verif.Lemmas.MinorizeCsmc
import Verif.Lemmas.MinorizeSchemes
import Verif.Lemmas.Mixing
import Verif.Lemmas.MoveError
import Verif.Lemmas.MoveLaw
import Verif.Lemmas.MovePairs
import Verif.Lemmas.MultiTry
import Verif.Lemmas.MultiTryInv
import Verif.Lemmas.MultiTryProg
import Verif.Lemmas.MultiTryReach
import Verif.Lemmas.MultiTryRev
import Verif.Lemmas.Near
import Verif.Lemmas.NearKernels
import Verif.Lemmas.NearRuns
import Verif.Lemmas.Normalize
import Verif.Lemmas.NotInvariant
import Verif.Lemmas.OneTrajCand
import Verif.Lemmas.OneTrajKernel
import Verif.Lemmas.OneTrajRuns
import Verif.Lemmas.Pbar
import Verif.Lemmas.PiMeasure
import Verif.Lemmas.PiSwap
import Verif.Lemmas.Proposal
import Verif.Lemmas.Reach
import Verif.Lemmas.ReachKernels
import Verif.Lemmas.ReachSel
import Verif.Lemmas.RepairedAtps
import Verif.Lemmas.RepairedAtpsKernel
import Verif.Lemmas.Replicates
import Verif.Lemmas.ResamplingLaw
import Verif.Lemmas.Reversal
import Verif.Lemmas.ReversedRuns
import Verif.Lemmas.Rotation
import Verif.Lemmas.RotationKernels
import Verif.Lemmas.RotationSys
import Verif.Lemmas.RunAverages
import Verif.Lemmas.RunConv
import Verif.Lemmas.Runs
import Verif.Lemmas.ScanReads
import Verif.Lemmas.ScanRules
import Verif.Lemmas.ScanSteps
import Verif.Lemmas.Schemes
import Verif.Lemmas.SecondOrder
import Verif.Lemmas.SecondOrderInv
import Verif.Lemmas.SecondOrderNoise
import Verif.Lemmas.SecondOrderPass
import Verif.Lemmas.Simulate
import Verif.Lemmas.SimulateExp
import Verif.Lemmas.Sliced
import Verif.Lemmas.SlicedKernels
import Verif.Lemmas.SlicedRuns
import Verif.Lemmas.SlicedUse
import Verif.Lemmas.SmallAux
import Verif.Lemmas.SmallSteps
import Verif.Lemmas.Smc
import Verif.Lemmas.SmcKernel
import Verif.Lemmas.SmcMany
import Verif.Lemmas.Supp
import Verif.Lemmas.SvChains
import Verif.Lemmas.SvKernels
import Verif.Lemmas.SvMass
import Verif.Lemmas.SvMoments
import Verif.Lemmas.SvStationary
import Verif.Lemmas.Svd
import Verif.Lemmas.TAtp
import Verif.Lemmas.Tables
import Verif.Lemmas.TpCsmc
import Verif.Lemmas.TpSys
import Verif.Lemmas.TwistedOnly
import Verif.Lemmas.Unbiased
import Verif.Lemmas.Unique
import Verif.Lemmas.WrongParent
import Verif.Lemmas.WrongParentCore
import Verif.Lemmas.WrongParentFinal
import Verif.Lemmas.WrongParentInt
import Verif.Lemmas.WrongParentStep
import Verif.Model.AlCsmcF
import Verif.Model.AlCsmcS
import Verif.Model.AtpCsmcF
import Verif.Model.AtpCsmcS
import Verif.Model.Common
import Verif.Model.Csmc
import Verif.Model.Diagnostics
import Verif.Model.ExpGrid
import Verif.Model.ExpJobs
import Verif.Model.ExpLgssm
import Verif.Model.ExpRuns
import Verif.Model.ExpSv
import Verif.Model.Figures
import Verif.Model.Kalman
import Verif.Model.LCsmcF
import Verif.Model.Linalg
import Verif.Model.Mcmc
import Verif.Model.MultiTry
import Verif.Model.Pbar
import Verif.Model.Resampling
import Verif.Model.ResultsAnalysis
import Verif.Model.RwCsmc
import Verif.Model.ScanReads
import Verif.Model.SvRuns
import Verif.Model.TAtpCsmcF
import Verif.Model.TpCsmc
import Verif.Props.AuxGradient
import Verif.Props.Chains
import Verif.Props.Csmc
import Verif.Props.DefaultRun
import Verif.Props.Diagnostics
import Verif.Props.Drivers
import Verif.Props.EnergyAcf
import Verif.Props.Ergodic
import Verif.Props.Esjd
import Verif.Props.EsjdMany
import Verif.Props.ExpData
import Verif.Props.ExpDataLaw
import Verif.Props.ExpGradients
import Verif.Props.ExpInit
import Verif.Props.ExpInvariance
import Verif.Props.ExpMultiTry
import Verif.Props.ExpRuns
import Verif.Props.ExpRunsKeys
import Verif.Props.ExpTargets
import Verif.Props.Figures
import Verif.Props.FlatSteps
import Verif.Props.Forced
import Verif.Props.Grad
import Verif.Props.GradFalse
import Verif.Props.Gradient
import Verif.Props.GridRoles
import Verif.Props.HitTarget
import Verif.Props.Indices
import Verif.Props.Jobs
import Verif.Props.Kalman
import Verif.Props.Keys
import Verif.Props.Langevin
import Verif.Props.LargeAuxSteps
import Verif.Props.LargeSteps
import Verif.Props.LargeTrajSteps
import Verif.Props.LgSmoothing
import Verif.Props.ManyParticles
import Verif.Props.Mixing
import Verif.Props.MixingRuns
import Verif.Props.Moves
import Verif.Props.MultiTry
import Verif.Props.MultiTryInv
import Verif.Props.MultiTryReach
import Verif.Props.MultiTryRev
import Verif.Props.OneLaw
import Verif.Props.OneTrajRun
import Verif.Props.Pbar
import Verif.Props.RepairedAgrad
import Verif.Props.Reported
import Verif.Props.Resampling
import Verif.Props.ResultsAnalysis
import Verif.Props.ReversedRuns
import Verif.Props.Reversible
import Verif.Props.RunAverages
import Verif.Props.ScanReads
import Verif.Props.ScanSteps
import Verif.Props.Settles
import Verif.Props.SmallSteps
import Verif.Props.Smc
import Verif.Props.SmcMany
import Verif.Props.Smoothing
import Verif.Props.SmoothingFalse
import Verif.Props.SmoothingRuns
import Verif.Props.SmoothingWrong
import Verif.Props.SoleLaw
import Verif.Props.SvRuns
import Verif.Props.SvRunsKeys
import Verif.Props.SvStats
import Verif.Props.Twisted
import Verif.Props.Unbiased
import Verif.Props.Unique
import Verif.Props.UnitTests
import Verif.Props.Univariate
import Verif.Props.Weights
import Verif.Props.WholeRun
import Verif.Spec.Averages
import Verif.Spec.Bayes
import Verif.Spec.Chain
import Verif.Spec.Csmc
import Verif.Spec.Dominated
import Verif.Spec.EnergyAcf
import Verif.Spec.Ergodic
import Verif.Spec.ErgodicRuns
import Verif.Spec.Esjd
import Verif.Spec.EsjdMany
import Verif.Spec.Experiments
import Verif.Spec.FlatSteps
import Verif.Spec.Gauss
import Verif.Spec.GaussModel
import Verif.Spec.Heavy
import Verif.Spec.Indices
import Verif.Spec.Invariance
import Verif.Spec.Keys
import Verif.Spec.LagLaws
import Verif.Spec.LargeSteps
import Verif.Spec.LastAlone
import Verif.Spec.LgWrong
import Verif.Spec.LgWrongLong
import Verif.Spec.Lgssm
import Verif.Spec.Lineage
import Verif.Spec.ManyParticles
import Verif.Spec.Marginal
import Verif.Spec.Mixing
import Verif.Spec.Near
import Verif.Spec.NearReversible
import Verif.Spec.OneInvariant
import Verif.Spec.Pbar
import Verif.Spec.Prob
import Verif.Spec.Proposals
import Verif.Spec.PySlice
import Verif.Spec.Reach
import Verif.Spec.RepairedAgrad
import Verif.Spec.Replicates
import Verif.Spec.Reversible
import Verif.Spec.RunAverages
import Verif.Spec.Runs
import Verif.Spec.ScanSteps
import Verif.Spec.Settles
import Verif.Spec.SmallSteps
import Verif.Spec.Smc
import Verif.Spec.SmcMany
import Verif.Spec.Stats
import Verif.Spec.Svd
import Verif.Spec.Tables
import Verif.Spec.Twisted
import Verif.Spec.WrongParent
