import Verif.Props.Killing
import Verif.Props.Resampling
import Verif.Props.Csmc
import Verif.Props.CsmcLaw
import Verif.Props.ForceMove
import Verif.Props.CsmcBackward
import Verif.Props.CsmcBackwardLaw
import Verif.Props.Filters
import Verif.Props.Twisted
import Verif.Props.Keys
import Verif.Props.Smoother
import Verif.Props.SmootherLaw
import Verif.Props.Gibbs
import Verif.Props.GibbsLaw
import Verif.Props.GibbsFinal
import Verif.Props.GibbsBridge
import Verif.Props.Pmcmc
import Verif.Props.Pcn
import Verif.Props.Linear
import Verif.Props.LinearSim
import Verif.Props.Simulators
import Verif.Props.Utils
import Verif.Props.GaussSB
import Verif.Props.Kl
import Verif.Props.Dsb
import Verif.Props.Losses
import Verif.Props.LossesAgree
import Verif.Props.LossesMore
import Verif.Props.Data
import Verif.Props.Restore
import Verif.Props.Images
import Verif.Props.Crescent
import Verif.Props.Nn
import Verif.Props.Unet
import Verif.Props.PmcmcLaw
import Verif.Lemmas.OrderStat
import Verif.Props.SortedMultinomial
import Verif.Props.GibbsInit
import Verif.Props.IndexFree
import Verif.Props.Toy
import Verif.Model.Gp
import Verif.Model.Guided
import Verif.Model.Csgm
import Verif.Lemmas.Mvn
import Verif.Lemmas.GaussCond
import Verif.Props.Gp
import Verif.Props.Guided
import Verif.Props.Csgm
import Verif.Model.Attention
import Verif.Props.Attention
import Verif.Model.Corrupt
import Verif.Props.Corrupt
import Verif.Lemmas.GaussLin
import Verif.Model.Kf
import Verif.Props.Kf
import Verif.Model.Chains
import Verif.Props.ParticleZero
import Verif.Props.Chains
import Verif.Model.ImgSamplers
import Verif.Props.ImgSamplers
import Verif.Model.Models
import Verif.Props.Models
import Verif.Props.RestoreLaw
import Verif.Props.ExpKeys
import Verif.Lemmas.Schroedinger
import Verif.Props.SbOptimal
import Verif.Lemmas.PolyZero
import Verif.Model.SbGp
import Verif.Props.SbReverse
import Verif.Props.DsbOptimal
import Verif.Model.Train
import Verif.Props.Train
import Verif.Model.Tables
import Verif.Props.Tables
import Verif.Props.ImgTables
import Verif.Spec.Consistency
import Verif.Lemmas.Consistency
import Verif.Props.Consistency
import Verif.Props.SmootherTarget
import Verif.Lemmas.FokkerPlanck
import Verif.Props.TimeReversal
import Verif.Props.ScoreUnique
import Verif.Lemmas.Minor
import Verif.Props.Ergodic
import Verif.Props.PmcmcErgodic
import Verif.Lemmas.TwistedAccuracy
import Verif.Props.TwistedAccuracy
import Verif.Model.Datasets
import Verif.Props.Datasets
import Verif.Lemmas.EulerOde
import Verif.Lemmas.EmGauss
import Verif.Props.EmConverge
import Verif.Props.LossUnique
import Verif.Lemmas.Pinsker
import Verif.Lemmas.Girsanov
import Verif.Props.ScoreStability
import Verif.Props.EndToEnd
import Verif.Props.EmRefine
import Verif.Lemmas.CondStability
import Verif.Props.PosteriorStability
import Verif.Model.SbImgs
import Verif.Props.InitGuess
import Verif.Props.InitGuessBound
import Verif.Props.InitGuessChain
import Verif.Props.InterpGuess
import Verif.Props.GibbsError
import Verif.Model.ToyGibbs
import Verif.Props.GibbsJoint
import Verif.Lemmas.Functional
import Verif.Lemmas.GibbsKer
import Verif.Lemmas.Averages
import Verif.Model.ChainSamples
import Verif.Lemmas.StoreLoop
import Verif.Props.ChainAverages
import Verif.Props.StratifiedLimit
import Verif.Lemmas.LogBias
import Verif.Props.LogBias
import Verif.Spec.ResVar
import Verif.Lemmas.ResVar
import Verif.Props.ResamplingVariance
import Verif.Props.ForceAlpha
import Verif.Props.ForcePeskun
import Verif.Lemmas.PairBound
import Verif.Lemmas.Ratio
import Verif.Lemmas.Ideal
import Verif.Spec.Ideal
import Verif.Props.IdealGibbs
import Verif.Base.Replay
import Verif.Model.ImgRuns
import Verif.Props.ImgRuns
import Verif.Model.SbRuns
import Verif.Props.SbRuns
import Verif.Model.DataFiles
import Verif.Props.DataFiles
import Verif.Model.Autocorr
import Verif.Props.Autocorr
import Verif.Lemmas.BuresOt
import Verif.Props.Wasserstein
import Verif.Lemmas.Reversible
import Verif.Lemmas.ReversibleChain
import Verif.Props.Reversible
import Verif.Lemmas.Metropolis
import Verif.Lemmas.ProposalPos
import Verif.Props.PmcmcReversible
import Verif.Lemmas.Resolvent
import Verif.Lemmas.MetropolisOrder
import Verif.Props.PmcmcExact
import Verif.Lemmas.ResolventUpper
import Verif.Lemmas.MetropolisUpper
import Verif.Props.PmcmcExactUpper
import Verif.Lemmas.IdealOrder
import Verif.Lemmas.IdealKer
import Verif.Props.IdealChain
import Verif.Props.ForceChain
import Verif.Model.CsmcLoop
import Verif.Lemmas.CsmcChain
import Verif.Props.CsmcChain
import Verif.Spec.Emission
import Verif.Lemmas.Emission
import Verif.Props.CsmcGibbs
import Verif.Props.CsmcTest
import Verif.Props.CsmcPrior
import Verif.Lemmas.Complete
import Verif.Lemmas.TanhPair
import Verif.Props.CsmcBias
import Verif.Model.CsmcRun
import Verif.Props.CsmcRun
import Verif.Props.UtilsWitness
