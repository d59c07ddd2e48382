import Verif.Basic.Generic
import Verif.Basic.Law
import Verif.Basic.Numpy
import Verif.Basic.Prog
import Verif.Lemmas.ASure
import Verif.Lemmas.Adapt
import Verif.Lemmas.Alternating
import Verif.Lemmas.Ars
import Verif.Lemmas.ArsDraw
import Verif.Lemmas.ArsEnvelope
import Verif.Lemmas.ArsHull
import Verif.Lemmas.ArsIid
import Verif.Lemmas.ArsLaw
import Verif.Lemmas.ArsNext
import Verif.Lemmas.AugLaw
import Verif.Lemmas.AugMeas
import Verif.Lemmas.BatchExact
import Verif.Lemmas.BatchLaw
import Verif.Lemmas.Bessel
import Verif.Lemmas.BesselLaw
import Verif.Lemmas.BesselPath
import Verif.Lemmas.Bfactories
import Verif.Lemmas.Bridge
import Verif.Lemmas.BridgeLaw
import Verif.Lemmas.BridgeMin
import Verif.Lemmas.Coin
import Verif.Lemmas.CoinProd
import Verif.Lemmas.CoinSure
import Verif.Lemmas.Diffuse
import Verif.Lemmas.DualFlags
import Verif.Lemmas.Duhamel
import Verif.Lemmas.EdgeKer
import Verif.Lemmas.EscBounded
import Verif.Lemmas.EscDecide
import Verif.Lemmas.Escape
import Verif.Lemmas.EulerLaw
import Verif.Lemmas.FillProg
import Verif.Lemmas.FillVals
import Verif.Lemmas.ForwardFdd
import Verif.Lemmas.ForwardLaw
import Verif.Lemmas.Forwards
import Verif.Lemmas.GapOp
import Verif.Lemmas.GapSwap
import Verif.Lemmas.Gauss
import Verif.Lemmas.GridEdge
import Verif.Lemmas.GridLimit
import Verif.Lemmas.GridSplit
import Verif.Lemmas.HalfLine
import Verif.Lemmas.HiddenImportance
import Verif.Lemmas.HiddenNumbers
import Verif.Lemmas.HiddenSections
import Verif.Lemmas.HiddenWeight
import Verif.Lemmas.HoldLaw
import Verif.Lemmas.Interp
import Verif.Lemmas.InterpGaps
import Verif.Lemmas.Jacobi
import Verif.Lemmas.KerFlip
import Verif.Lemmas.Kernel
import Verif.Lemmas.LayerHalf
import Verif.Lemmas.LayerLaw
import Verif.Lemmas.LayerPaths
import Verif.Lemmas.LayerProb
import Verif.Lemmas.MassJump
import Verif.Lemmas.MassOne
import Verif.Lemmas.Mcem
import Verif.Lemmas.McemEst
import Verif.Lemmas.McemLaw
import Verif.Lemmas.McemObjective
import Verif.Lemmas.McemSe
import Verif.Lemmas.MeasFun
import Verif.Lemmas.MeasList
import Verif.Lemmas.MinLaw
import Verif.Lemmas.MinSplit
import Verif.Lemmas.MjpInference
import Verif.Lemmas.Moments
import Verif.Lemmas.Mutate
import Verif.Lemmas.MutateLaw
import Verif.Lemmas.Occupation
import Verif.Lemmas.Partition
import Verif.Lemmas.Path
import Verif.Lemmas.PathDensity
import Verif.Lemmas.PathWeights
import Verif.Lemmas.PointFill
import Verif.Lemmas.PoissonLaw
import Verif.Lemmas.Pool
import Verif.Lemmas.Ppp
import Verif.Lemmas.PppLaw
import Verif.Lemmas.Proper
import Verif.Lemmas.Propose
import Verif.Lemmas.Radial
import Verif.Lemmas.RawAssemble
import Verif.Lemmas.RawEdges
import Verif.Lemmas.RawFill
import Verif.Lemmas.RawFillLim
import Verif.Lemmas.RawLoop
import Verif.Lemmas.RawMin
import Verif.Lemmas.RawSkel
import Verif.Lemmas.RegArs
import Verif.Lemmas.RegEm
import Verif.Lemmas.RegHitting
import Verif.Lemmas.RegInterp
import Verif.Lemmas.RegJump
import Verif.Lemmas.RegLaw
import Verif.Lemmas.RegMore
import Verif.Lemmas.RegObjective
import Verif.Lemmas.RegOps
import Verif.Lemmas.RegParams
import Verif.Lemmas.RegPaths
import Verif.Lemmas.RegProg
import Verif.Lemmas.RegSde
import Verif.Lemmas.RegSeed
import Verif.Lemmas.RegSweep
import Verif.Lemmas.RegSwitch
import Verif.Lemmas.RegUpdate
import Verif.Lemmas.RegWeight
import Verif.Lemmas.Retro
import Verif.Lemmas.RetroCoin
import Verif.Lemmas.RetroLim
import Verif.Lemmas.RetroSeed
import Verif.Lemmas.RoundLim
import Verif.Lemmas.RoundPlain
import Verif.Lemmas.RoundTwo
import Verif.Lemmas.RwLaw
import Verif.Lemmas.SdeModels
import Verif.Lemmas.SecOp
import Verif.Lemmas.Seed
import Verif.Lemmas.Simplex
import Verif.Lemmas.SkelFill
import Verif.Lemmas.SkelFlip
import Verif.Lemmas.Stationary
import Verif.Lemmas.StripEdge
import Verif.Lemmas.StripImages
import Verif.Lemmas.StripLaw
import Verif.Lemmas.StripMass
import Verif.Lemmas.StripPairs
import Verif.Lemmas.StripSplit
import Verif.Lemmas.SweepInv
import Verif.Lemmas.SwitchAug
import Verif.Lemmas.SwitchHidden
import Verif.Lemmas.SwitchParams
import Verif.Lemmas.SwitchSplit
import Verif.Lemmas.SwitchUpdate
import Verif.Lemmas.Theta
import Verif.Lemmas.TwoState
import Verif.Lemmas.Uniformisation
import Verif.Lemmas.WaldLaw
import Verif.Model.Adapt
import Verif.Model.Ars
import Verif.Model.Bessel
import Verif.Model.Bfactories
import Verif.Model.FillVec
import Verif.Model.GenGibbs
import Verif.Model.HiddenWeight
import Verif.Model.Hitting
import Verif.Model.Interp
import Verif.Model.ItoHidden
import Verif.Model.ItoStatic
import Verif.Model.LayerPaths
import Verif.Model.Layers
import Verif.Model.Mcem
import Verif.Model.McemEst
import Verif.Model.McemObjective
import Verif.Model.McemSe
import Verif.Model.MjpFixtures
import Verif.Model.MjpInference
import Verif.Model.MjpSampling
import Verif.Model.MjpSkeleton
import Verif.Model.Moments
import Verif.Model.Pool
import Verif.Model.Priors
import Verif.Model.RawSkel
import Verif.Model.SampleSde
import Verif.Model.SdeModels
import Verif.Model.SdePaths
import Verif.Model.Seed
import Verif.Model.SeedBridge
import Verif.Model.SkelCall
import Verif.Model.Sweep
import Verif.Model.SwitchHidden
import Verif.Model.SwitchParams
import Verif.Props.Adapt
import Verif.Props.AlmostSure
import Verif.Props.AnchorSide
import Verif.Props.Ars
import Verif.Props.BesselPath
import Verif.Props.Bfactories
import Verif.Props.BridgeLaw
import Verif.Props.Coin
import Verif.Props.CoinLaw
import Verif.Props.CoinProd
import Verif.Props.EmLaws
import Verif.Props.EscBounded
import Verif.Props.Escape
import Verif.Props.EulerPaths
import Verif.Props.EulerTraj
import Verif.Props.FillVec
import Verif.Props.ForwardLaw
import Verif.Props.GenGibbs
import Verif.Props.GridBounded
import Verif.Props.GridLimit
import Verif.Props.HiddenLaw
import Verif.Props.HiddenRev
import Verif.Props.HiddenWeight
import Verif.Props.Hitting
import Verif.Props.Interp
import Verif.Props.InterpPos
import Verif.Props.ItoCoins
import Verif.Props.ItoHidden
import Verif.Props.ItoStatic
import Verif.Props.JumpLaws
import Verif.Props.JumpTimes
import Verif.Props.Layer
import Verif.Props.LayerLaw
import Verif.Props.LayerMin
import Verif.Props.LayerPaths
import Verif.Props.LayerProb
import Verif.Props.Mcem
import Verif.Props.McemEst
import Verif.Props.McemObjective
import Verif.Props.McemSe
import Verif.Props.McemSeeds
import Verif.Props.MinLaw
import Verif.Props.MjpFixtures
import Verif.Props.MjpInference
import Verif.Props.MjpPath
import Verif.Props.MjpSampling
import Verif.Props.Moments
import Verif.Props.MutateLaw
import Verif.Props.PoissonEst
import Verif.Props.PoissonProcess
import Verif.Props.Pool
import Verif.Props.Priors
import Verif.Props.RawFill
import Verif.Props.RawLaw
import Verif.Props.RawSkel
import Verif.Props.Retro
import Verif.Props.RetroCoin
import Verif.Props.RetroSeed
import Verif.Props.RwLaw
import Verif.Props.SampleSde
import Verif.Props.SampleSdeFree
import Verif.Props.SamplerLaws
import Verif.Props.SdeModels
import Verif.Props.SectionWeights
import Verif.Props.Seed
import Verif.Props.SeedBridge
import Verif.Props.SkelCall
import Verif.Props.StripLaw
import Verif.Props.SureCoins
import Verif.Props.SweepRun
import Verif.Props.SwitchHidden
import Verif.Props.SwitchLaws
import Verif.Props.SwitchParams
import Verif.Props.UpdateLaws
import Verif.Spec.Adapt
import Verif.Spec.AlmostSure
import Verif.Spec.Ars
import Verif.Spec.Bessel
import Verif.Spec.Bfactories
import Verif.Spec.Box
import Verif.Spec.BridgeMin
import Verif.Spec.ChainProb
import Verif.Spec.Coin
import Verif.Spec.CoinLaw
import Verif.Spec.EaSkel
import Verif.Spec.EndLaw
import Verif.Spec.Euler
import Verif.Spec.FillVec
import Verif.Spec.Gaps
import Verif.Spec.Gauss
import Verif.Spec.Generator
import Verif.Spec.Grid
import Verif.Spec.HiddenWeight
import Verif.Spec.ItoStatic
import Verif.Spec.Kernel
import Verif.Spec.McemObjective
import Verif.Spec.MjpLaw
import Verif.Spec.Path
import Verif.Spec.PathDensity
import Verif.Spec.PoissonEst
import Verif.Spec.Pool
import Verif.Spec.ProgLaw
import Verif.Spec.Rates
import Verif.Spec.RawFill
import Verif.Spec.RawLaw
import Verif.Spec.Refine
import Verif.Spec.Rejection
import Verif.Spec.Retro
import Verif.Spec.RetroCoin
import Verif.Spec.Seed
import Verif.Spec.Strip
import Verif.Spec.Sweep
import Verif.Spec.SwitchHidden
import Verif.Spec.SwitchParams
import Verif.Spec.Value
