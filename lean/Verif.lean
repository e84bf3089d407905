import Verif.Lemmas.AlphaGibbs
import Verif.Lemmas.Ancestors
import Verif.Lemmas.AuxGibbs
import Verif.Lemmas.Batch
import Verif.Lemmas.BatchDraws
import Verif.Lemmas.BatchResample
import Verif.Lemmas.BatchState
import Verif.Lemmas.BatchView
import Verif.Lemmas.ColExists
import Verif.Lemmas.ColKin
import Verif.Lemmas.ColLatent
import Verif.Lemmas.ColLaw
import Verif.Lemmas.ColReach
import Verif.Lemmas.ColStep
import Verif.Lemmas.Comp
import Verif.Lemmas.Composite
import Verif.Lemmas.CompositeDraws
import Verif.Lemmas.Constraints
import Verif.Lemmas.Constraints2
import Verif.Lemmas.Crp
import Verif.Lemmas.CrpGibbs
import Verif.Lemmas.CrpLaw
import Verif.Lemmas.CrpProps
import Verif.Lemmas.Dict
import Verif.Lemmas.Dim
import Verif.Lemmas.DrawView
import Verif.Lemmas.DrawsMany
import Verif.Lemmas.Engine
import Verif.Lemmas.Entropy
import Verif.Lemmas.Examples
import Verif.Lemmas.Factor
import Verif.Lemmas.FactorDensity
import Verif.Lemmas.FactorFull
import Verif.Lemmas.FactorQuery
import Verif.Lemmas.FactorRow
import Verif.Lemmas.Flip
import Verif.Lemmas.FlipAverage
import Verif.Lemmas.Forest
import Verif.Lemmas.Gauss
import Verif.Lemmas.GaussInt
import Verif.Lemmas.HyperChain
import Verif.Lemmas.HyperConfig
import Verif.Lemmas.HyperFiber
import Verif.Lemmas.HyperGibbs
import Verif.Lemmas.HyperGrid
import Verif.Lemmas.HyperKernels
import Verif.Lemmas.HyperOther
import Verif.Lemmas.HyperPrim
import Verif.Lemmas.HyperReach
import Verif.Lemmas.HyperSound
import Verif.Lemmas.Import
import Verif.Lemmas.Kde
import Verif.Lemmas.KdeLaw
import Verif.Lemmas.Knn
import Verif.Lemmas.KnnLaw
import Verif.Lemmas.KnnNear
import Verif.Lemmas.KnnQuery
import Verif.Lemmas.Latent
import Verif.Lemmas.LatentLocal
import Verif.Lemmas.LatentReach
import Verif.Lemmas.LibCat
import Verif.Lemmas.LinRegBound
import Verif.Lemmas.LinRegDensity
import Verif.Lemmas.LinRegEvidence
import Verif.Lemmas.LinRegLaw
import Verif.Lemmas.LinRegMath
import Verif.Lemmas.LinRegQuery
import Verif.Lemmas.LogSpace
import Verif.Lemmas.LoomImport
import Verif.Lemmas.Math
import Verif.Lemmas.Metadata
import Verif.Lemmas.MhDraws
import Verif.Lemmas.MhJump
import Verif.Lemmas.MhLossy
import Verif.Lemmas.MhRun
import Verif.Lemmas.MhSafe
import Verif.Lemmas.MhTargets
import Verif.Lemmas.MhUnit
import Verif.Lemmas.Mixing
import Verif.Lemmas.Mutual
import Verif.Lemmas.MutualDraws
import Verif.Lemmas.MvRows
import Verif.Lemmas.MvnDeriv
import Verif.Lemmas.MvnLaw
import Verif.Lemmas.Neighbours
import Verif.Lemmas.NetBehaves
import Verif.Lemmas.NetConverge
import Verif.Lemmas.NetDraws
import Verif.Lemmas.NetDrawsJoint
import Verif.Lemmas.NetDrawsLogpdf
import Verif.Lemmas.NetDrawsMany
import Verif.Lemmas.NetSample
import Verif.Lemmas.Network
import Verif.Lemmas.Ols
import Verif.Lemmas.ParallelMap
import Verif.Lemmas.ParallelMapStep
import Verif.Lemmas.PrimChain
import Verif.Lemmas.PrimNorm
import Verif.Lemmas.PrimSimulate
import Verif.Lemmas.PrimSimulateMore
import Verif.Lemmas.Primitives
import Verif.Lemmas.Rand
import Verif.Lemmas.RejectDraws
import Verif.Lemmas.Relevance
import Verif.Lemmas.RelevanceDebug
import Verif.Lemmas.RelevanceRun
import Verif.Lemmas.RelevanceSum
import Verif.Lemmas.RowChain
import Verif.Lemmas.RowDemo
import Verif.Lemmas.RowGibbs
import Verif.Lemmas.RowRelabel
import Verif.Lemmas.Saved
import Verif.Lemmas.SavedLinReg
import Verif.Lemmas.Schema
import Verif.Lemmas.SelfNormalised
import Verif.Lemmas.SliceBalance
import Verif.Lemmas.SliceChain
import Verif.Lemmas.SliceDens
import Verif.Lemmas.SliceDense
import Verif.Lemmas.SliceEnds
import Verif.Lemmas.SliceJoint
import Verif.Lemmas.SliceRun
import Verif.Lemmas.SliceStep
import Verif.Lemmas.State
import Verif.Lemmas.StateCheck
import Verif.Lemmas.StateCols
import Verif.Lemmas.StateConstraints
import Verif.Lemmas.StateDemo
import Verif.Lemmas.StateDim
import Verif.Lemmas.StateDraws
import Verif.Lemmas.StateFactor
import Verif.Lemmas.StateForce
import Verif.Lemmas.StateFrame
import Verif.Lemmas.StateGibbs
import Verif.Lemmas.StateIncDim
import Verif.Lemmas.StateInit
import Verif.Lemmas.StateLogpdf
import Verif.Lemmas.StateMove
import Verif.Lemmas.StatePlain
import Verif.Lemmas.StateQuery
import Verif.Lemmas.StateRelevance
import Verif.Lemmas.StateRows
import Verif.Lemmas.StateRun
import Verif.Lemmas.StateSame
import Verif.Lemmas.StateSimulate
import Verif.Lemmas.StateStuck
import Verif.Lemmas.StateTransition
import Verif.Lemmas.StateWeight
import Verif.Lemmas.Student
import Verif.Lemmas.SweepChain
import Verif.Lemmas.SweepDemo
import Verif.Lemmas.SweepReach
import Verif.Lemmas.Topo
import Verif.Lemmas.Transition
import Verif.Lemmas.TransitionReach
import Verif.Lemmas.TransitionViews
import Verif.Lemmas.Venture
import Verif.Lemmas.VentureCalls
import Verif.Lemmas.View
import Verif.Lemmas.ViewAns
import Verif.Lemmas.ViewBehaves
import Verif.Lemmas.ViewBehavesAll
import Verif.Lemmas.ViewComponent
import Verif.Lemmas.ViewDemo
import Verif.Lemmas.ViewDraws
import Verif.Lemmas.ViewDrawsNet
import Verif.Lemmas.ViewEnum
import Verif.Lemmas.ViewFast
import Verif.Lemmas.ViewFixed
import Verif.Lemmas.ViewGibbs
import Verif.Lemmas.ViewNorm
import Verif.Lemmas.ViewQuery
import Verif.Lemmas.ViewRun
import Verif.Lemmas.ViewScore
import Verif.Lemmas.ViewSpec
import Verif.Model.Ancestors
import Verif.Model.BatchDraws
import Verif.Model.Bulk
import Verif.Model.ColGibbs
import Verif.Model.Comp
import Verif.Model.Composite
import Verif.Model.CompositeDraws
import Verif.Model.Constraints
import Verif.Model.Crp
import Verif.Model.Dim
import Verif.Model.DummyCode
import Verif.Model.Engine
import Verif.Model.Entropy
import Verif.Model.Examples
import Verif.Model.Factor
import Verif.Model.Forest
import Verif.Model.HyperGrid
import Verif.Model.HyperSweep
import Verif.Model.Import
import Verif.Model.Inline
import Verif.Model.Kde
import Verif.Model.Knn
import Verif.Model.Le32
import Verif.Model.LibCat
import Verif.Model.LibCfg
import Verif.Model.LinReg
import Verif.Model.LogSpace
import Verif.Model.LoomRun
import Verif.Model.Loop
import Verif.Model.LovecatRun
import Verif.Model.Math
import Verif.Model.Metadata
import Verif.Model.MhDraws
import Verif.Model.Mutual
import Verif.Model.MutualDraws
import Verif.Model.Mvn
import Verif.Model.Neighbours
import Verif.Model.NetDraws
import Verif.Model.Network
import Verif.Model.Ols
import Verif.Model.ParallelMap
import Verif.Model.Partition
import Verif.Model.PrimSimulate
import Verif.Model.Primitives
import Verif.Model.Py
import Verif.Model.Rand
import Verif.Model.RegDraws
import Verif.Model.RejectDraws
import Verif.Model.Relevance
import Verif.Model.RelevanceDebug
import Verif.Model.RowGibbs
import Verif.Model.Samplers
import Verif.Model.Saved
import Verif.Model.Schema
import Verif.Model.Seating
import Verif.Model.SliceDraws
import Verif.Model.Standalone
import Verif.Model.State
import Verif.Model.StateCheck
import Verif.Model.StateDraws
import Verif.Model.StateLogpdf
import Verif.Model.StateQuery
import Verif.Model.StateSimulate
import Verif.Model.Synth
import Verif.Model.Topo
import Verif.Model.Transition
import Verif.Model.Venture
import Verif.Model.View
import Verif.Model.ViewDraws
import Verif.Model.ViewQuery
import Verif.Props.BatchDraws
import Verif.Props.BatchResample
import Verif.Props.Bulk
import Verif.Props.ColGibbs
import Verif.Props.Composite
import Verif.Props.CompositeDraws
import Verif.Props.CompositeOwn
import Verif.Props.CompositeQuery
import Verif.Props.Constraints
import Verif.Props.Crp
import Verif.Props.Dim
import Verif.Props.DummyCode
import Verif.Props.Engine
import Verif.Props.EngineWeights
import Verif.Props.Entropy
import Verif.Props.Examples
import Verif.Props.ExamplesDots
import Verif.Props.ExamplesNet
import Verif.Props.ExamplesPair
import Verif.Props.ExamplesPiece
import Verif.Props.ExamplesTable
import Verif.Props.Factor
import Verif.Props.FactorDraws
import Verif.Props.Forest
import Verif.Props.ForestDraws
import Verif.Props.HyperConverge
import Verif.Props.HyperGrid
import Verif.Props.HyperSweep
import Verif.Props.Inline
import Verif.Props.Kde
import Verif.Props.Knn
import Verif.Props.KnnCases
import Verif.Props.Le32
import Verif.Props.Library
import Verif.Props.LinReg
import Verif.Props.LogSpace
import Verif.Props.Loom
import Verif.Props.LoomRun
import Verif.Props.Loop
import Verif.Props.Lovecat
import Verif.Props.LovecatRun
import Verif.Props.Metadata
import Verif.Props.MhDraws
import Verif.Props.Mutual
import Verif.Props.MutualDraws
import Verif.Props.MutualQuery
import Verif.Props.MutualState
import Verif.Props.Mvn
import Verif.Props.Neighbours
import Verif.Props.NetConverge
import Verif.Props.NetDraws
import Verif.Props.NetExact
import Verif.Props.NetMoment
import Verif.Props.NetOneSample
import Verif.Props.Network
import Verif.Props.Ols
import Verif.Props.ParallelMap
import Verif.Props.Partition
import Verif.Props.PrimNorm
import Verif.Props.PrimNormCont
import Verif.Props.PrimSimulate
import Verif.Props.Primitives
import Verif.Props.RegDraws
import Verif.Props.RejectDraws
import Verif.Props.Relevance
import Verif.Props.RelevanceDebug
import Verif.Props.RowGibbs
import Verif.Props.Samplers
import Verif.Props.Saved
import Verif.Props.Schema
import Verif.Props.Seating
import Verif.Props.SliceDraws
import Verif.Props.Standalone
import Verif.Props.State
import Verif.Props.StateColumn
import Verif.Props.StateDraws
import Verif.Props.StateLogpdf
import Verif.Props.StateQuery
import Verif.Props.StateRefusal
import Verif.Props.StateRelevance
import Verif.Props.StateSimulate
import Verif.Props.StateStuck
import Verif.Props.StateWeight
import Verif.Props.Sweep
import Verif.Props.Synth
import Verif.Props.Topo
import Verif.Props.Transition
import Verif.Props.Venture
import Verif.Props.View
import Verif.Props.ViewQuery
import Verif.Spec.Ancestors
import Verif.Spec.BatchDraws
import Verif.Spec.Bulk
import Verif.Spec.ColGibbs
import Verif.Spec.Composite
import Verif.Spec.CompositeDraws
import Verif.Spec.Constraints
import Verif.Spec.Crp
import Verif.Spec.Dim
import Verif.Spec.DummyCode
import Verif.Spec.Engine
import Verif.Spec.Entropy
import Verif.Spec.Equiv
import Verif.Spec.Examples
import Verif.Spec.Factor
import Verif.Spec.Forest
import Verif.Spec.HyperGrid
import Verif.Spec.HyperSweep
import Verif.Spec.Import
import Verif.Spec.Kde
import Verif.Spec.Knn
import Verif.Spec.LinReg
import Verif.Spec.LogSpace
import Verif.Spec.LoomRun
import Verif.Spec.LovecatRun
import Verif.Spec.Metadata
import Verif.Spec.MhDraws
import Verif.Spec.Mutual
import Verif.Spec.MutualDraws
import Verif.Spec.MvRows
import Verif.Spec.Mvn
import Verif.Spec.Neighbours
import Verif.Spec.NetDraws
import Verif.Spec.Network
import Verif.Spec.Ols
import Verif.Spec.PrimSimulate
import Verif.Spec.Primitives
import Verif.Spec.Rand
import Verif.Spec.RegDraws
import Verif.Spec.RejectDraws
import Verif.Spec.Relevance
import Verif.Spec.RowGibbs
import Verif.Spec.Saved
import Verif.Spec.Schema
import Verif.Spec.Seating
import Verif.Spec.SliceDraws
import Verif.Spec.Standalone
import Verif.Spec.State
import Verif.Spec.StateDraws
import Verif.Spec.StateLogpdf
import Verif.Spec.StateQuery
import Verif.Spec.StateSimulate
import Verif.Spec.Sweep
import Verif.Spec.Synth
import Verif.Spec.Topo
import Verif.Spec.Transition
import Verif.Spec.Venture
import Verif.Spec.View
import Verif.Spec.ViewDraws
import Verif.Spec.ViewQuery
