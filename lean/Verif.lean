import Verif.Props.Net
import Verif.Props.Builder
import Verif.Props.Encoder
import Verif.Props.StateSet
import Verif.Props.Queue
import Verif.Props.Search
import Verif.Props.Eval
import Verif.Props.Rewrite
import Verif.Props.Verdict
import Verif.Props.CtlSplit
import Verif.Props.RandomWalk
import Verif.Props.LightDeque
import Verif.Props.Offsets
import Verif.Props.Range
import Verif.Props.Replay
import Verif.Net.StateEq
import Verif.PQL.Bounds
import Verif.Search.Evals
import Verif.Props.Bounds
import Verif.Props.ColoredMultiset
import Verif.Props.Binary
import Verif.Props.Shorthand
import Verif.CTL.Graph
import Verif.CTL.FixedPoint
import Verif.CTL.FixedPointInv
import Verif.CTL.FixedPointOps
import Verif.CTL.FixedPointOps2
import Verif.CTL.FixedPointOps3
import Verif.CTL.FixedPointOps4
import Verif.CTL.FixedPointOps5
import Verif.CTL.FixedPointOps6
import Verif.CTL.FixedPointMain
import Verif.CTL.FixedPointProg
import Verif.CTL.FixedPointRun
import Verif.CTL.Local
import Verif.CTL.LocalInv
import Verif.CTL.LocalRun
import Verif.Props.FixedPoint
import Verif.Props.LocalFixedPoint
import Verif.CTL.GraphRel
import Verif.CTL.Encode
import Verif.CTL.EncodeLemmas
import Verif.CTL.Sem
import Verif.CTL.EncodeSem
import Verif.CTL.EncodeNet
import Verif.CTL.EncodeRed
import Verif.Props.CtlEngine
import Verif.Stubborn.Model
import Verif.Stubborn.Theory
import Verif.Stubborn.Lemmas
import Verif.Stubborn.Visitor
import Verif.Stubborn.Record
import Verif.Stubborn.Main
import Verif.Props.Stubborn
import Verif.LTL.Graph
import Verif.LTL.Lasso
import Verif.LTL.Runs
import Verif.LTL.Tarjan
import Verif.LTL.TarjanLemmas
import Verif.LTL.TarjanInv
import Verif.LTL.TarjanMain
import Verif.LTL.Engine
import Verif.LTL.Formula
import Verif.LTL.FormulaLemmas
import Verif.LTL.Product
import Verif.LTL.ProductGraph
import Verif.LTL.ProductLemmas
import Verif.LTL.Ndfs
import Verif.LTL.NdfsInv
import Verif.LTL.NdfsMain
import Verif.LTL.NdfsTrace
import Verif.Props.LTL
import Verif.Props.LTLEngine
import Verif.Spec.Game
import Verif.Synthesis.Model
import Verif.Synthesis.Inv
import Verif.Synthesis.Back
import Verif.Synthesis.Proc
import Verif.Synthesis.Step
import Verif.Synthesis.Term
import Verif.Synthesis.Strategy
import Verif.Synthesis.Net
import Verif.Synthesis.Print
import Verif.Props.Synthesis
import Verif.Reduce.Model
import Verif.Reduce.Sem
import Verif.Reduce.Ops
import Verif.Reduce.RulesF
import Verif.Reduce.RulesD
import Verif.Reduce.RulesA
import Verif.Reduce.Model2
import Verif.Reduce.Box
import Verif.Reduce.RulesE
import Verif.Reduce.RulesL
import Verif.Reduce.ModelH
import Verif.Reduce.RulesH
import Verif.Reduce.ModelR
import Verif.Reduce.RulesR
import Verif.Reduce.RulesR2
import Verif.Reduce.RulesS
import Verif.Reduce.RulesM
import Verif.Reduce.RulesN
import Verif.Reduce.ModelP
import Verif.Reduce.Keep
import Verif.Reduce.Pipeline
import Verif.Reduce.Bridge
import Verif.Reduce.Compile
import Verif.Reduce.Quiet
import Verif.Reduce.Check
import Verif.Props.ReduceBugs
import Verif.Props.Reduce
import Verif.Simp.Member
import Verif.Simp.MemberLemmas
import Verif.Simp.LP
import Verif.Simp.CollLemmas
import Verif.Simp.SatC
import Verif.Simp.Model
import Verif.Simp.Sound
import Verif.Simp.Sound2
import Verif.Simp.SoundCC
import Verif.Simp.Main
import Verif.Props.Simplify
import Verif.Spec.Coloured
import Verif.CPN.Syntax
import Verif.CPN.Eval
import Verif.CPN.Unfold
import Verif.CPN.Values
import Verif.CPN.EvalLemmas
import Verif.CPN.BindingLemmas
import Verif.CPN.Names
import Verif.CPN.Grow
import Verif.CPN.Shares
import Verif.CPN.Sim
import Verif.CPN.Count
import Verif.CPN.Compile
import Verif.Props.Unfold
import Verif.ST.Model
import Verif.ST.Lemmas
import Verif.ST.LemmasNet
import Verif.Props.SiphonTrap
import Verif.XCol.MultiSet
import Verif.XCol.MSLemmas
import Verif.Props.SeqMultiSet
import Verif.XCol.Encoder
import Verif.XCol.EncLemmas
import Verif.Props.ColEncoder
import Verif.XCol.Arc
import Verif.XCol.ArcLemmas
import Verif.XCol.Net
import Verif.XCol.Gen
import Verif.XCol.CompLemmas
import Verif.XCol.ArcComp
import Verif.XCol.GuardComp
import Verif.XCol.MarkLemmas
import Verif.XCol.GenLemmas
import Verif.XCol.FindLemmas
import Verif.XCol.Search
import Verif.Spec.ColQuery
import Verif.XCol.NextLemmas
import Verif.Props.ExplicitColored
import Verif.Props.ExplicitColoredBugs
import Verif.TAR.Search
import Verif.TAR.CheckLemmas
import Verif.TAR.SearchLemmas
import Verif.TAR.ReachLemmas
import Verif.Props.TAR
import Verif.Props.TARBugs
import Verif.Props.AntiChain
import Verif.PQL.Xml
import Verif.PQL.XmlLemmas
import Verif.PQL.XmlCond
import Verif.PQL.Ctl
import Verif.PQL.CtlLemmas
import Verif.PQL.CtlVisit
import Verif.PQL.XmlSat
import Verif.PQL.XmlFile
import Verif.PQL.XmlCtl
import Verif.Props.Xml
import Verif.Props.Ctl
import Verif.CFP.Intervals
import Verif.CFP.IntervalLemmas
import Verif.CFP.IntervalOps
import Verif.CFP.IntervalCount
import Verif.CFP.Visitors
import Verif.CFP.TermLemmas
import Verif.CFP.GenLemmas
import Verif.CFP.Align
import Verif.CFP.OutLemmas
import Verif.CFP.Guard
import Verif.CFP.GuardLemmas
import Verif.CFP.GuardMain
import Verif.CFP.Classes
import Verif.Props.Intervals
import Verif.Props.ColorIntervals
import Verif.CFP.Fixpoint
import Verif.CFP.FixLemmas
import Verif.CFP.FixMain
import Verif.Props.ColorFixpoint
import Verif.CFP.Gen
import Verif.CFP.WalkLemmas
import Verif.CFP.GenMain
import Verif.Props.ColorGenerator
import Verif.CPN.Covering
import Verif.Props.UnfoldFixpoint
import Verif.XCol.Ignorant
import Verif.XCol.IgnorantLemmas
import Verif.XCol.IgnorantNet
import Verif.XCol.IgnorantCover
import Verif.Props.ColorIgnorant
import Verif.XCol.IgnorantCheck
import Verif.XCol.IgnorantCheckLemmas
import Verif.Props.ColorIgnorantCheck
import Verif.CRed.VarMs
import Verif.CRed.Model
import Verif.Spec.ColRed
import Verif.CRed.Base
import Verif.CRed.VarLemmas
import Verif.CRed.CoverLemmas
import Verif.CRed.PlaceLemmas
import Verif.CRed.Dots
import Verif.Props.ColorReduce
import Verif.CRed.ParTrans
import Verif.CRed.MultLemmas
import Verif.CRed.ParLemmas
import Verif.CRed.VDots
import Verif.Props.ColorParallel
import Verif.CRed.Relevance
import Verif.CRed.Weights
import Verif.CRed.RelLemmas
import Verif.Props.ColorRelevance
import Verif.CRed.ParPlaces
import Verif.CRed.ParPlaceLemmas
import Verif.Props.ColorParallelPlaces
import Verif.CRed.Preempt
import Verif.CRed.PreemptLemmas
import Verif.CRed.PreemptPour
import Verif.Props.ColorPreempt
import Verif.CFP.Symmetry
import Verif.CFP.SymLemmas
import Verif.CFP.SymMain
import Verif.CFP.SymNet
import Verif.Props.ColorSymmetry
import Verif.PQL.Checkers
import Verif.PQL.Stutter
import Verif.PQL.Loops
import Verif.Reduce.QueryFlags
import Verif.Props.QueryFlags
import Verif.LTL.SafeAut
import Verif.LTL.SafeAutLemmas
import Verif.LTL.SafeAutMain
import Verif.Props.LTLStubborn
import Verif.LTL.Visible
import Verif.LTL.VisibleLemmas
import Verif.LTL.VisibleMain
import Verif.Props.LTLVisible
import Verif.CFP.Partition
import Verif.CFP.PartitionLemmas
import Verif.Props.Partition
import Verif.LTL.Hyper
import Verif.LTL.HyperLemmas
import Verif.Props.Hyper
import Verif.Util.Buckets
import Verif.Util.BucketsLemmas
import Verif.Props.Buckets
import Verif.LTL.SucQueue
import Verif.Props.SucQueue
import Verif.LTL.SpotBack
import Verif.LTL.SpotBackLemmas
import Verif.Props.SpotBack
import Verif.LTL.SpotChain
import Verif.Props.SpotChain
import Verif.LTL.SpotLps
import Verif.Props.SpotLps
import Verif.LTL.Answer
import Verif.Props.LtlAnswer
import Verif.PQL.PushFuel
import Verif.LTL.PushEnds
import Verif.Props.PushEnds
