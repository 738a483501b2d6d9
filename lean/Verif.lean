import Verif.Model.Py
import Verif.Model.Discrete
import Verif.Proof.Py
import Verif.Proof.Discrete
import Verif.Spec.Discrete
import Verif.Proof.DiscreteTop
import Verif.Props.Discrete
import Verif.Props.DiscreteLp
import Verif.Model.Base
import Verif.Proof.Rint
import Verif.Props.Base
import Verif.Props.Bounds
import Verif.Model.Perf
import Verif.Props.Perf
import Verif.Model.Hrp
import Verif.Proof.Hrp
import Verif.Proof.Linkage
import Verif.Props.Hrp
import Verif.Model.Cla
import Verif.Proof.ClaInit
import Verif.Proof.ClaPurge
import Verif.Proof.ClaSmallInv
import Verif.Spec.Cla
import Verif.Proof.ClaGolden
import Verif.Props.Cla
import Verif.Props.ClaRuns
import Verif.Proof.ClaKkt
import Verif.Props.ClaKkt
import Verif.Props.ClaEvents
import Verif.Props.ClaFindings
import Verif.Model.BlackLitterman
import Verif.Spec.BlackLitterman
import Verif.Proof.LinAlg
import Verif.Proof.BlackLitterman
import Verif.Props.BlackLitterman
import Verif.Props.BlWeights
import Verif.Props.BlInputs
import Verif.Props.BlPerf
import Verif.Model.Frame
import Verif.Model.Returns
import Verif.Spec.Frame
import Verif.Proof.Frame
import Verif.Proof.Returns
import Verif.Props.Returns
import Verif.Props.ReturnModels
import Verif.Props.Capm
import Verif.Model.Risk
import Verif.Spec.Risk
import Verif.Proof.Psd
import Verif.Proof.Risk
import Verif.Proof.Shrink
import Verif.Props.RiskFix
import Verif.Props.Risk
import Verif.Props.RiskConv
import Verif.Props.Shrink
import Verif.Props.Dispatch
import Verif.Model.Objectives
import Verif.Props.Objectives
import Verif.Model.Convex
import Verif.Model.Frontier
import Verif.Model.History
import Verif.Spec.Convex
import Verif.Proof.Convex
import Verif.Proof.ConvexBuild
import Verif.Proof.ConvexInv
import Verif.Proof.ConvexTriple
import Verif.Proof.ConvexMethods
import Verif.Proof.ConvexCalls
import Verif.Proof.ConvexHistory
import Verif.Spec.Retarget
import Verif.Proof.ConvexRetarget
import Verif.Spec.Solver
import Verif.Proof.ConvexMarks
import Verif.Proof.ConvexWorlds
import Verif.Props.Convex
import Verif.Proof.ConvexReturn
import Verif.Proof.ConvexExact
import Verif.Props.ConvexFindings
import Verif.Spec.Portfolio
import Verif.Proof.Quad
import Verif.Props.Solution
import Verif.Props.SolutionCases
import Verif.Props.Sharpe
import Verif.Proof.SharpeReach
import Verif.Props.SharpeCases
import Verif.Proof.NoValueError
import Verif.Props.Targets
import Verif.Props.TargetCases
import Verif.Spec.Tail
import Verif.Proof.Tail
import Verif.Model.TailPerf
import Verif.Proof.Vals
import Verif.Props.Tail
import Verif.Props.TailMethods
import Verif.Props.TailCases
import Verif.Proof.Calm
import Verif.Props.Copies
import Verif.Model.Plot
import Verif.Proof.Upar
import Verif.Spec.Plot
import Verif.Props.Plot
import Verif.Props.PlotCases
import Verif.Model.Init
import Verif.Spec.Init
import Verif.Props.Init
import Verif.Props.InitTail
import Verif.Props.Listed
import Verif.Model.Latest
import Verif.Props.Latest
import Verif.Props.Rmse
import Verif.Spec.Shrink
import Verif.Props.ShrinkDelta
import Verif.Model.HrpObj
import Verif.Spec.HrpObj
import Verif.Props.HrpObj
import Verif.Model.ClaObj
import Verif.Spec.ClaObj
import Verif.Proof.ClaScale
import Verif.Proof.ClaSmallInvScale
import Verif.Props.ClaObj
import Verif.Props.ClaPlot
import Verif.Spec.ClaUnits
import Verif.Props.ClaUnits
import Verif.Spec.HrpDist
import Verif.Props.HrpDist
import Verif.Spec.Tradeoff
import Verif.Props.Tradeoffs
import Verif.Props.Agreement
import Verif.Props.Unique
import Verif.Props.TradeoffCases
import Verif.Spec.Report
import Verif.Proof.Report
import Verif.Props.Report
import Verif.Spec.Refused
import Verif.Proof.Refused
import Verif.Props.Refused
import Verif.Spec.Spoiled
import Verif.Proof.Spoiled
import Verif.Proof.Settled
import Verif.Proof.OneMethod
import Verif.Props.Spoiled
import Verif.Model.Nonconvex
import Verif.Spec.Nonconvex
import Verif.Proof.Limits
import Verif.Props.Nonconvex
import Verif.Props.SharpeFound
import Verif.Model.Warn
import Verif.Props.Warn
import Verif.Spec.Restate
import Verif.Proof.Restate
import Verif.Props.Restate
import Verif.Spec.Missing
import Verif.Props.Missing
import Verif.Spec.Views
import Verif.Props.Views
import Verif.Props.Tau
import Verif.Props.Compromise
import Verif.Props.Batches
import Verif.Spec.Answer
import Verif.Props.Answered
import Verif.Props.AnsweredCases
import Verif.Props.AnsweredAgain
import Verif.Model.Charts
import Verif.Spec.Charts
import Verif.Props.Charts
import Verif.Model.Args
import Verif.Spec.Args
import Verif.Props.Args
import Verif.Spec.ClaBest
import Verif.Proof.ClaLine
import Verif.Proof.ClaBest
import Verif.Props.ClaBest
import Verif.Proof.ClaEnds
import Verif.Props.ClaEnds
import Verif.Model.Mcd
import Verif.Spec.Mcd
import Verif.Props.Mcd
import Verif.Props.DiscreteLpShort
