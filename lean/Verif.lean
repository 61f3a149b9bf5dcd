import Verif.Py
import Verif.ADTree.Model
import Verif.ADTree.Rep
import Verif.ADTree.Query
import Verif.ADTree.Contingency
import Verif.ADTree.Pickle
import Verif.ADTree.Spec
import Verif.ADTree.Session
import Verif.Props.ADTreeProps
import Verif.Graph.Model
import Verif.Graph.Spec
import Verif.Graph.Paths
import Verif.Graph.Represents
import Verif.Graph.DSep
import Verif.Graph.Cached
import Verif.Graph.CachedReload
import Verif.Graph.Moral
import Verif.Props.GraphProps
import Verif.MB.Model
import Verif.MB.Iamb
import Verif.MB.Ipcmb
import Verif.MB.IpcmbMain
import Verif.MB.Correct
import Verif.Props.MBProps
import Verif.Stats.Dict
import Verif.Stats.Key
import Verif.Stats.PMF
import Verif.Stats.PMFLemmas
import Verif.Stats.Info
import Verif.Stats.Spec
import Verif.Stats.InfoTheory
import Verif.Stats.Dataset
import Verif.Stats.GTest
import Verif.Stats.TestSpec
import Verif.Stats.UnoptTables
import Verif.Stats.Dof
import Verif.Stats.Unopt
import Verif.Stats.AdTest
import Verif.Stats.Dc
import Verif.Props.PMFProps
import Verif.Stats.CmiModel
import Verif.Props.CITestProps
import Verif.Stats.IGt
import Verif.BN.Model
import Verif.BN.Spec
import Verif.BN.Order
import Verif.BN.Finalize
import Verif.BN.Joint
import Verif.BN.Marginal
import Verif.BN.Partial
import Verif.BN.Sample
import Verif.Props.BNProps
import Verif.Data.Matrix
import Verif.Data.Spec
import Verif.Data.Align
import Verif.Data.History
import Verif.Data.Column
import Verif.MB.Pcmb
import Verif.Bif.File
import Verif.Data.Persist
import Verif.Data.Split
import Verif.Data.Trim
import Verif.Data.Rcv
import Verif.Data.Synth
import Verif.Exp.Fs
import Verif.Exp.Lock
import Verif.Exp.Run
import Verif.Exp.RunProps
import Verif.Exp.Build
import Verif.Exp.Eval
import Verif.Exp.Index
import Verif.Exp.Command
import Verif.Exp.CommandProps
import Verif.Struct.ContingencyTable
import Verif.Stats.CiResult
import Verif.BN.SourceCmi
import Verif.BN.Markov
import Verif.BN.Oracle
import Verif.BN.Samples
import Verif.BN.Consistency
import Verif.MB.Sim
import Verif.MB.WithTests
import Verif.MB.Superset
import Verif.BN.Discovery
import Verif.Stats.PMFEq
import Verif.Stats.Instances
import Verif.Data.ExactSample
import Verif.BN.ExactData
import Verif.Exp.Summary
import Verif.Exp.DsepSetup
import Verif.Exp.ClassifierRun
import Verif.Exp.RunLogs
import Verif.Fp.Binary64
import Verif.Fp.Data
import Verif.Fp.Sample
import Verif.Fp.Joint
import Verif.Fp.Rel
import Verif.Fp.GCell
import Verif.Fp.Cells
import Verif.Fp.GTest
import Verif.Fp.GSession
import Verif.Fp.GStat
import Verif.Fp.GExample
import Verif.Fp.AdTest
import Verif.Fp.Entropy
import Verif.Fp.DcTest
import Verif.Struct.CTree
import Verif.MB.Checked
import Verif.Fp.Discovery
import Verif.Exp.DcmiSetup
import Verif.Exp.DcmiSummary
import Verif.Exp.Parallel
import Verif.BN.Caches
import Verif.Stats.CmiBound
import Verif.BN.FiniteSample
import Verif.MB.Cost
import Verif.MB.CostMain
import Verif.Exp.Restructure
import Verif.Exp.RestructureSpec
import Verif.Exp.RestructureProps
import Verif.Exp.RestructureUse
import Verif.ADTree.Server
import Verif.ADTree.ServerProps
import Verif.Fp.Mi
import Verif.Fp.MiData
import Verif.Fp.IGt
import Verif.Fp.IGtExample
import Verif.Fp.Coupling
import Verif.Fp.SampleDiscovery
import Verif.ADTree.Size
import Verif.ADTree.Debug
import Verif.Stats.DebugTest
import Verif.Exp.GtestEnum
import Verif.MB.Shared
import Verif.Struct.ContingencyTable2
import Verif.BN.Lookup
import Verif.Stats.CiText
import Verif.ADTree.Latex
import Verif.Stats.VarObjects
import Verif.Data.Compare
import Verif.MB.Estimator
import Verif.Bif.Text
import Verif.Bif.TextRead
import Verif.Bif.Number
import Verif.Bif.Discover
import Verif.Exp.SummaryText
import Verif.Exp.GtestPrint
import Verif.Data.Describe
import Verif.Stats.CiPrinted
import Verif.Exp.Mpprint
import Verif.Exp.PathSet
