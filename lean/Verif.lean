import Verif.Theory.Bridge
import Verif.Theory.Transient
import Verif.Theory.Avoid
import Verif.Props.InvertibleDict
import Verif.Props.Treap
import Verif.Props.Graph
import Verif.Props.Mec
import Verif.Props.Memoryless
import Verif.Props.System
import Verif.Props.Milp
import Verif.Props.Generate
import Verif.Props.Reduce
import Verif.Props.Subsystem
import Verif.Props.UpperBounds
import Verif.Props.MILPExact
import Verif.Props.QSHeur
import Verif.Props.Solve
import Verif.Props.Reward
import Verif.Props.RewardProblem
import Verif.Props.RewOriginal
import Verif.Props.IO
import Verif.Props.Aliasing
import Verif.Props.TreeDecomp
import Verif.Props.Prism
import Verif.Props.Bench
import Verif.Props.Storm
import Verif.Model.TreeAlgo
import Verif.Theory.Chain
import Verif.Theory.Transfer
import Verif.Theory.Rational
import Verif.Proofs.TreeParts
import Verif.Proofs.TreePoints
import Verif.Proofs.TreeLocal
import Verif.Proofs.TreeSound
import Verif.Proofs.TreeComplete
import Verif.Proofs.TreeExact
import Verif.Props.TreeAlgo
import Verif.Model.RFInfo
import Verif.Props.RFInfo
import Verif.Props.SystemGraph
import Verif.Props.Check
import Verif.Model.RewCert
import Verif.Proofs.RewCert
import Verif.Props.RewCert
import Verif.Proofs.Reload
import Verif.Props.Reload
import Verif.Model.QSInit
import Verif.Props.QSInit
import Verif.Props.Accept
import Verif.Props.MilpHistory
import Verif.Model.Casting
import Verif.Props.Casting
import Verif.Model.Cli
import Verif.Proofs.Load
import Verif.Proofs.ReduceFile
import Verif.Props.Cli
import Verif.Props.CliRf
import Verif.Props.CliMin
import Verif.Model.Digraph
import Verif.Proofs.Digraph
import Verif.Props.Digraph
import Verif.Spec.Label
import Verif.Proofs.LabSpec
import Verif.Props.LoadChain
import Verif.Props.LoadLab
import Verif.Props.FromFile
import Verif.Props.LoadErr
import Verif.Props.Invalid
import Verif.Props.CertMin
import Verif.Spec.Within
import Verif.Theory.Within
import Verif.Proofs.Within
import Verif.Props.Original
import Verif.Spec.Near
import Verif.Proofs.Near
import Verif.Props.Robust
import Verif.Props.Zeros
import Verif.Props.Misfit
import Verif.Model.Style
import Verif.Props.Style
import Verif.Proofs.Rounded
import Verif.Props.Rounded
import Verif.Model.TreeMem
import Verif.Proofs.TreeMem
import Verif.Props.TreeMem
import Verif.Model.BenchArgs
import Verif.Model.BenchFiles
import Verif.Props.BenchArgs
import Verif.Props.BenchFiles
import Verif.Model.Float
import Verif.Spec.Float
import Verif.Proofs.Float
import Verif.Proofs.Double
import Verif.Props.Float
import Verif.Spec.Loss
import Verif.Proofs.Loss
import Verif.Props.Leak
import Verif.Model.Mem
import Verif.Model.TreapMem
import Verif.Model.GraphMem
import Verif.Proofs.Sep
import Verif.Proofs.TreapMem
import Verif.Proofs.GraphMem
import Verif.Proofs.ReachMem
import Verif.Proofs.TarjanMem
import Verif.Proofs.SccMem
import Verif.Proofs.MecMem
import Verif.Proofs.ProperMem
import Verif.Proofs.LostMem
import Verif.Props.Memory
import Verif.Model.Single
import Verif.Proofs.Single
import Verif.Props.Single
import Verif.Spec.Approx
import Verif.Theory.TolCut
import Verif.Proofs.Approx
import Verif.Props.Approx
import Verif.Model.Depth
import Verif.Proofs.Depth
import Verif.Proofs.RowsSys
import Verif.Props.Depth
import Verif.Model.StdMaps
import Verif.Proofs.StdMaps
import Verif.Props.StdMaps
import Verif.Proofs.LPTol
import Verif.Props.LPTol
import Verif.Theory.Trim
import Verif.Props.Agree
import Verif.Props.Builds
import Verif.Model.Repr
import Verif.Props.Show
import Verif.Proofs.Repro
import Verif.Props.Repro
import Verif.Props.Rename
import Verif.Proofs.Monotone
import Verif.Props.Monotone
import Verif.Model.Json
import Verif.Spec.Json
import Verif.Proofs.Json
import Verif.Props.Json
import Verif.Model.Files
import Verif.Props.Files
import Verif.Model.Argparse
import Verif.Proofs.Argparse
import Verif.Props.Argparse
import Verif.Proofs.RewTol
import Verif.Props.RewTol
import Verif.Spec.Paths
import Verif.Theory.Paths
import Verif.Theory.Payoff
import Verif.Props.Paths
import Verif.Props.Stopped
import Verif.Props.FromPrism
import Verif.Theory.Strategy
import Verif.Proofs.Strategy
import Verif.Props.Strategy
import Verif.Props.TreeRows
import Verif.Model.GraphUtils
import Verif.Props.TreeCheck
import Verif.Props.Construct
import Verif.Props.ConstructReward
import Verif.Theory.Perturb
import Verif.Props.Nearby
import Verif.Props.QSIter
import Verif.Props.Converge
import Verif.Model.Render
import Verif.Props.Render
