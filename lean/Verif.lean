import Verif.Cyclic
import Verif.RadixHeap
import Verif.Tracker
import Verif.Varying
import Verif.Arena
import Verif.CompressedEdge
import Verif.ObsMask
import Verif.Reweight
import Verif.Graph
import Verif.UserGraph
import Verif.MergeWeights
import Verif.Convert
import Verif.Timeline
import Verif.Spec.Queue
import Verif.Spec.Alarm
import Verif.Props.Queue
import Verif.Props.Tracker
import Verif.Props.Varying
import Verif.Props.Arena
import Verif.Props.CompressedEdge
import Verif.Props.ObsMask
import Verif.Props.Reweight
import Verif.Props.Graph
import Verif.Props.NegWeights
import Verif.Props.UserGraph
import Verif.Props.MergeWeights
import Verif.Props.Discretise
import Verif.Props.Convert
import Verif.Dem
import Verif.CheckMatrix
import Verif.Props.Dem
import Verif.Props.CheckMatrix
import Verif.Search
import Verif.TrackerWork
import Verif.Props.EdgeMarks
import Verif.Spec.Route
import Verif.SearchInv
import Verif.SearchLoop
import Verif.SearchPath
import Verif.Props.Search
import Verif.Noise
import Verif.Props.Noise
import Verif.Syndrome
import Verif.Props.Syndrome
import Verif.Api
import Verif.Props.Api
import Verif.Cli
import Verif.Props.Cli
import Verif.Networkx
import Verif.Props.Networkx
import Verif.Blossom.Forest
import Verif.Blossom.Model
import Verif.Spec.Matching
import Verif.Blossom.Metric
import Verif.Blossom.Certificate
import Verif.Blossom.Geo
import Verif.Blossom.Sched
import Verif.Blossom.Advance
import Verif.Blossom.Slopes
import Verif.Blossom.NodeOps
import Verif.Blossom.Retop
import Verif.Blossom.Make
import Verif.Blossom.Break
import Verif.Blossom.Seed
import Verif.Blossom.Graft
import Verif.Blossom.Alt
import Verif.Blossom.LookAt
import Verif.Blossom.Mrca
import Verif.Blossom.Prune
import Verif.Blossom.View
import Verif.Blossom.Tree
import Verif.Blossom.Match
import Verif.Blossom.Hit
import Verif.Blossom.Child
import Verif.Blossom.Self
import Verif.Blossom.Event
import Verif.Blossom.Shatter
import Verif.Spec.Reopen
import Verif.Blossom.Cycle
import Verif.Blossom.Thread
import Verif.Blossom.Dissolve
import Verif.Blossom.Round
import Verif.Blossom.Narrow
import Verif.Blossom.Short
import Verif.Blossom.NarrowRun
import Verif.Blossom.NarrowCalls
import Verif.Blossom.Pairing
import Verif.Blossom.Extract
import Verif.Blossom.Finish
import Verif.Blossom.Decode
import Verif.Blossom.Launch
import Verif.Blossom.Total
import Verif.Blossom.Link
import Verif.Props.Decode
import Verif.Blossom.User
import Verif.Props.EndToEnd
import Verif.Props.Trees
import Verif.Props.Dynamics
import Verif.Blossom.Wide
import Verif.Blossom.Twin
import Verif.Blossom.Collect
import Verif.Props.Edges
import Verif.Blossom.UserWide
import Verif.Props.UserEdges
import Verif.Blossom.Correlated
import Verif.Blossom.Rewrite
import Verif.Blossom.Conditional
import Verif.Props.Correlated
import Verif.Props.DemCorr
import Verif.SearchReuse
import Verif.Blossom.Rename
import Verif.Blossom.RenameFl
import Verif.Blossom.RenameM
import Verif.Blossom.RenameRun
import Verif.Props.Shots
import Verif.Object
import Verif.Props.Object
import Verif.Props.Likelihood
import Verif.CliRun
import Verif.Props.CliRun
import Verif.Props.Answers
import Verif.Props.Pairs
import Verif.Props.Paths
import Verif.Blossom.NarrowObject
import Verif.Blossom.NarrowUsed
import Verif.Blossom.Hang
import Verif.Props.Width32
import Verif.Props.Narrow
import Verif.Blossom.Inserted
import Verif.Blossom.Buildable
import Verif.Props.MatrixDecode
import Verif.Props.RoundTrip
import Verif.Props.Invalid
import Verif.Double
import Verif.DoubleLemmas
import Verif.ConvertD
import Verif.DoubleConvert
import Verif.Props.Double
import Verif.Python
import Verif.MatrixWeight
import Verif.Props.Python
import Verif.ObjectD
import Verif.Props.DoubleHistory
import Verif.Session
import Verif.Props.PairsD
import Verif.Props.Session
import Verif.Props.MatrixSession
import Verif.Props.DemSession
import Verif.Props.DemRules
import Verif.Props.RulesD
import Verif.Programs
import Verif.Props.Programs
import Verif.DemD
import Verif.Props.LikelihoodD
import Verif.Props.Arithmetic
import Verif.Props.Conditioned
import Verif.Props.ConditionedD
import Verif.CliRunD
import Verif.Props.CliD
import Verif.Props.LikelyD
import Verif.Simulate
import Verif.Props.Simulate
import Verif.Props.Single
import Verif.World
import Verif.Props.World
import Verif.Props.Laws
import Verif.Props.Agree
import Verif.Props.AgreeWide
import Verif.Props.Solvable
import Verif.Props.Trace
import Verif.Props.AgreeProgram
import Verif.Props.TraceMade
import Verif.Props.TraceWorld
import Verif.Props.Sum
import Verif.Props.PairSum
import Verif.Props.Below
import Verif.Props.Clear
import Verif.Props.Apart
import Verif.Props.Only
import Verif.Props.Heavy
import Verif.Props.Steady
import Verif.Props.Portion
