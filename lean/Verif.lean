import Verif.Common.Scale
import Verif.Channel.Model
import Verif.Channel.Lemmas
import Verif.Channel.Progress
import Verif.Channel.Props
import Verif.Selector.Model
import Verif.Selector.Lemmas
import Verif.Selector.Props
import Verif.RuntimeService.Model
import Verif.RuntimeService.Lemmas
import Verif.RuntimeService.Exact
import Verif.RuntimeService.Props
import Verif.VarAccess.Model
import Verif.VarAccess.Lemmas
import Verif.VarAccess.Props
import Verif.AsyncModel.Model
import Verif.AsyncModel.Props
import Verif.PyPorts.Model
import Verif.PyPorts.Props
import Verif.VirtualPorts.Model
import Verif.VirtualPorts.Lemmas
import Verif.VirtualPorts.Props
import Verif.PortGraph.Model
import Verif.PortGraph.Lemmas
import Verif.PortGraph.Props
import Verif.PortGraph.Shapes
import Verif.Graphs.Model
import Verif.Graphs.Lemmas
import Verif.Graphs.Collapse
import Verif.Graphs.Props
import Verif.Compiler.Model
import Verif.Compiler.Lemmas
import Verif.Compiler.Props
import Verif.RunCfg.Model
import Verif.RunCfg.Props
import Verif.Mapper.Model
import Verif.Mapper.Props
import Verif.Encoder.Model
import Verif.Encoder.Lemmas
import Verif.Encoder.Props
import Verif.Weights.Model
import Verif.Weights.Props
import Verif.Dense.Model
import Verif.Dense.Props
import Verif.Dense.Int32
import Verif.LIF.Model
import Verif.LIF.Props
import Verif.SDN.Model
import Verif.SDN.Props
import Verif.Conv.Model
import Verif.Conv.Lemmas
import Verif.Conv.Props
import Verif.IO.Model
import Verif.IO.Props
import Verif.IO.Interactive
import Verif.Learning.Equation
import Verif.Learning.EqSpec
import Verif.Learning.EqLemmas
import Verif.Learning.EqCompile
import Verif.Learning.EqProps
import Verif.Learning.Plasticity
import Verif.Learning.PlastProps
import Verif.Learning.RuleObj
import Verif.Learning.RuleObjLemmas
import Verif.Learning.RuleObjProps
import Verif.ProcApi.Collection
import Verif.ProcApi.CollProps
import Verif.ProcApi.Misc
import Verif.ProcApi.MiscProps
import Verif.ProcApi.DecProps
import Verif.Neurons.Model
import Verif.Neurons.Props
import Verif.Networks.Model
import Verif.Networks.Props
import Verif.System.Model
import Verif.System.Props
import Verif.System.Program
import Verif.System.Counts
import Verif.System.Deadlock
import Verif.System.Lockstep
import Verif.System.Dataflow
import Verif.System.Recurrent
import Verif.Host.Model
import Verif.Host.Spec
import Verif.Host.Props
import Verif.Host.Progress
import Verif.Host.Findings
import Verif.CLP.Model
import Verif.CLP.Props
import Verif.Graphs.Expand
import Verif.Graphs.Resolved
import Verif.Graphs.Exact
import Verif.Encoder.Exact
import Verif.Weights.Exact
import Verif.VirtualPorts.Exact
import Verif.PyPorts.Exact
import Verif.VarAccess.Exact
import Verif.Conv.Exact
import Verif.Conv.Orders
import Verif.S4D.Model
import Verif.S4D.Props
import Verif.Learning.FloatModel
import Verif.Learning.FloatSpec
import Verif.Learning.FloatProps
import Verif.Learning.FloatRule
import Verif.Learning.FloatReward
import Verif.Pause.Model
import Verif.Pause.Spec
import Verif.Pause.Props
import Verif.Pause.Progress
import Verif.Pause.Findings
import Verif.Events.Model
import Verif.Events.Spec
import Verif.Events.Props
import Verif.Events.Progress
import Verif.Events.Findings
import Verif.Events.Errors
import Verif.Wiring.Model
import Verif.Wiring.Lemmas
import Verif.Wiring.Props
import Verif.Lifecycle.Model
import Verif.Lifecycle.Lemmas
import Verif.Lifecycle.Props
import Verif.System.Blocks
import Verif.Graded.InvSqrt
import Verif.Graded.Model
import Verif.Graded.Props
import Verif.Graded.Algebra
import Verif.Graded.Programs
import Verif.Graded.ProgramsThm
import Verif.Graded.Normalize
import Verif.EndToEnd.Model
import Verif.EndToEnd.Spec
import Verif.EndToEnd.Go
import Verif.EndToEnd.Data
import Verif.EndToEnd.Run
import Verif.EndToEnd.Access
import Verif.EndToEnd.Props
import Verif.EndToEnd.Local
import Verif.EndToEnd.Example
import Verif.EndToEnd.Laws
import Verif.Cache.Model
import Verif.Cache.Lemmas
import Verif.Cache.Props
import Verif.Cache.Example
import Verif.Watchdog.Model
import Verif.Watchdog.Spec
import Verif.Watchdog.Lemmas
import Verif.Watchdog.Sound
import Verif.Watchdog.Live
import Verif.Watchdog.Rate
import Verif.Watchdog.Props
import Verif.Watchdog.Stop
import Verif.Sparse.Model
import Verif.Sparse.Lemmas
import Verif.Sparse.Props
import Verif.Builder.Model
import Verif.Builder.Props
import Verif.Discovery.Model
import Verif.Discovery.Props
import Verif.Compiler.SyncChannels
import Verif.Compiler.SyncChannelsProps
import Verif.Learning.VarUpdate
import Verif.Learning.VarUpdateProps
import Verif.Learning.ThreeFactor
import Verif.Learning.OneShot
import Verif.Learning.Matrix
import Verif.Learning.MatrixProps
import Verif.Neurons.Float
import Verif.Neurons.FollowLif
import Verif.Neurons.FollowAtrlif
import Verif.Neurons.FollowRF
import Verif.Neurons.Drive
import Verif.SpikeNet.Model
import Verif.SpikeNet.Props
import Verif.System.Compose
import Verif.RefAccess.Examples
import Verif.Wired.Theorems
import Verif.Wired.Example
import Verif.Snn.Theorems
import Verif.Snn.Example
import Verif.Learning.FloatArray
import Verif.Plastic.Props
import Verif.Plastic.Theorems
import Verif.Plastic.Stdp
import Verif.Plastic.Example
import Verif.EndToEnd.Hang
import Verif.Wired.Hang
import Verif.Wired.HangExample
import Verif.Swap.Props
import Verif.Swap.Trains
import Verif.Swap.Conns
import Verif.Swap.Sparse
import Verif.Swap.Example
import Verif.Trains.Props
import Verif.Trains.Lif
import Verif.Trains.Delays
import Verif.Trains.Example
import Verif.Pipe.Props
import Verif.Sdnn.Props
import Verif.Sdnn.Settle
import Verif.Sdnn.Example
import Verif.Sdnn.Fixed
import Verif.Sdnn.FixedExample
import Verif.Trains.Writes
import Verif.Pipe.Writes
import Verif.Pipe.WritesExample
import Verif.Swap.Conv
import Verif.Swap.ConvExample
import Verif.Conv.CtorProps
import Verif.Dense.DelayCtor
import Verif.Trains.ReadBack
import Verif.Plastic.Parts
import Verif.Plastic.BitProps
import Verif.Plastic.ReadBack
import Verif.Plastic.BitExample
import Verif.IO.PolicyNet
import Verif.IO.PolicyProps
import Verif.IO.PolicyExample
import Verif.IO.PolicyHang
import Verif.Plastic.BitHears
import Verif.Plastic.HearsExample
import Verif.System.Domains
import Verif.System.DomainsProps
import Verif.System.DomainsExample
import Verif.AsyncModel.Learning
import Verif.RefAccess.ResetLif
import Verif.RefAccess.ReadVar
import Verif.RefAccess.LoadVar
import Verif.RefAccess.SpikeLoad
import Verif.RefAccess.SampleReset
import Verif.Learning.Randoms
