# Formal model of lava-nc/lava in Lean 4

## Trusted base

* **Lean 4.33.0's kernel.** No axioms of our own. Every theorem depends on a subset of `propext`, `Classical.choice` and
  `Quot.sound` (what `#print axioms` shows; many of the concrete witnesses depend on none). `decide +kernel` is used for
  concrete examples and witnesses: it is evaluated by the kernel itself. Neither `native_decide` nor `bv_decide` is used.
* **The definitions of the model**, i.e. that they say what the code in `/repo` says. Every definition cites the file and lines it
  models and names its simplifications. The code was read, not run.
* **The specifications**: the small definitions the theorem statements are written in (for instance `EqSpec.lean`,
  `scaled`, `Legal`, `Precedes`, `CircularWait`, `Solves`). They do not mention the model's helper functions.
* **The environment of the code**: Python evaluation order, operating system semaphores and shared memory, `pickle`, process
  creation, numpy and scipy primitives are modelled by their documented meaning, not verified.

## Modelling conventions

* Python ints and numpy integers are `Int`, unbounded, unless the property is about wrap-around, where the wrap is written out
  (LIF current, Conv, RFZero, two's complement, 7-bit traces, bit check).
* Floating point models are stated over exact numbers (`Rat` or an ordered ring) and labelled so; IEEE rounding is not modelled.
* numpy arrays are lists, functions of an index, or, where the code is purely elementwise, one scalar.
* Threads and processes are labelled atomic steps; a schedule is an arbitrary list of labels; a label that is not enabled changes
  nothing, so "for every schedule" is "for every list".
* Python exceptions are values (`Option`, `Except`); a call that raises keeps the mutations it made before.
* Random numbers, user code and answers of other components are arbitrary functions over which theorems quantify.

## Modules: what is modelled and what is not
| module (lean/Verif/) | code in /repo/src/lava | modelled | not modelled / simplified |
|---|---|---|---|
| `Channel` | magma/compiler/channels/pypychannel.py (send, recv, queue, callbacks) | all four threads, one atomic step per access to shared state, element-wise copies | join/shutdown, watchdogs |
| `Selector` | pypychannel.py CspSelector and `_req_callback` | select with conditions and callbacks of any number of channels | buffer contents (in Channel) |
| `RuntimeService` | magma/runtime/runtime_services/runtime_service.py, magma/core/model/py/model.py | phase loop, command loop, handlers of the process model; answers of process models are arbitrary | C/Nc services, watchdogs |
| `AsyncModel` | model.py PyLoihiModelToPyAsyncModel, runtime_service.py AsyncPyRuntimeService | loop structure, flags | bodies of user methods |
| `VarAccess` | runtime.py get/set, runtime_service.py relays, model.py `_get_var`/`_set_var`, alias vars | token streams between the three parties, arrays with strides, csr matrices | casts, on_var_update |
| `PyPorts` | magma/core/model/py/ports.py | fan-in, fan-out, peek, sparse ports, RefPort/VarPort protocol | broadcasting, transformers (in VirtualPorts) |
| `VirtualPorts` | magma/core/process/ports/ports.py, numpy reshape/transpose/concatenate | virtual ports and their collection, with real index arithmetic | dtype checks |
| `PortGraph` | ports.py connect/connect_from and searches | connection lists, checks, partial effects of failing calls | contents of connection_configs |
| `Graphs` | magma/compiler/compiler_graphs.py | find_processes, is_dag, collapsing, groups, flattening | expansion of sub-process models |
| `Compiler` | magma/compiler/compiler.py, channel_map.py, channel_map_updater.py, node.py | sync domains, sub-compiler assignment, channel map, service ids | code generation, cache |
| `RunCfg` | magma/core/run_configs.py | selection of process models | import machinery that finds candidate models |
| `Mapper` | magma/compiler/mapper.py | core addresses | C builders |
| `Encoder` | proc/io/encoder.py | delta encoder and the three spike encodings | hardware receiver (specification) |
| `Weights` | utils/weightutils.py | clip, truncate, optimize_weight_bits | log2 exact |
| `Dense` | proc/dense, proc/sparse | bit-accurate, float, delay connections | int32 overflow of sums |
| `LIF` | proc/lif/models.py | bit-accurate, ternary, reset, refractory | LearningLIF |
| `Learning.Float*` | magma/core/model/py/connection.py 384-525, 1175-1566, learning_rule_applier.py, learning/utils.py 51-79, proc/learning_rules/*stdp* | float learning connection, one synapse, any ordered field with NaN; literals and texts of STDPLoihi and RewardModulatedSTDP | float rounding, infinities, sparse connections |
| `Wiring` | channel_builders_factory.py, runtime.py `_build_channels`, py_builder.py `set_csp_ports`/`add_csp_port_mapping`/`build` (ports), ports.py `VirtualPortTransformer`, dense `send`/`recv` | channel ends by port name, id-keyed transformation functions, histories of sends and receives | channels to C and Loihi models; spike-IO ports; channel correctness itself is C01 |
| `Pause` | runtime.py `start`, `_run`, `_get_resp_for_run`, `wait`, `pause`, `stop`, `get_var`, `set_var`; runtime_service.py `LoihiPyRuntimeService.run` with probe | host thread, any number of services, any schedule; runs of given length, continuous runs, pause, attributes pausing/stopping | requests of process models, errors; RunContinuous is endless; time step and following probe are one atomic step |
| `Events` | runtime.py `_run`, `_get_resp_for_run`, `wait`, `pause`, `stop`, `get_var`, `set_var`; runtime_service.py `LoihiPyRuntimeService.run`, `_next_phase`, `_get_pm_resp`; model/py/model.py `run` | host thread, any number of services, any schedule; requests and exceptions of process models, process models that never answer | phases within a time step; commands of the host while an exception is handled in `pause` after the following `stop`; time step and following probe are one atomic step |
| `Learning/RuleObj` | magma/core/learning/learning_rule.py; model/py/connection.py 152-176, 1009-1018, 1505-1513 | construction, validation and setters of LoihiLearningRule, decimate exponent, active traces, on_var_update, the scalar u of the appliers | random seed; texts as lists of characters with ASCII digits |
| `Lifecycle` | magma/core/process/process.py 314-427; compiler_graphs.py 621-651; executable.py 48-50; runtime.py 135-153, 388-402 | run, create_runtime, compile (with find_processes and the expansion of sub processes), the compiled flag, assignment of runtimes, initialize, start, wait, pause, stop as they concern which runtime is reached, for any number of networks | what the runtime does with a call (Host, Pause, Events); the later stages of compilation enter as one flag; processes passed an Executable of their own; garbage collection |
| `Graded` | networks/gradedvecnetwork.py, networks/network.py, proc/graded, proc/prodneuron with dense/sparse connections | networks of input, graded, relu, product, connection, norm, inverse-sqrt and sink processes as block diagrams under every schedule; algebraic programs; quantisation of weights; inv_sqrt with table and Newton iterations | int32 overflow; ProductVec (takes tuples), AlgebraicMatrix.__mul__ (raises for the library matrices), float models |
| `System.Blocks` | any process models that receive and send once per step | synchronous block diagrams and their equations | ports used in other orders |
| `EndToEnd` | runtime.py, runtime_services/runtime_service.py, core/model/py/model.py | host program, Loihi runtime services, process models and all channels as one concurrent network; blocking runs, get, set, stop | VarPorts, pause/stop within a run, exceptions, select among services, data conversion of items |
| `Cache` | compiler/compiler.py, compiler/channel_map.py, pyproc_compiler.py, py_builder.py, var_model.py | compile cache: write, read, what the runtime takes from cached builders, histories, interruption | C and NC models, several services, pickle itself |
| `Watchdog` | compiler/channels/watchdog.py; pypychannel.py:134-152, 297-312 | context manager of a port method (clear, put, set), monitor loop, one thread per call with timed waits on a shared event, stop and join; clock in ticks | operations after shutdown of the manager process; text and time of the message; second monitor |
| `Sparse` | proc/sparse/models.py, process.py; sparse branches of utils/weightutils.py and of _apply_learning_rules (connection.py) | stored entries: dot, column selection, clip, truncate with elimination, sign mode, delay stack, rolling buffer, host access, learning restricted to stored entries | floats (exact integers instead); scipy itself; rules with synaptic factors (csr * array is a matrix product there); sign modes other than mixed in sparse learning |
| `Dense/Int32` | proc/dense/models.py:77-107, 202-241, 314-352 (and the same lines of proc/sparse/models.py) | products and dot wrap at 32 bits, sums over an axis at 64 bits, shifts in the width of their operand, the cast into the int32 channel, the int32 delay buffer | numpy's order of summation (irrelevant: addition modulo 2^k is associative and commutative) |
| `IO/Interactive` | proc/io/injector.py:72-128, proc/io/extractor.py:78-126, runtime.py:424-452 | an application (any list of send, receive, non-blocking run, wait) against a network with one Injector and one Extractor in lockstep; the pipes as bounded FIFO channels (C01-C03), the network as a state machine whose output depends on the input of the same step or only on earlier ones | several Injectors/Extractors, the non-blocking policies (C52), the capacity of the command channel |
| `Builder` | compiler/subcompilers/py/pyproc_compiler.py:119-158,214-233, compiler/builders/py_builder.py:74-95,160-172,400-402, compiler/builders/interfaces.py:79-102, channel_builders_factory.py:209-228, runtime.py:96-106,168-174 | the name checks, the choice of the connection configuration, broadcasting of initial values (index functions), collecting the answers of models built in parallel | int/float/str/csr Vars (the initial value is kept as it is), C and NC builders |
| `Discovery` | compiler_graphs.py:758-903 | the search over modules and files, with identity of executed copies and lookup by name | the import system (a file executes or raises; lookup by name is a function), notebooks |
| `Compiler/SyncChannels` | compiler.py:806-852, runtime.py:255-300, runtimeservice_builder.py:65-147, py_builder.py:227-241,381-389, runtime_service.py:95-122 | the management channels, the dictionaries and name tests that distribute their ends, the position used for a request | services of Loihi boards |
| `Learning/VarUpdate` | process/connection.py:92-106, py_builder.py:396-426, model/py/model.py:143-201, model/py/connection.py:133-176,606-672,841-852 | Vars that mirror a learning rule, their types, set of a Var followed by on_var_update, decomposition of impulses | range of machine integers |
| `Learning/ThreeFactor` | model/py/connection.py:384-438,448-466, learning_rule.py:745-750, r_stdp_learning_rule.py:75 | three-factor rules: received post-synaptic traces, learning phase | as Learning/Plasticity; the neuron that sends the traces |
| `Learning/OneShot` | tutorials/in_depth/clp/clp.py:104-117,148-150, proc/dense/models.py:131-143,172-191 | learning rule of the continual prototype learner on top of Learning/ThreeFactor and CLP/Model | dynamics of novelty detector and readout (C81, C82) are inputs here |
| `Learning/Matrix` | model/py/connection.py:384-526,618-672,694-1173, learning_rule_applier.py:175-328 | dense fixed-point learning connection as array code: index arrays, diagonals, transposes, broadcasting | sparse branches; dtypes other than the 32-bit products |
| `Neurons/Float` | proc/lif/models.py:20-70,219-237, proc/atrlif/models.py:20-87, proc/rf/models.py:15-88, proc/rf_iz/models.py:13-31 | floating-point neurons as exact dynamics over rationals or reals | IEEE rounding of the floating-point models |
| `SpikeNet` | proc/lif/models.py:20-70,194-216, proc/dense/models.py:37-47,77-107 | networks of LIF populations and Dense connections in both precisions | graded spikes, learning, delays |
| `System/Compose` | core/model/py/ports.py:333-351 | extension of a block diagram by listeners | RefPort/VarPort |
| `RefAccess` | core/model/py/model.py:210-238,288,381-454,495-512, core/model/py/ports.py:681-738,895-918, runtime_services/runtime_service.py:191-255,291-388, channels/pypychannel.py:334-352 | process models with RefPorts and VarPorts under one runtime service, select as a free choice | pause, stop, get/set, transformations of virtual ports |
| `Wired` | core/model/py/ports.py:333-351,486-497, core/model/py/model.py:268-448, compiler/channel_map.py:68-113 (with PortGraph, Compiler, Wiring, EndToEnd) | process models written in terms of port names, wired by the modelled runtime and executed concurrently | RefPorts, virtual ports in the port graph (their functions are in C114_results), ports used conditionally |
| `Snn` | proc/lif/models.py:27-69,81-278, proc/dense/models.py:23-107, proc/io/source.py:28-43, proc/io/sink.py:16-52, core/model/py/model.py:255-258,290-330,385-387 | processes with their ports and Vars in the network of Wired | learning and management phases, vectors are functions of the index (items beyond the shape are never read) |
| `Plastic` | proc/lif/models.py:27-69,194-237, proc/dense/models.py:23-55,116-142, core/model/py/connection.py:384-437, core/process/connection.py:76-95, proc/io/source.py:28-43, proc/io/sink.py:16-52, proc/learning_rules/stdp_learning_rule.py:35-62 | processes with any number of ports and a learning phase in the network of Wired; learning state as arrays (Learning/FloatArray) | graded spikes, sign modes other than mixed, other learning rules than STDPLoihi in the theorem about spikes (the simulation theorem has no such limit) |
| `EndToEnd/Hang, Wired/Hang` | as EndToEnd and Wired | the network of C96 and C114; invariant over the channels of the circle, their senders, the services of these and the host | as C114 |
| `Swap/Spec, Swap/Props, Swap/Trains, Swap/Conns, Swap/Sparse` | proc/dense/models.py, proc/sparse/models.py on top of the modules of Wired and Snn | process models related by a simulation; Dense, Sparse, DelayDense and DelaySparse as processes of a network | as C114 and C115; weights of the delay connections are those after preparation |
| `Trains/Spec, Trains/Props, Trains/Lif, Trains/Delays` | proc/lif/models.py, proc/dense/models.py, proc/io on top of the modules of Snn and Swap | the network as equations between the answers of its processes; LIF populations with arbitrary connections, DelayDense with a delay per synapse | as C115 |
| `Pipe/Spec, Pipe/Props, Sdnn/Model, Sdnn/Spec, Sdnn/Props, Sdnn/Settle` | proc/sdn/models.py, proc/dense/models.py (float), proc/io on top of the modules of Snn and Trains | chains of processes; feed-forward sigma-delta networks and the artificial neural network they stand for | exact arithmetic; exponents (fixed point) are in SDN |
| `Sdnn/FixedModel, Sdnn/Fixed, Sdnn/FixedExample` | proc/sdn/models.py (fixed), proc/sdn/process.py, proc/dense/models.py (bit accurate) | fixed-point sigma-delta networks | unbounded integers |
| `Trains/WritesSpec, Trains/Writes, Pipe/Writes, Pipe/WritesExample` | on top of the modules of Snn, Trains and Pipe | programs that write Vars between runs | as C115, C119, C120 |
| `Swap/Conv, Swap/ConvExample` | on top of the modules of Conv, Dense, Sparse and Swap | Conv processes in networks and the exchange for Dense/Sparse | images as functions of their index in C order; float model, torch backend and NCHW not modelled |
| `Conv/Ctor, Conv/CtorProps, Dense/DelayCtor` | proc/conv/process.py, proc/conv/utils.py (make_tuple, conv, conv_scipy with its loops and failures), proc/dense/process.py and proc/sparse/process.py (delay processes) | constructors, validators, loops of conv_scipy | sizes are natural numbers (groups and max_delay integers); scipy.signal.convolve2d by its documented meaning |
| `Plastic/PartsSpec, Plastic/Parts, Plastic/BitModel, Plastic/BitProps, Plastic/ReadBack, Plastic/BitExample, Trains/ReadBack` | proc/dense/models.py (145-192), magma/core/model/py/connection.py (384-437), on top of Learning.Matrix, Dense and the modules of Plastic | learning connections in fixed point as processes of a network; reference semantics of networks that learn as equations | on top of C116, C108; payloads below 0 count as no spike |
| `IO/PolicyNet, IO/PolicyProps, IO/PolicyHang, IO/PolicyExample` | proc/io/injector.py, extractor.py, utils.py (1-75, 212-286), compiler/channels/pypychannel.py, magma/core/model/py/model.py (time steps) | an application, an Injector, a network and an Extractor with all channel configurations as four concurrent parties; constructors and validators | the network is a function with a state; the run is non-blocking; the application is a list of send, receive and wait |
| `System/Domains, System/DomainsProps, System/DomainsExample, AsyncModel/Learning` | core/model/py/model.py (381-460, 687-777), runtime/runtime_services/runtime_service.py (193-262, 330-388, 485-492) | a program under a division into domains: services with command and response channels for some processes, none for others; the phases of a time step with any number of models; what a converted model calls | one phase per time step in the comparison of results; commands of the runtime to the services left out; guards are functions of the time step |
| `RefAccess/ResetLif` | proc/io/reset.py (17-66), proc/lif/models.py (138-216, 395-449), core/model/py/ports.py (reference ports, through C113) | a population of LIF neurons with input, a process that keeps spikes and two Reset processes, as processes with RefPorts and VarPorts under any schedule | threshold scaled from the start; one population, directly connected input |
| `RefAccess/ReadVar` | proc/io/sink.py (76-150), core/model/py/ports.py (reference ports, through C113) | any number of Read processes on the Vars of one process with its own post-management, under any schedule | the process that is read has no ports of its own besides VarPorts and does not learn |
| `RefAccess/LoadVar` | proc/io/dataloader.py (36-127), core/model/py/ports.py (reference ports, through C113) | a StateDataloader, the process it loads into and a process that receives outputs and ground truths, under any schedule | one process between loader and receiver, without post-management of its own |
| `RefAccess/SpikeLoad` | proc/io/dataloader.py (36-64, 143-201) | a SpikeDataloader, a process it feeds and a process that receives outputs and ground truths, under any schedule | one element of the spike output; no management phases of the process that is fed |
| `RefAccess/SampleReset` | proc/io/dataloader.py (36-64, 143-201), proc/io/reset.py (17-66) | SpikeDataloader, a process with state, two Resets on it and a receiver of outputs and ground truths, under any schedule; LIF neurons as an instance | one element of the spike output |
| `Learning/Randoms` | core/learning/random.py (18-139), core/model/py/connection.py (384-437, 680-692, 790-797) | the three random objects of a learning connection and when they advance | numpy generators are a parameter |
| `S4D` | proc/s4d | all float models and the layer in lockstep | fixed-point rounding of the exponents |
| `SDN` | proc/sdn | Delta, Sigma, SigmaDelta in fixed and exact arithmetic | 32-bit overflow |
| `Conv` | proc/conv | conv, sparse matrix form, shapes, clamp, temporal buffer | int8 Vars |
| `IO` | proc/io/{source,sink,reset,dataloader,injector,extractor}.py, utils, proc/spiker, proc/bit_check | schedules, ring buffers, channel policies, overflow check | bridges to Nc |
| `Learning` | magma/core/learning, model/py/connection.py | string to product series, evaluation, traces, epochs, weight update (bit-accurate) | random generator (arbitrary draws) |
| `ProcApi` | magma/core/process, core/decorator.py, utils/slurm.py, proc/monitor | collections, ids, parameters, save/load names, monitor, decorators, slurm switches | pickling itself |
| `Neurons` | proc/{rf,rf_iz,atrlif,graded,prodneuron,resfire} | one neuron, exact or with 32-bit wrap | int32 overflow except RFZero |
| `Networks` | networks/network.py | algebraic syntax, including mutation of sums | gradedvecnetwork classes |
| `System` | the running system: model.py, ports.py, pypychannel.py as point-to-point bounded FIFO channels | processes as deterministic automata with blocking send/recv; time-stepped process models; runtime service | select over several channels, probe, VarPorts |
| `Host` | magma/runtime/runtime.py: _run, _get_resp_for_run, wait, get_var, set_var, stop | host thread and S runtime services with command and response queues, arbitrary interleaving | pause, errors and requests of process models |
| `Graphs/Expand, Graphs/Resolved` | compiler_graphs.py: _map_proc_to_model, ProcDiGraph; sub/model.py find_sub_procs | expansion of hierarchical processes, parents, edges between processes | attributes of the constructed models (given), folded views |
| `CLP` | proc/clp | NoveltyDetector, Readout, Allocator, IdBroadcast, PrototypeLIF | the user process, learning of the weights (Learning) |

## Properties: what is modelled, how it is proved, what is missing

Status `partial` means that the full English claim is not proved; in nearly all cases because it is *false of the code*, which is then proved by a theorem that exhibits the failure (named in the last column or listed under Findings). The proved part carries the suffix `_partial`.

| id | property | modules | proof method | status | remarks |
|---|---|---|---|---|---|
| C01 | Channel delivers exactly what was sent, in order | Channel | inductive invariant with ghost history over all schedules | proved | all schedules, element-wise copies; join/shutdown not modelled |
| C02 | Channel is bounded and its callback threads never fail | Channel | same invariant | proved | all schedules |
| C03 | Channel never deadlocks | Channel | invariant + termination measure | proved | deadlock freedom and termination of background work; channels used without a selector |
| C04 | probe and peek are sound | Channel | invariant | proved | a unit held for a moment by the callback thread's own probe may delay (not block) the send after a positive probe |
| C05 | select wakes up when a channel has data | Selector | invariant; liveness by measure for the repaired code; traces as witnesses | partial | safety and priority proved for the real code; the liveness half is false of the code (C05_lost_wakeup, C05_callback_dies), proved when the two races of the callback thread are closed |
| C06 | run(n) executes exactly n time steps | RuntimeService | induction on the number of steps | proved | all environments for termination and the upper bound; exact trace for runs in which no model raises or asks for pause/stop |
| C07 | Phase order within a time step | RuntimeService | regular form of the trace by induction | proved | all environments |
| C08 | Variables are accessed only between runs | RuntimeService, VarAccess | induction on command lists | proved | all command lists and environments; payload relay in Verif.VarAccess |
| C09 | pause and resume | RuntimeService | induction; witnesses for every continuation | partial | false of the code in general: after a pause during a run no later run reports completion (C09_no_completion_after_pause) and a pause seen in the host phase makes the next run execute no step (C09_stale_pause_skips_run); proved: pause between runs is transparent, and the steps of the next run are executed |
| C10 | Var.set followed by Var.get round-trips | VarAccess | equality of strided index functions | partial | holds exactly for arrays in C order (C10_roundtrip_iff), np.int32 scalars and strings; fails for other memory layouts (C10_scrambled) and Python ints (C10_int_get_hangs); idx sets write the prefix |
| C11 | Variable access leaves the command channel in sync | VarAccess | token counting | partial | holds exactly when the payload is not longer than the variable; exact left-over proved (C11_leftover), and -1 payload becomes STOP |
| C12 | Sparse Var.set/get round-trip | VarAccess | induction on histories | partial | C12_history_exact states for every history exactly when all sets succeed and what is read back; the intended property is false with stored zeros (C12_zero_poisons, C12_init_zero_get_fails) |
| C13 | Alias variables are transparent | VarAccess | induction on alias chains | proved | shareable check not modelled |
| C14 | Asynchronous process model runs the requested number of steps | AsyncModel | induction on steps | partial | true of the first run; later runs treat num_steps as a total (C14_later_run_is_total), so equal lengths do nothing and shorter ones never end |
| C15 | Fan-in adds up all inputs | PyPorts | list sums, permutations | proved | broadcasting between different shapes not modelled |
| C16 | peek on an in-port does not consume | PyPorts | witness; value theorem | partial | false of the code: PyInPortVectorDense.peek calls recv on the channels (C16_peek_consumes); only the returned value is right |
| C17 | Sparse port payload round-trip | PyPorts | list lemmas | partial | C17_roundtrip_exact states for non-empty ports exactly when a message arrives unchanged; false of the code for payloads larger than a port (C17_truncated, C17_earlier_port_truncates) |
| C18 | RefPort/VarPort remote memory access | PyPorts | refinement to an atomic register over all programs and schedules | proved | all programs, all schedules of the service; one RefPort per VarPort |
| C19 | Virtual ports are inverted for reads and composed in order for sends | VirtualPorts | composition of bijections of indices | partial | proved for every chain of accepted reshape/flatten/transpose calls with distinct axes of one sign, with hierarchical ports in between; false for mixed-sign axes (C20_mixed_sign_not_inverted), fan-in at a hierarchical port (C19_fan_in_mixes) and two connections between the same leaf ports (C19_double_connection_overwrites) |
| C20 | transpose accepts exactly the permutations of the axes | VirtualPorts | permutation arithmetic | partial | exact acceptance condition proved; false of the code: repeated axes are accepted (C20_duplicate_accepted), argsort of mixed-sign axes is not the inverse (C20_mixed_sign_not_inverted) |
| C21 | Concatenation checks shapes | VirtualPorts | fold invariants | partial | C21_accepted_exact states for any number of ports and a non-negative axis exactly what is accepted and the resulting shape; false of the code for three or more incompatible ports (C21_only_last_pair_checked) and negative axes (C21_negative_axis_wrong) |
| C22 | Connections are symmetric and duplicate free | PortGraph | invariant over all call sequences | partial | proved for every program without repeated ports in one call and without too few configurations, including failing calls; both excluded cases break the property (C22_short_configs_half_connect, C22_duplicate_argument_left_behind) |
| C23 | get_src_ports / get_dst_ports reach exactly the leaf ports | PortGraph | graph reachability by induction on fuel | proved | exact result whenever the search returns, for every graph; returns on acyclic graphs below the recursion limit; consistency on every graph built by good calls |
| C24 | RefPort/VarPort are connected one to one | PortGraph | invariant; witnesses | partial | false of the code (three witnesses); what holds: without connect_from a RefPort has at most one direct VarPort; an accepted VarPort.connect_from finds the VarPort fresh |
| C25 | find_processes finds the whole connected network | Graphs | worklist invariant | proved | neighbours of a process are given by the port graph (C23); RecursionError for chains longer than the interpreter limit |
| C26 | is_dag decides acyclicity | Graphs | pruning invariant and longest paths | partial | false of the code for graphs with self loops (C26_witness_self_loop); C26_is_dag_exact states for every graph exactly when the answer is yes: no cycle, or the only cycle is one self loop in which all paths end |
| C27 | Collapsing cycles loses no process | Graphs | worklist invariants, strong components | partial | C27_collapse_loses_exactly states for every graph exactly what is lost; the intended property is proved for all networks in one piece; a component without outside neighbour is lost otherwise (C27_witness_component_lost) |
| C28 | Process groups are emitted in dependency order | Graphs | order invariant | partial | proved for all networks in one piece (same restriction as C27); flattening proved for all nestings |
| C29 | Every process is assigned to exactly one sync domain with its own protocol | Compiler | partition invariants | partial | exactly one domain and unique names proved for every input, acceptance characterised exactly; protocol agreement fails when a custom domain has a default name or two protocol classes share a name (witnesses) |
| C30 | Every process is assigned to exactly one compiler and node | Compiler | dictionary lemmas | proved | the sub-compilers and node types are the ones named in compiler.py |
| C31 | Channel map has exactly one entry per connected pair of leaf ports | Compiler | dictionary lemmas | proved | get_dst_ports is C23; payload contents and the cache are not modelled; add_port_pairs is a no-op (C31_witness_add_port_pairs) |
| C32 | Run configuration selects a compatible model | RunCfg | case analysis of the selection logic | proved | compatibility of an Nc model with the hardware is one flag of the model; C32_witness_tagged_sub_model_fails shows the IndexError for tagged SubProcessModels not listed first |
| C33 | Core mapping is collision free | Mapper | injectivity invariant | partial | needs one chip type and unshared address objects; false otherwise (witnesses); C builders not modelled (their sub compiler is not part of this repository) |
| C34 | Delta encoder loses nothing | Encoder | conservation invariant | proved | exact integers; one element, the code is elementwise; C34_witness_one_bit_unlimited: num_bits=1 disables clipping |
| C35 | Packed 4-byte spike encoding round-trips | Encoder | byte arithmetic | proved | the receiver side is written in the specification (hardware) |
| C36 | Delta-sparse 8-bit encoding round-trips | Encoder | decoder correctness by induction | partial | C36_roundtrip_exact states for every vector exactly when the round trip works; it fails if the first nonzero element is at position 255, or for gaps above 65025 when the first nonzero index is below 255 (witnesses) |
| C37 | Weights are always inside the representable range | Weights | integer arithmetic | proved | np.clip/shift on unbounded integers, one weight |
| C38 | Weight bit optimisation is lossless when it claims to be | Weights | integer arithmetic | partial | C38_returns_exact, C38_lossless_exact, C38_loihi2_refuses_exact and C38_loihi2_lossless describe the result for all matrices; the intended property is false for mixed matrices with the weight 255 (C38_witness_255_lost), and Loihi 2 refuses nine-bit matrices; np.log2 exact; dense matrices |
| C39 | Dense connection computes the matrix product one step later | Dense | induction over time | proved | exact integer accumulation; Sparse shares the model; C39_witness_set_weights_unclipped |
| C40 | Delay connections deliver each spike after its synapse's delay | Dense | invariant of the rolled buffer | proved | exact integer accumulation; max_delay below a delay drops the synapse (witness) |
| C41 | Fixed-point LIF state stays in 24-bit range | LIF | invariant | proved | inputs up to 18 bits in magnitude; witnesses: u = 2^23 is reachable, larger inputs leave the range |
| C42 | LIF spikes exactly when the threshold is exceeded, and resets | LIF | arithmetic | proved | C42_witness: the threshold is frozen at the first step |
| C43 | Refractory neurons are silent | LIF | invariant | proved | threshold >= 0; exact rationals for floats; witness for negative thresholds |
| C44 | Sigma-delta conserves the signal | SDN | telescoping conservation law | proved | exact arithmetic, any ordered ring; cumulative-error mode has the bound 2*vth, and exceeds vth (witness) |
| C45 | Fixed-point delta coding does not drift | SDN | conservation with rounding; witness for every n | partial | Delta (fixed) and the corrected SigmaDelta: bound proved for every input; the uncorrected SigmaDelta drifts without bound (witness for every n), proved: linear bound, and no drift for multiples of 2^state_exp |
| C46 | Convolution equals its sparse-matrix form | Conv | bijection of indices, rearrangement of sums | partial | proved for the Lava order NWHC and every parameter; HWCN numbers the outputs right exactly if there is one column or rows = channels (C46_hwcn_numbering_exact); NCHW is accepted exactly if the kernel is as high as a group has channels and then correlates with a permuted kernel (C46_nchw_accepted_iff, C46_nchw_computes, witnesses); the undocumented CHWN computes a convolution with the unconverted kernel (C46_chwn_computes, C46_chwn_accepted_iff) |
| C47 | Convolution output shape | Conv | arithmetic | proved | exact quotient |
| C48 | Two's complement clamp | Conv | modular arithmetic | proved |  |
| C49 | Temporal convolution | Conv | invariant of the rolled buffer | proved | exact integers; the roll of the flattened buffer is modelled |
| C50 | Ring buffers replay and record the right items | IO | induction over time, modular arithmetic | proved |  |
| C51 | Data loader schedule | IO | modular arithmetic | proved |  |
| C52 | Injector/extractor channel policies | IO | invariant over all schedules | partial | drops happen only when no slot is free, but a slot counts as taken until the acknowledgement was processed (witnesses); the channel is the FIFO proved in C01 |
| C53 | Spiker periodicity | IO | induction | proved | period >= 1; period 0 fires once (witness) |
| C54 | Bit overflow check | IO | arithmetic | proved | values in the int32 range, 1..32 bits; wider values are cut first (witness) |
| C55 | Learning equation compiles to an equivalent sum of products | Learning | correctness of tokenizer and compiler by structural induction on the grammar | partial | proved for every equation of the grammar in EqSpec (any spacing); false for a bracket that holds one negated variable and inside sgn (witnesses); exact rationals for the float applier |
| C56 | Traces stay in 7-bit range | Learning | invariants, decay bounds | partial | every spike sequence and random draw, payloads up to 254 in the overwrite/unsaturated modes; payload 255 gives 128 (witnesses) |
| C57 | Learning keeps weights legal and is silent without spikes | Learning | range invariants of the shift arithmetic | proved | dense connection, one synapse; findings: int32 overflow with four weight factors, tag lower bound |
| C58 | Learning epochs | Learning | induction over epochs | proved |  |
| C59 | Iterating a collection visits each member once | ProcApi | iterator state machine | partial | proved for every history of complete, non-nested loops; refuted (theorems) after a break (C59_after_break) and for nested loops (C59_nested_never_ends) |
| C60 | Identifiers are unique | ProcApi | invariant | proved |  |
| C61 | Process parameters are never silently overwritten | ProcApi | state machine | proved |  |
| C62 | Save and load agree on the file name | ProcApi | string lemmas | partial | proved for names with a dot; for a name without a dot load does not find the file (C62_no_dot_not_found) |
| C63 | Monitor records each probed variable | ProcApi | induction over time | partial | one probe, any Var or OutPort and number of steps; a second probe is rejected by the compiler (C63_at_most_one_probe) |
| C64 | Other bit-accurate neurons stay in range | Neurons | invariants | partial | RF and RF_IZ: proved for all inputs; ATRLIF: current and voltage proved, threshold and refractory state bounded but not by 24 bits (refuted by C64_atrlif_refractory_leaves_24_bits) |
| C65 | Set-up decorators cannot silently change a model's contract | ProcApi | induction over inheritance chains | proved | every single-inheritance chain; with multiple inheritance tags are dropped (C65_multiple_inheritance_drops) |
| C66 | Slurm environment switches are exclusive | ProcApi | state machine | proved | findings: trailing newline, missing sinfo program |
| C67 | Asynchronous service reports each run once | AsyncModel | case analysis, induction | partial | DONE iff all models done is proved for all states; the second half is false of the code: pause/stop/error flags are never cleared (C67_sticky_pause) |
| C68 | Variable access reaches the runtime service of the process | Compiler | dictionary lemmas, substring lemmas | partial | right service proved for every input, index agreement for domains on one node; fails for spread domains and for domain names starting with to_service (witnesses) |
| C69 | Sparse spike encoding restores the vector | Encoder | list lemmas | proved |  |
| C70 | A resetting LIF neuron forgets its history at reset steps | LIF | induction | proved |  |
| C71 | Convolution process delays by one step and wraps to 24 bits | Conv | modular arithmetic | proved |  |
| C72 | Resonate-and-fire neurons spike once per crossing | Neurons | arithmetic | proved |  |
| C73 | Graded neurons keep no hidden history | Neurons | definitional unfolding over time | proved | exact integers |
| C74 | RFZero computes the exact dynamics | Neurons | bounds | proved | the bound is sharp (C74_overflow) |
| C75 | Algebraic network syntax connects every summand once | Networks | induction on expressions | proved | finding: a sum kept in a variable is mutated |
| C76 | Results do not depend on scheduling | System | diamond property and commutation (Kahn networks) | proved | processes with blocking send and recv on single-sender single-receiver channels; select over several channels and probe are outside |
| C77 | Networks deadlock exactly when they wait in a circle | System | counting invariant, blocked process yields circular wait; converse by invariant | proved | process models with a fixed order of channel operations per step |
| C78 | The runtime service keeps process models in lockstep | System | counting invariant | proved | one phase per time step |
| C79 | A network computes its synchronous equations | System | invariant: histories solve the equations; uniqueness from confluence | proved | includes an instance with the LIF and Dense models |
| C80 | Calls of the runtime behave sequentially | Host | invariant relating position of the host to the activity of each service; termination measure | proved | runtime services as sequential command interpreters (C06-C08); pause and requests of process models outside |
| C81 | Novelty detection | CLP | invariant: pending input | proved | t_wait >= 0; a negative t_wait signals in every step without output (C81_negative_wait_always_signals) |
| C82 | Prototype labels and allocation | CLP | refinement to a specification over histories; counting of triggers | proved | user labels >= 0 (a negative one is replaced later: C82_witness_negative_label), at most n_protos triggers (otherwise IndexError: C82_witness_too_many_allocations); initial labels zero |
| C83 | Hierarchical processes are expanded completely | Graphs | induction on recursion limit with loop invariants | partial | proved relative to the sub processes that find_sub_procs finds; two processes of one class in a dataclass attribute lose one (C83_witness_dataclass_loses_process), and a model that stores the process it implements never ends (C83_witness_model_keeps_its_process) |
| C84 | The process graph has an edge exactly where data flow | Graphs | path characterisation of the search, C22 and C23 | partial | exact for port graphs without virtual ports; with virtual ports C84_edges describes the search, and C84_witness_unused_reshape, C84_witness_unused_input_port show edges that should not be there |
| C85 | S4D processes are linear filters | S4D | closed form of the recursion, delta invariant of C44, block structure of the connection matrix | proved | float models in exact arithmetic over any ordered commutative ring (any commutative ring for S4d); layer in lockstep; the documented output equation is off by one step and a factor 2 (C85_witness_input_contributes_at_once) |
| C86 | Floating-point learning is trace based and STDPLoihi is pair-based STDP | Learning | closed form of traces per epoch, last spike of an epoch, tokenizer theorem of C55 for the texts | partial | trace law, weight law and compilation of the rule text proved for all spike trains in exact arithmetic (any ordered field, one synapse, dense connection); pair-based STDP proved for at most one spike per epoch and false otherwise (C86_witness_two_spikes_per_epoch); the parameters are replaced by literals that are exact only for integers and powers of two below one (C86_literal_exact_iff), within a factor sqrt 2 (C86_literal_close); a trace with time constant 0 makes the weight NaN (C86_zero_tau_weight_nan) |
| C87 | Reward-modulated STDP | Learning | induction over epochs with the read lemmas of C86 | partial | eligibility trace, weight and compilation of both texts proved for all spike trains and rewards (exact arithmetic, one synapse); the time constant of the eligibility trace is used as a leak rate, so the documented decay is false (C87_finding_tau_is_a_rate) |
| C88 | Ports are wired as the network says | Wiring | exact list of ends per port by induction over the builders, queue invariant over histories | partial | proved for dense ports in all-Python networks, every connection list and history; RefPort and VarPort proved for one-to-one connections, false otherwise (C88_witness_second_ref_port_unserved); a sparse InPort reads one source only (C88_witness_sparse_fan_in_ignored) |
| C89 | Continuous runs can be paused, read, resumed and stopped | Pause | inductive host/service invariant over all interleavings with a relational reference semantics; measure for fair completion; stuck-state invariants for the findings | partial | proved for programs without a run of given length after a pause, every schedule (C89_results), with completion under fair schedules (C89_completes); false otherwise: a run of given length after a pause never returns (C89_run_after_pause_never_returns), pause of a run that is just finishing raises or not depending on the schedule (C89_witness_pause_can_raise, C89_witness_pause_can_succeed), pause hangs when two continuous runs were started (C89_pause_after_two_runs_hangs); services are paused at different time steps (C89_witness_paused_at_different_steps). RunContinuous is endless in the model, sys.maxsize steps in the code; requests and errors of process models are not modelled |
| C90 | Process models can end a run | Events | inductive host/service invariant over all interleavings with a relational reference semantics; general fair-termination theorem | partial | one runtime service: proved for every program without a pause or stop call during a non-blocking run, every behaviour of the process models and every schedule (C90_results), completion under fair schedules if every run ends (C90_completes). As stated false: a request in the last step of a run raises or not depending on the schedule (C90_last_step_race, C90_last_step_race_stop, the only cases by C90_results), a stop requested together with a pause is delayed to the next run (C90_pause_hides_stop), after an exception no run, wait, pause or stop ever returns (C90_after_exception); with several services a pause request can raise or make the next run hang (C90_two_services_race, C90_two_services_hang) |
| C91 | Exceptions of process models are reported | Events | phase invariant per service with a count of received responses; fair termination | partial | exact outcomes for every number of services and schedule (C91_outcomes), completion if all services succeed (C91_returns) or all fail (C91_raises); false if one fails and another does not: the run never returns (C91_one_fails, C91_not_reported). Hypothesis: no pause or stop requests |
| C92 | Learning-rule objects | Learning | the regular-expression search is characterised by positions in the text; induction over the tokenizer shows that every u_k symbol stands at such a position; updates by composition of the setters, histories by induction | partial | acceptance characterised exactly (C92_accepts_iff), value proved for every rule and step unless a space stands between u and its digit or a lone negated variable stands in brackets (C92_value_partial), every history of accepted updates equals a fresh construction (C92_history). False: a space behind u silently disables the term (C92_space_disables_uk), a refused assignment to a text is not undone (C92_refused_set_leaves_text) |
| C93 | Every process of a network controls the same run | Lifecycle | invariant over histories of calls: runtimes exist, compiled user processes keep their runtime, members of a runtime; uses C25 and C83 | partial | proved for every history and every number of networks: a network of leaf models is controlled by its processes and only by them (C93_calls_reach_one_run), the same with hierarchical processes for the process that was run and all leaf processes while only they are called (C93_hierarchical_calls_reach_one_run), no user-created process in two runtimes (C93_never_in_two_runs). False as stated: another hierarchical process of the network never gets the runtime, its wait/pause/stop do nothing and its run raises (C93_hierarchical_neighbour_has_no_control); after a compilation that failed the network can never be run (C93_failed_compile_is_final); after an exception while models are built every later run silently does nothing (C93_failed_build_makes_run_silent); a sub process can be taken into a second runtime (C93_witness_sub_process_in_two_runs). |
| C94 | Programs in the algebraic vector syntax compute what they say | Graded | C79 for block diagrams, then algebra of sums over channels; rounding bounds over the rationals | partial | proved for every program in which each matrix is used in one product: exact values for weights that are representable (C94_expressions), and for all matrices and programs the equations with the sum of all vectors multiplied with a matrix (C94_program) and an error bound on the product (C94_matrix_vector); products of vectors (C94_product); any network of these processes with a connection in every loop (C94_network_equations). As stated false: a matrix used in two products mixes their inputs (C94_witness_matrix_reuse), weights of magnitude 256 units or more saturate (C94_witness_saturation), dense and sparse matrices quantise differently (C94_witness_dense_sparse_differ). Integers are unbounded in the model |
| C95 | Fixed-point normalisation | Graded | kernel evaluation of finitely many cases after a reduction to the leading bits, Newton error analysis; equations of C94 | partial | inverse square root: proved for every argument from 1 to 2^24-1 (C95_inverse_sqrt, C95_inverse_sqrt_real). Normalisation network: exact output for every sequence of inputs (C95_normalize_net), normalised if the input is the same in two consecutive steps and its sum of squares below 2^24 (C95_normalized). As stated false: the vector is delayed by one step, its length by two, so an input lasting one step gives zeros and a changing input is divided by the length of another vector (C95_witness_misaligned) |
| C96 | A program of calls shows what the network's equations say | EndToEnd | a rendezvous schedule is constructed step by step (Go), every other schedule has the same result by the confluence theorem of C76; reference semantics separate | proved | C96_every_schedule with C96_meaning_unique; grouping: C96_phases_are_local, C96_services_irrelevant, C96_distribution_invisible; laws: C96_runs_compose, C96_get_is_pure, C96_get_after_set, C96_set_changes_nothing_else; a LIF population with a recurrent Dense connection driven by a program of calls: C96_recurrent_lif_dense. Outside the assumptions: C96_witness_pre_guard (a pre_guard without lrn_guard makes the grouping visible), C96_witness_oversize (a set with too many items is acknowledged and the next call fails). Models without VarPorts, pause and stop within a run, exceptions (C80, C89-C91) |
| C97 | Compiling with a cache does not change the program | Cache | look-ups in dictionaries with unique keys; induction on the history for the file | partial | exact characterisation for every pair of networks: C97_hit_is_fresh_iff (same names, ids, process models, Vars, ports; parameters may differ), C97_same_network, C97_hit_uses_stored_builders, for every history C97_first_named_decides, C97_first, C97_fresh_access. As stated false: changed process models and initial values are ignored (C97_witness_stale), a Var created in another order is confused with another (C97_witness_wrong_var), in the same session get and set always raise and virtual ports have no effect (C97_same_session, C97_witness_transformation_lost), an interruption while writing makes all later compilations fail (C97_interrupted_is_final), default names raise (C97_first) |
| C98 | Watchdogs report blocked ports | Watchdog | transition system of ports, monitor, threads and clock; invariant linking the trace of calls to the threads; potential function for the number of messages; termination measure for stop; constructed execution for every n as witness | partial | proved for every execution: a message only after one call has lasted for the timeout (C98_message_means_blocked, C98_no_false_alarm), at least one message for every further timeout if the monitor is faster than the clock (C98_blocked_means_message), at most one for every timeout and call so far (C98_message_rate), stop returns if all calls have ended (C98_stop_returns). As stated false: a blocked call can give any number of messages per timeout, because threads of earlier calls wait for the same event (C98_witness_duplicates); stop never returns while a port stays blocked (C98_stop_waits) |
| C99 | Sparse connections compute what Dense connections compute | Sparse | sums over stored entries against sums over the matrix by induction on the entries; elementwise quantisation needs unique positions; delay stack by induction on blocks | partial | outputs proved equal for Sparse, DelaySparse (max_delay >= 1 or no delays) and for stored synapses under learning. False parts, with theorems: a stored weight quantised to zero makes weights.get()/set() raise and never learns again; with max_delay = 0 later delays are ignored; synapses that are not stored never learn |
| C100 | Fixed-point connections in machine integers | Dense | congruence modulo 2^32 / 2^64 carried through the folds; division commutes only if the dividend fits | partial | Proved for machine integers: congruent modulo 2^32 for every exponent >= 0 and for binary connections; exact iff the exact value fits (exponent >= 0); exact for sizes below the bound; the same for delays. The full statement is false for graded spikes with a negative exponent: the product wraps before it is divided (C100_witness_graded_overflow: one synapse with a 24-bit spike; C100_witness_delay_overflow). |
| C101 | Applications that talk to a running network | IO | invariant on counters over all schedules; in a stuck state the head of the program violates the counting condition; a measure bounds the work | proved | Values for every schedule (C101_values); completion if and only if a counting condition holds (C101_completes_iff, C101_completes), worked out for batches, streams, closed loops and receive-first programs; C101_witness_large_batch_hangs: send all, run, receive all hangs beyond the buffer size. One Injector and one Extractor. |
| C102 | Building process models | Builder | induction over name lists and shapes; broadcasting against a specification that counts dimensions from the right; invariant over schedules | partial | Acceptance (C102_accepted_iff), initial values (C102_init_iff, C102_init_values and special cases) and build errors (C102_build_errors, C102_build_decides) characterised exactly, for all inputs and schedules. False parts: a Var named like a method of the model is accepted (C102_witness_var_named_like_method); the configuration of OutPort number k is that of its connection number k, so a second OutPort with one configured connection cannot be compiled (C102_out_config, C102_witness_second_out_port); a Var of shape () cannot be an array (C102_witness_no_dimensions). |
| C103 | The search for process models | Discovery | induction over files and classes | partial | Proved for every package whose files can be executed under their plain names (C103_found_iff, C103_order, C103_fails_iff, C103_not_inherited). False otherwise: a file with relative imports is skipped (C103_witness_relative_import, exactly by C103_found_iff), nothing but the own module is searched for a process in a script or a module without package (C103_without_package), a model in a sub package is replaced by a class of the same name (C103_witness_wrong_class). Every file is executed again, once per module of the package, for every process (C103_executions) |
| C104 | Management messages reach the right process model | Compiler | each dictionary is the list of the channels of its owner; distinct names from distinct ids; substring test decided by a case analysis on the overlap | partial | Proved for all sets of domains of Python models (C104_service_ports, C104_model_ports, C104_requests_reach, C104_no_channel_shared) and for the channels of the runtime unless a domain name starts with to_service or contains runtime_to_service (C104_runtime_ports; exactly by C104_misrouted_iff). False for a custom domain that mixes Python models with others (C104_witness_mixed_domain) |
| C105 | Setting a Var of a learning connection changes nothing else | Learning | induction over the history: the Vars hold the stored form of the last value, the rule is the one constructed from the Vars (C92) | partial | Proved for the floating-point model (C105_float) and for the fixed-point model with integer parameters (C105_fixed_integers); every history is characterised by C105_history. False of the fixed-point model with fractional parameters: the first set of any Var truncates them all (C105_fixed_unrelated_iff, C105_fixed_small_parameters, C105_witness), and get shows the truncated value before that (C105_get_before_set); the text of a target without rule cannot be set (C105_absent_text_refused) |
| C106 | Three-factor learning uses the post-synaptic traces it receives | Learning | induction over the history of an epoch (decay factor near 1, zero impulse with clip), induction over steps for the ranges | partial | Proved: ranges for every received value (C106_synapses_in_range), the value read is the value received up to the rounding of the decay factor exp(-1/65535) (C106_reads_received, C106_reads_near, C106_learns_from_received). False for negative third factors: they are read as 0 at the end of each epoch in which the post-synaptic neuron spiked (C106_negative_read_as_zero), so reward-modulated STDP ignores punishments there (C106_punishment_ignored, C106_witness) |
| C107 | One-shot learning stores the pattern in the allocated prototype | Learning | invariant over the run (x1 is the payload seen last minus its age), exact evaluation of the product at the allocation, composition with C82 | proved | Weight within [p-4, p+1] of the payload p for random numbers not within 0.002 of 1, lower bound p-6-2*age otherwise; composed with allocator and prototypes (C107_prototype_stores_pattern). C107_second_allocation_adds: a second action potential at the same prototype would add (the allocator never sends one, C82) |
| C108 | Synapses of a learning connection learn independently | Learning | simulation: gather/scatter and broadcasting lemmas, each phase of the array code projects to the single-synapse code; induction over steps | proved | Array code with numpy indexing and broadcasting, dense connections; lifts the single-synapse results (C56-C58, C106, C107) to whole connections, e.g. C108_weights_always_legal and C108_patterns_stored |
| C109 | Fixed-point neurons follow the floating-point neurons | Neurons | error recursion: each product loses at most one unit, errors contract with the decay; equality of spikes from the margin; RF with the complex norm | proved | Floating-point numbers as rationals or reals. C109_weak_bias_never_fires and C109_no_decay_still_leaks show what happens when the margin is not kept or the offset of du is forgotten. ATRLIF: for delta_i given as a float |
| C110 | A LIF neuron under constant drive fires periodically | Neurons | closed form of the voltage between spikes, reset to zero makes every period start alike | proved | Floating-point numbers as rationals |
| C111 | A fixed-point network spikes like the floating-point network | SpikeNet | error recursion of C109 with input errors, simultaneous induction over all neurons; equal spikes give equal buffers | proved | Synchronous equations of the network (that executions follow them is C79); floating-point numbers as rationals, binary spikes |
| C112 | Listeners, buffer sizes and the order of connections do not change results | System | the equations of the larger network restrict to those of the smaller one (permutation of the in-channels), unique solution of C79 | proved | Block diagrams as in C79; for processes that combine their inputs independently of the order, such as addition of integers; VarPorts are not covered |
| C113 | Accesses to Vars of other processes through RefPorts | RefAccess | networks with choice: invariant of rounds, requests and replies, by which all enabled steps commute (also the choices of one model); so all schedules end like one schedule that follows the sequential reference; deadlock by an invariant from a state on the way of all | proved | One runtime service, runs only (pause, stop, get and set are in other properties); a write is one message. Theorems with racing schedules show that each of the three rules is needed |
| C114 | What is connected is what is computed | Wired | refinement: the loops over CSP ports in recv/send simulate the equations of the network; then the determinacy and termination theorems of C96; the connections are those of C23/C31/C88 | proved | Composition of the models of C22/C23, C31, C88 and C96; ports are used at most once per time step in a fixed order; transformations of virtual ports in C114_results only |
| C115 | Spiking networks compute what a step-by-step simulation computes | Snn | the equations of C114 have the simulation step as their only solution because connections send first; invariant relating processes to the equations of C111 in both precisions | proved | Neurons are fed by connections and sources, not directly by other neurons (which may deadlock, C77); floating-point models over exact numbers; builds on C114, C111, C50, C39 and C41 |
| C116 | Networks with STDP follow the equations of the network and the STDP law | Plastic | simulation theorem via uniqueness of the solution of the equations of C114; the array model of learning is the per-synapse model of C86 for each pair; invariant relating processes to network equations with the STDP law; uniqueness by strong induction on steps | proved | Regular impulses, mixed sign mode, STDPLoihi rules; numbers are exact rationals; builds on C86, C114, C115 |
| C117 | A run returns exactly if no processes wait for each other in a circle | EndToEnd, Wired | invariant: no channel of the circle ever holds a message, every sender of the circle still has a receive from the circle in front of its send, its service never collects its response and the host never gets the answer of that service; the other direction is C114 | proved | The model of C96/C114: blocking run; ports used at most once per time step; no pause, no RefPorts or VarPorts between models |
| C118 | Processes that answer their inputs alike can be exchanged in every network | Swap | a relation between the Vars of matching models is preserved by time steps, management phases and programs of calls (what the reference semantics of C114 shows is the same), then C114 for both networks; equal trains give the relation having got the same inputs so far; Sparse against Dense is C99 | proved | The networks of C114 and C115 (blocking runs, no RefPorts or VarPorts between models); a Var of an exchanged process may be read if it has always the same value, but not written unless the process models match for writes too |
| C119 | What a network does is the only solution of the equations of its parts | Trains | existence by the step-by-step simulation of C115, uniqueness by induction on the time step (connections and sources first, then neurons); the states of the simulation are those of the processes fed with any solution; closed form of DelayDense is C40 | proved | The networks of C115 (neurons, connections, sources, sinks; one InPort and OutPort each); programs without set; delays: no weight exponent and max_delay at least as large as every delay (otherwise C40: buckets are shifted one by one, late synapses dropped) |
| C120 | A chain of processes is the composition of its processes; a sigma-delta network computes the artificial neural network | Pipe, Sdnn | the trains of a chain solve the equations of C119; by induction on the layers the sum of everything a layer has sent is the layer output of the network up to its residues (C44 per neuron, weights are linear, ReLU is 1-Lipschitz); silence by induction on the layers | proved | Chains in which two neurons do not follow each other; programs without set; floating-point models with exact rational arithmetic, Dense with num_message_bits > 0 |
| C121 | Sigma-delta networks in fixed point compute the artificial neural network without drift | Sdnn | as C120, with the per-neuron bounds of the fixed-point models (C45) in the units of the spikes | proved | The corrected SigmaDelta model (PySigmaDeltaModelFixed drifts, C45); unbounded integers; Dense with num_message_bits > 0 and weight_exp >= 0; thresholds of Delta not negative; programs [run T, get] |
| C122 | A network is its parts, with Vars written between runs | Pipe, Sdnn, Trains | by induction on the calls that are still to be done: the state of the simulation of C115 is that of each process on its own with the writes made so far; existence and uniqueness of the trains by induction on time, as C119 | proved | Networks without learning (C115, with learning: C125): neurons are not fed by neurons directly; blocking runs; values of at most the size of the Var |
| C123 | Conv can be replaced by Dense or Sparse with the matrix of conv_to_sparse | Swap | the matrix product equals the convolution (C46); an entry of the matrix is a weight of the kernel or 0 because a tap meets an input at one place, so clipping and truncation (C37) keep it; the sum is below the clamp (C48); networks by exchanging processes with the same trains (C118) | proved | Spikes only (num_message_bits = 0), weight_exp = 0 in the Dense/Sparse process (Conv ignores it), order NWHC with C-order flattening, conv_scipy backend |
| C124 | What the constructors of Conv and of the delay connections accept, runs | Conv, Dense | Conv: the loops are a fold whose checks always succeed because strided valid convolutions have the length of output_shape (C47) and groups partition the channels; values by summing over the iterations; delays: C40_delay_buckets with the delays of the constructor | partial | False of the code for some accepted arguments, proved exactly for which (C124_conv_fails_iff, C124_negative_groups_send_zeros, C124_extra_channels_ignored, C124_short_max_delay_loses_spikes): dilation 0, a weight with too few channels, negative groups, max_delay below the delays. Proved for all others; int8 overflow of the Vars and negative paddings, strides and dilations are not modelled |
| C125 | Networks that learn are their parts | Plastic | existence and uniqueness of the solution by induction on time, processes that send first before those that receive first; programs by induction on the calls still to be done, from C116; one step of the process is one step of the array code, then C108 and C37 | proved | Processes that receive first are fed by processes that send first (as in C116); blocking runs; random numbers are given for every time step; integers are unbounded except where the engine wraps them; trace parameters are integers if the program writes Vars of the connection (C105) |
| C126 | Applications with any channel configuration talk to a running network | IO | invariant of the interleaving semantics: bounded queues as groupings of what has been sent; termination by a load that every step decreases; stuck states are final by cases; default configuration as a Kahn network (FIFO) | proved | One Injector and one Extractor around one network; findings with witnesses: zeros on an empty channel cannot be told from data and depend on the schedule; dropping is decided by the state of the channel; accumulation after a wait takes one item (PyPy channels); real time (wall clock) is not modelled, so every interleaving is allowed |
| C127 | Division into synchronization domains does not change results | AsyncModel, System | solutions of the synchronous equations of the program extend to the program with services (operations filtered to the channels of the program); circular waits correspond; counts of messages give the bounds; phases by cases on the flags | proved | Results: time steps of one phase (run_spk), one run, the operations of a time step do not depend on data; calls: guards are functions of the time step, first run of the converted model (later runs: C14) |
| C128 | LIF neurons with Reset processes are LIFReset neurons, under every schedule | RefAccess | the network satisfies the discipline of C113, whose reference is computed phase by phase; invariant: the state, cleared if LIFReset would clear it next, is that of the network | proved | The threshold is the scaled one from the start (its lazy scaling: C88/Obj); integers are unbounded; interval and offset are parameters (as Vars they do not change here) |
| C129 | Read processes record the values at the ends of time steps and disturb nothing | RefAccess | C113: its reference is computed by an induction over the turns of a phase, the recorded values are those of the Read of C50; the race by two schedules | proved | The process that is read has no other ports and does not learn; all Vars read are of one process; interval and offset are parameters |
| C130 | Outputs and ground truths of a StateDataloader belong together | RefAccess | C113: its reference computed phase by phase, the loader of C51; invariant: the Var holds what was loaded last | proved | The computing process has no input of its own and no post-management; one process between loader and receiver; interval and offset are parameters |
| C131 | A SpikeDataloader feeds a process sample by sample, with its ground truths | RefAccess | C113 (without RefPorts): its reference computed phase by phase, the loaders of C51 | proved | One element of the spike output; the process that is fed has no management phases of its own; interval and offset are parameters |
| C132 | Samples do not influence each other when Resets act together with the dataloader | RefAccess | C113: its reference computed phase by phase; after a load and reset the state is the fold over the values of the sample | proved | Two Resets; one element of the spike output; interval and offset are parameters |
| C133 | Random numbers of a learning connection: fresh draws, and what rng_seed decides | Learning | invariant on numbers of draws (2n + 1 for traces, n / t_epoch + 1 for weights), simulation by the run of C56 | proved | numpy generators are functions of seed and draw number; one synapse, two-factor rules, dense, as in C56; payloads up to 254 in graded modes for the range of traces |

## Findings: where the code does not do what one would expect

Each is proved in the model as a theorem (name given), or follows from reading the code (no name).

* `CspSelector.select` can miss a wake-up or lose its callback thread: `C05_lost_wakeup`, `C05_callback_dies`.
* After a pause during a run no later run reports completion; a pause seen in the host phase makes the next run execute no step: `C09_*`.
* `Var.set` with arrays that are not in C order scrambles them; `Var.get` on a Python int hangs; longer payloads leave tokens in the command
  channel, where `-1` is read as STOP: `C10_scrambled`, `C10_int_get_hangs`, `C11_leftover`, `C11_payload_becomes_stop`.
* A zero written to a sparse Var makes every later access fail: `C12_zero_poisons`.
* Asynchronous models take `num_steps` as a total: `C14_later_run_is_total`, `C14_smaller_run_diverges`; flags of the asynchronous service
  are never cleared: `C67_sticky_pause`.
* `PyInPortVectorDense.peek` consumes: `C16_peek_consumes`. Sparse ports cut payloads silently: `C17_truncated`.
* `transpose` accepts repeated axes and does not invert mixed-sign axes: `C20_*`; `concat_with` checks only the last pair: `C21_only_last_pair_checked`.
* `connect` with too few configurations connects one direction only, a port given twice is left behind: `C22_*`.
* RefPorts and VarPorts can be connected two to one: `C24_*`.
* Self loops make `is_dag` true: `C26_witness_self_loop`; components without outside neighbours are lost by collapsing: `C27_witness_component_lost`.
* A sync domain with a default name, or two protocol classes of one name, mix protocols: `C29_witness_*`. A domain spread over nodes or named
  `to_service...` breaks routing of Var access: `C68_witness_*`.
* `ChannelMap.add_port_pairs` is a no-op: `C31_witness_add_port_pairs`. Tagged SubProcessModels not listed first raise IndexError:
  `C32_witness_tagged_sub_model_fails`. Address objects shared between Vars are counted twice, chip types mix: `C33_witness_*`.
* Delta-sparse-8 encoding fails for a first spike at position 255 and gaps above 65025: `C36_witness_*`. `optimize_weight_bits` loses the
  weight 255 of mixed matrices: `C38_witness_255_lost`.
* LIF threshold is frozen at the first step: `C42_witness_threshold_frozen`; inputs of more than 18 bits leave the 24-bit range.
* Fixed-point SigmaDelta drifts without bound: `C45_witness_sigma_delta_fixed_drifts`.
* Kernels in NCHW order and HWCN with rows different from channels give wrong convolutions: `C46_witness_*`.
* Channel policies count a slot as taken until its acknowledgement is processed: `C52_witness_*`.
* Learning rules: the sign of a lone bracketed negation is lost (`C55_bracketed_negation_loses_sign`); payload 255 leaves the 7-bit range
  (`C56_*_255`); impulse rounding is biased (`C56_impulse_rounding_biased`).
* Collections: iteration after `break` or nested iteration of the same collection: `C59_after_break`, `C59_nested_never_ends`.
* `save` of a name without a dot cannot be loaded: `C62_no_dot_not_found`; a failing save destroys the old file: `C62_failed_save_destroys`.
* A monitor accepts one probe only; a second wipes data: `C63_*`. ATRLIF refractory state leaves 24 bits: `C64_*`.
* Multiple inheritance drops tags: `C65_multiple_inheritance_drops`.
* RFZero overflows from 2^16: `C74_overflow`. A sum of the network algebra kept in a variable is mutated (C75).
* Overlapping non-blocking runs garble a later get, stop during a run can raise, stop before any run hangs: `C80_*`.
* CLP: negative user labels are treated as pseudo labels, the allocator exceeds n_protos, spikes of other prototypes are suppressed in the step
  of an allocation, repeated input is never novel: `C81_*`, `C82_witness_*`.
* Expansion: a process can be lost from a dataclass attribute, a SubProcessModel that keeps its process never stops expanding: `C83_witness_*`.
* Process graph: an InPort of a hierarchical process unused inside makes that process a node (compilation fails), an unused `reshape` makes
  a self loop: `C84_witness_*`.
* S4d: the documented output equation is off by one step and by a factor 2: `C85_witness_input_contributes_at_once`.
* `STDPLoihi` replaces its parameters by literals: 0.3 becomes 0.25, 1.5 becomes 2 (C86_literal_exact_iff says exactly which survive).
* Float learning: a trace with the default time constant 0 makes weights NaN (C86_zero_tau_weight_nan); only the last spike of an epoch triggers STDP.
* `RewardModulatedSTDP`: `eligibility_trace_decay_tau` is used as a rate; values above 2 make the eligibility trace explode (C87_finding_tau_is_a_rate).
* A second RefPort connected to a VarPort is not served and its reads block (C88); a sparse InPort with several sources reads only the first (C88).
* After a pause the attribute `pausing` of a service stays set, so every later run of given length never returns (C89); pausing a run that is just finishing can raise RuntimeError (C89); a second continuous run makes `pause` hang (C89); services are paused at different time steps (C89).
* A request to pause or stop in the last step of a run is followed by DONE, so the host may raise RuntimeError (C90). After an exception nothing but a refused access or a non-blocking run returns, not even stop (C90).
* If process models of one runtime service fail while those of another do not, the run never returns (C91): the host joins all actors, and the others wait for commands.
* A pause request of one service pauses the others as if by the user, so that they never say DONE again (C90); a process model that requests a pause in its spiking phase skips its learning phases of that step (read, not modelled).
* `u 0` (with a space) is accepted in a learning rule but never applies; a refused assignment to `dw_str` stays visible (C92).
* C93: a hierarchical process connected to the one that is run never gets the runtime: `stop()` on it does nothing, `run()` raises.
* C93: a compilation that raises (for example because no process model fits) leaves all processes marked as compiled, so the network can never be
  run again. An exception while process models are built leaves an uninitialized runtime: the next `run()` returns at once without running.
* C93: only processes found before expansion are marked compiled: a sub process can be put into a second runtime.
* C94: a matrix object used in two products (`v << A @ x; w << A @ y`) mixes the inputs: both get A(x + y). `AlgebraicMatrix.__mul__` reads `self.shape`, which `GradedDense` and `GradedSparse` do not have; `InputVec` multiplies the caller's array in place.
* C95: `NormVecDelay` delays the vector by one step (its documentation says two) while the loop over `InvSqrt` takes two: the normalisation is only right for inputs that are the same in consecutive steps. `exp` and `fp_base` are not used. Sums of squares from 2^24 on index the table with a negative number.
* C96: a model with `pre_guard` but without `lrn_guard` runs its pre-learning management exactly when another model of the same service has both guards: results depend on the grouping of models into services. `set` with more items than the Var has leaves items in the command channel: the call is acknowledged, the next command is wrong.
* C97: a cached builder carries the process model, the initial values and all ids of the network that was stored first, keyed by directory and process name only. Another run configuration has no effect; in the same session `get`/`set` raise and transformations of virtual ports are silently skipped, because they are looked up by process id (`ports.py:163-164`). The file is opened before pickling: an error while writing leaves a file that breaks every later compilation.
* Watchdogs: the event of a port is reused, so the thread of a call that has ended may wait for the next call; a blocked call then gives several messages per timeout (C98_witness_duplicates), and stop hangs while a port is blocked (C98_stop_waits).
* C99: after the first step of a bit-accurate Sparse connection, a weight quantised to 0 is no longer stored: `weights.get()` and `weights.set()` raise, and it never learns.
* C100: a graded fixed-point connection with a negative weight exponent wraps before it divides; one 8-bit weight times one 24-bit spike is enough to send a value of the wrong sign.
* C101: send n items, run n steps (blocking), receive n results hangs without a message for n above the buffer size (50 by default).
* C102: the connection configuration of the k-th OutPort is looked up at index k of its own connections (IndexError for a second OutPort with one configured connection); a Var named like a method of the model passes the checks; an array Var of shape () cannot be built.
* C103: model files are executed again under their plain names; with relative imports this fails and the models are silently not found; scripts and modules without package never find models in other files; in sub packages a class of the same name in the parent package is taken instead.
* C104: in a custom sync domain that mixes Python models with others, a request for one process is sent to another (positions count all processes, ports only Python ones); a response channel is taken for a request channel exactly if the name of its domain starts with to_service or contains runtime_to_service.
* C105: in the fixed-point learning connections the first Var.set of any Var - e.g. of the weights - truncates all impulses and time constants to integers; an impulse below 1 then adds nothing and a time constant below 1 clears the trace each step. Var.get shows the truncated value from the start.
* C106: in fixed point a negative third factor (punishment) is clipped to 0 by the zero impulse added at the post-synaptic spike, so RewardModulatedSTDP ignores negative rewards in every epoch in which the post-synaptic neuron spiked.

* With du = 0 the floating-point LIF keeps its current for ever while the bit-accurate LIF loses at least one unit per step; with a weak bias and slow voltage decay the floating-point LIF fires periodically and the bit-accurate one never (C109).

RefPorts: reads in the spiking or learning phase may hang, a write without wait() takes effect in this or the next time step, two writers race, mutual reads in one phase deadlock (C113).
An OutPort that reaches an InPort along several paths of hierarchical ports is counted once, because the channel map is a dictionary (C114).
* Conv accepts dilation 0 and weights with fewer channels than the inputs of a group (both fail at run time), negative numbers of groups (sends zeros), and weights with more channels (ignored); DelayDense/DelaySparse accept a max_delay below the delays (spikes are lost) (C124)
* io/utils.py, injector.py, extractor.py: with `NON_BLOCKING_ZEROS` `receive` may return zeros right after the `wait` for the run whose output it should return, since the item may be in flight (`C126_witness_zeros_after_wait`); with `NON_BLOCKING_DROP` an item may be dropped although everything sent before has been received (`C126_witness_drop_when_empty`); a receive with `ACCUMULATE` that had to wait takes one item even if more are there (`C126_witness_accumulate_after_wait`).
* core/model/py/model.py 752-765 (`run_async` of `PyLoihiModelToPyAsyncModel`): never calls `run_lrn` and ignores `lrn_guard`, so a converted learning connection does not learn, and calls `run_pre_mgmt` before instead of after `run_spk` (`C127_converted_never_learns`, `C127_same_runs_iff`).
* proc/io/reset.py 59 and proc/lif/models.py 411-435: interval and offset of `Reset` and of `LIFReset` do not mean the same time steps: `Reset` with offset o takes effect before the same time steps as `LIFReset` with offset o + 2; and only `LIFReset` can reset before the first time step (`C128_is_lif_reset`, `C128_example`, `C128_first_step`).
* proc/io/sink.py 126-130 and proc/io/reset.py 62-65: `Read` and `Reset` on the same Var in the same time step race: the value recorded is the one before or after the reset, depending on the schedule (`C129_read_and_reset_race`).
* proc/io/dataloader.py 114-127: the ground truth is sent from the time step after the load on; with a network that takes more than one time step from the loaded Var to its output, the ground truth received together with an output is that of a later sample for the first time steps of each sample (`C130_late`).
* Read, not modelled: RefPort access in post-management races with the VarPort owner's own post-management;
  `connection_configs.values()[k]` in the channel builder factory; LIFVec and GradedDense have no `shape`, so `vec << vec` and `A * B` raise;
  NormVecDelay delays by one step (documentation says two).
