{"id": "C01", "title": "Channel delivers exactly what was sent, in order", "statement": "For a channel between two process models, the list of arrays returned by recv() is at every moment a prefix of the list of arrays handed to send(): nothing lost, duplicated, reordered, or overwritten in the shared ring buffer before it was read.", "quantifier": "every channel size >= 1, every sequence of payloads, every interleaving of the sender, the receiver and the two callback threads", "why_tests_cant": "depends on thread interleavings and on every buffer size; tests only sample a few schedules", "anchors": ["src/lava/magma/compiler/channels/pypychannel.py:CspSendPort.send", "src/lava/magma/compiler/channels/pypychannel.py:CspRecvPort.recv", "src/lava/magma/compiler/channels/pypychannel.py:CspSendPort._ack_callback", "src/lava/magma/compiler/channels/pypychannel.py:CspRecvPort._req_callback"]}
{"id": "C02", "title": "Channel is bounded and its callback threads never fail", "statement": "A channel of size n never holds more than n sent-but-not-received items; the background threads never raise (the receive queue's put_nowait never finds the queue full, the bounded semaphore is never released above its initial value).", "quantifier": "every channel size >= 1 and every interleaving", "why_tests_cant": "an overflow would need a particular schedule of four threads", "anchors": ["src/lava/magma/compiler/channels/pypychannel.py:CspSendPort.start", "src/lava/magma/compiler/channels/pypychannel.py:CspRecvQueue.put_nowait", "src/lava/magma/compiler/channels/pypychannel.py:CspRecvPort._req_callback"]}
{"id": "C03", "title": "Channel never deadlocks", "statement": "From every reachable channel state: if fewer items than `size` are outstanding, send() can complete after finitely many background steps and without the receiver doing anything; if an item has been sent and not received, recv() can complete after finitely many background steps and without the sender doing anything.", "quantifier": "every channel size >= 1 and every reachable interleaving state", "why_tests_cant": "absence of deadlock is a statement about all schedules", "anchors": ["src/lava/magma/compiler/channels/pypychannel.py:CspSendPort.send", "src/lava/magma/compiler/channels/pypychannel.py:CspRecvPort.recv"]}
{"id": "C04", "title": "probe and peek are sound", "statement": "If probe() on the sending side returns True, the next send() does not block; if probe() on the receiving side returns True, recv() does not block; peek() returns the very item the next recv() returns and does not change what will be received.", "quantifier": "every channel state and every interleaving of other threads between the probe/peek and the call", "why_tests_cant": "races between probe and the following call cannot be exhausted by tests", "anchors": ["src/lava/magma/compiler/channels/pypychannel.py:CspSendPort.probe", "src/lava/magma/compiler/channels/pypychannel.py:CspRecvPort.probe", "src/lava/magma/compiler/channels/pypychannel.py:CspRecvPort.peek"]}
{"id": "C05", "title": "select wakes up when a channel has data", "statement": "select() only ever returns the action of a channel that has data, earliest listed channel first, and whenever some listed channel has data (now or later) a blocked select() returns.", "quantifier": "every set of channels and every interleaving of callback threads with the selecting thread", "why_tests_cant": "the lost wake-up needs a precise schedule of callback and selecting thread", "anchors": ["src/lava/magma/compiler/channels/pypychannel.py:CspSelector.select", "src/lava/magma/compiler/channels/pypychannel.py:CspRecvPort._req_callback", "src/lava/magma/compiler/channels/pypychannel.py:CspRecvPort._set_observer"]}
{"id": "C06", "title": "run(n) executes exactly n time steps", "statement": "After run(RunSteps(n)) a Loihi-synchronised domain has executed its spiking phase exactly n times in every process model, with time_step 1..n in order, and reports completion exactly once after the last step.", "quantifier": "every n >= 1, every number of process models, every outcome of the guard requests in every time step, every sequence of runs without pause", "why_tests_cant": "the phase sequence depends on unbounded n and arbitrary per-step guard answers", "anchors": ["src/lava/magma/runtime/runtime_services/runtime_service.py:LoihiPyRuntimeService.run", "src/lava/magma/runtime/runtime_services/runtime_service.py:LoihiPyRuntimeService._next_phase", "src/lava/magma/core/model/py/model.py:PyLoihiProcessModel"]}
{"id": "C07", "title": "Phase order within a time step", "statement": "In every time step the phases run in the order SPK, then (if requested) PRE_MGMT, LRN, POST_MGMT, each at most once, and a host phase is entered only after the last time step of a run (or on pause/stop).", "quantifier": "every schedule of guard requests", "why_tests_cant": "exponentially many request patterns per run", "anchors": ["src/lava/magma/runtime/runtime_services/runtime_service.py:LoihiPyRuntimeService._next_phase"]}
{"id": "C08", "title": "Variables are accessed only between runs", "statement": "A get or set command issued through the runtime is served only in the host phase, i.e. never between two phases of the same run, and the value relayed to the process model is what the host sent.", "quantifier": "every command sequence and every run length", "why_tests_cant": "interleaving of management commands with running steps", "anchors": ["src/lava/magma/runtime/runtime_services/runtime_service.py:LoihiPyRuntimeService.run", "src/lava/magma/runtime/runtime_services/runtime_service.py:LoihiPyRuntimeService._handle_get_set"]}
{"id": "C09", "title": "pause and resume", "statement": "After pause() the runtime can be run again with the same observable effect as if the pause had not happened: a later run(RunSteps(n)) executes n more steps and reports completion.", "quantifier": "every run length and every time at which the pause arrives", "why_tests_cant": "pause may land at any phase of any time step", "anchors": ["src/lava/magma/runtime/runtime_services/runtime_service.py:LoihiPyRuntimeService.run", "src/lava/magma/runtime/runtime_services/runtime_service.py:LoihiPyRuntimeService._next_phase", "src/lava/magma/runtime/runtime.py:Runtime.pause"]}
{"id": "C10", "title": "Var.set followed by Var.get round-trips", "statement": "var.set(value) followed by var.get() returns value element for element, and leaves every other variable unchanged.", "quantifier": "every shape, every data, every memory layout of the target array", "why_tests_cant": "every shape and layout; order of elements matters", "anchors": ["src/lava/magma/core/model/py/model.py:AbstractPyProcessModel._get_var", "src/lava/magma/core/model/py/model.py:AbstractPyProcessModel._set_var", "src/lava/magma/runtime/runtime.py:Runtime.set_var", "src/lava/magma/runtime/runtime.py:Runtime.get_var"]}
{"id": "C11", "title": "Variable access leaves the command channel in sync", "statement": "After a get or set command has been served, the next value each party reads from its channel is the next command or answer, never left-over payload.", "quantifier": "every payload length and variable size", "why_tests_cant": "depends on the relation between two arbitrary sizes", "anchors": ["src/lava/magma/core/model/py/model.py:AbstractPyProcessModel._set_var"]}
{"id": "C12", "title": "Sparse Var.set/get round-trip", "statement": "For a sparse (csr) variable, setting new data on the stored pattern and reading back returns the data set, and a set that would change the sparsity pattern is rejected.", "quantifier": "every pattern and data, every history of sets", "why_tests_cant": "history dependent: explicit zeros written by an earlier set change later behaviour", "anchors": ["src/lava/magma/core/model/py/model.py:AbstractPyProcessModel._set_var", "src/lava/utils/sparse.py:find", "src/lava/magma/core/process/variable.py:Var.set"]}
{"id": "C13", "title": "Alias variables are transparent", "statement": "Get and set on a Var aliased (through any chain of hierarchical processes) to another Var act on the final target Var; alias chains are finite.", "quantifier": "every chain length and every sequence of alias declarations", "why_tests_cant": "unbounded alias depth", "anchors": ["src/lava/magma/core/process/variable.py:Var.alias", "src/lava/magma/core/process/variable.py:Var.get", "src/lava/magma/core/process/variable.py:Var.set"]}
{"id": "C14", "title": "Asynchronous process model runs the requested number of steps", "statement": "A Loihi process model wrapped as asynchronous model executes exactly num_steps time steps for each run command, then reports done.", "quantifier": "every num_steps and every sequence of runs", "why_tests_cant": "sequences of runs with arbitrary lengths", "anchors": ["src/lava/magma/core/model/py/model.py:PyLoihiModelToPyAsyncModel.run_async"]}
{"id": "C15", "title": "Fan-in adds up all inputs", "statement": "recv() on an in-port connected to several out-ports returns the element-wise sum of one item of each connected channel, independent of the order of the connections, and consumes exactly one item of each.", "quantifier": "every number of sources, every payload", "why_tests_cant": "arbitrary fan-in and permutation", "anchors": ["src/lava/magma/core/model/py/ports.py:PyInPortVectorDense.recv", "src/lava/magma/core/model/py/ports.py:PyInPortVectorDense.probe"]}
{"id": "C16", "title": "peek on an in-port does not consume", "statement": "peek() on an in-port returns what the next recv() returns, and does not change what later recv() calls return.", "quantifier": "every channel content", "why_tests_cant": "history dependent", "anchors": ["src/lava/magma/core/model/py/ports.py:PyInPortVectorDense.peek"]}
{"id": "C17", "title": "Sparse port payload round-trip", "statement": "Data and indices sent on a sparse out-port arrive unchanged on the sparse in-port, whatever lengths preceded.", "quantifier": "every length sequence, every data/indices", "why_tests_cant": "arbitrary resize histories", "anchors": ["src/lava/magma/core/model/py/ports.py:PyOutPortVectorSparse.send", "src/lava/magma/core/model/py/ports.py:PyInPortVectorSparse.recv"]}
{"id": "C18", "title": "RefPort/VarPort remote memory access", "statement": "A RefPort connected to a VarPort reads the Var's current value and a read after a write (with service of the request in between) returns the written value; requests are served in the order issued.", "quantifier": "every sequence of reads and writes and every schedule of the service calls", "why_tests_cant": "unbounded histories", "anchors": ["src/lava/magma/core/model/py/ports.py:PyRefPortVectorDense.read", "src/lava/magma/core/model/py/ports.py:PyRefPortVectorDense.write", "src/lava/magma/core/model/py/ports.py:PyVarPortVectorDense.service"]}
{"id": "C19", "title": "Virtual ports are inverted for reads and composed in order for sends", "statement": "Data sent through a chain of reshape/flatten/transpose ports arrives transformed by all of them in the connection order; for RefPort reads the data comes back transformed by the exact inverse, so that a read after a write through the same chain returns the data.", "quantifier": "every chain, every shape and every permutation of axes", "why_tests_cant": "chains and permutations of arbitrary length", "anchors": ["src/lava/magma/core/process/ports/ports.py:AbstractPort.get_incoming_virtual_ports", "src/lava/magma/core/process/ports/ports.py:AbstractPort.get_outgoing_virtual_ports", "src/lava/magma/core/process/ports/ports.py:TransposePort.get_transform_func_bwd", "src/lava/magma/core/model/py/ports.py:VirtualPortTransformer"]}
{"id": "C20", "title": "transpose accepts exactly the permutations of the axes", "statement": "port.transpose(axes) is accepted iff axes names every axis exactly once (negative axes counted from the end), and its backward transform inverts the forward one.", "quantifier": "every rank and axes tuple", "why_tests_cant": "all axes tuples of all ranks", "anchors": ["src/lava/magma/core/process/ports/ports.py:TransposePort", "src/lava/magma/core/process/ports/ports.py:AbstractSrcPort.transpose", "src/lava/magma/core/process/ports/ports.py:AbstractPort.transpose"]}
{"id": "C21", "title": "Concatenation checks shapes", "statement": "concat_with succeeds iff all ports agree on every axis except the concatenation axis, and the resulting shape sums that axis.", "quantifier": "every number of ports and every shape", "why_tests_cant": "arbitrary number of ports", "anchors": ["src/lava/magma/core/process/ports/ports.py:ConcatPort._get_new_shape"]}
{"id": "C22", "title": "Connections are symmetric and duplicate free", "statement": "After any sequence of connect/connect_from/connect_var calls: q is listed as destination of p iff p is listed as source of q, and each connection is listed once.", "quantifier": "every sequence of connect calls including failing ones", "why_tests_cant": "histories including exceptions mid-call", "anchors": ["src/lava/magma/core/process/ports/ports.py:AbstractPort._connect_forward", "src/lava/magma/core/process/ports/ports.py:AbstractPort._connect_backward", "src/lava/magma/core/process/ports/ports.py:AbstractPort._add_inputs", "src/lava/magma/core/process/ports/ports.py:AbstractPort._add_outputs"]}
{"id": "C23", "title": "get_src_ports / get_dst_ports reach exactly the leaf ports", "statement": "get_src_ports returns exactly the ports without incoming connections from which the port is reachable (through hierarchical and virtual ports), get_dst_ports the dual; the two are consistent with each other.", "quantifier": "every acyclic port graph", "why_tests_cant": "arbitrary graph depth", "anchors": ["src/lava/magma/core/process/ports/ports.py:AbstractPort.get_src_ports", "src/lava/magma/core/process/ports/ports.py:AbstractPort.get_dst_ports"]}
{"id": "C24", "title": "RefPort/VarPort are connected one to one", "statement": "A RefPort is connected to at most one VarPort/Var and a VarPort to at most one RefPort, after any sequence of connect calls.", "quantifier": "every call sequence", "why_tests_cant": "histories", "anchors": ["src/lava/magma/core/process/ports/ports.py:RefPort.connect", "src/lava/magma/core/process/ports/ports.py:RefPort.connect_var", "src/lava/magma/core/process/ports/ports.py:VarPort.connect"]}
{"id": "C25", "title": "find_processes finds the whole connected network", "statement": "Compilation started from any process finds exactly the processes connected to it (through in-, out-, ref- and var-ports, in either direction), each once.", "quantifier": "every network", "why_tests_cant": "every finite graph", "anchors": ["src/lava/magma/compiler/compiler_graphs.py:find_processes"]}
{"id": "C26", "title": "is_dag decides acyclicity", "statement": "The compiler's DAG check answers True iff the process graph has no directed cycle.", "quantifier": "every digraph (including self loops)", "why_tests_cant": "every finite graph", "anchors": ["src/lava/magma/compiler/compiler_graphs.py:ProcDiGraph", "src/lava/magma/compiler/compiler_graphs.py:AbstractProcDiGraph.is_dag"]}
{"id": "C27", "title": "Collapsing cycles loses no process", "statement": "Collapsing cycles of the process graph keeps every process in exactly one node and every edge between different nodes, so process groups partition the network.", "quantifier": "every digraph", "why_tests_cant": "every finite graph", "anchors": ["src/lava/magma/compiler/compiler_graphs.py:AbstractProcDiGraph.collapse_subgraph_to_node", "src/lava/magma/compiler/compiler_graphs.py:AbstractProcDiGraph.collapse_cycles_to_nodes", "src/lava/magma/compiler/compiler_graphs.py:ProcGroupDiGraphs.get_proc_groups"]}
{"id": "C28", "title": "Process groups are emitted in dependency order", "statement": "The list of process groups handed to the subcompilers contains every process of the network exactly once, and if a process sends to a process of another group, the receiving group comes first in the list.", "quantifier": "every DAG of groups", "why_tests_cant": "every finite graph", "anchors": ["src/lava/magma/compiler/compiler_graphs.py:ProcGroupDiGraphs.get_proc_groups"]}
{"id": "C29", "title": "Every process is assigned to exactly one sync domain with its own protocol", "statement": "Sync domain creation puts every process into exactly one domain, domains have unique names, and all processes in one domain use the domain's protocol.", "quantifier": "every set of processes, models and custom domains in the run config", "why_tests_cant": "arbitrary domain declarations", "anchors": ["src/lava/magma/compiler/compiler.py:Compiler._create_sync_domains"]}
{"id": "C30", "title": "Every process is assigned to exactly one compiler and node", "statement": "Each process of a group is handed to exactly one sub-compiler (the one for its model's type), and each process appears on exactly one node of the node configuration.", "quantifier": "every process group", "why_tests_cant": "arbitrary group size", "anchors": ["src/lava/magma/compiler/compiler.py:Compiler._map_subcompiler_type_to_procs", "src/lava/magma/compiler/compiler.py:Compiler._create_node_cfgs"]}
{"id": "C31", "title": "Channel map has exactly one entry per connected pair of leaf ports", "statement": "The channel map built from the process groups contains a (source, destination) pair iff the leaf ports are connected; a port's initialiser is set at most once.", "quantifier": "every network", "why_tests_cant": "arbitrary networks", "anchors": ["src/lava/magma/compiler/channel_map.py:ChannelMap.from_proc_groups", "src/lava/magma/compiler/channel_map.py:ChannelMap.set_port_initializer", "src/lava/magma/compiler/channel_map.py:ChannelMap.add_port_pairs"]}
{"id": "C32", "title": "Run configuration selects a compatible model", "statement": "The run config's select returns one of the offered process models, honouring exceptions first, then the tag, then resource order; if no model qualifies it raises.", "quantifier": "every list of process models", "why_tests_cant": "arbitrary lists", "anchors": ["src/lava/magma/core/run_configs.py:AbstractLoihiRunCfg.select"]}
{"id": "C33", "title": "Core mapping is collision free", "statement": "Different logical cores of the same or of different builders are mapped to different physical (chip, core) addresses, equal logical cores of one builder to equal ones.", "quantifier": "every sequence of builders and addresses", "why_tests_cant": "arbitrary numbers of builders", "anchors": ["src/lava/magma/compiler/mapper.py:Mapper"]}
{"id": "C34", "title": "Delta encoder loses nothing", "statement": "For the delta encoder, at all times the sum of everything sent equals the current input minus the residue, and the residue is below the threshold in magnitude (without clipping).", "quantifier": "every input sequence, threshold and bit width", "why_tests_cant": "unbounded input sequences", "anchors": ["src/lava/proc/io/encoder.py:AbstractPyDeltaEncoderModel.encode_delta"]}
{"id": "C35", "title": "Packed 4-byte spike encoding round-trips", "statement": "encode_packed_4 output determines the low byte of every element: decoding returns s & 0xFF for every element.", "quantifier": "every vector length and value", "why_tests_cant": "all lengths and values", "anchors": ["src/lava/proc/io/encoder.py:PyDeltaEncoderModelSparse.encode_packed_4"]}
{"id": "C36", "title": "Delta-sparse 8-bit encoding round-trips", "statement": "decode(encode(s)) = s for the compressed delta-sparse-8 representation, for every vector with 8-bit values.", "quantifier": "every vector", "why_tests_cant": "index gaps at exact multiples of 255", "anchors": ["src/lava/proc/io/encoder.py:PyDeltaEncoderModelSparse.encode_delta_sparse_8", "src/lava/proc/io/encoder.py:PyDeltaEncoderModelSparse.decode_encode_delta_sparse_8"]}
{"id": "C37", "title": "Weights are always inside the representable range", "statement": "clip_weights returns weights in the range allowed by the sign mode and bit width, does not change weights already in range, and is idempotent.", "quantifier": "every weight matrix, sign mode and bit width", "why_tests_cant": "all integer weights", "anchors": ["src/lava/utils/weightutils.py:clip_weights", "src/lava/utils/weightutils.py:truncate_weights"]}
{"id": "C38", "title": "Weight bit optimisation is lossless when it claims to be", "statement": "optimize_weight_bits followed by truncation and scaling back by the exponent gives weights whose difference from the original is below one unit of the least significant kept bit.", "quantifier": "every weight matrix", "why_tests_cant": "all integer matrices", "anchors": ["src/lava/utils/weightutils.py:optimize_weight_bits", "src/lava/utils/weightutils.py:num_weight_bits"]}
{"id": "C39", "title": "Dense connection computes the matrix product one step later", "statement": "The bit-accurate Dense model sends at step t+1 exactly shift(W @ s(t)) and zero at step 1.", "quantifier": "every spike sequence, weight matrix, exponent", "why_tests_cant": "unbounded sequences", "anchors": ["src/lava/proc/dense/models.py:PyDenseModelBitAcc"]}
{"id": "C40", "title": "Delay connections deliver each spike after its synapse's delay", "statement": "DelayDense/DelaySparse output at step t is the sum over synapses (i,j) of w_ij * s_j(t-1-d_ij).", "quantifier": "every spike sequence, weight and delay matrix", "why_tests_cant": "unbounded sequences and delays", "anchors": ["src/lava/proc/dense/models.py:PyDelayDenseModelFloat", "src/lava/proc/sparse/models.py"]}
{"id": "C41", "title": "Fixed-point LIF state stays in 24-bit range", "statement": "For bit-accurate LIF, current u and voltage v stay within the hardware range for every input sequence.", "quantifier": "every input sequence and every legal parameter", "why_tests_cant": "unbounded input sequences, overflow corner cases", "anchors": ["src/lava/proc/lif/models.py:AbstractPyLifModelFixed.subthr_dynamics"]}
{"id": "C42", "title": "LIF spikes exactly when the threshold is exceeded, and resets", "statement": "A neuron emits a spike iff its voltage exceeds the threshold after the sub-threshold update, and its voltage is then 0.", "quantifier": "every state and input", "why_tests_cant": "all states", "anchors": ["src/lava/proc/lif/models.py:AbstractPyLifModelFixed.run_spk"]}
{"id": "C43", "title": "Refractory neurons are silent", "statement": "After a spike at step t, a refractory LIF neuron does not spike again before t + refractory period + 1.", "quantifier": "every input sequence", "why_tests_cant": "unbounded sequences", "anchors": ["src/lava/proc/lif/models.py:PyLifRefractoryModelFloat"]}
{"id": "C44", "title": "Sigma-delta conserves the signal", "statement": "Delta followed by Sigma reconstructs the signal with an error below the threshold at all times.", "quantifier": "every input sequence and threshold", "why_tests_cant": "unbounded sequences", "anchors": ["src/lava/proc/sdn/models.py:AbstractSigmaDeltaModel", "src/lava/proc/sdn/models.py:AbstractDeltaModel", "src/lava/proc/sdn/models.py:AbstractSigmaModel"]}
{"id": "C45", "title": "Fixed-point delta coding does not drift", "statement": "With state_exp shifts, the receiver's reconstruction stays within a fixed bound of the sender's activation.", "quantifier": "every input sequence", "why_tests_cant": "drift accumulates over unbounded time", "anchors": ["src/lava/proc/sdn/models.py:PyDeltaModelFixed", "src/lava/proc/sdn/models.py:PySigmaDeltaModelFixedCorrected"]}
{"id": "C46", "title": "Convolution equals its sparse-matrix form", "statement": "conv_to_sparse yields (dst, src, weight) triples whose matrix-vector product equals the convolution for every image.", "quantifier": "every kernel, image, stride, padding, dilation, group", "why_tests_cant": "all shapes and data", "anchors": ["src/lava/proc/conv/utils.py:conv_to_sparse", "src/lava/proc/conv/utils.py:conv_scipy"]}
{"id": "C47", "title": "Convolution output shape", "statement": "output_shape returns the number of kernel placements that fit, and raises when none fits.", "quantifier": "every size, kernel, stride, padding, dilation", "why_tests_cant": "all parameters", "anchors": ["src/lava/proc/conv/utils.py:output_shape"]}
{"id": "C48", "title": "Two's complement clamp", "statement": "signed_clamp(x, bits) is the unique value congruent to x modulo 2^bits in [-2^(bits-1), 2^(bits-1)).", "quantifier": "every integer and bit width", "why_tests_cant": "all integers", "anchors": ["src/lava/proc/conv/utils.py:signed_clamp"]}
{"id": "C49", "title": "Temporal convolution", "statement": "ConvInTime output at step t is the sum over k of W[K-1-k] @ s(t-1-k).", "quantifier": "every spike sequence and kernel", "why_tests_cant": "unbounded sequences", "anchors": ["src/lava/proc/conv_in_time/models.py"]}
{"id": "C50", "title": "Ring buffers replay and record the right items", "statement": "Source ring buffer sends item (t-1) mod n at step t; sink ring buffer holds after T steps the most recent min(T, n) items, each at its documented slot.", "quantifier": "every T and buffer size", "why_tests_cant": "unbounded time", "anchors": ["src/lava/proc/io/source.py", "src/lava/proc/io/sink.py"]}
{"id": "C51", "title": "Data loader schedule", "statement": "A loader with interval I and offset o loads a new sample exactly at steps t with (t-1) mod I = o mod I, in dataset order, cyclically.", "quantifier": "every interval, offset and dataset length", "why_tests_cant": "unbounded time", "anchors": ["src/lava/proc/io/dataloader.py"]}
{"id": "C52", "title": "Injector/extractor channel policies", "statement": "With the DROP policy send never blocks and drops only when the channel is full; with ACCUMULATE the receiver gets the sum of everything pending; with zeros-when-empty nothing is lost.", "quantifier": "every sequence of sends and receives", "why_tests_cant": "unbounded histories", "anchors": ["src/lava/proc/io/utils.py", "src/lava/proc/io/injector.py", "src/lava/proc/io/extractor.py"]}
{"id": "C53", "title": "Spiker periodicity", "statement": "A Spiker with period p emits its payload exactly at its period.", "quantifier": "every period and time", "why_tests_cant": "unbounded time", "anchors": ["src/lava/proc/spiker/models.py"]}
{"id": "C54", "title": "Bit overflow check", "statement": "The bit check flags a value iff it does not fit into the given number of signed bits.", "quantifier": "every value and bit width 1..31", "why_tests_cant": "all values", "anchors": ["src/lava/proc/bit_check/models.py"]}
{"id": "C55", "title": "Learning equation compiles to an equivalent sum of products", "statement": "The product series generated from a learning-rule string evaluates, for every assignment of the variables, to the value of the string read as arithmetic.", "quantifier": "every equation in the grammar, every assignment", "why_tests_cant": "unbounded expressions", "anchors": ["src/lava/magma/core/learning/symbolic_equation.py", "src/lava/magma/core/learning/product_series.py"]}
{"id": "C56", "title": "Traces stay in 7-bit range", "statement": "Bit-approximate traces stay in [0,127] for every spike sequence.", "quantifier": "every spike sequence, impulse, decay and random draw", "why_tests_cant": "unbounded sequences and all random draws", "anchors": ["src/lava/magma/core/model/py/connection.py"]}
{"id": "C57", "title": "Learning keeps weights legal and is silent without spikes", "statement": "After any learning epoch weights are in the legal range of their sign mode, and without any dependency spike in the epoch weights do not change.", "quantifier": "every rule, spike history and random draw", "why_tests_cant": "unbounded histories", "anchors": ["src/lava/magma/core/model/py/connection.py", "src/lava/magma/core/learning/learning_rule_applier.py"]}
{"id": "C58", "title": "Learning epochs", "statement": "Learning is executed exactly at multiples of t_epoch, and the u_k dependency is active exactly every 2^k epochs; a spike is recorded with its step within the epoch.", "quantifier": "every t_epoch, k and time", "why_tests_cant": "unbounded time", "anchors": ["src/lava/magma/core/model/py/connection.py"]}
{"id": "C59", "title": "Iterating a collection visits each member once", "statement": "for x in proc.vars (or in_ports, ...) visits every member exactly once in a fixed order, whatever loops ran before.", "quantifier": "every collection and history of (possibly interrupted, possibly nested) loops", "why_tests_cant": "history dependent", "anchors": ["src/lava/magma/core/process/process.py:Collection"]}
{"id": "C60", "title": "Identifiers are unique", "statement": "Process ids and Var ids handed out are pairwise distinct until the server is reset.", "quantifier": "every history of registrations", "why_tests_cant": "unbounded histories", "anchors": ["src/lava/magma/core/process/process.py:ProcessServer", "src/lava/magma/core/process/variable.py:VarServer"]}
{"id": "C61", "title": "Process parameters are never silently overwritten", "statement": "Assigning an existing key of proc_params raises and leaves the value; overwrite replaces exactly that key.", "quantifier": "every history", "why_tests_cant": "histories", "anchors": ["src/lava/magma/core/process/process.py:ProcessParameters"]}
{"id": "C62", "title": "Save and load agree on the file name", "statement": "load(name) finds what save(name) wrote.", "quantifier": "every file name", "why_tests_cant": "all names", "anchors": ["src/lava/utils/serialization.py"]}
{"id": "C63", "title": "Monitor records each probed variable", "statement": "After probing several variables, the monitor's data for each probed variable at row t is that variable's value after step t+1.", "quantifier": "every set of probes and every number of steps", "why_tests_cant": "arbitrary probe sets", "anchors": ["src/lava/proc/monitor/process.py", "src/lava/proc/monitor/models.py"]}
{"id": "C64", "title": "Other bit-accurate neurons stay in range", "statement": "Fixed-point RF, RF-Izhikevich and adaptive-threshold neurons keep their state within 24-bit range for every input sequence.", "quantifier": "every input sequence", "why_tests_cant": "unbounded sequences", "anchors": ["src/lava/proc/rf/models.py", "src/lava/proc/rf_iz/models.py", "src/lava/proc/atrlif/models.py"]}
{"id": "C65", "title": "Set-up decorators cannot silently change a model's contract", "statement": "A process model that declares implements/protocol cannot be re-declared for another process or protocol by a subclass; tags and resource requirements accumulate over inheritance.", "quantifier": "every chain of subclasses", "why_tests_cant": "arbitrary depth", "anchors": ["src/lava/magma/core/decorator.py"]}
{"id": "C66", "title": "Slurm environment switches are exclusive", "statement": "After any sequence of enable()/disable() calls exactly the environment of the last call is in force, and board/partition selection only ever names an available one.", "quantifier": "every call sequence", "why_tests_cant": "histories", "anchors": ["src/lava/utils/slurm.py"]}
{"id": "C67", "title": "Asynchronous service reports each run once", "statement": "An asynchronous domain answers each run command with DONE exactly if all its models finished normally, and an earlier request for pause or stop is not reported again for later runs.", "quantifier": "every number of models, every sequence of runs and answers", "why_tests_cant": "histories of runs; flags survive from run to run", "anchors": ["src/lava/magma/runtime/runtime_services/runtime_service.py:AsyncPyRuntimeService.run"]}
{"id": "C68", "title": "Variable access reaches the runtime service of the process", "statement": "Every process is served by the runtime service created for its sync domain, and the service id recorded for its variables selects the channel to that very service in the runtime; the management channels are told apart by their direction.", "quantifier": "every assignment of sync domains to nodes and every domain name", "why_tests_cant": "arbitrary numbers of domains and nodes, arbitrary names", "anchors": ["src/lava/magma/compiler/compiler.py:Compiler._create_runtime_service_builder", "src/lava/magma/compiler/compiler.py:Compiler._create_sync_channel_builders", "src/lava/magma/runtime/runtime.py:Runtime._build_sync_channels"]}
{"id": "C69", "title": "Sparse spike encoding restores the vector", "statement": "Writing the values sent by the SPARSE compression of the delta encoder to the positions sent with them, in a zero vector, restores the spike vector; positions are distinct and in range.", "quantifier": "every nonempty vector", "why_tests_cant": "All vectors, including all-zero ones and every pattern of nonzero positions, must be covered.", "anchors": ["src/lava/proc/io/encoder.py:PyDeltaEncoderModelSparse.encode_sparse"]}
{"id": "C70", "title": "A resetting LIF neuron forgets its history at reset steps", "statement": "From a time step at which the reset interval fires, the spikes and state of a LIFReset neuron depend only on the inputs from that step on, not on what happened before.", "quantifier": "every parameter set, every pair of earlier states, every later input train", "why_tests_cant": "all pairs of histories must be compared", "anchors": ["src/lava/proc/lif/models.py:PyLifResetModelBitAcc"]}
{"id": "C71", "title": "Convolution process delays by one step and wraps to 24 bits", "statement": "In every time step a fixed-point Conv process sends the convolution of the input of the previous step, reduced modulo 2^24 to a signed 24-bit value; in the first step it sends its initial buffer.", "quantifier": "every input sequence, kernel and time step", "why_tests_cant": "unbounded sequences and all values", "anchors": ["src/lava/proc/conv/models.py:AbstractPyConvModel.run_spk", "src/lava/proc/conv/models.py:PyConvModelFixed"]}
{"id": "C72", "title": "Resonate-and-fire neurons spike once per crossing", "statement": "An RF neuron spikes exactly when its imaginary part crosses zero upwards while the real part has reached the threshold, hence never in two consecutive steps; an RF-Izhikevich neuron is reset below its threshold by a spike and spikes again in the next step only if it gets positive imaginary input.", "quantifier": "every parameter set, state and input sequence", "why_tests_cant": "unbounded input sequences", "anchors": ["src/lava/proc/rf/models.py:PyRFModelFixed", "src/lava/proc/rf_iz/models.py:PyRF_IZModelFixed"]}
{"id": "C73", "title": "Graded neurons keep no hidden history", "statement": "GradedVec, GradedReluVec and ProdNeuron send in each step a function of the inputs of that step only; NormVecDelay multiplies with the input of exactly one step ago.", "quantifier": "every input sequence, threshold and time step", "why_tests_cant": "unbounded histories", "anchors": ["src/lava/proc/graded/models.py", "src/lava/proc/prodneuron/models.py"]}
{"id": "C74", "title": "RFZero computes the exact dynamics", "statement": "While the exact dynamics stay below 2^16 in magnitude, the int32 RFZero process has exactly the states and outputs of the exact dynamics.", "quantifier": "every parameter set and input sequence", "why_tests_cant": "overflow depends on the history", "anchors": ["src/lava/proc/resfire/models.py:PyRFZeroModelFixed"]}
{"id": "C75", "title": "Algebraic network syntax connects every summand once", "statement": "The statement v << A @ x + B @ y + z connects each product's vector to its matrix and each summand exactly once to v, however the sum is nested, or raises.", "quantifier": "every expression of networks, products and sums, every nesting", "why_tests_cant": "arbitrarily large and nested expressions", "anchors": ["src/lava/networks/network.py"]}
{"id": "C76", "title": "Results do not depend on scheduling", "statement": "In a program whose processes communicate by blocking sends and receives on point-to-point channels, any two executions that run until nothing can proceed end with the same process states and with the same messages having passed each channel in the same order; if one schedule completes, every fair schedule does.", "quantifier": "every network, every initial state, every pair of schedules", "why_tests_cant": "A test observes one or a few interleavings of the operating system scheduler.", "anchors": ["src/lava/magma/runtime/message_infrastructure/multiprocessing.py", "src/lava/magma/compiler/channels/pypychannel.py", "src/lava/magma/core/model/py/ports.py"]}
{"id": "C77", "title": "Networks deadlock exactly when they wait in a circle", "statement": "A network of time-stepped process models finishes all time steps under every fair schedule if and only if there is no set of channels each of whose senders first receives from a channel of the set; in particular recurrent networks are safe if every cycle contains a process that sends before it receives, such as Dense.", "quantifier": "every wiring, every channel capacity of at least one, every number of time steps, every schedule", "why_tests_cant": "Deadlocks depend on schedule, topology and capacity.", "anchors": ["src/lava/proc/dense/models.py:AbstractPyDenseModelBitAcc.run_spk", "src/lava/proc/lif/models.py", "src/lava/magma/core/model/py/ports.py"]}
{"id": "C78", "title": "The runtime service keeps process models in lockstep", "statement": "No process model starts a time step before all process models of its runtime service have done all channel operations of the previous ones, and the command and response channels cannot cause a deadlock.", "quantifier": "every number of process models, every wiring between them, every schedule", "why_tests_cant": "Holds for all interleavings of an unbounded number of processes.", "anchors": ["src/lava/magma/runtime/runtime_services/runtime_service.py:LoihiPyRuntimeService.run", "src/lava/magma/core/model/py/model.py:PyLoihiProcessModel"]}
{"id": "C79", "title": "A network computes its synchronous equations", "statement": "In every execution the message on a channel in time step t is the one determined by the synchronous equations, in which every process reads in step t what the others send in step t; these equations have exactly one solution when the network cannot deadlock. A recurrent LIF and Dense network computes a(t+1) = W s(t), s(t) = LIF(a(0..t)).", "quantifier": "every network without circular wait, every schedule, every number of steps", "why_tests_cant": "Processes run ahead of each other differently in every execution.", "anchors": ["src/lava/magma/core/model/py/model.py", "src/lava/proc/dense/models.py", "src/lava/proc/lif/models.py"]}
{"id": "C80", "title": "Calls of the runtime behave sequentially", "statement": "A user program of run (blocking and non-blocking), wait, get, set and stop calls that does not start or stop a run while one is going on sees exactly the results of executing the calls one after the other: each run advances every runtime service by its number of steps, get sees the last value, and under every fair schedule all calls return. Overlapping non-blocking runs, stop during a run and stop before any run do not have this property.", "quantifier": "every program of calls, every number of runtime services, every schedule of host and services, every choice of select", "why_tests_cant": "Host and services are separate operating system processes; a test observes few interleavings and few programs.", "anchors": ["src/lava/magma/runtime/runtime.py:Runtime._run", "src/lava/magma/runtime/runtime.py:Runtime._get_resp_for_run", "src/lava/magma/runtime/runtime.py:Runtime.get_var", "src/lava/magma/runtime/runtime.py:Runtime.set_var", "src/lava/magma/runtime/runtime.py:Runtime.stop"]}
{"id": "C81", "title": "Novelty detection", "statement": "NoveltyDetector sends its signal in a time step exactly if the last input was t_wait + 1 steps before and no output arrived since then, and zero in every other step; so each input is signalled at most once, and an input repeated within the waiting time is never signalled.", "quantifier": "every pair of input and output trains, every waiting time, every time step", "why_tests_cant": "Depends on the whole history of two event trains.", "anchors": ["src/lava/proc/clp/novelty_detector/models.py:PyNoveltyDetectorModel.run_spk"]}
{"id": "C82", "title": "Prototype labels and allocation", "statement": "In the CLP processes a prototype gets the first label the user gives while it is the most recent winner, keeps it forever, and carries a negative pseudo label before; feedback and allocation triggers compare the user label with that name; the k-th trigger allocates exactly the k-th prototype, whose learning trace alone is then 127.", "quantifier": "every history of prototype outputs, user labels and triggers, every number of prototypes", "why_tests_cant": "Labels depend on unbounded histories of winners and labels.", "anchors": ["src/lava/proc/clp/nsm/models.py:PyReadoutModel.run_spk", "src/lava/proc/clp/nsm/models.py:PyAllocatorModel.run_spk", "src/lava/proc/clp/prototype_lif/models.py:PrototypeLIFBitAcc.run_spk", "src/lava/proc/clp/id_broadcast/models.py"]}
{"id": "C83", "title": "Hierarchical processes are expanded completely", "statement": "The compiler maps every process found at any depth inside the processes to be compiled, and only those, to exactly its leaf process model; every sub process is elaborated before the process it belongs to; afterwards is_sub_proc_of tells exactly which process is strictly inside which; expansion ends for every well founded nesting.", "quantifier": "every nesting of SubProcessModels of any depth and width, every selection of process models", "why_tests_cant": "Nestings are unbounded trees; the result depends on attribute names, class names and recursion.", "anchors": ["src/lava/magma/compiler/compiler_graphs.py:ProcGroupDiGraphs._map_proc_to_model", "src/lava/magma/compiler/compiler_graphs.py:ProcGroupDiGraphs._expand_sub_proc_model", "src/lava/magma/core/model/sub/model.py:AbstractSubProcessModel.find_sub_procs", "src/lava/magma/core/process/process.py:AbstractProcess.is_sub_proc_of"]}
{"id": "C84", "title": "The process graph has an edge exactly where data flow", "statement": "The resolved process graph, which decides process groups and compilation order, has an edge from one leaf process to another exactly if a port of the first sends to, or refers to, a port of the second through any number of ports of enclosing processes; no enclosing process is a node.", "quantifier": "every port graph made by connection calls, every nesting", "why_tests_cant": "Chains of ports are unbounded and shared between many connections.", "anchors": ["src/lava/magma/compiler/compiler_graphs.py:ProcDiGraph._find_terminal_procs_recursively", "src/lava/magma/compiler/compiler_graphs.py:ProcDiGraph._traverse_ports_of_proc", "src/lava/magma/compiler/compiler_graphs.py:ProcDiGraph.__init__"]}
{"id": "C85", "title": "S4D processes are linear filters", "statement": "S4d sends in every step twice the real part of c times the response of the linear state-space model to all inputs up to and including that step; what SigmaS4dDelta has sent so far differs from the response to the summed inputs by less than the threshold, without accumulating error; a SigmaS4dDeltaLayer with d states per input computes the sum of its d filters, two steps late, within d thresholds.", "quantifier": "every parameter, initial state, input sequence, time step, layer size", "why_tests_cant": "Errors could accumulate over unbounded histories.", "anchors": ["src/lava/proc/s4d/models.py:S4dModel.run_spk", "src/lava/proc/s4d/models.py:PySigmaS4dDeltaModelFloat", "src/lava/proc/s4d/models.py:SubDenseLayerModel", "src/lava/proc/s4d/process.py"]}
{"id": "C86", "title": "Floating-point learning is trace based and STDPLoihi is pair-based STDP", "statement": "In a floating-point learning connection every trace read by a rule equals the exponentially decayed sum of the impulses of all spikes so far, and the weight after every epoch is the initial weight plus the rule's terms of the epochs; with STDPLoihi the weight change is the pair-based STDP of the whole spike trains with the given learning rate and amplitudes; between epochs the weight does not change.", "quantifier": "every pair of spike trains, every epoch length, decay, impulse and amplitude, every number of epochs", "why_tests_cant": "The weight depends on the whole history of both spike trains.", "anchors": ["src/lava/magma/core/model/py/connection.py:LearningConnectionModelFloat", "src/lava/magma/core/learning/learning_rule_applier.py:LearningRuleApplierFloat", "src/lava/magma/core/learning/utils.py:float_to_literal", "src/lava/proc/learning_rules/stdp_learning_rule.py:STDPLoihi"]}
{"id": "C87", "title": "Reward-modulated STDP", "statement": "With RewardModulatedSTDP the eligibility trace is the leaky sum of the STDP terms of all epochs, decaying with the given time constant, and every epoch adds the eligibility trace times the reward trace of the post-synaptic neuron to the weight, whatever the spike trains and rewards.", "quantifier": "every pair of spike trains, every reward history, every parameter, every number of epochs", "why_tests_cant": "Depends on the whole history of spikes and rewards.", "anchors": ["src/lava/proc/learning_rules/r_stdp_learning_rule.py:RewardModulatedSTDP", "src/lava/magma/core/learning/learning_rule.py:Loihi3FLearningRule", "src/lava/magma/core/model/py/connection.py:LearningConnectionModelFloat"]}
{"id": "C88", "title": "Ports are wired as the network says", "statement": "The t-th value a process model receives on an InPort is the sum of the t-th values sent on the OutPorts connected to it, each transformed by the virtual ports on the way, whatever all other ports do; it arrives as soon as all of them have sent; requests of a RefPort reach its VarPort and the answers come back; no two ports share an end of a channel.", "quantifier": "every set of connections between leaf ports of Python process models, every history of sends and receives", "why_tests_cant": "Networks and histories are unbounded; the ends are matched through dictionaries keyed by port names and process ids.", "anchors": ["src/lava/magma/compiler/subcompilers/channel_builders_factory.py:ChannelBuildersFactory.from_channel_map", "src/lava/magma/runtime/runtime.py:Runtime._build_channels", "src/lava/magma/compiler/builders/py_builder.py:PyProcessBuilder.build", "src/lava/magma/core/model/py/ports.py:VirtualPortTransformer", "src/lava/magma/core/model/py/ports.py:PyInPortVectorDense.recv"]}
{"id": "C89", "title": "Continuous runs can be paused, read, resumed and stopped", "statement": "A program of run, wait, pause, get, set and stop calls that pauses only continuous runs sees the results of executing the calls one after the other, where a continuous run that is paused has done at least one step in every runtime service; after a pause get and set work and a continuous run can be started again and stopped; under every fair schedule all calls return.", "quantifier": "every program of calls, every number of runtime services, every schedule of host and services, every choice of select", "why_tests_cant": "The pause command reaches each service at an arbitrary moment of an endless run.", "anchors": ["src/lava/magma/runtime/runtime.py:Runtime.pause", "src/lava/magma/runtime/runtime.py:Runtime._run", "src/lava/magma/runtime/runtime.py:Runtime.stop", "src/lava/magma/runtime/runtime.py:Runtime._get_resp_for_run", "src/lava/magma/runtime/runtime_services/runtime_service.py:LoihiPyRuntimeService.run", "src/lava/magma/core/run_conditions.py:RunContinuous"]}
{"id": "C90", "title": "Process models can end a run", "statement": "When a process model requests a pause, the run in progress ends with that time step, the call returns, Vars can be read and written and the next run goes on from there; when a process model requests a stop, the call returns with everything stopped; when process models raise exceptions, the call raises a RuntimeError that tells how many of them failed; the calls of a program see the results of executing them one after the other, and under every fair schedule they return.", "quantifier": "every program of calls, every behaviour of the process models, every time step of a request or exception, every schedule of host and service", "why_tests_cant": "Requests and exceptions can come in any step of any run, and their messages race with those of the host.", "anchors": ["src/lava/magma/runtime/runtime.py:Runtime._get_resp_for_run", "src/lava/magma/runtime/runtime.py:Runtime.pause", "src/lava/magma/runtime/runtime.py:Runtime.stop", "src/lava/magma/runtime/runtime_services/runtime_service.py:LoihiPyRuntimeService.run", "src/lava/magma/runtime/runtime_services/runtime_service.py:LoihiPyRuntimeService._next_phase", "src/lava/magma/runtime/runtime_services/runtime_service.py:LoihiPyRuntimeService._get_pm_resp", "src/lava/magma/core/model/py/model.py:AbstractPyProcessModel.run", "src/lava/magma/core/model/py/model.py:PyLoihiProcessModel._handle_pause_or_stop_req"]}
{"id": "C91", "title": "Exceptions of process models are reported", "statement": "If a process model of any of the runtime services raises an exception during a blocking run, the run raises a RuntimeError with the number of process models that failed; if none does, it returns with all steps done in all services.", "quantifier": "every number of runtime services, every behaviour of their process models, every run length, every schedule, every choice of select", "why_tests_cant": "The services fail independently of each other at arbitrary moments.", "anchors": ["src/lava/magma/runtime/runtime.py:Runtime._get_resp_for_run", "src/lava/magma/runtime/runtime_services/runtime_service.py:LoihiPyRuntimeService.run", "src/lava/magma/runtime/message_infrastructure/multiprocessing.py:SystemProcess"]}
{"id": "C92", "title": "Learning-rule objects", "statement": "A learning rule can be constructed exactly from texts that are each accepted and agree on k of u_k, with nonnegative impulses and time constants and a positive epoch length; in every time step the change it computes for each of dw, dd, dt is the number the text denotes, where u_k is 1 in every 2^k-th learning epoch and 0 otherwise; after any history of changes of texts or parameters, before or during a run, it behaves as if freshly constructed from the current values; a refused change leaves it as it was; the traces it reports as active are those that occur.", "quantifier": "every three texts, every parameter values, every time step and trace value, every history of updates", "why_tests_cant": "Texts and histories are unbounded, and the decimate exponent is found by a separate search in the text.", "anchors": ["src/lava/magma/core/learning/learning_rule.py:LoihiLearningRule", "src/lava/magma/core/learning/learning_rule.py:LoihiLearningRule._validate_uk", "src/lava/magma/core/model/py/connection.py:PyLearningConnection.on_var_update", "src/lava/magma/core/model/py/connection.py:LearningConnectionModelFloat._extract_applier_args", "src/lava/magma/core/learning/product_series.py:ProductSeries"]}
{"id": "C93", "title": "Every process of a network controls the same run", "statement": "A network is compiled and started by the first successful run() on any of its processes; from then on run, wait, pause and stop on any process of the network act on that one run, in the order of the calls, and calls on other networks do not; no process is ever executed by two runtimes; a run() that raised can be repeated with another run configuration.", "quantifier": "every number and wiring of networks, every history of calls on any processes including failing ones and later connections, every choice of process models and sub processes", "why_tests_cant": "Calls on several networks, failures and hierarchical processes can be combined in unboundedly many orders.", "anchors": ["src/lava/magma/core/process/process.py:AbstractProcess.run", "src/lava/magma/core/process/process.py:AbstractProcess.create_runtime", "src/lava/magma/core/process/process.py:AbstractProcess.stop", "src/lava/magma/compiler/compiler_graphs.py:ProcGroupDiGraphs.__init__", "src/lava/magma/compiler/executable.py:Executable.assign_runtime_to_all_processes", "src/lava/magma/runtime/runtime.py:Runtime.initialize", "src/lava/magma/runtime/runtime.py:Runtime.start"]}
{"id": "C94", "title": "Programs in the algebraic vector syntax compute what they say", "statement": "A network written with statements like v << A @ x + B @ y + z, executed for any number of steps, gives in every step to each graded vector the thresholded value of the right-hand sides of its statements on the vectors of the step before, where A @ x is the matrix-vector product with the given weights up to the fixed-point resolution, and a * b gives the elementwise product two steps later; the values do not depend on the schedule and the execution does not deadlock, also with feedback loops.", "quantifier": "every program of statements, every sizes, weights, inputs, thresholds and fixed-point exponents, every number of steps, channel capacities and schedule", "why_tests_cant": "Programs, inputs and schedules are unbounded, weights are quantised.", "anchors": ["src/lava/networks/gradedvecnetwork.py:GradedVec", "src/lava/networks/gradedvecnetwork.py:GradedDense", "src/lava/networks/gradedvecnetwork.py:GradedSparse", "src/lava/networks/gradedvecnetwork.py:ProductVec", "src/lava/networks/network.py:AlgebraicVector", "src/lava/networks/network.py:AlgebraicMatrix", "src/lava/proc/graded/models.py:AbstractGradedVecModel", "src/lava/proc/prodneuron/models.py:PyProdNeuronModelFixed", "src/lava/proc/dense/models.py:AbstractPyDenseModelBitAcc"]}
{"id": "C95", "title": "Fixed-point normalisation", "statement": "The inverse square root of any 24-bit number is computed in fixed point up to a stated relative error; the normalisation network sends for every input vector, with a fixed delay, that vector divided by its length in fixed point.", "quantifier": "every 24-bit argument, every sequence of input vectors, every number of steps and schedule", "why_tests_cant": "There are 2^24 arguments with an iteration and a table each, and unboundedly many sequences of inputs in a feedback loop.", "anchors": ["src/lava/proc/graded/models.py:InvSqrtModelFP", "src/lava/proc/graded/models.py:inv_sqrt", "src/lava/proc/graded/models.py:NormVecDelayModel", "src/lava/networks/gradedvecnetwork.py:NormalizeNet"]}
{"id": "C96", "title": "A program of calls shows what the network's equations say", "statement": "A program of run(n), get and set calls on a network, ended by stop, shows for every get the value that the synchronous time steps and the sets before it give (a time step: every spiking phase with this step's messages, then pre-learning, learning and post-learning management where asked for); at any moment of any schedule of the host, the runtime services and the process models the user has seen an initial part of this, the system never deadlocks, and every fair schedule completes the program with all processes ended. How process models are grouped into services is not visible if pre-learning management is asked for only together with learning and the guards are not changed by the management phases. Assumed: no circle of processes that all receive before they send, and no set with more items than the Var has.", "quantifier": "every program of calls, every network and process-model code, every grouping into services, every channel capacities, every schedule", "why_tests_cant": "Programs, numbers of steps and processes and schedules are unbounded, three kinds of concurrent programs take part.", "anchors": ["src/lava/magma/runtime/runtime.py:Runtime._run", "src/lava/magma/runtime/runtime.py:Runtime.get_var", "src/lava/magma/runtime/runtime.py:Runtime.set_var", "src/lava/magma/runtime/runtime.py:Runtime.stop", "src/lava/magma/runtime/runtime_services/runtime_service.py:LoihiPyRuntimeService.run", "src/lava/magma/runtime/runtime_services/runtime_service.py:LoihiPyRuntimeService._next_phase", "src/lava/magma/core/model/py/model.py:PyLoihiProcessModel", "src/lava/magma/core/model/py/model.py:AbstractPyProcessModel.run"]}
{"id": "C97", "title": "Compiling with a cache does not change the program", "statement": "With compile_config['cache'] every compilation gives the executable that a compilation without cache gives for the current network and run configuration: same process models, initial values, parameters, channels and transformations, and get and set reach the same Vars; this holds for every history of compilations with the same directory and after interruptions.", "quantifier": "every network, every history of compilations of different networks with one cache directory, every interruption of writing", "why_tests_cant": "What is reused depends on an unbounded history of earlier compilations, and on names and ids that tests keep fixed.", "anchors": ["src/lava/magma/compiler/compiler.py:Compiler._compile_proc_groups", "src/lava/magma/compiler/channel_map.py:ChannelMap.write_to_cache", "src/lava/magma/compiler/channel_map.py:ChannelMap.read_from_cache", "src/lava/magma/compiler/subcompilers/py/pyproc_compiler.py:PyProcCompiler._create_builder_for_process", "src/lava/magma/compiler/builders/py_builder.py:PyProcessBuilder", "src/lava/magma/core/model/py/ports.py:VirtualPortTransformer", "src/lava/magma/compiler/var_model.py:AbstractVarModel"]}
{"id": "C98", "title": "Watchdogs report blocked ports", "statement": "With compile_config['use_watchdog'] a call of a port method that is blocked for longer than the timeout gives one message for every timeout that elapses, and no call that is shorter gives a message; stop ends the watchdogs, whatever the ports do.", "quantifier": "every number of ports, every history of calls of any durations, every schedule of ports, monitor and its threads, every timeout", "why_tests_cant": "Messages come from threads that race with the next calls of the same port.", "anchors": ["src/lava/magma/compiler/channels/watchdog.py:Watchdog", "src/lava/magma/compiler/channels/watchdog.py:EventCompletionMonitor.monitor", "src/lava/magma/compiler/channels/watchdog.py:EventCompletionMonitor.event_monitor", "src/lava/magma/compiler/channels/watchdog.py:WatchdogManager.stop", "src/lava/magma/compiler/channels/pypychannel.py:CspRecvPort.recv"]}
{"id": "C99", "title": "Sparse connections compute what Dense connections compute", "statement": "A Sparse, DelaySparse or LearningSparse process sends in every step exactly what the Dense, DelayDense or LearningDense process with the same arguments and the same matrix sends, however the matrix is stored, and its weights can be read and written and learn in the same way.", "quantifier": "every weights, stored pattern (also stored zeros), sign mode, precision, exponent, delays, spike train, number of steps and learning rule", "why_tests_cant": "patterns, weights and runs are unbounded; quantisation changes the stored pattern", "anchors": ["src/lava/proc/sparse/models.py:AbstractPySparseModelBitAcc", "src/lava/proc/sparse/models.py:AbstractPyDelaySparseModel", "src/lava/utils/weightutils.py:truncate_weights", "src/lava/utils/weightutils.py:clip_weights", "src/lava/magma/core/process/variable.py:Var.get"]}
{"id": "C100", "title": "Fixed-point connections in machine integers", "statement": "The fixed-point Dense, Sparse and delay connections compute in 32- and 64-bit integers that wrap around silently. What such a connection sends is the exact activation - the matrix product of the prepared weights with the spikes of the step before, scaled by the weight exponent and rounded down - whenever that value fits in 32 bits, and is congruent to it modulo 2^32 otherwise; in particular it is exact whenever inputs * 2^8 * largest spike * 2^max(weight_exp, 0) < 2^31.", "quantifier": "all weight matrices, spike trains (binary and graded), exponents, sign modes, numbers of weight bits, delays and time steps", "why_tests_cant": "Overflow needs large payloads or many inputs at the same time; tests use small numbers and compare with the same numpy arithmetic.", "anchors": ["src/lava/proc/dense/models.py:AbstractPyDenseModelBitAcc.run_spk", "src/lava/proc/dense/models.py:PyDelayDenseModelBitAcc.run_spk", "src/lava/proc/sparse/models.py:AbstractPySparseModelBitAcc.run_spk"]}
{"id": "C101", "title": "Applications that talk to a running network", "statement": "An application that calls Injector.send, Extractor.receive, run and wait in any order while the network runs (default channel configuration) gets, from its t-th receive, the output of time step t of the network fed with the sent items one per time step - for every timing. It completes whenever each receive is preceded by enough sends and started time steps, and each send leaves no more items in flight than fit in the two buffers and the network: batches that fit the buffers, closed loops of any length, streams that run ahead by at most both buffers plus one.", "quantifier": "all application programs, all networks, all buffer sizes, all numbers of time steps and all interleavings", "why_tests_cant": "Which buffer fills first depends on the schedule, and a hang is not observable in a finite test; tests use a few items and small delays.", "anchors": ["src/lava/proc/io/injector.py:Injector.send", "src/lava/proc/io/injector.py:PyLoihiInjectorModel.run_spk", "src/lava/proc/io/extractor.py:Extractor.receive", "src/lava/proc/io/extractor.py:PyLoihiExtractorModel.run_spk", "src/lava/magma/runtime/runtime.py:Runtime._run", "src/lava/magma/runtime/runtime.py:Runtime.wait"]}
{"id": "C102", "title": "Building process models", "statement": "The compiler accepts a process with a process model exactly if the model declares a LavaPyType for every Var and port of the process and for nothing else; every OutPort gets the connection configuration of its connection. An array Var starts with the initial value of the process, broadcast to the shape of the Var and converted to the type the model declares, and a value that cannot be broadcast is an error. run returns only after all models were built; if building fails anywhere it raises the exception of the first model that failed, whatever the timing.", "quantifier": "all processes and process models, all numbers of ports and connections, all shapes and values, all orders in which the models are built", "why_tests_cant": "Names, shapes and connections are unbounded, and the models are built in parallel processes.", "anchors": ["src/lava/magma/compiler/subcompilers/py/pyproc_compiler.py:PyProcCompiler._create_builder_for_process", "src/lava/magma/compiler/subcompilers/py/pyproc_compiler.py:PyProcCompiler._create_outport_initializers", "src/lava/magma/compiler/builders/py_builder.py:PyProcessBuilder.check_all_vars_and_ports_set", "src/lava/magma/compiler/builders/py_builder.py:PyProcessBuilder.build", "src/lava/magma/runtime/runtime.py:Runtime.initialize", "src/lava/magma/runtime/runtime.py:target_fn"]}
{"id": "C103", "title": "The search for process models", "statement": "For a process, the compiler finds exactly the process models that were declared with @implements for its class, in its own module (these first) or in any module of the same directory, each once; it raises NoProcessModelFound exactly if there are none.", "quantifier": "all modules, packages and classes", "why_tests_cant": "What is found depends on all files next to the process, on how they import it and on the package layout; tests have one layout.", "anchors": ["src/lava/magma/compiler/compiler_graphs.py:ProcGroupDiGraphs._find_proc_models", "src/lava/magma/compiler/compiler_graphs.py:ProcGroupDiGraphs._find_proc_models_in_module"]}
{"id": "C104", "title": "Management messages reach the right process model", "statement": "Every runtime service is connected to the runtime and to each process model of its sync domain by one channel in each direction, shared with nobody else; a request (phase command, get or set of a Var) for a process is received by the model of that process, and the answer comes back on the port at the same position.", "quantifier": "all sets of sync domains with any names and any numbers of processes", "why_tests_cant": "Channels are matched through dictionaries, list positions and substrings of names; tests have a few processes and default names.", "anchors": ["src/lava/magma/compiler/compiler.py:Compiler._create_sync_channel_builders", "src/lava/magma/runtime/runtime.py:Runtime._build_sync_channels", "src/lava/magma/compiler/builders/runtimeservice_builder.py:RuntimeServiceBuilder.build", "src/lava/magma/compiler/builders/py_builder.py:PyProcessBuilder.build", "src/lava/magma/runtime/runtime_services/runtime_service.py:PyRuntimeService._send_pm_req_given_model_id"]}
{"id": "C105", "title": "Setting a Var of a learning connection changes nothing else", "statement": "After any history of Var.set calls on a paused network, a learning connection works with the rule freshly constructed from the last value of each parameter (impulses, time constants, texts) that was set and the constructor's value of each parameter that was not; setting a Var that is no parameter of the rule, such as the weights, leaves the rule as it was, and Var.get returns the value in use.", "quantifier": "all learning rules, all parameter values, all histories of Var.set calls, fixed and floating point", "why_tests_cant": "The parameters live twice, in the rule and in Vars of another type; tests set one parameter with integer values.", "anchors": ["src/lava/magma/core/model/py/connection.py:LearningConnectionModel.on_var_update", "src/lava/magma/core/model/py/connection.py:LearningConnectionModelBitApproximate._store_impulses_and_taus", "src/lava/magma/core/process/connection.py:LearningConnectionProcess", "src/lava/magma/core/model/py/model.py:AbstractPyProcessModel._set_var", "src/lava/magma/compiler/builders/py_builder.py:PyProcessBuilder.build"]}
{"id": "C106", "title": "Three-factor learning uses the post-synaptic traces it receives", "statement": "A fixed-point connection with a three-factor rule reads, in each learning phase and for every dependency, the trace values the post-synaptic neuron sent in the last step of the epoch, negative ones included, and whatever the neuron sends the weights, delays and tags stay in their ranges.", "quantifier": "all three-factor rules, spike trains, received values, random numbers and run lengths", "why_tests_cant": "The traces pass through the connection's own history with decay, impulse and clipping, with random rounding; tests compare a few plotted curves.", "anchors": ["src/lava/magma/core/model/py/connection.py:LearningConnectionModelBitApproximate._compute_trace_histories", "src/lava/magma/core/model/py/connection.py:LearningConnectionModel.recv_traces", "src/lava/magma/core/model/py/connection.py:LearningConnectionModelBitApproximate._update_traces", "src/lava/magma/core/learning/learning_rule.py:Loihi3FLearningRule", "src/lava/proc/learning_rules/r_stdp_learning_rule.py:RewardModulatedSTDP"]}
{"id": "C107", "title": "One-shot learning stores the pattern in the allocated prototype", "statement": "In the continual prototype learner, the weights to a prototype are zero until that prototype is allocated; from its allocation on they equal the input pattern shown last, up to the rounding of payload, traces and product, and no later pattern, novelty signal or allocation changes them.", "quantifier": "all input histories with payloads up to 254, all histories of novelty signals within the number of prototypes, all random numbers, all run lengths", "why_tests_cant": "Allocation times, patterns and random rounding interact over the whole run; the tests check two patterns at fixed times.", "anchors": ["src/lava/proc/clp/prototype_lif/models.py:PrototypeLIFBitAcc.run_spk", "src/lava/proc/clp/nsm/models.py:PyAllocatorModel.run_spk", "src/lava/magma/core/model/py/connection.py:LearningConnectionModelBitApproximate", "src/lava/proc/dense/models.py:PyLearningDenseModelBitApproximate.run_spk", "tutorials/in_depth/clp/clp.py:CLP"]}
{"id": "C108", "title": "Synapses of a learning connection learn independently", "statement": "In a dense fixed-point learning connection of any size, the state of each synapse after any number of steps is the one it would have alone, with only its own two neurons: it depends on no other neuron's spikes or third factors and on no other weight, and no shapes of the arrays involved ever fail to match.", "quantifier": "all sizes (also 1 and 0), all rules, two and three factors, all graded-spike modes, all spike histories, random numbers and run lengths", "why_tests_cant": "The code works on whole arrays with boolean and integer index arrays, diagonals, transposes and broadcasting; tests use a few sizes.", "anchors": ["src/lava/magma/core/model/py/connection.py:LearningConnectionModelBitApproximate", "src/lava/magma/core/model/py/connection.py:LearningConnectionModel._extract_applier_evaluated_traces", "src/lava/magma/core/learning/learning_rule_applier.py:LearningRuleApplierBitApprox"]}
{"id": "C109", "title": "Fixed-point neurons follow the floating-point neurons", "statement": "A fixed-point LIF, ATRLIF, RF or RF_IZ neuron and the floating-point neuron with the matching parameters (decays divided by their unit, LIF and ATRLIF current decay one unit larger, states scaled) stay within an explicit bound of each other and spike in exactly the same steps, for every input, as long as the floating-point neuron stays in the 24-bit range and its membrane keeps more than that bound away from the spike decision; the bound is constant for decaying neurons and grows linearly otherwise.", "quantifier": "all parameters, inputs, initial states and numbers of steps", "why_tests_cant": "Rounding errors accumulate over a run; a test sees one parameter set and a few steps.", "anchors": ["src/lava/proc/lif/models.py:PyLifModelFloat", "src/lava/proc/lif/models.py:PyLifModelBitAcc", "src/lava/proc/atrlif/models.py:PyATRLIFModelFloat", "src/lava/proc/atrlif/models.py:PyATRLIFModelFixed", "src/lava/proc/rf/models.py:PyRFModelFloat", "src/lava/proc/rf/models.py:PyRFModelFixed", "src/lava/proc/rf_iz/models.py:PyRF_IZModelFloat"]}
{"id": "C110", "title": "A LIF neuron under constant drive fires periodically", "statement": "A floating-point LIF neuron that starts at rest and gets a constant drive (a bias, or an input with du = 1) fires exactly in the steps n, 2n, 3n, ... where n is the first number of steps whose accumulated drive exceeds the threshold, and never if there is none; with a voltage decay it fires iff drive / dv exceeds vth, without decay its period is floor(vth / drive) + 1.", "quantifier": "all decays, thresholds, drives and steps", "why_tests_cant": "The claim is about all steps and the exact rate for all parameters.", "anchors": ["src/lava/proc/lif/models.py:PyLifModelFloat", "src/lava/proc/lif/models.py:AbstractPyLifModelFloat"]}
{"id": "C111", "title": "A fixed-point network spikes like the floating-point network", "statement": "A network of bit-accurate LIF populations and Dense connections, of any topology (also recurrent), produces exactly the spikes of the floating-point network with the matching neuron parameters, for every external input, as long as every floating-point neuron stays in the 24-bit range and away from its threshold by more than an explicit error bound; rounding of the weights enters the bound by the sum of the weight differences per neuron.", "quantifier": "all networks (sizes, topologies, weights, weight exponents, neuron parameters), all external inputs, all numbers of steps", "why_tests_cant": "A single deviating spike feeds back through the network; a test covers one network and one input.", "anchors": ["src/lava/proc/lif/models.py:PyLifModelBitAcc", "src/lava/proc/lif/models.py:PyLifModelFloat", "src/lava/proc/dense/models.py:PyDenseModelBitAcc", "src/lava/proc/dense/models.py:PyDenseModelFloat"]}
{"id": "C112", "title": "Listeners, buffer sizes and the order of connections do not change results", "statement": "Adding processes that only listen to a network (probes, sinks, a second network behind it), changing channel buffer sizes, connecting ports in another order or running longer changes neither the messages between the original processes nor their states, and sinks cannot make the network deadlock.", "quantifier": "all networks whose loops contain a connection, all extensions that send nothing back, all schedules of both networks, all buffer sizes and channel orders", "why_tests_cant": "The claim compares two networks over all schedules of both.", "anchors": ["src/lava/magma/core/model/py/ports.py:PyInPortVectorDense", "src/lava/magma/core/model/py/ports.py:PyOutPortVectorDense", "src/lava/magma/compiler/channels/pypychannel.py:CspSendPort", "src/lava/magma/core/process/ports/ports.py:AbstractPort.connect"]}
{"id": "C113", "title": "Accesses to Vars of other processes through RefPorts", "statement": "When process models use RefPorts in the management phases only, wait for every write, and access a Var that is written through a RefPort through no other RefPort, runs are deterministic: the Vars of all processes after a run are those of a sequential execution in which every access is carried out at once, after the owner's own method of the phase. Requests are served only when the owner has finished its own method of the same phase. Runs get to their end if accesses form no circle, and never do once models of a circle wait for each other.", "quantifier": "all systems of process models with RefPorts, VarPorts, OutPorts and InPorts, all methods and guards, all channel capacities, all sequences of runs, all schedules and all choices of the selectors", "why_tests_cant": "Serving of VarPorts competes with commands of the runtime service; which one a process model takes first depends on timing, and a wrong interleaving is rare.", "anchors": ["src/lava/magma/core/model/py/ports.py:PyRefPortVectorDense", "src/lava/magma/core/model/py/ports.py:PyVarPortVectorDense", "src/lava/magma/core/model/py/model.py:PyLoihiProcessModel", "src/lava/magma/compiler/channels/pypychannel.py:CspSelector", "src/lava/magma/runtime/runtime_services/runtime_service.py:LoihiPyRuntimeService"]}
{"id": "C114", "title": "What is connected is what is computed", "statement": "A user creates ports, connects them (through hierarchical processes, with calls that raise in between), and runs the network with any program of run, get, set and stop calls. Whatever the schedule of host, runtime services and process models, what the calls return is what the equations of the network define: in every time step every OutPort has one value, every InPort of a process model receives the sum of the values of all OutPorts connected to it, directly or through hierarchical ports (transformed by the virtual ports in between), each counted once, and zero if there are none. The results are unique, an execution that cannot go on has shown all of them and has terminated, and every fair schedule gets there, provided that no connections wait for each other in a circle.", "quantifier": "all networks of process models with any methods, all programs of port constructor and connect/connect_from calls, all channel maps, all capacities, all programs of API calls and all schedules", "why_tests_cant": "Connects the port graph, the compiler's channel map, the runtime's channel construction and the concurrent execution; tests run one network under one schedule.", "anchors": ["src/lava/magma/core/process/ports/ports.py:AbstractPort.connect", "src/lava/magma/compiler/channel_map.py:ChannelMap.from_proc_groups", "src/lava/magma/runtime/runtime.py:Runtime._build_channels", "src/lava/magma/core/model/py/ports.py:PyInPortVectorDense.recv", "src/lava/magma/core/model/py/ports.py:PyOutPortVectorDense.send", "src/lava/magma/core/model/py/model.py:PyLoihiProcessModel", "src/lava/magma/runtime/runtime_services/runtime_service.py:LoihiPyRuntimeService"]}
{"id": "C115", "title": "Spiking networks compute what a step-by-step simulation computes", "statement": "A network of neuron processes (receive, update, send), connection processes (send the result of the step before, then receive), sources and sinks, written with connect calls and run with any program of run, get, set and stop calls, shows under every schedule exactly what a step-by-step simulation of the network shows; recurrent connections never deadlock. For LIF populations and Dense connections with ring buffers as sources and sinks, reading a sink after T steps shows the spikes of the network's fixed-point (or floating-point) equations, column by column; if the floating-point voltages stay away from the thresholds by the margins of C111, running the same program with fixed_pt and with floating_pt models records the same spikes.", "quantifier": "all networks, sizes, weights, parameters and inputs, all programs of connect calls and of API calls, all schedules, channel capacities and assignments to runtime services", "why_tests_cant": "The result of a simulation involves the port graph, the compiler, channels, services and the neuron models at once; tests compare a few steps of small networks under one schedule.", "anchors": ["src/lava/proc/lif/models.py:PyLifModelBitAcc", "src/lava/proc/lif/models.py:PyLifModelFloat", "src/lava/proc/dense/models.py:PyDenseModelBitAcc", "src/lava/proc/dense/models.py:PyDenseModelFloat", "src/lava/proc/io/source.py:RingBuffer", "src/lava/proc/io/sink.py:RingBuffer", "src/lava/magma/core/process/ports/ports.py:AbstractPort.connect", "src/lava/magma/runtime/runtime_services/runtime_service.py:LoihiPyRuntimeService"]}
{"id": "C116", "title": "Networks with STDP follow the equations of the network and the STDP law", "statement": "A network of LIF populations, Dense connections and LearningDense connections with an STDPLoihi rule, whose bap port gets the spikes of the target population, written with connect calls and run with the floating-point models on any platform: there is exactly one family of spikes that solves the network equations, in which the weight used at each step is the initial weight plus what the STDP law gives for the spikes of the two neurons up to the last epoch; whatever the schedule, a program that runs T steps and reads sinks and weights in any order shows exactly these spikes and weights. If no neuron spikes twice in an epoch, the change of a weight is the sum over all pairs of spikes. More generally, any network of processes that send first (or receive only from such processes) and may learn shows what a step-by-step simulation shows.", "quantifier": "all networks, sizes, initial weights, neuron parameters, inputs, learning rates, epochs and time constants, all programs of connect calls, all numbers of steps and orders of reads, all schedules, channel capacities and assignments to runtime services", "why_tests_cant": "Learning depends on the order of receiving, learning phases, epochs and on all earlier spikes; tests compare a few steps of one synapse with stored numbers under one schedule.", "anchors": ["src/lava/proc/dense/models.py:PyLearningDenseModelFloat", "src/lava/magma/core/model/py/connection.py:PyLearningConnectionModelFloat", "src/lava/magma/core/process/connection.py:LearningConnectionProcess", "src/lava/proc/learning_rules/stdp_learning_rule.py:STDPLoihi", "src/lava/proc/lif/models.py:PyLifModelFloat", "src/lava/magma/runtime/runtime_services/runtime_service.py:LoihiPyRuntimeService"]}
{"id": "C117", "title": "A run returns exactly if no processes wait for each other in a circle", "statement": "Take a network of processes whose models exchange messages through blocking receives, written with connect calls, with any program of calls up to a first run of at least one time step. If there is a set of OutPorts such that before each of them is sent to, its process receives something that comes from another one of the set, then whatever the schedule, the channel capacities and the assignment to runtime services the run never returns: the user sees nothing but the errors of earlier get and set calls. If there is no such set, every fair schedule returns it.", "quantifier": "all networks, process models, connect programs, programs of calls, numbers of steps, channel capacities, assignments to services and schedules", "why_tests_cant": "That no schedule at all leads to a result can not be tested by running; tests of recurrent networks show that particular ones return.", "anchors": ["src/lava/magma/core/model/py/ports.py:PyInPort", "src/lava/magma/core/model/py/model.py:PyLoihiProcessModel", "src/lava/magma/runtime/runtime_services/runtime_service.py:LoihiPyRuntimeService", "src/lava/magma/runtime/runtime.py:Runtime", "src/lava/magma/compiler/channel_map.py:ChannelMap"]}
{"id": "C118", "title": "Processes that answer their inputs alike can be exchanged in every network", "statement": "Take a network of processes written with connect calls and compiled to channels and runtime services. Exchange any of its processes by ones with the same ports which, fed with the same data, send the same data in every time step (however they store their state), keeping processes on the same service together. Then for every program of run, get and set calls that touches only Vars both have in common the user sees the same results, under every schedule and with any channel capacities. Sparse connections with the same weights can so replace Dense ones and DelaySparse ones DelayDense ones, and a network of LIF populations and Sparse connections records exactly the spikes of the equations of the network.", "quantifier": "all networks, process models, exchanges of processes, connect programs, programs of calls, inputs, numbers of steps, channel capacities and schedules", "why_tests_cant": "A unit test compares two process models on their own or in one small network and under the schedule that happened.", "anchors": ["src/lava/magma/core/model/py/model.py:PyLoihiProcessModel", "src/lava/proc/dense/models.py:PyDenseModelBitAcc", "src/lava/proc/sparse/models.py:PySparseModelBitAcc", "src/lava/proc/dense/models.py:PyDelayDenseModelBitAcc", "src/lava/proc/sparse/models.py:PyDelaySparseModelBitAcc", "src/lava/proc/lif/models.py:PyLifModelBitAcc", "src/lava/magma/runtime/runtime.py:Runtime"]}
{"id": "C119", "title": "What a network does is the only solution of the equations of its parts", "statement": "For a network of neurons, connections, sources and sinks written with connect calls and run on any services: take for each process what it sends, on its own, when fed with a sequence of inputs. The equations that say that each process answers to the sum of what the processes connected to it send have exactly one solution, and every program of run and get calls shows, under every schedule, the Vars that each process has after receiving its part of that solution. In particular the spikes that the sinks of a network of LIF populations record are the only solution of the spike equations with the answers of the connections put in; with DelayDense connections each synapse delivers a spike 1 + delay steps after it was sent; and the spikes of the first k steps are found by inserting any guess k times.", "quantifier": "all networks, process models, connect programs, programs of run and get calls, inputs, delays, numbers of steps, channel capacities, assignments to services and schedules", "why_tests_cant": "A unit test of a process says what it answers to some inputs; that the answers of all processes determine what an arbitrary (recurrent) network does under every schedule is a theorem about all of them.", "anchors": ["src/lava/magma/core/model/py/model.py:PyLoihiProcessModel", "src/lava/proc/dense/models.py:PyDelayDenseModelBitAcc", "src/lava/proc/lif/models.py:PyLifModelBitAcc", "src/lava/proc/io/sink.py:PyReceiveModelFixed", "src/lava/proc/io/source.py:PySendModelFixed", "src/lava/magma/runtime/runtime.py:Runtime"]}
{"id": "C120", "title": "A chain of processes is the composition of its processes; a sigma-delta network computes the artificial neural network", "statement": "Process p + 1 gets its input from process p only: under every schedule, programs of run and get calls show the Vars that each process has on its own after receiving what the process before it answers to what the process before that answers, and so on. In particular for source, Delta, L layers of Dense and SigmaDelta (with or without ReLU), a last Dense, Sigma and sink: from time step L + 1 on, the sink records the output of the feed-forward artificial neural network with the same weights and biases for the input of L + 1 steps before, with an error of at most the thresholds (twice the thresholds if errors are accumulated) carried through the absolute values of the weights; with zero thresholds exactly; and if the input stops changing (errors not accumulated), what is recorded stops changing L + 1 steps later.", "quantifier": "all chains of process models, connect programs, numbers and sizes of layers, weights, biases, thresholds, inputs, numbers of steps, channel capacities, assignments to services and schedules", "why_tests_cant": "Unit tests run single neurons or one network with a few inputs and compare numbers; the error bound for every depth, weight matrix and input sequence, independent of how long the network runs, needs a proof.", "anchors": ["src/lava/proc/sdn/models.py:PyDeltaModelFloat", "src/lava/proc/sdn/models.py:PySigmaDeltaModelFloat", "src/lava/proc/sdn/models.py:PySigmaModelFloat", "src/lava/proc/dense/models.py:PyDenseModelFloat", "src/lava/proc/io/sink.py:PyReceiveModelFloat", "src/lava/proc/io/source.py:PySendModelFloat"]}
{"id": "C121", "title": "Sigma-delta networks in fixed point compute the artificial neural network without drift", "statement": "Source, fixed-point Delta, L layers of bit-accurate Dense (graded spikes) and SigmaDelta (the corrected fixed-point model), a last Dense, Sigma and sink: under every schedule, from time step L + 1 on the sink records the output of the feed-forward artificial neural network with the prepared weights, the biases and the exponents of the layers for the input of L + 1 steps before, with an error that depends on thresholds, exponents and weights only and does not grow with the number of steps.", "quantifier": "all connect programs, numbers and sizes of layers, integer weights, weight exponents >= 0, biases, thresholds, spike and state exponents, inputs, numbers of steps, channel capacities, assignments to services and schedules", "why_tests_cant": "Bits are shifted out of every spike; whether the lost bits add up over time and layers cannot be seen in a test of a few steps.", "anchors": ["src/lava/proc/sdn/models.py:PyDeltaModelFixed", "src/lava/proc/sdn/models.py:PySigmaDeltaModelFixedCorrected", "src/lava/proc/dense/models.py:PyDenseModelBitAcc", "src/lava/proc/sdn/process.py:SigmaDelta", "src/lava/proc/io/sink.py:PyReceiveModelFixed", "src/lava/proc/io/source.py:PySendModelFixed"]}
{"id": "C122", "title": "A network is its parts, with Vars written between runs", "statement": "A program of run, get and set calls, under every schedule: each get shows the Var that the process has on its own (same model, no channels, no services) if its Vars are overwritten after exactly those numbers of steps at which the program calls set, and if it receives in each step what the other processes, each with its own writes, answer. These conditions on what is sent have exactly one solution for every set of writes. set and get before the first run do nothing but fail; several sets between two runs take effect in their order; a get between them sees those before it. For chains of processes the solution is the composition of the processes.", "quantifier": "all networks of neuron, connection, source and sink models (neurons fed by connections and sources), connect programs, programs of run, get and set calls with any Vars and values, channel capacities, assignments to services and schedules", "why_tests_cant": "Writes travel through a runtime service while channels may still hold items of other processes; that a write takes effect exactly between two time steps, in every network and schedule, cannot be tested by running a few programs.", "anchors": ["src/lava/magma/runtime/runtime.py:Runtime.set_var", "src/lava/magma/runtime/runtime.py:Runtime.get_var", "src/lava/magma/core/model/py/model.py:AbstractPyProcessModel", "src/lava/magma/runtime/runtime_services/runtime_service.py:LoihiPyRuntimeService"]}
{"id": "C123", "title": "Conv can be replaced by Dense or Sparse with the matrix of conv_to_sparse", "statement": "A Conv process on spikes (num_message_bits 0, fixed point) can be exchanged for a Dense or a Sparse process whose weights are the matrix that conv_to_sparse returns for its kernel (flattening in C order, NWHC): for every sequence of inputs the same is sent in every step and the buffers are equal, provided that the weights are legal 8-bit weights with the dropped bits clear and that fewer than 2^15 weights belong to an output channel. Every network of LIF populations with Conv connections therefore records, under every schedule, the spikes of the network equations with those matrices.", "quantifier": "all image and kernel sizes, strides, paddings, dilations, groups, legal kernels, input sequences, times; networks, connect programs, schedules as C115", "why_tests_cant": "conv_to_sparse is used to deploy convolutional networks on hardware without Conv; that the exchange is invisible has to hold for all shapes, strides, dilations, groups and inputs, and over the whole run of the network.", "anchors": ["src/lava/proc/conv/utils.py:conv_to_sparse", "src/lava/proc/conv/utils.py:conv_scipy", "src/lava/proc/conv/models.py:PyConvModelFixed", "src/lava/proc/dense/models.py:PyDenseModelBitAcc", "src/lava/proc/sparse/models.py:PySparseModelBitAcc"]}
{"id": "C124", "title": "What the constructors of Conv and of the delay connections accept, runs", "statement": "A Conv process that its constructor accepts never fails at run time and sends, on every input, an array of exactly the shape of its port a_out with the textbook convolution in each place; the constructor accepts exactly a three-dimensional input shape, groups that divide both numbers of channels, one- or two-dimensional paddings, strides and dilations, positive strides, and kernels that fit. A DelayDense or DelaySparse process that its constructor accepts delivers every spike exactly 1 + delay steps later; delays are accepted exactly if they are integers, not negative and have the shape of the weights.", "quantifier": "all input shapes, kernels, paddings, strides, dilations, numbers of groups, weights, delays (int or array), values of max_delay, inputs and times", "why_tests_cant": "The checks are made once, in the constructor, on the arguments, while failures would show up in the middle of a run, inside a process model; whether the checks are sufficient for all sizes cannot be seen from examples.", "anchors": ["src/lava/proc/conv/process.py:Conv", "src/lava/proc/conv/utils.py:make_tuple", "src/lava/proc/conv/utils.py:conv", "src/lava/proc/conv/utils.py:conv_scipy", "src/lava/proc/dense/process.py:DelayDense", "src/lava/proc/sparse/process.py:DelaySparse"]}
{"id": "C125", "title": "Networks that learn are their parts", "statement": "A network of processes with any number of ports, some of which have a learning phase, under every schedule: each get shows the Var that the process has on its own if it receives in each step what the other processes answer, learns when its own guard says so, and has its Vars overwritten when the program calls set; these conditions have exactly one solution. For a fixed-point LearningDense in any such network, with any other processes and any traffic on its ports: get of weights shows for every synapse the weight it has when it is alone and gets the spikes (and third factors) of its two neurons; nothing is ever raised; all weights that get shows are in the range of the sign mode if the initial weights and those written by the program are; a get right after a set shows what has been set.", "quantifier": "all networks of processes that receive before they send or send before they receive (the first fed by the second), connect programs, programs of run, get and set calls, learning rules of two and three factors, sizes, weights, random numbers, payloads, other processes, assignments to services and schedules", "why_tests_cant": "The learning engine is tested on hand-made spike trains without a network; that messages, phases, schedules and the traffic of other processes cannot change what a synapse computes or make a weight illegal has to hold for every network and program.", "anchors": ["src/lava/proc/dense/models.py:PyLearningDenseModelBitApproximate", "src/lava/magma/core/model/py/connection.py:LearningConnectionModelBitApproximate", "src/lava/magma/core/model/py/model.py:PyLoihiProcessModel", "src/lava/magma/runtime/runtime_services/runtime_service.py:LoihiPyRuntimeService", "src/lava/magma/runtime/runtime.py:Runtime.set_var"]}
{"id": "C126", "title": "Applications with any channel configuration talk to a running network", "statement": "An application that sends with an Injector and receives with an Extractor while the network runs (run without blocking), with any ChannelConfig and any buffer size, under every schedule of application, services, channel threads and network: if the Injector gives zeros when empty and the Extractor drops when full, every run ends; if neither side of either of them blocks, every program that waits only for runs it has started ends; no schedule goes on for ever, whatever the configuration; each time step gets the sum of a group of consecutive items (FIFO: at most one item; blocking: at least one), groups in the order of sending, nothing twice; what receive returns are sums of such groups of the outputs of the time steps, and each output is that of the network for the inputs it was given; nothing is dropped by a blocking send, and never one of the first buffer_size items; what was given and what is in the pipe add up to what the pipe took; with the default configuration of both sides the results are exactly those of the network alone, whatever the schedule. With this configuration a program ends under every fair schedule exactly if every call finds what it needs when the network has done what it can (a slot, an output, the end of a run); otherwise it waits for ever. Whatever the configuration, the only reasons to wait for ever are a full buffer, an empty one, or a run that cannot end. The constructors accept exactly the documented shapes, sizes and configurations and report the first bad entry.", "quantifier": "all programs of an application (send, receive, wait), all eight-fold combinations of the channel configurations of both sides, buffer sizes, networks (any state, any function), items, schedules; all shapes, buffer sizes and configurations as constructor arguments", "why_tests_cant": "The tests of the Injector and the Extractor run one configuration each with sleeps; that items are neither lost, duplicated nor reordered must hold for every interleaving of four concurrent parties and for every configuration.", "anchors": ["src/lava/proc/io/injector.py:Injector", "src/lava/proc/io/injector.py:PyLoihiInjectorModel", "src/lava/proc/io/extractor.py:Extractor", "src/lava/proc/io/extractor.py:PyLoihiExtractorModel", "src/lava/proc/io/extractor.py:VarWire", "src/lava/proc/io/utils.py:ChannelConfig", "src/lava/proc/io/utils.py:validate_shape", "src/lava/proc/io/utils.py:validate_channel_config", "src/lava/magma/compiler/channels/pypychannel.py:CspSendPort", "src/lava/magma/compiler/channels/pypychannel.py:CspRecvPort"]}
{"id": "C127", "title": "Division into synchronization domains does not change results", "statement": "A program whose process models use only the spiking phase has one result: whether its processes are in one Loihi domain, in several, asynchronous, or in a mixture, under every schedule, the messages on every channel are the first of the same sequence and a process that has completed t time steps has the same values; at the end all divisions have the same values and messages; a program ends under one division exactly if it ends under every other; processes of a channel never run further apart than its buffer plus one time step, and processes of one service stay in lockstep. Which methods are called: on the Loihi protocol run_spk, then run_pre_mgmt, run_lrn, run_post_mgmt as the guards ask; a model converted by PyLoihiModelToPyAsyncModel calls run_pre_mgmt first and never run_lrn, so its calls are the same exactly if it neither learns nor asks for pre-management.", "quantifier": "all programs (any processes, wiring, functions, numbers of time steps, buffer sizes), all divisions into domains, all schedules; all guards, all numbers of models of a service, all time steps", "why_tests_cant": "The tests of the asynchronous protocol run two or three processes once; equality of results must hold for every interleaving of processes that may run ahead of each other.", "anchors": ["src/lava/magma/core/model/py/model.py:PyLoihiModelToPyAsyncModel", "src/lava/magma/core/model/py/model.py:PyLoihiProcessModel", "src/lava/magma/core/model/py/model.py:PyAsyncProcessModel", "src/lava/magma/runtime/runtime_services/runtime_service.py:LoihiPyRuntimeService", "src/lava/magma/runtime/runtime_services/runtime_service.py:AsyncPyRuntimeService"]}
{"id": "C128", "title": "LIF neurons with Reset processes are LIFReset neurons, under every schedule", "statement": "LIF neurons (PyLifModelBitAcc) whose Vars u and v are referred to by two Reset processes behave, under every schedule and division into runs, as the dynamics of each time step followed by the resets: all schedules end, with the same final u and v and the same spikes received. If both write zero with the same interval I and offset o, the spikes are, in every time step, those of LIFReset (PyLifResetModelBitAcc) of interval I and offset o + 2 with the same parameters and inputs, and the state is the one LIFReset has when it begins its next time step (initial u and v have to be zero if LIFReset is reset before the very first time step). With the same offset the two reset in different time steps.", "quantifier": "all parameters, thresholds, inputs, numbers of neurons, intervals, offsets, reset values, buffer sizes, divisions into runs, all schedules", "why_tests_cant": "The tests of Reset compare one run with a fixed interval; when the write of a Reset reaches a neuron relative to its next step depends on the interleaving of processes and service.", "anchors": ["src/lava/proc/io/reset.py:Reset", "src/lava/proc/io/reset.py:AbstractPyReset", "src/lava/proc/lif/models.py:PyLifResetModelBitAcc", "src/lava/proc/lif/models.py:PyLifModelBitAcc", "src/lava/magma/core/model/py/ports.py:PyRefPort", "src/lava/magma/core/model/py/ports.py:PyVarPort"]}
{"id": "C129", "title": "Read processes record the values at the ends of time steps and disturb nothing", "statement": "Any number of Read processes refer to Vars of a process that may use its own post-management. Under every schedule and division into runs: everything ends; the process that is read comes to the same values as without Reads or with other ones; each Read has recorded the value of its Var after the post-management of the process that is read, in the time steps offset + 1 + k * interval, the k-th in slot k modulo the size of its buffer until that slot is used again. With a Reset on the Var that is read, what is recorded depends on the schedule.", "quantifier": "all processes that are read, numbers of Reads, intervals, offsets, buffers, Vars, channel sizes, divisions into runs, all schedules", "why_tests_cant": "The tests of Read run one Read once; when its request reaches the process relative to that process' own post-management, and to other requests, depends on the interleaving.", "anchors": ["src/lava/proc/io/sink.py:Read", "src/lava/proc/io/sink.py:AbstractPyRead", "src/lava/magma/core/model/py/ports.py:PyRefPort", "src/lava/magma/core/model/py/ports.py:PyVarPort", "src/lava/magma/core/model/py/model.py:PyLoihiProcessModel"]}
{"id": "C130", "title": "Outputs and ground truths of a StateDataloader belong together", "statement": "A StateDataloader writes samples into a Var of a process through a RefPort and sends ground truths; the process computes and sends in every time step; a third process receives both. Under every schedule and division into runs everything ends, the process has computed and been given the samples in turn, and the receiver has the output and the ground truth of every time step together. If the output is computed in the same time step from the Var, which the process does not change, then every pair received after the k-th load and before the next is the result and the ground truth of sample k modulo the size of the dataset, and before the first load the result of the initial value with the initial ground truth. A process that sends its results one time step later is paired with the wrong ground truth in the first time step of each sample.", "quantifier": "all processes, datasets, intervals, offsets, channel sizes, divisions into runs, all schedules, all time steps", "why_tests_cant": "The tests of the dataloader run one process once with a fixed interval; whether the sample arrives before the next time step of the process depends on the interleaving of requests and commands.", "anchors": ["src/lava/proc/io/dataloader.py:StateDataloader", "src/lava/proc/io/dataloader.py:AbstractPyStateDataloaderModel", "src/lava/magma/core/model/py/ports.py:PyRefPort", "src/lava/magma/core/model/py/ports.py:PyVarPort", "src/lava/magma/core/model/py/model.py:PyLoihiProcessModel"]}
{"id": "C131", "title": "A SpikeDataloader feeds a process sample by sample, with its ground truths", "statement": "A SpikeDataloader sends spikes to a process and ground truths to another one, which also receives the outputs of the first. Under every schedule and division into runs everything ends, and the process has been fed as if time steps were carried out one after the other: in the j-th time step after the k-th load it gets value j of spike train k modulo the size of the dataset, zero after its end, and the receiver has the output for it together with the ground truth of that spike train; before the first load the input is zero and the ground truth the initial one.", "quantifier": "all processes that are fed (any state and functions), datasets (trains shorter and longer than the interval), intervals, offsets, channel sizes, divisions into runs, all schedules, all time steps", "why_tests_cant": "The tests of the dataloader record spikes of one run of one process; that spikes, outputs and ground truths stay aligned depends on the order in which three processes are served.", "anchors": ["src/lava/proc/io/dataloader.py:SpikeDataloader", "src/lava/proc/io/dataloader.py:AbstractPySpikeDataloaderModel", "src/lava/magma/core/model/py/model.py:PyLoihiProcessModel", "src/lava/magma/runtime/runtime_services/runtime_service.py:LoihiPyRuntimeService"]}
{"id": "C132", "title": "Samples do not influence each other when Resets act together with the dataloader", "statement": "A SpikeDataloader feeds a process, two Resets refer to Vars of it; a third process receives outputs and ground truths. Under every schedule and division into runs everything ends as if time steps were carried out one after the other. If the Resets have interval and offset of the loader, together set all of the state (as with LIF neurons and Resets on u and v), and the process does not look at the time, then what is received in the j-th time step after the k-th load is the output of the process started afresh and fed with the first j + 1 values of sample k modulo the size of the dataset and nothing else, together with its ground truth. With another offset of a Reset, outputs depend on the samples before.", "quantifier": "all processes, datasets, intervals, offsets, reset values, channel sizes, divisions into runs, all schedules, all time steps", "why_tests_cant": "That a sample is classified independently of what came before must hold for every dataset and every interleaving of the write of the Reset with the next time step; tests look at one run.", "anchors": ["src/lava/proc/io/dataloader.py:SpikeDataloader", "src/lava/proc/io/dataloader.py:AbstractPySpikeDataloaderModel", "src/lava/proc/io/reset.py:Reset", "src/lava/proc/io/reset.py:AbstractPyReset", "src/lava/magma/core/model/py/ports.py:PyRefPort", "src/lava/magma/core/model/py/ports.py:PyVarPort"]}
{"id": "C133", "title": "Random numbers of a learning connection: fresh draws, and what rng_seed decides", "statement": "After any number of time steps a bit-approximate learning connection is in the state obtained with these random numbers: a post-synaptic spike in time step n uses draw 2n - 1 of the integer stream of seed rng_seed + 3, the end of an epoch uses draw 2n of the four trace streams (rng_seed to rng_seed + 3) and, for weights, delays and tags, the draw with the number of the epoch of the stream with seed 2; no draw of a stream serves two epoch ends. With generators in their documented ranges traces are 7-bit values at all times. If impulses are whole numbers and traces do not decay or decay at once, rng_seed has no effect on the state. As built, rng_seed never reaches the rounding of weights (all connections share these numbers), and the post-synaptic streams of seed r are the pre-synaptic ones of seed r + 2.", "quantifier": "all generators, seeds, configurations, spike histories, time steps", "why_tests_cant": "Which draw is used when is a statement about all histories; tests look at a few steps with a fixed seed.", "anchors": ["src/lava/magma/core/learning/random.py:TraceRandom", "src/lava/magma/core/learning/random.py:ConnVarRandom", "src/lava/magma/core/model/py/connection.py:LearningConnectionModelBitApproximate"]}
