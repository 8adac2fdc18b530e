{
 "claims": [
  {
   "property": "C01",
   "status": "proved",
   "theorems": [
    "Verif.Channel.C01_fifo",
    "Verif.Channel.C01_shape",
    "Verif.Channel.C01_reject"
   ],
   "note": "all schedules, element-wise copies; join/shutdown not modelled"
  },
  {
   "property": "C02",
   "status": "proved",
   "theorems": [
    "Verif.Channel.C02_bounded"
   ],
   "note": "all schedules"
  },
  {
   "property": "C03",
   "status": "proved",
   "theorems": [
    "Verif.Channel.C03_send_completes",
    "Verif.Channel.C03_recv_completes",
    "Verif.Channel.C03_background_terminates"
   ],
   "note": "deadlock freedom and termination of background work; channels used without a selector"
  },
  {
   "property": "C04",
   "status": "proved",
   "theorems": [
    "Verif.Channel.C04_send_probe",
    "Verif.Channel.C04_recv_probe",
    "Verif.Channel.C04_recv_probe_false",
    "Verif.Channel.C04_send_probe_false",
    "Verif.Channel.C04_peek"
   ],
   "note": "a unit held for a moment by the callback thread's own probe may delay (not block) the send after a positive probe"
  },
  {
   "property": "C05",
   "status": "partial",
   "theorems": [
    "Verif.Selector.C05_returns_ready",
    "Verif.Selector.C05_first_ready",
    "Verif.Selector.C05_select_wakes_partial",
    "Verif.Selector.C05_lost_wakeup",
    "Verif.Selector.C05_callback_dies"
   ],
   "note": "safety and priority proved for the real code; the liveness half is false of the code (C05_lost_wakeup, C05_callback_dies), proved when the two races of the callback thread are closed"
  },
  {
   "property": "C06",
   "status": "proved",
   "theorems": [
    "Verif.RuntimeService.C06_run_exact",
    "Verif.RuntimeService.C06_spiking_phases",
    "Verif.RuntimeService.C06_run_sequence",
    "Verif.RuntimeService.C06_terminates",
    "Verif.RuntimeService.C06_never_more"
   ],
   "note": "all environments for termination and the upper bound; exact trace for runs in which no model raises or asks for pause/stop"
  },
  {
   "property": "C07",
   "status": "proved",
   "theorems": [
    "Verif.RuntimeService.C07_order",
    "Verif.RuntimeService.C07_at_most_once",
    "Verif.RuntimeService.C07_guarded",
    "Verif.RuntimeService.C07_requested"
   ],
   "note": "all environments"
  },
  {
   "property": "C08",
   "status": "proved",
   "theorems": [
    "Verif.RuntimeService.C08_no_access_inside_step",
    "Verif.RuntimeService.C08_steps_contiguous",
    "Verif.RuntimeService.C08_access_served",
    "Verif.VarAccess.C08_relay_set",
    "Verif.VarAccess.C08_relay_get"
   ],
   "note": "all command lists and environments; payload relay in Verif.VarAccess"
  },
  {
   "property": "C09",
   "status": "partial",
   "theorems": [
    "Verif.RuntimeService.C09_idle_pause_partial",
    "Verif.RuntimeService.C09_resume_steps_partial",
    "Verif.RuntimeService.C09_no_completion_after_pause",
    "Verif.RuntimeService.C09_pause_reached",
    "Verif.RuntimeService.C09_stale_pause_skips_run"
   ],
   "note": "false of the code in general: after a pause during a run no later run reports completion (C09_no_completion_after_pause) and a pause seen in the host phase makes the next run execute no step (C09_stale_pause_skips_run); proved: pause between runs is transparent, and the steps of the next run are executed"
  },
  {
   "property": "C10",
   "status": "partial",
   "theorems": [
    "Verif.VarAccess.C10_roundtrip_partial",
    "Verif.VarAccess.C10_roundtrip_iff",
    "Verif.VarAccess.C10_scrambled",
    "Verif.VarAccess.C10_roundtrip_scalar_partial",
    "Verif.VarAccess.C10_roundtrip_str_partial",
    "Verif.VarAccess.C10_int_get_hangs",
    "Verif.VarAccess.C10_short_set_writes_prefix"
   ],
   "note": "holds exactly for arrays in C order (C10_roundtrip_iff), np.int32 scalars and strings; fails for other memory layouts (C10_scrambled) and Python ints (C10_int_get_hangs); idx sets write the prefix"
  },
  {
   "property": "C11",
   "status": "partial",
   "theorems": [
    "Verif.VarAccess.C11_leftover",
    "Verif.VarAccess.C11_in_sync_partial",
    "Verif.VarAccess.C11_in_sync_scalar_str_partial",
    "Verif.VarAccess.C11_get_in_sync",
    "Verif.VarAccess.C11_payload_becomes_stop"
   ],
   "note": "holds exactly when the payload is not longer than the variable; exact left-over proved (C11_leftover), and -1 payload becomes STOP"
  },
  {
   "property": "C12",
   "status": "partial",
   "theorems": [
    "Verif.VarAccess.C12_history_exact",
    "Verif.VarAccess.C12_example_history",
    "Verif.VarAccess.C12_roundtrip_partial",
    "Verif.VarAccess.C12_history_partial",
    "Verif.VarAccess.C12_pattern_rejected",
    "Verif.VarAccess.C12_zero_poisons",
    "Verif.VarAccess.C12_init_zero_get_fails"
   ],
   "note": "C12_history_exact states for every history exactly when all sets succeed and what is read back; the intended property is false with stored zeros (C12_zero_poisons, C12_init_zero_get_fails)"
  },
  {
   "property": "C13",
   "status": "proved",
   "theorems": [
    "Verif.VarAccess.C13_alias_ends",
    "Verif.VarAccess.C13_alias_transparent",
    "Verif.VarAccess.C13_alias_shape"
   ],
   "note": "shareable check not modelled"
  },
  {
   "property": "C14",
   "status": "partial",
   "theorems": [
    "Verif.AsyncModel.C14_first_run_order_partial",
    "Verif.AsyncModel.C14_first_run_partial",
    "Verif.AsyncModel.C14_later_run_is_total",
    "Verif.AsyncModel.C14_second_run_empty",
    "Verif.AsyncModel.C14_smaller_run_diverges"
   ],
   "note": "true of the first run; later runs treat num_steps as a total (C14_later_run_is_total), so equal lengths do nothing and shorter ones never end"
  },
  {
   "property": "C15",
   "status": "proved",
   "theorems": [
    "Verif.PyPorts.C15_sum",
    "Verif.PyPorts.C15_order_irrelevant",
    "Verif.PyPorts.C15_blocks",
    "Verif.PyPorts.C15_probe"
   ],
   "note": "broadcasting between different shapes not modelled"
  },
  {
   "property": "C16",
   "status": "partial",
   "theorems": [
    "Verif.PyPorts.C16_peek_value_partial",
    "Verif.PyPorts.C16_peek_consumes",
    "Verif.PyPorts.C16_peek_then_recv_blocks"
   ],
   "note": "false of the code: PyInPortVectorDense.peek calls recv on the channels (C16_peek_consumes); only the returned value is right"
  },
  {
   "property": "C17",
   "status": "partial",
   "theorems": [
    "Verif.PyPorts.C17_roundtrip_exact",
    "Verif.PyPorts.C17_roundtrip_partial",
    "Verif.PyPorts.C17_history_partial",
    "Verif.PyPorts.C17_truncated",
    "Verif.PyPorts.C17_earlier_port_truncates"
   ],
   "note": "C17_roundtrip_exact states for non-empty ports exactly when a message arrives unchanged; false of the code for payloads larger than a port (C17_truncated, C17_earlier_port_truncates)"
  },
  {
   "property": "C18",
   "status": "proved",
   "theorems": [
    "Verif.PyPorts.C18_sequential",
    "Verif.PyPorts.C18_complete",
    "Verif.PyPorts.C18_wait",
    "Verif.PyPorts.C18_progress",
    "Verif.PyPorts.C18_terminates"
   ],
   "note": "all programs, all schedules of the service; one RefPort per VarPort"
  },
  {
   "property": "C19",
   "status": "partial",
   "theorems": [
    "Verif.VirtualPorts.C19_read_after_write_partial",
    "Verif.VirtualPorts.C19_fan_in_mixes",
    "Verif.VirtualPorts.C19_double_connection_overwrites",
    "Verif.VirtualPorts.C19_concat_refused"
   ],
   "note": "proved for every chain of accepted reshape/flatten/transpose calls with distinct axes of one sign, with hierarchical ports in between; false for mixed-sign axes (C20_mixed_sign_not_inverted), fan-in at a hierarchical port (C19_fan_in_mixes) and two connections between the same leaf ports (C19_double_connection_overwrites)"
  },
  {
   "property": "C20",
   "status": "partial",
   "theorems": [
    "Verif.VirtualPorts.C20_accepts_iff_partial",
    "Verif.VirtualPorts.C20_accepts_permutations_partial",
    "Verif.VirtualPorts.C20_duplicate_accepted",
    "Verif.VirtualPorts.C20_forward",
    "Verif.VirtualPorts.C20_backward_inverts_partial",
    "Verif.VirtualPorts.C20_default_inverts",
    "Verif.VirtualPorts.C20_mixed_sign_not_inverted"
   ],
   "note": "exact acceptance condition proved; false of the code: repeated axes are accepted (C20_duplicate_accepted), argsort of mixed-sign axes is not the inverse (C20_mixed_sign_not_inverted)"
  },
  {
   "property": "C21",
   "status": "partial",
   "theorems": [
    "Verif.VirtualPorts.C21_accepted_exact",
    "Verif.VirtualPorts.C21_two_ports_partial",
    "Verif.VirtualPorts.C21_compatible_accepted",
    "Verif.VirtualPorts.C21_missing_axis_refused",
    "Verif.VirtualPorts.C21_only_last_pair_checked",
    "Verif.VirtualPorts.C21_negative_axis_wrong"
   ],
   "note": "C21_accepted_exact states for any number of ports and a non-negative axis exactly what is accepted and the resulting shape; false of the code for three or more incompatible ports (C21_only_last_pair_checked) and negative axes (C21_negative_axis_wrong)"
  },
  {
   "property": "C22",
   "status": "partial",
   "theorems": [
    "Verif.PortGraph.C22_symmetric_nodup_partial",
    "Verif.PortGraph.C22_failing_call_changes_nothing",
    "Verif.PortGraph.C22_connect_adds_exactly",
    "Verif.PortGraph.C22_short_configs_half_connect",
    "Verif.PortGraph.C22_duplicate_argument_left_behind",
    "Verif.PortGraph.C22_connected_ports_compatible"
   ],
   "note": "proved for every program without repeated ports in one call and without too few configurations, including failing calls; both excluded cases break the property (C22_short_configs_half_connect, C22_duplicate_argument_left_behind)"
  },
  {
   "property": "C23",
   "status": "proved",
   "theorems": [
    "Verif.PortGraph.C23_src_ports",
    "Verif.PortGraph.C23_dst_ports",
    "Verif.PortGraph.C23_src_ports_returns",
    "Verif.PortGraph.C23_dst_ports_returns",
    "Verif.PortGraph.C23_src_dst_consistent",
    "Verif.PortGraph.C23_duplicates",
    "Verif.PortGraph.C23_cycle_accepted"
   ],
   "note": "exact result whenever the search returns, for every graph; returns on acyclic graphs below the recursion limit; consistency on every graph built by good calls"
  },
  {
   "property": "C24",
   "status": "partial",
   "theorems": [
    "Verif.PortGraph.C24_ref_at_most_one_var_partial",
    "Verif.PortGraph.C24_var_connect_from_fresh_partial",
    "Verif.PortGraph.C24_two_refs_one_var",
    "Verif.PortGraph.C24_two_vars_one_ref",
    "Verif.PortGraph.C24_two_vars_through_parent"
   ],
   "note": "false of the code (three witnesses); what holds: without connect_from a RefPort has at most one direct VarPort; an accepted VarPort.connect_from finds the VarPort fresh"
  },
  {
   "property": "C25",
   "status": "proved",
   "theorems": [
    "Verif.Graphs.C25_find_processes_exact",
    "Verif.Graphs.C25_find_processes_returns",
    "Verif.Graphs.C25_find_processes_nodup",
    "Verif.Graphs.C25_find_processes_same_network"
   ],
   "note": "neighbours of a process are given by the port graph (C23); RecursionError for chains longer than the interpreter limit"
  },
  {
   "property": "C26",
   "status": "partial",
   "theorems": [
    "Verif.Graphs.C26_is_dag_exact",
    "Verif.Graphs.C26_example_wrong_answer",
    "Verif.Graphs.C26_false_means_cycle",
    "Verif.Graphs.C26_is_dag_iff_acyclic_partial",
    "Verif.Graphs.C26_witness_self_loop"
   ],
   "note": "false of the code for graphs with self loops (C26_witness_self_loop); C26_is_dag_exact states for every graph exactly when the answer is yes: no cycle, or the only cycle is one self loop in which all paths end"
  },
  {
   "property": "C27",
   "status": "partial",
   "theorems": [
    "Verif.Graphs.C27_collapse_loses_exactly",
    "Verif.Graphs.C27_collapse_groups_partial",
    "Verif.Graphs.C27_groups_are_cycles_partial",
    "Verif.Graphs.C27_witness_component_lost"
   ],
   "note": "C27_collapse_loses_exactly states for every graph exactly what is lost; the intended property is proved for all networks in one piece; a component without outside neighbour is lost otherwise (C27_witness_component_lost)"
  },
  {
   "property": "C28",
   "status": "partial",
   "theorems": [
    "Verif.Graphs.C28_each_process_once_partial",
    "Verif.Graphs.C28_receivers_first_partial",
    "Verif.Graphs.C28_compile_order_partial",
    "Verif.Graphs.C28_flatten_exact",
    "Verif.Graphs.C28_flatten_group"
   ],
   "note": "proved for all networks in one piece (same restriction as C27); flattening proved for all nestings"
  },
  {
   "property": "C29",
   "status": "partial",
   "theorems": [
    "Verif.Compiler.C29_accepted_iff",
    "Verif.Compiler.C29_exactly_one_domain",
    "Verif.Compiler.C29_protocols_match_partial",
    "Verif.Compiler.C29_default_domain",
    "Verif.Compiler.C29_python_apart",
    "Verif.Compiler.C29_witness_name_taken",
    "Verif.Compiler.C29_witness_same_class_name"
   ],
   "note": "exactly one domain and unique names proved for every input, acceptance characterised exactly; protocol agreement fails when a custom domain has a default name or two protocol classes share a name (witnesses)"
  },
  {
   "property": "C30",
   "status": "proved",
   "theorems": [
    "Verif.Compiler.C30_one_subcompiler",
    "Verif.Compiler.C30_refused_iff",
    "Verif.Compiler.C30_c_before_nc",
    "Verif.Compiler.C30_one_node"
   ],
   "note": "the sub-compilers and node types are the ones named in compiler.py"
  },
  {
   "property": "C31",
   "status": "proved",
   "theorems": [
    "Verif.Compiler.C31_channel_map_exact",
    "Verif.Compiler.C31_initializer_once",
    "Verif.Compiler.C31_updater_src_ports",
    "Verif.Compiler.C31_witness_add_port_pairs",
    "Verif.Compiler.C31_witness_dangling"
   ],
   "note": "get_dst_ports is C23; payload contents and the cache are not modelled; add_port_pairs is a no-op (C31_witness_add_port_pairs)"
  },
  {
   "property": "C32",
   "status": "proved",
   "theorems": [
    "Verif.RunCfg.C32_exception_first",
    "Verif.RunCfg.C32_simulation_choice",
    "Verif.RunCfg.C32_hardware_choice",
    "Verif.RunCfg.C32_single_model",
    "Verif.RunCfg.C32_selected_is_offered",
    "Verif.RunCfg.C32_sub_model",
    "Verif.RunCfg.C32_tagged_sub_model",
    "Verif.RunCfg.C32_witness_tagged_sub_model_fails",
    "Verif.RunCfg.C32_witness_exception_ignored"
   ],
   "note": "compatibility of an Nc model with the hardware is one flag of the model; C32_witness_tagged_sub_model_fails shows the IndexError for tagged SubProcessModels not listed first"
  },
  {
   "property": "C33",
   "status": "partial",
   "theorems": [
    "Verif.Mapper.C33_collision_free_partial",
    "Verif.Mapper.C33_complete",
    "Verif.Mapper.C33_legal_and_dense",
    "Verif.Mapper.C33_witness_mixed_chip_types",
    "Verif.Mapper.C33_witness_mixed_chip_types_run",
    "Verif.Mapper.C33_witness_logical_chip_ignored",
    "Verif.Mapper.C33_witness_shared_object"
   ],
   "note": "needs one chip type and unshared address objects; false otherwise (witnesses); C builders not modelled (their sub compiler is not part of this repository)"
  },
  {
   "property": "C34",
   "status": "proved",
   "theorems": [
    "Verif.Encoder.C34_conservation",
    "Verif.Encoder.C34_residue_below_threshold",
    "Verif.Encoder.C34_receiver_error",
    "Verif.Encoder.C34_zero_threshold",
    "Verif.Encoder.C34_clipped_range",
    "Verif.Encoder.C34_clipped_catches_up",
    "Verif.Encoder.C34_witness_one_bit_unlimited"
   ],
   "note": "exact integers; one element, the code is elementwise; C34_witness_one_bit_unlimited: num_bits=1 disables clipping"
  },
  {
   "property": "C35",
   "status": "proved",
   "theorems": [
    "Verif.Encoder.C35_packed_roundtrip",
    "Verif.Encoder.C35_packed_element",
    "Verif.Encoder.C35_words_are_int32"
   ],
   "note": "the receiver side is written in the specification (hardware)"
  },
  {
   "property": "C36",
   "status": "partial",
   "theorems": [
    "Verif.Encoder.C36_roundtrip_exact",
    "Verif.Encoder.C36_example_exact",
    "Verif.Encoder.C36_roundtrip_partial",
    "Verif.Encoder.C36_roundtrip_short_partial",
    "Verif.Encoder.C36_never_empty",
    "Verif.Encoder.C36_witness_first_at_255",
    "Verif.Encoder.C36_witness_large_gap"
   ],
   "note": "C36_roundtrip_exact states for every vector exactly when the round trip works; it fails if the first nonzero element is at position 255, or for gaps above 65025 when the first nonzero index is below 255 (witnesses)"
  },
  {
   "property": "C37",
   "status": "proved",
   "theorems": [
    "Verif.Weights.C37_clip_legal",
    "Verif.Weights.C37_clip_learning",
    "Verif.Weights.C37_clip_id",
    "Verif.Weights.C37_clip_idempotent",
    "Verif.Weights.C37_clip_monotone",
    "Verif.Weights.C37_truncate_error",
    "Verif.Weights.C37_clip_truncate_legal",
    "Verif.Weights.C37_clip_truncate_id",
    "Verif.Weights.C37_witness_nine_bits",
    "Verif.Weights.C37_sign_mode"
   ],
   "note": "np.clip/shift on unbounded integers, one weight"
  },
  {
   "property": "C38",
   "status": "partial",
   "theorems": [
    "Verif.Weights.C38_returns_exact",
    "Verif.Weights.C38_lossless_exact",
    "Verif.Weights.C38_loihi2_refuses_exact",
    "Verif.Weights.C38_loihi2_lossless",
    "Verif.Weights.C38_example_exact",
    "Verif.Weights.C38_validation",
    "Verif.Weights.C38_lossless_partial",
    "Verif.Weights.C38_loihi2_lossless_partial",
    "Verif.Weights.C38_witness_255_lost",
    "Verif.Weights.C38_witness_nine_bits"
   ],
   "note": "C38_returns_exact, C38_lossless_exact, C38_loihi2_refuses_exact and C38_loihi2_lossless describe the result for all matrices; the intended property is false for mixed matrices with the weight 255 (C38_witness_255_lost), and Loihi 2 refuses nine-bit matrices; np.log2 exact; dense matrices"
  },
  {
   "property": "C39",
   "status": "proved",
   "theorems": [
    "Verif.Dense.C39_dense_product",
    "Verif.Dense.C39_dense_exact",
    "Verif.Dense.C39_unconnected_inputs_ignored",
    "Verif.Dense.C39_witness_set_weights_unclipped"
   ],
   "note": "exact integer accumulation; Sparse shares the model; C39_witness_set_weights_unclipped"
  },
  {
   "property": "C40",
   "status": "proved",
   "theorems": [
    "Verif.Dense.C40_delay_buckets",
    "Verif.Dense.C40_delay_delivery",
    "Verif.Dense.C40_witness_synapse_dropped",
    "Verif.Dense.C40_witness_shift_per_delay"
   ],
   "note": "exact integer accumulation; max_delay below a delay drops the synapse (witness)"
  },
  {
   "property": "C41",
   "status": "proved",
   "theorems": [
    "Verif.LIF.C41_state_in_range",
    "Verif.LIF.C41_voltage_in_range",
    "Verif.LIF.C41_current_modulo",
    "Verif.LIF.C41_witness_current_25_bits",
    "Verif.LIF.C41_witness_large_input"
   ],
   "note": "inputs up to 18 bits in magnitude; witnesses: u = 2^23 is reachable, larger inputs leave the range"
  },
  {
   "property": "C42",
   "status": "proved",
   "theorems": [
    "Verif.LIF.C42_update_equations",
    "Verif.LIF.C42_spike_iff",
    "Verif.LIF.C42_spike_iff_always",
    "Verif.LIF.C42_silent_without_input",
    "Verif.LIF.C42_ternary",
    "Verif.LIF.C42_witness_threshold_frozen"
   ],
   "note": "C42_witness: the threshold is frozen at the first step"
  },
  {
   "property": "C43",
   "status": "proved",
   "theorems": [
    "Verif.LIF.C43_refractory",
    "Verif.LIF.C43_wakes_up",
    "Verif.LIF.C43_witness_negative_threshold"
   ],
   "note": "threshold >= 0; exact rationals for floats; witness for negative thresholds"
  },
  {
   "property": "C44",
   "status": "proved",
   "theorems": [
    "Verif.SDN.C44_delta_tracks",
    "Verif.SDN.C44_sigma_is_running_sum",
    "Verif.SDN.C44_delta_then_sigma",
    "Verif.SDN.C44_cumulative_tracks",
    "Verif.SDN.C44_sigma_delta_neuron",
    "Verif.SDN.C44_witness_cumulative_exceeds_threshold"
   ],
   "note": "exact arithmetic, any ordered ring; cumulative-error mode has the bound 2*vth, and exceeds vth (witness)"
  },
  {
   "property": "C45",
   "status": "partial",
   "theorems": [
    "Verif.SDN.C45_delta_fixed_no_drift",
    "Verif.SDN.C45_delta_fixed_cumulative_no_drift",
    "Verif.SDN.C45_corrected_no_drift",
    "Verif.SDN.C45_sigma_delta_fixed_partial",
    "Verif.SDN.C45_sigma_delta_fixed_multiples",
    "Verif.SDN.C45_witness_sigma_delta_fixed_drifts"
   ],
   "note": "Delta (fixed) and the corrected SigmaDelta: bound proved for every input; the uncorrected SigmaDelta drifts without bound (witness for every n), proved: linear bound, and no drift for multiples of 2^state_exp"
  },
  {
   "property": "C46",
   "status": "partial",
   "theorems": [
    "Verif.Conv.C46_hwcn_numbering_exact",
    "Verif.Conv.C46_hwcn_collision",
    "Verif.Conv.C46_nchw_accepted_iff",
    "Verif.Conv.C46_nchw_computes",
    "Verif.Conv.C46_nchw_right_if_symmetric",
    "Verif.Conv.C46_chwn_computes",
    "Verif.Conv.C46_chwn_accepted_iff",
    "Verif.Conv.C46_sparse_matrix_is_convolution",
    "Verif.Conv.C46_indices_in_range",
    "Verif.Conv.C46_scipy_is_the_textbook_sum",
    "Verif.Conv.C46_hwcn_partial",
    "Verif.Conv.C46_witness_hwcn_collision",
    "Verif.Conv.C46_witness_nchw_wrong_kernel"
   ],
   "note": "proved for the Lava order NWHC and every parameter; HWCN numbers the outputs right exactly if there is one column or rows = channels (C46_hwcn_numbering_exact); NCHW is accepted exactly if the kernel is as high as a group has channels and then correlates with a permuted kernel (C46_nchw_accepted_iff, C46_nchw_computes, witnesses); the undocumented CHWN computes a convolution with the unconverted kernel (C46_chwn_computes, C46_chwn_accepted_iff)"
  },
  {
   "property": "C47",
   "status": "proved",
   "theorems": [
    "Verif.Conv.C47_placements",
    "Verif.Conv.C47_output_shape",
    "Verif.Conv.C47_taps_inside"
   ],
   "note": "exact quotient"
  },
  {
   "property": "C48",
   "status": "proved",
   "theorems": [
    "Verif.Conv.C48_clamp",
    "Verif.Conv.C48_unique",
    "Verif.Conv.C48_identity"
   ],
   "note": ""
  },
  {
   "property": "C49",
   "status": "proved",
   "theorems": [
    "Verif.Conv.C49_temporal_convolution"
   ],
   "note": "exact integers; the roll of the flattened buffer is modelled"
  },
  {
   "property": "C50",
   "status": "proved",
   "theorems": [
    "Verif.IO.C50_source",
    "Verif.IO.C50_sink_recent",
    "Verif.IO.C50_sink_untouched",
    "Verif.IO.C50_source_to_sink",
    "Verif.IO.C50_read",
    "Verif.IO.C50_reset"
   ],
   "note": ""
  },
  {
   "property": "C51",
   "status": "proved",
   "theorems": [
    "Verif.IO.C51_state_loader",
    "Verif.IO.C51_before_first_load",
    "Verif.IO.C51_spike_loader",
    "Verif.IO.C51_spike_loader_before"
   ],
   "note": ""
  },
  {
   "property": "C52",
   "status": "partial",
   "theorems": [
    "Verif.IO.C52_bounded",
    "Verif.IO.C52_slots_returned",
    "Verif.IO.C52_drop_never_blocks",
    "Verif.IO.C52_blocking_drops_nothing",
    "Verif.IO.C52_fifo",
    "Verif.IO.C52_sum_conserved",
    "Verif.IO.C52_accumulate_takes_all",
    "Verif.IO.C52_zeros",
    "Verif.IO.C52_witness_drop_on_empty_channel",
    "Verif.IO.C52_witness_channel_probe"
   ],
   "note": "drops happen only when no slot is free, but a slot counts as taken until the acknowledgement was processed (witnesses); the channel is the FIFO proved in C01"
  },
  {
   "property": "C53",
   "status": "proved",
   "theorems": [
    "Verif.IO.C53_spiker",
    "Verif.IO.C53_witness_period_zero"
   ],
   "note": "period >= 1; period 0 fires once (witness)"
  },
  {
   "property": "C54",
   "status": "proved",
   "theorems": [
    "Verif.IO.C54_overflow_iff",
    "Verif.IO.C54_flag",
    "Verif.IO.C54_witness_64_bit"
   ],
   "note": "values in the int32 range, 1..32 bits; wider values are cut first (witness)"
  },
  {
   "property": "C55",
   "status": "partial",
   "theorems": [
    "Verif.Learning.C55_parse_fuel",
    "Verif.Learning.C55_tokenizes",
    "Verif.Learning.C55_numbers_decimal",
    "Verif.Learning.C55_value_partial",
    "Verif.Learning.C55_float_applier_partial",
    "Verif.Learning.C55_accepts",
    "Verif.Learning.C55_scale_rejection_justified",
    "Verif.Learning.C55_mixed_uk_rejected",
    "Verif.Learning.C55_no_dependency_rejected",
    "Verif.Learning.C55_bracketed_negation_loses_sign",
    "Verif.Learning.C55_sgn_negation_loses_sign",
    "Verif.Learning.C55_unsupported_text_accepted",
    "Verif.Learning.C55_float_applier_rejects_spike_factor",
    "Verif.Learning.C55_exponent_not_balanced"
   ],
   "note": "proved for every equation of the grammar in EqSpec (any spacing); false for a bracket that holds one negated variable and inside sgn (witnesses); exact rationals for the float applier"
  },
  {
   "property": "C56",
   "status": "partial",
   "theorems": [
    "Verif.Learning.C56_traces_in_range_partial",
    "Verif.Learning.C56_rule_reads_in_range_partial",
    "Verif.Learning.C56_decay_monotone",
    "Verif.Learning.C56_trace_tracks_ideal",
    "Verif.Learning.C56_saturating_add",
    "Verif.Learning.C56_overwrite_payload_255",
    "Verif.Learning.C56_add_payload_255",
    "Verif.Learning.C56_saturation_wraps",
    "Verif.Learning.C56_impulse_rounding_biased"
   ],
   "note": "every spike sequence and random draw, payloads up to 254 in the overwrite/unsaturated modes; payload 255 gives 128 (witnesses)"
  },
  {
   "property": "C57",
   "status": "proved",
   "theorems": [
    "Verif.Learning.C57_weights_legal",
    "Verif.Learning.C57_weights_always_legal",
    "Verif.Learning.C57_tags_in_range",
    "Verif.Learning.C57_silent_without_spikes",
    "Verif.Learning.C57_mac_exact",
    "Verif.Learning.C57_shift_fits",
    "Verif.Learning.C57_update_is_rounded_rule",
    "Verif.Learning.C57_mac_overflow",
    "Verif.Learning.C57_tag_below_range"
   ],
   "note": "dense connection, one synapse; findings: int32 overflow with four weight factors, tag lower bound"
  },
  {
   "property": "C58",
   "status": "proved",
   "theorems": [
    "Verif.Learning.C58_within_epoch",
    "Verif.Learning.C58_no_learning_inside_epoch",
    "Verif.Learning.C58_learning_at_epoch_end",
    "Verif.Learning.C58_recorded_spike_times",
    "Verif.Learning.C58_rule_reads_at_last_spike",
    "Verif.Learning.C58_uk"
   ],
   "note": ""
  },
  {
   "property": "C59",
   "status": "partial",
   "theorems": [
    "Verif.ProcApi.C59_complete_loop",
    "Verif.ProcApi.C59_registration_order",
    "Verif.ProcApi.C59_history_of_complete_loops_partial",
    "Verif.ProcApi.C59_after_break",
    "Verif.ProcApi.C59_nested_never_ends",
    "Verif.ProcApi.C59_collection_holds_attributes",
    "Verif.ProcApi.C59_alphabetical_not_declaration",
    "Verif.ProcApi.C59_shared_member"
   ],
   "note": "proved for every history of complete, non-nested loops; refuted (theorems) after a break (C59_after_break) and for nested loops (C59_nested_never_ends)"
  },
  {
   "property": "C60",
   "status": "proved",
   "theorems": [
    "Verif.ProcApi.C60_ids_unique",
    "Verif.ProcApi.C60_default_names_unique",
    "Verif.ProcApi.C60_given_name_may_collide"
   ],
   "note": ""
  },
  {
   "property": "C61",
   "status": "proved",
   "theorems": [
    "Verif.ProcApi.C61_set_existing_raises",
    "Verif.ProcApi.C61_set_new",
    "Verif.ProcApi.C61_overwrite",
    "Verif.ProcApi.C61_history",
    "Verif.ProcApi.C61_get"
   ],
   "note": ""
  },
  {
   "property": "C62",
   "status": "partial",
   "theorems": [
    "Verif.ProcApi.C62_load_written_name",
    "Verif.ProcApi.C62_load_finds_save_partial",
    "Verif.ProcApi.C62_other_files_untouched",
    "Verif.ProcApi.C62_no_dot_not_found",
    "Verif.ProcApi.C62_failed_save_destroys"
   ],
   "note": "proved for names with a dot; for a name without a dot load does not find the file (C62_no_dot_not_found)"
  },
  {
   "property": "C63",
   "status": "partial",
   "theorems": [
    "Verif.ProcApi.C63_at_most_one_probe",
    "Verif.ProcApi.C63_single_probe_partial",
    "Verif.ProcApi.C63_too_many_steps",
    "Verif.ProcApi.C63_second_probe_wipes_data"
   ],
   "note": "one probe, any Var or OutPort and number of steps; a second probe is rejected by the compiler (C63_at_most_one_probe)"
  },
  {
   "property": "C64",
   "status": "partial",
   "theorems": [
    "Verif.Neurons.C64_rf_range",
    "Verif.Neurons.C64_rfiz_range",
    "Verif.Neurons.C64_rfiz_least_threshold",
    "Verif.Neurons.C64_atrlif_range_partial",
    "Verif.Neurons.C64_atrlif_refractory_leaves_24_bits",
    "Verif.Neurons.C64_atrlif_full_decay_flips_sign",
    "Verif.Neurons.C64_atrlif_int_product_overflows",
    "Verif.Neurons.C64_atrlif_spike"
   ],
   "note": "RF and RF_IZ: proved for all inputs; ATRLIF: current and voltage proved, threshold and refractory state bounded but not by 24 bits (refuted by C64_atrlif_refractory_leaves_24_bits)"
  },
  {
   "property": "C65",
   "status": "proved",
   "theorems": [
    "Verif.ProcApi.C65_implements",
    "Verif.ProcApi.C65_level",
    "Verif.ProcApi.C65_chain",
    "Verif.ProcApi.C65_multiple_inheritance_drops"
   ],
   "note": "every single-inheritance chain; with multiple inheritance tags are dropped (C65_multiple_inheritance_drops)"
  },
  {
   "property": "C66",
   "status": "proved",
   "theorems": [
    "Verif.ProcApi.C66_switches",
    "Verif.ProcApi.C66_exclusive",
    "Verif.ProcApi.C66_selection_available",
    "Verif.ProcApi.C66_trailing_newline_fails",
    "Verif.ProcApi.C66_missing_program_raises",
    "Verif.ProcApi.C66_board_in_partition"
   ],
   "note": "findings: trailing newline, missing sinfo program"
  },
  {
   "property": "C67",
   "status": "partial",
   "theorems": [
    "Verif.AsyncModel.C67_done_once_partial",
    "Verif.AsyncModel.C67_done_iff",
    "Verif.AsyncModel.C67_sticky_pause"
   ],
   "note": "DONE iff all models done is proved for all states; the second half is false of the code: pause/stop/error flags are never cleared (C67_sticky_pause)"
  },
  {
   "property": "C68",
   "status": "partial",
   "theorems": [
    "Verif.Compiler.C68_process_has_service_of_its_domain",
    "Verif.Compiler.C68_service_id_is_position_partial",
    "Verif.Compiler.C68_witness_spread_domain",
    "Verif.Compiler.C68_request_port_routed",
    "Verif.Compiler.C68_witness_domain_called_to_service"
   ],
   "note": "right service proved for every input, index agreement for domains on one node; fails for spread domains and for domain names starting with to_service (witnesses)"
  },
  {
   "property": "C69",
   "status": "proved",
   "theorems": [
    "Verif.Encoder.C69_sparse_roundtrip",
    "Verif.Encoder.C69_sparse_positions"
   ],
   "note": ""
  },
  {
   "property": "C70",
   "status": "proved",
   "theorems": [
    "Verif.LIF.C70_reset_forgets",
    "Verif.LIF.C70_otherwise_lif",
    "Verif.LIF.C70_history_bounded",
    "Verif.LIF.C70_history_kept_between_resets"
   ],
   "note": ""
  },
  {
   "property": "C71",
   "status": "proved",
   "theorems": [
    "Verif.Conv.C71_conv_one_step_delay"
   ],
   "note": ""
  },
  {
   "property": "C72",
   "status": "proved",
   "theorems": [
    "Verif.Neurons.C72_rf_no_consecutive_spikes",
    "Verif.Neurons.C72_rf_spike_iff",
    "Verif.Neurons.C72_rfiz_spike_reset"
   ],
   "note": ""
  },
  {
   "property": "C73",
   "status": "proved",
   "theorems": [
    "Verif.Neurons.C73_graded",
    "Verif.Neurons.C73_relu",
    "Verif.Neurons.C73_prod",
    "Verif.Neurons.C73_norm",
    "Verif.Neurons.C73_norm_delay_is_one"
   ],
   "note": "exact integers"
  },
  {
   "property": "C74",
   "status": "proved",
   "theorems": [
    "Verif.Neurons.C74_exact",
    "Verif.Neurons.C74_output",
    "Verif.Neurons.C74_overflow"
   ],
   "note": "the bound is sharp (C74_overflow)"
  },
  {
   "property": "C75",
   "status": "proved",
   "theorems": [
    "Verif.Networks.C75_each_summand_once",
    "Verif.Networks.C75_sum_of_sums_raises",
    "Verif.Networks.C75_sum_is_mutated",
    "Verif.Networks.C75_no_shape_raises"
   ],
   "note": "finding: a sum kept in a variable is mutated"
  },
  {
   "property": "C76",
   "status": "proved",
   "theorems": [
    "Verif.System.C76_schedule_independent",
    "Verif.System.C76_every_fair_schedule_completes",
    "Verif.System.C76_no_schedule_diverges"
   ],
   "note": "processes with blocking send and recv on single-sender single-receiver channels; select over several channels and probe are outside"
  },
  {
   "property": "C77",
   "status": "proved",
   "theorems": [
    "Verif.System.C77_no_deadlock",
    "Verif.System.C77_deadlock",
    "Verif.System.C77_deadlock_iff",
    "Verif.System.C77_send_first_breaks_cycles"
   ],
   "note": "process models with a fixed order of channel operations per step"
  },
  {
   "property": "C78",
   "status": "proved",
   "theorems": [
    "Verif.System.C78_lockstep",
    "Verif.System.C78_service_adds_no_deadlock"
   ],
   "note": "one phase per time step"
  },
  {
   "property": "C79",
   "status": "proved",
   "theorems": [
    "Verif.System.C79_block_diagrams",
    "Verif.System.C79_executions_follow_equations",
    "Verif.System.C79_unique_solution",
    "Verif.System.C79_recurrent_lif_dense"
   ],
   "note": "includes an instance with the LIF and Dense models"
  },
  {
   "property": "C80",
   "status": "proved",
   "theorems": [
    "Verif.Host.C80_overlapping_runs_garble",
    "Verif.Host.C80_stop_while_running_can_fail",
    "Verif.Host.C80_stop_while_running_can_succeed",
    "Verif.Host.C80_stop_before_run_hangs",
    "Verif.Host.C80_program_completes",
    "Verif.Host.C80_results_sequential"
   ],
   "note": "runtime services as sequential command interpreters (C06-C08); pause and requests of process models outside"
  },
  {
   "property": "C81",
   "status": "proved",
   "theorems": [
    "Verif.CLP.C81_novelty_iff",
    "Verif.CLP.C81_one_signal_per_input",
    "Verif.CLP.C81_repeated_input_never_signalled",
    "Verif.CLP.C81_negative_wait_always_signals"
   ],
   "note": "t_wait >= 0; a negative t_wait signals in every step without output (C81_negative_wait_always_signals)"
  },
  {
   "property": "C82",
   "status": "proved",
   "theorems": [
    "Verif.CLP.C82_labels",
    "Verif.CLP.C82_outputs",
    "Verif.CLP.C82_positive_labels_permanent",
    "Verif.CLP.C82_witness_negative_label",
    "Verif.CLP.C82_allocation_ids",
    "Verif.CLP.C82_trigger_allocates_next",
    "Verif.CLP.C82_witness_too_many_allocations",
    "Verif.CLP.C82_witness_spike_suppressed"
   ],
   "note": "user labels >= 0 (a negative one is replaced later: C82_witness_negative_label), at most n_protos triggers (otherwise IndexError: C82_witness_too_many_allocations); initial labels zero"
  },
  {
   "property": "C83",
   "status": "partial",
   "theorems": [
    "Verif.Graphs.C83_sub_procs_found",
    "Verif.Graphs.C83_witness_dataclass_loses_process",
    "Verif.Graphs.C83_leaves_exact",
    "Verif.Graphs.C83_elaborated",
    "Verif.Graphs.C83_returns",
    "Verif.Graphs.C83_endless_nesting_never_returns",
    "Verif.Graphs.C83_witness_model_keeps_its_process",
    "Verif.Graphs.C83_is_sub_proc_of",
    "Verif.Graphs.C83_example"
   ],
   "note": "proved relative to the sub processes that find_sub_procs finds; two processes of one class in a dataclass attribute lose one (C83_witness_dataclass_loses_process), and a model that stores the process it implements never ends (C83_witness_model_keeps_its_process)"
  },
  {
   "property": "C84",
   "status": "partial",
   "theorems": [
    "Verif.Graphs.C84_edges",
    "Verif.Graphs.C84_edges_exact",
    "Verif.Graphs.C84_no_enclosing_process",
    "Verif.Graphs.C84_returns",
    "Verif.Graphs.C84_example",
    "Verif.Graphs.C84_witness_unused_input_port",
    "Verif.Graphs.C84_witness_unused_reshape"
   ],
   "note": "exact for port graphs without virtual ports; with virtual ports C84_edges describes the search, and C84_witness_unused_reshape, C84_witness_unused_input_port show edges that should not be there"
  },
  {
   "property": "C85",
   "status": "proved",
   "theorems": [
    "Verif.S4D.C85_s4d_is_linear_filter",
    "Verif.S4D.C85_witness_input_contributes_at_once",
    "Verif.S4D.C85_sigma_s4d_delta_tracks",
    "Verif.S4D.C85_layer_tracks",
    "Verif.S4D.C85_layer_latency",
    "Verif.S4D.C85_example"
   ],
   "note": "float models in exact arithmetic over any ordered commutative ring (any commutative ring for S4d); layer in lockstep; the documented output equation is off by one step and a factor 2 (C85_witness_input_contributes_at_once)"
  },
  {
   "property": "C86",
   "status": "partial",
   "theorems": [
    "Verif.Learning.C86_rule_reads_traces",
    "Verif.Learning.C86_stdp_weight_law",
    "Verif.Learning.C86_stdp_is_pair_based",
    "Verif.Learning.C86_one_step_epochs",
    "Verif.Learning.C86_weight_between_epochs",
    "Verif.Learning.C86_stdp_text",
    "Verif.Learning.C86_stdp_loihi",
    "Verif.Learning.C86_literal_close",
    "Verif.Learning.C86_literal_exact_iff",
    "Verif.Learning.C86_literal_examples",
    "Verif.Learning.C86_zero_tau_weight_nan",
    "Verif.Learning.C86_example",
    "Verif.Learning.C86_witness_two_spikes_per_epoch"
   ],
   "note": "trace law, weight law and compilation of the rule text proved for all spike trains in exact arithmetic (any ordered field, one synapse, dense connection); pair-based STDP proved for at most one spike per epoch and false otherwise (C86_witness_two_spikes_per_epoch); the parameters are replaced by literals that are exact only for integers and powers of two below one (C86_literal_exact_iff), within a factor sqrt 2 (C86_literal_close); a trace with time constant 0 makes the weight NaN (C86_zero_tau_weight_nan)"
  },
  {
   "property": "C87",
   "status": "partial",
   "theorems": [
    "Verif.Learning.C87_eligibility",
    "Verif.Learning.C87_reward_weight",
    "Verif.Learning.C87_texts",
    "Verif.Learning.C87_reward_modulated_stdp",
    "Verif.Learning.C87_finding_tau_is_a_rate",
    "Verif.Learning.C87_example"
   ],
   "note": "eligibility trace, weight and compilation of both texts proved for all spike trains and rewards (exact arithmetic, one synapse); the time constant of the eligibility trace is used as a leak rate, so the documented decay is false (C87_finding_tau_is_a_rate)"
  },
  {
   "property": "C88",
   "status": "partial",
   "theorems": [
    "Verif.Wiring.C88_transformer",
    "Verif.Wiring.C88_messages",
    "Verif.Wiring.C88_receive_enabled",
    "Verif.Wiring.C88_built_iff",
    "Verif.Wiring.C88_private",
    "Verif.Wiring.C88_ref_var",
    "Verif.Wiring.C88_example",
    "Verif.Wiring.C88_witness_second_ref_port_unserved",
    "Verif.Wiring.C88_witness_sparse_fan_in_ignored"
   ],
   "note": "proved for dense ports in all-Python networks, every connection list and history; RefPort and VarPort proved for one-to-one connections, false otherwise (C88_witness_second_ref_port_unserved); a sparse InPort reads one source only (C88_witness_sparse_fan_in_ignored)"
  },
  {
   "property": "C89",
   "status": "partial",
   "theorems": [
    "Verif.Pause.C89_example",
    "Verif.Pause.C89_witness_paused_at_different_steps",
    "Verif.Pause.C89_witness_pause_can_raise",
    "Verif.Pause.C89_witness_pause_can_succeed",
    "Verif.Pause.C89_run_after_pause_never_returns",
    "Verif.Pause.C89_pause_after_two_runs_hangs",
    "Verif.Pause.C89_completes",
    "Verif.Pause.C89_results"
   ],
   "note": "proved for programs without a run of given length after a pause, every schedule (C89_results), with completion under fair schedules (C89_completes); false otherwise: a run of given length after a pause never returns (C89_run_after_pause_never_returns), pause of a run that is just finishing raises or not depending on the schedule (C89_witness_pause_can_raise, C89_witness_pause_can_succeed), pause hangs when two continuous runs were started (C89_pause_after_two_runs_hangs); services are paused at different time steps (C89_witness_paused_at_different_steps). RunContinuous is endless in the model, sys.maxsize steps in the code; requests and errors of process models are not modelled"
  },
  {
   "property": "C90",
   "status": "partial",
   "theorems": [
    "Verif.Events.C90_exception_reported",
    "Verif.Events.C90_pause_request",
    "Verif.Events.C90_stop_request",
    "Verif.Events.C90_after_exception",
    "Verif.Events.C90_after_stop",
    "Verif.Events.C90_last_step_race",
    "Verif.Events.C90_last_step_race_stop",
    "Verif.Events.C90_pause_hides_stop",
    "Verif.Events.C90_two_services_race",
    "Verif.Events.C90_two_services_hang",
    "Verif.Events.C90_completes",
    "Verif.Events.C90_results"
   ],
   "note": "one runtime service: proved for every program without a pause or stop call during a non-blocking run, every behaviour of the process models and every schedule (C90_results), completion under fair schedules if every run ends (C90_completes). As stated false: a request in the last step of a run raises or not depending on the schedule (C90_last_step_race, C90_last_step_race_stop, the only cases by C90_results), a stop requested together with a pause is delayed to the next run (C90_pause_hides_stop), after an exception no run, wait, pause or stop ever returns (C90_after_exception); with several services a pause request can raise or make the next run hang (C90_two_services_race, C90_two_services_hang)"
  },
  {
   "property": "C91",
   "status": "partial",
   "theorems": [
    "Verif.Events.C91_outcomes",
    "Verif.Events.C91_one_fails",
    "Verif.Events.C91_returns",
    "Verif.Events.C91_raises",
    "Verif.Events.C91_not_reported"
   ],
   "note": "exact outcomes for every number of services and schedule (C91_outcomes), completion if all services succeed (C91_returns) or all fail (C91_raises); false if one fails and another does not: the run never returns (C91_one_fails, C91_not_reported). Hypothesis: no pause or stop requests"
  },
  {
   "property": "C92",
   "status": "partial",
   "theorems": [
    "Verif.Learning.C92_accepts_iff",
    "Verif.Learning.C92_attributes",
    "Verif.Learning.C92_decimate",
    "Verif.Learning.C92_series_value",
    "Verif.Learning.C92_value_partial",
    "Verif.Learning.C92_absent_rule",
    "Verif.Learning.C92_documented_accepted",
    "Verif.Learning.C92_set_as_constructed",
    "Verif.Learning.C92_update_as_constructed",
    "Verif.Learning.C92_update_accepts",
    "Verif.Learning.C92_history",
    "Verif.Learning.C92_cannot_change_k",
    "Verif.Learning.C92_active_traces",
    "Verif.Learning.C92_space_disables_uk",
    "Verif.Learning.C92_two_digit_k",
    "Verif.Learning.C92_refused_set_leaves_text"
   ],
   "note": "acceptance characterised exactly (C92_accepts_iff), value proved for every rule and step unless a space stands between u and its digit or a lone negated variable stands in brackets (C92_value_partial), every history of accepted updates equals a fresh construction (C92_history). False: a space behind u silently disables the term (C92_space_disables_uk), a refused assignment to a text is not undone (C92_refused_set_leaves_text)"
  },
  {
   "property": "C93",
   "status": "partial",
   "theorems": [
    "Verif.Lifecycle.C93_never_in_two_runs",
    "Verif.Lifecycle.C93_calls_reach_one_run",
    "Verif.Lifecycle.C93_hierarchical_calls_reach_one_run",
    "Verif.Lifecycle.C93_example",
    "Verif.Lifecycle.C93_example_hierarchical",
    "Verif.Lifecycle.C93_witness_sub_process_in_two_runs",
    "Verif.Lifecycle.C93_witness_refused_run_marks",
    "Verif.Lifecycle.C93_hierarchical_neighbour_has_no_control",
    "Verif.Lifecycle.C93_failed_compile_is_final",
    "Verif.Lifecycle.C93_failed_build_makes_run_silent"
   ],
   "note": "proved for every history and every number of networks: a network of leaf models is controlled by its processes and only by them (C93_calls_reach_one_run), the same with hierarchical processes for the process that was run and all leaf processes while only they are called (C93_hierarchical_calls_reach_one_run), no user-created process in two runtimes (C93_never_in_two_runs). False as stated: another hierarchical process of the network never gets the runtime, its wait/pause/stop do nothing and its run raises (C93_hierarchical_neighbour_has_no_control); after a compilation that failed the network can never be run (C93_failed_compile_is_final); after an exception while models are built every later run silently does nothing (C93_failed_build_makes_run_silent); a sub process can be taken into a second runtime (C93_witness_sub_process_in_two_runs)."
  },
  {
   "property": "C94",
   "status": "partial",
   "theorems": [
    "Verif.Graded.C94_matrix_vector",
    "Verif.Graded.C94_matrix_vector_exact",
    "Verif.Graded.C94_identity_copies",
    "Verif.Graded.C94_witness_saturation",
    "Verif.Graded.C94_witness_dense_sparse_differ",
    "Verif.Graded.C94_product",
    "Verif.Graded.C94_program",
    "Verif.Graded.C94_expressions",
    "Verif.Graded.C94_witness_matrix_reuse",
    "Verif.Graded.C94_network_equations"
   ],
   "note": "proved for every program in which each matrix is used in one product: exact values for weights that are representable (C94_expressions), and for all matrices and programs the equations with the sum of all vectors multiplied with a matrix (C94_program) and an error bound on the product (C94_matrix_vector); products of vectors (C94_product); any network of these processes with a connection in every loop (C94_network_equations). As stated false: a matrix used in two products mixes their inputs (C94_witness_matrix_reuse), weights of magnitude 256 units or more saturate (C94_witness_saturation), dense and sparse matrices quantise differently (C94_witness_dense_sparse_differ). Integers are unbounded in the model"
  },
  {
   "property": "C95",
   "status": "partial",
   "theorems": [
    "Verif.Graded.C95_inverse_sqrt",
    "Verif.Graded.C95_inverse_sqrt_real",
    "Verif.Graded.C95_table",
    "Verif.Graded.C95_example",
    "Verif.Graded.C95_normalize_net",
    "Verif.Graded.C95_normalized",
    "Verif.Graded.C95_witness_misaligned"
   ],
   "note": "inverse square root: proved for every argument from 1 to 2^24-1 (C95_inverse_sqrt, C95_inverse_sqrt_real). Normalisation network: exact output for every sequence of inputs (C95_normalize_net), normalised if the input is the same in two consecutive steps and its sum of squares below 2^24 (C95_normalized). As stated false: the vector is delayed by one step, its length by two, so an input lasting one step gives zeros and a changing input is divided by the length of another vector (C95_witness_misaligned)"
  },
  {
   "property": "C96",
   "status": "proved",
   "theorems": [
    "Verif.EndToEnd.C96_witness_pre_guard",
    "Verif.EndToEnd.C96_witness_oversize",
    "Verif.EndToEnd.C96_runs_compose",
    "Verif.EndToEnd.C96_get_is_pure",
    "Verif.EndToEnd.C96_get_after_set",
    "Verif.EndToEnd.C96_set_changes_nothing_else",
    "Verif.EndToEnd.C96_recurrent_lif_dense",
    "Verif.EndToEnd.C96_phases_are_local",
    "Verif.EndToEnd.C96_services_irrelevant",
    "Verif.EndToEnd.C96_distribution_invisible",
    "Verif.EndToEnd.C96_meaning_unique",
    "Verif.EndToEnd.C96_every_schedule"
   ],
   "note": "C96_every_schedule with C96_meaning_unique; grouping: C96_phases_are_local, C96_services_irrelevant, C96_distribution_invisible; laws: C96_runs_compose, C96_get_is_pure, C96_get_after_set, C96_set_changes_nothing_else; a LIF population with a recurrent Dense connection driven by a program of calls: C96_recurrent_lif_dense. Outside the assumptions: C96_witness_pre_guard (a pre_guard without lrn_guard makes the grouping visible), C96_witness_oversize (a set with too many items is acknowledged and the next call fails). Models without VarPorts, pause and stop within a run, exceptions (C80, C89-C91)"
  },
  {
   "property": "C97",
   "status": "partial",
   "theorems": [
    "Verif.Cache.C97_witness_stale",
    "Verif.Cache.C97_witness_wrong_var",
    "Verif.Cache.C97_witness_transformation_lost",
    "Verif.Cache.C97_hit_uses_stored_builders",
    "Verif.Cache.C97_hit_is_fresh_iff",
    "Verif.Cache.C97_first",
    "Verif.Cache.C97_same_network",
    "Verif.Cache.C97_first_named_decides",
    "Verif.Cache.C97_interrupted_is_final",
    "Verif.Cache.C97_fresh_access",
    "Verif.Cache.C97_same_session"
   ],
   "note": "exact characterisation for every pair of networks: C97_hit_is_fresh_iff (same names, ids, process models, Vars, ports; parameters may differ), C97_same_network, C97_hit_uses_stored_builders, for every history C97_first_named_decides, C97_first, C97_fresh_access. As stated false: changed process models and initial values are ignored (C97_witness_stale), a Var created in another order is confused with another (C97_witness_wrong_var), in the same session get and set always raise and virtual ports have no effect (C97_same_session, C97_witness_transformation_lost), an interruption while writing makes all later compilations fail (C97_interrupted_is_final), default names raise (C97_first)"
  },
  {
   "property": "C98",
   "status": "partial",
   "theorems": [
    "Verif.Watchdog.C98_message_means_blocked",
    "Verif.Watchdog.C98_blocked_means_message",
    "Verif.Watchdog.C98_message_rate",
    "Verif.Watchdog.C98_no_false_alarm",
    "Verif.Watchdog.C98_stop_waits",
    "Verif.Watchdog.C98_stop_returns",
    "Verif.Watchdog.C98_witness_duplicates"
   ],
   "note": "proved for every execution: a message only after one call has lasted for the timeout (C98_message_means_blocked, C98_no_false_alarm), at least one message for every further timeout if the monitor is faster than the clock (C98_blocked_means_message), at most one for every timeout and call so far (C98_message_rate), stop returns if all calls have ended (C98_stop_returns). As stated false: a blocked call can give any number of messages per timeout, because threads of earlier calls wait for the same event (C98_witness_duplicates); stop never returns while a port stays blocked (C98_stop_waits)"
  },
  {
   "property": "C99",
   "status": "partial",
   "theorems": [
    "Verif.Sparse.C99_sparse_is_dense",
    "Verif.Sparse.C99_sparse_float",
    "Verif.Sparse.C99_storage_irrelevant",
    "Verif.Sparse.C99_get_weights",
    "Verif.Sparse.C99_witness_weights_inaccessible",
    "Verif.Sparse.C99_example",
    "Verif.Sparse.C99_delay_sparse_is_dense",
    "Verif.Sparse.C99_witness_late_delay",
    "Verif.Sparse.C99_learning",
    "Verif.Sparse.C99_witness_truncated_never_learns",
    "Verif.Sparse.C99_learning_example"
   ],
   "note": "outputs proved equal for Sparse, DelaySparse (max_delay >= 1 or no delays) and for stored synapses under learning. False parts, with theorems: a stored weight quantised to zero makes weights.get()/set() raise and never learns again; with max_delay = 0 later delays are ignored; synapses that are not stored never learn"
  },
  {
   "property": "C100",
   "status": "partial",
   "theorems": [
    "Verif.Dense.C100_right_modulo_2_32",
    "Verif.Dense.C100_exact_iff_fits",
    "Verif.Dense.C100_negative_exponent",
    "Verif.Dense.C100_binary_right_modulo_2_32",
    "Verif.Dense.C100_safe_sizes",
    "Verif.Dense.C100_witness_graded_overflow",
    "Verif.Dense.C100_witness_shifted_out",
    "Verif.Dense.C100_delays_right_modulo_2_32",
    "Verif.Dense.C100_witness_delay_overflow"
   ],
   "note": "Proved for machine integers: congruent modulo 2^32 for every exponent >= 0 and for binary connections; exact iff the exact value fits (exponent >= 0); exact for sizes below the bound; the same for delays. The full statement is false for graded spikes with a negative exponent: the product wraps before it is divided (C100_witness_graded_overflow: one synapse with a 24-bit spike; C100_witness_delay_overflow)."
  },
  {
   "property": "C101",
   "status": "proved",
   "theorems": [
    "Verif.IO.Interactive.C101_values",
    "Verif.IO.Interactive.C101_completes_iff",
    "Verif.IO.Interactive.C101_completes",
    "Verif.IO.Interactive.C101_batch",
    "Verif.IO.Interactive.C101_stream",
    "Verif.IO.Interactive.C101_ping_pong",
    "Verif.IO.Interactive.C101_receive_first",
    "Verif.IO.Interactive.C101_witness_large_batch_hangs"
   ],
   "note": "Values for every schedule (C101_values); completion if and only if a counting condition holds (C101_completes_iff, C101_completes), worked out for batches, streams, closed loops and receive-first programs; C101_witness_large_batch_hangs: send all, run, receive all hangs beyond the buffer size. One Injector and one Extractor."
  },
  {
   "property": "C102",
   "status": "partial",
   "theorems": [
    "Verif.Builder.C102_accepted_iff",
    "Verif.Builder.C102_witness_var_named_like_method",
    "Verif.Builder.C102_out_config",
    "Verif.Builder.C102_witness_second_out_port",
    "Verif.Builder.C102_init_iff",
    "Verif.Builder.C102_init_values",
    "Verif.Builder.C102_init_number",
    "Verif.Builder.C102_init_same_shape",
    "Verif.Builder.C102_witness_no_dimensions",
    "Verif.Builder.C102_build_errors",
    "Verif.Builder.C102_build_decides"
   ],
   "note": "Acceptance (C102_accepted_iff), initial values (C102_init_iff, C102_init_values and special cases) and build errors (C102_build_errors, C102_build_decides) characterised exactly, for all inputs and schedules. False parts: a Var named like a method of the model is accepted (C102_witness_var_named_like_method); the configuration of OutPort number k is that of its connection number k, so a second OutPort with one configured connection cannot be compiled (C102_out_config, C102_witness_second_out_port); a Var of shape () cannot be an array (C102_witness_no_dimensions)."
  },
  {
   "property": "C103",
   "status": "partial",
   "theorems": [
    "Verif.Discovery.C103_found_iff",
    "Verif.Discovery.C103_order",
    "Verif.Discovery.C103_fails_iff",
    "Verif.Discovery.C103_without_package",
    "Verif.Discovery.C103_witness_relative_import",
    "Verif.Discovery.C103_witness_wrong_class",
    "Verif.Discovery.C103_not_inherited",
    "Verif.Discovery.C103_executions"
   ],
   "note": "Proved for every package whose files can be executed under their plain names (C103_found_iff, C103_order, C103_fails_iff, C103_not_inherited). False otherwise: a file with relative imports is skipped (C103_witness_relative_import, exactly by C103_found_iff), nothing but the own module is searched for a process in a script or a module without package (C103_without_package), a model in a sub package is replaced by a class of the same name (C103_witness_wrong_class). Every file is executed again, once per module of the package, for every process (C103_executions)"
  },
  {
   "property": "C104",
   "status": "partial",
   "theorems": [
    "Verif.Compiler.Sync.C104_service_ports",
    "Verif.Compiler.Sync.C104_model_ports",
    "Verif.Compiler.Sync.C104_requests_reach",
    "Verif.Compiler.Sync.C104_witness_mixed_domain",
    "Verif.Compiler.Sync.C104_misrouted_iff",
    "Verif.Compiler.Sync.C104_runtime_ports",
    "Verif.Compiler.Sync.C104_no_channel_shared"
   ],
   "note": "Proved for all sets of domains of Python models (C104_service_ports, C104_model_ports, C104_requests_reach, C104_no_channel_shared) and for the channels of the runtime unless a domain name starts with to_service or contains runtime_to_service (C104_runtime_ports; exactly by C104_misrouted_iff). False for a custom domain that mixes Python models with others (C104_witness_mixed_domain)"
  },
  {
   "property": "C105",
   "status": "partial",
   "theorems": [
    "Verif.Learning.C105_history",
    "Verif.Learning.C105_float",
    "Verif.Learning.C105_other_accepted",
    "Verif.Learning.C105_fixed_unrelated_iff",
    "Verif.Learning.C105_fixed_integers",
    "Verif.Learning.C105_get_before_set",
    "Verif.Learning.C105_absent_text_refused",
    "Verif.Learning.C105_impulse_precision",
    "Verif.Learning.C105_fixed_small_parameters",
    "Verif.Learning.C105_witness"
   ],
   "note": "Proved for the floating-point model (C105_float) and for the fixed-point model with integer parameters (C105_fixed_integers); every history is characterised by C105_history. False of the fixed-point model with fractional parameters: the first set of any Var truncates them all (C105_fixed_unrelated_iff, C105_fixed_small_parameters, C105_witness), and get shows the truncated value before that (C105_get_before_set); the text of a target without rule cannot be set (C105_absent_text_refused)"
  },
  {
   "property": "C106",
   "status": "partial",
   "theorems": [
    "Verif.Learning.C106_synapses_in_range",
    "Verif.Learning.C106_reads_received",
    "Verif.Learning.C106_reads_near",
    "Verif.Learning.C106_negative_read_as_zero",
    "Verif.Learning.C106_learns_from_received",
    "Verif.Learning.C106_punishment_ignored",
    "Verif.Learning.C106_witness"
   ],
   "note": "Proved: ranges for every received value (C106_synapses_in_range), the value read is the value received up to the rounding of the decay factor exp(-1/65535) (C106_reads_received, C106_reads_near, C106_learns_from_received). False for negative third factors: they are read as 0 at the end of each epoch in which the post-synaptic neuron spiked (C106_negative_read_as_zero), so reward-modulated STDP ignores punishments there (C106_punishment_ignored, C106_witness)"
  },
  {
   "property": "C107",
   "status": "proved",
   "theorems": [
    "Verif.Learning.C107_stores_pattern",
    "Verif.Learning.C107_prototype_stores_pattern",
    "Verif.Learning.C107_second_allocation_adds"
   ],
   "note": "Weight within [p-4, p+1] of the payload p for random numbers not within 0.002 of 1, lower bound p-6-2*age otherwise; composed with allocator and prototypes (C107_prototype_stores_pattern). C107_second_allocation_adds: a second action potential at the same prototype would add (the allocator never sends one, C82)"
  },
  {
   "property": "C108",
   "status": "proved",
   "theorems": [
    "Verif.Learning.C108_each_synapse_alone",
    "Verif.Learning.C108_other_synapses_do_not_matter",
    "Verif.Learning.C108_weights_always_legal",
    "Verif.Learning.C108_three_factor",
    "Verif.Learning.C108_patterns_stored"
   ],
   "note": "Array code with numpy indexing and broadcasting, dense connections; lifts the single-synapse results (C56-C58, C106, C107) to whole connections, e.g. C108_weights_always_legal and C108_patterns_stored"
  },
  {
   "property": "C109",
   "status": "proved",
   "theorems": [
    "Verif.Neurons.C109_weak_bias_never_fires",
    "Verif.Neurons.C109_no_decay_still_leaks",
    "Verif.Neurons.C109_atrlif_follows",
    "Verif.Neurons.C109_atrlif_leaky",
    "Verif.Neurons.C109_lif_follows",
    "Verif.Neurons.C109_lif_leaky",
    "Verif.Neurons.C109_lif_integrator",
    "Verif.Neurons.C109_rf_follows",
    "Verif.Neurons.C109_rfiz_follows",
    "Verif.Neurons.C109_rfiz_decaying",
    "Verif.Neurons.C109_rf_rotating"
   ],
   "note": "Floating-point numbers as rationals or reals. C109_weak_bias_never_fires and C109_no_decay_still_leaks show what happens when the margin is not kept or the offset of du is forgotten. ATRLIF: for delta_i given as a float"
  },
  {
   "property": "C110",
   "status": "proved",
   "theorems": [
    "Verif.Neurons.C110_periodic",
    "Verif.Neurons.C110_silent",
    "Verif.Neurons.C110_rheobase",
    "Verif.Neurons.C110_integrator"
   ],
   "note": "Floating-point numbers as rationals"
  },
  {
   "property": "C111",
   "status": "proved",
   "theorems": [
    "Verif.SpikeNet.C111_network_follows",
    "Verif.SpikeNet.C111_weight_error",
    "Verif.SpikeNet.C111_same_weights"
   ],
   "note": "Synchronous equations of the network (that executions follow them is C79); floating-point numbers as rationals, binary spikes"
  },
  {
   "property": "C112",
   "status": "proved",
   "theorems": [
    "Verif.System.C112_same_results",
    "Verif.System.C112_sinks",
    "Verif.System.C112_buffers_and_order"
   ],
   "note": "Block diagrams as in C79; for processes that combine their inputs independently of the order, such as addition of integers; VarPorts are not covered"
  },
  {
   "property": "C113",
   "status": "proved",
   "theorems": [
    "Verif.RefAccess.C113_mutual_reads_hang",
    "Verif.RefAccess.C113_write_without_wait_races",
    "Verif.RefAccess.C113_spiking_phase_read_may_hang",
    "Verif.RefAccess.C113_two_writers_race",
    "Verif.RefAccess.C113_outcome",
    "Verif.RefAccess.C113_deterministic",
    "Verif.RefAccess.C113_served_after_own_method",
    "Verif.RefAccess.C113_wait_suffices",
    "Verif.RefAccess.C113_no_circle_finishes",
    "Verif.RefAccess.C113_circle_never_finishes"
   ],
   "note": "One runtime service, runs only (pause, stop, get and set are in other properties); a write is one message. Theorems with racing schedules show that each of the three rules is needed"
  },
  {
   "property": "C114",
   "status": "proved",
   "theorems": [
    "Verif.Wired.C114_example",
    "Verif.Wired.C114_results",
    "Verif.Wired.C114_unique",
    "Verif.Wired.C114_from_connect_calls",
    "Verif.Wired.C114_from_connect_calls_unique"
   ],
   "note": "Composition of the models of C22/C23, C31, C88 and C96; ports are used at most once per time step in a fixed order; transformations of virtual ports in C114_results only"
  },
  {
   "property": "C115",
   "status": "proved",
   "theorems": [
    "Verif.Snn.C115_example",
    "Verif.Snn.C115_simulated",
    "Verif.Snn.C115_recorded_fixed",
    "Verif.Snn.C115_recorded_float",
    "Verif.Snn.C115_same_recordings"
   ],
   "note": "Neurons are fed by connections and sources, not directly by other neurons (which may deadlock, C77); floating-point models over exact numbers; builds on C114, C111, C50, C39 and C41"
  },
  {
   "property": "C116",
   "status": "proved",
   "theorems": [
    "Verif.Plastic.C116_example",
    "Verif.Plastic.C116_simulated",
    "Verif.Plastic.C116_stdp_network",
    "Verif.Plastic.C116_spike_pairs",
    "Verif.Plastic.C116_unique"
   ],
   "note": "Regular impulses, mixed sign mode, STDPLoihi rules; numbers are exact rationals; builds on C86, C114, C115"
  },
  {
   "property": "C117",
   "status": "proved",
   "theorems": [
    "Verif.EndToEnd.C117_circle_hangs",
    "Verif.Wired.C117_circle_hangs",
    "Verif.Wired.C117_returns_iff_no_circle",
    "Verif.Wired.C117_run_returns_iff",
    "Verif.Wired.C117_example"
   ],
   "note": "The model of C96/C114: blocking run; ports used at most once per time step; no pause, no RefPorts or VarPorts between models"
  },
  {
   "property": "C118",
   "status": "proved",
   "theorems": [
    "Verif.Swap.C118_sparse_for_dense",
    "Verif.Swap.C118_delay_sparse_for_delay_dense",
    "Verif.Swap.C118_example",
    "Verif.Swap.C118_delay_example",
    "Verif.Swap.C118_interchangeable",
    "Verif.Swap.C118_recorded_sparse",
    "Verif.Swap.C118_same_trains"
   ],
   "note": "The networks of C114 and C115 (blocking runs, no RefPorts or VarPorts between models); a Var of an exchanged process may be read if it has always the same value, but not written unless the process models match for writes too"
  },
  {
   "property": "C119",
   "status": "proved",
   "theorems": [
    "Verif.Trains.C119_spikes_unique",
    "Verif.Trains.C119_delays",
    "Verif.Trains.C119_computed",
    "Verif.Trains.C119_example",
    "Verif.Trains.C119_recorded",
    "Verif.Trains.C119_network_is_its_parts",
    "Verif.Trains.C119_one_solution"
   ],
   "note": "The networks of C115 (neurons, connections, sources, sinks; one InPort and OutPort each); programs without set; delays: no weight exponent and max_delay at least as large as every delay (otherwise C40: buckets are shifted one by one, late synapses dropped)"
  },
  {
   "property": "C120",
   "status": "proved",
   "theorems": [
    "Verif.Pipe.C120_chain",
    "Verif.Sdnn.C120_example",
    "Verif.Sdnn.C120_sdn_is_ann",
    "Verif.Sdnn.C120_sdn_exact",
    "Verif.Sdnn.C120_settles"
   ],
   "note": "Chains in which two neurons do not follow each other; programs without set; floating-point models with exact rational arithmetic, Dense with num_message_bits > 0"
  },
  {
   "property": "C121",
   "status": "proved",
   "theorems": [
    "Verif.Sdnn.C121_fixed_sdn_is_ann",
    "Verif.Sdnn.C121_example"
   ],
   "note": "The corrected SigmaDelta model (PySigmaDeltaModelFixed drifts, C45); unbounded integers; Dense with num_message_bits > 0 and weight_exp >= 0; thresholds of Delta not negative; programs [run T, get]"
  },
  {
   "property": "C122",
   "status": "proved",
   "theorems": [
    "Verif.Pipe.C122_chain",
    "Verif.Sdnn.C122_example",
    "Verif.Trains.C122_set_then_get",
    "Verif.Trains.C122_vars_keep",
    "Verif.Trains.C122_network_is_its_parts",
    "Verif.Trains.C122_one_solution"
   ],
   "note": "Networks without learning (C115, with learning: C125): neurons are not fed by neurons directly; blocking runs; values of at most the size of the Var"
  },
  {
   "property": "C123",
   "status": "proved",
   "theorems": [
    "Verif.Swap.C123_dense_for_conv",
    "Verif.Swap.C123_sparse_for_conv",
    "Verif.Swap.C123_recorded_conv",
    "Verif.Swap.C123_dense_example",
    "Verif.Swap.C123_example"
   ],
   "note": "Spikes only (num_message_bits = 0), weight_exp = 0 in the Dense/Sparse process (Conv ignores it), order NWHC with C-order flattening, conv_scipy backend"
  },
  {
   "property": "C124",
   "status": "partial",
   "theorems": [
    "Verif.Conv.C124_conv_accepted_iff",
    "Verif.Conv.C124_conv_runs_partial",
    "Verif.Conv.C124_conv_fails_iff",
    "Verif.Conv.C124_negative_groups_send_zeros",
    "Verif.Conv.C124_extra_channels_ignored",
    "Verif.Conv.C124_conv_example",
    "Verif.Dense.C124_delays_accepted_iff",
    "Verif.Dense.C124_delay_law",
    "Verif.Dense.C124_delays_delivered",
    "Verif.Dense.C124_short_max_delay_loses_spikes",
    "Verif.Dense.C124_delays_example"
   ],
   "note": "False of the code for some accepted arguments, proved exactly for which (C124_conv_fails_iff, C124_negative_groups_send_zeros, C124_extra_channels_ignored, C124_short_max_delay_loses_spikes): dilation 0, a weight with too few channels, negative groups, max_delay below the delays. Proved for all others; int8 overflow of the Vars and negative paddings, strides and dilations are not modelled"
  },
  {
   "property": "C125",
   "status": "proved",
   "theorems": [
    "Verif.Plastic.C125_example",
    "Verif.Plastic.C125_what_a_synapse_hears",
    "Verif.Plastic.C125_silent_synapse_keeps_its_weight",
    "Verif.Plastic.C125_patterns_stored_in_network",
    "Verif.Plastic.C125_process_alone",
    "Verif.Plastic.C125_synapse_in_network",
    "Verif.Plastic.C125_weights_shown_are_legal",
    "Verif.Plastic.C125_example_pattern",
    "Verif.Plastic.C125_example_silent",
    "Verif.Plastic.C125_network_is_its_parts",
    "Verif.Plastic.C125_one_solution",
    "Verif.Plastic.C125_set_then_get"
   ],
   "note": "Processes that receive first are fed by processes that send first (as in C116); blocking runs; random numbers are given for every time step; integers are unbounded except where the engine wraps them; trace parameters are integers if the program writes Vars of the connection (C105)"
  },
  {
   "property": "C126",
   "status": "proved",
   "theorems": [
    "Verif.IO.PolicyNet.C126_example",
    "Verif.IO.PolicyNet.C126_witness_zeros_after_wait",
    "Verif.IO.PolicyNet.C126_witness_drop_when_empty",
    "Verif.IO.PolicyNet.C126_witness_slots_come_back_one_by_one",
    "Verif.IO.PolicyNet.C126_witness_accumulate_after_wait",
    "Verif.IO.PolicyNet.C126_constructor",
    "Verif.IO.PolicyNet.C126_first_bad_entry",
    "Verif.IO.PolicyNet.C126_wire_constructor",
    "Verif.IO.PolicyNet.C126_which_error",
    "Verif.IO.PolicyNet.C126_reasons_to_wait",
    "Verif.IO.PolicyNet.C126_blocking_ends_iff",
    "Verif.IO.PolicyNet.C126_blocking_completes",
    "Verif.IO.PolicyNet.C126_example_one_slot",
    "Verif.IO.PolicyNet.C126_example_hangs",
    "Verif.IO.PolicyNet.C126_runs_end",
    "Verif.IO.PolicyNet.C126_completes",
    "Verif.IO.PolicyNet.C126_no_endless_loop",
    "Verif.IO.PolicyNet.C126_inputs",
    "Verif.IO.PolicyNet.C126_outputs",
    "Verif.IO.PolicyNet.C126_conserved",
    "Verif.IO.PolicyNet.C126_default",
    "Verif.IO.PolicyNet.C126_straight"
   ],
   "note": "One Injector and one Extractor around one network; findings with witnesses: zeros on an empty channel cannot be told from data and depend on the schedule; dropping is decided by the state of the channel; accumulation after a wait takes one item (PyPy channels); real time (wall clock) is not modelled, so every interleaving is allowed"
  },
  {
   "property": "C127",
   "status": "proved",
   "theorems": [
    "Verif.AsyncModel.C127_lockstep_runs",
    "Verif.AsyncModel.C127_converted_runs",
    "Verif.AsyncModel.C127_converted_never_learns",
    "Verif.AsyncModel.C127_same_runs_iff",
    "Verif.AsyncModel.C127_example_learning",
    "Verif.System.C127_example",
    "Verif.System.C127_run_ahead_sharp",
    "Verif.System.C127_one_result",
    "Verif.System.C127_prefix",
    "Verif.System.C127_ends_iff",
    "Verif.System.C127_same_end",
    "Verif.System.C127_run_ahead",
    "Verif.System.C127_lockstep"
   ],
   "note": "Results: time steps of one phase (run_spk), one run, the operations of a time step do not depend on data; calls: guards are functions of the time step, first run of the converted model (later runs: C14)"
  },
  {
   "property": "C128",
   "status": "proved",
   "theorems": [
    "Verif.RefAccess.ResetLif.C128_every_schedule",
    "Verif.RefAccess.ResetLif.C128_is_lif_reset",
    "Verif.RefAccess.ResetLif.C128_kept_spikes",
    "Verif.RefAccess.ResetLif.C128_example",
    "Verif.RefAccess.ResetLif.C128_first_step",
    "Verif.RefAccess.ResetLif.C128_both_needed"
   ],
   "note": "The threshold is the scaled one from the start (its lazy scaling: C88/Obj); integers are unbounded; interval and offset are parameters (as Vars they do not change here)"
  },
  {
   "property": "C129",
   "status": "proved",
   "theorems": [
    "Verif.RefAccess.ReadVar.C129_every_schedule",
    "Verif.RefAccess.ReadVar.C129_slot",
    "Verif.RefAccess.ReadVar.C129_undisturbed",
    "Verif.RefAccess.ReadVar.C129_example",
    "Verif.RefAccess.ReadVar.C129_read_and_reset_race"
   ],
   "note": "The process that is read has no other ports and does not learn; all Vars read are of one process; interval and offset are parameters"
  },
  {
   "property": "C130",
   "status": "proved",
   "theorems": [
    "Verif.RefAccess.LoadVar.C130_every_schedule",
    "Verif.RefAccess.LoadVar.C130_belong_together",
    "Verif.RefAccess.LoadVar.C130_example",
    "Verif.RefAccess.LoadVar.C130_late"
   ],
   "note": "The computing process has no input of its own and no post-management; one process between loader and receiver; interval and offset are parameters"
  },
  {
   "property": "C131",
   "status": "proved",
   "theorems": [
    "Verif.RefAccess.SpikeLoad.C131_every_schedule",
    "Verif.RefAccess.SpikeLoad.C131_belong_together",
    "Verif.RefAccess.SpikeLoad.C131_example"
   ],
   "note": "One element of the spike output; the process that is fed has no management phases of its own; interval and offset are parameters"
  },
  {
   "property": "C132",
   "status": "proved",
   "theorems": [
    "Verif.RefAccess.SampleReset.C132_every_schedule",
    "Verif.RefAccess.SampleReset.C132_samples_independent",
    "Verif.RefAccess.SampleReset.C132_lif",
    "Verif.RefAccess.SampleReset.C132_example",
    "Verif.RefAccess.SampleReset.C132_other_offset"
   ],
   "note": "Two Resets; one element of the spike output; interval and offset are parameters"
  },
  {
   "property": "C133",
   "status": "proved",
   "theorems": [
    "Verif.Learning.C133_which_numbers",
    "Verif.Learning.C133_draws_fresh",
    "Verif.Learning.C133_traces_in_range",
    "Verif.Learning.C133_weight_numbers_shared",
    "Verif.Learning.C133_seeds_overlap",
    "Verif.Learning.C133_seed_two",
    "Verif.Learning.C133_seed_irrelevant",
    "Verif.Learning.C133_example"
   ],
   "note": "numpy generators are functions of seed and draw number; one synapse, two-factor rules, dense, as in C56; payloads up to 254 in graded modes for the range of traces"
  }
 ]
}