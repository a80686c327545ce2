{
 "claims": [
  {
   "property": "C01",
   "status": "partial",
   "theorems": [
    "SST.Time.C01_add_exact_partial",
    "SST.Time.C01_add_monotone_partial",
    "SST.Time.C01_add_assoc",
    "SST.Time.C01_add_strict_mono_partial",
    "SST.Time.C01_add_monotone_refuted",
    "SST.Time.C01_epoch_constant"
   ],
   "note": "Exact and monotone addition proved while the 64-bit tick counter does not wrap; associativity and epoch constancy proved for all values. The wrapping case is false of the code (carry mask is 0): C01_add_monotone_refuted."
  },
  {
   "property": "C02",
   "status": "partial",
   "theorems": [
    "SST.Time.C02_lt_iff_instant",
    "SST.Time.C02_eq_iff_instant",
    "SST.Time.C02_ge_iff_instant",
    "SST.Time.C02_ne_gt",
    "SST.Time.C02_trichotomy",
    "SST.Time.C02_lt_trans",
    "SST.Time.C02_le_iff_instant_partial",
    "SST.Time.C02_le_refuted"
   ],
   "note": "<, ==, !=, >, >= proved to be the order of instants for all stamps, trichotomy and transitivity included. <= is proved for equal epochs only; across epochs it is false of the code: C02_le_refuted."
  },
  {
   "property": "C03",
   "status": "partial",
   "theorems": [
    "SST.Time.C03_diff_add",
    "SST.Time.C03_diff_abort_iff",
    "SST.Time.C03_sub_add_partial",
    "SST.Time.C03_sub_add_refuted",
    "SST.Time.C03_borrow_forgets_minuend"
   ],
   "note": "(t+d)-t=d proved for all values; (t+d)-d=t proved when t is not at tick 0 of its epoch; at tick 0 it is false of the code: C03_sub_add_refuted."
  },
  {
   "property": "C04",
   "status": "proved",
   "theorems": [
    "SST.Events.C04_time_order",
    "SST.Events.C04_clock_monotone",
    "SST.Events.C04_clock_is_last_event",
    "SST.Events.C04_unchecked_same",
    "SST.Events.C04_unchecked_refuted"
   ],
   "note": "All histories of schedule/runEvents with arbitrary handlers; C04_unchecked_same transfers to the default build whenever the checked build does not abort. Without that condition the default build violates it: C04_unchecked_refuted."
  },
  {
   "property": "C05",
   "status": "proved",
   "theorems": [
    "SST.Events.C05_conservation",
    "SST.Events.C05_exactly_once",
    "SST.Events.C05_unchecked_duplicate_refuted",
    "SST.Events.C05_stop_event_lost_refuted"
   ],
   "note": "Conservation of events as a permutation, for all checked histories without stop(). C05_unchecked_duplicate_refuted and C05_stop_event_lost_refuted show how the default build, and scheduleStop in any build, lose an event."
  },
  {
   "property": "C06",
   "status": "proved",
   "theorems": [
    "SST.Events.C06_insertion_order_irrelevant",
    "SST.Events.C06_tie_break",
    "SST.Events.C06_unchecked_duplicate_refuted"
   ],
   "note": "Any permutation of any schedule calls from any reachable state gives the same queue and the same future; the least pending event in (time, link, seq) runs next. Key collisions in the default build: C06_unchecked_duplicate_refuted."
  },
  {
   "property": "C07",
   "status": "proved",
   "theorems": [
    "SST.Events.C07_past_aborts",
    "SST.Events.C07_past_aborts_in_handler",
    "SST.Events.C07_never_early",
    "SST.Events.C07_unchecked_refuted"
   ],
   "note": "Checked builds. The default build silently runs the late event: C07_unchecked_refuted."
  },
  {
   "property": "C08",
   "status": "partial",
   "theorems": [
    "SST.Events.C08_link_order_partial",
    "SST.Events.C08_sequence_wrap_refuted",
    "SST.Events.C08_sequence_counter"
   ],
   "note": "Proved for up to 2^32 sends per link (32-bit sequence numbers); false beyond: C08_sequence_wrap_refuted."
  },
  {
   "property": "C09",
   "status": "proved",
   "theorems": [
    "SST.Parallel.C09_incoming_not_in_past",
    "SST.Parallel.C09_register_never_aborts",
    "SST.Parallel.C09_window_never_aborts",
    "SST.Parallel.C09_setup_never_aborts",
    "SST.Parallel.C09_lookahead_valid"
   ],
   "note": "For every program, partition and number of workers: incoming events are never before the receiver's clock, registering and executing never abort; the accepted lookahead is bounded by all cross-worker latencies. Times and sequence numbers unbounded."
  },
  {
   "property": "C10",
   "status": "partial",
   "theorems": [
    "SST.Parallel.C10_same_history",
    "SST.Parallel.C10_complete_same",
    "SST.Parallel.C10_terminates",
    "SST.Parallel.C10_ipc_complete_same_partial",
    "SST.Parallel.C10_setup_message_lost_refuted"
   ],
   "note": "Proved for the threaded main loop (any partition, any order of registration, termination in both directions) and for the multi-process loop when nothing is sent to another process during setup; refuted for the multi-process loop otherwise (C10_setup_message_lost_refuted). stop() is not modelled here."
  },
  {
   "property": "C11",
   "status": "proved",
   "theorems": [
    "SST.Parallel.C11_every_thread_once",
    "SST.Parallel.C11_tree_shape",
    "SST.Parallel.C11_minimum",
    "SST.Parallel.C11_is_round_bound"
   ],
   "note": "Tree construction loop, closed form, each thread reached once, minimum over all threads; the busy-wait handshake is abstracted to recursion."
  },
  {
   "property": "C12",
   "status": "partial",
   "theorems": [
    "SST.Serial.C12_round_trip",
    "SST.Serial.C12_nonempty_list_refuted",
    "SST.Serial.C12_null_in_list_refuted",
    "SST.Serial.C12_null_buffer_refuted"
   ],
   "note": "Proved for every transferable value of every type in the grammar (C12_round_trip). Refuted as stated for: a list target that is not empty, a null object pointer inside a list, a null buffer pointer with non-zero size."
  },
  {
   "property": "C13",
   "status": "partial",
   "theorems": [
    "SST.Serial.C13_size_exact",
    "SST.Serial.C13_null_buffer_refuted"
   ],
   "note": "Proved for every transferable value; refuted for a typed null buffer pointer with non-zero size."
  },
  {
   "property": "C14",
   "status": "partial",
   "theorems": [
    "SST.Serial.C14_pack_inside",
    "SST.Serial.C14_unpack_inside",
    "SST.Serial.C14_check_exact",
    "SST.Serial.C14_long_string_refuted"
   ],
   "note": "Pack and unpack proved inside the buffer for all values and all buffer contents; the 64-bit check is exact below 2^31 bytes; refuted for strings of 2^31 bytes or more."
  },
  {
   "property": "C15",
   "status": "proved",
   "theorems": [
    "SST.Serial.C15_sequence",
    "SST.Serial.C15_event_stream"
   ],
   "note": "Proved for sequences of values of any types and for the inter-process event stream with 64-byte alignment."
  },
  {
   "property": "C16",
   "status": "proved",
   "theorems": [
    "SST.Serial.Comm.C16_disjoint_inside",
    "SST.Serial.Comm.C16_merged",
    "SST.Serial.Comm.C16_order",
    "SST.Serial.Comm.C16_reset"
   ],
   "note": "All interleavings of the atomic addition, the locked buffer choice and the writes; ranges disjoint and inside, merged buffer is exactly the messages in reservation order."
  },
  {
   "property": "C17",
   "status": "partial",
   "theorems": [
    "SST.Mpi.C17_send_order_partial",
    "SST.Mpi.C17_recv_order",
    "SST.Mpi.C17_overtake_refuted"
   ],
   "note": "C17_recv_order (receives are matched in posting order) holds for every protocol. C17_send_order_partial excludes earlier messages carried by the second eager protocol (513..8192 bytes by default), for which the property is false: C17_overtake_refuted."
  },
  {
   "property": "C18",
   "status": "proved",
   "theorems": [
    "SST.Mpi.C18_in_order",
    "SST.Mpi.C18_all_released",
    "SST.Mpi.C18_never_backwards"
   ],
   "note": "Any number of senders, any delivery order; sequence numbers as naturals."
  },
  {
   "property": "C19",
   "status": "proved",
   "theorems": [
    "SST.Mpi.C19_one_place",
    "SST.Mpi.C19_match_once",
    "SST.Mpi.C19_receives_kept",
    "SST.Mpi.C19_no_missed_match"
   ],
   "note": "Conservation, at-most-once and no missed match, for every history of sends, deliveries, payload arrivals, receives and cancels."
  },
  {
   "property": "C20",
   "status": "proved",
   "theorems": [
    "SST.Mpi.C20_match_criteria",
    "SST.Mpi.C20_abort_justified",
    "SST.Mpi.C20_earliest_message"
   ],
   "note": "Match criteria, earliest queued message; earliest posted receive is C17_recv_order. C20_abort_justified says when the size check stops the run (see C93)."
  },
  {
   "property": "C21",
   "status": "proved",
   "theorems": [
    "SST.Mpi.C21_protocol_by_size",
    "SST.Mpi.C21_monotone"
   ],
   "note": "Exact on 32/64-bit machine integers for non-negative counts, sizes and limits; use_put_window (DIRECT_PUT for all sizes) is off."
  },
  {
   "property": "C22",
   "status": "partial",
   "theorems": [
    "SST.Mpi.C22_testsome_progress_partial",
    "SST.Mpi.C22_testall_progress_partial",
    "SST.Mpi.C22_testany_progress_partial",
    "SST.Mpi.C22_waitall",
    "SST.Mpi.C22_waitany",
    "SST.Mpi.C22_waitsome_partial",
    "SST.Mpi.C22_waitsome_status_refuted",
    "SST.Mpi.C22_waitsome_null_refuted",
    "SST.Mpi.C22_testall_flag_partial",
    "SST.Mpi.C22_testall_refuted",
    "SST.Mpi.C22_test_null_refuted",
    "SST.Mpi.C22_test_persistent_refuted",
    "SST.Mpi.C22_testsome_partial"
   ],
   "note": "Proved: waitall/wait, waitany, waitsome (which requests, which entries), testall's answer, testsome without null requests; and for the default test delay, where a failing test takes one message, the answers of testall, testany and testsome. Missing because the code does not have it: waitsome's status positions, waitsome on all-null arrays, testall leaving requests alone, testany/testsome ignoring null requests, test on persistent requests - each refuted."
  },
  {
   "property": "C23",
   "status": "proved",
   "theorems": [
    "SST.Mpi.Comm.C23_incl",
    "SST.Mpi.Comm.C23_incl_rejects",
    "SST.Mpi.Comm.C23_range",
    "SST.Mpi.Comm.C23_range_zero_stride_refuted",
    "SST.Mpi.Comm.C23_translate",
    "SST.Mpi.Comm.C23_translate_null",
    "SST.Mpi.Comm.C23_translate_back"
   ],
   "note": "Zero stride never returns (stated as C23_range_zero_stride_refuted: outside MPI's legal arguments). World group does not check ranks, so theorems assume valid ranks."
  },
  {
   "property": "C24",
   "status": "proved",
   "theorems": [
    "SST.Mpi.Comm.C24_members",
    "SST.Mpi.Comm.C24_no_duplicates",
    "SST.Mpi.Comm.C24_agreement",
    "SST.Mpi.Comm.C24_null",
    "SST.Mpi.Comm.C24_split_id",
    "SST.Mpi.Comm.C24_ids_distinct"
   ],
   "note": "commSplit table function plus id history; the allgather that distributes the table is assumed to deliver it."
  },
  {
   "property": "C25",
   "status": "proved",
   "theorems": [
    "SST.Mpi.Comm.C25_rank_roundtrip",
    "SST.Mpi.Comm.C25_coords_roundtrip",
    "SST.Mpi.Comm.C25_coords_in_range"
   ],
   "note": ""
  },
  {
   "property": "C26",
   "status": "partial",
   "theorems": [
    "SST.Mpi.Comm.C26_shift_partial",
    "SST.Mpi.Comm.C26_outside",
    "SST.Mpi.Comm.C26_bad_dimension",
    "SST.Mpi.Comm.C26_symmetric_partial",
    "SST.Mpi.Comm.C26_shift_refuted"
   ],
   "note": "Periodic displacement below minus the extent is wrong (refuted)."
  },
  {
   "property": "C27",
   "status": "partial",
   "theorems": [
    "SST.Mpi.Comm.C27_tag_eq",
    "SST.Mpi.Comm.C27_unique_partial",
    "SST.Mpi.Comm.C27_tags_refuted"
   ],
   "note": "Exact characterisation of tag equality; 16-bit wrap refuted."
  },
  {
   "property": "C28",
   "status": "partial",
   "theorems": [
    "SST.Mpi.Types.C28_roundtrip_partial",
    "SST.Mpi.Types.C28_vector_single_partial",
    "SST.Mpi.Types.C28_vector_dense_partial",
    "SST.Mpi.Types.C28_struct_dense_partial",
    "SST.Mpi.Types.C28_contiguous_refuted",
    "SST.Mpi.Types.C28_vector_block_refuted",
    "SST.Mpi.Types.C28_indexed_refuted",
    "SST.Mpi.Types.C28_struct_gap_refuted",
    "SST.Mpi.Types.C28_extent_refuted",
    "SST.Mpi.Types.C28_zero_block_refuted"
   ],
   "note": "Round trip, untouched bytes and packed-buffer bounds proved for every type with positive block lengths; exact type-map bytes only for dense and single-element vectors and dense structs; contiguous, blocked vector, indexed, gapped struct, multi-element extent and zero-length blocks refuted."
  },
  {
   "property": "C29",
   "status": "partial",
   "theorems": [
    "SST.Coll.Allgather.C29_bruck",
    "SST.Coll.Allgather.C29_bruck_in_place",
    "SST.Coll.Allgather.C29_ring_in_place",
    "SST.Coll.Allgather.C29_ring_separate_buffers_refuted"
   ],
   "note": "Bruck allgather (default) proved for separate buffers and in place, all n, all block sizes, all schedules and delays (C29_bruck, C29_bruck_in_place). Ring allgather proved when the contribution is already in the result buffer (C29_ring_in_place); with a separate send buffer it is wrong because initBuffers never copies the contribution (C29_ring_separate_buffers_refuted)."
  },
  {
   "property": "C30",
   "status": "proved",
   "theorems": [
    "SST.Coll.Allreduce.C30_allreduce"
   ],
   "note": "Recursive halving/doubling with virtual ranks sharing one buffer; all n, all vector lengths, all schedules, eager or rendezvous per message."
  },
  {
   "property": "C31",
   "status": "proved",
   "theorems": [
    "SST.Coll.Bcast.C31_bcast",
    "SST.Coll.Bcast.C31_one_message",
    "SST.Coll.Bcast.C31_message_count"
   ],
   "note": "Every schedule, every communicator size and root: the broadcast ends, all buffers hold the root's data, each non-root rank gets exactly one message, n-1 messages in total."
  },
  {
   "property": "C32",
   "status": "partial",
   "theorems": [
    "SST.Coll.Gather.C32_gather",
    "SST.Coll.Scatter.C32_scatter_partial",
    "SST.Coll.Scatter.C32_scatter_two_ranks_refuted",
    "SST.Coll.Scatter.C32_scatter_even_root_refuted"
   ],
   "note": "Gather is proved for every rank count of two or more and every root. Scatter is proved for three or more ranks with root 0 or an odd root. It is false for two ranks, where rank 1 never copies its block out of the temporary buffer, and for even roots other than 0, where the root never gets its own block; both are proved as refutations."
  },
  {
   "property": "C33",
   "status": "partial",
   "theorems": [
    "SST.Coll.Reduce.C33_reduce_partial",
    "SST.Coll.Reduce.C33_reduce_refuted"
   ],
   "note": "Proved for root 0 and for rank counts not of the form 2^k-1. With 2^k-1 ranks and another root the result is wrong, because rank 1 does not hold the upper half; the refutation gives three ranks and root 2."
  },
  {
   "property": "C34",
   "status": "proved",
   "theorems": [
    "SST.Coll.Alltoall.C34_bruck",
    "SST.Coll.Alltoall.C34_workspace"
   ],
   "note": "Bruck algorithm (the default), distinct send and receive buffers, and that the temporary buffers are large enough. The optional direct algorithm is not modelled."
  },
  {
   "property": "C35",
   "status": "partial",
   "theorems": [
    "SST.Coll.Scan.C35_as_coded",
    "SST.Coll.Scan.C35_scan_partial",
    "SST.Coll.Scan.C35_scan_refuted",
    "SST.Coll.Scan.C35_with_refresh_partial"
   ],
   "note": "The code never creates the copy that refreshes the send buffer (recv_buffer_ is null when initDag runs), so the property fails from 4 ranks on (C35_scan_refuted); proved: the exact result of the program, correctness up to 3 ranks, and correctness for all sizes once the copy is made."
  },
  {
   "property": "C36",
   "status": "proved",
   "theorems": [
    "SST.Coll.Engine.C36_ordered",
    "SST.Coll.Engine.C36_completes",
    "SST.Coll.Engine.C36_terminates",
    "SST.Coll.Engine.C36_empty_never_signals"
   ],
   "note": "A rank without any action would never signal completion; the built-in algorithms always create one for two or more ranks."
  },
  {
   "property": "C37",
   "status": "partial",
   "theorems": [
    "SST.Coll.C37_decodable_partial",
    "SST.Coll.C37_unique_partial",
    "SST.Coll.C37_one_partner",
    "SST.Coll.C37_unique_refuted"
   ],
   "note": "Holds for rounds < 500 and partners < 1431655 (and for any round count with a fixed partner); the identifiers collide beyond (refuted), and nothing in the code checks the bound."
  },
  {
   "property": "C38",
   "status": "proved",
   "theorems": [
    "SST.Coll.C38_virtual_ranks",
    "SST.Coll.C38_power_of_two"
   ],
   "note": "All n >= 1."
  },
  {
   "property": "C39",
   "status": "partial",
   "theorems": [
    "SST.Topo.Dragonfly.C39_dragonfly",
    "SST.Topo.Torus.C39_torus"
   ],
   "note": "Proved for torus, hypercube and dragonfly coordinates; the other topologies have no coordinates or are not modelled."
  },
  {
   "property": "C40",
   "status": "partial",
   "theorems": [
    "SST.Topo.Torus.C40_torus_links_partial",
    "SST.Topo.Torus.C40_torus_neighbours_partial",
    "SST.Topo.Torus.C40_torus_links_refuted"
   ],
   "note": "Proved (link symmetry, each port once, exactly the neighbours) when every dimension has at least two switches; refuted with a dimension of size 1, whose minus port leads out of the network."
  },
  {
   "property": "C41",
   "status": "partial",
   "theorems": [
    "SST.Topo.Torus.C41_torus_minimal_routing",
    "SST.Topo.Torus.C41_torus_distance_partial",
    "SST.Topo.Torus.C41_torus_distance_refuted"
   ],
   "note": "Delivery in exactly minimalDistance hops, at most the diameter, proved for all dimensions; that this is the graph distance is proved where every dimension has at least two switches."
  },
  {
   "property": "C42",
   "status": "proved",
   "theorems": [
    "SST.Topo.Torus.C42_torus_deadlock_free"
   ],
   "note": "Channel dependency graph of all in-flight packets is acyclic, for every torus."
  },
  {
   "property": "C43",
   "status": "proved",
   "theorems": [
    "SST.Topo.Hypercube.C43_hypercube_links",
    "SST.Topo.Hypercube.C43_hypercube_neighbours",
    "SST.Topo.Hypercube.C43_hypercube_minimal_routing",
    "SST.Topo.Hypercube.C43_hypercube_deadlock_free"
   ],
   "note": "Links symmetric, exactly the switches differing in one coordinate; minimal routing takes exactly as many hops as coordinates differ; deadlock free on one virtual channel."
  },
  {
   "property": "C44",
   "status": "partial",
   "theorems": [
    "SST.Topo.FatTree.C44_fat_tree_links_partial",
    "SST.Topo.FatTree.C44_fat_tree_core_links",
    "SST.Topo.FatTree.C44_fat_tree_links_refuted",
    "SST.Topo.FatTree.C44_fat_tree_abort_refuted",
    "SST.Topo.FatTree.C44_fat_tree_no_abort"
   ],
   "note": "Holds for every accepted configuration in which one link joins each leaf to each aggregation switch of its subtree (C44_fat_tree_links_partial: every link has a link back, no port used twice, no link leaves the network); the links between aggregation and core switches agree in every accepted configuration (C44_fat_tree_core_links). False with several parallel links between a leaf and an aggregation switch (C44_fat_tree_links_refuted: fat_tree.cc:300 computes the leaf port with the wrong stride), and such a configuration can abort (C44_fat_tree_abort_refuted; C44_fat_tree_no_abort says when it does not)."
  },
  {
   "property": "C45",
   "status": "proved",
   "theorems": [
    "SST.Topo.FatTree.C45_fat_tree_always_decides",
    "SST.Topo.FatTree.C45_fat_tree_delivers",
    "SST.Topo.FatTree.C45_fat_tree_deadlock_free"
   ],
   "note": "For every accepted configuration, every leaf, every node and every state the routers' rotating counters can have: 0, 2 or 4 links, one virtual channel, the right ejection port; the router always has a decision; no circular wait."
  },
  {
   "property": "C46",
   "status": "partial",
   "theorems": [
    "SST.Topo.Dragonfly.C46_dragonfly_circulant",
    "SST.Topo.Dragonfly.C46_dragonfly_alltoall",
    "SST.Topo.Dragonfly.C46_dragonfly_single_partial",
    "SST.Topo.Dragonfly.C46_dragonfly_single_refuted"
   ],
   "note": "Proved for the circulant wiring (every even number of global links) and the all-to-all wiring (every shape the constructor accepts); for the single-link wiring only for even group size or g dividing a+1 (C46_dragonfly_single_partial), and refuted for odd group sizes (C46_dragonfly_single_refuted)."
  },
  {
   "property": "C47",
   "status": "partial",
   "theorems": [
    "SST.Topo.Dragonfly.C47_dragonfly_circulant",
    "SST.Topo.Dragonfly.C47_dragonfly_circulant_covers",
    "SST.Topo.Dragonfly.C47_dragonfly_alltoall",
    "SST.Topo.Dragonfly.C47_dragonfly_single_partial",
    "SST.Topo.Dragonfly.C47_dragonfly_single_refuted"
   ],
   "note": "At most three links, two virtual channels, one global hop, always a decision, no circular wait: for circulant (whenever the routers' constructors do not abort, which C47_dragonfly_circulant_covers shows for enough links), all-to-all (every accepted shape) and single-link with g <= a+1; refuted for the single-link wiring with fewer switches (C47_dragonfly_single_refuted)."
  },
  {
   "property": "C48",
   "status": "partial",
   "theorems": [
    "SST.Topo.Dragonfly.C48_dragonfly_upper_bound_partial",
    "SST.Topo.Dragonfly.C48_dragonfly_alltoall_upper_bound_partial",
    "SST.Topo.Dragonfly.C48_dragonfly_self_refuted",
    "SST.Topo.Dragonfly.C48_dragonfly_refuted",
    "SST.Topo.FatTree.C48_fat_tree_true_distance",
    "SST.Topo.FatTree.C48_fat_tree_distance_refuted",
    "SST.Topo.FatTree.C48_fat_tree_distance_low_refuted",
    "SST.Topo.FatTree.C48_fat_tree_distance_partial",
    "SST.Topo.Full.C48_full_partial",
    "SST.Topo.Full.C48_full_self_refuted",
    "SST.Topo.Hypercube.C48_hypercube_distance"
   ],
   "note": "Hypercube: reported distance is the shortest path. Torus: see C41_torus_distance_partial (refuted with a dimension of one). Fat tree: the true distances are proved, the reported ones are refuted between switches of different levels. Dragonfly: never too small (upper bound theorems), refuted as equality."
  },
  {
   "property": "C49",
   "status": "partial",
   "theorems": [
    "SST.Topo.Dragonfly.C49_dragonfly",
    "SST.Topo.FatTree.C49_fat_tree",
    "SST.Topo.Full.C49_full",
    "SST.Topo.Full.C49_star",
    "SST.Topo.Hypercube.C49_hypercube",
    "SST.Topo.Torus.C49_torus"
   ],
   "note": "Proved for torus, hypercube, fat tree, dragonfly (every wiring), fully connected and star; not cascade, dragonfly+ and table topologies."
  },
  {
   "property": "C50",
   "status": "proved",
   "theorems": [
    "SST.Pisces.C50_credits_conserved",
    "SST.Pisces.C50_receiver_never_overflows",
    "SST.Pisces.C50_credits_never_exceed",
    "SST.Pisces.C50_links",
    "SST.Pisces.C50_switch",
    "SST.Pisces.C50_nic",
    "SST.Snappr.C50_snappr_network_fifo",
    "SST.Snappr.C50_snappr_network_wrr",
    "SST.Snappr.C50_snappr_never_overflows",
    "SST.Snappr.C50_snappr_fifo",
    "SST.Snappr.C50_snappr_wrr"
   ],
   "note": "Pisces: for any joined set of buffers, crossbars and NICs, any routing and events in any order, and instantiated for every well-wired network of switches (C50_links, C50_switch, C50_nic); the initial credits must fit an int. Snappr: for any joined network with flow control and either arbitrator, any routing and events in any order (C50_snappr_network_fifo, C50_snappr_network_wrr), and for one port (C50_snappr_fifo, C50_snappr_wrr). 32-bit overflow of snappr credits is not modelled."
  },
  {
   "property": "C51",
   "status": "partial",
   "theorems": [
    "SST.Pisces.C51_buffer_order_partial",
    "SST.Pisces.C51_buffer_same_size_partial",
    "SST.Pisces.C51_buffer_order_refuted",
    "SST.Pisces.C51_crossbar_order_refuted",
    "SST.Pisces.C51_crossbar_same_size_partial",
    "SST.Snappr.C51_snappr_fifo_refuted",
    "SST.Snappr.C51_snappr_fifo_partial",
    "SST.Snappr.C51_snappr_wrr"
   ],
   "note": "Pisces buffers: order holds as long as every waiting packet has the same size or nothing overtakes (partial theorems); the general statement is refuted because pop() takes the first packet that fits. Snappr: proved for the weighted round robin arbitrator; refuted for the first come first served one, where a small packet passes a waiting larger one of the same lane, and proved there for packets of one size."
  },
  {
   "property": "C52",
   "status": "proved",
   "theorems": [
    "SST.Nic.C52_with_last_packet",
    "SST.Nic.C52_exactly_once"
   ],
   "note": "for every interleaving, in any order, of the packets of complete messages"
  },
  {
   "property": "C53",
   "status": "partial",
   "theorems": [
    "SST.Nic.C53_pisces",
    "SST.Nic.C53_pisces_all_sent",
    "SST.Nic.C53_cut",
    "SST.Nic.C53_end_to_end",
    "SST.Nic.C53_pisces_empty_refuted",
    "SST.Nic.C53_network_not_empty",
    "SST.Nic.C53_snappr_fifo",
    "SST.Nic.C53_snappr_fifo_all_sent",
    "SST.Nic.C53_snappr_no_flow_control",
    "SST.Nic.C53_snappr_round_robin_partial"
   ],
   "note": "packet-flow NIC: all histories of messages that are not empty, with an end-to-end theorem through the receive queue; an empty message without credits is dropped (refuted; only reachable with a negative negligible_size). Injection-queue NIC: FIFO in full, round robin while the ring is not filled"
  },
  {
   "property": "C54",
   "status": "partial",
   "theorems": [
    "SST.Pisces.Arbit.C54_simple",
    "SST.Pisces.Arbit.C54_simple_busy",
    "SST.Pisces.Arbit.C54_null_refuted",
    "SST.Pisces.Arbit.C54_null_partial",
    "SST.Pisces.Arbit.C54_cut_through_partial",
    "SST.Pisces.Arbit.C54_cut_through_refuted",
    "SST.Snappr.C54_snappr_fifo",
    "SST.Snappr.C54_snappr_wrr"
   ],
   "note": "Proved for the pisces simple arbitrator and for snappr ports with either arbitrator. Refuted for the null arbitrator and, for packets that come more slowly than the link sends, for the cut-through arbitrator (both share the link by design); proved for the cut-through arbitrator when packets come fast enough."
  },
  {
   "property": "C55",
   "status": "partial",
   "theorems": [
    "SST.Nic.C55_fifo",
    "SST.Nic.C55_round_robin_partial",
    "SST.Nic.C55_round_robin_refuted",
    "SST.Nic.C55_priority_refuted"
   ],
   "note": "FIFO proved; round robin proved for histories that never fill the ring of 1024 slots and refuted when they do; the priority class never yields a message (refuted)"
  },
  {
   "property": "C56",
   "status": "partial",
   "theorems": [
    "SST.Os.C56_exclusive_partial",
    "SST.Os.C56_order_partial",
    "SST.Os.C56_not_lost_partial",
    "SST.Os.C56_hand_off",
    "SST.Os.C56_trylock_refuted"
   ],
   "note": "Exclusion, order and no lost mutex for all lock/unlock histories of correct programs; hand-over to the first waiter. False with trylock, whose success does not lock (C56_trylock_refuted)."
  },
  {
   "property": "C57",
   "status": "partial",
   "theorems": [
    "SST.Os.C57_simple_count",
    "SST.Os.C57_simple_core_refuted",
    "SST.Os.C57_cpuset",
    "SST.Os.C57_cpuset_count"
   ],
   "note": "Simple scheduler: count never exceeds the cores (all histories); false for core identities (C57_simple_core_refuted). Cpuset scheduler: both for nodes of at most 32 cores; above, the shift 1<<i is undefined."
  },
  {
   "property": "C58",
   "status": "partial",
   "theorems": [
    "SST.Launch.C58_exclusive_partial",
    "SST.Launch.C58_returned_partial",
    "SST.Launch.C58_all_returned_partial",
    "SST.Launch.C58_early_refuted",
    "SST.Launch.C58_leak_refuted",
    "SST.Launch.C58_mapper_refuted"
   ],
   "note": "Model of the launcher, allocators, mappers, the end of ranks and the stop notices. Proved for every history with the first-available, random, strided and greedy dragonfly allocators, block and random mappers, and rank 0 ending last: running jobs are disjoint, a node is free iff nobody holds it, everything comes back. Refuted: rank 0 ending early frees nodes other ranks still use; the round robin mapper leaks nodes; a node-id mapper puts two jobs on one node."
  },
  {
   "property": "C59",
   "status": "partial",
   "theorems": [
    "SST.Launch.C59_block",
    "SST.Launch.C59_random",
    "SST.Launch.C59_round_robin_partial",
    "SST.Launch.C59_round_robin_refuted"
   ],
   "note": "Proved for the block and random mappers for all inputs; round robin proved when nproc is a multiple of ppn and refuted otherwise."
  },
  {
   "property": "C60",
   "status": "proved",
   "theorems": [
    "SST.Launch.C60_sends",
    "SST.Launch.C60_once",
    "SST.Launch.C60_reaches",
    "SST.Launch.C60_only"
   ],
   "note": "Launch tree for every n up to 2^30: number of sends, every rank reached exactly once, nobody else."
  },
  {
   "property": "C61",
   "status": "proved",
   "theorems": [
    "SST.Launch.C61_first_available",
    "SST.Launch.C61_random",
    "SST.Launch.C61_stride",
    "SST.Launch.C61_stride_iff",
    "SST.Launch.C61_greedy_dfly",
    "SST.Launch.C61_node_id_refuted",
    "SST.Launch.C61_cart_refuted",
    "SST.Launch.C61_cart_bounds_refuted"
   ],
   "note": "Four allocators proved for all inputs (stride also with the exact success condition); the file and automatic Cartesian allocators are refuted separately."
  },
  {
   "property": "C62",
   "status": "partial",
   "theorems": [
    "SST.Parallel.C62_block",
    "SST.Parallel.C62_balance_refuted",
    "SST.Parallel.C62_occupied_refuted",
    "SST.Parallel.C62_occupied_range_refuted",
    "SST.Parallel.C62_occupied_zero_refuted"
   ],
   "note": "Block partition: proved for all sizes that every switch has an existing worker, contiguity and the size bound ceil(n/w). Balance within one is refuted (5 switches, 4 workers), and the occupied-block partition is refuted three ways."
  },
  {
   "property": "C63",
   "status": "proved",
   "theorems": [
    "SST.Util.C63_fits",
    "SST.Util.C63_grid"
   ],
   "note": "The full algorithm with its counters, for every n >= 1 and every rounding of the square root; the factor arrays never overflow."
  },
  {
   "property": "C64",
   "status": "proved",
   "theorems": [
    "SST.Util.C64_shuffle",
    "SST.Util.C64_huge_refuted",
    "SST.Util.C64_every"
   ],
   "note": "Fisher-Yates as written, for every sequence of random numbers; sizes of 2^32 and above are refuted; every permutation can come out (C64_every)."
  },
  {
   "property": "C65",
   "status": "partial",
   "theorems": [
    "SST.Stats.C65_credit",
    "SST.Stats.C65_total",
    "SST.Stats.C65_dump_partial",
    "SST.Stats.C65_bounds_refuted",
    "SST.Stats.C65_mean_refuted"
   ],
   "note": "The table equals the per-epoch overlap for all calendars whose last tick is not at the end of an epoch; otherwise the write outside the vector is exhibited. Means are refuted."
  },
  {
   "property": "C66",
   "status": "partial",
   "theorems": [
    "SST.Pisces.C66_buffer_holds_nothing_sendable",
    "SST.Pisces.C66_crossbar_refuted",
    "SST.Pisces.C66_crossbar_no_stall_partial",
    "SST.Pisces.C66_crossbar_partial",
    "SST.Snappr.C66_snappr_fifo",
    "SST.Snappr.C66_snappr_port",
    "SST.Snappr.C66_snappr_wrr",
    "SST.Snappr.C66_snappr_wrr_port"
   ],
   "note": "Pisces buffers: proved in full strength (no waiting packet at all fits). Pisces crossbars: refuted, because handleCredit sends only one packet per credit; proved for equal sizes, and no packet is stuck. Snappr: proved for both arbitrators, and a port with a ready packet always has an arbitration scheduled for when its link is free."
  },
  {
   "property": "C67",
   "status": "partial",
   "theorems": [
    "SST.Os.Progress.C67_fifo",
    "SST.Os.Progress.C67_woken_partial",
    "SST.Os.Progress.C67_first_waiter_partial",
    "SST.Os.Progress.C67_lost_refuted"
   ],
   "note": "Order and exactly-once for all executions; no lost wake-up and first-come-first-served when items arrive from the event loop; lost and spurious wake-up exhibited for sends to oneself."
  },
  {
   "property": "C68",
   "status": "partial",
   "theorems": [
    "SST.Time.C68_divideUp_ceil_partial",
    "SST.Time.C68_divideUp_refuted"
   ],
   "note": "divideUp is the ceiling for operands below 2^32 ticks; false above: C68_divideUp_refuted."
  },
  {
   "property": "C69",
   "status": "proved",
   "theorems": [
    "SST.Parallel.C69_window_exact",
    "SST.Parallel.C69_vote_lower_bound"
   ],
   "note": "Stated for every checked history and every horizon."
  },
  {
   "property": "C70",
   "status": "proved",
   "theorems": [
    "SST.Mpi.C70_probe_agrees"
   ],
   "note": "Holds for every state of the queue, for receives the size check accepts (see C93)."
  },
  {
   "property": "C71",
   "status": "proved",
   "theorems": [
    "SST.Coll.Allgatherv.C71_bruckv",
    "SST.Coll.Allgatherv.C71_bruckv_in_place"
   ],
   "note": "Separate buffers and in place."
  },
  {
   "property": "C72",
   "status": "partial",
   "theorems": [
    "SST.Topo.TorusValiant.C72_torus_valiant_delivers_partial",
    "SST.Topo.TorusValiant.C72_torus_ugal_delivers_partial",
    "SST.Topo.TorusValiant.C72_torus_valiant_delivers_refuted"
   ],
   "note": "Proved for tori of 3 to 2^24 switches; refuted for two switches, where the search for an intermediate switch never ends."
  },
  {
   "property": "C73",
   "status": "partial",
   "theorems": [
    "SST.Topo.TorusValiant.C73_torus_valiant_deadlock_refuted"
   ],
   "note": "Refuted: a circle of waiting channels on a ring of eight."
  },
  {
   "property": "C74",
   "status": "partial",
   "theorems": [
    "SST.Topo.Hypercube.C74_hypercube_par_delivers_partial",
    "SST.Topo.Hypercube.C74_hypercube_par_delivers_refuted",
    "SST.Topo.Hypercube.C74_hypercube_par_deadlock_free_partial"
   ],
   "note": "Proved for extents up to 64 (six-bit header fields); refuted beyond."
  },
  {
   "property": "C75",
   "status": "proved",
   "theorems": [
    "SST.Topo.Full.C75_full_links",
    "SST.Topo.Full.C75_full_neighbours",
    "SST.Topo.Full.C75_full_delivers",
    "SST.Topo.Full.C75_full_deadlock_free",
    "SST.Topo.Full.C75_star_delivers"
   ],
   "note": "All sizes and concentrations."
  },
  {
   "property": "C76",
   "status": "partial",
   "theorems": [
    "SST.Nic.C76_small_partial",
    "SST.Nic.C76_large_refuted"
   ],
   "note": "proved below 2^31 bytes; refuted for lengths whose low 32 bits are zero or at least 2^31"
  },
  {
   "property": "C77",
   "status": "proved",
   "theorems": [
    "SST.Snappr.C77_checks_fifo",
    "SST.Snappr.C77_time_fifo",
    "SST.Snappr.C77_checks_wrr",
    "SST.Snappr.C77_time_wrr"
   ],
   "note": "For both arbitrators, all events in any order that the event queue allows (not before the last event, not after a scheduled arbitration). The debugging aid debug_qos is not modelled."
  },
  {
   "property": "C78",
   "status": "partial",
   "theorems": [
    "SST.Snappr.C78_rate_partial",
    "SST.Snappr.C78_partial",
    "SST.Snappr.C78_refuted"
   ],
   "note": "While lanes within their limits compete, a limited lane is served only when its time has come and keeps its rate over every history (C78_rate_partial). Without competition the limit is ignored (refuted)."
  },
  {
   "property": "C79",
   "status": "partial",
   "theorems": [
    "SST.Pisces.Arbit.C79_refuted",
    "SST.Pisces.Arbit.C79_small_refuted",
    "SST.Pisces.Arbit.C79_partial"
   ],
   "note": "Refuted twice: rounding to whole cycles makes free intervals overlap (the sanity check then aborts), and packets of one or two bytes leave at time zero. Proved for packets of more than two bytes that come at least as fast as the link sends."
  },
  {
   "property": "C80",
   "status": "partial",
   "theorems": [
    "SST.Os.C80_signal_refuted",
    "SST.Os.C80_abort_refuted"
   ],
   "note": "Refuted: a signalled thread runs while the signaller still holds the mutex; signalling without waiters aborts."
  },
  {
   "property": "C81",
   "status": "partial",
   "theorems": [
    "SST.Os.C81_refuted"
   ],
   "note": "Refuted: every call runs the routine."
  },
  {
   "property": "C82",
   "status": "partial",
   "theorems": [
    "SST.Os.C82_refuted"
   ],
   "note": "Refuted: every writer is let in at once."
  },
  {
   "property": "C83",
   "status": "partial",
   "theorems": [
    "SST.Os.C83_simple_refuted",
    "SST.Os.C83_simple_partial",
    "SST.Os.C83_cpuset"
   ],
   "note": "Cpuset scheduler: proved up to 31 cores. Simple scheduler: proved for one core at a time, refuted for releases of several cores."
  },
  {
   "property": "C84",
   "status": "partial",
   "theorems": [
    "SST.Os.C84_partial",
    "SST.Os.C84_refuted"
   ],
   "note": "Proved up to 31 cores; refuted at 32."
  },
  {
   "property": "C85",
   "status": "proved",
   "theorems": [
    "SST.Launch.C85_exclusive"
   ],
   "note": "Invariant over all request/stop histories."
  },
  {
   "property": "C86",
   "status": "proved",
   "theorems": [
    "SST.Launch.C86_inverse"
   ],
   "note": "For every table and machine size."
  },
  {
   "property": "C87",
   "status": "partial",
   "theorems": [
    "SST.Sumi.C87_dense",
    "SST.Sumi.C87_sparse",
    "SST.Sumi.C87_back",
    "SST.Sumi.C87_failed_partial",
    "SST.Sumi.C87_failed_refuted"
   ],
   "note": "Proved for surviving ranks with both search methods. A failed rank is rejected only with more than four failures; with up to four the answer is silently that of another rank (refuted)."
  },
  {
   "property": "C88",
   "status": "partial",
   "theorems": [
    "SST.Sumi.C88_bijective",
    "SST.Sumi.C88_index_partial",
    "SST.Sumi.C88_shifted_me",
    "SST.Sumi.C88_intersect",
    "SST.Sumi.C88_my_rank_refuted",
    "SST.Sumi.C88_nonmember_refuted",
    "SST.Sumi.C88_shift_refuted"
   ],
   "note": "Proved for all communicators with duplicate-free lists and shifts from 0 to the number of ranks. Refuted: the own rank of rotated and subrange communicators is computed before their members are set; subrange communicators answer for non-members. Index communicators translate one way only."
  },
  {
   "property": "C89",
   "status": "partial",
   "theorems": [
    "SST.Os.C89_disjoint",
    "SST.Os.C89_aligned",
    "SST.Os.C89_guarded",
    "SST.Os.C89_succeeds_partial",
    "SST.Os.C89_small_chunk_refuted",
    "SST.Os.C89_pages",
    "SST.Os.C89_locks_refuted"
   ],
   "note": "Disjointness, alignment, guards proved for all sequential histories. Success needs a chunk of two stacks (refuted for a chunk of at most one). Refuted for concurrent threads: alloc and free take different locks."
  },
  {
   "property": "C90",
   "status": "partial",
   "theorems": [
    "SST.Os.C90_offsets",
    "SST.Os.C90_start",
    "SST.Os.C90_copy",
    "SST.Os.C90_moved",
    "SST.Os.C90_late",
    "SST.Os.C90_safe_partial",
    "SST.Os.C90_grown_refuted",
    "SST.Os.C90_size_refuted",
    "SST.Os.C90_thread_end_refuted",
    "SST.Os.C90_postfix_refuted"
   ],
   "note": "Proved for histories in which no application sets its segment size and each starts while its segment has the current size. Refuted: segment sizes from parameters overrun, hang or leave the space too small; a segment made before the space grew is too small; the end of any thread of a process stops late values for it; postfix increment changes the variable at offset 0."
  },
  {
   "property": "C91",
   "status": "proved",
   "theorems": [
    "SST.Coll.Barrier.C91_no_early_exit",
    "SST.Coll.Barrier.C91_all_leave",
    "SST.Coll.Barrier.C91_terminates",
    "SST.Coll.Barrier.C91_can_leave"
   ],
   "note": "Safety, liveness and termination for every number of ranks, order of calls and schedule. The actions are those of the action-graph model (Coll/Dag): a rank has left when all its actions are complete, which is when the engine signals completion (C36)."
  },
  {
   "property": "C92",
   "status": "partial",
   "theorems": [
    "SST.Mpi.C92_immediate",
    "SST.Mpi.C92_once",
    "SST.Mpi.C92_no_missed_message_partial",
    "SST.Mpi.C92_reported_available_partial",
    "SST.Mpi.C92_eager1_refuted",
    "SST.Mpi.C92_consumed_refuted",
    "SST.Mpi.C92_reads_deleted_refuted",
    "SST.Mpi.C92_safe_partial"
   ],
   "note": "Proved for every history: a probe returns at once exactly when a message a receive would get is there, with that message; each probe returns at most once with a message it asked for; while it waits no matching message other than one of the second eager protocol can be received; a reported message can be received unless an already posted receive accepts it. Refuted: waiting probes are never told of eager1 messages (MPI_Probe hangs), a probe can report a message a posted receive has consumed, and Eager0::incoming reads a deleted message when another probe still waits."
  },
  {
   "property": "C93",
   "status": "partial",
   "theorems": [
    "SST.Mpi.C93_fits_partial",
    "SST.Mpi.C93_accepts_partial",
    "SST.Mpi.C93_rendezvous_overflow_refuted",
    "SST.Mpi.C93_short_receive_refuted",
    "SST.Mpi.C93_large_receive_refuted"
   ],
   "note": "Proved for messages not sent by rendezvous and sizes below 2^31; a fitting message is accepted if the receive is below 2^31 bytes and, for rendezvous, at least 64. Refuted: the check compares the 64-byte header of a rendezvous message, so a longer message overruns the buffer and a fitting one can be rejected; a receive for 4 GB rejects everything."
  },
  {
   "property": "C94",
   "status": "partial",
   "theorems": [
    "SST.Mpi.Xfer.C94_contents",
    "SST.Mpi.Xfer.C94_delivers",
    "SST.Mpi.Xfer.C94_once",
    "SST.Mpi.Xfer.C94_no_abort",
    "SST.Mpi.Xfer.C94_progress",
    "SST.Mpi.Xfer.C94_completes",
    "SST.Mpi.Xfer.C94_taken",
    "SST.Mpi.Xfer.C94_received",
    "SST.Mpi.Xfer.C94_put_refuted",
    "SST.Mpi.Xfer.C94_unpack_refuted",
    "SST.Mpi.Xfer.C94_short_unpack_refuted",
    "SST.Mpi.Xfer.C94_overrun_refuted",
    "SST.Mpi.Xfer.C94_flow_ids"
   ],
   "note": "Proved for all histories in which the application does not touch buffers in use, a message fits its receive (C93) and a non-contiguous receive unpacks as many bytes as were sent: contents, at-most-once completion, absence of aborts, completion. Refuted: use_put_window transfers no data; unpacking uses the sender's element count with the receiver's datatype. Flow ids are unique until a node has sent 2^32 messages. Null-buffer modes and delays are not modelled."
  },
  {
   "property": "C95",
   "status": "partial",
   "theorems": [
    "SST.Topo.Dragonfly.C95_constructed",
    "SST.Topo.Dragonfly.C95_valiant",
    "SST.Topo.Dragonfly.C95_ugal",
    "SST.Topo.Dragonfly.C95_par_partial",
    "SST.Topo.Dragonfly.C95_ugal_minimal",
    "SST.Topo.Dragonfly.C95_keeps_target",
    "SST.Topo.Dragonfly.C95_third_group_partial",
    "SST.Topo.Dragonfly.C95_two_switches_refuted",
    "SST.Topo.Dragonfly.C95_two_groups_refuted",
    "SST.Topo.Dragonfly.C95_par_refuted",
    "SST.Topo.Dragonfly.C95_third_group_refuted"
   ],
   "note": "Valiant and UGAL: full delivery, channel bound and deadlock freedom except where the code is wrong. Refuted: the drawing loops never end for groups of two switches and, for Valiant, two groups; PAR takes up to seven hops with six channels (with seven all holds); the intermediate group of Valiant may be the destination group. The third-group claim is proved when another switch of the group has a link to the group drawn."
  },
  {
   "property": "C96",
   "status": "proved",
   "theorems": [
    "SST.Topo.Dragonfly.C96_rotate",
    "SST.Topo.Dragonfly.C96_scatter",
    "SST.Topo.Dragonfly.C96_round_robin",
    "SST.Topo.Dragonfly.C96_scatter_turns",
    "SST.Topo.Dragonfly.C96_rotate_refuted"
   ],
   "note": "Proved for both routers. The condition in the statement on rotate routing is needed: C96_rotate_refuted shows that an accepted network may have a switch without a link to another group, whose rotate router then reads the end of an empty set."
  },
  {
   "property": "C97",
   "status": "partial",
   "theorems": [
    "SST.Coll.Direct.C97_completes",
    "SST.Coll.Direct.C97_pairs",
    "SST.Coll.Direct.C97_only_pairs",
    "SST.Coll.Direct.C97_window",
    "SST.Coll.Direct.C97_data_refuted",
    "SST.Coll.Direct.C97_alltoall_volume_refuted"
   ],
   "note": "Completion, message pairs and sizes and the window are proved for all counts and schedules. Data delivery is refuted for every count (C97_data_refuted): the sends read the receive buffer, all offsets are 0, and the send buffer is never used. The direct MPI_Alltoall sends q*m elements to rank q instead of m (C97_alltoall_volume_refuted). The put protocol is not modelled."
  },
  {
   "property": "C98",
   "status": "partial",
   "theorems": [
    "SST.Topo.DragonflyPlus.C98_wired",
    "SST.Topo.DragonflyPlus.C98_minimal",
    "SST.Topo.DragonflyPlus.C98_minimal_deadlock_free",
    "SST.Topo.DragonflyPlus.C98_adaptive",
    "SST.Topo.DragonflyPlus.C98_adaptive_deadlock_free",
    "SST.Topo.DragonflyPlus.C98_alltoall",
    "SST.Topo.DragonflyPlus.C98_hops",
    "SST.Topo.DragonflyPlus.C98_hops_refuted",
    "SST.Topo.DragonflyPlus.C98_circulant_refuted"
   ],
   "note": "Proved for every wiring whose spine switches have all their links (which covers the all-to-all wiring, C98_alltoall). Refuted for the circulant wiring, the default: the constructors accept it, but a switch can send a packet to a port without a link. Hops are refuted for two nodes on one switch (2 reported). With one group the constructor divides by zero."
  },
  {
   "property": "C99",
   "status": "partial",
   "theorems": [
    "SST.Topo.Cascade.C99_wired_partial",
    "SST.Topo.Cascade.C99_wired_refuted",
    "SST.Topo.Cascade.C99_wired_odd_refuted",
    "SST.Topo.Cascade.C99_local",
    "SST.Topo.Cascade.C99_local_distance",
    "SST.Topo.Cascade.C99_distance_refuted",
    "SST.Topo.Cascade.C99_one_group_deadlock_free",
    "SST.Topo.Cascade.C99_groups_refuted"
   ],
   "note": "Routing and distances within a group proved for every cascade; deadlock freedom proved for one group; wiring proved for an even number of group connections that do not go round, refuted otherwise. Between groups refuted in general: C99_groups_refuted shows that in every cascade with two groups or more some packets are lost where they are injected, since the router and the wiring disagree on which switches have group links."
  },
  {
   "property": "C100",
   "status": "proved",
   "theorems": [
    "SST.Sculpin.C100_no_abort",
    "SST.Sculpin.C100_fifo",
    "SST.Sculpin.C100_all_sent",
    "SST.Sculpin.C100_link_exclusive"
   ],
   "note": "One port with congestion on; seqnum (32 bits) does not wrap within a busy period; priorities are all zero, as in the code."
  },
  {
   "property": "C101",
   "status": "partial",
   "theorems": [
    "SST.Sculpin.C101_cut",
    "SST.Sculpin.C101_delivered",
    "SST.Sculpin.C101_large_refuted",
    "SST.Sculpin.C101_empty_refuted",
    "SST.Sculpin.C101_eject"
   ],
   "note": "Messages of 1 to 2^32-1 bytes are proved; every message of 2^32 bytes or more makes doSend loop forever (C101_large_refuted) and an empty one is acknowledged but never delivered (C101_empty_refuted)."
  },
  {
   "property": "C102",
   "status": "partial",
   "theorems": [
    "SST.Sculpin.C102_not_faster",
    "SST.Sculpin.C102_in_order",
    "SST.Sculpin.C102_alone",
    "SST.Sculpin.C102_cut_through_partial",
    "SST.Sculpin.C102_cut_through_refuted"
   ],
   "note": "Order and the lower bound are proved for all paths and cross traffic; the exact time of a lone packet is C102_alone; it is the cut-through time on paths whose links only get slower or only get faster, but in the usual case of slow injection and ejection around fast links the packet pays twice (C102_cut_through_refuted)."
  },
  {
   "property": "C103",
   "status": "partial",
   "theorems": [
    "SST.Topo.File.C103_wired",
    "SST.Topo.File.C103_unknown_refuted",
    "SST.Topo.File.C103_link_ports",
    "SST.Topo.File.C103_node_ports_partial",
    "SST.Topo.File.C103_node_ports_refuted",
    "SST.Topo.File.C103_round_robin",
    "SST.Topo.File.C103_table",
    "SST.Topo.File.C103_increment_deadlock_free",
    "SST.Topo.File.C103_accepted_refuted",
    "SST.Topo.File.C103_ring_refuted",
    "SST.Topo.File.C103_increment_refuted"
   ],
   "note": "Wiring, link ports, round robin, delivery along tables and deadlock freedom up to 15 links are proved. Refuted: node ports beyond maxNumPorts (C103_node_ports_refuted), misspelt destinations are dropped silently (C103_unknown_refuted), the constructor accepts tables that loop (C103_accepted_refuted), one-way rings deadlock without increment_vcs from 3 switches on and with it from 18 on (C103_ring_refuted, C103_increment_refuted)."
  },
  {
   "property": "C104",
   "status": "partial",
   "theorems": [
    "Params.C104_lines",
    "Params.C104_words",
    "Params.C104_unset_refuted",
    "Params.C104_block",
    "Params.C104_command_line",
    "Params.C104_defaults",
    "Params.C104_parallel_refuted",
    "Params.C104_comment_refuted",
    "Params.C104_variable_refuted",
    "Params.C104_brace_refuted",
    "Params.C104_dotted_block_refuted",
    "Params.C104_tab_refuted",
    "Params.C104_cycle_refuted",
    "Params.C104_brace_count_refuted",
    "Params.C104_option_refuted",
    "Params.C104_meaning",
    "Params.C104_resend_partial",
    "Params.C104_parallel_partial"
   ],
   "note": "C104_meaning: refinement of the reader to the specification, sound and complete for enough stack. C104_block, C104_lines, C104_command_line, C104_defaults: proved. C104_resend_partial / C104_parallel_partial: same parameters on every process when names and values survive a line (for files: tame lines). Refuted otherwise: C104_parallel_refuted (blank after a dot), C104_comment_refuted, C104_variable_refuted, C104_brace_refuted; also dotted block names, tabs, cyclic variables, a closing brace too many, options without a value. include lines are not modelled."
  },
  {
   "property": "C105",
   "status": "partial",
   "theorems": [
    "Params.C105_items_partial",
    "Params.C105_prefix_refuted",
    "Params.C105_order_refuted"
   ],
   "note": "C105_items_partial for values that begin with the bracket, whatever follows; refuted for text before the bracket and for brackets in the wrong order."
  },
  {
   "property": "C106",
   "status": "partial",
   "theorems": [
    "SST.Parallel.Links.C106_numbering",
    "SST.Parallel.Links.C106_delivery",
    "SST.Parallel.Links.C106_complete",
    "SST.Parallel.Links.C106_unique",
    "SST.Parallel.Links.C106_kind",
    "SST.Parallel.Links.C106_handlers",
    "SST.Parallel.Links.C106_lookahead",
    "SST.Parallel.Links.C106_fast_logp_refused",
    "SST.Parallel.Links.C106_order_partial",
    "SST.Parallel.Links.C106_logp_ties_refuted"
   ],
   "note": "Wiring, numbering, delivery, handler registration and lookahead are proved for all machines and partitions. The order of simultaneous events is partition independent only for links that are not LogP outputs (C106_order_partial); C106_logp_ties_refuted gives a machine where it changes. C106_fast_logp_refused: a LogP latency below the lookahead is refused only when the machine is split."
  },
  {
   "property": "C107",
   "status": "partial",
   "theorems": [
    "SST.Os.Threads.C107_safe",
    "SST.Os.Threads.C107_one_runs",
    "SST.Os.Threads.C107_compute",
    "SST.Os.Threads.C107_waits",
    "SST.Os.Threads.C107_wake",
    "SST.Os.Threads.C107_join",
    "SST.Os.Threads.C107_join_now",
    "SST.Os.Threads.C107_freed",
    "SST.Os.Threads.C107_freed_once",
    "SST.Os.Threads.C107_idle",
    "SST.Os.Threads.C107_timeout_refuted",
    "SST.Os.Threads.C107_double_wake_refuted",
    "SST.Os.Threads.C107_timeout_partial",
    "SST.Os.Threads.C107_timeout_fires",
    "SST.Os.Threads.C107_two_joiners_refuted",
    "SST.Os.Threads.C107_pthread_exit_refuted",
    "SST.Os.Threads.C107_cancel_refuted",
    "SST.Os.Threads.C107_cancel_partial"
   ],
   "note": "Proved for programs that compute, sleep, wait, wake, create, join and end: one thread runs at a time (C107_one_runs), exact durations (C107_compute), waiting until woken and waking without delay (C107_waits, C107_wake), joins (C107_join, C107_join_now), deletion exactly once (C107_freed, C107_freed_once), no lost wake-ups (C107_idle), no use of deleted threads (C107_safe). Refuted outside: a timeout event outlives its thread (C107_timeout_refuted); a wake-up at the moment a limit expires resumes the thread twice and cuts a later computation short (C107_double_wake_refuted); two joiners delete twice (C107_two_joiners_refuted); pthread_exit ends the whole process (C107_pthread_exit_refuted); threads of an ended application still run (C107_cancel_refuted)."
  },
  {
   "property": "C108",
   "status": "partial",
   "theorems": [
    "SST.Params.Units.C108_time",
    "SST.Params.Units.C108_frequency",
    "SST.Params.Units.C108_size",
    "SST.Params.Units.C108_units_unique",
    "SST.Params.Units.C108_bandwidth_partial",
    "SST.Params.Units.C108_bandwidth_accepted",
    "SST.Params.Units.C108_bandwidth_refuted",
    "SST.Params.Units.C108_quantity",
    "SST.Params.Units.C108_no_number"
   ],
   "note": "Times, frequencies, sizes and the choice between kinds are proved for all numbers and units; doubles are exact rationals; hexadecimal numbers, infinity and nan are not modelled. Bandwidths are proved for all units but the misread ones, which are listed and refuted (Gib/s, TB/s, TiB/s, PiB/s and spellings)."
  },
  {
   "property": "C109",
   "status": "partial",
   "theorems": [
    "SST.Nic.LogP.C109_injection",
    "SST.Nic.LogP.C109_arrival",
    "SST.Nic.LogP.C109_reception_partial",
    "SST.Nic.LogP.C109_reception_refuted",
    "SST.Nic.LogP.C109_order_partial",
    "SST.Nic.LogP.C109_order_refuted",
    "SST.Nic.LogP.C109_negligible_refuted",
    "SST.Nic.LogP.C109_contention_level",
    "SST.Nic.LogP.C109_contention_state",
    "SST.Nic.LogP.C109_reproducible_refuted"
   ],
   "note": "Injection, arrival, exactly-once delivery and the contention level are proved for all runs. Reception without overlap is proved when no message arrives sooner than it can be taken in (in particular when the NIC is at least as fast as the network) and refuted otherwise; order is proved when the network is at least as fast as the NIC and refuted otherwise; messages of exactly the negligible size are delayed (refuted); contention is not reproducible (refuted). Times do not overflow; the random-latency option is an arbitrary extra delay."
  },
  {
   "property": "C110",
   "status": "partial",
   "theorems": [
    "SST.Util.Rng.C110_seeded",
    "SST.Util.Rng.C110_mwc",
    "SST.Util.Rng.C110_cong_period",
    "SST.Util.Rng.C110_cong_distinct",
    "SST.Util.Rng.C110_shr3_period_refuted",
    "SST.Util.Rng.C110_shr3_injective",
    "SST.Util.Rng.C110_in_range",
    "SST.Util.Rng.C110_lfib4_partial",
    "SST.Util.Rng.C110_swb_partial",
    "SST.Util.Rng.C110_realvalue_partial",
    "SST.Util.Rng.C110_realvalue_refuted",
    "SST.Util.Rng.C110_router_partial",
    "SST.Util.Rng.C110_router_refuted",
    "SST.Util.Rng.C110_simple",
    "SST.Util.Rng.C110_combo",
    "SST.Util.Rng.C110_table",
    "SST.Util.Rng.C110_lags_refuted"
   ],
   "note": "proved: seeds determine every generator; MWC halves; full period of CONG; injectivity of SHR3; the recurrences LFIB4 and SWB actually follow; SimpleCombo and Combo as combinations; ranges; (0,1); the router's choice. Refuted: SHR3's documented period (fixed point 0xaea21b8f), documented lags of LFIB4 and SWB, [0,1], (0,1] and [0,1), the router from the 28th attempt on and without a seed. Real numbers are modelled exactly, not as doubles."
  },
  {
   "property": "C111",
   "status": "partial",
   "theorems": [
    "SST.Os.Libs.C111_exactly_once",
    "SST.Os.Libs.C111_waits",
    "SST.Os.Libs.C111_lookup",
    "SST.Os.Libs.C111_registered_partial",
    "SST.Os.Libs.C111_registered_refuted",
    "SST.Os.Libs.C111_same_name_refuted",
    "SST.Os.Libs.C111_order_partial",
    "SST.Os.Libs.C111_order_refuted"
   ],
   "note": "exactly-once, waiting and lookup hold in every (orderly) history; delivery only to registered libraries and in order of arrival hold under stated scheduling conditions and are refuted without them"
  },
  {
   "property": "C112",
   "status": "partial",
   "theorems": [
    "SST.Util.Pool.C112_disjoint",
    "SST.Util.Pool.C112_fresh",
    "SST.Util.Pool.C112_threads",
    "SST.Util.Pool.C112_reuse",
    "SST.Util.Pool.C112_bounded_partial",
    "SST.Util.Pool.C112_bounded_refuted"
   ],
   "note": "disjointness, alignment, freshness and reuse hold for all histories of any number of threads; the bound on memory holds for one thread and is refuted for two. Only the build with custom new is modelled; data races on the arrays are not (each thread has its own)"
  },
  {
   "property": "C113",
   "status": "partial",
   "theorems": [
    "SST.Stats.C113_headings",
    "SST.Stats.C113_rows_partial",
    "SST.Stats.C113_histogram_partial",
    "SST.Stats.C113_histogram_refuted",
    "SST.Stats.C113_rows_refuted"
   ],
   "note": "Headings proved for all groups; rows and histograms under the hypotheses in the theorems; refuted for groups of different statistics and for the upper end of the interval. Numbers in histograms are exact rationals, logarithmic bins are not modelled."
  },
  {
   "property": "C114",
   "status": "partial",
   "theorems": [
    "SST.Mem.LogP.C114_logp",
    "SST.Mem.LogP.C114_null_refuted",
    "SST.Mem.Pisces.C114_pisces_once",
    "SST.Mem.Pisces.C114_pisces_completes_partial",
    "SST.Mem.Pisces.C114_pisces_large_refuted",
    "SST.Mem.Pisces.C114_pisces_requests_refuted",
    "SST.Mem.Snappr.C114_snappr_once",
    "SST.Mem.Snappr.C114_snappr_completes",
    "SST.Mem.Snappr.C114_snappr_channels"
   ],
   "note": "Proved for snappr and logp memories; for the pisces memory flows below 2^32 bytes plus a packet (times of packets left out, see C79), larger flows and single requests refuted; null memory refuted."
  },
  {
   "property": "C115",
   "status": "partial",
   "theorems": [
    "SST.Mpi.Req.C115_handles_partial",
    "SST.Mpi.Req.C115_null_refuted",
    "SST.Mpi.Req.C115_start",
    "SST.Mpi.Req.C115_nonblocking",
    "SST.Mpi.Req.C115_start_other",
    "SST.Mpi.Req.C115_wait",
    "SST.Mpi.Req.C115_wait_returns",
    "SST.Mpi.Req.C115_test",
    "SST.Mpi.Req.C115_inactive_refuted",
    "SST.Mpi.Req.C115_persistent_status_refuted",
    "SST.Mpi.Req.C115_blocking",
    "SST.Mpi.Req.C115_sendrecv",
    "SST.Mpi.Req.C115_proc_null_partial",
    "SST.Mpi.Req.C115_ignore_refuted"
   ],
   "note": "proved for at most 0x2c000000 requests and restarts after the end of the operation; the code violates the rest: request 0x2c000000 is the null request, inactive persistent requests hang, status of persistent PROC_NULL receives, MPI_STATUS_IGNORE with PROC_NULL. Completions come from the environment (C17-C20, C94 for the queue); MPI_Cancel has no implementation; requests of collectives and trace replay are not modelled"
  },
  {
   "property": "C116",
   "status": "partial",
   "theorems": [
    "SST.Mpi.CollCall.C116_bcast",
    "SST.Mpi.CollCall.C116_reductions",
    "SST.Mpi.CollCall.C116_user_op_refuted",
    "SST.Mpi.CollCall.C116_gather_partial",
    "SST.Mpi.CollCall.C116_scatter_partial",
    "SST.Mpi.CollCall.C116_alltoall_partial",
    "SST.Mpi.CollCall.C116_noncontiguous_refuted",
    "SST.Mpi.CollCall.C116_scatter_noncontiguous_refuted",
    "SST.Mpi.CollCall.C116_scatter_in_place_refuted",
    "SST.Mpi.CollCall.C116_in_place_extent_refuted",
    "SST.Mpi.CollCall.C116_alltoall_in_place_refuted",
    "SST.Mpi.CollCall.C116_alltoall_init",
    "SST.Mpi.CollCall.C116_allgatherv_partial",
    "SST.Mpi.CollCall.C116_allgatherv_displs_refuted",
    "SST.Mpi.CollCall.C116_allgatherv_type_refuted",
    "SST.Mpi.CollCall.C116_null_counts_partial",
    "SST.Mpi.CollCall.C116_null_volume_refuted",
    "SST.Mpi.CollCall.C116_null_gatherv_refuted",
    "SST.Mpi.CollCall.C116_gatherv_short_refuted"
   ],
   "note": "Proved: bcast and the reductions (reduce, allreduce, scan; in place too) for every derived type, gather/allgather (in place too), scatter and alltoall for contiguous types, allgatherv with dense displacements, equal counts without buffers; all above an engine that does what it is asked (see C29-C35, C71). Refuted: gather, allgather, alltoall and scatter of non-contiguous types overrun the temporary buffer in every call; scatter and alltoall in place; in-place contributions of dense vectors; displacements of allgatherv are ignored; mean counts of calls without buffers; user operations on spread types; the short gatherv swaps count and type. gatherv, scatterv and reduce_scatter with data are not implemented in the code."
  },
  {
   "property": "C117",
   "status": "partial",
   "theorems": [
    "SST.Mpi.Handles.C117_handles_partial",
    "SST.Mpi.Handles.C117_group_free_refuted",
    "SST.Mpi.Handles.C117_split_group_refuted",
    "SST.Mpi.Handles.C117_dup_of_split_refuted",
    "SST.Mpi.Handles.C117_cart_free_refuted",
    "SST.Mpi.Handles.C117_self_group_refuted",
    "SST.Mpi.Handles.C117_second_handle_refuted",
    "SST.Mpi.Handles.C117_empty_group_refuted",
    "SST.Mpi.Handles.C117_teardown_partial",
    "SST.Mpi.Handles.C117_cart_teardown_refuted"
   ],
   "note": "Proved for all call sequences under an explicit discipline: groups are not freed while a communicator made of them lives or their handle was handed out again, copies of a split communicator are freed before it, Cartesian communicators are not freed and MPI_Comm_group is not used on splits. Without it the property is false: C117_group_free_refuted (the usual create-then-free-group idiom), C117_dup_of_split_refuted, C117_split_group_refuted, C117_cart_free_refuted and C117_cart_teardown_refuted (MpiCommCart passes TOPO_CART as del_grp and deletes its parent's group), C117_self_group_refuted, C117_second_handle_refuted, C117_empty_group_refuted."
  },
  {
   "property": "C118",
   "status": "partial",
   "theorems": [
    "SST.Coll.Smp.C118_allgather_partial",
    "SST.Coll.Smp.C118_allgather_by_node",
    "SST.Coll.Smp.C118_round_robin_refuted",
    "SST.Coll.Smp.C118_one_node_refuted",
    "SST.Coll.Smp.C118_uneven_refuted",
    "SST.Coll.Smp.C118_lone_rank_refuted",
    "SST.Coll.Smp.C118_allreduce_refuted",
    "SST.Coll.Smp.C118_tags_partial",
    "SST.Coll.Smp.C118_tags_refuted",
    "SST.Coll.Smp.C118_alltoall_refuted"
   ],
   "note": "Proved for allgather on two or more nodes with the same number (at least 2) of ranks each and ranks numbered node by node, in all schedules; on any other equal placement the result is grouped by node. The rest is refuted for every job of the kind: all ranks on one node, nodes of different sizes and a rank alone on its node hang; allreduce returns at once without sending or writing anything; alltoall overruns its buffer and gives all ranks of a node the same result; tags collide from communicator 4096 on. The inner collectives are taken at their specifications (C29, C31, C32, C34)."
  },
  {
   "property": "C119",
   "status": "partial",
   "theorems": [
    "SST.Mpi.Ops.C119_integers",
    "SST.Mpi.Ops.C119_modular",
    "SST.Mpi.Ops.C119_order_partial",
    "SST.Mpi.Ops.C119_sum_prod_partial",
    "SST.Mpi.Ops.C119_defined_arith_partial",
    "SST.Mpi.Ops.C119_order_refuted",
    "SST.Mpi.Ops.C119_unsigned_short_refuted",
    "SST.Mpi.Ops.C119_loc",
    "SST.Mpi.Ops.C119_operators_partial",
    "SST.Mpi.Ops.C119_operators_refuted",
    "SST.Mpi.Ops.C119_nan_refuted",
    "SST.Mpi.Ops.C119_sizes_partial",
    "SST.Mpi.Ops.C119_sizes_refuted",
    "SST.Mpi.Ops.C119_user",
    "SST.Mpi.Ops.C119_user_order",
    "SST.Mpi.Ops.C119_noncommutative_refuted"
   ],
   "note": "Proved for every tree of combinations: maximum, minimum, logical and bitwise operators at all integer types, MAXLOC and MINLOC, sums and products modulo 2^w and exact when no order can overflow, no undefined behaviour at unsigned types of 32 and 64 bits, operators of the program. Refuted: an order of a signed sum that overflows while another gives the right value, products of unsigned short, complex numbers and seven unregistered datatypes, maxima with NaN, five sizes, operators that do not commute. Floating point arithmetic is not modelled."
  },
  {
   "property": "C120",
   "status": "partial",
   "theorems": [
    "SST.Mpi.Dt.C120_discipline_partial",
    "SST.Mpi.Dt.C120_fresh",
    "SST.Mpi.Dt.C120_base_refuted",
    "SST.Mpi.Dt.C120_base_run_refuted",
    "SST.Mpi.Dt.C120_dup_refuted",
    "SST.Mpi.Dt.C120_dup_run_refuted",
    "SST.Mpi.Dt.C120_rename_refuted",
    "SST.Mpi.Dt.C120_rename_run_refuted",
    "SST.Mpi.Dt.C120_processes_refuted"
   ],
   "note": "Under a discipline every call returns what it should (C120_discipline_partial), and new handles are always unused (C120_fresh). Without it the code violates the property: a type with gaps whose base was freed reads a deleted object (C120_base_refuted, C120_base_run_refuted); a duplicate is the same object as its original and dies with it (C120_dup_refuted, C120_dup_run_refuted); duplication renames the original, so a user function gets another handle, which may name another type (C120_rename_refuted, C120_rename_run_refuted); predefined datatypes are shared by all processes of a simulation (C120_processes_refuted)."
  },
  {
   "property": "C121",
   "status": "partial",
   "theorems": [
    "SST.Sumi.Tp.C121_conserved",
    "SST.Sumi.Tp.C121_complete",
    "SST.Sumi.Tp.C121_server",
    "SST.Sumi.Tp.C121_function",
    "SST.Sumi.Tp.C121_order",
    "SST.Sumi.Tp.C121_no_failure_partial",
    "SST.Sumi.Tp.C121_get_refuted",
    "SST.Sumi.Tp.C121_get_node_refuted",
    "SST.Sumi.Tp.C121_held_refuted",
    "SST.Sumi.Tp.C121_gap_refuted",
    "SST.Sumi.Tp.C121_self_refuted",
    "SST.Sumi.Tp.C121_stale_refuted"
   ],
   "note": "Proved for every run that does not fail and does not use rdmaGet on another process: completions delivered, on the way and waiting are together exactly what the calls ask for (C121_conserved, C121_complete), each goes to the function installed last (C121_function), per queue in order of arrival (C121_order), and servers keep what waits (C121_server). Under the discipline that queues other than the first are named only after they were installed, no run fails (C121_no_failure_partial). Refuted: rdmaGet from another process never completes, or completes crosswise on one node; a message before its queue makes the installation call a moved-from function; a message between the allocation of an id and of its function; messages to oneself on a missing queue; queues that were given back."
  },
  {
   "property": "C122",
   "status": "partial",
   "theorems": [
    "Verif.Otf2.C122_replay_partial",
    "Verif.Otf2.C122_complete_partial",
    "Verif.Otf2.C122_order",
    "Verif.Otf2.C122_sizes",
    "Verif.Otf2.C122_bytes_refuted",
    "Verif.Otf2.C122_reduce_scatter_refuted",
    "Verif.Otf2.C122_vectors_refuted",
    "Verif.Otf2.C122_sendrecv_refuted",
    "Verif.Otf2.C122_lost_refuted",
    "Verif.Otf2.C122_testall_refuted",
    "Verif.Otf2.C122_persistent_refuted",
    "Verif.Otf2.C122_startall_refuted",
    "Verif.Otf2.C122_dangling_refuted",
    "Verif.Otf2.C122_zero_refuted"
   ],
   "note": "Proved for programs of MPI_Send, MPI_Recv, non-blocking sends and receives, waits, tests of one request, collectives and local calls: the replay is faithful up to the first receive that never completes, and complete if all complete; the order of calls for every sequence of events. Missing because the code violates them: other blocking sends and MPI_Sendrecv (abort, or a lost message), tests that complete several requests (abort), persistent receives (use of a destroyed call), MPI_Startall (lost sends), collectives with counts for each rank (not replayed), MPI_Reduce_scatter (ranks disagree), reductions of sizes that are no multiple of four; a receive that never completes stalls all that follows."
  },
  {
   "property": "C123",
   "status": "partial",
   "theorems": [
    "Verif.Dumpi.C123_replay_partial",
    "Verif.Dumpi.C123_time_partial",
    "Verif.Dumpi.C123_waits",
    "Verif.Dumpi.C123_proc_null_refuted",
    "Verif.Dumpi.C123_sendrecv_proc_null_refuted",
    "Verif.Dumpi.C123_unimplemented_refuted",
    "Verif.Dumpi.C123_split_undefined_refuted",
    "Verif.Dumpi.C123_init_thread_refuted",
    "Verif.Dumpi.C123_comm_self_refuted",
    "Verif.Dumpi.C123_world_group_refuted",
    "Verif.Dumpi.C123_comm_group_refuted",
    "Verif.Dumpi.C123_inactive_refuted",
    "Verif.Dumpi.C123_clock_refuted",
    "Verif.Dumpi.C123_perf_refuted",
    "Verif.Dumpi.C123_unknown_type_refuted"
   ],
   "note": "Proved for all programs whose calls use objects that there are and whose times do not run back (C123_replay_partial, C123_time_partial), and that waits follow operations and come once for every trace (C123_waits). The rest is missing because the code does otherwise: MPI_Init_thread, receives from MPI_PROC_NULL, MPI_COMM_SELF, undefined colours, the world's group in MPI_Comm_create, groups of other communicators, inactive persistent requests, clocks that run back, performance counters, unknown datatypes and unimplemented calls are refuted. Messages of several ranks, and early termination, are not part of this property."
  },
  {
   "property": "C124",
   "status": "partial",
   "theorems": [
    "Verif.Dumpi.C124_below",
    "Verif.Dumpi.C124_stops_partial",
    "Verif.Dumpi.C124_barrier_refuted",
    "Verif.Dumpi.C124_ranks_refuted"
   ],
   "note": "Proved: programs with fewer global collectives than the count run to the end (C124_below); programs with more, none of which is a barrier, end after just as many (C124_stops_partial). Missing because the code does otherwise: a barrier in the place of the next collective jumps over the count (C124_barrier_refuted), and ranks end at their next collective on any communicator, so that one can wait for a message of another (C124_ranks_refuted)."
  },
  {
   "property": "C125",
   "status": "partial",
   "theorems": [
    "Verif.Otf2.Writer.C125_comm_ids",
    "Verif.Otf2.Writer.C125_group_refuted",
    "Verif.Otf2.Writer.C125_group_collision_refuted",
    "Verif.Otf2.Writer.C125_start",
    "Verif.Otf2.Writer.C125_end_refuted",
    "Verif.Otf2.Writer.C125_events",
    "Verif.Otf2.Writer.C125_written_partial",
    "Verif.Otf2.Writer.C125_first_refuted"
   ],
   "note": "Proved: identifiers of communicators agree on all ranks, are different and dense (C125_comm_ids), the start (C125_start) and the counts of events (C125_events). Missing because the code does otherwise: rank 0 of a communicator writes another identifier for its group than the others, and groups collide (C125_group_refuted, C125_group_collision_refuted); the end is always 0 (C125_end_refuted); the simulation aborts if another rank than 0 is written first (C125_first_refuted)."
  },
  {
   "property": "C126",
   "status": "partial",
   "theorems": [
    "Verif.Os.Pth.C126_numbers",
    "Verif.Os.Pth.C126_std_id_refuted",
    "Verif.Os.Pth.C126_join_partial",
    "Verif.Os.Pth.C126_join_right",
    "Verif.Os.Pth.C126_deletion_partial",
    "Verif.Os.Pth.C126_status_refuted",
    "Verif.Os.Pth.C126_detach_refuted",
    "Verif.Os.Pth.C126_values",
    "Verif.Os.Pth.C126_keys",
    "Verif.Os.Pth.C126_destructor_refuted",
    "Verif.Os.Pth.C126_mask_partial",
    "Verif.Os.Pth.C126_affinity_partial",
    "Verif.Os.Pth.C126_affinity_refuted",
    "Verif.Os.Pth.C126_affinity_unknown_refuted",
    "Verif.Os.Pth.C126_affinity_join_refuted",
    "Verif.Os.Pth.C126_affinity_deleted_refuted",
    "Verif.Os.Pth.C126_inherit_refuted"
   ],
   "note": "Proved while fewer than 2^32 threads have been made, in every interleaving: numbers are unique and are those of pthread_self, joins find the thread they name, a program that joins or detaches each thread once never touches a deleted thread (affinity calls excepted), values and keys, masks set by the thread itself. False and refuted: std::thread identifiers, the status of a join, deletion after a late detach, destructors of keys, affinities by number and inheritance of masks."
  },
  {
   "property": "C127",
   "status": "partial",
   "theorems": [
    "Verif.Os.CpuSet.C127_set_partial",
    "Verif.Os.CpuSet.C127_clr_partial",
    "Verif.Os.CpuSet.C127_isset_partial",
    "Verif.Os.CpuSet.C127_ops",
    "Verif.Os.CpuSet.C127_build_partial",
    "Verif.Os.CpuSet.C127_set_refuted",
    "Verif.Os.CpuSet.C127_clr_refuted",
    "Verif.Os.CpuSet.C127_isset_refuted",
    "Verif.Os.CpuSet.C127_count_refuted",
    "Verif.Os.CpuSet.C127_size_refuted"
   ],
   "note": "Proved for all sets: AND, OR, XOR, EQUAL, ZERO; SET, CLR, ISSET for cpus below 31. False and refuted: SET, CLR, ISSET from cpu 31 on (32-bit shifts, undefined behaviour taken as on x86), COUNT of every set of low cpus (proved to be twice the number), CPU_ALLOC_SIZE. The macros CPU_AND, CPU_OR and CPU_XOR pass their arguments in the wrong order and do not compile; the theorem is about the _S functions."
  },
  {
   "property": "C128",
   "status": "partial",
   "theorems": [
    "Verif.Apps.Fft.C128_fft_lines",
    "Verif.Apps.Fft.C128_fft_agree",
    "Verif.Apps.Fft.C128_fft_ends",
    "Verif.Apps.Fft.C128_fft_refuses",
    "Verif.Apps.Fft.C128_fft_exchanges",
    "Verif.Apps.Fft.C128_load_partial",
    "Verif.Apps.Fft.C128_load_refuted",
    "Verif.Apps.Halo.C128_halo_match",
    "Verif.Apps.Halo.C128_halo_fits",
    "Verif.Apps.Halo.C128_halo_inside",
    "Verif.Apps.Halo.C128_halo_ends",
    "Verif.Apps.Halo.C128_halo_agree",
    "Verif.Apps.Halo.C128_halo_refuses",
    "Verif.Apps.Halo.C128_halo_requests",
    "Verif.Apps.Halo.C128_halo_vertices_refuted",
    "Verif.Apps.Sweep.C128_sweep_refuses",
    "Verif.Apps.Sweep.C128_sweep_ends",
    "Verif.Apps.Sweep.C128_sweep_inside",
    "Verif.Apps.Sweep.C128_sweep_agree",
    "Verif.Apps.Sweep.C128_sweep_fits_partial",
    "Verif.Apps.Sweep.C128_sweep_fits_refuted",
    "Verif.Apps.Sweep.C128_sweep_default_refuted"
   ],
   "note": "Proved for all grids: matching, sizes, ranks, agreement of collectives and termination of halo3d-26; termination, ranks, agreement of sweep3d, its sizes for nx at most ny; lines of the grid, agreement and termination of fft. Refuted: halo3d-26 never exchanges with its 8 vertex neighbours; sweep3d sends nx but receives ny in y, and its default grid sends to a rank that is not there; offered_load waits for too many messages if the list of destinations is longer than the number of ranks."
  },
  {
   "property": "C129",
   "status": "partial",
   "theorems": [
    "Verif.Os.AppEnv.C129_words",
    "Verif.Os.AppEnv.C129_args_partial",
    "Verif.Os.AppEnv.C129_args_fit",
    "Verif.Os.AppEnv.C129_args_refuted",
    "Verif.Os.AppEnv.C129_args_shared_refuted",
    "Verif.Os.AppEnv.C129_env",
    "Verif.Os.AppEnv.C129_getenv_partial",
    "Verif.Os.AppEnv.C129_getenv_refuted",
    "Verif.Os.AppEnv.C129_omp_refuted",
    "Verif.Os.AppEnv.C129_omp_partial",
    "Verif.Os.AppEnv.C129_status",
    "Verif.Os.AppEnv.C129_status_partial",
    "Verif.Os.AppEnv.C129_status_refuted",
    "Verif.Os.AppEnv.C129_api_entry",
    "Verif.Os.AppEnv.C129_api_plain",
    "Verif.Os.AppEnv.C129_apis_partial",
    "Verif.Os.AppEnv.C129_apis_refuted",
    "Verif.Os.AppEnv.C129_apis_leak_refuted",
    "Verif.Os.AppEnv.C129_main_partial",
    "Verif.Os.AppEnv.C129_main_core",
    "Verif.Os.AppEnv.C129_main_refuted",
    "Verif.Os.AppEnv.C129_loaded",
    "Verif.Os.AppEnv.C129_status_zero"
   ],
   "note": "Proved: words of argv, arguments while no process changes its own, environments under all interleavings, APIs of lists without contradictions and their deletion, registered main functions, loading of the executable, the exit status as that of the last process. Refuted: an argument of 600 characters overruns the buffer; all processes of an application share one array of arguments; getenv of 64 or more characters aborts; OMP_NUM_THREADS of the node is ignored; an alias used as a name gives the wrong API, and one equal to a name leaks an API; a main without arguments never runs in the stand-alone simulator; a failure is lost if another process ends later."
  },
  {
   "property": "C130",
   "status": "partial",
   "theorems": [
    "Verif.Os.AppStreams.C130_where_partial",
    "Verif.Os.AppStreams.C130_stderr_refuted",
    "Verif.Os.AppStreams.C130_stderr_file_refuted",
    "Verif.Os.AppStreams.C130_cerr_refuted",
    "Verif.Os.AppStreams.C130_text_partial",
    "Verif.Os.AppStreams.C130_stdout",
    "Verif.Os.AppStreams.C130_cout_rank",
    "Verif.Os.AppStreams.C130_cout_refuted"
   ],
   "note": "Proved: stdout and cout go where they should, and text is complete when sharing streams append. Refuted: stderr looks at the parameter of stdout; cerr by rank goes to one file called rank; cout by application empties and overwrites the file of other processes."
  },
  {
   "property": "C131",
   "status": "partial",
   "theorems": [
    "Verif.Launch.Request.C131_atoi",
    "Verif.Launch.Request.C131_aprun_partial",
    "Verif.Launch.Request.C131_invalid",
    "Verif.Launch.Request.C131_launcher",
    "Verif.Launch.Request.C131_size",
    "Verif.Launch.Request.C131_depth_refuted",
    "Verif.Launch.Request.C131_per_node_refuted",
    "Verif.Launch.Request.C131_program_refuted",
    "Verif.Launch.Request.C131_long_refuted",
    "Verif.Launch.Request.C131_cores_refuted",
    "Verif.Launch.Request.C131_nodes",
    "Verif.Launch.Request.C131_apps",
    "Verif.Launch.Request.C131_apps_once",
    "Verif.Launch.Request.C131_apps_partial",
    "Verif.Launch.Request.C131_apps_refuted",
    "Verif.Launch.Request.C131_services",
    "Verif.Launch.Request.C131_params",
    "Verif.Launch.Request.C131_params_refuted",
    "Verif.Launch.Request.C131_auto_partial",
    "Verif.Launch.Request.C131_auto_size_refuted",
    "Verif.Launch.Request.C131_auto_refuted",
    "Verif.Launch.Request.C131_mapping_partial",
    "Verif.Launch.Request.C131_mapping_right",
    "Verif.Launch.Request.C131_mapping_refuted"
   ],
   "note": "Proved: the exact set of launched applications, that each is launched once, aprun commands with any options within the buffer sizes, numbers of nodes, distinct ids of services, mapping while local processes run. Refuted: app10 after a gap and app0, -d, negative -N, options of the program taken as options of aprun, commands of 200 characters, -cc without effect, common parameters win over specific ones, size without a command and two applications on a network to measure, the mapping once local processes have ended."
  },
  {
   "property": "C132",
   "status": "partial",
   "theorems": [
    "Verif.Os.Compute.C132_detailed_partial",
    "Verif.Os.Compute.C132_detailed_refuted",
    "Verif.Os.Compute.C132_cutoff_refuted",
    "Verif.Os.Compute.C132_loop_partial",
    "Verif.Os.Compute.C132_loop_refuted",
    "Verif.Os.Compute.C132_nested",
    "Verif.Os.Compute.C132_access",
    "Verif.Os.Compute.C132_access_refuted",
    "Verif.Os.Compute.C132_width_refuted",
    "Verif.Os.Compute.C132_time",
    "Verif.Os.Compute.C132_time_mono",
    "Verif.Os.Compute.C132_alone_partial",
    "Verif.Os.Compute.C132_alone_upper",
    "Verif.Os.Compute.C132_bytes_refuted",
    "Verif.Os.Compute.C132_negligible_refuted",
    "Verif.Os.Compute.C132_cores_refuted",
    "Verif.Os.Compute.C132_null_refuted",
    "Verif.Os.Compute.C132_threads_refuted",
    "Verif.Os.Compute.C132_threads_partial",
    "Verif.Os.Compute.C132_no_threads_refuted",
    "Verif.Os.Compute.C132_sleep_partial",
    "Verif.Os.Compute.C132_sleep_refuted",
    "Verif.Os.Compute.C132_sleep_bound",
    "Verif.Os.Compute.C132_blas_partial",
    "Verif.Os.Compute.C132_dgemm_parts",
    "Verif.Os.Compute.C132_dgemm_sorted",
    "Verif.Os.Compute.C132_dgemm_refuted",
    "Verif.Os.Compute.C132_dgemm_large_refuted",
    "Verif.Os.Compute.C132_kernels_refuted"
   ],
   "note": "Proved: charges of computations and loops whose counts fit 64 bits, whole words of accesses, the error of the time of instructions (one tick per operation), monotony in operations, bounds of a computation by itself, pauses up to 1844 s, vector kernels, the blocks of dgemm. Refuted: operations that add up to 2^64, bytes of computations under min_op_cutoff, loops that wrap, seven bytes, widths under a byte, more bytes in less time, negligible bytes, two cores at a time with LogP memory, null memory, more threads than cores, no threads, pauses of 1845 s, bytes of dgemm, large matrices, kernels of another application."
  },
  {
   "property": "C133",
   "status": "partial",
   "theorems": [
    "Verif.Os.Omp.C133_main_partial",
    "Verif.Os.Omp.C133_set_refuted",
    "Verif.Os.Omp.C133_parallel_refuted",
    "Verif.Os.Omp.C133_threads_refuted",
    "Verif.Os.Omp.C133_compute",
    "Verif.Os.Omp.C133_test_lock_refuted"
   ],
   "note": "Proved: answers outside of parallel regions, threads of computations. Refuted: omp_get_max_threads after omp_set_num_threads, parallel regions (abort), calls in other threads (no context), omp_test_lock (inverted and without effect)."
  },
  {
   "property": "C134",
   "status": "partial",
   "theorems": [
    "Verif.Launch.Files.C134_address",
    "Verif.Launch.Files.C134_box_partial",
    "Verif.Launch.Files.C134_box_refuted",
    "Verif.Launch.Files.C134_box_size_refuted",
    "Verif.Launch.Files.C134_coordinates_partial",
    "Verif.Launch.Files.C134_coordinates_refuted",
    "Verif.Launch.Files.C134_coordinate_map_partial",
    "Verif.Launch.Files.C134_coordinate_map_refuted",
    "Verif.Launch.Files.C134_node_id_map",
    "Verif.Launch.Files.C134_node_id_map_refuted",
    "Verif.Launch.Files.C134_default_names",
    "Verif.Launch.Files.C134_names_partial",
    "Verif.Launch.Files.C134_names_read",
    "Verif.Launch.Files.C134_names_refuted",
    "Verif.Launch.Files.C134_names_range_refuted",
    "Verif.Launch.Files.C134_host_map",
    "Verif.Launch.Files.C134_hosts_refuted",
    "Verif.Launch.Files.C134_hosts",
    "Verif.Launch.Files.C134_coords"
   ],
   "note": "Boxes inside of the network, coordinate files without repetitions, host files and names are proved. Refuted: boxes and coordinates out of range name other nodes (no check), the requested number is ignored by boxes and host files, repeated coordinates give fewer nodes, the coordinate mapper ignores the number of processes, node files may name nodes outside the allocation, two names for one node leave one."
  },
  {
   "property": "C135",
   "status": "proved",
   "theorems": [
    "SST.Topo.TorusPositive.C135_delivery",
    "SST.Topo.TorusPositive.C135_shortest",
    "SST.Topo.TorusPositive.C135_deadlock_free"
   ],
   "note": "Delivery, shortest ways up and freedom of deadlock for all tori with sizes of at least one and at most 2^32 switches (switch numbers are 32 bits)."
  },
  {
   "property": "C136",
   "status": "partial",
   "theorems": [
    "Verif.Util.DebugFlags.C136_flags_partial",
    "Verif.Util.DebugFlags.C136_errors_partial",
    "Verif.Util.DebugFlags.C136_off_refuted",
    "Verif.Util.DebugFlags.C136_off_others_partial",
    "Verif.Util.DebugFlags.C136_conditional_partial",
    "Verif.Util.DebugFlags.C136_conditional_refuted",
    "Verif.Util.DebugFlags.C136_late_refuted",
    "Verif.Util.DebugFlags.C136_list",
    "Verif.Util.DebugFlags.C136_list_refuted",
    "Verif.Util.DebugFlags.C136_wrap"
   ],
   "note": "For programs that register first and never turn off a single flag, a message is printed exactly if one of its flags is on (C136_flags_partial) and errors are exactly unknown names and more than 63 flags (C136_errors_partial); turning off a flag leaves the others alone (C136_off_others_partial). Conditional messages (all of MPI's) are right as long as output was never turned off (C136_conditional_partial). Lists with commas (C136_list) and wrapped texts (C136_wrap) are proved. Refuted by the code: turning off a flag inverts its own integer so that it stays on once another flag exists (C136_off_refuted); conditional messages test slot 1 (C136_conditional_refuted); flags registered after the first use are unknown (C136_late_refuted); lists as in the help text are errors (C136_list_refuted)."
  },
  {
   "property": "C137",
   "status": "partial",
   "theorems": [
    "Verif.Launch.Options.C137_outcome",
    "Verif.Launch.Options.C137_values",
    "Verif.Launch.Options.C137_no_file",
    "Verif.Launch.Options.C137_flags_refuted",
    "Verif.Launch.Options.C137_conflict_refuted",
    "Verif.Launch.Options.C137_replay_refuted",
    "Verif.Launch.Options.C137_help_refuted",
    "Verif.Launch.Options.C137_old_names_refuted",
    "Verif.Launch.Options.C137_others"
   ],
   "note": "For every list of options the value of every parameter (C137_values), the other options (C137_others), the file that is read (C137_no_file) and the outcome (C137_outcome) are proved. Refuted by the code: --pisces, --macrels and --mpitest fail alone and replace the user's file otherwise (C137_flags_refuted); --pisces with --macrels is not refused (C137_conflict_refuted); replays override the machine of the configuration file (C137_replay_refuted); -m of the help text and --srun are refused (C137_help_refuted); old names of parameters are not renamed (C137_old_names_refuted)."
  },
  {
   "property": "C138",
   "status": "partial",
   "theorems": [
    "Verif.Mpi.HostTime.C138_charges_partial",
    "Verif.Mpi.HostTime.C138_never_less_partial",
    "Verif.Mpi.HostTime.C138_outside",
    "Verif.Mpi.HostTime.C138_blocked_refuted",
    "Verif.Mpi.HostTime.C138_wtime_refuted",
    "Verif.Mpi.HostTime.C138_testall_refuted",
    "Verif.Mpi.HostTime.C138_test_refuted",
    "Verif.Mpi.HostTime.C138_sendrecv_refuted",
    "Verif.Mpi.HostTime.C138_spawned_refuted"
   ],
   "note": "Exact for every program whose calls begin and end once (C138_charges_partial); never less than the own work unless MPI_Sendrecv is called between no processes (C138_never_less_partial); calls that do not touch the timer are charged with the time that passes in them (C138_outside). Refuted by the code: computations and sleeps are charged with the host time of other processes (C138_blocked_refuted); MPI_Wtime and MPI_Probe never restart the timer, so n calls charge a sum quadratic in n (C138_wtime_refuted); MPI_Test and MPI_Testall charge the same work again for every request (C138_test_refuted, C138_testall_refuted); an empty MPI_Sendrecv loses work (C138_sendrecv_refuted); threads are charged for waiting to start (C138_spawned_refuted)."
  },
  {
   "property": "C139",
   "status": "partial",
   "theorems": [
    "Verif.Mpi.Lifecycle.C139_calls",
    "Verif.Mpi.Lifecycle.C139_legal_partial",
    "Verif.Mpi.Lifecycle.C139_initialized_refuted",
    "Verif.Mpi.Lifecycle.C139_after_finalize_refuted"
   ],
   "note": "For every history it is decided exactly when a program is stopped and what each call answers (C139_calls), and legal programs are never stopped and get right answers before MPI_Finalize (C139_legal_partial). Refuted by the code: MPI_Initialized is false after MPI_Finalize (C139_initialized_refuted); MPI_Init, sends and MPI_Finalize are accepted after MPI_Finalize, and every level of threads is provided (C139_after_finalize_refuted)."
  },
  {
   "property": "C140",
   "status": "proved",
   "theorems": [
    "Verif.Util.Mersenne.C140_values",
    "Verif.Util.Mersenne.C140_unique",
    "Verif.Util.Mersenne.C140_not_zero",
    "Verif.Util.Mersenne.C140_list_words",
    "Verif.Util.Mersenne.C140_list_exists",
    "Verif.Util.Mersenne.C140_list_values"
   ],
   "note": "C140_values, C140_unique: values for all seeds and numbers; C140_list_words, C140_list_exists, C140_list_values: lists of seeds; C140_not_zero: no state of zeros, and the error for an empty list."
  },
  {
   "property": "C141",
   "status": "partial",
   "theorems": [
    "Verif.Clang.Compute.C141_charges_partial",
    "Verif.Clang.Compute.C141_empty_refuted",
    "Verif.Clang.Compute.C141_limit_refuted",
    "Verif.Clang.Compute.C141_step_refuted",
    "Verif.Clang.Compute.C141_down_refuted",
    "Verif.Clang.Compute.C141_else_refuted",
    "Verif.Clang.Compute.C141_no_hint_refuted",
    "Verif.Clang.Compute.C141_switch_refuted",
    "Verif.Clang.Compute.C141_unseen_refuted",
    "Verif.Clang.Compute.C141_while"
   ],
   "note": "C141_charges_partial: exact for all nests of loops whose control is read right and statements that are visited; C141_while: while loops are refused. Refuted: C141_empty_refuted, C141_limit_refuted, C141_step_refuted, C141_down_refuted (rounds of loops), C141_else_refuted (the text 1-(p) is not in parentheses, so that an else costs all rounds but one), C141_no_hint_refuted, C141_switch_refuted, C141_unseen_refuted. Not modelled: bytes of memory."
  },
  {
   "property": "C142",
   "status": "partial",
   "theorems": [
    "SST.Mpi.Xfer.C142_synchronous_partial",
    "SST.Mpi.Xfer.C142_synchronous_refuted",
    "SST.Mpi.Xfer.C142_buffered_partial",
    "SST.Mpi.Xfer.C142_buffered_refuted"
   ],
   "note": "The names of all modes are the standard mode (sstmac_mpi_macro.h). Proved over all executions: long synchronous sends wait for a receive, short buffered sends complete at once. Refuted: short synchronous sends complete before any receive exists; two crossing long buffered sends deadlock."
  },
  {
   "property": "C143",
   "status": "partial",
   "theorems": [
    "Verif.Clang.Memory.C143_at_most_partial",
    "Verif.Clang.Memory.C143_exact_partial",
    "Verif.Clang.Memory.C143_assigned",
    "Verif.Clang.Memory.C143_repeated",
    "Verif.Clang.Memory.C143_constants_refuted",
    "Verif.Clang.Memory.C143_fields_refuted",
    "Verif.Clang.Memory.C143_second_loop_refuted",
    "Verif.Clang.Memory.C143_step_refuted",
    "Verif.Clang.Memory.C143_rows_refuted",
    "Verif.Clang.Memory.C143_update_refuted",
    "Verif.Clang.Memory.C143_address_refuted"
   ],
   "note": "Labels leave out constants, members and unary operators. Proved for all nests: never more than what is read (no rows, no addresses), exact when labels are distinct and nothing is updated in place. Refuted: constant indices, fields, second loops, stepped indices, rows, updates in place, addresses. The 128 byte buffer of labels is not modelled."
  },
  {
   "property": "C144",
   "status": "partial",
   "theorems": [
    "SST.Coll.Registry.C144_complete_partial",
    "SST.Coll.Registry.C144_delivered_partial",
    "SST.Coll.Registry.C144_any_order_partial",
    "SST.Coll.Registry.C144_two_communicators_refuted",
    "SST.Coll.Registry.C144_two_communicators",
    "SST.Coll.Registry.C144_overlap_refuted",
    "SST.Coll.Registry.C144_ahead_refuted",
    "SST.Coll.Registry.C144_no_message_refuted"
   ],
   "note": "Completion and delivery are proved for every history in which no two collectives share type and tag and each needs a message. Refuted otherwise: with one type and tag in two communicators a message kept for the second is deleted with the first collective; overlapping calls replace the first actor; messages of a rank that runs ahead are taken by the first call; a collective that its own actions complete is never reported. The engine has a check for reused tags (validateCollective) that is never called."
  },
  {
   "property": "C145",
   "status": "partial",
   "theorems": [
    "SST.Os.Libc.C145_memset_partial",
    "SST.Os.Libc.C145_memcpy_partial",
    "SST.Os.Libc.C145_large_refuted",
    "SST.Os.Libc.C145_small",
    "SST.Os.Libc.C145_offset_refuted",
    "SST.Os.Libc.C145_charge_partial",
    "SST.Os.Libc.C145_charge_refuted",
    "SST.Os.Libc.C145_hostname_partial",
    "SST.Os.Libc.C145_hostname_refuted",
    "SST.Os.Libc.C145_advance_partial",
    "SST.Os.Libc.C145_advance_refuted",
    "SST.Os.Libc.C145_param",
    "SST.Os.Libc.C145_param_refuted"
   ],
   "note": "Proved: bytes changed and touched for buffers with data (non-overlapping for memcpy), nothing touched for buffers without data at small offsets, charges above 128 bytes, names shorter than the array, constant names. Refuted by the code: null receive buffers at offsets of 2^29 or more are accessed, offsets from NULL are accessed, 128 bytes are charged by memcpy but not memset, a host name as long as the array overflows it by one, the time of a parameter is cached by the address of its name, a double read with a default loses its fraction."
  },
  {
   "property": "C146",
   "status": "partial",
   "theorems": [
    "SST.Os.Exit.C146_return_partial",
    "SST.Os.Exit.C146_status_partial",
    "SST.Os.Exit.C146_status_refuted",
    "SST.Os.Exit.C146_exit_refuted",
    "SST.Os.Exit.C146_exit_code_refuted",
    "SST.Os.Exit.C146_thread_exit_refuted"
   ],
   "note": "Proved for all histories in which processes return from main. Refuted by the code: the status is that of the last process that returned, so an earlier failure is lost; _exit(0) leaves the node's count, the loaded executable and the launcher as they were and reports no code; _exit with another code loses the thread; _exit in another thread does not end the process."
  },
  {
   "property": "C147",
   "status": "partial",
   "theorems": [
    "SST.Os.CallGraph.C147_times",
    "SST.Os.CallGraph.C147_total",
    "SST.Os.CallGraph.C147_flow",
    "SST.Os.CallGraph.C147_calls_partial",
    "SST.Os.CallGraph.C147_calls_refuted",
    "SST.Os.CallGraph.C147_followed",
    "SST.Os.CallGraph.C147_deep_refuted",
    "SST.Os.CallGraph.C147_written_partial",
    "SST.Os.CallGraph.C147_late_refuted"
   ],
   "note": "Times, totals, flow and the output proved for all programs; for calls only that no more are counted than made. Refuted by the code: a call from a function that was already on the stack at the last collection is not counted (k calls count as 1), 51 nested functions leave the array, and an executable loaded after the graph was made makes the output read beyond its tables. As written, Thread::appendBacktrace does not compile with call graphs (its parameter has no name)."
  },
  {
   "property": "C148",
   "status": "partial",
   "theorems": [
    "SST.Clang.Wrapper.C148_words_partial",
    "SST.Clang.Wrapper.C148_words_refuted",
    "SST.Clang.Wrapper.C148_options_partial",
    "SST.Clang.Wrapper.C148_options_refuted",
    "SST.Clang.Wrapper.C148_warnings_refuted",
    "SST.Clang.Wrapper.C148_link",
    "SST.Clang.Wrapper.C148_order_refuted",
    "SST.Clang.Wrapper.C148_objects_partial",
    "SST.Clang.Wrapper.C148_objects_refuted",
    "SST.Clang.Wrapper.C148_run",
    "SST.Clang.Wrapper.C148_temps_partial",
    "SST.Clang.Wrapper.C148_temps_refuted",
    "SST.Clang.Wrapper.C148_passes_refuted",
    "SST.Clang.Wrapper.C148_visibility_refuted",
    "SST.Clang.Wrapper.C148_preprocess_refuted"
   ],
   "note": "Options proved for the default mode with the source-to-source tool; in other modes definitions, -O and -g are dropped, -W in all; words with blanks, sources with one name, order of libraries, passes with -O, visibility, -E -o and temporary files of a failed tool are refuted."
  },
  {
   "property": "C149",
   "status": "partial",
   "theorems": [
    "SST.Mpi.Quiesce.C149_count",
    "SST.Mpi.Quiesce.C149_since",
    "SST.Mpi.Quiesce.C149_busy",
    "SST.Mpi.Quiesce.C149_qos_partial",
    "SST.Mpi.Quiesce.C149_off",
    "SST.Mpi.Quiesce.C149_init_refuted",
    "SST.Mpi.Quiesce.C149_partner_refuted",
    "SST.Mpi.Quiesce.C149_header_refuted",
    "SST.Mpi.Quiesce.C149_stale_refuted",
    "SST.Mpi.Quiesce.C149_parallel_refuted"
   ],
   "note": "Count, busy time and choice proved for a counter that starts at 0 and messages since the process became busy; the uninitialised counter, the first header after a pause, headers at a quiet process and messages between simulation ranks are refuted."
  },
  {
   "property": "C150",
   "status": "partial",
   "theorems": [
    "Verif.Dumpi.Meta.C150_meta",
    "Verif.Dumpi.Meta.C150_number",
    "Verif.Dumpi.Meta.C150_folder",
    "Verif.Dumpi.Meta.C150_last_refuted",
    "Verif.Dumpi.Meta.C150_missing_refuted",
    "Verif.Dumpi.Meta.C150_equals_refuted",
    "Verif.Dumpi.Meta.C150_files_partial",
    "Verif.Dumpi.Meta.C150_found",
    "Verif.Dumpi.Meta.C150_shortest",
    "Verif.Dumpi.Meta.C150_mixed_refuted",
    "Verif.Dumpi.Meta.C150_long_refuted"
   ],
   "note": "Proved for settings on complete lines without further equals signs and for names of at most 254 characters; metafiles that lack one setting are accepted with an arbitrary number of ranks, a last line without its end is not read, two traces with one prefix are mixed and long prefixes share a file."
  },
  {
   "property": "C151",
   "status": "partial",
   "theorems": [
    "Verif.Stats.Vtk.C151_links_partial",
    "Verif.Stats.Vtk.C151_links_refuted",
    "Verif.Stats.Vtk.C151_filter",
    "Verif.Stats.Vtk.C151_ranges_partial",
    "Verif.Stats.Vtk.C151_ranges_refuted",
    "Verif.Stats.Vtk.C151_levels_partial",
    "Verif.Stats.Vtk.C151_levels_refuted",
    "Verif.Stats.Vtk.C151_colors_partial",
    "Verif.Stats.Vtk.C151_colors_refuted",
    "Verif.Stats.Vtk.C151_end_refuted"
   ],
   "note": "Identifiers proved below 65536 switches, levels for ordered thresholds, colours without a minimal interval; with one, the colours given are never used (current_color is never set), and the end aborts depending on memory."
  },
  {
   "property": "C152",
   "status": "partial",
   "theorems": [
    "Verif.Apps.Pic.C152_fill",
    "Verif.Apps.Pic.C152_pack",
    "Verif.Apps.Pic.C152_boxes_partial",
    "Verif.Apps.Pic.C152_boxes_refuted",
    "Verif.Apps.Pic.C152_partners",
    "Verif.Apps.Pic.C152_neighbours",
    "Verif.Apps.Pic.C152_sizes",
    "Verif.Apps.Pic.C152_parts_partial",
    "Verif.Apps.Pic.C152_parts_refuted",
    "Verif.Apps.Pic.C152_any_order",
    "Verif.Apps.Pic.C152_conserved",
    "Verif.Apps.Pic.C152_ends_partial",
    "Verif.Apps.Pic.C152_negative_refuted",
    "Verif.Apps.Pic.C152_initial",
    "Verif.Apps.Pic.C152_fractions_partial",
    "Verif.Apps.Pic.C152_fractions_refuted"
   ],
   "note": "Proved for all grids: partners and neighbours, matching of sizes, matching of particles in any order with three patches or more per dimension or if sizes are reported in order, conservation of particles over any number of exchanges, the end of each step for fractions up to a sixth, initial boxes, scrambled fractions. Refuted: particles of shared partners if sizes are reported in another order; the rest of incoming particles is in no box; boxes get negative without an abort; unscrambled fractions exceed the maximum. Fractions are exact ratios, not doubles."
  },
  {
   "property": "C153",
   "status": "partial",
   "theorems": [
    "Verif.Topo.Opa.C153_links_partial",
    "Verif.Topo.Opa.C153_links_refuted",
    "Verif.Topo.Opa.C153_part",
    "Verif.Topo.Opa.C153_shortened",
    "Verif.Topo.Opa.C153_ports_partial",
    "Verif.Topo.Opa.C153_ports_refuted",
    "Verif.Topo.Opa.C153_unlinked_refuted",
    "Verif.Topo.Opa.C153_keys_refuted",
    "Verif.Topo.Opa.C153_routes_partial",
    "Verif.Topo.Opa.C153_traced",
    "Verif.Topo.Opa.C153_visits_once",
    "Verif.Topo.Opa.C153_cycle_refuted",
    "Verif.Topo.Opa.C153_simulated_partial"
   ],
   "note": "Proved: exact links, ports and routes for snapshots with one cable per port and distinct names, LIDs and GUIDs; traces are exactly the routes of the tables, unique and without repeated devices; traced hops are those of the maps for the simulator. Refuted: two cables at a port give an asymmetric table; shortened names of two interfaces lose ports; a device without a cable stops the conversion; no flags give all keys that the file topology needs; forwarding cycles are traced for ever."
  },
  {
   "property": "C154",
   "status": "partial",
   "theorems": [
    "SST.Nic.Merlin.C154_order_partial",
    "SST.Nic.Merlin.C154_room_partial",
    "SST.Nic.Merlin.C154_acks_partial",
    "SST.Nic.Merlin.C154_safe_partial",
    "SST.Nic.Merlin.C154_received_partial",
    "SST.Nic.Merlin.C154_zero_mtu_refuted",
    "SST.Nic.Merlin.C154_large_mtu_refuted"
   ],
   "note": "Proved for every history, behaviour of the link and order of arrival, for an MTU from 1 to 2^29-1 bytes: order, wholeness and sizes of packets, packets sent per room, acknowledgements, safety of reports and receipt exactly once. Refuted beyond: an MTU of a multiple of 2^32 bytes is stored as zero and every message that is not empty is lost, and packets of 2^29 bytes or more have wrong sizes in bits so that their messages are never handed up."
  },
  {
   "property": "C155",
   "status": "partial",
   "theorems": [
    "Params.Core.C155_python_partial",
    "Params.Core.C155_round_trip_partial",
    "Params.Core.C155_flat_partial",
    "Params.Core.C155_node_values_partial",
    "Params.Core.C155_global_values_partial",
    "Params.Core.C155_switch_values_partial",
    "Params.Core.C155_apps_partial",
    "Params.Core.C155_topology_partial",
    "Params.Core.C155_shadowed_refuted",
    "Params.Core.C155_eleventh_app_refuted",
    "Params.Core.C155_topology_over_node_refuted",
    "Params.Core.C155_nested_topology_refuted"
   ],
   "note": "Proved for every input without a dot in a name, a dollar sign at the front of a value or a key that is also a namespace: lookups in Python, the round trip, dotted names of components, values of nodes and switches over global ones, applications 0 to 9, and the values of the topology. Refuted otherwise: a key that names a namespace too is lost, applications after the tenth never reach the nodes, values of the topology replace those of nodes under the same name, and namespaces inside the topology are dropped."
  },
  {
   "property": "C156",
   "status": "partial",
   "theorems": [
    "SST.Parallel.CoreLinks.C156_carries",
    "SST.Parallel.CoreLinks.C156_started_iff",
    "SST.Parallel.CoreLinks.C156_started_logp",
    "SST.Parallel.CoreLinks.C156_started",
    "SST.Parallel.CoreLinks.C156_names",
    "SST.Parallel.CoreLinks.C156_one_destination",
    "SST.Parallel.CoreLinks.C156_same_machine_partial",
    "SST.Parallel.CoreLinks.C156_nothing_else",
    "SST.Parallel.CoreLinks.C156_shared_port_refuted",
    "SST.Parallel.CoreLinks.C156_one_way_refuted",
    "SST.Parallel.CoreLinks.C156_latency_refuted",
    "SST.Parallel.CoreLinks.C156_runs",
    "SST.Parallel.CoreLinks.C156_torus",
    "SST.Parallel.CoreLinks.C156_hypercube",
    "SST.Parallel.CoreLinks.C156_full",
    "SST.Parallel.CoreLinks.C156_fat_tree",
    "SST.Parallel.CoreLinks.C156_dragonfly",
    "SST.Parallel.CoreLinks.C156_dragonfly_alltoall",
    "SST.Parallel.CoreLinks.C156_dragonfly_plus",
    "SST.Parallel.CoreLinks.C156_cascade",
    "SST.Parallel.CoreLinks.C156_torus_one_refuted"
   ],
   "note": "Names, ports, start-up and delivery are proved for every topology whose cables have two directions (C156_names, C156_started, C156_started_iff, C156_carries, C156_one_destination), equality with the wiring without SST core up to three latencies (C156_same_machine_partial, C156_nothing_else), and all library topologies are instances (C156_runs and C156_torus ... C156_cascade). Refuted: a node port numbered 1 shares the LogP port (C156_shared_port_refuted), one-way cables stop the components (C156_one_way_refuted), ejection has the injection latency and 1 ps credits (C156_latency_refuted), tori with a dimension of one switch (C156_torus_one_refuted). SST core itself is assumed."
  },
  {
   "property": "C157",
   "status": "partial",
   "theorems": [
    "SST.Apps.Boxml.C157_once",
    "SST.Apps.Boxml.C157_order",
    "SST.Apps.Boxml.C157_where",
    "SST.Apps.Boxml.C157_left",
    "SST.Apps.Boxml.C157_guard",
    "SST.Apps.Boxml.C157_progress",
    "SST.Apps.Boxml.C157_finish",
    "SST.Apps.Boxml.C157_bound",
    "SST.Apps.Boxml.C157_free_local_refuted",
    "SST.Apps.Boxml.C157_remote_refuted",
    "SST.Apps.Boxml.C157_iterator_refuted"
   ],
   "note": "Proved for every sound graph and every interleaving: once, order, place, counters, progress, completion and a bound on steps. Refuted: local messages without dependencies and dependencies across ranks make a rank wait for ever; the iterator over valid sends can be invalidated. Not modelled: collectives, epochs and the other synchronisation modes, event locks."
  },
  {
   "property": "C158",
   "status": "proved",
   "theorems": [
    "Verif.Apps.Lulesh.C158_waits_sum",
    "Verif.Apps.Lulesh.C158_waits_sync",
    "Verif.Apps.Lulesh.C158_waits_faces",
    "Verif.Apps.Lulesh.C158_recv_buffers",
    "Verif.Apps.Lulesh.C158_send_buffers",
    "Verif.Apps.Lulesh.C158_requests",
    "Verif.Apps.Lulesh.C158_align",
    "Verif.Apps.Lulesh.C158_position",
    "Verif.Apps.Lulesh.C158_sends",
    "Verif.Apps.Lulesh.C158_recvs",
    "Verif.Apps.Lulesh.C158_messages",
    "Verif.Apps.Lulesh.C158_fits",
    "Verif.Apps.Lulesh.C158_inside",
    "Verif.Apps.Lulesh.C158_collectives",
    "Verif.Apps.Lulesh.C158_agree",
    "Verif.Apps.Lulesh.C158_ends",
    "Verif.Apps.Lulesh.C158_cube"
   ],
   "note": "Proved for all cubes, sizes, steps and pairs of ranks: positions, messages and receives with their sizes and order, partners, waits, requests, disjoint places in the buffers, collectives and the end of every run. The number of steps is a parameter that all ranks share (it follows from the reduced time step); the values in the messages are not modelled; the waits of an exchange are one wait for all."
  },
  {
   "property": "C159",
   "status": "partial",
   "theorems": [
    "Verif.Apps.Comd.C159_cell",
    "Verif.Apps.Comd.C159_numbers",
    "Verif.Apps.Comd.C159_lists",
    "Verif.Apps.Comd.C159_planes",
    "Verif.Apps.Comd.C159_coord",
    "Verif.Apps.Comd.C159_rank",
    "Verif.Apps.Comd.C159_layer",
    "Verif.Apps.Comd.C159_neighbours",
    "Verif.Apps.Comd.C159_capacity_partial",
    "Verif.Apps.Comd.C159_capacity_refuted",
    "Verif.Apps.Comd.C159_pairs",
    "Verif.Apps.Comd.C159_fits",
    "Verif.Apps.Comd.C159_inside",
    "Verif.Apps.Comd.C159_ends"
   ],
   "note": "All but the capacity is proved for all grids, contents and schedules; the capacity of the buffers is refuted for grids with large faces in x (haloExchange.c:153-154 and :218-219 overwrite the maximum) and characterised exactly. The atoms of a cell are one value in the exchange of forces (the code relies on the same atoms in the same order on both sides); positions of atoms are real numbers and are not modelled."
  },
  {
   "property": "C160",
   "status": "proved",
   "theorems": [
    "Verif.Apps.Hpcg.C160_factors",
    "Verif.Apps.Hpcg.C160_counter",
    "Verif.Apps.Hpcg.C160_counter_ends",
    "Verif.Apps.Hpcg.C160_grid",
    "Verif.Apps.Hpcg.C160_grid_best",
    "Verif.Apps.Hpcg.C160_place"
   ],
   "note": "Numbers are unbounded: that int and double are large enough is not modelled (pow_i squares once more than needed, which overflows for a prime above 46340; the result of that squaring is not used), nor is the rounding of the square root: any bound whose square is above the number of processes is allowed for primality and the best grid, any bound at all for the product. The reading of 32 counts of which only the first are set is left out, they are not used. The matrix and its halo are not modelled."
  },
  {
   "property": "C161",
   "status": "partial",
   "theorems": [
    "Verif.Params.Keywords.C161_registered",
    "Verif.Params.Keywords.C161_unknown",
    "Verif.Params.Keywords.C161_order",
    "Verif.Params.Keywords.C161_order_refuted",
    "Verif.Params.Keywords.C161_suffix_refuted",
    "Verif.Params.Keywords.C161_validate",
    "Verif.Params.Keywords.C161_files"
   ],
   "note": "Partial because independence of order is false for names registered in both ways and numbered keywords with a digit in their name are rejected (refuted with witnesses); the rest is proved for all tables, names and paths. In this version no code calls validateKeyword, so that a misspelt keyword in a parameter file is not reported; namespaces are accepted always (keyword_registration.cc:75-79). The file system is a predicate on names."
  },
  {
   "property": "C162",
   "status": "partial",
   "theorems": [
    "Verif.Apps.Traffic.C162_ends",
    "Verif.Apps.Traffic.C162_traffic",
    "Verif.Apps.Traffic.C162_run",
    "Verif.Apps.Traffic.C162_shuffle",
    "Verif.Apps.Traffic.C162_accepted",
    "Verif.Apps.Traffic.C162_pairs",
    "Verif.Apps.Traffic.C162_roles",
    "Verif.Apps.Traffic.C162_nodes",
    "Verif.Apps.Traffic.C162_nodes_refuted",
    "Verif.Apps.Traffic.C162_seed_refuted",
    "Verif.Apps.Traffic.C162_messages",
    "Verif.Apps.Traffic.C162_count",
    "Verif.Apps.Traffic.C162_requests_partial",
    "Verif.Apps.Traffic.C162_requests_refuted",
    "Verif.Apps.Traffic.C162_flows_partial",
    "Verif.Apps.Traffic.C162_flows_refuted"
   ],
   "note": "Partial because the array of requests is too short for more than six senders to a receiver (skeletons/traffic/main.cc:206, with -b already for two) and flows of a file whose ranks are source and destination disagree; both are refuted with witnesses and the conditions under which they hold are proved, the first exactly. The seed for receivers is unused (main.cc:118), also proved. The end of all runs with pairs drawn from seeds is proved for a long enough array. The hash is arbitrary; numbers given as negative are left out, as are throughputs and their exchange, host names and the split communicators."
  }
 ]
}