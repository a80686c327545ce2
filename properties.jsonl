{"id": "C01", "title": "Adding a delay never moves simulated time backwards", "statement": "For every time point t and delay d, t + d is not before t, and adding d1 then d2 is the same as adding d1 + d2.", "quantifier": "all time points and all delays (64-bit tick counts)", "why_tests_cant": "2^128 operand pairs; the interesting ones sit at the wrap-around boundary that no simulation run reaches", "anchors": ["sstmac/common/timestamp.h: operator+(const Timestamp&, TimeDelta), Timestamp::carry_bits_mask"]}
{"id": "C02", "title": "Time comparison operators form one consistent total order", "statement": "For every pair of time points exactly one of a<b, a==b, a>b holds, a<=b is the same as (a<b or a==b), a>=b the same as (a>b or a==b), and < is transitive; so sorting events by time is well defined.", "quantifier": "all pairs / triples of time points, whatever epoch they are in", "why_tests_cant": "a single inconsistent pair in a 2^256 space breaks the ordering invariant of the event queue", "anchors": ["sstmac/common/timestamp.h: operator==, operator<, operator<=, operator>, operator>="]}
{"id": "C03", "title": "Time subtraction undoes time addition", "statement": "For every time point t and delay d for which t + d does not overflow, (t + d) - d = t and (t + d) - t = d.", "quantifier": "all time points and delays", "why_tests_cant": "64-bit arithmetic domain; the failing corner (t equal to the start of an epoch) is a measure-zero set of inputs", "anchors": ["sstmac/common/timestamp.h: operator-(const Timestamp&, const TimeDelta&), operator-(const Timestamp&, const Timestamp&)"]}
{"id": "C04", "title": "Events run in non-decreasing simulated time", "statement": "Whatever events are scheduled up front or by handlers while running, the sequence of executed events has non-decreasing arrival times and the clock observed through now() never decreases, in every run of a build with sanity checks that does not abort; a build without the checks behaves identically on all those runs.", "quantifier": "all event handlers (arbitrary functions scheduling arbitrary new events), all initial event sets, all horizons", "why_tests_cant": "quantifies over every handler program and every history of schedule calls", "anchors": ["sstmac/common/event_manager.cc: EventManager::schedule, EventManager::runEvents", "sstmac/common/event_manager.h: EventCompare"]}
{"id": "C05", "title": "Every scheduled event is executed exactly once", "statement": "When a run of a build with sanity checks finishes with an empty queue, without abort and without stop(), each event passed to schedule was executed exactly once: nothing is lost, nothing runs twice.", "quantifier": "all event sets, all handlers, all interleavings of schedule and run", "why_tests_cant": "needs a conservation argument over unbounded histories", "anchors": ["sstmac/common/event_manager.cc: EventManager::schedule, EventManager::runEvents"]}
{"id": "C06", "title": "Execution order does not depend on the order in which events were inserted", "statement": "Two queues filled with the same events in different orders execute them in the same order; ties at equal time are broken by link identity and then by per-link sequence number.", "quantifier": "all permutations of all event sets", "why_tests_cant": "n! insertion orders for every event set", "anchors": ["sstmac/common/event_manager.h: EventCompare", "sstmac/common/event_manager.cc: EventManager::schedule"]}
{"id": "C07", "title": "Scheduling in the past is rejected, never silently executed", "statement": "In a build with sanity checks a schedule call whose arrival time is before the current clock aborts; consequently no event is ever executed at a time earlier than the clock at which it was scheduled.", "quantifier": "all schedule calls in all histories", "why_tests_cant": "a safety property over all reachable clocks and all requested times", "anchors": ["sstmac/common/event_manager.cc: EventManager::schedule"]}
{"id": "C08", "title": "Events sent over one link at non-decreasing arrival times are delivered in send order", "statement": "If a component sends several events on one link so that their arrival times are non-decreasing, the receiver handles them in the order they were sent, whatever else is scheduled in between.", "quantifier": "all sequences of sends on a link, all other traffic", "why_tests_cant": "interleavings with arbitrary other traffic are unbounded", "anchors": ["sstmac/common/event_scheduler.cc: LocalLink::send, EventLink::send", "sstmac/common/event_manager.h: EventCompare"]}
{"id": "C09", "title": "Conservative parallel simulation never delivers an event into the past", "statement": "When simulated components are split over workers and every cross-worker link has latency at least the lookahead, no worker ever receives an event with an arrival time earlier than its own clock, so the scheduling abort cannot fire.", "quantifier": "all partitions, all handlers, all numbers of workers, all synchronisation rounds", "why_tests_cant": "schedules and partitions are unbounded; a violation is timing dependent", "anchors": ["sstmac/backends/native/clock_cycle_event_container.cc: ClockCycleEventMap::run", "sstmac/common/event_manager.cc: EventManager::runEvents, registerPending", "sstmac/common/event_scheduler.cc: setMinRemoteLatency, setMinThreadLatency"]}
{"id": "C10", "title": "Parallel simulation gives the same per-component history as serial simulation", "statement": "For the same components, links and initial events, every component sees exactly the same sequence of events at the same times in a partitioned conservative run as in a serial run.", "quantifier": "all component programs, all partitions, all worker counts, all horizons", "why_tests_cant": "equality of two unbounded executions for every program and partition", "anchors": ["sstmac/backends/native/clock_cycle_event_container.cc: ClockCycleEventMap::run", "sstmac/common/event_manager.cc: EventManager::runEvents"]}
{"id": "C11", "title": "Every worker thread takes part in the window synchronisation exactly once", "statement": "With n worker threads, the tree used to broadcast the window and to collect the minimum next-event time contains every thread exactly once, and the value the main thread obtains is the minimum over all threads.", "quantifier": "all thread counts n >= 1 and all per-thread next-event times", "why_tests_cant": "tests fix n to one or two small values", "anchors": ["sstmac/backends/native/multithreaded_event_container.cc: MultithreadedEventContainer::run, MultithreadedSubcontainer"]}
{"id": "C12", "title": "Serialization round-trip", "statement": "Packing a value of any supported type (integers, booleans, strings, vectors, lists, sets, maps, nested combinations) and unpacking the bytes yields the same value.", "quantifier": "all values of all supported types, any nesting depth", "why_tests_cant": "infinite value space, nested containers", "anchors": ["sprockit/sprockit/serializer.h: serializer::operator&", "sprockit/sprockit/serialize_string.h", "sprockit/sprockit/serialize_vector.h", "sprockit/sprockit/serialize_list.h", "sprockit/sprockit/serialize_set.h", "sprockit/sprockit/serialize_map.h"]}
{"id": "C13", "title": "The size pass predicts exactly the bytes packed and consumed", "statement": "For every value, the number of bytes reported by the sizing pass equals the number of bytes written by the packing pass and the number read by the unpacking pass.", "quantifier": "all values of all supported types", "why_tests_cant": "a mismatch for one rarely used shape corrupts a message stream", "anchors": ["sprockit/sprockit/serialize_sizer.h: ser_sizer", "sprockit/sprockit/serialize_packer.h: ser_packer", "sprockit/sprockit/serialize_unpacker.h: ser_unpacker", "sprockit/sprockit/serialize_array.h", "sprockit/sprockit/serializer.h: serializer::binary"]}
{"id": "C14", "title": "Packing and unpacking never step outside the supplied buffer", "statement": "Whatever the buffer size and contents (including truncated or corrupt input), packing or unpacking either stays inside the buffer or reports a buffer overrun; it never touches bytes beyond the end.", "quantifier": "all buffer sizes, all buffer contents, all access sequences", "why_tests_cant": "adversarial inputs are unbounded", "anchors": ["sprockit/sprockit/serialize_buffer_accessor.h: ser_buffer_accessor::next, next_str"]}
{"id": "C15", "title": "Concatenated messages unpack back to the same sequence", "statement": "Several values packed one after the other into one buffer unpack, in the same order, to the same values, regardless of what follows in the buffer.", "quantifier": "all sequences of values, all trailing bytes", "why_tests_cant": "requires the prefix property for every type", "anchors": ["sprockit/sprockit/serializer.h", "sstmac/backends/common/parallel_runtime.cc: ParallelRuntime::sendEvent, runSerialize"]}
{"id": "C16", "title": "Concurrent senders never overlap in the inter-process send buffer", "statement": "Whatever sizes the threads reserve and in whatever order their reservations take effect, the byte ranges handed out are pairwise disjoint, lie inside the buffer they were taken from, and after the merge step the send buffer holds every reserved byte.", "quantifier": "all sequences of reservation sizes, all initial capacities", "why_tests_cant": "interleavings and overflow points are unbounded", "anchors": ["sstmac/backends/common/parallel_runtime.cc: ParallelRuntime::CommBuffer::allocateSpace, copyToBackup, reset"]}
{"id": "C17", "title": "MPI messages between a pair of ranks do not overtake", "statement": "If a rank sends two messages to the same destination on the same communicator and both match a posted receive, the first-sent message matches first, whatever the order in which the network delivers them.", "quantifier": "all send sequences, all network delivery orders, all receive posting orders, all message sizes", "why_tests_cant": "delivery orders are unbounded; failure needs a particular mix of protocols and arrivals", "anchors": ["sumi-mpi/mpi_queue/mpi_queue.cc: MpiQueue::incomingPt2ptMessage, handlePt2ptMessage, findMatchingRecv", "sumi-mpi/mpi_protocol/eager1.cc"]}
{"id": "C18", "title": "Out-of-order arrivals are released in send order, exactly once", "statement": "For each sender, messages that arrive in any order are handed to the matching engine in send order, each exactly once, and none is withheld once all its predecessors have arrived.", "quantifier": "all arrival permutations for all numbers of messages and senders", "why_tests_cant": "n! arrival orders", "anchors": ["sumi-mpi/mpi_queue/mpi_queue.cc: MpiQueue::incomingPt2ptMessage", "sumi-mpi/mpi_queue/mpi_queue.h: next_inbound_, held_"]}
{"id": "C19", "title": "Each message matches at most one receive and each receive at most one message", "statement": "In any history of posts and arrivals, a message is paired with at most one receive and a receive with at most one message, nothing is dropped, and no unmatched compatible pair is left waiting in the queues.", "quantifier": "all interleavings of posted receives and arrivals", "why_tests_cant": "history property over unbounded sequences", "anchors": ["sumi-mpi/mpi_queue/mpi_queue.cc: MpiQueue::findMatchingRecv (both overloads), recv", "sumi-mpi/mpi_queue/mpi_queue_recv_request.cc: matches, isCancelled"]}
{"id": "C20", "title": "Receive matching follows communicator, source and tag with wildcards", "statement": "A message is matched to a receive only if communicators agree, the source equals the requested source or MPI_ANY_SOURCE was given, and the tag equals the requested tag or MPI_ANY_TAG was given; of several matching messages the earliest queued is taken, and of several matching receives the earliest posted.", "quantifier": "all receives, all messages, all queue contents", "why_tests_cant": "unbounded queue contents", "anchors": ["sumi-mpi/mpi_queue/mpi_queue_recv_request.cc: MpiQueueRecvRequest::matches", "sumi-mpi/mpi_queue/mpi_queue.cc: findMatchingRecv"]}
{"id": "C21", "title": "Protocol choice is determined by message size alone and covers every size", "statement": "Every message length selects exactly one transfer protocol, with the thresholds ordered: very short, eager, rendezvous; a longer message never selects a 'shorter' protocol than a shorter one.", "quantifier": "all message lengths and all threshold settings", "why_tests_cant": "64-bit size domain and arbitrary user-set thresholds", "anchors": ["sumi-mpi/mpi_queue/mpi_queue.cc: MpiQueue::send"]}
{"id": "C22", "title": "Waitany/waitsome/testall/waitall report exactly the completed requests", "statement": "For every array of requests (including null ones), waitsome/testsome return each completed request exactly once with its own status, waitany returns an index of a completed request, testall reports true iff all are complete and otherwise leaves requests untouched.", "quantifier": "all request arrays and all completion states", "why_tests_cant": "2^n completion patterns for every n", "anchors": ["sumi-mpi/mpi_api_wait.cc: MpiApi::waitany, waitsome, waitall", "sumi-mpi/mpi_api_test.cc: MpiApi::test, testall, testany, testsome"]}
{"id": "C23", "title": "Group operations preserve rank identity", "statement": "A group built by including a list of ranks (or ranges) has the size of the list, its i-th member is the process of the i-th listed rank, and rank translation between two groups maps a rank to the rank of the same process in the other group or to undefined if absent.", "quantifier": "all groups, all rank lists and range triples", "why_tests_cant": "arbitrary lists and strides", "anchors": ["sumi-mpi/mpi_api_group.cc: groupIncl, groupRangeIncl, groupTranslateRanks", "sumi-mpi/mpi_comm/mpi_group.cc: MpiGroup::translateRanks, rankOfTask, at"]}
{"id": "C24", "title": "MPI_Comm_split partitions the parent communicator", "statement": "Every process that supplies a valid color lands in exactly one new communicator, which contains exactly the processes with that color, ordered by key and then by parent rank; all its members compute the same membership and the same id.", "quantifier": "all communicator sizes, all color and key assignments", "why_tests_cant": "every assignment of colors and keys", "anchors": ["sumi-mpi/mpi_comm/mpi_comm_factory.cc: MpiCommFactory::commSplit, commNewIdAgree"]}
{"id": "C25", "title": "Cartesian coordinates and ranks are inverse", "statement": "For a Cartesian communicator with any dimensions, converting a rank to coordinates and back is the identity, and converting in-range coordinates to a rank and back is the identity; the rank is within the communicator.", "quantifier": "all dimension vectors, all ranks, all coordinates", "why_tests_cant": "every number of dimensions and every extent", "anchors": ["sumi-mpi/mpi_comm/mpi_comm_cart.cc: MpiCommCart::set_coords, MpiCommCart::rank"]}
{"id": "C26", "title": "Cartesian shift returns the neighbour at the given displacement", "statement": "MPI_Cart_shift with any displacement returns, in a periodic dimension, the rank whose coordinate is displaced modulo the extent, and in a non-periodic dimension MPI_PROC_NULL outside the grid.", "quantifier": "all extents, all displacements (any sign and size), all coordinates", "why_tests_cant": "failure only for displacements below minus the extent", "anchors": ["sumi-mpi/mpi_comm/mpi_comm_cart.cc: MpiCommCart::shift"]}
{"id": "C27", "title": "Concurrent collectives never share a tag", "statement": "Two collectives on different communicators, or two different collectives on the same communicator that can be outstanding at the same time, use different tags.", "quantifier": "all communicator ids and all numbers of collectives issued", "why_tests_cant": "wrap-around after 2^16 collectives", "anchors": ["sumi-mpi/mpi_comm/mpi_comm.cc: MpiComm::nextCollectiveTag"]}
{"id": "C28", "title": "Derived datatypes pack and unpack the bytes they describe", "statement": "For every derived datatype, packing a buffer and unpacking it into another buffer copies exactly the bytes that the type map describes and leaves the other bytes alone.", "quantifier": "all vector/indexed/contiguous/struct types, all buffers", "why_tests_cant": "unbounded type constructors", "anchors": ["sumi-mpi/mpi_types/mpi_type.cc: MpiType::pack_action, packSend, unpackRecv"]}
{"id": "C29", "title": "Allgather delivers every contribution to every rank", "statement": "After an allgather, with either built-in algorithm, every rank holds the concatenation of all contributions in rank order.", "quantifier": "all communicator sizes n >= 1, all block sizes, all contributions", "why_tests_cant": "tests cover a few n; non-powers of two and partial last rounds matter", "anchors": ["sumi/allgather.cc: BruckActor::initDag, finalizeBuffers, RingAllgather::initDag"]}
{"id": "C30", "title": "Allreduce gives every rank the reduction of all contributions", "statement": "After an allreduce with an associative and commutative operation every rank holds the reduction of all n contributions, each counted exactly once.", "quantifier": "all communicator sizes, all element counts, all operations", "why_tests_cant": "non-power-of-two sizes use virtual ranks; element counts smaller than n use empty blocks", "anchors": ["sumi/allreduce.cc: WilkeAllreduceActor::initDag", "sumi/collective_actor.cc: RecursiveDoubling::computeTree"]}
{"id": "C31", "title": "Broadcast reaches every rank exactly once from the root", "statement": "After a broadcast every rank holds the root's data, every non-root rank receives exactly one message, and the number of messages is n-1.", "quantifier": "all communicator sizes, all roots", "why_tests_cant": "every n and root", "anchors": ["sumi/bcast.cc: BinaryTreeBcastActor::initDag"]}
{"id": "C32", "title": "Gather and scatter place every block at its rank's position", "statement": "After a gather the root holds every rank's block at that rank's offset; after a scatter every rank holds its own block of the root's buffer.", "quantifier": "all communicator sizes, all roots, all block sizes", "why_tests_cant": "non-powers of two and non-zero roots", "anchors": ["sumi/gather.cc: BtreeGatherActor", "sumi/scatter.cc: BtreeScatterActor"]}
{"id": "C33", "title": "Reduce gives the root the reduction of all contributions", "statement": "After a reduce the root holds the reduction of every rank's contribution, each counted exactly once.", "quantifier": "all communicator sizes, all roots, all element counts", "why_tests_cant": "as for allreduce", "anchors": ["sumi/reduce.cc: WilkeReduceActor::initDag"]}
{"id": "C34", "title": "Alltoall transposes the block matrix", "statement": "After an alltoall block j of rank i's send buffer is block i of rank j's receive buffer.", "quantifier": "all communicator sizes, all block sizes", "why_tests_cant": "the number of rounds and the blocks moved depend on the binary expansion of n", "anchors": ["sumi/alltoall.cc: BruckAlltoallActor, DirectAlltoallActor"]}
{"id": "C35", "title": "Scan gives rank r the prefix reduction over ranks 0..r", "statement": "After a scan, rank r holds the reduction of the contributions of ranks 0 to r, each counted exactly once, in rank order.", "quantifier": "all communicator sizes, all operations", "why_tests_cant": "all n", "anchors": ["sumi/scan.cc: SimultaneousBtreeScanActor::initDag"]}
{"id": "C36", "title": "A collective's dependency graph runs every action exactly once and then reports completion once", "statement": "Each action of a collective starts only when all its dependencies have completed, each starts exactly once, and completion is signalled exactly once, after all actions are done, for every order in which completions arrive.", "quantifier": "all dependency graphs, all completion orders", "why_tests_cant": "orders are factorially many", "anchors": ["sumi/collective_actor.cc: DagCollectiveActor::addDependency, clearAction, clearDependencies, checkCollectiveDone, addAction"]}
{"id": "C37", "title": "Collective action identifiers are unique and decodable", "statement": "Within one collective, two actions with different type, round or partner have different identifiers, and the identifier determines all three.", "quantifier": "all action types, rounds and partners", "why_tests_cant": "the packing arithmetic has an implicit bound on rounds", "anchors": ["sumi/collective_actor.h: Action::messageId, Action::details"]}
{"id": "C38", "title": "Every virtual rank is owned by exactly one real rank", "statement": "The map from virtual to real ranks used for non-power-of-two collectives assigns each virtual rank to exactly one existing rank, and a rank's list of virtual ranks is exactly the set assigned to it.", "quantifier": "all communicator sizes", "why_tests_cant": "all n", "anchors": ["sumi/collective_actor.cc: VirtualRankMap::virtualToReal, realToVirtual"]}
{"id": "C39", "title": "Switch ids and coordinates are in bijection", "statement": "For every topology, converting a switch id to coordinates and back is the identity on all switches, in-range coordinates give an in-range id, and distinct coordinates give distinct ids.", "quantifier": "all topology shapes (any number and size of dimensions, groups, rows)", "why_tests_cant": "shape space is infinite", "anchors": ["sstmac/hardware/topology/torus.h: Torus class; sstmac/hardware/topology/torus.cc:190-213 switchCoords, switchAddr", "sstmac/hardware/topology/dragonfly.h: getCoords, getUid", "sstmac/hardware/topology/cascade.h", "sstmac/hardware/topology/dragonfly_plus.h"]}
{"id": "C40", "title": "Torus links are wired symmetrically and fill each port once", "statement": "In a torus, whenever port p of switch s is connected to input q of switch d, port q of d is connected to input p of s, no two links share a port, and the link goes to the neighbouring coordinate with wrap-around.", "quantifier": "all torus shapes, all switches, all ports", "why_tests_cant": "shape space is infinite; degenerate extents (1, 2) matter", "anchors": ["sstmac/hardware/topology/torus.cc: Torus::connectedOutports"]}
{"id": "C41", "title": "Minimal torus routing always reaches the destination, by a shortest path", "statement": "Following the minimal router from any source switch always reaches the destination switch in exactly the number of hops reported by the topology's minimal distance, which is the graph distance, and never exceeds the diameter.", "quantifier": "all torus shapes, all source/destination pairs", "why_tests_cant": "all shapes and pairs", "anchors": ["sstmac/hardware/router/torus_routing.cc: TorusMinimalRouter::route", "sstmac/hardware/topology/torus.cc: Torus::minimalDistance, shortestDistance, torusDim"]}
{"id": "C42", "title": "Minimal torus routing is free of channel-dependency cycles", "statement": "With the virtual channels the minimal router assigns (switching at the date line), the channel dependency graph induced by all routes is acyclic, so credit-based flow control cannot deadlock.", "quantifier": "all torus shapes, all sets of routes", "why_tests_cant": "cycles may need many simultaneous flows", "anchors": ["sstmac/hardware/router/torus_routing.cc: TorusMinimalRouter::upPath, downPath, route"]}
{"id": "C43", "title": "Hypercube (generalised) routing reaches the destination one coordinate at a time", "statement": "In a hypercube topology the minimal router reaches the destination in exactly as many hops as coordinates differ, and links are symmetric.", "quantifier": "all shapes, all pairs", "why_tests_cant": "all shapes and pairs", "anchors": ["sstmac/hardware/router/hypercube_routing.cc", "sstmac/hardware/topology/hypercube.cc"]}
{"id": "C44", "title": "Fat-tree up and down links agree", "statement": "In a three-level fat tree, the switch and port at the far end of any up link report that same link as a down link back.", "quantifier": "all legal fat-tree parameter sets, all switches, all ports", "why_tests_cant": "parameter space is infinite", "anchors": ["sstmac/hardware/topology/fat_tree.cc: FatTree::connectedOutports, FatTree::checkInput"]}
{"id": "C45", "title": "Fat-tree routing reaches every destination within four hops", "statement": "From any leaf to any other leaf, the fat-tree router goes up at most two levels and down at most two and ends at the destination switch, whatever choices its load balancing makes.", "quantifier": "all legal parameter sets, all source/destination pairs, all load-balancing states", "why_tests_cant": "all shapes and rotation states", "anchors": ["sstmac/hardware/router/fat_tree_router.cc: FatTreeRouter::route", "sstmac/hardware/topology/fat_tree.cc"]}
{"id": "C46", "title": "Dragonfly global links are wired consistently", "statement": "For every group wiring, if a switch's global port leads to an input port of another switch, the other switch's corresponding output leads back, and no input port is used twice.", "quantifier": "all dragonfly shapes and wirings, all switches, all global ports", "why_tests_cant": "parameter space is infinite, parity matters", "anchors": ["sstmac/hardware/topology/dragonfly.cc: InterGroupWiring (single, circulant, alltoall) connectedRouters, inputGroupPort"]}
{"id": "C47", "title": "Dragonfly minimal routing uses at most one global and two local hops", "statement": "The dragonfly minimal router reaches any destination in at most three hops (local, global, local) and the virtual channel index never exceeds the number of channels it declared.", "quantifier": "all shapes with connected wiring, all pairs", "why_tests_cant": "all shapes and pairs", "anchors": ["sstmac/hardware/router/dragonfly_routing.cc: DragonflyMinimalRouter::route, routeToGroup"]}
{"id": "C48", "title": "Topology distance reports are truthful", "statement": "The minimal distance a topology reports between two switches equals the length of a shortest path in the wiring it reports.", "quantifier": "all topologies, shapes and pairs", "why_tests_cant": "all shapes and pairs", "anchors": ["sstmac/hardware/topology/torus.cc: minimalDistance", "sstmac/hardware/topology/hypercube.cc: minimalDistance", "sstmac/hardware/topology/dragonfly.cc: minimalDistance", "sstmac/hardware/topology/fat_tree.h: FatTree::minimalDistance", "sstmac/hardware/topology/fully_connected.h: FullyConnected::minimalDistance"]}
{"id": "C49", "title": "Node addresses and injection ports agree", "statement": "For every topology with concentration c, the nodes attached to switches partition the node ids, the switch reported for a node lists that node among its own, and the injection port numbers of a switch are disjoint from its network ports.", "quantifier": "all shapes and concentrations", "why_tests_cant": "all shapes", "anchors": ["sstmac/hardware/topology/structured_topology.h: endpointToSwitch, endpointsConnectedToInjectionSwitch", "sstmac/hardware/topology/topology.cc: injectionPorts"]}
{"id": "C50", "title": "Credits are conserved and receive buffers never overflow", "statement": "On every link the credits held by the sender plus the bytes in flight, buffered or being credited back always equal the buffer size, so the receiver never holds more bytes than its buffer.", "quantifier": "all packet sizes, all arrival orders, all virtual channels, all histories", "why_tests_cant": "unbounded histories", "anchors": ["sstmac/hardware/pisces/pisces_buffer.cc: PiscesBuffer::handlePayload, handleCredit", "sstmac/hardware/pisces/pisces_crossbar.cc: PiscesNtoMQueue", "sstmac/hardware/snappr/snappr_outport.cc: FifoPortArbitrator, WRR_PortArbitrator"]}
{"id": "C51", "title": "Packets on one virtual channel keep their order", "statement": "Packets handed to one output buffer on one virtual channel leave in the order they were handed in.", "quantifier": "all packet sizes, all credit return patterns", "why_tests_cant": "overtaking needs a particular mix of sizes and credit levels", "anchors": ["sstmac/hardware/pisces/pisces_buffer.cc: PayloadQueue::pop", "sstmac/hardware/snappr/snappr_outport.cc: FifoPortArbitrator"]}
{"id": "C52", "title": "A message is delivered exactly once, when all its bytes have arrived", "statement": "Whatever order the packets of any number of interleaved messages arrive in, the completion queue returns each message exactly once, on the arrival of its last missing byte.", "quantifier": "all packetisations, all interleavings and permutations", "why_tests_cant": "factorially many arrival orders", "anchors": ["sstmac/hardware/common/recv_cq.cc: RecvCQ::recv"]}
{"id": "C53", "title": "Packetisation covers every message exactly", "statement": "Splitting a message into packets of at most the MTU yields packets whose lengths add up to the message length, each at most the MTU, with exactly one tail packet, and stopping for lack of credits and resuming later yields the same packets.", "quantifier": "all message sizes, all MTUs, all stop/resume points", "why_tests_cant": "all sizes and interruption points", "anchors": ["sstmac/hardware/pisces/pisces_nic.cc: PiscesNIC::inject, packetSent, doSend", "sstmac/hardware/snappr/snappr_nic.cc: SnapprNIC::copyToNicBuffer"]}
{"id": "C54", "title": "A link never transmits two packets at once", "statement": "Transmission intervals that the bandwidth arbitrator assigns on one link never overlap and respect first-come-first-served order, and each lasts size divided by bandwidth.", "quantifier": "all arrival times and packet sizes", "why_tests_cant": "unbounded histories", "anchors": ["sstmac/hardware/pisces/pisces_arbitrator.cc: PiscesSimpleArbitrator::arbitrate", "sstmac/hardware/snappr/snappr_outport.cc: SnapprOutPort::send"]}
{"id": "C55", "title": "Injection queues never lose or duplicate a message", "statement": "Messages given to a NIC's injection queue are all eventually taken from it exactly once, whatever the policy (FIFO, round robin, priority).", "quantifier": "all numbers of queued messages, all packet interleavings", "why_tests_cant": "failure needs more outstanding messages than the hidden capacity", "anchors": ["sstmac/hardware/snappr/snappr_nic.cc: FIFOQueue, RoundRobinQueue, PriorityFIFOQueue"]}
{"id": "C56", "title": "At most one thread holds a simulated mutex, and waiters are served in order", "statement": "In every history of lock, trylock and unlock calls, at most one thread is inside the critical section at any time, blocked threads acquire the mutex in the order they blocked, and unlocking with waiters hands the mutex to the first.", "quantifier": "all thread counts, all call histories", "why_tests_cant": "unbounded interleavings", "anchors": ["sstmac/libraries/pthread/sstmac_pthread.cc: SSTMAC_pthread_mutex_lock, SSTMAC_pthread_mutex_trylock, SSTMAC_pthread_mutex_unlock"]}
{"id": "C57", "title": "Cores are never oversubscribed", "statement": "At any time the cores held by running threads number at most the cores of the node, and no core is held by two threads.", "quantifier": "all reserve/release histories, all core counts and cpu masks", "why_tests_cant": "unbounded histories", "anchors": ["sstmac/software/process/simple_compute_scheduler.cc: reserveCores, releaseCores", "sstmac/software/process/cpuset_compute_scheduler.cc: allocateCores, releaseCores"]}
{"id": "C58", "title": "A node is allocated to at most one job at a time", "statement": "In every history of job starts and stops, the node sets of running jobs are disjoint and disjoint from the free set, and a stopped job's nodes become free again.", "quantifier": "all job mixes and allocation policies", "why_tests_cant": "unbounded histories", "anchors": ["sstmac/software/launch/job_launcher.cc: DefaultJoblauncher::handleLaunchRequest, JobLauncher::cleanupApp", "sstmac/software/launch/first_available_allocation.cc: FirstAvailableAllocation::allocate"]}
{"id": "C59", "title": "Every rank of a job is mapped to an allocated node within the per-node limit", "statement": "A task mapper assigns each of the nproc ranks to exactly one node of the allocation, and no node gets more than ppn ranks.", "quantifier": "all nproc, ppn and node sets accepted by validation", "why_tests_cant": "all combinations; remainders matter", "anchors": ["sstmac/software/launch/block_task_mapper.cc: mapRanks", "sstmac/software/launch/round_robin_task_mapper.cc: mapRanks", "sstmac/software/launch/random_task_mapper.cc: mapRanks", "sstmac/software/launch/task_mapper.cc: validateNproc"]}
{"id": "C60", "title": "The job start message reaches every rank exactly once", "statement": "Starting at rank 0, forwarding the start message along the launch tree reaches each of the n ranks exactly once, with at most ceil(log2 n) sends per rank.", "quantifier": "all n >= 1", "why_tests_cant": "all n", "anchors": ["sstmac/software/launch/job_launcher.h: OutcastIterator::forward_to", "sstmac/software/process/operating_system.cc: outcastAppStart"]}
{"id": "C61", "title": "Node allocators return the requested number of distinct free nodes", "statement": "First-available, random, strided and greedy dragonfly allocation return exactly the requested number of distinct nodes, all taken from the available set, or report failure.", "quantifier": "all available sets, all request sizes", "why_tests_cant": "all sets", "anchors": ["sstmac/software/launch/first_available_allocation.cc: allocate", "sstmac/software/launch/random_allocation.cc: allocate", "sstmac/software/launch/stride_allocation.cc: allocate"]}
{"id": "C62", "title": "The switch partition covers all workers within range and is balanced", "statement": "Block partitioning assigns every switch to exactly one existing (process, thread) pair, contiguously, with part sizes differing by at most one block.", "quantifier": "all switch, process and thread counts", "why_tests_cant": "all counts; non-divisible cases", "anchors": ["sstmac/backends/common/sim_partition.cc: BlockPartition, OccupiedBlockPartition"]}
{"id": "C63", "title": "Process grid generation factors the process count", "statement": "For every n >= 1 the generated three-dimensional grid (x, y, z) has x*y*z = n with all extents positive.", "quantifier": "all n >= 1", "why_tests_cant": "all n; depends on the prime factorisation", "anchors": ["sstmac/common/cartgrid.cc: genCartGrid, primefactor_i"]}
{"id": "C64", "title": "Shuffles are permutations", "statement": "Random shuffling of fewer than 2^32 elements permutes its input: no element is lost or duplicated, whatever the random numbers drawn.", "quantifier": "all sequences and all random streams", "why_tests_cant": "n! outcomes", "anchors": ["sstmac/common/rng.h: detail::deterministic_shuffle"]}
{"id": "C65", "title": "Time accounting per epoch conserves time", "statement": "When activity intervals are distributed over fixed-length epochs, the amounts credited to all epochs add up to the interval length, no epoch gets more than its length from one interval, and every credited epoch exists in the output.", "quantifier": "all intervals and epoch lengths", "why_tests_cant": "boundary cases where an interval ends on an epoch boundary", "anchors": ["sstmac/common/stats/ftq.cc: FTQOutput::dump"]}
{"id": "C66", "title": "A packet is never held while it could be sent", "statement": "After every event at an output buffer or port arbitrator, no waiting packet at the head of a virtual channel has enough credits to be sent.", "quantifier": "all histories of packets and credits", "why_tests_cant": "lost wake-ups depend on the exact credit amounts", "anchors": ["sstmac/hardware/pisces/pisces_buffer.cc: PiscesBuffer::handleCredit", "sstmac/hardware/pisces/pisces_crossbar.cc: PiscesNtoMQueue::handleCredit", "sstmac/hardware/snappr/snappr_outport.cc: addCredits"]}
{"id": "C67", "title": "Items put into a completion queue are consumed exactly once in order", "statement": "Items delivered to a progress queue are handed to callers in arrival order, each once, and a caller blocked on an empty queue is woken when an item arrives.", "quantifier": "all interleavings of producers and blocked consumers", "why_tests_cant": "unbounded interleavings", "anchors": ["sstmac/software/process/progress_queue.h: SingleProgressQueue, MultiProgressQueue"]}
{"id": "C68", "title": "Rounding-up division of delays is exact", "statement": "Dividing one delay by another with rounding up returns the smallest whole number of the second that covers the first.", "quantifier": "all pairs of delays with a non-zero divisor", "why_tests_cant": "64-bit operand space; failures only above 2^32 ticks", "anchors": ["sstmac/common/timestamp.h: TimeDelta::divideUp"]}
{"id": "C69", "title": "A bounded run executes exactly the events before its horizon", "statement": "Running the simulation up to a horizon executes only events strictly earlier than the horizon, and when it returns every event still pending is at or after the horizon; the reported next time is the earliest of all pending and outgoing events.", "quantifier": "all handlers, all histories before the run, all horizons", "why_tests_cant": "the boundary case is one exact tick, for unbounded event histories", "anchors": ["sstmac/common/event_manager.cc: EventManager::runEvents"]}
{"id": "C70", "title": "An immediate probe reports exactly what a receive would get", "statement": "MPI_Iprobe with some source, tag and communicator reports a message exactly when a receive with the same arguments posted instead would be matched at once, and the message it describes is the one that receive would get.", "quantifier": "all queue contents, all arguments", "why_tests_cant": "unbounded queue contents and argument combinations", "anchors": ["sumi-mpi/mpi_queue/mpi_queue.cc: MpiQueue::iprobe, findMatchingRecv"]}
{"id": "C71", "title": "Allgather with a count per rank concatenates the contributions", "statement": "After an allgather in which every rank gives its own number of elements, every rank holds all contributions one after the other in rank order, with separate buffers and in place.", "quantifier": "all communicator sizes, all lists of counts (zero included), all message delays", "why_tests_cant": "offsets depend on the counts of wrapped-around neighbours", "anchors": ["sumi/allgatherv.cc: BruckAllgathervActor", "sumi/allgatherv.h: BruckAllgathervActor"]}
{"id": "C72", "title": "Valiant and UGAL torus routing always delivers", "statement": "Under Valiant or UGAL routing on a torus, a packet reaches its node within twice the diameter on the declared virtual channels, whichever intermediate switch is drawn and whatever the queue lengths are.", "quantifier": "all torus shapes, sources, destinations, random draws and queue states", "why_tests_cant": "the draw and the queue lengths differ on every run; a test sees a few of exponentially many routes", "anchors": ["sstmac/hardware/router/torus_routing.cc: TorusValiantRouter::route, TorusUGALRouter::route, getIntermediate"]}
{"id": "C73", "title": "Valiant torus routing is free of channel-dependency cycles", "statement": "With the virtual channels the Valiant router assigns, no set of packets can wait for each other in a circle.", "quantifier": "all torus shapes and sets of packets in flight", "why_tests_cant": "a deadlock needs a particular set of simultaneous routes; runs that do not meet it pass", "anchors": ["sstmac/hardware/router/torus_routing.cc: TorusValiantRouter::route"]}
{"id": "C74", "title": "Progressive adaptive hypercube routing delivers and cannot deadlock", "statement": "On a three-dimensional hypercube the adaptive router delivers every packet within six hops on its six virtual channels, and no packets can wait for each other in a circle, whatever is drawn and whatever the queue lengths are.", "quantifier": "all cube shapes, sources, destinations, draws and queue states", "why_tests_cant": "adaptive choices depend on load; a test covers a few", "anchors": ["sstmac/hardware/router/hypercube_routing.cc: HypercubeParRouter::route"]}
{"id": "C75", "title": "Fully connected and star networks deliver in one hop", "statement": "On a fully connected network every packet takes one link to the switch of its node (none if it starts there) and leaves through that node's port, on the single declared virtual channel, and packets cannot wait for each other in a circle; on a star every packet leaves through its node's port at once. The node ports of a switch are disjoint from its link ports, and every link has a link back.", "quantifier": "all network sizes, concentrations, pairs of switch and node", "why_tests_cant": "unbounded sizes; a test runs a few shapes", "anchors": ["sstmac/hardware/topology/fully_connected.cc: FullyConnected", "sstmac/hardware/topology/star.cc: Star", "sstmac/hardware/router/router.cc: FullyConnectedMinimalRouter, StarMinimalRouter"]}
{"id": "C76", "title": "Only messages up to the configured size bypass the network", "statement": "A message between two nodes takes the contention-free overlay exactly when its length is at most the configured negligible size; every longer message goes through the network model.", "quantifier": "all message lengths and thresholds", "why_tests_cant": "tests use lengths far below 2^31; the lengths that go wrong are narrowed to 32 bits", "anchors": ["sstmac/hardware/nic/nic.cc: NIC::internodeSend", "sstmac/hardware/nic/nic.h: NIC::negligibleSize"]}
{"id": "C77", "title": "A port accounts for all its time and its checks never fail", "statement": "For every sequence of packets and credits at an output port, no internal consistency check aborts, no empty queue is read, and the reported active, idle and stalled times plus the flit overheads add up to the time until the link is free.", "quantifier": "all packets, credits and times, both port arbitrators", "why_tests_cant": "the checks depend on the interleaving of packet, credit and arbitration events", "anchors": ["sstmac/hardware/snappr/snappr_outport.cc: SnapprOutPort::send, arbitrate, requestArbitration, scheduleArbitration, handleCredit, tryToSendPacket"]}
{"id": "C78", "title": "A lane with a bandwidth limit never exceeds it", "statement": "Under the weighted round robin arbitrator, a virtual lane configured with a maximum share of the link never sends faster than that share over a long interval.", "quantifier": "all packet and credit sequences", "why_tests_cant": "tests with competing traffic see the limit respected; the excess appears when the other lanes are idle", "anchors": ["sstmac/hardware/snappr/snappr_outport.cc: WRR_PortArbitrator::pop, advanceBandwidthMax"]}
{"id": "C79", "title": "The cut-through arbitrator never aborts and never gives a cycle away twice", "statement": "For every sequence of packets the cut-through bandwidth arbitrator finds free cycles for the packet, keeps its free intervals in order and apart, and lets the tail of a packet leave no earlier than its head.", "quantifier": "all arrival times, sizes and arrival rates", "why_tests_cant": "the failure needs rounding errors that build up over several packets of different rates", "anchors": ["sstmac/hardware/pisces/pisces_arbitrator.cc: PiscesCutThroughArbitrator::arbitrate, clearOut, advance"]}
{"id": "C80", "title": "A thread woken from a condition wait holds the mutex alone", "statement": "When a condition variable is signalled, a waiting thread continues only once it alone holds the mutex; signalling without waiters does nothing.", "quantifier": "all thread counts, all histories of lock, unlock, wait and signal calls", "why_tests_cant": "whether two threads overlap depends on what the signalling thread does between the signal and its unlock", "anchors": ["sstmac/libraries/pthread/sstmac_pthread.cc: SSTMAC_pthread_cond_timedwait, SSTMAC_pthread_cond_signal"]}
{"id": "C81", "title": "A once-routine runs once", "statement": "However often pthread_once is called with the same control variable, its routine runs exactly once.", "quantifier": "all numbers of calls", "why_tests_cant": "a routine that can be repeated without effect hides the repetition", "anchors": ["sstmac/libraries/pthread/sstmac_pthread.cc: SSTMAC_pthread_once"]}
{"id": "C82", "title": "A write lock excludes others", "statement": "While a thread holds a reader-writer lock for writing, no other thread gets it.", "quantifier": "all thread counts and histories", "why_tests_cant": "tests without contention pass", "anchors": ["sstmac/libraries/pthread/sstmac_pthread.cc: SSTMAC_pthread_rwlock_wrlock, SSTMAC_pthread_rwlock_rdlock"]}
{"id": "C83", "title": "No thread waits for cores that are free", "statement": "A thread waiting for k cores waits only while fewer than k of the cores it may use are free, or while a thread woken earlier is about to take them.", "quantifier": "all reserve/release histories, core counts and cpu masks", "why_tests_cant": "lost wake-ups need a particular order of requests and releases", "anchors": ["sstmac/software/process/simple_compute_scheduler.cc: reserveCores, releaseCores", "sstmac/software/process/cpuset_compute_scheduler.cc: releaseCores, reserveCores"]}
{"id": "C84", "title": "Threads run only on cores of their cpu mask", "statement": "With the cpuset scheduler a reservation gives a thread exactly the requested number of cores, all in its cpu mask.", "quantifier": "all masks, core counts and histories", "why_tests_cant": "masks with the highest cores are rarely tried", "anchors": ["sstmac/software/process/cpuset_compute_scheduler.cc: allocateCores", "sstmac/software/process/thread.h: addCore"]}
{"id": "C85", "title": "The exclusive launcher runs one job at a time in request order", "statement": "With the exclusive job launcher jobs start in the order of their requests, a job starts only after the stop notice of the previous one, and none waits while none runs.", "quantifier": "all histories of requests and stop notices", "why_tests_cant": "depends on how requests and stop notices interleave", "anchors": ["sstmac/software/launch/job_launcher.cc: ExclusiveJoblauncher::handleLaunchRequest, stopEventReceived"]}
{"id": "C86", "title": "The node-to-rank table inverts the rank-to-node table", "statement": "For every mapping of ranks to nodes, the table of each node lists exactly the ranks mapped to it, in ascending order.", "quantifier": "all mappings and machine sizes", "why_tests_cant": "only a few mappings are ever tried", "anchors": ["sstmac/software/launch/launch_request.cc: indexAllocation"]}
{"id": "C87", "title": "Dense numbering of surviving ranks is a bijection", "statement": "For every set of failed ranks, the dense number of a surviving rank is the number of survivors below it, translation back gives the rank again, and every dense number belongs to a survivor; asking for the dense number of a failed rank is an error.", "quantifier": "all sets of failed ranks and all ranks", "why_tests_cant": "the search switches method with the number of failures and the interesting sets are large", "anchors": ["sumi/dense_rank_map.cc: DenseRankMap::denseRank, sparseRank, treeFindRank, linearFindRank"]}
{"id": "C88", "title": "Communicator ranks and global ranks translate into each other", "statement": "For every communicator, also a shifted one of a shifted one, each rank has its own global rank and translating that back gives the rank; the intersection with a set of ranks has exactly the members in the set; a member's own rank is the one that translates to its global rank.", "quantifier": "all kinds of communicators, nestings, sizes, shifts and ranks", "why_tests_cant": "only a few sizes and shifts are ever tried", "anchors": ["sumi/communicator.h: commToGlobalRank, globalToCommRank, RotateCommunicator, SubrangeCommunicator, ShiftedCommunicator", "sumi/communicator.cc: MapCommunicator, IndexCommunicator, globalRankSetIntersection"]}
{"id": "C89", "title": "Thread stacks never overlap and are found from the stack pointer", "statement": "After every history of stack allocations and frees, no two stacks in use overlap, each lies in mapped memory and starts at a multiple of the stack size; with protection the region below each is inaccessible and no stack overlaps an inaccessible region; an allocation always gives a stack.", "quantifier": "all histories, addresses at which memory is mapped, stack and chunk sizes", "why_tests_cant": "depends on addresses chosen by the operating system and on how threads interleave", "anchors": ["sstmac/software/threading/stack_alloc.cc: StackAlloc::alloc, free, init", "sstmac/software/threading/stack_alloc_chunk.cc: chunk, getNextStack"]}
{"id": "C90", "title": "Every simulated process has its own initialised global variables", "statement": "For every history of declarations, process starts, thread ends and library loads, global variables do not overlap and lie inside the segment of each running process; a process starts with the declared initial values; a value given later reaches every running process and later ones; no access leaves the segment; incrementing a variable changes that variable.", "quantifier": "all histories, variable sizes, numbers of processes and segment sizes", "why_tests_cant": "needs libraries loaded between the creation and the start of another application, or segments that grow", "anchors": ["sstmac/software/process/global.cc: GlobalVariableContext::append, callInitFxns, initGlobalSpace", "sstmac/software/process/global.h: GlobalVariableContext, global::operator++", "sstmac/software/process/app.cc: get_data_segment", "sstmac/software/process/thread_info.cc: registerUserSpaceVirtualThread, deregisterUserSpaceVirtualThread"]}
{"id": "C91", "title": "No rank leaves a barrier before every rank has entered it", "statement": "In every execution of a barrier, whatever the order in which the ranks call it and however messages are delayed, when one rank's barrier is complete every rank has called the barrier; once all have called it, it completes on all ranks.", "quantifier": "all numbers of ranks, orders of calls, message delays and interleavings", "why_tests_cant": "needs a rank that arrives arbitrarily late and every interleaving of the messages", "anchors": ["sumi/sim_transport.cc: CollectiveEngine::barrier", "sumi/allgather.h: BruckBarrierCollective", "sumi/allgather.cc: BruckActor::initDag", "sumi-mpi/mpi_api_collectives.cc: MpiApi::barrier"]}
{"id": "C92", "title": "A blocking probe returns exactly when a message it asks for can be received", "statement": "MPI_Probe returns once, with the message that a receive with the same source, tag and communicator would get; while it waits no such message can be received; when it returns the reported message can be received; no message is used after it has been freed.", "quantifier": "all histories of sends, deliveries, receives, cancellations and probes", "why_tests_cant": "depends on how message arrival interleaves with probes and posted receives, and on the protocol chosen by size", "anchors": ["sumi-mpi/mpi_api_send_recv.cc: MpiApi::probe", "sumi-mpi/mpi_queue/mpi_queue.cc: MpiQueue::probe, notifyProbes", "sumi-mpi/mpi_protocol/eager0.cc: Eager0::incoming", "sumi-mpi/mpi_protocol/eager1.cc: Eager1::incomingPayload", "sumi-mpi/mpi_protocol/rendezvous_rdma.cc: RendezvousGet::incomingHeader"]}
{"id": "C93", "title": "A message longer than the receive buffer is rejected and one that fits is accepted", "statement": "When a message matches a posted receive whose count times type size is smaller than the message, the simulation stops with an error and writes nothing beyond the buffer; a message that fits is never rejected.", "quantifier": "all message sizes, receive sizes, protocols and histories", "why_tests_cant": "depends on the protocol selected by size and on 32-bit arithmetic of the check; tests rarely send too much data", "anchors": ["sumi-mpi/mpi_queue/mpi_queue_recv_request.cc: MpiQueueRecvRequest::matches", "sumi-mpi/mpi_protocol/rendezvous_rdma.cc: RendezvousGet::start, incoming", "sumi/transport.h: Transport::smsgSend", "sstmac/hardware/network/network_message.h: payloadBytes"]}
{"id": "C94", "title": "The data of every message arrives in the receive buffer, once", "statement": "For every history of sends and receives, whatever the protocol, datatypes and delays: when a receive completes, its buffer holds the bytes the send buffer held when the matching send was called, even if the sender reuses the buffer once its send is complete; each send and each message's receive completes at most once and, once a receive is there, the transport can always complete both; no run aborts with an unmatched payload or acknowledgement.", "quantifier": "all histories, orders and delays of the steps of the transport, protocols, contiguous and other datatypes, both acknowledgement modes", "why_tests_cant": "depends on when the network reads the send buffer and writes the receive buffer relative to the application, for every interleaving", "anchors": ["sumi-mpi/mpi_protocol/eager0.cc: Eager0::start, incoming", "sumi-mpi/mpi_protocol/eager1.cc: Eager1::start, incomingHeader, incomingPayload, incomingAck", "sumi-mpi/mpi_protocol/rendezvous_rdma.cc: RendezvousGet::start, incoming, incomingPayload, incomingAck", "sumi-mpi/mpi_protocol/mpi_protocol.cc: DirectPut", "sumi-mpi/mpi_queue/mpi_queue.cc: finalizeRecv", "sstmac/hardware/network/network_message.cc: putOnWire, takeOffWire, intranodeMemmove", "sstmac/hardware/common/unique_id.h: UniqueEventId"]}
{"id": "C95", "title": "Non-minimal dragonfly routing delivers every packet within its channels", "statement": "For every dragonfly shape and wiring the constructors accept, every source and destination, every sequence of random draws and every queue state, Valiant, UGAL and PAR routing deliver the packet in at most as many hops as the router declares virtual channels, each hop on a higher channel than the one before, so that no cycle of packets waiting for each other can form; a packet bound for an intermediate switch keeps it until it gets there; and Valiant routing between groups goes through a group other than source and destination.", "quantifier": "all shapes up to 2^24 switches, the three group wirings, all pairs of nodes, all draws, counters and queue lengths", "why_tests_cant": "whether every path ends and fits into the channels depends on all wirings, draws and queue states along the path", "anchors": ["sstmac/hardware/router/dragonfly_routing.cc: DragonflyValiantRouter, DragonflyUGALRouter, DragonflyPARRouter", "sstmac/hardware/topology/dragonfly.cc: connectedRouters, connectedToGroup"]}
{"id": "C96", "title": "Oblivious dragonfly routing delivers every packet within its channels", "statement": "For every dragonfly shape and wiring the constructors accept and every source and destination, scatter routing, and rotate routing where every switch has a link to another group, deliver a packet in at most as many hops as the router declares virtual channels (four and three), each hop on a higher channel than the one before, so that packets never wait for each other in a cycle; scatter routing crosses to another group only to enter the destination group, and keeps traffic of a group within it; both use the ports to choose from in turn.", "quantifier": "all shapes, the three group wirings, all pairs of nodes, all positions of the counters", "why_tests_cant": "the set of usable ports at every switch of a path comes from a search of the whole network, for every shape", "anchors": ["sstmac/hardware/router/dragonfly_routing.cc: DragonflyScatterRouter, DragonflyRotateRouter"]}
{"id": "C97", "title": "A direct all-to-all exchange completes and delivers every block", "statement": "MPI_Alltoallv, for every number of ranks, all counts and every schedule of messages, completes on every rank; each rank sends exactly one message to every rank, with as many elements as its send count says, and nothing else; a rank has at most three sends and three receives in progress; at the end every rank finds the block sent to it by each rank in its receive buffer.  The same holds for MPI_Alltoall with the direct algorithm and equal counts.", "quantifier": "all numbers of ranks, counts, buffer contents, message protocols and interleavings", "why_tests_cant": "the order of messages between n ranks varies with every network and every timing", "anchors": ["sumi/alltoallv.cc: DirectAlltoallvActor", "sumi/alltoall.cc: DirectAlltoallActor", "sumi/sim_transport.cc: CollectiveEngine::alltoallv"]}
{"id": "C98", "title": "Dragonfly+ networks deliver every packet without deadlock", "statement": "For every dragonfly+ network that the constructors accept, links agree from both ends and every node has its own port; minimal routing (rotating or static) brings every packet to its node over two links within a group and three between groups on its one virtual channel; progressive adaptive routing brings every packet to its node over at most four links on its two virtual channels, whatever the queue lengths and random draws; no set of packets can wait for each other in a circle; and the number of hops reported between two nodes is the length of a shortest path.", "quantifier": "all numbers of groups, switches, links and nodes, all wirings, source and destination pairs, states of the rotating counters, queue lengths and random draws", "why_tests_cant": "the routers rotate over and draw among the ports, so a route depends on the whole history of a switch; deadlock depends on which packets are in flight together", "anchors": ["sstmac/hardware/topology/dragonfly_plus.cc: DragonflyPlus", "sstmac/hardware/router/dragonfly_plus_routing.cc: DragonflyPlusAllToAllMinimalRouter", "sstmac/hardware/router/dragonfly_plus_routing.cc: DragonflyPlusParRouter"]}
{"id": "C99", "title": "Cascade networks deliver every packet", "statement": "For every cascade network (a dragonfly with two-dimensional groups), links agree from both ends and every node has its own port; minimal routing brings every packet to its node, within a group over at most two links and without deadlock, between groups over at most five; the number of hops reported between two switches is the length of a shortest path.", "quantifier": "all group dimensions, numbers of groups and group connections, source and destination pairs and random draws", "why_tests_cant": "whether a port that the router chooses has a link depends on all parameters of the network", "anchors": ["sstmac/hardware/topology/cascade.cc: Cascade", "sstmac/hardware/router/cascade_routing.cc: CascadeMinimalRouter"]}
{"id": "C100", "title": "Sculpin ports serve packets first come, first served", "statement": "In the sculpin network model, every output port of a switch sends the packets that come to it one at a time, in the order in which they come, each exactly once and as soon as it is there and the packet before it has left; it never aborts, never idles while packets wait, and when nothing is scheduled for it every packet was sent.", "quantifier": "all sequences of arrivals, sizes and bandwidths, and both orders of an arrival and a scheduled pull at the same time", "why_tests_cant": "arrivals race with scheduled pulls; a port that schedules one pull too few or too many shows it only on some interleavings", "anchors": ["sstmac/hardware/sculpin/sculpin_switch.cc: SculpinSwitch::tryToSendPacket, pullNext, send", "sstmac/hardware/sculpin/sculpin_switch.h: priority_compare"]}
{"id": "C101", "title": "Sculpin interfaces deliver every message", "statement": "In the sculpin network model, sending a message cuts it into packets no longer than the MTU that go out back to back as soon as the interface is free, and the receiver hands up every message exactly once, whatever the order in which its packets come.", "quantifier": "all message lengths, MTUs, times and arrival orders", "why_tests_cant": "the loop ends only for some lengths; no test sends messages of 4 GB", "anchors": ["sstmac/hardware/sculpin/sculpin_nic.cc: SculpinNIC::doSend, eject, cqHandle", "sstmac/hardware/common/recv_cq.cc: RecvCQ::recv"]}
{"id": "C102", "title": "Sculpin paths keep order and respect the wires", "statement": "In the sculpin network model, packets on one path never overtake each other; no packet is faster than the latencies of its wires plus the time on its slowest link; and a packet that meets no other traffic takes exactly that long.", "quantifier": "all paths, bandwidths, latencies, packet sizes and cross traffic", "why_tests_cant": "depends on all other traffic at every port of the path", "anchors": ["sstmac/hardware/sculpin/sculpin_switch.cc: SculpinSwitch::handlePayload", "sstmac/hardware/sculpin/sculpin_nic.cc: SculpinNIC::handlePayload"]}
{"id": "C103", "title": "Networks from files are wired as written and routed by their tables", "statement": "For every topology file in which names and port numbers are unique, links are listed at both ends and every node is at one port, the network has exactly the links and nodes of the file, all on ports that switches allocate; table routing spreads packets over the ports of a channel in turn and brings every packet to its node if the tables lead there; with increment_vcs no set of packets can wait for each other in a circle.", "quantifier": "all topology files and routing tables, packets and histories of the rotating channels", "why_tests_cant": "a file is arbitrary data; deadlock needs packets on every channel of a circle", "anchors": ["sstmac/hardware/topology/file.cc: FileTopology", "sstmac/hardware/router/table_routing.cc: TableRouter", "sstmac/hardware/topology/topology.cc: nodeNameToId"]}
{"id": "C104", "title": "Parameter files mean what they say, the command line wins, and every process gets the same parameters", "statement": "Reading a parameter file gives the values its lines assign, in order: the last assignment to a key wins, unset removes it, blocks nest, an assignment in a block is an assignment to the dotted key, and $name stands for the value of a variable.  An option -p key=value overrides the file, the last one wins.  Parameters written out and sent to other processes, or inside an application launch, are read there as the same parameters.", "quantifier": "all texts, all scopes they are read into, all option lists, all stack depths", "why_tests_cant": "a parameter file is arbitrary text and the sent form is read by another process", "anchors": ["sprockit/sprockit/sim_parameters.cc: SimParameters::parseStream, parseKeyval, doAddParam, getScopeAndKey, combineInto, reproduceParams, parallelBuildParams", "sprockit/sprockit/sim_parameters.h: serialize<SST::Params>", "sprockit/sprockit/basic_string_tokenizer.h: trim_str", "sstmac/main/parseopts.cc: parseOpts"]}
{"id": "C105", "title": "List parameters have the items between the brackets", "statement": "A parameter [a,b,c] gives the items a, b and c, in order.", "quantifier": "all lists of items, all texts before and after the brackets", "why_tests_cant": "positions of brackets are data", "anchors": ["sprockit/sprockit/sim_parameters.cc: SimParameters::getTokenizer", "sprockit/sprockit/basic_string_tokenizer.h: tokenize"]}
{"id": "C106", "title": "The machine is wired the same way however it is split over processes and threads", "statement": "For every topology, every number of processes and threads and every partition, all processes agree on the numbers of all links without talking to each other: every connection of the topology (payload forwards, credits backwards), every injection and ejection port and every LogP path is built exactly by the process that owns its sending side, timed on the sending worker, of the class that fits the two workers (same queue, other thread, other process), and an event sent over it is handled by the receiving port's handler on the receiving worker; a handler registered for messages from other processes is the far end of exactly such a link; link numbers are unique in the whole machine. If all processes accept the configuration, the lookahead is equal on all of them, positive, and no larger than the latency of any link between workers. Splitting the machine differently does not change the relative order of link numbers, so simultaneous events keep their order - except for the outputs of LogP switches, for which it does (refuted).", "quantifier": "all topologies, partitions, process and thread counts, latencies", "why_tests_cant": "needs every partition and pair of processes; a test runs a few machine sizes on few processes", "anchors": ["sstmac/hardware/interconnect/interconnect.cc:Interconnect", "sstmac/hardware/interconnect/interconnect.cc:connectLogP", "sstmac/hardware/interconnect/interconnect.cc:connectSwitches", "sstmac/hardware/interconnect/interconnect.cc:connectEndpoints", "sstmac/common/event_scheduler.cc:IpcLink::send", "sstmac/common/event_manager.cc:addLinkHandler"]}
{"id": "C107", "title": "Simulated threads block exactly as long as they should, and no wake-up is lost", "statement": "On every node, for every program of threads that compute, sleep, wait, wake each other, create and join threads and end: at most one thread runs at a time; a thread that computes or sleeps for a time runs again exactly that much later whatever the others do; a thread that waits stays blocked until it is woken and then runs at the same simulated time; a join returns only when the joined thread has finished, at the time it finished; each thread object is deleted exactly once, after its end, and never used afterwards; when nothing is left to run, every thread has finished, waits without having been woken, or joins a thread that has not finished. A wait with a time limit, a second joiner, pthread_exit or the end of the application do not break this - they do (refuted: use of a deleted thread, a computation cut short, a double delete, the whole simulator exits, cancelled threads run).", "quantifier": "all programs, numbers of threads, times and interleavings of calls and events", "why_tests_cant": "needs every interleaving of wake-ups, timers, joins and ends; a test runs a few programs", "anchors": ["sstmac/software/process/operating_system.cc:block", "sstmac/software/process/operating_system.cc:unblock", "sstmac/software/process/operating_system.cc:switchToThread", "sstmac/software/process/operating_system.cc:joinThread", "sstmac/software/process/operating_system.cc:completeActiveThread", "sstmac/software/process/operating_system.cc:blockTimeout", "sstmac/software/process/thread.cc:cleanup", "sstmac/software/process/thread.cc:runRoutine", "sstmac/software/libraries/unblock_event.cc:TimeoutEvent", "sstmac/libraries/pthread/sstmac_pthread.cc:SSTMAC_pthread_exit"]}
{"id": "C108", "title": "Quantities in parameters mean what their units say", "statement": "For every decimal number, with or without fraction and exponent, every amount of blanks and every unit: a time, a frequency or a size parameter is the number times the unit, sizes without the fraction of a byte, and a text with any other unit or without a number is rejected; a bandwidth is the number of bytes per second that the unit means; no unit has two meanings; a quantity whose kind is not fixed is read by the one kind whose unit it has, and without a unit it is the number. For bandwidths this fails (refuted): Gib/s is read as 2^50 bits, TB/s as 10^15 bytes, TiB/s and PiB/s as 2^30 bytes.", "quantifier": "all numbers, units, letter cases and blanks", "why_tests_cant": "the texts are unbounded and the unit tables are long; tests try a few units", "anchors": ["sprockit/sprockit/units.cc:getBandwidth", "sprockit/sprockit/units.cc:getTimeDelta", "sprockit/sprockit/units.cc:getFrequency", "sprockit/sprockit/units.cc:byteLength", "sprockit/sprockit/units.cc:populateBandwidthNames", "sprockit/sprockit/sim_parameters.cc:getQuantityWithUnits", "sprockit/sprockit/sim_parameters.h:UnitAlgebra"]}
{"id": "C109", "title": "The LogP network delivers every message once, at the time its parameters say", "statement": "For every sequence of messages between nodes of a LogP network: each NIC sends one message after the other, each for its injection latency and bytes, starting at the call or when the previous one ends; each message arrives exactly once, at the time it leaves plus its bytes, hops and link latency; each NIC takes in one message after the other, each for its bytes, and gives it to the node when it has arrived and been taken in; messages up to the negligible size are never delayed by others; messages between two nodes arrive in order; the contention level is the number of cutoffs passed; two runs with the same parameters give the same times. Refuted: receptions overlap when a message arrives sooner than it can be taken in; messages of exactly the negligible size wait; a short message overtakes a long one if the NIC is faster than the network; contention is seeded from the machine.", "quantifier": "all parameters, numbers of nodes, sequences and sizes of messages, and orders of simultaneous arrivals", "why_tests_cant": "arrivals and sends interleave in unboundedly many ways; a test measures a few transfers", "anchors": ["sstmac/hardware/logp/logp_nic.cc:doSend", "sstmac/hardware/logp/logp_nic.cc:mtlHandle", "sstmac/hardware/logp/logp_switch.cc:send", "sstmac/hardware/logp/logp_switch.cc:SlidingContentionModel", "sstmac/hardware/nic/nic.cc:internodeSend", "sstmac/common/timestamp.h:operator-"]}
{"id": "C110", "title": "Random numbers: seeds determine the sequence, periods and lags are as documented", "statement": "After seeding, every generator's numbers depend on nothing but the seeds. MWC concatenates two 16-bit multiply-with-carry generators. CONG repeats a number after exactly the multiples of 2^32 numbers. SHR3 never merges two sequences. LFIB4 and SWB follow four-lag and subtract-with-borrow recurrences for ever. A number in a range is below it; a real number in the open unit interval is in it. A router's random choice is below the number of choices and, with a seed parameter, depends only on that seed, the packet's seed and the attempt. Refuted: the documented period of SHR3 (a seed gives one number for ever), the documented lags of LFIB4 and SWB, the closed ends of the unit interval (the largest integer gives 1 where 1 is excluded and more than 1 where it is included), and the router's choice from the 28th attempt on, which is undefined.", "quantifier": "all seeds, all numbers of draws, all ranges", "why_tests_cant": "a period of 2^32 numbers and a recurrence for every draw are beyond tests; the failing seeds and values are one in 2^32", "anchors": ["sstmac/common/rng.h:MWC", "sstmac/common/rng.h:realvalue", "sstmac/common/rng.cc:SHR3", "sstmac/common/rng.cc:LFIB4", "sstmac/common/rng.cc:SWB", "sstmac/hardware/router/router.cc:randomNumber"]}
{"id": "C111", "title": "Requests for a library are delivered once, in order, while it is registered", "statement": "For every history of an operating system: each arriving request is, at every moment, in exactly one place: given to a library of its name, scheduled to be, or waiting; it waits only while no library is registered under its name; if registrations are balanced and names unique, the library found under a name is the one still registered. If scheduled deliveries happen before a library goes, requests are only given to registered libraries; if they happen before the next request of that name, requests of a name are given in order of arrival. Refuted otherwise: a library destroyed early is still called; later requests overtake waiting ones; with two libraries of one name, destroying the first hides the second.", "quantifier": "all histories of creating and destroying libraries, arrivals and deliveries", "why_tests_cant": "interleavings of creation, destruction, arrival and delivery are unbounded; tests use one library that exists before any request", "anchors": ["sstmac/software/process/operating_system.cc:registerLib", "sstmac/software/process/operating_system.cc:unregisterLib", "sstmac/software/process/operating_system.cc:handleRequest", "sstmac/software/process/operating_system.cc:handleLibraryRequest", "sstmac/software/libraries/library.cc:Library"]}
{"id": "C112", "title": "Objects from the memory pools never overlap, are aligned, and their memory is bounded by the need", "statement": "For every interleaving of threads creating and destroying objects of one class (each destroyed once, by any thread): objects that exist at the same time share no byte; each is aligned to a cache line and lies in memory obtained from the system; a created object is never one that exists; creation succeeds exactly for the first 128 threads; a thread that destroys and creates gets the same memory. If one thread does everything, each block but the first was needed. Refuted: if one thread creates and another destroys, memory grows without bound although only one object ever exists at a time.", "quantifier": "all histories of creations and destructions, all threads, all object sizes, all addresses the system returns", "why_tests_cant": "overlap shows only for particular addresses and interleavings; growth only in long runs", "anchors": ["sprockit/sprockit/thread_safe_new.h:allocate", "sprockit/sprockit/thread_safe_new.h:grow", "sprockit/sprockit/thread_safe_new.h:operator delete", "sprockit/sprockit/thread_safe_new.h:ThreadAllocatorSet"]}
{"id": "C113", "title": "Statistics files have every value under the heading of its field, and histograms count every value once", "statement": "For every group of statistics written as comma-separated values: the headings are the names of the fields of the group's statistics, each once. If the statistics of the group have the same fields, each row has the value of each field under its heading, in whatever order the statistic outputs its fields. A histogram over an interval of positive length counts each value in the bin it lies in and ignores values outside the interval. Refuted: in a group of statistics with different fields rows are empty or carry values of another statistic; a value equal to the upper end of the interval is written out of bounds.", "quantifier": "all groups, all statistics and orders of fields, all intervals, numbers of bins and series of data", "why_tests_cant": "misplaced cells need particular orders of fields; the boundary needs an exact value", "anchors": ["sstmac/common/stats/stat_collector.cc:implRegisterField", "sstmac/common/stats/stat_collector.cc:outputPending", "sstmac/common/stats/stat_collector.h:StatOutputCSV", "sstmac/common/stats/stat_histogram.h:addData_impl", "sstmac/common/event_manager.cc:registerStatisticCore"]}
{"id": "C114", "title": "Every access to memory ends exactly once, after all its bytes", "statement": "For every sequence of accesses, of any sizes and at any times: the callback of an access runs exactly once, and only when exactly the bytes of the access have been moved; accesses are started in order; no channel or link serves two at once; the simulation of the memory stops when nothing more is asked. Proved for the memory with channels (snappr, flows and single requests), the memory with one link (logp), and the packet-flow memory (pisces) for flows of fewer than 2^32 bytes plus one packet. Refuted: in the packet-flow memory larger flows never end, and single requests keep their channel for ever, so that after as many of them as there are channels no access ever ends; the null memory drops every callback.", "quantifier": "all sequences of accesses, all orders of events, all sizes, numbers of channels and packet sizes", "why_tests_cant": "tests use a few sizes far below 2^32 and few accesses; the order of events of concurrent flows cannot be enumerated", "anchors": ["sstmac/hardware/snappr/snappr_mem.cc:accessFlow", "sstmac/hardware/snappr/snappr_mem.cc:flowRequestResponse", "sstmac/hardware/pisces/pisces_memory_model.cc:dataArrived", "sstmac/hardware/pisces/pisces_memory_model.cc:channelFree", "sstmac/hardware/pisces/pisces_memory_model.cc:accessRequest", "sstmac/hardware/logp/logp_memory_model.cc:newAccess", "sstmac/hardware/memory/memory_model.h:NullMemoryModel"]}
{"id": "C115", "title": "Requests name one operation each, and waiting returns when it has ended", "statement": "For every sequence of point-to-point calls and every order in which messages complete operations: the requests given to a program are different from each other and from MPI_REQUEST_NULL; a request stays valid until wait, test or free gives it back; every start of a persistent request hands over exactly one operation with exactly the arguments of its creation (none for MPI_PROC_NULL); a wait or test says that a request has ended exactly when the operation of its last start has, and reports the status of that operation; blocking calls hand over exactly their operation, and return when it has ended; MPI_Sendrecv hands over both before it waits; calls with MPI_PROC_NULL return at once with the status of MPI_PROC_NULL. Proved for programs with at most 0x2c000000 requests that restart a persistent request only after its operation has ended. Refuted: the request after 0x2c000000 others is MPI_REQUEST_NULL, so that waiting for it returns at once; waiting for a persistent request that was never started hangs; a persistent receive from MPI_PROC_NULL leaves the status unwritten; MPI_Recv and MPI_Sendrecv with MPI_PROC_NULL and MPI_STATUS_IGNORE write through the null pointer.", "quantifier": "all sequences of calls with all arguments, all assignments of completions to calls, all numbers of requests", "why_tests_cant": "tests use a handful of requests and one order of completions; 738 million requests, restarts and every interleaving of completions cannot be enumerated", "anchors": ["sumi-mpi/mpi_api_send_recv.cc:MpiApi::doStart", "sumi-mpi/mpi_api_send_recv.cc:MpiApi::sendrecv", "sumi-mpi/mpi_api_send_recv.cc:MpiApi::irecv", "sumi-mpi/mpi_api_send_recv.cc:MpiApi::request_free", "sumi-mpi/mpi_api.cc:MpiApi::addRequestPtr", "sumi-mpi/mpi_request.cc:MpiRequest::complete", "sumi-mpi/mpi_api_wait.cc:MpiApi::doWait", "sumi-mpi/mpi_api_test.cc:MpiApi::test", "sumi-mpi/mpi_queue/mpi_queue.cc:MpiQueue::progressLoop"]}
{"id": "C116", "title": "MPI collective calls move exactly the data their arguments describe", "statement": "For every communicator size, root, count and datatype, with separate buffers or MPI_IN_PLACE: after MPI_Bcast every rank's buffer holds, at the byte offsets of the datatype, the bytes of the root's buffer; MPI_Reduce, MPI_Allreduce and MPI_Scan apply the operation to the elements the datatype describes and put the result at its offsets; MPI_Gather, MPI_Allgather, MPI_Scatter and MPI_Alltoall (and the variants with a count and displacement per rank) put every block at its place; no other byte of any rank's memory changes, and calls without buffers are simulated with the counts of the call.", "quantifier": "all communicator sizes, roots, ranks, counts, datatypes, addresses, memory contents, in-place choices, counts and displacements per rank", "why_tests_cant": "Whether packing, in-place offsets and temporary buffers are right depends on the combination of datatype, count, rank and communicator size; a test sees one, and most tests use primitive types, rank 0 and separate buffers.", "anchors": ["sumi-mpi/mpi_api_collectives.cc: startMpiCollective, finishCollectiveOp, startAllgather, startAlltoall, startAllreduce, startBcast, startGather, startReduce, startScan, startScatter", "sumi-mpi/mpi_api_vcollectives.cc: startAllgatherv, startAlltoallv, startGatherv, startScatterv", "sumi-mpi/mpi_request.cc: CollectiveOp", "sumi/alltoall.cc: BruckAlltoallActor::initBuffers"]}
{"id": "C117", "title": "Communicator and group handles stay valid until they are freed", "statement": "For every process and every sequence of MPI_Comm_dup, MPI_Comm_create, MPI_Comm_create_group, MPI_Comm_split, MPI_Cart_create, MPI_Comm_group, MPI_Group_incl, MPI_Comm_free, MPI_Group_free and queries that a correct MPI program makes: every new handle differs from all handles in use; from its creation until it is freed a handle gives the size, rank, peers and translated ranks of the processes it stands for, whatever other handles are created or freed in between; MPI_Comm_group gives a usable group of the communicator's processes; and at the end of the job every group is deleted, none of them twice.", "quantifier": "all job sizes, processes, sequences of calls of any length, ids proposed by other processes (below the value of MPI_COMM_NULL)", "why_tests_cant": "Handles share group objects in ways that depend on the history of creations and frees; a test makes one short history and an access to a deleted object often goes unnoticed.", "anchors": ["sumi-mpi/mpi_api_comm.cc: commDup, commCreate, commCreateGroup, commSplit, cartCreate, commGroup, commFree, commSize", "sumi-mpi/mpi_api_group.cc: groupIncl, groupFree, groupTranslateRanks", "sumi-mpi/mpi_api.cc: getComm, getGroup, addCommPtr, addGroupPtr, init, ~MpiApi", "sumi-mpi/mpi_comm/mpi_comm_factory.cc: commCreate, commCreateGroup, commSplit, createCart, commNewIdAgree", "sumi-mpi/mpi_comm/mpi_comm.cc: ~MpiComm", "sumi-mpi/mpi_comm/mpi_comm_cart.cc: MpiCommCart"]}
{"id": "C118", "title": "Node-aware collectives return what the plain ones return", "statement": "For every communicator, every placement of its ranks on nodes, every schedule and all contributions, when the option smp_optimize is on: creating the node communicators (MPI_Init, MPI_Comm_split) returns on every member; an allgather returns on every member with all contributions in the order of the communicator; an allreduce returns on every member with the reduction of all contributions; an alltoall returns on every member with the blocks meant for it, and writes only the memory it was given; and the tags of the inner collectives do not collide with those of other collectives.", "quantifier": "all jobs, nodes, placements of ranks, communicators, tags, contributions, orders in which ranks make progress", "why_tests_cant": "The chains depend on the placement; a test runs a few placements with one schedule. Most placements make the option hang or return wrong data.", "anchors": ["sumi/communicator.cc: Communicator::createSmpCommunicator", "sumi/sim_transport.cc: SimTransport::init, CollectiveEngine::allreduce, CollectiveEngine::alltoall, CollectiveEngine::allgather, CollectiveEngine::startCollective, CollectiveEngine::incoming", "sumi/collective.h: DoNothingCollective, setSubsequent, popSubsequent", "sumi-mpi/mpi_comm/mpi_comm.cc: globalRankSetIntersection, nextCollectiveTag"]}
{"id": "C119", "title": "Reductions compute what MPI defines, in any order", "statement": "For every predefined datatype and every operator that the MPI standard defines for it, a reduction of any number of contributions, combined in any order and grouping, gives in each element what the standard says: the maximum, minimum, sum, product, logical or bitwise combination, or the extreme value with the lowest index; sums and products are modulo 2^w for unsigned types and exact whenever the exact result is a value of the type. An operator made by the program calls its function with the incoming data first, until it is freed, and its result does not depend on the order if the function is associative and commutative. MPI_Type_size gives the size of the C type.", "quantifier": "all predefined datatypes and operators, all contributions, lengths, numbers of ranks, combination trees, histories of MPI_Op_create and MPI_Op_free", "why_tests_cant": "The operators are 15 templates at 30 types with C++'s promotions and overflow rules; tests run a few values in the order of one algorithm. Overflow in one order only, or products of unsigned short, look right on most machines.", "anchors": ["sumi/comm_functions.h: Add, Prod, Min, Max, And, Or, LXOr, BAnd, BOr, BXOr, ReduceOp", "sumi-mpi/mpi_types/mpi_type.h: init_ops, init_bitwise_ops, init_integer, init_with_ops, initNoOps", "sumi-mpi/mpi_types/mpi_type.cc: MpiType::op", "sumi-mpi/mpi_api_type.cc: MaxLocPair, MinLocPair, commitBuiltinTypes, opCreate, opFree, typeSize", "sumi-mpi/mpi_api_collectives.cc: getCollectiveFunction", "sumi-mpi/mpi_integers.h: _mpi_ops_, _mpi_datatypes_"]}
{"id": "C120", "title": "Handles of datatypes name what they were made for until they are freed", "statement": "A process makes datatypes from others, duplicates, queries, uses and frees them through handles. A constructor or MPI_Type_dup returns a handle that names nothing else, and until it is freed the handle means the type that was asked for: its size, its extent and the bytes that a transfer moves do not depend on what other datatypes the process or other processes make, duplicate or free, and a user-defined reduction function receives the handle of the datatype of its call.", "quantifier": "all sets of predefined datatypes, all sequences of MPI_Type_contiguous, vector, hvector, hindexed, create_struct, dup, free, size, extent, transfers and reductions of one process, and all duplications of predefined datatypes by other processes in between", "why_tests_cant": "Whether a freed datatype is still needed depends on the whole history of constructions and frees; a test frees its datatypes at the end, and reading a deleted object often still gives the old bytes.", "anchors": ["sumi-mpi/mpi_api_type.cc:316-427 MpiApi::doTypeHvector, typeVector, doTypeHindexed", "sumi-mpi/mpi_api_type.cc:467-499 allocateTypeId, typeFromId", "sumi-mpi/mpi_api_type.cc:501-639 typeContig, typeCreateStruct, typeSize, typeExtent, typeDup, typeFree", "sumi-mpi/mpi_types/mpi_type.cc:183-222, 319-443 MpiType::init_vector, init_indexed, pack_action", "sumi-mpi/mpi_protocol/mpi_protocol.cc:57-68 fillSendBuffer", "sumi-mpi/mpi_api_collectives.cc:733"]}
{"id": "C121", "title": "Calls of the message transport complete once, in order, on the queues that they name", "statement": "A process sends messages, posts sends, puts and gets data through the transport, or answers a message that it received, and names a completion queue for itself and one for the partner (or none). Each call leads to exactly one completion on each named queue, at the right process: the side that gets data is told of the data, the side whose data left is told that it left. What arrives for a queue is given to the function that was installed for it, in the order of arrival, also if the process starts or installs the queue later than the message arrives; a process that ends does not take messages of others with it.", "quantifier": "all placements of processes on nodes, all sequences of starts and ends of processes, allocations and installations of queues, calls and answers, and all orders in which the network delivers", "why_tests_cant": "A completion may depend on which of two processes starts first, on the order in which a queue is allocated and a message for it arrives, and on whether two processes share a node; tests use one order.", "anchors": ["sumi/sim_transport.cc:131-184 SumiServer::registerProc, unregisterProc, incomingRequest", "sumi/sim_transport.cc:295-307 SimTransport::allocateCq", "sumi/sim_transport.cc:391-499 SimTransport::send, smsgSendResponse, rdmaGetRequestResponse, rdmaPutResponse", "sumi/sim_transport.cc:507-530 SimTransport::incomingMessage", "sumi/transport.h:155-212 rdmaGet, rdmaPut, postSend, smsgSend", "sumi/message.h:155-193 Message::targetRank, reverse", "sstmac/hardware/nic/nic.cc:183-288 NIC::injectSend, recvMessage, ackSend, intranodeSend", "sstmac/hardware/network/network_message.cc:212-245, 367-379"]}
{"id": "C122", "title": "The replay of a trace makes the calls of the traced program, in order, with the computation between them", "statement": "The replay of an OTF2 trace makes, for each rank, the calls of MPI that the traced program made: the same calls with the same partners, tags, communicators and sizes, in the same order, each once, and between two calls it computes for the time that the program spent between them. A receive that was started without blocking is replayed at the place where it was started, although the trace tells what was received only at its completion; a wait for several requests is replayed as waits for each of them, one after the other and at no time. The replay of a complete trace leaves no call behind.", "quantifier": "all programs of a rank: all sequences of blocking and non-blocking sends and receives, waits, tests and collectives, all overlaps of requests, all times of start and end; for the order of the calls, all sequences of events", "why_tests_cant": "Calls wait in a queue behind receives that have not completed, so what is replayed depends on how requests overlap, and on which call in the queue an event is given to; tests replay a few traces.", "anchors": ["sstmac/skeletons/otf2_trace_replay/callqueue.cc:60-101 CallQueue::callReady, findRequest, MpiCall::trigger", "sstmac/skeletons/otf2_trace_replay/callqueue.h:92-189 CallQueue", "sstmac/skeletons/otf2_trace_replay/callbacks.cc:290-313 add_wait", "sstmac/skeletons/otf2_trace_replay/callbacks.cc:316-624 callbacks of messages and collectives", "sstmac/skeletons/otf2_trace_replay/callbacks.cc:646-1530 event_enter, event_leave", "sstmac/skeletons/otf2_trace_replay/otf2_trace_replay.cc:157-172 startMpi, endMpi"]}
{"id": "C123", "title": "The replay of a DUMPI trace does what the traced program did", "statement": "The replay of a DUMPI trace gives MPI, for each rank, the operations that the traced program gave it: with the same sizes, peers, tags and communicators, in the same order, each once. It waits for the operations that the program waited for, whatever call completed them and whether the requests were persistent or not, and for none of them twice. It takes part in the same collectives, makes the same groups and communicators, and computes between two calls for the time that the program spent between them. Handles that the tracer uses again, when the object they named is gone, name the new object.", "quantifier": "all programs of a rank with point-to-point calls, persistent requests, derived datatypes, groups, communicators and collectives, all reuses of handles by the tracer, all times; for waits, all traces", "why_tests_cant": "What a handle in a trace stands for depends on the whole history of calls: which requests were waited for, freed and made again. Tests replay a few traces of programs that use few objects.", "anchors": ["sstmac/skeletons/undumpi/parsedumpi_callbacks.cc:146-166 parsedumpi_callbacks::parseStream", "sstmac/skeletons/undumpi/parsedumpi_callbacks.cc:205-349 deltat, start_mpi, end_mpi, translation of handles, getMpitype", "sstmac/skeletons/undumpi/parsedumpi_callbacks.cc:650-2303 callbacks", "sstmac/skeletons/undumpi/parsedumpi_callbacks.h:112-158 incrementCollective, getMpitag", "sstmac/skeletons/undumpi/parsedumpi.cc:80-110 skeletonMain", "sumi-mpi/mpi_api.cc:442-560 getComm, getGroup, addRequestPtr", "sumi-mpi/mpi_api_wait.cc:82-116 doWait, finalizeWaitRequest", "sumi-mpi/mpi_api_send_recv.cc:69-410 send, sendrecv, doStart, isend, recv, irecv"]}
{"id": "C124", "title": "The replay of a DUMPI trace that is told to end after some global collectives ends there on every rank", "statement": "If the replay of a DUMPI trace is told to run n collectives on MPI_COMM_WORLD and then terminate (parsedumpi_terminate_count), every rank takes part in just n of them, does all that the program did before them, and then finalizes MPI; with fewer in the trace it goes on to the end. The ranks end at places that fit: no rank waits for a message that another rank, which ended earlier, did not send.", "quantifier": "all programs of a rank, all sequences of collectives on the world and on other communicators, all counts", "why_tests_cant": "Whether the count is met depends on which kinds of collectives come at which places of the trace; tests use a trace and a count that work.", "anchors": ["sstmac/skeletons/undumpi/parsedumpi.cc:64-110 ParseDumpi::ParseDumpi, skeletonMain", "sstmac/skeletons/undumpi/parsedumpi_callbacks.h:112-117 incrementCollective", "sstmac/skeletons/undumpi/parsedumpi_callbacks.cc:1400-1420 on_MPI_Barrier", "sstmac/skeletons/undumpi/parsedumpi_callbacks.cc:1422-1700 callbacks of collectives"]}
{"id": "C125", "title": "OTF2 traces that are written name communicators and groups in one way, and cover the time of the run", "statement": "In the OTF2 trace that a simulation writes, all ranks of a communicator write the same identifier for it and for its group, different communicators have different identifiers and so have different groups, and the identifiers are the numbers from 0 on, whatever communicators the ranks made. The definitions give the count of events of each rank, and the start and the end of the run, whatever the order in which the ranks are written.", "quantifier": "all numbers of ranks, all sets of communicators and memberships, all orders in which ranks are written, all times", "why_tests_cant": "Identifiers follow from how many communicators every rank owns, in all ranks before it; tests write traces of programs with one or two communicators.", "anchors": ["sumi-mpi/otf2_output_stat.cc:94-119 OTF2Writer::addComm", "sumi-mpi/otf2_output_stat.cc:121-133 OTF2Writer::reduce", "sumi-mpi/otf2_output_stat.cc:135-203 OTF2Writer::assignGlobalCommIds", "sumi-mpi/otf2_output_stat.cc:205-222 dumpLocalData, dumpGlobalData", "sumi-mpi/otf2_output_stat.cc:230-256 OTF2Output"]}
{"id": "C126", "title": "Threads of a simulated program have identities, keys and affinities of their own", "statement": "The number that pthread_create gives names the new thread and no other, pthread_self returns it in that thread, a join by number waits for exactly that thread and hands over what it returned, threads that are joined or detached once are deleted once and never used afterwards, pthread_getspecific returns what the same thread stored last under the key, keys of one process differ and their destructors run, and an affinity is a property of the thread for which it was set. This holds in every interleaving of creations, starts, joins, detachments and ends.", "quantifier": "all interleavings of any number of processes and threads on a node, all sequences of creations, joins, detachments, ends, key operations and affinity calls", "why_tests_cant": "A number is looked up in one of several tables depending on what happened before; a wrong lookup or a deleted thread shows only for particular orders of ends, joins and detachments.", "anchors": ["sstmac/libraries/pthread/sstmac_pthread.cc:76-106 pthread_create", "sstmac/libraries/pthread/sstmac_pthread.cc:133-153 pthread_join", "sstmac/libraries/pthread/sstmac_pthread.cc:536-579 pthread_key_create, pthread_setspecific", "sstmac/libraries/pthread/sstmac_pthread.cc:670-677 pthread_detach", "sstmac/libraries/pthread/sstmac_pthread.cc:781-803 pthread_setaffinity_np, pthread_getaffinity_np", "sstmac/software/process/app.cc:568-599 addSubthread, getSubthread, removeSubthread", "sstmac/software/process/thread.cc:106-123 cleanup", "sstmac/software/process/thread.cc:410-444 std::thread", "sstmac/software/process/operating_system.cc:526-578 joinThread, completeActiveThread", "sstmac/software/process/operating_system.cc:741-761 startThread"]}
{"id": "C127", "title": "Sets of cpus behave as sets", "statement": "CPU_SET and CPU_CLR add and remove the one cpu that they name, CPU_ISSET tells whether it is there, CPU_COUNT returns the number of cpus, CPU_AND, CPU_OR, CPU_XOR and CPU_EQUAL are the operations on sets, for every cpu below CPU_SETSIZE and every set, and the size that CPU_ALLOC_SIZE returns is one that the calls accept.", "quantifier": "all sets of cpus, all cpus below 64, all sequences of additions", "why_tests_cant": "Errors in the width of a shift concern particular cpus and sets; tests use cpus 0 to 3.", "anchors": ["sstmac/libraries/pthread/sstmac_sched.cc:91-169 SSTMAC_CPU_SET_S, SSTMAC_CPU_ISSET_S, SSTMAC_count_bits", "sstmac/libraries/pthread/sstmac_sched.h:85-118 SSTMAC_CPU_SETSIZE, SSTMAC_CPU_ALLOC_SIZE", "sstmac/libraries/pthread/sstmac_cpu_set.h sstmac_cpu_set_t"]}
{"id": "C128", "title": "The workloads that come with the simulator communicate consistently and end on every grid", "statement": "On every grid of processes, the workloads halo3d-26, sweep3d and fft send only to ranks that exist, each message has one receive from its sender with its tag that is large enough and each receive has a message, all members of a communicator make the same collective calls on it in the same order, and the program ends, whatever the order in which ranks advance and whether or not sends wait for their receives. halo3d-26 exchanges with each of its 26 neighbours; the communicators of fft are the lines of the grid; a rank of offered_load waits for exactly the messages that are sent to it.", "quantifier": "all numbers of processes in each direction, all sizes of messages, all numbers of iterations, all schedules of the ranks, all eager limits", "why_tests_cant": "Ends of a program and matching of messages depend on the whole grid and on the order of the ranks; tests run one or two grids, usually cubic.", "anchors": ["sstmac/skeletons/halo3d-26/halo3d-26.cc USER_MAIN", "sstmac/skeletons/sweep3d/sweep3d.cc USER_MAIN", "sstmac/skeletons/fft/fft.cc:66-165 USER_MAIN", "sstmac/skeletons/offered_load/main.cc:100-220 run_completion, USER_MAIN"]}
{"id": "C129", "title": "A simulated process starts with its own arguments, environment, libraries and main function", "statement": "A process has as its arguments the name of its application and the words of its parameter argv, and no other process can change them; it reads from its environment what it set last, before that what its application sets, and before that what the node sets, whatever other processes do; each name in the list of APIs gives one object of the kind beside it, which is deleted once at the end; an application runs the main function registered under its name; the executable is loaded while a process runs; and a failure that a process returns is the exit status of the simulator when that was asked for.", "quantifier": "all strings of arguments, all sequences of starts, changes of arguments and environment and ends of any number of processes, all lists of APIs, all sets of registered functions", "why_tests_cant": "Arguments, tables and the exit status are shared between processes, so errors depend on the order in which processes start, write and end; buffers have fixed sizes.", "anchors": ["sstmac/software/process/app.cc:227-296 App, env, apis", "sstmac/software/process/app.cc:391-423 setenv, getenv", "sstmac/software/process/app.cc:533-567 run", "sstmac/software/process/app.cc:654-733 UserAppCxxFullMain, aliasMains", "sstmac/software/process/app.cc:735-774 initArgv, skeletonMain", "sstmac/software/process/app.cc:147-215 lockDlopen, dlopenCheck, dlcloseCheck", "sstmac/software/process/app.h:272 env_string_", "sstmac/main/sstmac.cc:367-371 use_app_rc", "sprockit/sprockit/basic_string_tokenizer.h:88-135 tokenize"]}
{"id": "C130", "title": "The output of simulated processes goes where the parameters say and nothing of it is lost", "statement": "Each of stdout, stderr, cout and cerr of a process goes to the screen, to a file of its application, to a file of its rank or to the file that is named, as its own parameter says, and what a stream prints is in its file completely, once and in order, whatever other processes print and whenever buffers are written.", "quantifier": "all settings of the four parameters, all processes, all interleavings of starts, prints and writes of buffers", "why_tests_cant": "Loss of output depends on which streams share a file and on the interleaving of starts and writes.", "anchors": ["sstmac/software/process/app.cc:298-353 App stdout, stderr, cout, cerr", "sstmac/software/process/app.cc:363-379 coutStream, cerrStream"]}
{"id": "C131", "title": "Every application of the parameters is launched once, with the processes it asks for and its own parameters", "statement": "Every application app<n> of the parameters is launched once and has a number of its own; an aprun command gives the number of processes of its last -n, the number per node of its last -N or as many as a node has cores, and the cores of its last -cc, where the processes then run; options after the program are the program's; the nodes asked for have room for the processes and none is left empty; what is given for one application has precedence over what is given for all; a network that is made to measure has room for the applications; and the mapping of ranks to nodes is found while the application runs.", "quantifier": "all sets of application numbers, all lists of options with all numbers, all pairs of parameter tables, all histories of starts and ends of processes", "why_tests_cant": "The numbers, options and histories are unbounded, and gaps in the numbers, long commands and early ends of processes only matter in combinations.", "anchors": ["sstmac/software/launch/job_launcher.cc:105-162 addLaunchRequests", "sstmac/software/launch/launch_request.cc:75-107 SoftwareLaunchRequest", "sstmac/software/launch/launch_request.cc:168-310 requestAllocation, parseLaunchCmd, parseAprun", "sstmac/software/launch/app_launcher.cc:125-140 coreAffinity", "sstmac/software/launch/task_mapping.cc:50-136 serialize_order, addGlobalMapping, removeGlobalMapping", "sprockit/sprockit/sim_parameters.h:615-617 insert", "sstmac/backends/native/manager.cc:119-203 computeMaxNproc", "sstmac/main/params.cc:160-180 resizeTopology"]}
{"id": "C132", "title": "Computations and pauses cost the time that their operations, bytes and durations say", "statement": "A computation is charged for all operations and bytes it is given, in loops for each turn, and for reads, writes and copies for each byte; it takes its operations divided by frequency, parallelism and threads, at least, and the time of its bytes if they are not negligible; more operations or bytes never take less time; computations on different cores run at the same time; every computation ends; a pause lasts as long as it says; kernels of linear algebra are charged for the bytes of their operands with the parameters of their own application.", "quantifier": "all counts of operations, bytes, threads and turns, all frequencies and memories, all pauses, all sizes of matrices", "why_tests_cant": "Rounding, wrapping and serialisation show at particular sizes only, out of an unbounded range.", "anchors": ["sstmac/software/process/app.cc:470-520 computeLoop, computeDetailed, computeBlockRead", "sstmac/software/libraries/compute/lib_compute_inst.cc:79-135 computeDetailed, computeLoop", "sstmac/software/libraries/compute/lib_compute_memmove.cc:60-101 doAccess", "sstmac/software/libraries/compute/compute_api.cc:58-156", "sstmac/hardware/processor/instruction_processor.cc:72-116 compute", "sstmac/software/process/operating_system.cc:354-385 execute", "sstmac/software/process/simple_compute_scheduler.cc:53-73 reserveCores", "sstmac/hardware/logp/logp_memory_model.cc:73-101", "sstmac/hardware/memory/memory_model.h:165", "sstmac/common/timestamp.h:119-131 TimeDelta", "sstmac/libraries/blas/dgemm.cc:84-126", "sstmac/libraries/blas/blas_api.cc:72-98"]}
{"id": "C133", "title": "OpenMP calls answer as OpenMP says", "statement": "Outside of parallel regions the number of the thread is 0, the number of threads 1 and the level 0; the greatest number of threads is what was set last; parallel regions run with that many threads; threads of the program can ask as well; a test of a lock takes it if it is free and says so.", "quantifier": "all sequences of calls, all numbers, all threads", "why_tests_cant": "The answers depend on the history of calls and on the kind of the thread.", "anchors": ["sstmac/libraries/omp/libomp.cc:70-155", "sstmac/software/process/thread.h:324-358 ompGetThreadNum", "sstmac/software/process/thread.cc:319-355 spawnOmpParallel, setOmpParentContext, computeDetailed", "sstmac/software/process/app.cc:247-253", "sstmac/libraries/pthread/sstmac_pthread.cc:290-308 SSTMAC_pthread_mutex_trylock"]}
{"id": "C134", "title": "Allocations and mappings from boxes, coordinate files, node files and host names place ranks where they say", "statement": "Addresses and coordinates of nodes are inverse to each other; a box of a cartesian network, a file of coordinates and a file of hosts allocate exactly the nodes they name, as many as the job asks for; mappers from files of coordinates, of nodes and of hosts put each rank on the node of its line, on nodes of the allocation; each node has one name and the name leads to the node.", "quantifier": "all sizes of networks, all boxes, all files, all numbers of processes", "why_tests_cant": "Boxes and files are unbounded, and wrong entries show at particular sizes only.", "anchors": ["sstmac/software/launch/cart_allocation.cc:68-162", "sstmac/software/launch/coordinate_allocation.cc:72-135", "sstmac/software/launch/coordinate_task_mapper.cc:67-85 mapRanks", "sstmac/software/launch/node_id_task_mapper.cc:78-90 mapRanks", "sstmac/software/launch/node_id_allocation.cc:72-103 readCoordinateFile", "sstmac/software/launch/hostname_allocation.cc:70-105", "sstmac/software/launch/hostname_task_mapper.cc:70-103 mapRanks", "sstmac/hardware/topology/cartesian_topology.cc:96-187 readCoordFile, node_coords, node_addr", "sstmac/hardware/topology/topology.cc:303-338 nodeIdToName, nodeNameToId, initHostnameMap"]}
{"id": "C135", "title": "The torus router that goes up only delivers every packet on the shortest way up without deadlock", "statement": "With the router torus_positive every packet between nodes of a torus arrives at its node, uses links of the positive direction only, takes the smallest number of such links, uses the two virtual channels the router announces, and no set of packets can wait for each other in a circle, whatever the sizes of the torus.", "quantifier": "all dimensions and sizes of a torus, all pairs of nodes, all headers, all sets of packets under way", "why_tests_cant": "Circles of waiting packets and wrong turns depend on the sizes and on combinations of packets, of which there are unboundedly many.", "anchors": ["sstmac/hardware/router/torus_routing.cc:358-432 TorusPositiveRouter", "sstmac/hardware/topology/torus.cc:148-188 connectedOutports", "sstmac/hardware/common/packet.cc:64-80"]}
{"id": "C136", "title": "Messages of a debug flag are printed exactly while the flag is on", "statement": "A message of sprockit's debug output is printed exactly if one of its flags has been turned on, by itself, by its name or by -d, and output has not been turned off since, however flags are combined; a name leads to the flag registered last under it; it is an error exactly if a name is unknown or more than 63 flags are turned on; a list with commas turns on each of its names; and the text that describes a flag is printed with all its words on lines that fit.", "quantifier": "all registrations, all histories of turning flags and all output on and off, all sets of flags of a message, all lists, all texts and widths", "why_tests_cant": "Bits of flags are assigned by the order of use, so that wrong bits show only for particular histories of particular numbers of flags.", "anchors": ["sprockit/sprockit/debug.h:68-114 DebugInt", "sprockit/sprockit/debug.h:296-304 debug_printf conditional_debug_printf", "sprockit/sprockit/debug.cc:86-246", "sstmac/main/parseopts.cc:57-66 activateDebugs", "sstmac/main/help.cc:85-91", "sumi-mpi/mpi_debug.h:58-62", "sstmac/backends/native/manager.cc:260-268"]}
{"id": "C137", "title": "Options of the command line give each parameter its value in a fixed order of precedence", "statement": "A parameter has the value that a flag such as --no-congestion or --ping-all forces, or else the value of the last option that gives one (-p, -n, -V, -e, -i, -a, --app, -c), or else that of the machine for replays, or else that of the configuration file; the n-th -e sets the file of application n; the other options have the value given last; and the command line is refused exactly in the cases that its messages describe.", "quantifier": "all lists of options and all contents of files", "why_tests_cant": "The outcome depends on combinations of more than twenty options in any order; tests try a few command lines.", "anchors": ["sstmac/main/parseopts.cc:85-308 parseOpts", "sstmac/main/sstmac.cc:175-208 initParams", "sstmac/main/params.cc:82-199 remapParams", "sstmac/main/sstmac.h:60-92 opts", "sstmac/main/help.cc:60-95"]}
{"id": "C138", "title": "The host time of a process's own code is charged to it exactly once", "statement": "With host_compute_timer, the simulated time of a process grows between two calls of MPI by the time that its own code took on the host between them, each piece of its code being charged once, whatever the calls and other processes take.", "quantifier": "all programs as sequences of own work and calls, with all durations of calls and all numbers and answers of requests", "why_tests_cant": "Host times differ from run to run, so that tests cannot compare them; lost or doubled pieces only show for particular sequences of calls.", "anchors": ["sstmac/software/process/host_timer.h:50-75 HostTimer", "sstmac/software/process/thread.cc:213-230 Thread::startAPICall Thread::endAPICall", "sstmac/software/process/thread.cc:289-298 Thread::spawn", "sstmac/software/process/app.cc:534-542 App::run", "sumi-mpi/mpi_api.h:900-912 StartMPICall FinishMPICall", "sumi-mpi/mpi_api_test.cc:54-231", "sumi-mpi/mpi_api_probe.cc:58-100", "sumi-mpi/mpi_api.cc:325-330 MpiApi::wtime", "sumi-mpi/mpi_api_send_recv.cc:98-137 MpiApi::sendrecv"]}
{"id": "C139", "title": "Calls are accepted exactly between MPI_Init and MPI_Finalize, and MPI_Initialized and MPI_Finalized tell which has been called", "statement": "A program is stopped with an error exactly if it calls MPI before MPI_Init or after MPI_Finalize or initialises twice; MPI_Initialized and MPI_Finalized answer whether MPI_Init and MPI_Finalize have been called; a legal program is never stopped.", "quantifier": "all sequences of calls of a process", "why_tests_cant": "Whether a call is accepted depends on the whole history of calls before it.", "anchors": ["sumi-mpi/mpi_api.cc:223-320 MpiApi::init MpiApi::checkInit MpiApi::finalize", "sumi-mpi/mpi_api.cc:442-456 MpiApi::getComm", "sumi-mpi/mpi_api.h:132-154 initialized finalized initThread"]}
{"id": "C140", "title": "The Mersenne twister returns the values of its definition for every seed and every list of seeds", "statement": "For every seed, and every list of seeds that is not empty, the values are, in order and without end, the scrambled words of the recurrence of the 64 bit Mersenne twister of Nishimura and Matsumoto from the first words that its definition gives for the seed or the list, each cut to its lowest 32 bits; no seed gives the state of zeros; an empty list of seeds is an error.", "quantifier": "all seeds, all lists of seeds of any length, all numbers of values", "why_tests_cant": "A wrong index or mask in the replacement of the words in place only shows after hundreds of values, and tests can compare only some values of some seeds.", "anchors": ["sstmac/common/mersenne_twister.cc:48-165 mersenne_twister::reseed mersenne_twister::value mersenne_twister::vec_reseed", "sstmac/common/mersenne_twister.h"]}
{"id": "C141", "title": "A block under #pragma sst compute costs the operations that it would execute", "statement": "A block, loop or function under #pragma sst compute is replaced by code that charges exactly the floating point and integer operations that the block would have executed: for every nest of loops the operations of each body times the rounds of the loops around it, for branches as the hints say; a loop whose rounds cannot be known is refused by the compiler.", "quantifier": "all statements built of operators, steps, indices, declarations, sequences, nested counted loops with all limits and steps, branches with hints, switches and calls", "why_tests_cant": "Any nesting and any limits of loops must be counted right, and a wrong count changes predicted times without any error.", "anchors": ["bin/clang/computeVisitor.cc:152-464 ComputeVisitor::addOperations", "bin/clang/computeVisitor.cc:466-623 ComputeVisitor::getStride ComputeVisitor::getTripCount", "bin/clang/computeVisitor.cc:625-685 ComputeVisitor::addLoopContribution ComputeVisitor::replaceStmt", "bin/clang/computePragma.cc:233-325 SSTComputePragma", "bin/clang/computeLoops.h:51-88"]}
{"id": "C142", "title": "The modes of MPI sends mean what MPI says", "statement": "A synchronous send (MPI_Ssend, MPI_Issend) completes only after a matching receive has taken the message; a buffered send (MPI_Bsend, MPI_Ibsend) completes whether or not a receive is ever posted, so that two ranks that first send to each other and then receive do not block; for every length of message and in every execution.", "quantifier": "all lengths of messages, limits of protocols, layouts of buffers and orders of arrivals, pairings, fetches, acknowledgements and writes to memory", "why_tests_cant": "A test runs one length and one timing; whether a program that is correct under MPI deadlocks, or one that is wrong goes through, depends on the length against two limits and on the schedule.", "anchors": ["sumi-mpi/sstmac_mpi_macro.h:84-89,193-195 MPI_Bsend MPI_Ssend MPI_Ibsend MPI_Issend", "sumi-mpi/mpi_queue/mpi_queue.cc:168-200 MpiQueue::send", "sumi-mpi/mpi_protocol/eager0.cc Eager0::start", "sumi-mpi/mpi_protocol/eager1.cc Eager1::start", "sumi-mpi/mpi_protocol/rendezvous_rdma.cc RendezvousGet::start"]}
{"id": "C143", "title": "A block under #pragma sst compute is charged for the bytes that it reads", "statement": "The bytes that a block under #pragma sst compute is charged for are those that it would have read from arrays: each read of an element counts as often as it is executed, where reads that name one element in the same way in one round of a loop, with no assignment to its index between them, count once; for every nest of loops and for all index expressions.", "quantifier": "all programs of assignments, updates, declarations, sequences and nested loops over expressions with variables, constants, operators, casts, members, addresses and arrays of any depth", "why_tests_cant": "Whether two reads are of the same element depends on all statements between them; a wrong answer changes predicted times without any error.", "anchors": ["bin/clang/computeVisitor.cc:54-150 ComputeVisitor::checkMemoryAccess", "bin/clang/computeVisitor.cc:278-329 ComputeVisitor::visitBodyArraySubscriptExpr", "bin/clang/computeVisitor.cc:625-685 ComputeVisitor::addLoopContribution ComputeVisitor::replaceStmt", "bin/clang/dataFlow.h:64-132 MemoryLocation AccessHistory"]}
{"id": "C144", "title": "A collective call completes exactly when its messages have arrived, in any order", "statement": "A rank's call of a collective operation is reported complete exactly when the call was made and the messages that arrived for it complete each of its phases, once, however calls and messages of this and other collectives are interleaved and whether messages arrive before or after the call; every message goes to the call it is for, once and in order of arrival.", "quantifier": "all histories of calls and arriving messages at one rank, all lists of phases, all collectives (any predicate that says which messages complete them)", "why_tests_cant": "Messages of ranks that run ahead arrive before the call, between the phases of a call and among those of other collectives; a test sees a few of these orders, and a lost message is a hang.", "anchors": ["sumi/sim_transport.cc:912-922 CollectiveEngine::deliverPending", "sumi/sim_transport.cc:948-1004 CollectiveEngine::startCollective CollectiveEngine::finishCollective", "sumi/sim_transport.cc:1023-1072 CollectiveEngine::incoming CollectiveEngine::blockUntilNext", "sumi/collective.cc:122-245 Collective::actorDone DagCollective::recv DagCollective::addActors"]}
{"id": "C145", "title": "Calls of the C library on simulated memory do what the library says and touch no reserved memory", "statement": "memset and memcpy of a skeleton change exactly the bytes the C standard says when all buffers hold data, change nothing when one does not, never touch the reserved range that stands for buffers without data, and charge the processor for large blocks; gethostname writes only into the caller's array; advancing the time by a named parameter charges the value of the parameter; reading a parameter with a default gives the same value as without.", "quantifier": "all addresses, lengths, values and contents of memory, all placements of the reserved range, all names of hosts and lengths of arrays, all histories of calls, all values of parameters", "why_tests_cant": "Which addresses are touched depends on offsets into buffers without data and on the length; tests use small offsets, short names and whole numbers.", "anchors": ["sstmac/main/util.cc:70-216 sstmac_memset sstmac_memcpy sstmac_gethostname sstmac_advance_time getAppUnitParam", "sstmac/null_buffer.h:50-80 isNonNullBuffer isNullBuffer"]}
{"id": "C146", "title": "Node, loader, launcher and caller learn of the end of every process", "statement": "When a process ends, by returning from main or by _exit, its node no longer counts it, an executable stays loaded while a process uses it and is released when none does and the launcher has let it go, the launcher is told when rank 0 of a job ended, and no thread is lost; on request the exit status of the simulator tells whether a process failed.", "quantifier": "all histories of launches, starts, ends and releases of any number of applications, processes and nodes, all codes", "why_tests_cant": "Applications overlap, and their processes end in any order and in different ways; tests run one application whose ranks all return 0.", "anchors": ["sstmac/software/process/app.cc:145-215 App::lockDlopen App::dlopenCheck App::dlcloseCheck", "sstmac/software/process/app.cc:530-566 App::run", "sstmac/software/process/thread.h:190-210 Thread::kill", "sstmac/software/process/thread.cc:130-170 Thread::runRoutine", "sstmac/main/util.cc sstmac_exit", "sstmac/main/sstmac.cc:360-375"]}
{"id": "C147", "title": "The call graph gives every tick to the functions that were active, and counts their calls", "statement": "The call graph of a simulated thread gives every tick it spends to the function that was innermost, and to every call that was active; own times add up to the time of the thread, and for every function own time and time of its calls equal the time of the calls of it and the time it was outermost; idle time that an MPI call gives away moves to the idle entry; every call that spends time is counted once; the file has a line for exactly the functions with time.", "quantifier": "all programs as lists of entering, leaving, spending time and giving it away, any number of functions, any nesting and recursion", "why_tests_cant": "Counts depend on which functions stayed on the stack between two collections of time; tests compare a picture for one program.", "anchors": ["sstmac/software/process/graphviz.cc:110-263 CallGraph::collect CallGraph::reassign FunctionTrace::include FunctionTrace::summary CallGraphOutput::dumpCallGraph", "sstmac/software/process/graphviz.h:56-212 CallGraph FunctionTrace BACKTRACE_NFXN", "sstmac/software/process/thread.cc:266-288 Thread::appendBacktrace Thread::popBacktrace Thread::recordLastBacktrace", "sstmac/software/process/backtrace.h:52-115 CallGraphAppend"]}
{"id": "C148", "title": "The compiler wrapper passes on options, gives every source an object and links all of them", "statement": "The compiler wrapper passes every definition, include folder, warning, optimisation and debug option of the user to the compilation of every source file, in every mode; other words are passed unchanged; every source gets an object of its own; the link command has all generated and given objects, folders and libraries, in an order in which libraries serve the objects; the wrapper stops at the first failing command, returns its code, and leaves no temporary files.", "quantifier": "all argument lists, numbers of sources and objects, modes, configurations and results of the commands it runs", "why_tests_cant": "Which options reach which command depends on the mode, the passes and the names of files together; tests compile a few files with few options.", "anchors": ["bin/sstcclib.py:134-640 Context run", "bin/sstcompile.py:52-254 addPreprocess addClangCompile addSrc2SrcCompile addComponentCompile addCompile", "bin/sstlink.py:45-61 addLink", "bin/sstccutils.py:50-78 cleanFlag swapSuffix addPrefix rebaseFolder"]}
{"id": "C149", "title": "Transfers catch up exactly when the process or a partner has long been busy", "statement": "With a QoS for catching up configured, a rendezvous transfer uses it exactly if the receiving process, or a partner from which it has a message, has had transfers in progress without pause for longer than the cutoff; without it every transfer uses the usual QoS; messages carry the time since when their sender or its partners are busy.", "quantifier": "all histories of sends, headers, posted receives, data and acknowledgements at all times, any number of transfers in progress", "why_tests_cant": "Times and counts depend on the whole history of overlapping transfers, and on memory before construction; tests run with one QoS.", "anchors": ["sumi-mpi/mpi_protocol/rendezvous_rdma.cc:56-266 RendezvousProtocol RendezvousGet::start RendezvousGet::incoming newOutstanding finishedOutstanding", "sumi-mpi/mpi_protocol/mpi_protocol.h:160-193 RendezvousProtocol", "sumi-mpi/mpi_message.h:130-149 MpiMessage::setMinQuiesce", "sumi-mpi/mpi_message.cc:58-68 MpiMessage::serialize_order"]}
{"id": "C150", "title": "A trace has the ranks its metafile says, and every rank replays its own file", "statement": "Replaying a dumpi trace starts as many ranks as the last number in the metafile says; the prefix of the files is taken as it is if absolute and in the folder of the metafile otherwise; a metafile that lacks one of the two is refused; every rank reads an existing file named by the prefix and its rank, no two ranks read the same file, and all files belong to one trace.", "quantifier": "all metafiles, prefixes, ranks and contents of folders", "why_tests_cant": "Last lines, missing settings, long prefixes and folders with several traces do not occur in the traces used by tests.", "anchors": ["sstmac/dumpi_util/dumpi_meta.cc:55-135 DumpiMeta::DumpiMeta DumpiMeta::parsemeta DumpiMeta::parseFilePrefix", "sstmac/dumpi_util/dumpi_util.cc:55-91 dumpiFileName", "sprockit/sprockit/basic_string_tokenizer.h:88-135 tokenize", "sstmac/software/launch/launch_request.cc:87-92", "sstmac/skeletons/undumpi/parsedumpi.cc:93-110 ParseDumpi::skeletonMain"]}
{"id": "C151", "title": "Pictures of the traffic show each link and the colours that were measured", "statement": "The statistic for pictures of the network tells all links and ports apart; it draws exactly the switches within the filters; an intensity has the level of the thresholds it reaches; what is drawn for a port at a time is the colour measured there, averaged over the minimal interval if there is one; at the end all ports return to the colour of idle ones.", "quantifier": "all links, filters, thresholds and histories of colours at all times, for all colours and averages", "why_tests_cant": "Colours depend on whole histories and on memory before construction, identifiers on the size of the network; there are no tests with pictures.", "anchors": ["sstmac/hardware/vtk/vtk_stats.h:103-256 vtk_link vtk_port StatVTK::port_state", "sstmac/hardware/vtk/vtk_stats.cc:405-580 StatVTK::StatVTK StatVTK::finalize StatVTK::configure StatVTK::collect_new_color StatVTK::collect_new_intensity", "sstmac/hardware/sculpin/sculpin_switch.cc:209-222"]}
{"id": "C152", "title": "The particle-in-cell skeleton keeps its particles", "statement": "Each patch of the skeleton exchanges particles with its six neighbours on a periodic grid, and each message is received for the face it was sent by. No particle is lost or made: what leaves a patch leaves its boxes, what comes in is added, and the total over all patches is the same after any number of exchanges. Each step ends. Fractions that move stay within the limits given by the user.", "quantifier": "all grids of patches, numbers of boxes, occupations, fractions, numbers of exchanges and orders of reports", "why_tests_cant": "Totals and ends depend on all occupations and fractions and on the number of exchanges; small grids share partners only in some orders of messages.", "anchors": ["skeletons/pic/pic.cc:97-278 exchange move init", "skeletons/pic/pic.h:129-131 patchId", "skeletons/pic/skeleton.cc:66-323 getSkeletonFraction skeletonInitOverdecomposition skeletonPackMigrated skeletonFillOutgoing"]}
{"id": "C153", "title": "Snapshots of Omni-Path fabrics become their links and routes", "statement": "The tool for reports of a fabric writes exactly the cables of the snapshot, in both directions, and for each switch and node the ports and names at their other ends, and for each switch the port of its forwarding entry for each node; the result can be read by the file topology. The route tracer prints the route from one node to another by these tables, and ends.", "quantifier": "all snapshots, names, links, forwarding tables, pairs of nodes and flags", "why_tests_cant": "Collisions of ports and names, cycles and missing cables depend on the whole fabric; the tools have no tests.", "anchors": ["bin/tools/opareport_snapshot_parser.py:102-282 gen_link_table gen_routing_tables sst_map named_routing_tables", "bin/tools/opa_snapshot_route_tracer.py:79-94 get_link trace_route", "sstmac/hardware/topology/file.cc:60-84"]}
{"id": "C154", "title": "Messages over the Merlin network are sent whole, in order, and acknowledged once", "statement": "For every history of messages and every behaviour of the link, the interface over the Merlin network hands the link the packets of the messages in the order of injection, each message from head to tail in full packets of the MTU and a last one, one packet for an empty message; each injection or report of the link sends all that the link has room for; the node is told of the injection of exactly the messages that need it whose last packet the link has reported; and a receiver to which the packets come in any order hands up every message exactly once.", "quantifier": "all MTUs, messages, orders of injections and reports, answers of the link about room, and orders of arrival", "why_tests_cant": "How packets interleave with room in the link depends on the whole history; the fault of large MTUs needs sizes no test uses.", "anchors": ["sstmac/hardware/merlin/merlin_nic.cc:199-322 incomingCredit incomingPacket inject doSend sendWhatYouCan", "sstmac/hardware/common/recv_cq.cc:74-98"]}
{"id": "C155", "title": "Under SST core, components and topology get the parameters of the input", "statement": "When a parameter file is simulated under SST core, Python sees every value at its place and reading the dictionaries back gives the input again; every switch and node component finds each value of its namespace under its dotted name, and each global value of which it has none of its own; every application reaches the nodes whole; and the topology that wires the machine is made from the values of the input for it.", "quantifier": "all trees of parameters, names, values and depths", "why_tests_cant": "Whether a value is shadowed or lost depends on all names in all scopes of the input; the tests use a handful of files.", "anchors": ["sstmac/sst_core/integrated_core.cc:113-228 py_extract_params py_add_params py_add_sub_params read_params", "sstmac/sst_core/sstmacro.py:81-125,259-311 macroToCoreParams setupDeprecatedParams defaultEpFxn", "sstmac/sst_core/python_topology.cc:320-370 sys_init"]}
{"id": "C156", "title": "Under SST core the Python configuration wires the machine the topology describes", "statement": "When the simulator runs as an element of SST core, the Python configuration gives every link its own name and every component finds a link on each port it asks for, provided the cables of the topology have two directions on the same ports; what is sent on a port reaches exactly one port, the one the topology names: payload forwards and credits backwards between switches with the configured link latency, between nodes and their switch with the injection latency, and between every node and the LogP switch. These are the connections of the machine wired without SST core, and nothing else is connected. This holds for tori, hypercubes, fully connected networks, fat trees, dragonflies, dragonfly+ and cascades under the conditions in which their links agree from both ends. It fails where a node's network port has number 1 (it is the LogP port), where cables have one direction only (the components stop), and for the latency of ejection and of its credits, which differ from the machine without SST core.", "quantifier": "all topologies (any number of switches, nodes, connections and ports), all latencies, LogP and full models, all ports and links", "why_tests_cant": "A wiring is right only if it is right for every pair of ports of every topology and size; a test builds one machine and sees one run, and shared names or ports and wrong latencies do not stop it.", "anchors": ["sstmac/sst_core/sstmacro.py:makeUniLink", "sstmac/sst_core/sstmacro.py:connectSwitches", "sstmac/sst_core/sstmacro.py:connectEndpoints", "sstmac/sst_core/sstmacro.py:buildLogPNetwork", "sstmac/sst_core/python_topology.cc:sys_get_switch_connections", "sstmac/hardware/common/connection.cc:initInputLink", "sstmac/hardware/common/connection.cc:initOutputLink", "sstmac/hardware/switch/network_switch.cc:configureLinks", "sstmac/hardware/nic/nic.cc:configureLinks", "sstmac/hardware/logp/logp_switch.cc:LogPSwitch"]}
{"id": "C157", "title": "The box skeleton runs every event of its graph once, in place and in order", "statement": "In the fully asynchronous mode of the boxml skeleton, with computations and point-to-point messages, if dependencies are events of the graph without cycles, an event depends only on events that end on the rank where it starts, and a message within a rank depends on something, then in every run, whatever the interleaving of ranks, the order of valid events and the delivery of messages: every event starts and ends at most once, on the rank of its box; it starts after all it depends on has ended and a message is received after it was sent; the event counter of a rank is never negative and is zero exactly when all its computations, sends and receives are done; while a counter is positive some rank with a positive counter can go on; so the loops end, after at most two steps per event, with everything done. A local message without dependencies, and a computation that depends on an event ending on another rank, are refuted: a rank waits for ever. Passing a local message on can also invalidate the iterator of the loop over sends.", "quantifier": "all event graphs, placements of boxes on ranks, numbers of ranks, and interleavings of sends, computations and receives", "why_tests_cant": "The schedules of the ranks and of the network are unbounded in number; a test runs one graph with one schedule.", "anchors": ["skeletons/boxml/boxml-run.cc: boxml::count_events, boxml::send_boxes, boxml::compute_boxes, boxml::recv_boxes, boxml::run_loop", "skeletons/boxml/boxml-data.cc: boxml::populate_listeners, boxml::distribute_comm, boxml::distribute_comp, boxml::distribute_events, boxml::simple_event_done"]}
{"id": "C158", "title": "The ranks of LULESH exchange what their positions demand, in buffers that do not overlap, and end", "statement": "For every cube of ranks, edge length and number of steps of the LULESH skeleton: ranks and positions in the cube correspond; in every exchange a rank sends to another exactly one message if they touch (and, for positions and velocities, if the receiver comes first in the order of planes, rows and columns; for gradients, if they share a face), with as many values as they share points times fields, and nothing otherwise; the other has exactly one receive of that size; over a run the messages and receives between two ranks are those of the exchanges of the run, in order; all messages stay among the ranks; the functions that take the data in wait for the requests and read the places that the receives were posted with; requests are numbered in order and are at most 26, places do not overlap and lie in the allocated buffers; all ranks call the same collectives; with any sizes sent eagerly, every run ends. The program starts only if the ranks form a cube.", "quantifier": "all numbers of ranks, edge lengths, numbers of steps, pairs of ranks, thresholds of eager sends and interleavings of the ranks", "why_tests_cant": "26 directions times positions in the cube times flags are coded by hand in five functions; a test runs one or two sizes of cube and does not see an overlap of buffers whose data nobody checks.", "anchors": ["skeletons/lulesh2.0.3/lulesh-comm.cc: CommRecv, CommSend, CommSBN, CommSyncPosVel, CommMonoQ", "skeletons/lulesh2.0.3/lulesh-init.cc: InitMeshDecomp, Domain::SetupCommBuffers", "skeletons/lulesh2.0.3/lulesh.cc: main, TimeIncrement, CalcForceForNodes, LagrangeNodal, CalcQForElems"]}
{"id": "C159", "title": "The halo exchange of CoMD brings every surrounding cell from its owner", "statement": "For every grid of ranks and of link cells of the CoMD skeleton: coordinates and ranks correspond; cell coordinates of a domain with one layer around it and cell numbers from 0 to the total correspond both ways, local cells first, so that no assertion on them fails; the lists of cells have the asserted lengths and the atom lists are the two outermost planes at each face; after an exchange, every cell of every rank and of the layer around it, faces, edges and corners, holds what the rank that owns this place of the periodic domain had there; a message through a face is expected by the neighbour through the opposite face, also if both neighbours are the same rank or the rank itself; all messages stay among the ranks; any number of exchanges ends, with any sizes and any threshold of eager sends; messages within the capacity fit. That the capacity suffices for all faces is refuted: the size of the faces in x is left out of the maximum, and it suffices exactly if that size is not larger than the others.", "quantifier": "all grids of ranks and cells, contents of cells, numbers of exchanges, message sizes, thresholds and interleavings", "why_tests_cant": "Numbers of halo cells come from seven formulas that must partition a range for every grid; edges and corners arrive through two or three ranks; a test has a few cubic grids, where the forgotten face is never the largest.", "anchors": ["skeletons/CoMD/src/decomposition.c: initDecomposition, processorNum", "skeletons/CoMD/src/linkCells.c: initLinkCells, getBoxFromTuple, getTuple", "skeletons/CoMD/src/haloExchange.c: initAtomHaloExchange, initForceHaloExchange, mkAtomCellList, mkForceSendCellList, mkForceRecvCellList, exchangeData, haloExchange", "skeletons/CoMD/src/parallel.c: sendReceiveParallel"]}
{"id": "C160", "title": "The HPCG skeleton arranges any number of processes in the most compact grid", "statement": "For every number of processes of the HPCG skeleton: the factors found by trial division are primes that multiply to the number (one has the factor one); the loops over the choices of factors end and visit every choice but the empty one exactly once; the three extents of the grid multiply to the number of processes, whatever the output variables held before; no other grid of three extents with this product has a smaller surface; ranks and positions in the grid correspond one to one.", "quantifier": "all numbers of processes, contents of output variables, other grids and ranks", "why_tests_cant": "A wrong case of the six shows only for numbers with that pattern of prime factors, and a shape that is not the best gives a run that is only slower; tests use a few powers of two.", "anchors": ["skeletons/hpcg-3.0/src/ComputeOptimalShapeXYZ.cpp: ComputePrimeFactors, pow_i, ComputeOptimalShapeXYZ", "skeletons/hpcg-3.0/src/MixedBaseCounter.cpp: MixedBaseCounter, next, is_zero, product", "skeletons/hpcg-3.0/src/GenerateGeometry.cpp: GenerateGeometry"]}
{"id": "C161", "title": "Keywords are accepted as registered and input files found by search path, independent of registration order", "statement": "For all registrations of keywords and all names: a plain keyword is accepted; a numbered one is accepted with a suffix that begins with a digit and ends the program without; what is accepted is registered in one of these ways, so that other names are rejected; the order and number of registrations does not matter as long as no name is registered in both ways. Refuted: with a name registered in both ways the first static constructor decides; a numbered keyword whose name contains a digit is rejected with its number; characters after the first digit are not checked. With validation a run goes on exactly with accepted keywords and the removed one. A file is opened by its own name if possible, else from the directory added last that has it, and is not found exactly if none has it.", "quantifier": "all lists of registrations and their orders, names, suffixes, search paths and file systems", "why_tests_cant": "Registrations come from static constructors of many files whose order the linker chooses; a test sees one order and a few names.", "anchors": ["sprockit/sprockit/keyword_registration.cc: KeywordRegistration::isValidKeyword, registerKeyword, validateKeyword, StaticKeywordRegister", "sprockit/sprockit/keyword_registration.h: is_digit, RegisterKeywords", "sprockit/sprockit/fileio.cc: SpktFileIO::addPath, openFile"]}
{"id": "C162", "title": "The traffic skeleton pairs every sender with one receiver, and both sides agree", "statement": "For all numbers of ranks, senders and receivers that the traffic skeleton accepts, all seeds and all hashes: a shuffle is a rearrangement by ascending hash; there is one pair per sender, senders are different even ranks, receivers odd ranks with equally many senders each; a rank sends to another exactly if that one expects it, no rank does both, and a receiver expects different ranks; with shuffled receivers no pair is on one node; messages of a pair and the receives for them have the same tags in the same order, and as many as asked for. Refuted: the seed for the receivers has no effect; without a shuffle pairs are on one node; the array of requests is too short for more than six senders to a receiver (exactly then); a rank that is source and destination in a file of flows plays only the part of the source (with different sources that are no destinations the parts agree).", "quantifier": "all numbers of ranks, senders, receivers, seeds, hash functions, flows, iterations and windows", "why_tests_cant": "The pairing depends on shuffles by a hash, each rank derives its part on its own, and a disagreement is a hang; the array overflows only with seven or more senders to a receiver.", "anchors": ["skeletons/traffic/main.cc: pseudo_random_shuffle, shuffled_recvers, main, send_traffic, recv_traffic"]}
