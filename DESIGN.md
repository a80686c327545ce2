# Formal model of sst-macro in Lean 4

This directory holds a machine-checked model of parts of sst-macro (source in
`/repo`, read as text) and proofs about it.

* `properties.jsonl` – the properties, in English.
* `lean/Verif/<Component>/Model.lean` – the model: small total functions, one per
  modelled C++ function, each with the file and lines it models.
* `lean/Verif/<Component>/Spec.lean` (where needed) – a small specification that
  does not mention the model.
* `lean/Verif/<Component>/Lemmas*.lean` – auxiliary lemmas.
* `lean/Verif/<Component>/Props.lean` – the property theorems, each followed by an
  `example` showing that a concrete, non-trivial case meets its hypotheses.
* `MANIFEST.json` – property → theorems.
* `seeded/LOG.jsonl` – the mutation log: wrong programs tried against the theorems.

Conventions

* C++ `int`/`size_t` quantities that are not subject to overflow in the property
  are modelled by `Nat`/`Int`; where overflow or wrap-around is the point
  (time stamps, tags, buffers) fixed-width arithmetic is modelled explicitly.
* `abort`, `throw` and undefined behaviour are distinct outcomes (`Option`,
  `Except` or an explicit constructor), never a default value.
* Where the code does not satisfy the English property, the failing case is proved
  as a theorem with a concrete witness (`..._refuted`), and the strongest true
  version is proved with the suffix `_partial`.

## Properties: what is modelled and how each is proved

### C01 — Adding a delay never moves simulated time backwards

*Property.* For every time point t and delay d, t + d is not before t, and adding d1 then d2 is the same as adding d1 + d2.

*Model and proof.* Timestamps as pairs of `BitVec 64` exactly as in the header (carry mask 0). Theorems about addition with the no-wrap side condition; a refutation shows that without it time goes backwards.

### C02 — Time comparison operators form one consistent total order

*Property.* For every pair of time points exactly one of a<b, a==b, a>b holds, a<=b is the same as (a<b or a==b), a>=b the same as (a>b or a==b), and < is transitive; so sorting events by time is well defined.

*Model and proof.* The five comparison operators transcribed on pairs; trichotomy and transitivity for `<`; agreement of `<=`, `>=` with `<` and `==` for equal epochs; refutation for different epochs.

### C03 — Time subtraction undoes time addition

*Property.* For every time point t and delay d for which t + d does not overflow, (t + d) - d = t and (t + d) - t = d.

*Model and proof.* Both subtraction operators transcribed, including the borrow branch and the abort; round-trip theorems and a refutation of the boundary case.

### C04 — Events run in non-decreasing simulated time

*Property.* Whatever events are scheduled up front or by handlers while running, the sequence of executed events has non-decreasing arrival times and the clock observed through now() never decreases, in every run of a build with sanity checks that does not abort; a build without the checks behaves identically on all those runs.

*Model and proof.* Event queue as an ordered list with set semantics; `schedule`, `runEvents` with an arbitrary handler; induction over steps.

### C05 — Every scheduled event is executed exactly once

*Property.* When a run of a build with sanity checks finishes with an empty queue, without abort and without stop(), each event passed to schedule was executed exactly once: nothing is lost, nothing runs twice.

*Model and proof.* Ghost multiset of accepted events; conservation invariant by induction over any interleaving.

### C06 — Execution order does not depend on the order in which events were inserted

*Property.* Two queues filled with the same events in different orders execute them in the same order; ties at equal time are broken by link identity and then by per-link sequence number.

*Model and proof.* Insertion order independence: the queue is a function of the set of events (sorted list uniqueness).

### C07 — Scheduling in the past is rejected, never silently executed

*Property.* In a build with sanity checks a schedule call whose arrival time is before the current clock aborts; consequently no event is ever executed at a time earlier than the clock at which it was scheduled.

*Model and proof.* `schedule` returns an abort outcome; invariant that executed events are never earlier than the clock at scheduling.

### C08 — Events sent over one link at non-decreasing arrival times are delivered in send order

*Property.* If a component sends several events on one link so that their arrival times are non-decreasing, the receiver handles them in the order they were sent, whatever else is scheduled in between.

*Model and proof.* Links allocate increasing sequence numbers; order of keys follows order of sends.

### C09 — Conservative parallel simulation never delivers an event into the past

*Property.* When simulated components are split over workers and every cross-worker link has latency at least the lookahead, no worker ever receives an event with an arrival time earlier than its own clock, so the scheduling abort cannot fire.

*Model and proof.* N logical processes with queues, rounds of the window protocol (horizon = global minimum + lookahead); invariant over rounds for arbitrary handlers respecting the link latency.

### C10 — Parallel simulation gives the same per-component history as serial simulation

*Property.* For the same components, links and initial events, every component sees exactly the same sequence of events at the same times in a partitioned conservative run as in a serial run.

*Model and proof.* Refinement of the windowed run to the serial run: per-component traces are equal; uses C09.

### C11 — Every worker thread takes part in the window synchronisation exactly once

*Property.* With n worker threads, the tree used to broadcast the window and to collect the minimum next-event time contains every thread exactly once, and the value the main thread obtains is the minimum over all threads.

*Model and proof.* The thread tree built by the container; each index appears exactly once; the min reduction over the tree equals the list minimum.

### C12 — Serialization round-trip

*Property.* Packing a value of any supported type (integers, booleans, strings, vectors, lists, sets, maps, nested combinations) and unpacking the bytes yields the same value.

*Model and proof.* A universe of serializable types with size/pack/unpack interpreters; round-trip by structural induction.

### C13 — The size pass predicts exactly the bytes packed and consumed

*Property.* For every value, the number of bytes reported by the sizing pass equals the number of bytes written by the packing pass and the number read by the unpacking pass.

*Model and proof.* Size = length of packed bytes = bytes consumed; refutation for `binary` with a null pointer.

### C14 — Packing and unpacking never step outside the supplied buffer

*Property.* Whatever the buffer size and contents (including truncated or corrupt input), packing or unpacking either stays inside the buffer or reports a buffer overrun; it never touches bytes beyond the end.

*Model and proof.* Buffer accessor as bounded cursor; every access checked.

### C15 — Concatenated messages unpack back to the same sequence

*Property.* Several values packed one after the other into one buffer unpack, in the same order, to the same values, regardless of what follows in the buffer.

*Model and proof.* Prefix version of round-trip with arbitrary trailing bytes, lifted to lists of heterogeneous values.

### C16 — Concurrent senders never overlap in the inter-process send buffer

*Property.* Whatever sizes the threads reserve and in whatever order their reservations take effect, the byte ranges handed out are pairwise disjoint, lie inside the buffer they were taken from, and after the merge step the send buffer holds every reserved byte.

*Model and proof.* `allocateSpace`/`copyToBackup`/`reset` as a state machine; disjointness invariant for arbitrary reservation sequences.

### C17 — MPI messages between a pair of ranks do not overtake

*Property.* If a rank sends two messages to the same destination on the same communicator and both match a posted receive, the first-sent message matches first, whatever the order in which the network delivers them.

*Model and proof.* Composition of sequence-number release and the matching engine; eager-1 refutation.

### C18 — Out-of-order arrivals are released in send order, exactly once

*Property.* For each sender, messages that arrive in any order are handed to the matching engine in send order, each exactly once, and none is withheld once all its predecessors have arrived.

*Model and proof.* held/next_inbound machine; for any permutation of arrivals the output is the send order.

### C19 — Each message matches at most one receive and each receive at most one message

*Property.* In any history of posts and arrivals, a message is paired with at most one receive and a receive with at most one message, nothing is dropped, and no unmatched compatible pair is left waiting in the queues.

*Model and proof.* need-recv and need-send lists as a two-list machine; invariants by induction.

### C20 — Receive matching follows communicator, source and tag with wildcards

*Property.* A message is matched to a receive only if communicators agree, the source equals the requested source or MPI_ANY_SOURCE was given, and the tag equals the requested tag or MPI_ANY_TAG was given; of several matching messages the earliest queued is taken, and of several matching receives the earliest posted.

*Model and proof.* `matches` and first-match search against a declarative spec.

### C21 — Protocol choice is determined by message size alone and covers every size

*Property.* Every message length selects exactly one transfer protocol, with the thresholds ordered: very short, eager, rendezvous; a longer message never selects a 'shorter' protocol than a shorter one.

*Model and proof.* the protocol choice in `send` on `BitVec`s as a function of the size and the thresholds; total and monotone.

### C22 — Waitany/waitsome/testall/waitall report exactly the completed requests

*Property.* For every array of requests (including null ones), waitsome/testsome return each completed request exactly once with its own status, waitany returns an index of a completed request, testall reports true iff all are complete and otherwise leaves requests untouched.

*Model and proof.* wait/test loops over request arrays with completion flags; spec by filtering.

### C23 — Group operations preserve rank identity

*Property.* A group built by including a list of ranks (or ranges) has the size of the list, its i-th member is the process of the i-th listed rank, and rank translation between two groups maps a rank to the rank of the same process in the other group or to undefined if absent.

*Model and proof.* groups as lists of task ids; incl / range incl / translate.

### C24 — MPI_Comm_split partitions the parent communicator

*Property.* Every process that supplies a valid color lands in exactly one new communicator, which contains exactly the processes with that color, ordered by key and then by parent rank; all its members compute the same membership and the same id.

*Model and proof.* `commSplit` run by every rank on the same gathered table; partition, order and agreement.

### C25 — Cartesian coordinates and ranks are inverse

*Property.* For a Cartesian communicator with any dimensions, converting a rank to coordinates and back is the identity, and converting in-range coordinates to a rank and back is the identity; the rank is within the communicator.

*Model and proof.* mixed radix conversion; both inverse laws for every dimension vector.

### C26 — Cartesian shift returns the neighbour at the given displacement

*Property.* MPI_Cart_shift with any displacement returns, in a periodic dimension, the rank whose coordinate is displaced modulo the extent, and in a non-periodic dimension MPI_PROC_NULL outside the grid.

*Model and proof.* `shift` transcribed on Int with C++ truncating remainder; correct for displacement >= -extent; refutation beyond.

### C27 — Concurrent collectives never share a tag

*Property.* Two collectives on different communicators, or two different collectives on the same communicator that can be outstanding at the same time, use different tags.

*Model and proof.* 16-bit tag counter shifted with the communicator id; injectivity modulo 2^16 and refutation at wrap.

### C28 — Derived datatypes pack and unpack the bytes they describe

*Property.* For every derived datatype, packing a buffer and unpacking it into another buffer copies exactly the bytes that the type map describes and leaves the other bytes alone.

*Model and proof.* pack actions on byte maps; contiguous correct, vector and indexed refuted.

### C29 — Allgather delivers every contribution to every rank

*Property.* After an allgather, with either built-in algorithm, every rank holds the concatenation of all contributions in rank order.

*Model and proof.* Bruck and ring as synchronous message-passing programs over all ranks; invariant on held blocks.

### C30 — Allreduce gives every rank the reduction of all contributions

*Property.* After an allreduce with an associative and commutative operation every rank holds the reduction of all n contributions, each counted exactly once.

*Model and proof.* Wilke halving allreduce as rounds over (virtual) ranks; multiset of contributions.

### C31 — Broadcast reaches every rank exactly once from the root

*Property.* After a broadcast every rank holds the root's data, every non-root rank receives exactly one message, and the number of messages is n-1.

*Model and proof.* binary tree broadcast: parent function, each rank reached once.

### C32 — Gather and scatter place every block at its rank's position

*Property.* After a gather the root holds every rank's block at that rank's offset; after a scatter every rank holds its own block of the root's buffer.

*Model and proof.* gather/scatter trees with offsets.

### C33 — Reduce gives the root the reduction of all contributions

*Property.* After a reduce the root holds the reduction of every rank's contribution, each counted exactly once.

*Model and proof.* as C30 with a root.

### C34 — Alltoall transposes the block matrix

*Property.* After an alltoall block j of rank i's send buffer is block i of rank j's receive buffer.

*Model and proof.* Bruck alltoall block movement; direct alltoall.

### C35 — Scan gives rank r the prefix reduction over ranks 0..r

*Property.* After a scan, rank r holds the reduction of the contributions of ranks 0 to r, each counted exactly once, in rank order.

*Model and proof.* scan rounds; prefix ranges.

### C36 — A collective's dependency graph runs every action exactly once and then reports completion once

*Property.* Each action of a collective starts only when all its dependencies have completed, each starts exactly once, and completion is signalled exactly once, after all actions are done, for every order in which completions arrive.

*Model and proof.* join counters as a state machine over an arbitrary DAG; exactly-once start and completion.

### C37 — Collective action identifiers are unique and decodable

*Property.* Within one collective, two actions with different type, round or partner have different identifiers, and the identifier determines all three.

*Model and proof.* arithmetic encoding and decoding of action ids.

### C38 — Every virtual rank is owned by exactly one real rank

*Property.* The map from virtual to real ranks used for non-power-of-two collectives assigns each virtual rank to exactly one existing rank, and a rank's list of virtual ranks is exactly the set assigned to it.

*Model and proof.* virtual rank map functions; partition theorem.

### C39 — Switch ids and coordinates are in bijection

*Property.* For every topology, converting a switch id to coordinates and back is the identity on all switches, in-range coordinates give an in-range id, and distinct coordinates give distinct ids.

*Model and proof.* mixed radix and block id functions for each topology.

### C40 — Torus links are wired symmetrically and fill each port once

*Property.* In a torus, whenever port p of switch s is connected to input q of switch d, port q of d is connected to input p of s, no two links share a port, and the link goes to the neighbouring coordinate with wrap-around.

*Model and proof.* `connectedOutports` of the torus; symmetry for extents >= 2; refutation for extent 1.

### C41 — Minimal torus routing always reaches the destination, by a shortest path

*Property.* Following the minimal router from any source switch always reaches the destination switch in exactly the number of hops reported by the topology's minimal distance, which is the graph distance, and never exceeds the diameter.

*Model and proof.* router step function iterated; distance strictly decreases; equality with the graph distance.

### C42 — Minimal torus routing is free of channel-dependency cycles

*Property.* With the virtual channels the minimal router assigns (switching at the date line), the channel dependency graph induced by all routes is acyclic, so credit-based flow control cannot deadlock.

*Model and proof.* rank function on channels (dim, direction, vc, position) that every dependency increases.

### C43 — Hypercube (generalised) routing reaches the destination one coordinate at a time

*Property.* In a hypercube topology the minimal router reaches the destination in exactly as many hops as coordinates differ, and links are symmetric.

*Model and proof.* one coordinate fixed per hop; count of differing coordinates.

### C44 — Fat-tree up and down links agree

*Property.* In a three-level fat tree, the switch and port at the far end of any up link report that same link as a down link back.

*Model and proof.* index arithmetic of up and down wiring; refutation where leaf/agg down wiring disagrees.

### C45 — Fat-tree routing reaches every destination within four hops

*Property.* From any leaf to any other leaf, the fat-tree router goes up at most two levels and down at most two and ends at the destination switch, whatever choices its load balancing makes.

*Model and proof.* router step with arbitrary rotation choice; induction on level.

### C46 — Dragonfly global links are wired consistently

*Property.* For every group wiring, if a switch's global port leads to an input port of another switch, the other switch's corresponding output leads back, and no input port is used twice.

*Model and proof.* wiring functions in modular arithmetic; symmetric for circulant and all-to-all; single wiring for even group size; refutation for odd.

### C47 — Dragonfly minimal routing uses at most one global and two local hops

*Property.* The dragonfly minimal router reaches any destination in at most three hops (local, global, local) and the virtual channel index never exceeds the number of channels it declared.

*Model and proof.* router step; at most three hops.

### C48 — Topology distance reports are truthful

*Property.* The minimal distance a topology reports between two switches equals the length of a shortest path in the wiring it reports.

*Model and proof.* graph distance by walks; equality where true, refutations elsewhere.

### C49 — Node addresses and injection ports agree

*Property.* For every topology with concentration c, the nodes attached to switches partition the node ids, the switch reported for a node lists that node among its own, and the injection port numbers of a switch are disjoint from its network ports.

*Model and proof.* node/switch arithmetic.

### C50 — Credits are conserved and receive buffers never overflow

*Property.* On every link the credits held by the sender plus the bytes in flight, buffered or being credited back always equal the buffer size, so the receiver never holds more bytes than its buffer.

*Model and proof.* sender/receiver link machine with in-flight credits; conservation by induction.

### C51 — Packets on one virtual channel keep their order

*Property.* Packets handed to one output buffer on one virtual channel leave in the order they were handed in.

*Model and proof.* FIFO per virtual lane for snappr; refutation for pisces' payload queue.

### C52 — A message is delivered exactly once, when all its bytes have arrived

*Property.* Whatever order the packets of any number of interleaved messages arrive in, the completion queue returns each message exactly once, on the arrival of its last missing byte.

*Model and proof.* byte counting completion queue against a spec on multisets of packets.

### C53 — Packetisation covers every message exactly

*Property.* Splitting a message into packets of at most the MTU yields packets whose lengths add up to the message length, each at most the MTU, with exactly one tail packet, and stopping for lack of credits and resuming later yields the same packets.

*Model and proof.* packet loop with interruption; sum and tail theorems.

### C54 — A link never transmits two packets at once

*Property.* Transmission intervals that the bandwidth arbitrator assigns on one link never overlap and respect first-come-first-served order, and each lasts size divided by bandwidth.

*Model and proof.* busy-until arbitration; interval disjointness by induction.

### C55 — Injection queues never lose or duplicate a message

*Property.* Messages given to a NIC's injection queue are all eventually taken from it exactly once, whatever the policy (FIFO, round robin, priority).

*Model and proof.* queue machines; round robin refuted beyond capacity, proved below.

### C56 — At most one thread holds a simulated mutex, and waiters are served in order

*Property.* In every history of lock, trylock and unlock calls, at most one thread is inside the critical section at any time, blocked threads acquire the mutex in the order they blocked, and unlocking with waiters hands the mutex to the first.

*Model and proof.* mutex machine; invariant for lock/unlock; trylock refuted.

### C57 — Cores are never oversubscribed

*Property.* At any time the cores held by running threads number at most the cores of the node, and no core is held by two threads.

*Model and proof.* counters and masks; invariants; refutation for core ids in the simple scheduler.

### C58 — A node is allocated to at most one job at a time

*Property.* In every history of job starts and stops, the node sets of running jobs are disjoint and disjoint from the free set, and a stopped job's nodes become free again.

*Model and proof.* job launcher machine; disjointness invariant.

### C59 — Every rank of a job is mapped to an allocated node within the per-node limit

*Property.* A task mapper assigns each of the nproc ranks to exactly one node of the allocation, and no node gets more than ppn ranks.

*Model and proof.* mappers as list functions; refutation for round robin with remainder.

### C60 — The job start message reaches every rank exactly once

*Property.* Starting at rank 0, forwarding the start message along the launch tree reaches each of the n ranks exactly once, with at most ceil(log2 n) sends per rank.

*Model and proof.* binomial tree; each rank has exactly one parent; reachability by strong induction.

### C61 — Node allocators return the requested number of distinct free nodes

*Property.* First-available, random, strided and greedy dragonfly allocation return exactly the requested number of distinct nodes, all taken from the available set, or report failure.

*Model and proof.* allocators as functions of finite sets.

### C62 — The switch partition covers all workers within range and is balanced

*Property.* Block partitioning assigns every switch to exactly one existing (process, thread) pair, contiguously, with part sizes differing by at most one block.

*Model and proof.* block arithmetic; refutation for the occupied variant.

### C63 — Process grid generation factors the process count

*Property.* For every n >= 1 the generated three-dimensional grid (x, y, z) has x*y*z = n with all extents positive.

*Model and proof.* factorisation and counter enumeration; product invariant.

### C64 — Shuffles are permutations

*Property.* Random shuffling of fewer than 2^32 elements permutes its input: no element is lost or duplicated, whatever the random numbers drawn.

*Model and proof.* Fisher-Yates with arbitrary indices is a permutation.

### C65 — Time accounting per epoch conserves time

*Property.* When activity intervals are distributed over fixed-length epochs, the amounts credited to all epochs add up to the interval length, no epoch gets more than its length from one interval, and every credited epoch exists in the output.

*Model and proof.* epoch splitting arithmetic; conservation; refutation of the missing last epoch/scale.

### C66 — A packet is never held while it could be sent

*Property.* After every event at an output buffer or port arbitrator, no waiting packet at the head of a virtual channel has enough credits to be sent.

*Model and proof.* post-condition of the drain loops.

### C67 — Items put into a completion queue are consumed exactly once in order

*Property.* Items delivered to a progress queue are handed to callers in arrival order, each once, and a caller blocked on an empty queue is woken when an item arrives.

*Model and proof.* queue machine with waiting threads.

### C68 — Rounding-up division of delays is exact

*Property.* Dividing one delay by another with rounding up returns the smallest whole number of the second that covers the first.

*Model and proof.* `divideUp` with its 32-bit narrowing; ceiling theorem below 2^32, refutation above.

### C69 — A bounded run executes exactly the events before its horizon

*Property.* Running the simulation up to a horizon executes only events strictly earlier than the horizon, and when it returns every event still pending is at or after the horizon; the reported next time is the earliest of all pending and outgoing events.

*Model and proof.* Runs of the `runEvents` loop to a horizon from any reachable state: induction over the iterations.

### C70 — An immediate probe reports exactly what a receive would get

*Property.* MPI_Iprobe with some source, tag and communicator reports a message exactly when a receive with the same arguments posted instead would be matched at once, and the message it describes is the one that receive would get.

*Model and proof.* `iprobe` and posting a receive on the same queue state: both are the first eligible element of the list.

### C71 — Allgather with a count per rank concatenates the contributions

*Property.* After an allgather in which every rank gives its own number of elements, every rank holds all contributions one after the other in rank order, with separate buffers and in place.

*Model and proof.* the Bruck rounds with prefix sums of counts; the same schedule-independence argument as C29.

### C72 — Valiant and UGAL torus routing always delivers

*Property.* Under Valiant or UGAL routing on a torus, a packet reaches its node within twice the diameter on the declared virtual channels, whichever intermediate switch is drawn and whatever the queue lengths are.

*Model and proof.* router as a relation over draws; bound on the hops left decreases; refuted for two switches.

### C73 — Valiant torus routing is free of channel-dependency cycles

*Property.* With the virtual channels the Valiant router assigns, no set of packets can wait for each other in a circle.

*Model and proof.* a circle of waiting channels on a ring of eight (refuted).

### C74 — Progressive adaptive hypercube routing delivers and cannot deadlock

*Property.* On a three-dimensional hypercube the adaptive router delivers every packet within six hops on its six virtual channels, and no packets can wait for each other in a circle, whatever is drawn and whatever the queue lengths are.

*Model and proof.* bound on hops left decreases at each hop; virtual channel number increases; refuted for extents above 64.

### C75 — Fully connected and star networks deliver in one hop

*Property.* On a fully connected network every packet takes one link to the switch of its node (none if it starts there) and leaves through that node's port, on the single declared virtual channel, and packets cannot wait for each other in a circle; on a star every packet leaves through its node's port at once. The node ports of a switch are disjoint from its link ports, and every link has a link back.

*Model and proof.* wiring and router as functions; direct proof of delivery, wiring and acyclicity.

### C76 — Only messages up to the configured size bypass the network

*Property.* A message between two nodes takes the contention-free overlay exactly when its length is at most the configured negligible size; every longer message goes through the network model.

*Model and proof.* decision function with the narrowing to int; exact for lengths below 2^31, refuted above.

### C77 — A port accounts for all its time and its checks never fail

*Property.* For every sequence of packets and credits at an output port, no internal consistency check aborts, no empty queue is read, and the reported active, idle and stalled times plus the flit overheads add up to the time until the link is free.

*Model and proof.* port as a state machine over an abstract arbitrator law; invariant by induction over events.

### C78 — A lane with a bandwidth limit never exceeds it

*Property.* Under the weighted round robin arbitrator, a virtual lane configured with a maximum share of the link never sends faster than that share over a long interval.

*Model and proof.* refuted by a run with one capped lane.

### C79 — The cut-through arbitrator never aborts and never gives a cycle away twice

*Property.* For every sequence of packets the cut-through bandwidth arbitrator finds free cycles for the packet, keeps its free intervals in order and apart, and lets the tail of a packet leave no earlier than its head.

*Model and proof.* free intervals as a list; refuted by a five packet history; proved when packets come fast enough.

### C80 — A thread woken from a condition wait holds the mutex alone

*Property.* When a condition variable is signalled, a waiting thread continues only once it alone holds the mutex; signalling without waiters does nothing.

*Model and proof.* mutex and condition machine; refuted by a history of four calls.

### C81 — A once-routine runs once

*Property.* However often pthread_once is called with the same control variable, its routine runs exactly once.

*Model and proof.* the control variable as a number; refuted.

### C82 — A write lock excludes others

*Property.* While a thread holds a reader-writer lock for writing, no other thread gets it.

*Model and proof.* no state at all; refuted.

### C83 — No thread waits for cores that are free

*Property.* A thread waiting for k cores waits only while fewer than k of the cores it may use are free, or while a thread woken earlier is about to take them.

*Model and proof.* scheduler machines with waiting and woken threads; invariant by induction over histories; refuted for the simple scheduler with releases of several cores.

### C84 — Threads run only on cores of their cpu mask

*Property.* With the cpuset scheduler a reservation gives a thread exactly the requested number of cores, all in its cpu mask.

*Model and proof.* masks as 64-bit vectors with the sign-extended 1<<31; proved up to 31 cores, refuted at 32.

### C85 — The exclusive launcher runs one job at a time in request order

*Property.* With the exclusive job launcher jobs start in the order of their requests, a job starts only after the stop notice of the previous one, and none waits while none runs.

*Model and proof.* state machine of active job and pending list with logs of starts and stops; invariant.

### C86 — The node-to-rank table inverts the rank-to-node table

*Property.* For every mapping of ranks to nodes, the table of each node lists exactly the ranks mapped to it, in ascending order.

*Model and proof.* fold over the rank table; the result is compared with a filter over all ranks.

### C87 — Dense numbering of surviving ranks is a bijection

*Property.* For every set of failed ranks, the dense number of a surviving rank is the number of survivors below it, translation back gives the rank again, and every dense number belongs to a survivor; asking for the dense number of a failed rank is an error.

*Model and proof.* both search functions over the sorted list of failures; compared with the length of a filtered range.

### C88 — Communicator ranks and global ranks translate into each other

*Property.* For every communicator, also a shifted one of a shifted one, each rank has its own global rank and translating that back gives the rank; the intersection with a set of ranks has exactly the members in the set; a member's own rank is the one that translates to its global rank.

*Model and proof.* an inductive type of communicators; translation both ways, by induction over nesting.

### C89 — Thread stacks never overlap and are found from the stack pointer

*Property.* After every history of stack allocations and frees, no two stacks in use overlap, each lies in mapped memory and starts at a multiple of the stack size; with protection the region below each is inaccessible and no stack overlaps an inaccessible region; an allocation always gives a stack.

*Model and proof.* the chunk layout for every mapping address and an invariant over all histories; interleavings of alloc and free as small steps.

### C90 — Every simulated process has its own initialised global variables

*Property.* For every history of declarations, process starts, thread ends and library loads, global variables do not overlap and lie inside the segment of each running process; a process starts with the declared initial values; a value given later reaches every running process and later ones; no access leaves the segment; incrementing a variable changes that variable.

*Model and proof.* segments as byte lists, copies that fail outside them; an invariant over all histories.

### C91 — No rank leaves a barrier before every rank has entered it

*Property.* In every execution of a barrier, whatever the order in which the ranks call it and however messages are delayed, when one rank's barrier is complete every rank has called the barrier; once all have called it, it completes on all ranks.

*Model and proof.* the Bruck exchange of `Coll/Rounds` without data, extended by an explicit call of each rank; invariant: a rank that has completed i rounds has heard from the next 2^i ranks (`Coll/Barrier`)

### C92 — A blocking probe returns exactly when a message it asks for can be received

*Property.* MPI_Probe returns once, with the message that a receive with the same source, tag and communicator would get; while it waits no such message can be received; when it returns the reported message can be received; no message is used after it has been freed.

*Model and proof.* the queue of C17-C20 extended by waiting probes; simulation back to the queue, invariant over all histories that no waiting probe matches an unexpected message; three refutations by concrete histories (`Mpi/Probe`)

### C93 — A message longer than the receive buffer is rejected and one that fits is accepted

*Property.* When a message matches a posted receive whose count times type size is smaller than the message, the simulation stops with an error and writes nothing beyond the buffer; a message that fits is never rejected.

*Model and proof.* the size check of the matching model in 32-bit arithmetic on the size the code reads (the header for rendezvous); partial theorem over all histories, refutations by concrete histories (`Mpi/Model`, `Mpi/Props`)

### C94 — The data of every message arrives in the receive buffer, once

*Property.* For every history of sends and receives, whatever the protocol, datatypes and delays: when a receive completes, its buffer holds the bytes the send buffer held when the matching send was called, even if the sender reuses the buffer once its send is complete; each send and each message's receive completes at most once and, once a receive is there, the transport can always complete both; no run aborts with an unmatched payload or acknowledgement.

*Model and proof.* transition system of messages, memories and receives with every order of transport steps; invariant by induction over reachable states; completion by a decreasing measure; refutations by concrete histories (`Mpi/Xfer`, `Mpi/XferProps`)

### C95 — Non-minimal dragonfly routing delivers every packet within its channels

*Property.* For every dragonfly shape and wiring the constructors accept, every source and destination, every sequence of random draws and every queue state, Valiant, UGAL and PAR routing deliver the packet in at most as many hops as the router declares virtual channels, each hop on a higher channel than the one before, so that no cycle of packets waiting for each other can form; a packet bound for an intermediate switch keeps it until it gets there; and Valiant routing between groups goes through a group other than source and destination.

*Model and proof.* routers as relations over draws and queue states; a measure of the links left per stage decreases by one each hop; channels are the hop counts, so waiting has a rank; refutations by concrete paths and by exhausting the draws

### C96 — Oblivious dragonfly routing delivers every packet within its channels

*Property.* For every dragonfly shape and wiring the constructors accept and every source and destination, scatter routing, and rotate routing where every switch has a link to another group, deliver a packet in at most as many hops as the router declares virtual channels (four and three), each hop on a higher channel than the one before, so that packets never wait for each other in a cycle; scatter routing crosses to another group only to enter the destination group, and keeps traffic of a group within it; both use the ports to choose from in turn.

*Model and proof.* the search as a recursive function, characterised by paths with at most one link between groups; a measure of the links left decreases by one each hop; channels are the hop counts

### C97 — A direct all-to-all exchange completes and delivers every block

*Property.* MPI_Alltoallv, for every number of ranks, all counts and every schedule of messages, completes on every rank; each rank sends exactly one message to every rank, with as many elements as its send count says, and nothing else; a rank has at most three sends and three receives in progress; at the end every rank finds the block sent to it by each rank in its receive buffer.  The same holds for MPI_Alltoall with the direct algorithm and equal counts.

*Model and proof.* the graph built by addAction as written; completion by the general execution theorem applied to the graph without data; the window by induction over strides; data delivery refuted by an invariant on the values in receive buffers

### C98 — Dragonfly+ networks deliver every packet without deadlock

*Property.* For every dragonfly+ network that the constructors accept, links agree from both ends and every node has its own port; minimal routing (rotating or static) brings every packet to its node over two links within a group and three between groups on its one virtual channel; progressive adaptive routing brings every packet to its node over at most four links on its two virtual channels, whatever the queue lengths and random draws; no set of packets can wait for each other in a circle; and the number of hops reported between two nodes is the length of a shortest path.

*Model and proof.* links and routers as written; delivery by case analysis on the kind of switch with an invariant on the counters; deadlock by ranking channels up, between groups (by virtual channel), down; the circulant wiring refuted

### C99 — Cascade networks deliver every packet

*Property.* For every cascade network (a dragonfly with two-dimensional groups), links agree from both ends and every node has its own port; minimal routing brings every packet to its node, within a group over at most two links and without deadlock, between groups over at most five; the number of hops reported between two switches is the length of a shortest path.

*Model and proof.* links and router as written; within a group by cases on the coordinates; between groups a general refutation: an offset that the router tries and the wiring lacks exists in every cascade

### C100 — Sculpin ports serve packets first come, first served

*Property.* In the sculpin network model, every output port of a switch sends the packets that come to it one at a time, in the order in which they come, each exactly once and as soon as it is there and the packet before it has left; it never aborts, never idles while packets wait, and when nothing is scheduled for it every packet was sent.

*Model and proof.* state machine of one port over time; invariant: one pull pending iff the queue is not empty, arrivals are the packets sent followed by the queue; the times are those of a recursive first-come first-served specification

### C101 — Sculpin interfaces deliver every message

*Property.* In the sculpin network model, sending a message cuts it into packets no longer than the MTU that go out back to back as soon as the interface is free, and the receiver hands up every message exactly once, whatever the order in which its packets come.

*Model and proof.* induction on the bytes left for less than 4 GB, with the completion queue of C52; for 4 GB or more the loop is shown not to end; empty messages are lost

### C102 — Sculpin paths keep order and respect the wires

*Property.* In the sculpin network model, packets on one path never overtake each other; no packet is faster than the latencies of its wires plus the time on its slowest link; and a packet that meets no other traffic takes exactly that long.

*Model and proof.* induction along the path over arbitrary histories of its ports (C100); exact time of a packet alone; refuted for paths with a fast link between slow ones

### C103 — Networks from files are wired as written and routed by their tables

*Property.* For every topology file in which names and port numbers are unique, links are listed at both ends and every node is at one port, the network has exactly the links and nodes of the file, all on ports that switches allocate; table routing spreads packets over the ports of a channel in turn and brings every packet to its node if the tables lead there; with increment_vcs no set of packets can wait for each other in a circle.

*Model and proof.* the file as lists of names and ports; wiring by the uniqueness of names; delivery by a measure on the tables; deadlock freedom by the number of the channel up to 15 links, refuted for rings of 18 and more switches because the channel has four bits; node ports with large numbers refuted

### C104 — Parameter files mean what they say, the command line wins, and every process gets the same parameters

*Property.* Reading a parameter file gives the values its lines assign, in order: the last assignment to a key wins, unset removes it, blocks nest, an assignment in a block is an assignment to the dotted key, and $name stands for the value of a variable.  An option -p key=value overrides the file, the last one wins.  Parameters written out and sent to other processes, or inside an application launch, are read there as the same parameters.

*Model and proof.* strings as lists of characters, scopes as trees, the reader as a function on lines with its stack of open scopes; refinement to a specification that only knows values at (namespaces, key); round trip of the written text by induction on the tree for names and values that survive a line, invariant of the reader for the files that only give such; blanks after dots, names that begin like comments, values with the words of a variable definition and values ending in a brace refuted

### C105 — List parameters have the items between the brackets

*Property.* A parameter [a,b,c] gives the items a, b and c, in order.

*Model and proof.* the tokenizer as a function on characters; round trip from a list of items by induction; text before the opening bracket and brackets in the wrong order refuted

### C106 — The machine is wired the same way however it is split over processes and threads

*Property.* For every topology, every number of processes and threads and every partition, all processes agree on the numbers of all links without talking to each other: every connection of the topology (payload forwards, credits backwards), every injection and ejection port and every LogP path is built exactly by the process that owns its sending side, timed on the sending worker, of the class that fits the two workers (same queue, other thread, other process), and an event sent over it is handled by the receiving port's handler on the receiving worker; a handler registered for messages from other processes is the far end of exactly such a link; link numbers are unique in the whole machine. If all processes accept the configuration, the lookahead is equal on all of them, positive, and no larger than the latency of any link between workers. Splitting the machine differently does not change the relative order of link numbers, so simultaneous events keep their order - except for the outputs of LogP switches, for which it does (refuted).

*Model and proof.* model the constructor's four loops as folds over a running link number on each process; prove they refine one machine-wide list of slots; soundness/completeness against a relational wiring specification; lookahead through the checks of C09; order by sublists; refute for LogP outputs by a three-node machine

### C107 — Simulated threads block exactly as long as they should, and no wake-up is lost

*Property.* On every node, for every program of threads that compute, sleep, wait, wake each other, create and join threads and end: at most one thread runs at a time; a thread that computes or sleeps for a time runs again exactly that much later whatever the others do; a thread that waits stays blocked until it is woken and then runs at the same simulated time; a join returns only when the joined thread has finished, at the time it finished; each thread object is deleted exactly once, after its end, and never used afterwards; when nothing is left to run, every thread has finished, waits without having been woken, or joins a thread that has not finished. A wait with a time limit, a second joiner, pthread_exit or the end of the application do not break this - they do (refuted: use of a deleted thread, a computation cut short, a double delete, the whole simulator exits, cancelled threads run).

*Model and proof.* model a node's threads, its event queue and every call as a state machine; invariant: each thread that can go on has exactly one pending event at the right time; consequences as statements over all runs; counterexample runs for time limits, double joins, pthread_exit and cancellation

### C108 — Quantities in parameters mean what their units say

*Property.* For every decimal number, with or without fraction and exponent, every amount of blanks and every unit: a time, a frequency or a size parameter is the number times the unit, sizes without the fraction of a byte, and a text with any other unit or without a number is rejected; a bandwidth is the number of bytes per second that the unit means; no unit has two meanings; a quantity whose kind is not fixed is read by the one kind whose unit it has, and without a unit it is the number. For bandwidths this fails (refuted): Gib/s is read as 2^50 bits, TB/s as 10^15 bytes, TiB/s and PiB/s as 2^30 bytes.

*Model and proof.* model strtod for decimal numbers with exact rational values, the tables entry by entry, and the readers; spec: numbers by place value, units as prefix, word and per second; read-back lemma for all numbers, tables compared with the spec entry by entry in the kernel

### C109 — The LogP network delivers every message once, at the time its parameters say

*Property.* For every sequence of messages between nodes of a LogP network: each NIC sends one message after the other, each for its injection latency and bytes, starting at the call or when the previous one ends; each message arrives exactly once, at the time it leaves plus its bytes, hops and link latency; each NIC takes in one message after the other, each for its bytes, and gives it to the node when it has arrived and been taken in; messages up to the negligible size are never delayed by others; messages between two nodes arrive in order; the contention level is the number of cutoffs passed; two runs with the same parameters give the same times. Refuted: receptions overlap when a message arrives sooner than it can be taken in; messages of exactly the negligible size wait; a short message overtakes a long one if the NIC is faster than the network; contention is seeded from the machine.

*Model and proof.* model NICs, switch and wire as a transition system with a log of every message; invariants over all reachable states; counterexample runs

### C110 — Random numbers: seeds determine the sequence, periods and lags are as documented

*Property.* After seeding, every generator's numbers depend on nothing but the seeds. MWC concatenates two 16-bit multiply-with-carry generators. CONG repeats a number after exactly the multiples of 2^32 numbers. SHR3 never merges two sequences. LFIB4 and SWB follow four-lag and subtract-with-borrow recurrences for ever. A number in a range is below it; a real number in the open unit interval is in it. A router's random choice is below the number of choices and, with a seed parameter, depends only on that seed, the packet's seed and the attempt. Refuted: the documented period of SHR3 (a seed gives one number for ever), the documented lags of LFIB4 and SWB, the closed ends of the unit interval (the largest integer gives 1 where 1 is excluded and more than 1 where it is included), and the router's choice from the 28th attempt on, which is undefined.

*Model and proof.* generators as functions on 32-bit words; the period of CONG by a 2-adic argument, injectivity of xor-shifts bit by bit, lags by a table invariant; counterexample seeds

### C111 — Requests for a library are delivered once, in order, while it is registered

*Property.* For every history of an operating system: each arriving request is, at every moment, in exactly one place: given to a library of its name, scheduled to be, or waiting; it waits only while no library is registered under its name; if registrations are balanced and names unique, the library found under a name is the one still registered. If scheduled deliveries happen before a library goes, requests are only given to registered libraries; if they happen before the next request of that name, requests of a name are given in order of arrival. Refuted otherwise: a library destroyed early is still called; later requests overtake waiting ones; with two libraries of one name, destroying the first hides the second.

*Model and proof.* state machine over four kinds of happening; a permutation invariant for exactly-once, invariants for waiting and reference counts, list equality per name for order; counterexample histories

### C112 — Objects from the memory pools never overlap, are aligned, and their memory is bounded by the need

*Property.* For every interleaving of threads creating and destroying objects of one class (each destroyed once, by any thread): objects that exist at the same time share no byte; each is aligned to a cache line and lies in memory obtained from the system; a created object is never one that exists; creation succeeds exactly for the first 128 threads; a thread that destroys and creates gets the same memory. If one thread does everything, each block but the first was needed. Refuted: if one thread creates and another destroys, memory grows without bound although only one object ever exists at a time.

*Model and proof.* transition system with the system allocator as an adversary; permutation invariant over free and used chunks; unbounded growth by an explicit family of runs

### C113 — Statistics files have every value under the heading of its field, and histograms count every value once

*Property.* For every group of statistics written as comma-separated values: the headings are the names of the fields of the group's statistics, each once. If the statistics of the group have the same fields, each row has the value of each field under its heading, in whatever order the statistic outputs its fields. A histogram over an interval of positive length counts each value in the bin it lies in and ignores values outside the interval. Refuted: in a group of statistics with different fields rows are empty or carry values of another statistic; a value equal to the upper end of the interval is written out of bounds.

*Model and proof.* invariant over the fields output so far: the row is a prefix in column order, the rest is pending and sorted; rational arithmetic for bins

### C114 — Every access to memory ends exactly once, after all its bytes

*Property.* For every sequence of accesses, of any sizes and at any times: the callback of an access runs exactly once, and only when exactly the bytes of the access have been moved; accesses are started in order; no channel or link serves two at once; the simulation of the memory stops when nothing more is asked. Proved for the memory with channels (snappr, flows and single requests), the memory with one link (logp), and the packet-flow memory (pisces) for flows of fewer than 2^32 bytes plus one packet. Refuted: in the packet-flow memory larger flows never end, and single requests keep their channel for ever, so that after as many of them as there are channels no access ever ends; the null memory drops every callback.

*Model and proof.* transition systems over scheduled events run in any order; invariants per flow and over channels as permutations; a weight that every event decreases

### C115 — Requests name one operation each, and waiting returns when it has ended

*Property.* For every sequence of point-to-point calls and every order in which messages complete operations: the requests given to a program are different from each other and from MPI_REQUEST_NULL; a request stays valid until wait, test or free gives it back; every start of a persistent request hands over exactly one operation with exactly the arguments of its creation (none for MPI_PROC_NULL); a wait or test says that a request has ended exactly when the operation of its last start has, and reports the status of that operation; blocking calls hand over exactly their operation, and return when it has ended; MPI_Sendrecv hands over both before it waits; calls with MPI_PROC_NULL return at once with the status of MPI_PROC_NULL. Proved for programs with at most 0x2c000000 requests that restart a persistent request only after its operation has ended. Refuted: the request after 0x2c000000 others is MPI_REQUEST_NULL, so that waiting for it returns at once; waiting for a persistent request that was never started hangs; a persistent receive from MPI_PROC_NULL leaves the status unwritten; MPI_Recv and MPI_Sendrecv with MPI_PROC_NULL and MPI_STATUS_IGNORE write through the null pointer.

*Model and proof.* state machine over calls with the queue seen through its interface; specification on the history of calls only; invariant relating table, objects and history by induction over calls

### C116 — MPI collective calls move exactly the data their arguments describe

*Property.* For every communicator size, root, count and datatype, with separate buffers or MPI_IN_PLACE: after MPI_Bcast every rank's buffer holds, at the byte offsets of the datatype, the bytes of the root's buffer; MPI_Reduce, MPI_Allreduce and MPI_Scan apply the operation to the elements the datatype describes and put the result at its offsets; MPI_Gather, MPI_Allgather, MPI_Scatter and MPI_Alltoall (and the variants with a count and displacement per rank) put every block at its place; no other byte of any rank's memory changes, and calls without buffers are simulated with the counts of the call.

*Model and proof.* Model the arguments, the in-place and null-type rules, the temporary pack buffers with their sizes, what is handed to the engine and the unpacking afterwards, over byte memories; the engine is a functional specification (its own properties are C29-C35, C71, C97). Prove bcast and the reductions for every derived type, the block collectives for contiguous types; refute non-contiguous blocks, in-place scatter and all-to-all, in-place dense vectors, displacements, counts of calls without buffers.

### C117 — Communicator and group handles stay valid until they are freed

*Property.* For every process and every sequence of MPI_Comm_dup, MPI_Comm_create, MPI_Comm_create_group, MPI_Comm_split, MPI_Cart_create, MPI_Comm_group, MPI_Group_incl, MPI_Comm_free, MPI_Group_free and queries that a correct MPI program makes: every new handle differs from all handles in use; from its creation until it is freed a handle gives the size, rank, peers and translated ranks of the processes it stands for, whatever other handles are created or freed in between; MPI_Comm_group gives a usable group of the communicator's processes; and at the end of the job every group is deleted, none of them twice.

*Model and proof.* Model the two tables, the id counters and a heap of group objects that remembers deletions; the specification is a monitor that sees only calls and results. Invariant over all call sequences: under an explicit discipline of frees nothing fails and the monitor accepts every result; the teardown deletes every group once. Refute without the discipline: freed groups in use, copies of splits, groups of splits, Cartesian communicators (which delete their parent's group).

### C118 — Node-aware collectives return what the plain ones return

*Property.* For every communicator, every placement of its ranks on nodes, every schedule and all contributions, when the option smp_optimize is on: creating the node communicators (MPI_Init, MPI_Comm_split) returns on every member; an allgather returns on every member with all contributions in the order of the communicator; an allreduce returns on every member with the reduction of all contributions; an alltoall returns on every member with the blocks meant for it, and writes only the memory it was given; and the tags of the inner collectives do not collide with those of other collectives.

*Model and proof.* Model the groups of a communicator, the chain of collectives each rank runs, and ranks that go through their chains asynchronously, each collective at its own specification (C29, C31, C32, C34). Invariant over all schedules: on equal nodes with ranks numbered node by node the allgather is right, never stuck and bounded; on any equal nodes the result is grouped by node. Refute for every job of the kind: one node, nodes of different sizes, a rank alone on its node, round robin placement, allreduce (nothing happens), alltoall (buffer overrun and equal results on a node), tags beyond communicator 4095.

### C119 — Reductions compute what MPI defines, in any order

*Property.* For every predefined datatype and every operator that the MPI standard defines for it, a reduction of any number of contributions, combined in any order and grouping, gives in each element what the standard says: the maximum, minimum, sum, product, logical or bitwise combination, or the extreme value with the lowest index; sums and products are modulo 2^w for unsigned types and exact whenever the exact result is a value of the type. An operator made by the program calls its function with the incoming data first, until it is freed, and its result does not depend on the order if the function is associative and commutative. MPI_Type_size gives the size of the C type.

*Model and proof.* Model the integers of C++ with promotion, conversion and overflow, the element templates, the loop, the tables of operators and the choice of the function; a reduction is a tree of combinations. Induction over trees with the meaning of the operator as invariant; sums and products modulo 2^w, exact when the sum (product) of absolute values fits. Refute: sums that overflow in one order only, products of unsigned short, complex numbers and unregistered Fortran types, NaN, sizes of wide characters and padded pairs, operators that do not commute.

### C120 — Handles of datatypes name what they were made for until they are freed

*Property.* A process makes datatypes from others, duplicates, queries, uses and frees them through handles. A constructor or MPI_Type_dup returns a handle that names nothing else, and until it is freed the handle means the type that was asked for: its size, its extent and the bytes that a transfer moves do not depend on what other datatypes the process or other processes make, duplicate or free, and a user-defined reduction function receives the handle of the datatype of its call.

*Model and proof.* Mpi/DtHandles.lean models the objects of a process as a heap with live and deleted objects that point to their base types, the table of known types and the table of allocated types, and every call on them. Mpi/DtHandlesProps.lean has a monitor that knows only handles and types of C28; an invariant relates them. Proved under a discipline of frees (no live handle made from or duplicated from the freed one, no user-defined reduction over a duplicated datatype); refuted without it for freed bases, freed originals, renamed originals and predefined datatypes shared by processes.

### C121 — Calls of the message transport complete once, in order, on the queues that they name

*Property.* A process sends messages, posts sends, puts and gets data through the transport, or answers a message that it received, and names a completion queue for itself and one for the partner (or none). Each call leads to exactly one completion on each named queue, at the right process: the side that gets data is told of the data, the side whose data left is told that it left. What arrives for a queue is given to the function that was installed for it, in the order of arrival, also if the process starts or installs the queue later than the message arrives; a process that ends does not take messages of others with it.

*Model and proof.* Sumi/Transport.lean models the transports, the servers of the nodes with their lists of waiting messages, and the part of the network interface that turns requests into payloads and makes acknowledgements; the network delivers in any order. Sumi/TransportLemmas.lean has the specification (what each call has to lead to) and an account that every step keeps; Sumi/TransportProps.lean proves completion, functions, order and the absence of failures under a discipline, and refutes gets from other processes, messages before their queue, and queues that were given back.

### C122 — The replay of a trace makes the calls of the traced program, in order, with the computation between them

*Property.* The replay of an OTF2 trace makes, for each rank, the calls of MPI that the traced program made: the same calls with the same partners, tags, communicators and sizes, in the same order, each once, and between two calls it computes for the time that the program spent between them. A receive that was started without blocking is replayed at the place where it was started, although the trace tells what was received only at its completion; a wait for several requests is replayed as waits for each of them, one after the other and at no time. The replay of a complete trace leaves no call behind.

*Model and proof.* Otf2/Replay.lean models the callbacks, the queue and its pointers; Otf2/Spec.lean has programs, the traces that a tracer writes for them and what a faithful replay does. Otf2/ReplayLemmas.lean and ReplayRun.lean relate the queue to the calls of the program by an invariant over events; Otf2/ReplayProps.lean proves the replay faithful up to the first receive that never completes, the order of calls for every sequence of events, and the sizes of collectives, and refutes synchronous sends, MPI_Sendrecv, tests of several requests, persistent requests, receives that never complete, and some collectives.

### C123 — The replay of a DUMPI trace does what the traced program did

*Property.* The replay of a DUMPI trace gives MPI, for each rank, the operations that the traced program gave it: with the same sizes, peers, tags and communicators, in the same order, each once. It waits for the operations that the program waited for, whatever call completed them and whether the requests were persistent or not, and for none of them twice. It takes part in the same collectives, makes the same groups and communicators, and computes between two calls for the time that the program spent between them. Handles that the tracer uses again, when the object they named is gone, name the new object.

*Model and proof.* Dumpi/Replay.lean models the callbacks and the tables of MPI that they use; Dumpi/Spec.lean has programs, the traces of their calls and what a replay should do. Dumpi/ReplayLemmas.lean relates the tables to the objects of the program call by call; Dumpi/ReplayProps.lean proves the replay equal to what it should be, that no time is lost, and for every trace that waits follow operations and come once, and refutes MPI_Init_thread, MPI_PROC_NULL, MPI_COMM_SELF, undefined colours, groups of communicators, inactive requests, clocks that run back, performance counters and unknown datatypes.

### C124 — The replay of a DUMPI trace that is told to end after some global collectives ends there on every rank

*Property.* If the replay of a DUMPI trace is told to run n collectives on MPI_COMM_WORLD and then terminate (parsedumpi_terminate_count), every rank takes part in just n of them, does all that the program did before them, and then finalizes MPI; with fewer in the trace it goes on to the end. The ranks end at places that fit: no rank waits for a message that another rank, which ended earlier, did not send.

*Model and proof.* Dumpi/Early.lean uses the model of C123 with the count: it relates the counter to the collectives of the program, proves that programs with fewer are replayed to the end and that those with more and without barriers end after just n, and refutes barriers, which count but do not end the replay, so that it never ends early, and the ends of ranks, which depend on collectives on other communicators.

### C125 — OTF2 traces that are written name communicators and groups in one way, and cover the time of the run

*Property.* In the OTF2 trace that a simulation writes, all ranks of a communicator write the same identifier for it and for its group, different communicators have different identifiers and so have different groups, and the identifiers are the numbers from 0 on, whatever communicators the ranks made. The definitions give the count of events of each rank, and the start and the end of the run, whatever the order in which the ranks are written.

*Model and proof.* Otf2/Writer.lean models the scan, the identifiers that the owners give, the broadcasts and the reduction; Otf2/WriterProps.lean proves the identifiers of communicators the same on all ranks, different and dense, the start and the counts of events, and refutes the identifiers of groups, the end of the run, which is always 0, and writing if another rank than 0 comes first.

### C126 — Threads of a simulated program have identities, keys and affinities of their own

*Property.* The number that pthread_create gives names the new thread and no other, pthread_self returns it in that thread, a join by number waits for exactly that thread and hands over what it returned, threads that are joined or detached once are deleted once and never used afterwards, pthread_getspecific returns what the same thread stored last under the key, keys of one process differ and their destructors run, and an affinity is a property of the thread for which it was set. This holds in every interleaving of creations, starts, joins, detachments and ends.

*Model and proof.* Os/Pthread.lean models threads, their numbers, the tables of a process and of a node, joins, detachments, deletion, keys and masks; Os/PthreadProps.lean proves numbers, joins, absence of use after deletion, values of keys and masks, and refutes std::thread identifiers, the status of a join, deletion after a late detach, destructors, affinities by number and their inheritance.

### C127 — Sets of cpus behave as sets

*Property.* CPU_SET and CPU_CLR add and remove the one cpu that they name, CPU_ISSET tells whether it is there, CPU_COUNT returns the number of cpus, CPU_AND, CPU_OR, CPU_XOR and CPU_EQUAL are the operations on sets, for every cpu below CPU_SETSIZE and every set, and the size that CPU_ALLOC_SIZE returns is one that the calls accept.

*Model and proof.* Os/CpuSet.lean models the calls on 64 bits with shifts of 32 bits; it proves additions, removals and membership for cpus below 31 and the operations for all sets, and refutes cpus from 31 on, the count of every set and the size for seven cpus.

### C128 — The workloads that come with the simulator communicate consistently and end on every grid

*Property.* On every grid of processes, the workloads halo3d-26, sweep3d and fft send only to ranks that exist, each message has one receive from its sender with its tag that is large enough and each receive has a message, all members of a communicator make the same collective calls on it in the same order, and the program ends, whatever the order in which ranks advance and whether or not sends wait for their receives. halo3d-26 exchanges with each of its 26 neighbours; the communicators of fft are the lines of the grid; a rank of offered_load waits for exactly the messages that are sent to it.

*Model and proof.* Apps/Prog.lean gives programs of MPI calls, their runs, and what it means that a program ends, that messages fit and that collectives agree; Apps/Halo.lean, Apps/Sweep.lean and Apps/Fft.lean model the workloads; the Props files prove the claims for all grids and refute exchanges with vertices, sizes in y of sweep3d, its default grid, and lists of destinations that are too long.

### C129 — A simulated process starts with its own arguments, environment, libraries and main function

*Property.* A process has as its arguments the name of its application and the words of its parameter argv, and no other process can change them; it reads from its environment what it set last, before that what its application sets, and before that what the node sets, whatever other processes do; each name in the list of APIs gives one object of the kind beside it, which is deleted once at the end; an application runs the main function registered under its name; the executable is loaded while a process runs; and a failure that a process returns is the exit status of the simulator when that was asked for.

*Model and proof.* Os/AppEnv.lean models tokens, argv_map_, environments, the table of APIs, aliasMains, app_rc_ and dlopens_; Os/AppEnvProps.lean proves words, arguments without changes, environments, APIs without contradictions, main functions with arguments and loading, and refutes long arguments, shared arguments, long values, OMP_NUM_THREADS of the node, aliases used as names, main functions without arguments in the simulator by itself, and exit statuses.

### C130 — The output of simulated processes goes where the parameters say and nothing of it is lost

*Property.* Each of stdout, stderr, cout and cerr of a process goes to the screen, to a file of its application, to a file of its rank or to the file that is named, as its own parameter says, and what a stream prints is in its file completely, once and in order, whatever other processes print and whenever buffers are written.

*Model and proof.* Os/AppStreams.lean models the choice of files, opening modes, buffers and places in files; Os/AppStreamsProps.lean proves where streams go and that text is complete when streams that share a file append, for every setting of stdout and for cout by rank, and refutes stderr by application and rank, cerr by rank and cout by application.

### C131 — Every application of the parameters is launched once, with the processes it asks for and its own parameters

*Property.* Every application app<n> of the parameters is launched once and has a number of its own; an aprun command gives the number of processes of its last -n, the number per node of its last -N or as many as a node has cores, and the cores of its last -cc, where the processes then run; options after the program are the program's; the nodes asked for have room for the processes and none is left empty; what is given for one application has precedence over what is given for all; a network that is made to measure has room for the applications; and the mapping of ranks to nodes is found while the application runs.

*Model and proof.* Launch/Request.lean models the scan for applications, the parsing of commands, the merging of parameters, the size of the network and the table of mappings; Launch/RequestProps.lean proves which applications are launched (exactly), commands of any list of options within the buffers, numbers of nodes, distinct numbers of services and the mapping while processes run, and refutes numbers from 10 on after a gap, -d, negative -N, options of the program, long commands, cores, precedence, sizes without commands, two applications at a time and messages after the end of local processes.

### C132 — Computations and pauses cost the time that their operations, bytes and durations say

*Property.* A computation is charged for all operations and bytes it is given, in loops for each turn, and for reads, writes and copies for each byte; it takes its operations divided by frequency, parallelism and threads, at least, and the time of its bytes if they are not negligible; more operations or bytes never take less time; computations on different cores run at the same time; every computation ends; a pause lasts as long as it says; kernels of linear algebra are charged for the bytes of their operands with the parameters of their own application.

*Model and proof.* Os/Compute.lean models the calls, the processor with the LogP and the null memory, pauses and kernels; Os/ComputeProps.lean proves charges within 64 bits, the rounding error of the time of instructions, monotony in operations, lower and upper bounds for a computation by itself, pauses up to 1844 seconds and vector kernels, and refutes sums that wrap, bytes under the cutoff, odd bytes, loops that wrap, monotony in bytes, computations on two cores at a time, the null memory, more threads than cores, pauses of 1845 seconds, and the bytes of dgemm.

### C133 — OpenMP calls answer as OpenMP says

*Property.* Outside of parallel regions the number of the thread is 0, the number of threads 1 and the level 0; the greatest number of threads is what was set last; parallel regions run with that many threads; threads of the program can ask as well; a test of a lock takes it if it is free and says so.

*Model and proof.* Os/Omp.lean models the contexts and calls; Os/OmpProps.lean proves the answers outside of parallel regions and the threads of computations, and refutes omp_set_num_threads, parallel regions, calls from other threads and omp_test_lock.

### C134 — Allocations and mappings from boxes, coordinate files, node files and host names place ranks where they say

*Property.* Addresses and coordinates of nodes are inverse to each other; a box of a cartesian network, a file of coordinates and a file of hosts allocate exactly the nodes they name, as many as the job asks for; mappers from files of coordinates, of nodes and of hosts put each rank on the node of its line, on nodes of the allocation; each node has one name and the name leads to the node.

*Model and proof.* Launch/Files.lean models addresses, boxes, the three allocators, the three mappers and the names; Launch/FilesProps.lean proves addresses and coordinates, boxes inside of the network, files of different coordinates, hosts, node files and default names, and refutes boxes that are not in the network, requested sizes, repeated coordinates, numbers of lines, nodes that are not allocated, and names that are given twice or out of range.

### C135 — The torus router that goes up only delivers every packet on the shortest way up without deadlock

*Property.* With the router torus_positive every packet between nodes of a torus arrives at its node, uses links of the positive direction only, takes the smallest number of such links, uses the two virtual channels the router announces, and no set of packets can wait for each other in a circle, whatever the sizes of the torus.

*Model and proof.* Topo/TorusPositive.lean models the router on the torus of Topo/Torus.lean; Topo/TorusPositiveProps.lean proves delivery in as many hops as there are steps up, that no path of positive links is shorter, and that the relation of waiting channels has no circle, by a rank of channels and an invariant of the wrapped bit.

### C136 — Messages of a debug flag are printed exactly while the flag is on

*Property.* A message of sprockit's debug output is printed exactly if one of its flags has been turned on, by itself, by its name or by -d, and output has not been turned off since, however flags are combined; a name leads to the flag registered last under it; it is an error exactly if a name is unknown or more than 63 flags are turned on; a list with commas turns on each of its names; and the text that describes a flag is printed with all its words on lines that fit.

*Model and proof.* Util/DebugFlags.lean models flags as 64 bit integers with the table of names; Util/DebugFlagsProps.lean proves by an invariant over histories (bit k+1 belongs to the k-th flag turned on) that messages are printed as specified, when errors occur, the tokens of a list and the greedy breaking of lines; refutes turning off single flags, conditional messages after output was turned off, late registration and the format of lists in the help text.

### C137 — Options of the command line give each parameter its value in a fixed order of precedence

*Property.* A parameter has the value that a flag such as --no-congestion or --ping-all forces, or else the value of the last option that gives one (-p, -n, -V, -e, -i, -a, --app, -c), or else that of the machine for replays, or else that of the configuration file; the n-th -e sets the file of application n; the other options have the value given last; and the command line is refused exactly in the cases that its messages describe.

*Model and proof.* Launch/Options.lean models the switch over options, the flags after it and the merge with the configuration file; Launch/OptionsProps.lean proves the order of precedence, the other values and the complete decision between success, failure, abort and a run for all lists of options; refutes flags that name a configuration file, conflicts of machines, files in replays, options of the help text and old names of parameters.

### C138 — The host time of a process's own code is charged to it exactly once

*Property.* With host_compute_timer, the simulated time of a process grows between two calls of MPI by the time that its own code took on the host between them, each piece of its code being charged once, whatever the calls and other processes take.

*Model and proof.* Mpi/HostTime.lean models the timer and what each call does to it; Mpi/HostTimeProps.lean proves exact charges for all programs of calls that begin and end once, a lower bound for all programs but those with an empty MPI_Sendrecv, and the charge for calls outside of the timer; refutes MPI_Wtime (exact quadratic sum), MPI_Test, MPI_Testall, MPI_Sendrecv, blocked and spawned threads.

### C139 — Calls are accepted exactly between MPI_Init and MPI_Finalize, and MPI_Initialized and MPI_Finalized tell which has been called

*Property.* A program is stopped with an error exactly if it calls MPI before MPI_Init or after MPI_Finalize or initialises twice; MPI_Initialized and MPI_Finalized answer whether MPI_Init and MPI_Finalize have been called; a legal program is never stopped.

*Model and proof.* Mpi/Lifecycle.lean models the status and the table of communicators; Mpi/LifecycleProps.lean proves by induction over histories which programs are stopped and all answers, and that legal programs run; refutes MPI_Initialized after MPI_Finalize, and calls after MPI_Finalize.

### C140 — The Mersenne twister returns the values of its definition for every seed and every list of seeds

*Property.* For every seed, and every list of seeds that is not empty, the values are, in order and without end, the scrambled words of the recurrence of the 64 bit Mersenne twister of Nishimura and Matsumoto from the first words that its definition gives for the seed or the list, each cut to its lowest 32 bits; no seed gives the state of zeros; an empty list of seeds is an error.

*Model and proof.* Util/Mersenne.lean models the vector, its loops and the scrambling; Util/MersenneProps.lean proves, by an invariant of the replacement in place, that the values are those of any sequence that satisfies the recurrence, that such sequences exist, and by another the words for lists of seeds.

### C141 — A block under #pragma sst compute costs the operations that it would execute

*Property.* A block, loop or function under #pragma sst compute is replaced by code that charges exactly the floating point and integer operations that the block would have executed: for every nest of loops the operations of each body times the rounds of the loops around it, for branches as the hints say; a loop whose rounds cannot be known is refused by the compiler.

*Model and proof.* Clang/Compute.lean models the visitor, the tree of loops and the code that is written, in 64 bit arithmetic; Clang/ComputeProps.lean defines what statements execute, proves the charge exact for all nests of straight loops by induction over executions, and that while loops are refused; refutes empty loops, limits that are included, steps that do not divide, loops down by steps, else branches with a probability, missing hints, switches, and operations in declarations, arguments, conditions and returns.

### C142 — The modes of MPI sends mean what MPI says

*Property.* A synchronous send (MPI_Ssend, MPI_Issend) completes only after a matching receive has taken the message; a buffered send (MPI_Bsend, MPI_Ibsend) completes whether or not a receive is ever posted, so that two ranks that first send to each other and then receive do not block; for every length of message and in every execution.

*Model and proof.* Mpi/Modes.lean maps modes to the protocols of the model of transfers Mpi/Xfer.lean; Mpi/ModesProps.lean proves with its invariant over all executions that long synchronous sends wait for a receive and that short buffered sends complete at once; refutes short synchronous sends, and long buffered sends by a deadlock of two crossing sends in every execution.

### C143 — A block under #pragma sst compute is charged for the bytes that it reads

*Property.* The bytes that a block under #pragma sst compute is charged for are those that it would have read from arrays: each read of an element counts as often as it is executed, where reads that name one element in the same way in one round of a loop, with no assignment to its index between them, count once; for every nest of loops and for all index expressions.

*Model and proof.* Clang/Memory.lean models labels, generations and the visitor; Clang/MemoryProps.lean defines the bytes that are read, proves by induction that the charge is never more for programs without rows and addresses, and exact when no two places read with the same label and nothing is updated in place; refutes constants, fields, second loops, stepped indices, rows, updates in place and addresses.

### C144 — A collective call completes exactly when its messages have arrived, in any order

*Property.* A rank's call of a collective operation is reported complete exactly when the call was made and the messages that arrived for it complete each of its phases, once, however calls and messages of this and other collectives are interleaved and whether messages arrive before or after the call; every message goes to the call it is for, once and in order of arrival.

*Model and proof.* Coll/Registry.lean models the tables of the engine, the merging of actors, waiting messages and lists of phases; Coll/RegistryProps.lean proves by an invariant over histories when calls are reported and what is delivered if no two collectives share type and tag; refutes shared tags of two communicators, overlapping calls, ranks that run ahead, and collectives that need no message.

### C145 — Calls of the C library on simulated memory do what the library says and touch no reserved memory

*Property.* memset and memcpy of a skeleton change exactly the bytes the C standard says when all buffers hold data, change nothing when one does not, never touch the reserved range that stands for buffers without data, and charge the processor for large blocks; gethostname writes only into the caller's array; advancing the time by a named parameter charges the value of the parameter; reading a parameter with a default gives the same value as without.

*Model and proof.* Os/Libc.lean models memory as a function of addresses, the reserved range, host names, the cache of named times and parameters; Os/LibcProps.lean proves memory effects, what is touched and charged for all arguments; refutes large offsets into null receive buffers, offsets from NULL, equal charges, long host names, reused addresses and fractions.

### C146 — Node, loader, launcher and caller learn of the end of every process

*Property.* When a process ends, by returning from main or by _exit, its node no longer counts it, an executable stays loaded while a process uses it and is released when none does and the launcher has let it go, the launcher is told when rank 0 of a job ended, and no thread is lost; on request the exit status of the simulator tells whether a process failed.

*Model and proof.* Os/Exit.lean models the counts of nodes, the table of executables, stop requests and the exit code; Os/ExitProps.lean proves by an invariant over histories what holds for processes that return; refutes the exit status and all three for _exit.

### C147 — The call graph gives every tick to the functions that were active, and counts their calls

*Property.* The call graph of a simulated thread gives every tick it spends to the function that was innermost, and to every call that was active; own times add up to the time of the thread, and for every function own time and time of its calls equal the time of the calls of it and the time it was outermost; idle time that an MPI call gives away moves to the idle entry; every call that spends time is counted once; the file has a line for exactly the functions with time.

*Model and proof.* Os/CallGraph.lean models the stack of functions, collection, reassignment and output; Os/CallGraphProps.lean proves times, sums, flow, an upper bound of counts and the lines of the file for all programs by an invariant; refutes counts, nesting beyond 50 and functions that become known later.

### C148 — The compiler wrapper passes on options, gives every source an object and links all of them

*Property.* The compiler wrapper passes every definition, include folder, warning, optimisation and debug option of the user to the compilation of every source file, in every mode; other words are passed unchanged; every source gets an object of its own; the link command has all generated and given objects, folders and libraries, in an order in which libraries serve the objects; the wrapper stops at the first failing command, returns its code, and leaves no temporary files.

*Model and proof.* Clang/Wrapper.lean models the parsed arguments, the modes, the plan of commands and their execution; Clang/WrapperProps.lean proves the chain from source to object with its options, the link command, distinct objects and the execution for all arguments; refutes options in other modes, warnings, words with blanks, shared names, order, passes, visibility and temporary files of failures.

### C149 — Transfers catch up exactly when the process or a partner has long been busy

*Property.* With a QoS for catching up configured, a rendezvous transfer uses it exactly if the receiving process, or a partner from which it has a message, has had transfers in progress without pause for longer than the cutoff; without it every transfer uses the usual QoS; messages carry the time since when their sender or its partners are busy.

*Model and proof.* Mpi/Quiesce.lean models the counter, the two times and the choice of the QoS; Mpi/QuiesceProps.lean proves the count, that a busy process has a time since when, and the choice for all histories by induction; refutes the uninitialised counter, first headers, partners of quiet processes and parallel messages.

### C150 — A trace has the ranks its metafile says, and every rank replays its own file

*Property.* Replaying a dumpi trace starts as many ranks as the last number in the metafile says; the prefix of the files is taken as it is if absolute and in the folder of the metafile otherwise; a metafile that lacks one of the two is refused; every rank reads an existing file named by the prefix and its rank, no two ranks read the same file, and all files belong to one trace.

*Model and proof.* Dumpi/Meta.lean models the lines that are read, the settings, folders and the search for files; Dumpi/MetaProps.lean proves a round trip for all lists of settings, folders, distinct files and completeness of the search; refutes last lines without end, missing settings, values with equals signs, mixed traces and long prefixes.

### C151 — Pictures of the traffic show each link and the colours that were measured

*Property.* The statistic for pictures of the network tells all links and ports apart; it draws exactly the switches within the filters; an intensity has the level of the thresholds it reaches; what is drawn for a port at a time is the colour measured there, averaged over the minimal interval if there is one; at the end all ports return to the colour of idle ones.

*Model and proof.* Stats/Vtk.lean models identifiers, filters, levels, collection and the end over any type of colours; Stats/VtkProps.lean proves round trips, filters, levels and colours for all histories; refutes large networks, odd filters, unordered thresholds, averages and the end.

### C152 — The particle-in-cell skeleton keeps its particles

*Property.* Each patch of the skeleton exchanges particles with its six neighbours on a periodic grid, and each message is received for the face it was sent by. No particle is lost or made: what leaves a patch leaves its boxes, what comes in is added, and the total over all patches is the same after any number of exchanges. Each step ends. Fractions that move stay within the limits given by the user.

*Model and proof.* Apps/Pic.lean models partners, messages, boxes, the whole system and the loop of a step; Apps/PicProps.lean proves partners and matching, refutes receives posted in another order; Apps/PicCountProps.lean proves conservation in a patch and refutes it for boxes; Apps/PicSystemProps.lean proves conservation in the system by a permutation of ranks and the end of each step by a bound that grows by six; refutes negative boxes and fractions.

### C153 — Snapshots of Omni-Path fabrics become their links and routes

*Property.* The tool for reports of a fabric writes exactly the cables of the snapshot, in both directions, and for each switch and node the ports and names at their other ends, and for each switch the port of its forwarding entry for each node; the result can be read by the file topology. The route tracer prints the route from one node to another by these tables, and ends.

*Model and proof.* Topo/Opa.lean models dictionaries, tables, maps and traces of both tools; Topo/OpaProps.lean proves links, ports, routes and traces by a common lemma on loops that make dictionaries, and that traced hops are those of the simulated switch; refutes shared ports, shared names, devices without cables, missing keys and cycles.

### C154 — Messages over the Merlin network are sent whole, in order, and acknowledged once

*Property.* For every history of messages and every behaviour of the link, the interface over the Merlin network hands the link the packets of the messages in the order of injection, each message from head to tail in full packets of the MTU and a last one, one packet for an empty message; each injection or report of the link sends all that the link has room for; the node is told of the injection of exactly the messages that need it whose last packet the link has reported; and a receiver to which the packets come in any order hands up every message exactly once.

*Model and proof.* Nic/Merlin.lean models the queues, the packets and the acknowledgements of one virtual network with arbitrary answers of the link; Nic/MerlinProps.lean proves that the requests are a prefix of the closed list of packets, and composes it with the completion queue of C52; refutes MTUs stored as zero and sizes in bits that do not fit 32 bits.

### C155 — Under SST core, components and topology get the parameters of the input

*Property.* When a parameter file is simulated under SST core, Python sees every value at its place and reading the dictionaries back gives the input again; every switch and node component finds each value of its namespace under its dotted name, and each global value of which it has none of its own; every application reaches the nodes whole; and the topology that wires the machine is made from the values of the input for it.

*Model and proof.* Params/Core.lean models nested dictionaries, their construction from scopes, extraction, flattening and distribution; Params/CoreProps.lean proves lookups equal at every path by induction over trees, composes them to the parameters of components, and refutes keys that are names of namespaces, applications after the tenth, values of nodes under names of the topology, and namespaces of the topology.

### C156 — Under SST core the Python configuration wires the machine the topology describes

*Property.* When the simulator runs as an element of SST core, the Python configuration gives every link its own name and every component finds a link on each port it asks for, provided the cables of the topology have two directions on the same ports; what is sent on a port reaches exactly one port, the one the topology names: payload forwards and credits backwards between switches with the configured link latency, between nodes and their switch with the injection latency, and between every node and the LogP switch. These are the connections of the machine wired without SST core, and nothing else is connected. This holds for tori, hypercubes, fully connected networks, fat trees, dragonflies, dragonfly+ and cascades under the conditions in which their links agree from both ends. It fails where a node's network port has number 1 (it is the LogP port), where cables have one direction only (the components stop), and for the latency of ejection and of its credits, which differ from the machine without SST core.

*Model and proof.* Model the links the Python code builds (names as characters, both ends with port name and latency) and the ports the components ask for; prove names and ports injective through decimals, delivery equal to an inductive relation read off the topology, start-up exactly when outputs are also inputs, equality with the wiring of C106 up to latencies, and instantiate with the topologies of C40-C49, C75, C98, C99; refute port 1, one-way cables, ejection latency.

### C157 — The box skeleton runs every event of its graph once, in place and in order

*Property.* In the fully asynchronous mode of the boxml skeleton, with computations and point-to-point messages, if dependencies are events of the graph without cycles, an event depends only on events that end on the rank where it starts, and a message within a rank depends on something, then in every run, whatever the interleaving of ranks, the order of valid events and the delivery of messages: every event starts and ends at most once, on the rank of its box; it starts after all it depends on has ended and a message is received after it was sent; the event counter of a rank is never negative and is zero exactly when all its computations, sends and receives are done; while a counter is positive some rank with a positive counter can go on; so the loops end, after at most two steps per event, with everything done. A local message without dependencies, and a computation that depends on an event ending on another rank, are refuted: a rank waits for ever. Passing a local message on can also invalidate the iterator of the loop over sends.

*Model and proof.* Model the state shared by the ranks (dependencies, listeners, valid lists, messages in flight, counters) with a record of what was done; steps are any valid send, computation or receive of any rank. One invariant ties all of the state to the record; counting by sub-permutations gives the counter; progress by strong induction on the level of an unfinished event; refutations by two-event graphs.

### C158 — The ranks of LULESH exchange what their positions demand, in buffers that do not overlap, and end

*Property.* For every cube of ranks, edge length and number of steps of the LULESH skeleton: ranks and positions in the cube correspond; in every exchange a rank sends to another exactly one message if they touch (and, for positions and velocities, if the receiver comes first in the order of planes, rows and columns; for gradients, if they share a face), with as many values as they share points times fields, and nothing otherwise; the other has exactly one receive of that size; over a run the messages and receives between two ranks are those of the exchanges of the run, in order; all messages stay among the ranks; the functions that take the data in wait for the requests and read the places that the receives were posted with; requests are numbered in order and are at most 26, places do not overlap and lie in the allocated buffers; all ranks call the same collectives; with any sizes sent eagerly, every run ends. The program starts only if the ranks form a cube.

*Model and proof.* Tables of the blocks of the five functions, read off the source, with the variables that each tests, its guard, the rank it addresses and its size. A row is executed and leads to a rank exactly if its direction is the difference of the positions (uniqueness of digits); the rows in a direction are found by computation over the 27 directions. Places by induction over the counters; the end by a general theorem on programs of phases (posts then a wait for all, or a collective).

### C159 — The halo exchange of CoMD brings every surrounding cell from its owner

*Property.* For every grid of ranks and of link cells of the CoMD skeleton: coordinates and ranks correspond; cell coordinates of a domain with one layer around it and cell numbers from 0 to the total correspond both ways, local cells first, so that no assertion on them fails; the lists of cells have the asserted lengths and the atom lists are the two outermost planes at each face; after an exchange, every cell of every rank and of the layer around it, faces, edges and corners, holds what the rank that owns this place of the periodic domain had there; a message through a face is expected by the neighbour through the opposite face, also if both neighbours are the same rank or the rank itself; all messages stay among the ranks; any number of exchanges ends, with any sizes and any threshold of eager sends; messages within the capacity fit. That the capacity suffices for all faces is refuted: the size of the faces in x is left out of the maximum, and it suffices exactly if that size is not larger than the others.

*Model and proof.* Model the numbering of cells and its inverse, the lists, and the exchange of all ranks along an axis as functions of rank and cell. Round trips by the digits of numbers in each of seven ranges; lists of a face are shifts of the lists of the opposite one, so an axis step reads from the neighbour; composing three steps and expressing the result by the index in the whole domain gives the owner. The end from the general theorem on programs of phases. Refutation of the capacity by a grid of 2 by 20 by 20 cells.

### C160 — The HPCG skeleton arranges any number of processes in the most compact grid

*Property.* For every number of processes of the HPCG skeleton: the factors found by trial division are primes that multiply to the number (one has the factor one); the loops over the choices of factors end and visit every choice but the empty one exactly once; the three extents of the grid multiply to the number of processes, whatever the output variables held before; no other grid of three extents with this product has a smaller surface; ranks and positions in the grid correspond one to one.

*Model and proof.* Model the factorisation, the counters and the six cases. The product of the factors as an invariant of the loops, primality from the absence of smaller divisors. A counter counts in a mixed base, so its values run through all numbers below the product. Every shape is a choice of factors, so the smallest tried is the smallest of all; the cases without search by inequalities, powers of one prime by a line below the exponential.

### C161 — Keywords are accepted as registered and input files found by search path, independent of registration order

*Property.* For all registrations of keywords and all names: a plain keyword is accepted; a numbered one is accepted with a suffix that begins with a digit and ends the program without; what is accepted is registered in one of these ways, so that other names are rejected; the order and number of registrations does not matter as long as no name is registered in both ways. Refuted: with a name registered in both ways the first static constructor decides; a numbered keyword whose name contains a digit is rejected with its number; characters after the first digit are not checked. With validation a run goes on exactly with accepted keywords and the removed one. A file is opened by its own name if possible, else from the directory added last that has it, and is not found exactly if none has it.

*Model and proof.* Model the table with insertion that keeps the first entry; finding in it is finding the first registration, by induction over the registrations; with consistent flags this is membership, so order does not matter. The search of directories by induction over the list, latest first. Refutations by small tables.

### C162 — The traffic skeleton pairs every sender with one receiver, and both sides agree

*Property.* For all numbers of ranks, senders and receivers that the traffic skeleton accepts, all seeds and all hashes: a shuffle is a rearrangement by ascending hash; there is one pair per sender, senders are different even ranks, receivers odd ranks with equally many senders each; a rank sends to another exactly if that one expects it, no rank does both, and a receiver expects different ranks; with shuffled receivers no pair is on one node; messages of a pair and the receives for them have the same tags in the same order, and as many as asked for. Refuted: the seed for the receivers has no effect; without a shuffle pairs are on one node; the array of requests is too short for more than six senders to a receiver (exactly then); a rank that is source and destination in a file of flows plays only the part of the source (with different sources that are no destinations the parts agree).

*Model and proof.* Model the shuffle as sorting by an arbitrary hash, the loop that looks for receivers on other nodes, the pairs, the parts of a rank as folds over the pairs, and the tags of messages and receives. Rearrangements keep ranks different and even or odd; blocks of a quotient have equal length; parts are filters of the pairs. Refutations by small runs.


## Trusted base

* Lean 4.33.0's kernel. No `sorry`, no `admit`, no added axioms, no
  `native_decide`, no `bv_decide`.
* Axioms used by the theorems: at most `propext`, `Classical.choice` and
  `Quot.sound` (checked with `#print axioms`, see the gate).
* The correspondence between the C++ source and the model: established by reading;
  every definition cites the lines it models and states its simplifications.

## What is not modelled

* Floating point (bandwidth to delay conversion, statistics on doubles).
* Memory management (new/delete, leaks), logging and debug printing.
* User-space context switching (ucontext/fcontext/pth assembly).
* The Clang source-to-source skeletonizer, DUMPI/OTF2 trace readers.
* The SST-core integrated build (`SSTMAC_INTEGRATED_SST_CORE`): only the
  stand-alone configuration is modelled.

## What is modelled

The files of `/repo` each module cites, with the lines its definitions model. Functions of these files that are not cited are not modelled; files that are not listed are not modelled at all.

* `Verif/Apps/Boxml.lean`: skeletons/boxml/boxml-run.cc 54-376, 56-62, 74-115, 168-221, 223-290; skeletons/boxml/boxml-data.cc 324-366, 324-496, 401-423, 425-440, 459-496, 622-676, 629-672, 656; skeletons/boxml/boxml.h 200; skeletons/boxml/containers.h 183-198, 288-345, 353-400
* `Verif/Apps/Comd.lean`: skeletons/CoMD/src/decomposition.c 20, 26-31, 57-66; skeletons/CoMD/src/linkCells.c 97, 99-101, 103, 204-251, 204-245, 402-474; skeletons/CoMD/src/haloExchange.c 48-50, 150-155, 163-168, 215-220, 224-229, 249-253, 262-267, 281-310, 283, 284, 300-301, 331-355, 349-352, 461-501, 510-550, 558-582, 590-615; skeletons/CoMD/src/parallel.c 93-110
* `Verif/Apps/ComdHalo.lean`: skeletons/CoMD/src/haloExchange.c 353
* `Verif/Apps/ComdProps.lean`: skeletons/CoMD/src/linkCells.h 10; skeletons/CoMD/src/linkCells.c 109
* `Verif/Apps/Fft.lean`: sstmac/skeletons/fft/fft.cc 66-98, 100-103, 106, 107, 108, 126-136, 126-165; sstmac/skeletons/offered_load/main.cc 125-131, 168
* `Verif/Apps/FftProps.lean`: sstmac/skeletons/fft/fft.cc 53
* `Verif/Apps/Halo.lean`: sstmac/skeletons/halo3d-26/halo3d-26.cc 51-58, 60-67, 82-199, 201, 203-207, 221-283, 307-413, 318-404
* `Verif/Apps/HaloProps.lean`: sstmac/skeletons/halo3d-26/halo3d-26.cc 234-249, 288-290
* `Verif/Apps/Hpcg.lean`: skeletons/hpcg-3.0/src/ComputeOptimalShapeXYZ.cpp 10-34, 15-18, 17, 21-31, 22-30, 36-52, 54-114, 55, 56, 81-113, 97-102, 97, 100-110, 104; skeletons/hpcg-3.0/src/MixedBaseCounter.cpp 20-26, 28-38, 40-46, 48-59, 52-56; skeletons/hpcg-3.0/src/GenerateGeometry.cpp 55-57
* `Verif/Apps/Lulesh.lean`: skeletons/lulesh2.0.3/lulesh-comm.cc 102-2023, 102-396, 117-139, 147-395, 149-393, 400-939, 447-936, 938, 987-1404, 1463-1856, 1916-2020; skeletons/lulesh2.0.3/lulesh-init.cc 385-430, 395-400, 404-428, 741-749, 777-790; skeletons/lulesh2.0.3/lulesh.cc 85-145, 95-114, 1046-1079, 1050-1077, 1165-1220, 1182-1217, 1806-1846, 1816, 1823-1846, 2547-2668, 2605-2611, 2605-2650; skeletons/lulesh2.0.3/lulesh.h 67, 149-150
* `Verif/Apps/LuleshBuf.lean`: skeletons/lulesh2.0.3/lulesh.h 514-515
* `Verif/Apps/Pic.lean`: skeletons/pic/pic.h 67, 70-71, 98-127, 129-131; skeletons/pic/pic.cc 106-112, 106, 115-120, 123-128, 131, 135-154, 182-186, 182-206, 202-203, 212-219, 237-277, 238, 245, 336-340; skeletons/pic/skeleton.cc 66-69, 70-79, 73-76, 90-108, 99-108, 120-220, 122-135, 125, 127-129, 142-145, 156-158, 169-172, 183-185, 196-199, 223-323, 224-228, 233-235, 236-237, 236-280, 238-250, 238-278, 252-264, 266-278
* `Verif/Apps/Sweep.lean`: sstmac/skeletons/sweep3d/sweep3d.cc 52-56, 82-127, 129-160, 180, 181, 183, 184, 206-319, 211-233, 321
* `Verif/Apps/Traffic.lean`: skeletons/traffic/main.cc 61, 92-108, 103, 116-147, 127-144, 130-138, 161-416, 169-170, 206, 218-345, 335-337, 347-352, 357-371, 374-413, 374-508, 418-433, 418-438, 421-424, 460-481, 470-480
* `Verif/Clang/Compute.lean`: bin/clang/computeVisitor.cc 152-464, 168-173, 213-224, 248-262, 595-623, 625-660, 629-636, 667-685; bin/clang/computePragma.cc 310-319; bin/clang/validateScope.h; bin/clang/pragmas.cc 566-572; bin/clang/computeLoops.h 51-78, 52-69, 63-68
* `Verif/Clang/Memory.lean`: bin/clang/computeVisitor.cc 54-150, 80-98, 152-194, 196-329, 286-307, 316, 667-685; bin/clang/dataFlow.h 88-98, 117, 121-131, 124; bin/clang/computeVisitor.h 57, 75-77
* `Verif/Coll/Allgather.lean`: sumi/allgather.cc 62-75, 77-97, 104-165, 173-206, 208-212, 225-260, 231-256
* `Verif/Coll/Allgatherv.lean`: sumi/allgatherv.cc 61-80, 87-96, 98-182, 119-160, 190-220; sumi/allgatherv.h 65-70
* `Verif/Coll/Allreduce.lean`: sumi/allreduce.cc 68-85, 87-229, 136-192, 141-151, 142, 195, 231-236
* `Verif/Coll/Alltoall.lean`: sumi/alltoall.cc 65-87, 98-119, 107-118, 136-196, 139-146, 154-163, 204-232, 234-297; sumi/sim_transport.cc 566
* `Verif/Coll/AlltoallProps.lean`: sumi/alltoall.cc 83-86
* `Verif/Coll/Barrier.lean`: sumi-mpi/mpi_api_collectives.cc 515-535; sumi/sim_transport.cc 902-910, 944-990; sumi/allgather.h 135-152, 148-151; sumi/collective_actor.cc 415-425
* `Verif/Coll/Bcast.lean`: sumi/bcast.cc 57-71, 60-70, 87-97, 107-113, 118, 141-157, 144-149, 154; sumi/bcast.h 61
* `Verif/Coll/Dag.lean`: sumi/collective_actor.h 76, 106-110; sumi/collective_actor.cc 161-273, 222-251, 673-697
* `Verif/Coll/DirectAlltoall.lean`: sumi/alltoallv.cc 77-93, 84, 89, 105-121, 108-121, 123-129; sumi/sim_transport.cc 822-829; sumi/alltoall.cc 235-311, 246-262, 253, 275-287, 288-294; sumi/collective_actor.cc 595-600, 673-684
* `Verif/Coll/Engine.lean`: sumi/collective_actor.h 505-525; sumi/collective_actor.cc 147-159, 147-273, 161-212, 227-250, 253-260, 262-273, 335-347, 384-402, 415-425, 551-568; sumi/collective.h 117
* `Verif/Coll/Gather.lean`: sumi/gather.cc 51-63, 65-85, 119-221, 125-129, 139-173, 143-156, 157-168, 176-183, 187-219
* `Verif/Coll/Reduce.lean`: sumi/reduce.cc 78-97, 99-292, 201-245, 253-287, 255; sumi/allreduce.cc 136-192, 194-223
* `Verif/Coll/Registry.lean`: sumi/sim_transport.cc 918-920, 948-980, 982-1004, 1023-1055, 1057-1072; sumi/collective.cc 122-138, 158-165, 167-194, 224-237, 238-241; sumi/transport.h 541-547; sumi/collective.h 142-154, 150-154, 193-232; sumi/collective_actor.cc 826-841
* `Verif/Coll/Rounds.lean`: sumi/allgather.cc 138-141; sumi/allreduce.cc 157-160; sumi/collective_actor.cc 578-636, 604-612, 673-697; sumi/collective_actor.h 75-135, 106-112
* `Verif/Coll/Scan.lean`: sumi/scan.cc 69-85, 79, 87-140, 147-152; sumi/collective_actor.h 365-369, 387
* `Verif/Coll/Scatter.lean`: sumi/scatter.cc 50-55, 57-104, 106-126, 134-224, 147-148, 184-222, 186-199, 200-217
* `Verif/Coll/Smp.lean`: sumi/sim_transport.cc 309-324, 312-322, 639-673, 642, 791-818, 833-885, 948-980, 973-977, 1032-1034; sumi/communicator.cc 59-136, 63-96, 65-72, 73-82, 98-130, 101-115, 104-105; sumi/collective.h 68-84, 142-191; sumi-mpi/mpi_comm/mpi_comm.cc 98-112, 199-206
* `Verif/Coll/Tree.lean`: sumi/collective_actor.h 106-110, 112-122, 542-582; sumi/collective_actor.cc 887-898, 888-897, 900-912, 914-927; sumi/allreduce.cc 93-94; sumi/reduce.cc 118-119
* `Verif/Dumpi/Early.lean`: sstmac/skeletons/undumpi/parsedumpi.cc 64-65; sstmac/skeletons/undumpi/parsedumpi_callbacks.h 112-117; sstmac/skeletons/undumpi/parsedumpi_callbacks.cc 1405
* `Verif/Dumpi/Meta.lean`: sstmac/dumpi_util/dumpi_meta.h 72-88; sstmac/dumpi_util/dumpi_meta.cc 55-71, 78-99, 86-95, 101-105, 112-129, 124-125, 133, 134; sstmac/dumpi_util/dumpi_util.cc 55-91, 64-72, 70-86
* `Verif/Dumpi/Replay.lean`: sstmac/skeletons/undumpi/parsedumpi_callbacks.cc 100-114, 123-138, 146-166, 169-202, 205-211, 214-240, 236, 243-254, 256-261, 263-268, 270-275, 280-289, 292-301, 316-332, 337-349, 650-2303, 877-881, 911-915, 1199-1289, 1230, 1404, 2221-2237, 2251; sumi-mpi/mpi_api.cc 442-574, 442-456, 458-467, 553-558; sumi-mpi/mpi_api_wait.cc 82-116; sumi-mpi/mpi_api_send_recv.cc 69-97, 99-137, 171-193, 269-309, 311-336, 387-426; sumi-mpi/mpi_api_comm.cc; sumi-mpi/mpi_api_group.cc; sumi-mpi/mpi_integers.h 59, 60, 185, 189, 190, 191; sumi-mpi/mpi_types.h 60, 61, 62, 63; sstmac/skeletons/undumpi/parsedumpi_callbacks.h 112-117, 158-161; sumi-mpi/mpi_api_type.cc 236-246; sumi-mpi/mpi_comm/mpi_comm.cc; sstmac/skeletons/undumpi/parsedumpi.cc 102-107
* `Verif/Events/Model.lean`: sstmac/common/event_manager.h 92-322, 192-194, 231-233, 298-309, 310-312; sstmac/common/event_manager.cc 108-135, 159-169, 184-205, 196-206, 283-345, 412-416, 418-425, 439-458; sstmac/common/event_scheduler.h 184-187; sstmac/common/event_scheduler.cc 88-94, 108-115, 184-193, 220-230; sstmac/common/sst_event.h 81-129, 92-96, 111-113
* `Verif/Launch/Alloc.lean`: sstmac/software/launch/node_set.h 54; sstmac/software/launch/job_launcher.cc 96; sstmac/software/launch/first_available_allocation.cc 55-77, 63-74; sstmac/software/launch/random_allocation.cc 73-93; sstmac/software/launch/stride_allocation.cc 84-109, 91-101; sstmac/software/launch/greedy_dfly_allocation.cc 97-143, 110-134, 114-118, 114-127; sstmac/hardware/topology/dragonfly.h; sstmac/software/launch/node_id_allocation.cc 105-126; sstmac/software/launch/cart_allocation.cc 144-155
* `Verif/Launch/Files.lean`: sstmac/software/launch/cart_allocation.cc 68-102, 105-124, 134-136; sstmac/software/launch/coordinate_allocation.cc 99-135, 111-113; sstmac/software/launch/coordinate_task_mapper.cc 67-85; sstmac/software/launch/node_id_task_mapper.cc 78-90; sstmac/software/launch/hostname_allocation.cc 70-105; sstmac/software/launch/hostname_task_mapper.cc 70-103; sstmac/hardware/topology/cartesian_topology.cc 96-158, 125-156, 160-172, 174-187; sstmac/hardware/topology/topology.cc 312-321, 323-338; sstmac/software/launch/node_id_allocation.cc 72-103
* `Verif/Launch/Jobs.lean`: sstmac/software/launch/job_launcher.cc 73-84, 94-102, 163-182, 184-197, 199-218, 209-216, 226-236, 238-248; sstmac/software/process/app.cc 552-560; sstmac/software/launch/node_id_task_mapper.cc 69-87; sstmac/software/launch/launch_request.cc 168-179
* `Verif/Launch/JobsProps.lean`: sstmac/software/process/app.cc 553
* `Verif/Launch/Mapper.lean`: sstmac/software/launch/node_set.h 54; sstmac/software/launch/task_mapper.cc 64-94; sstmac/software/launch/block_task_mapper.cc 55-87, 71-86; sstmac/software/launch/round_robin_task_mapper.cc 51-68; sstmac/software/launch/launch_request.cc 124-134, 157-163; sstmac/software/launch/job_launcher.cc 187-191; sstmac/software/launch/random_task_mapper.cc 70-107, 85-91, 88-90
* `Verif/Launch/Options.lean`: sstmac/main/parseopts.cc 79-83, 85-308, 88-104, 143-212, 143-220, 145-212, 150, 169, 222-307, 232-240, 242-254, 261-304; sstmac/main/sstmac.cc 175-208; sstmac/main/params.cc 82-155, 83, 162-199; sprockit/sprockit/sim_parameters.h 243-246; sstmac/main/sstmac.h 60-92, 76-89
* `Verif/Launch/OptionsProps.lean`: sstmac/main/help.cc 81-82
* `Verif/Launch/Outcast.lean`: sstmac/software/launch/job_launcher.h 227-263, 231-239, 232-235, 246-261; sstmac/software/process/operating_system.cc 642-684, 653-656; sstmac/software/launch/app_launcher.cc 71-113, 94; sstmac/software/launch/job_launcher.cc 194
* `Verif/Launch/Request.lean`: sstmac/software/launch/launch_request.cc 75-107, 168-179, 188-208, 227-310, 259-281; sstmac/software/launch/job_launcher.cc 112-142, 125, 145-160; sstmac/software/launch/task_mapping.cc 59-78, 79-85, 114-122, 124-134; sstmac/backends/native/manager.cc 120-179, 181-200; sstmac/main/params.cc; sstmac/software/launch/app_launcher.cc 130-134; sprockit/sprockit/sim_parameters.h 615-617; sprockit/sprockit/sim_parameters.cc 1047-1066
* `Verif/Mem/LogP.lean`: sstmac/hardware/logp/logp_memory_model.cc 60-102, 73-80, 88-97; sstmac/hardware/memory/memory_model.h 158; sstmac/hardware/logp/logp_memory_model.h 95-119
* `Verif/Mem/Pisces.lean`: sstmac/hardware/pisces/pisces_memory_model.cc 64-216, 64-90, 68, 98-108, 110-130, 132-145, 144-154, 156-173, 175-185; sstmac/hardware/pisces/pisces_memory_model.h 93-99, 93-124, 108-111
* `Verif/Mem/Snappr.lean`: sstmac/hardware/snappr/snappr_mem.cc 56-77, 56-148, 62-74, 79-106, 98, 108-130, 132-147; sstmac/hardware/snappr/snappr_mem.h 84-124, 100-104, 112-119; sstmac/hardware/snappr/snappr_nic.cc 241
* `Verif/Mpi/CollCall.lean`: sumi-mpi/mpi_api_collectives.cc 86-153, 155-160, 169-185, 247-249; sumi-mpi/mpi_api_vcollectives.cc 82-111, 192-203, 315-327, 354-360, 421-432; sumi-mpi/mpi_request.cc 57-99; sumi-mpi/mpi_integers.h 164; sumi-mpi/mpi_request.h 71-98; sumi-mpi/mpi_types/mpi_type.cc 369-379, 381-391; sumi/alltoall.cc 66-87; sumi/allgatherv.cc
* `Verif/Mpi/Comm.lean`: sumi-mpi/mpi_comm/mpi_group.cc 52-63, 65-79, 83-91, 94-107, 100-104; sumi-mpi/mpi_api_group.cc 50-79, 55-75, 63-66, 71-74, 81-100, 90-92; sumi-mpi/mpi_comm/mpi_comm_factory.cc 97-111, 113-119, 122-132, 134-154, 201-204, 262-311, 269-284, 281-283, 298; sumi-mpi/mpi_comm/mpi_comm_cart.cc 65-75, 77-87, 89-120; sumi-mpi/mpi_comm/mpi_comm.cc 81, 199-206; sumi-mpi/mpi_integers.h 217; sumi-mpi/mpi_types.h 60; sumi-mpi/mpi_comm/mpi_comm.h 197
* `Verif/Mpi/DtHandles.lean`: sumi-mpi/mpi_api_type.cc 136-251, 253-654, 316-351, 354-367, 369-427, 389-399, 467-477, 470-474, 501-524, 541-594, 563-574, 596-608, 610-620, 613-614, 626-639, 644-654; sumi-mpi/mpi_types/mpi_type.h 78; sumi-mpi/mpi_types/mpi_type.cc 183-210, 212-222, 319-367, 347-367, 369-391; sumi-mpi/mpi_api_collectives.cc 732-737, 733; sumi-mpi/mpi_api.h 822; sumi-mpi/mpi_protocol/mpi_protocol.cc 57-68
* `Verif/Mpi/Handles.lean`: sumi-mpi/mpi_api_comm.cc 59-83, 85-104, 106-113, 115-138, 161-167, 169-186, 262-275, 288-311; sumi-mpi/mpi_api_group.cc 81-100, 129-145, 147-156; sumi-mpi/mpi_comm/mpi_comm_factory.cc 97-111, 113-119, 122-132, 134-154, 156-170, 262-311, 328-343; sumi-mpi/mpi_comm/mpi_comm.h 194-214; sumi-mpi/mpi_comm/mpi_comm.cc 68-71, 208-212, 214-218; sumi-mpi/mpi_comm/mpi_comm_cart.cc 49-55; sumi-mpi/mpi_api.cc 130, 174-195, 191-195, 216-221, 236-249, 442-456, 458-467, 498-507, 529-535; sumi-mpi/mpi_integers.h 59, 60, 185, 190, 191; sumi-mpi/mpi_api.h 849-852, 849-853; sumi-mpi/mpi_comm/mpi_group.h 57-106; sumi-mpi/mpi_comm/mpi_group.cc 81-92
* `Verif/Mpi/HandlesProps.lean`: sumi-mpi/mpi_integers.h 65
* `Verif/Mpi/HostTime.lean`: sstmac/software/process/host_timer.h 59-71, 70, 74; sstmac/software/process/thread.cc 213-222, 224-230, 289-298; sstmac/software/process/app.cc 534-542; sstmac/software/api/api.cc 128-131; sumi-mpi/mpi_api.h 900-908; sumi-mpi/mpi_api_test.cc 54-80, 82-231; sumi-mpi/mpi_api.cc 223-272; sumi-mpi/mpi_api_probe.cc 58-100; sumi-mpi/mpi_api_send_recv.cc 72-137
* `Verif/Mpi/Lifecycle.lean`: sumi-mpi/mpi_api.cc 119-127, 223-272, 274-280; sumi-mpi/mpi_api.h 132-140, 833-835
* `Verif/Mpi/Model.lean`: sumi-mpi/mpi_queue/mpi_queue.cc 82-86, 88-109, 168-199, 177-186, 205-218, 231-249, 290-310, 312-328, 315-325, 361-399, 372-391, 417-422; sumi-mpi/mpi_queue/mpi_queue_recv_request.cc 96-100, 102-106; sumi-mpi/mpi_queue/mpi_queue_probe_request.cc 71-75; sumi-mpi/mpi_protocol/mpi_protocol.h; sumi-mpi/mpi_types.h 61, 63; sumi/transport.h 200-212; sumi-mpi/mpi_protocol/rendezvous_rdma.cc 112-121, 187-198; sstmac/hardware/network/network_message.h; sumi-mpi/mpi_protocol/eager0.cc 103-120; sumi-mpi/mpi_protocol/eager1.cc 82-94, 96-102; sumi-mpi/mpi_request.h 184-187; sumi-mpi/mpi_queue/mpi_queue.h 211-212; sumi-mpi/mpi_types/mpi_type.h 129
* `Verif/Mpi/Modes.lean`: sumi-mpi/sstmac_mpi_macro.h 84-89; sumi-mpi/mpi_queue/mpi_queue.cc 178-187
* `Verif/Mpi/Ops.lean`: sumi/comm_functions.h 55-169, 55-182, 144-152, 171-182; sumi-mpi/mpi_types/mpi_type.h 159-199, 161-166, 168-172, 178-180, 182-191, 193-199; sumi-mpi/mpi_types/mpi_type.cc 135-181, 172-181; sumi-mpi/mpi_api_type.cc 60-251, 91-104, 91-119, 106-119, 155-159, 166-227, 166-234, 297-307, 297-314, 309-314, 644-654; sumi-mpi/mpi_api_collectives.cc 722-746; sumi-mpi/mpi_integers.h 84-99, 102-157; sumi-mpi/mpi_api.h 824-825; sumi-mpi/mpi_api.cc 124
* `Verif/Mpi/Probe.lean`: sumi-mpi/mpi_api_probe.cc 58-77; sumi-mpi/mpi_queue/mpi_queue.cc 261-286, 401-415; sumi-mpi/mpi_queue/mpi_queue_probe_request.cc 66-75; sumi-mpi/mpi_protocol/eager0.cc 103-121; sumi-mpi/mpi_protocol/rendezvous_rdma.cc 187-198; sumi-mpi/mpi_protocol/eager1.cc 96-102
* `Verif/Mpi/Quiesce.lean`: sumi-mpi/mpi_protocol/rendezvous_rdma.cc 56-74, 76-84, 86-90, 113-130, 132-158, 160-185, 187-198, 200-236, 206-221, 218, 238-266; sumi-mpi/mpi_protocol/mpi_protocol.h 181-192; sumi-mpi/mpi_message.h 141; sumi-mpi/mpi_message.cc 58-68
* `Verif/Mpi/Request.lean`: sumi-mpi/mpi_api_send_recv.cc 65-67, 69-97, 98-137, 112, 139-169, 171-193, 232-267, 269-281, 311-336, 338-351, 353-385, 394-411; sumi-mpi/mpi_request.h 57-70, 141-260, 145-150, 171-173, 189; sumi-mpi/mpi_request.cc 104-115, 108-115; sumi-mpi/mpi_api.cc 118-136, 553-558, 560-571; sumi-mpi/mpi_api_wait.cc 56-103, 105-116; sumi-mpi/mpi_api_test.cc 54-80; sumi-mpi/mpi_integers.h 54, 189; sumi-mpi/mpi_status.h 49-59; sumi-mpi/mpi_types.h 59, 62, 96; sumi-mpi/mpi_api.h 857; sumi-mpi/mpi_queue/mpi_queue.cc 252-254, 447-469
* `Verif/Mpi/TestProgress.lean`: sumi-mpi/mpi_api_test.cc 54-80, 111-151, 153-192, 194-230; sumi-mpi/mpi_api.cc 144; sumi-mpi/mpi_queue/mpi_queue.cc 499-507
* `Verif/Mpi/Types.lean`: sumi-mpi/mpi_types/mpi_type.cc 61, 134-138, 134, 369-391, 416-443; sumi-mpi/mpi_api_type.cc 229-234, 316-351, 354-367, 369-427, 389-399, 395, 501-524, 541-594, 563-574; sumi-mpi/mpi_protocol/mpi_protocol.cc 57-68; sumi-mpi/mpi_queue/mpi_queue.cc 251-260, 255-257; sumi-mpi/mpi_types/mpi_type.h; sumi-mpi/mpi_queue/mpi_queue_recv_request.cc 76-80
* `Verif/Mpi/Wait.lean`: sumi-mpi/mpi_api_wait.cc 81-103, 105-116, 118-154, 156-237, 171-196, 239-313, 257-276; sumi-mpi/mpi_api_test.cc 54-80, 111-151, 153-192, 194-230; sumi-mpi/mpi_request.h 151-253, 180-182; sumi-mpi/mpi_api.h 856; sumi-mpi/mpi_queue/mpi_queue.cc 457-465
* `Verif/Mpi/Xfer.lean`: sumi-mpi/mpi_queue/mpi_queue.cc 251-260; sstmac/hardware/network/network_message.cc 79-163, 83-86, 110-118; sstmac/hardware/nic/nic.cc 186-241; sumi-mpi/mpi_protocol/mpi_protocol.h; sumi-mpi/mpi_protocol/eager0.cc 60-80, 82-100, 92; sumi-mpi/mpi_protocol/eager1.cc 64-81, 104-123, 116, 125-133; sumi-mpi/mpi_queue/mpi_queue_recv_request.cc 72-76; sumi-mpi/mpi_protocol/rendezvous_rdma.cc 93-127, 131-159, 200-240; sumi-mpi/mpi_protocol/mpi_protocol.cc 92-106, 108-123, 143-148; sstmac/hardware/common/unique_id.h 67-72
* `Verif/Nic/Inject.lean`: sstmac/hardware/pisces/pisces_nic.cc 137-171, 144-149, 173-183, 198-216, 204-215; sstmac/hardware/snappr/snappr_nic.cc 217-255, 220-254, 257-265, 342-349, 371-387, 411-445, 447-490, 487-488, 493-540, 503-504, 510-515, 511-514, 527-533, 529-532, 535-538; sstmac/hardware/pisces/pisces_buffer.h 75-77; sstmac/hardware/snappr/snappr_nic.h
* `Verif/Nic/LogP.lean`: sstmac/hardware/logp/logp_nic.cc 58-68, 73-92, 85, 95-116; sstmac/hardware/logp/logp_switch.cc 67-90, 123-158, 138-141, 192-200, 194-198, 204-212; sstmac/hardware/nic/nic.cc 105, 308-329, 308-345, 331-345; sstmac/hardware/logp/logp_nic.h 108-110; sstmac/hardware/interconnect/interconnect.cc 376-396; sstmac/common/timestamp.h 303-313
* `Verif/Nic/Merlin.lean`: sstmac/hardware/merlin/merlin_nic.cc 144-145, 146, 199-207, 213-216, 250-258, 260-267, 273-284, 286-322, 287, 288, 290-312, 294-313, 296-305, 326-327; sstmac/hardware/network/network_message.h 57-260
* `Verif/Nic/Negligible.lean`: sstmac/hardware/nic/nic.cc 72, 312-329; sstmac/hardware/nic/nic.h 209-211
* `Verif/Nic/RecvCq.lean`: sstmac/hardware/common/recv_cq.h 78-88, 97; sstmac/hardware/common/recv_cq.cc 74-98, 85-89; sstmac/hardware/common/flow.h; sstmac/hardware/common/packet.h 55-187
* `Verif/Nic/RingProps.lean`: sstmac/hardware/snappr/snappr_nic.cc 449-454
* `Verif/Os/AppEnv.lean`: sstmac/software/process/app.cc 147-215, 227-266, 250-251, 255-266, 261-265, 277-286, 288-294, 288-295, 391-403, 405-423, 543-549, 566, 654-672, 674-695, 735-760, 744-757; sstmac/software/process/app.h 272; sprockit/sprockit/basic_string_tokenizer.h 88-135; sstmac/main/sstmac.cc 367-371; sprockit/sprockit/factory.h 284-303
* `Verif/Os/AppStreams.lean`: sstmac/software/process/app.cc 298-353, 303-314, 363-379
* `Verif/Os/CallGraph.lean`: sstmac/software/process/graphviz.h 56-175, 115-120, 211; sstmac/software/process/graphviz.cc 110-120, 122-138, 169-208, 190-203, 210-226, 242-263; sstmac/software/process/backtrace.h; sstmac/software/process/thread.cc 267-276, 278-283; sstmac/software/process/thread.h 441-445
* `Verif/Os/Compute.lean`: sstmac/software/process/app.cc 480-496; sstmac/hardware/processor/instruction_processor.cc 77-82, 86-94, 96-115; sstmac/common/timestamp.cc 64-71; sstmac/software/libraries/compute/compute_event.h 121-128; sstmac/software/libraries/compute/lib_compute_inst.cc 105-118; sstmac/software/libraries/compute/compute_api.cc 63-90, 130-156; sstmac/software/libraries/compute/lib_compute_memmove.cc 69-79; sstmac/hardware/logp/logp_memory_model.cc; sstmac/software/process/operating_system.cc 357-360; sstmac/software/process/simple_compute_scheduler.cc 63-64; sstmac/hardware/memory/memory_model.h 165; sstmac/common/timestamp.h 129; sstmac/libraries/blas/daxpy.cc 84-95; sstmac/libraries/blas/ddot.cc 84-95; sstmac/libraries/blas/dgemv.cc 84-95; sstmac/libraries/blas/dgemm.cc 86-125, 105-109; sstmac/libraries/blas/blas_api.cc 80-88
* `Verif/Os/Cores.lean`: sstmac/software/process/simple_compute_scheduler.cc 53-89, 91-121, 103-117; sstmac/software/process/cpuset_compute_scheduler.cc 52-81, 55-66, 57, 83-97, 99-126, 102-109, 103-105, 111-126; sstmac/software/process/thread.h 293-319, 297-315, 298; sstmac/software/process/operating_system.cc 411-432; sstmac/software/process/cpuset_compute_scheduler.h 64-73, 71; sstmac/libraries/pthread/sstmac_sched.cc 173-185
* `Verif/Os/CpuSet.lean`: sstmac/libraries/pthread/sstmac_sched.cc 91-97, 91-169, 99-105, 107-110, 112-118, 120-129, 136-141, 143-146, 148-151, 153-156; sstmac/libraries/pthread/sstmac_sched.h 85, 85-118, 116; sstmac/libraries/pthread/sstmac_cpu_set.h 52-55
* `Verif/Os/Exit.lean`: sstmac/software/process/app.cc 148-153, 161-199, 201-215, 245, 534-538, 539-566; sstmac/software/process/thread.h 199-205; sstmac/software/process/thread.cc 148-151; sstmac/main/util.cc; sstmac/software/launch/job_launcher.cc 136, 163-167; sstmac/main/sstmac.cc 367-371; sstmac/replacements/stdlib.h 86-91; sstmac/hardware/node/node.cc 222-243; sstmac/software/process/app.h 280-288; sstmac/software/launch/app_launcher.cc 70-110
* `Verif/Os/Globals.lean`: sstmac/software/process/global.cc 82-88, 90-94, 96-132, 101-102, 105-108, 134-145, 156-164, 174-185, 177-180; sstmac/software/process/global.h 58-112, 159-169, 200-212, 240-244, 246-251; sstmac/software/process/app.cc 126-143; sstmac/software/process/thread_info.cc 141-148, 160-176
* `Verif/Os/Libc.lean`: sstmac/main/util.cc 78-80, 103-115, 117-129, 174-184, 202-216, 207-208; sstmac/null_buffer.h 66-73; sstmac/software/process/operating_system.cc 175-176, 183; sstmac/software/process/app.cc 504-520; sprockit/sprockit/sim_parameters.h 520-522
* `Verif/Os/Libs.lean`: sstmac/software/process/operating_system.cc 581-624, 581-607, 609-624, 787-821; sstmac/software/process/operating_system.h 385-392; sstmac/software/libraries/library.cc 52-64
* `Verif/Os/Mutex.lean`: sstmac/libraries/pthread/sstmac_pthread.cc 260-281, 291-308, 317-337, 409-456, 474-500, 525-535, 691-719; sstmac/software/process/mutex.h 11-21, 18; sstmac/software/process/operating_system.cc 411-432; sstmac/software/process/thread.cc
* `Verif/Os/Omp.lean`: sstmac/libraries/omp/libomp.cc 95-99, 104-155, 135-140; sstmac/software/process/thread.h 324-358, 344-347; sstmac/software/process/thread.cc 320-355, 320-334, 349-355; sstmac/software/process/app.cc 248-253; sstmac/libraries/pthread/sstmac_pthread.cc 290-308
* `Verif/Os/Progress.lean`: sstmac/software/process/progress_queue.h 186-262, 197-225, 198-204, 211-224, 227-249, 237-248, 251-260; sstmac/software/process/progress_queue.cc 50-74, 59; sstmac/software/process/operating_system.cc 411-432; sstmac/software/libraries/unblock_event.cc 68-78
* `Verif/Os/Pthread.lean`: sstmac/libraries/pthread/sstmac_pthread.cc 76-106, 133-153, 151, 166-172, 536-543, 545-551, 553-561, 563-579, 683-689, 781-791, 793-803; sstmac/software/process/thread.cc 74, 80-99, 106-123, 187, 191, 231-242, 251-258, 260-264, 410-444, 410-423, 432-439, 441-444; sstmac/software/process/thread.h 127, 440-475; sstmac/software/process/app.h 263; sstmac/software/process/operating_system.h 408; sstmac/software/process/operating_system.cc 526-544, 542-543, 556-578, 566-573, 741-761, 744-746, 747-761, 823-832; sstmac/software/process/app.cc 117-124, 227-236, 568-575, 577-587, 589-593; sstmac/libraries/pthread/sstmac_pthread_runner.cc 52-66, 70-74; sstmac/libraries/pthread/sstmac_sched.cc 171-184, 186-192
* `Verif/Os/Stacks.lean`: sstmac/software/threading/stack_alloc.cc 61-79, 96-119, 99, 109-113, 115, 116, 124-130, 128; sstmac/software/threading/stack_alloc_chunk.cc 64, 66, 86-96, 91-95, 99-108; sstmac/software/threading/stack_alloc_chunk.h
* `Verif/Os/Threads.lean`: sstmac/software/process/operating_system.cc 300-340, 301-340, 331-340, 410-432, 416, 420-431, 454-579, 454-469, 507-512, 514-524, 526-544, 557-579, 741-761; sstmac/software/process/thread.cc 78-171, 107-123, 141-147, 148-149, 388-400; sstmac/software/process/app.cc 438-450; sstmac/software/libraries/unblock_event.cc 50-79; sstmac/libraries/pthread/sstmac_pthread.cc 76-154, 76-105, 115-121, 275-276, 329-332, 330-332, 445-453, 458-469, 494-497; sstmac/common/event_scheduler.cc 108-115; sstmac/software/process/thread.h 82-420, 199-205; sstmac/common/event_manager.h 298-309; sstmac/software/threading/threading_ucontext.cc 93
* `Verif/Otf2/Replay.lean`: sstmac/skeletons/otf2_trace_replay/callid.h; sstmac/skeletons/otf2_trace_replay/structures.cc; sstmac/skeletons/otf2_trace_replay/callbacks.cc 290-313, 315-624, 506-523, 528-613, 560, 646-1526, 646-1072, 1077-1087, 1267; sstmac/skeletons/otf2_trace_replay/mpicall.h 59-133; sstmac/skeletons/otf2_trace_replay/otf2_trace_replay.cc 94-111, 157-167, 169-172, 254-282; sstmac/skeletons/otf2_trace_replay/callqueue.h 99-107, 119-128, 151-153, 156-163, 177-179, 181-184; sstmac/skeletons/otf2_trace_replay/otf2_trace_replay.h 142; sstmac/skeletons/otf2_trace_replay/callqueue.cc 60-79, 66-76, 82-91, 94-101, 97-99
* `Verif/Otf2/ReplayProps.lean`: sstmac/skeletons/otf2_trace_replay/callbacks.cc 550-595
* `Verif/Otf2/Spec.lean`: sstmac/skeletons/otf2_trace_replay/callbacks.cc
* `Verif/Otf2/Writer.lean`: sumi-mpi/otf2_output_stat.cc 59-65, 105, 121-133, 148-156, 158-167, 160-162, 169-186, 176-200, 214-222, 231-244, 252-256
* `Verif/Parallel/CoreLinks.lean`: sstmac/sst_core/python_topology.cc 258-325; sstmac/hardware/common/connection.cc 105-165, 108, 110-113, 125-128, 136-149, 141-144, 151-165, 156-159; sstmac/hardware/switch/network_switch.cc 85-104; sstmac/hardware/nic/nic.cc 119-126, 119-141, 128-141; sstmac/hardware/logp/logp_switch.cc 95-100; sstmac/hardware/topology/topology.h 397; sstmac/hardware/nic/nic.h 117-120; sstmac/hardware/topology/topology.cc 355-367; sstmac/hardware/logp/logp_nic.cc 66
* `Verif/Parallel/CoreTopoProps.lean`: sstmac/hardware/topology/cascade.cc 99; sstmac/hardware/topology/dragonfly.cc 112; sstmac/hardware/topology/dragonfly_plus.cc 135; sstmac/hardware/topology/fat_tree.cc 438; sstmac/hardware/topology/fully_connected.cc 69; sstmac/hardware/topology/hypercube.cc 79; sstmac/hardware/topology/star.cc 72; sstmac/hardware/topology/torus.cc 78
* `Verif/Parallel/Links.lean`: sstmac/hardware/interconnect/interconnect.cc 113-190, 164-174, 171-173, 193-205, 223-293, 255-272, 275-290, 320-415, 346-412, 357, 361-373, 517-614, 538-611, 552; sstmac/common/event_scheduler.cc 184-230, 184-193; sstmac/common/event_manager.cc 151-157, 283-310; sstmac/hardware/topology/structured_topology.cc 65-69; sstmac/hardware/topology/file.h 107-111; sstmac/hardware/topology/topology.h 79-84, 104-108; sstmac/common/event_scheduler.h 530-606, 556-565, 576-590
* `Verif/Parallel/Model.lean`: sstmac/backends/native/clock_cycle_event_container.cc 115-143, 147-192, 150, 162-164, 175-177; sstmac/backends/native/multithreaded_event_container.cc 230-287, 240-242, 261-272, 299; sstmac/common/event_manager.cc 180-181, 181, 184-206, 321-345, 329-343, 396-410; sstmac/common/event_scheduler.cc 184-193, 195-213, 220-230; sstmac/common/event_manager.h 192-194, 259-262, 261; sstmac/hardware/interconnect/interconnect.cc 176-187; sstmac/common/event_scheduler.h 92-110, 162-182
* `Verif/Parallel/Partition.lean`: sstmac/backends/common/sim_partition.cc 143-159, 145-151, 188-194, 188-219
* `Verif/Parallel/Tree.lean`: sstmac/backends/native/multithreaded_event_container.cc 194-201, 203-206, 206-228, 211-223; sstmac/backends/native/multithreaded_event_container.h 63-83
* `Verif/Params/Core.lean`: sstmac/sst_core/integrated_core.cc 113-145, 147-159, 157, 161-173, 216-218; sstmac/sst_core/python_topology.cc 345-365
* `Verif/Params/FileProps.lean`: sstmac/main/parseopts.cc 198-203; sprockit/sprockit/sim_parameters.cc 1035-1044
* `Verif/Params/Keywords.lean`: sprockit/sprockit/keyword_registration.cc 63-65, 81-115, 86, 89-91, 95-102, 124-129, 164-183, 170-181, 198-204; sprockit/sprockit/fileio.cc 54-58, 60-76, 69-75; sprockit/sprockit/keyword_registration.h 73, 83-85, 88
* `Verif/Params/Model.lean`: sprockit/sprockit/sim_parameters.h 386, 651-667, 659; sprockit/sprockit/sim_parameters.cc 241-244, 271-278, 311-316, 386-395, 389-394, 397-406, 404, 408-419, 411-413, 412, 414-418, 421-433, 562-577, 566-574, 664-677, 671-673, 679-691, 688-690, 724-733, 770-771, 783-792, 803-848, 804-848, 807-808, 810-847, 810-811, 814-846, 816-846, 829, 832, 836, 840-843, 840, 869-873, 884-901, 888, 953-971, 977-978, 981-986, 996-1013, 1002-1003, 1009-1012, 1046-1066, 1052-1057, 1059-1065; sprockit/sprockit/basic_string_tokenizer.h 52-53, 52-64, 88-133; sstmac/main/sstmac.cc 186
* `Verif/Params/UnitTables.lean`: sprockit/sprockit/units.cc 90-231, 94, 98, 102, 108, 114, 120, 126, 132, 138, 144, 150, 156, 162, 169, 176, 183, 190, 197, 204, 211, 218, 225, 298-310, 303, 304, 306, 308, 312-326, 317, 319, 321, 323, 325, 328-338, 333, 334, 335, 336, 337
* `Verif/Params/Units.lean`: sprockit/sprockit/units.cc 234-503, 234-296, 248-274, 340-387, 348-373, 389-441, 400-426, 443-496, 454-480; sprockit/sprockit/sim_parameters.cc 67-101, 67-90; sprockit/sprockit/sim_parameters.h 503-541
* `Verif/Params/Units0.lean`: sprockit/sprockit/units.cc; sprockit/sprockit/sim_parameters.cc 67-101
* `Verif/Pisces/Arbitrator.lean`: sstmac/hardware/pisces/pisces_arbitrator.h 72-82, 211-215; sstmac/hardware/pisces/pisces_arbitrator.cc 112-126, 139-161, 163-170, 190-238, 260-402, 292-371, 376-398
* `Verif/Pisces/Flow.lean`: sstmac/hardware/pisces/pisces.h 180-226; sstmac/hardware/pisces/pisces_crossbar.cc 205, 262-298; sstmac/hardware/pisces/pisces_buffer.cc 73-83, 173, 206-219; sstmac/hardware/pisces/pisces_crossbar.h 83-85; sstmac/hardware/pisces/pisces_sender.cc 105-154; sstmac/hardware/pisces/pisces_switch.cc 188-197; sstmac/hardware/pisces/pisces_nic.cc 132-170, 185-196
* `Verif/Pisces/Slot.lean`: sstmac/hardware/pisces/pisces.h 66-177; sstmac/hardware/pisces/pisces_buffer.cc 110-166, 151-163, 168-208, 198; sstmac/hardware/pisces/pisces_crossbar.cc 160-197, 196-232, 229; sstmac/hardware/pisces/pisces_sender.cc 58-70, 64
* `Verif/Pisces/Switches.lean`: sstmac/hardware/pisces/pisces_switch.cc 119-133, 121, 165-188, 181-183, 199-204; sstmac/hardware/pisces/pisces_nic.cc 80-82; sstmac/hardware/interconnect/interconnect.cc 249-267, 264, 267, 282, 285, 607; sstmac/hardware/topology/topology.h; sstmac/hardware/pisces/pisces_buffer.cc 88
* `Verif/Sculpin/Nic.lean`: sstmac/hardware/sculpin/sculpin_nic.cc 133-139, 144-158, 160-164, 177-190, 192-206; sstmac/hardware/sculpin/sculpin_switch.cc 313-332
* `Verif/Sculpin/Port.lean`: sstmac/hardware/sculpin/sculpin_switch.h 122-135, 137-150; sstmac/hardware/sculpin/sculpin_switch.cc 189-240, 242-255, 257-291, 266-270; sstmac/hardware/sculpin/sculpin.h 126-137
* `Verif/Serial/CommBuffer.lean`: sstmac/backends/common/parallel_runtime.cc 77-165, 90-97, 99-102, 100-102, 130-136, 140-154; sstmac/backends/mpi/mpi_runtime.cc 264-276; sstmac/backends/common/parallel_runtime.h 91-165, 98-102
* `Verif/Serial/Message.lean`: sstmac/backends/common/parallel_runtime.cc 315-324, 330-343, 345-351; sstmac/common/event_manager.cc 221-234; sstmac/backends/native/clock_cycle_event_container.cc 131-141, 134-140; sstmac/common/ipc_event.h 53-64; sstmac/backends/common/parallel_runtime.h 64-69
* `Verif/Serial/Model.lean`: sprockit/sprockit/serializer.h 121-135, 137-156, 155-207, 159-163; sprockit/sprockit/serializer.cc 52-64, 60, 66-71, 73-98, 87-89; sprockit/sprockit/serialize.h 67-75; sprockit/sprockit/serialize_string.h; sprockit/sprockit/serialize_vector.h 52-84, 71, 76; sprockit/sprockit/serialize_list.h 53-90, 83, 84; sprockit/sprockit/serialize_set.h 52-89, 81-86; sprockit/sprockit/serialize_map.h 53-95, 85-92; sprockit/sprockit/serialize_array.h; sprockit/sprockit/serialize_serializable.cc 53-91; sprockit/sprockit/serialize_buffer_accessor.h 67-83, 75-81, 93-97; sprockit/sprockit/serialize_sizer.h; sprockit/sprockit/serialize_packer.h 56-59; sprockit/sprockit/serialize_unpacker.h; sprockit/sprockit/serializable.cc 98-108, 102-105
* `Verif/Snappr/Flow.lean`: sstmac/hardware/snappr/snappr_switch.cc 216-233, 272-300, 280-281; sstmac/hardware/snappr/snappr.h 192-230; sstmac/hardware/snappr/snappr_outport.cc 123-133, 135-222, 199-206; sstmac/hardware/snappr/snappr_nic.cc 281-317
* `Verif/Snappr/Port.lean`: sstmac/hardware/snappr/snappr_outport.h 57-79, 127-237; sstmac/hardware/snappr/snappr_outport.cc 123-133, 135-222, 145-172, 224-241, 264-283, 285-313, 328-350, 352-466, 354-359, 372-391, 426-431, 437-450, 442-449, 463-465, 468-968, 471-527, 473-477, 536-555, 631-658, 671-679, 697-742, 744-774, 776-786, 788-807, 809-844, 846-904, 912-963; sstmac/hardware/snappr/snappr.h 62-190
* `Verif/Stats/Csv.lean`: sstmac/common/stats/stat_collector.cc 64-131, 70-83, 105-109, 120-134; sstmac/common/stats/stat_collector.h 205-209, 217-305, 283-295, 299-301; sstmac/common/event_manager.cc 236-285, 236-261, 269-283; sstmac/common/stats/stat_histogram.h 68-98, 68-106, 100-109, 138-142
* `Verif/Stats/Ftq.lean`: sstmac/common/stats/ftq.cc 176-201, 199, 262-320, 304-318; sstmac/common/stats/ftq.h 101-109, 144-151, 193-196
* `Verif/Stats/Vtk.lean`: sstmac/hardware/vtk/vtk_stats.h 103-149, 118-130, 132-148, 151-171, 157-163, 165-170, 240-256; sstmac/hardware/vtk/vtk_stats.cc 130-134, 425-433, 453-475, 469, 495-512, 514-560, 524-529, 536-540, 568-574
* `Verif/Sumi/Comm.lean`: sumi/communicator.h 138-321, 154, 168, 187-192, 198, 203, 259-263, 293-297; sumi/communicator.cc 143-147, 149-153, 155-159, 160-166, 164-166, 169-174, 176-185, 187-198, 200-205, 207-231
* `Verif/Sumi/DenseRank.lean`: sumi/dense_rank_map.cc 83-94, 97-106, 108-120, 122-133, 135-173; sumi/dense_rank_map.h 77
* `Verif/Sumi/Transport.lean`: sumi/sim_transport.cc 118-195, 143-152, 170-184, 238-293, 252-253, 295-307, 333-343, 391-450, 452-464, 466-479, 487-499, 507-530; sumi/sim_transport.h 241-251, 253-255, 272; sumi/transport.h 155-212, 155-168, 170-182, 184-197, 200-212; sstmac/hardware/nic/nic.cc 183-192, 194-241; sstmac/hardware/network/network_message.cc 67-79, 212-235, 237-245, 367-379; sstmac/hardware/network/network_message.h 73-88, 254-257, 361-401; sumi/message.h 62-247, 73, 119-123, 155-171, 191-193
* `Verif/Time/Model.lean`: sstmac/common/timestamp.h 79-200, 85, 119-125, 133-141, 172-174, 180-182, 184-186, 188-190, 192-194, 202-266, 206-208, 220-222, 224-226, 263, 264, 265, 273-275, 277-283, 285-291, 297-301, 303-313, 315-321, 323-329, 331-337, 339-341, 343-345, 347-353; sstmac/common/timestamp.cc 148-156, 177-181, 186-190, 195-208, 210-215, 217-222
* `Verif/Topo/Cascade.lean`: sstmac/hardware/topology/cascade.h 107-109, 141-143, 145-155, 157-159, 161-163, 165-167, 169-171; sstmac/hardware/topology/cascade.cc 67-70, 72-79, 79-87, 90-101, 103-116, 110-114, 118-131, 133-146, 148-183, 186-211, 213-236, 239-289, 305-320; sstmac/hardware/router/cascade_routing.cc 60-113, 89-91, 93-108, 103; sstmac/hardware/topology/dragonfly.cc
* `Verif/Topo/Coords.lean`: sstmac/hardware/topology/torus.cc 59-64, 190-201, 203-213
* `Verif/Topo/Dragonfly.lean`: sstmac/hardware/topology/dragonfly.h 55-112, 196-198, 200-202, 204-206; sstmac/hardware/topology/dragonfly.cc 55, 57-60, 72-101, 103-114, 116-141, 155-196, 164-174, 176-194, 356-426, 388-403, 389, 390, 414-424, 428-503, 461-477, 488-501, 505-603, 518, 524, 532-540, 549-559, 590-598; sstmac/hardware/router/dragonfly_routing.cc 66-195, 100-111, 113-125, 119-121, 127-131, 143-184
* `Verif/Topo/DragonflyLemmas.lean`: sstmac/hardware/topology/dragonfly.cc 515-530
* `Verif/Topo/DragonflyPlus.lean`: sstmac/hardware/topology/dragonfly_plus.h 152-154, 156-158, 160-162, 164-166, 168-170, 182-184; sstmac/hardware/topology/dragonfly_plus.cc 111-113, 115, 120-137, 139-153, 174-226; sstmac/hardware/router/dragonfly_plus_routing.cc 59-172, 78, 80-115, 92-95, 105-108, 120-122, 128-161, 149-157, 174-298, 203-207, 211-283, 245-258, 285-287
* `Verif/Topo/DragonflyProps.lean`: sstmac/hardware/topology/dragonfly.h 229-238
* `Verif/Topo/DragonflyScatter.lean`: sstmac/hardware/router/dragonfly_routing.cc 75-78, 569-813, 578-581, 592-599, 636-672, 674-676, 682-721, 704, 741-752, 761-763, 769-808
* `Verif/Topo/DragonflyValiant.lean`: sstmac/hardware/router/dragonfly_routing.cc 75-78, 157-184, 197-566, 211-214, 223-232, 223-266, 240-241, 243-254, 263, 272-274, 276-290, 292-304, 306-344, 315-341, 335-339, 376-378, 386, 408-415, 446-499, 456-493, 460-464, 485-491, 527-565, 537-562, 541-545, 556-560; sstmac/hardware/common/packet.cc 68
* `Verif/Topo/FatTree.lean`: sstmac/hardware/topology/fat_tree.h 102-104, 122-132, 151-163, 201-212, 234-236; sstmac/hardware/topology/fat_tree.cc 77-117, 89, 90, 216-341, 236-263, 258, 264-294, 295-318, 319-341, 343-421, 423-442; sstmac/hardware/router/fat_tree_router.h; sstmac/hardware/router/fat_tree_router.cc 60-82, 84-102, 111-155, 157-163, 165-173
* `Verif/Topo/File.lean`: sstmac/hardware/topology/file.h; sstmac/hardware/topology/file.cc 69-79, 81-88, 90-122, 124-135, 146-170, 172-198; sstmac/hardware/topology/topology.h; sstmac/hardware/topology/topology.cc 312-321; sstmac/hardware/router/table_routing.cc 83-87, 136-142, 159-173; sstmac/hardware/common/packet.h 68
* `Verif/Topo/Full.lean`: sstmac/hardware/topology/fully_connected.cc 58-69, 72-88; sstmac/hardware/topology/fully_connected.h 88-90; sstmac/hardware/router/router.cc 145-153, 183-185; sstmac/hardware/topology/star.cc 58-74; sstmac/hardware/common/packet.cc 68
* `Verif/Topo/Hypercube.lean`: sstmac/hardware/topology/hypercube.h; sstmac/hardware/topology/hypercube.cc 57-63, 65-82, 69-72, 84-103, 105-122, 154-186; sstmac/hardware/router/hypercube_routing.cc 70-73, 85-97, 103-281, 104-112; sstmac/hardware/common/packet.cc 68; sstmac/hardware/topology/torus.cc 190-201
* `Verif/Topo/Net.lean`: sstmac/hardware/topology/topology.h 79-84; sstmac/common/node_address.h 52
* `Verif/Topo/Opa.lean`: sstmac/hardware/topology/file.cc 67
* `Verif/Topo/Torus.lean`: sstmac/hardware/topology/torus.h 80-83, 133-135; sstmac/hardware/topology/torus.cc 60-64, 67-80, 82-101, 103-119, 121-134, 148-188, 157-163, 158-166; sstmac/hardware/router/torus_routing.cc 63-66, 92-106, 108-122, 124-148, 150-160
* `Verif/Topo/TorusPositive.lean`: sstmac/hardware/router/torus_routing.cc 389-416, 399-412, 418-427; sstmac/hardware/common/packet.cc 68
* `Verif/Topo/TorusValiant.lean`: sstmac/hardware/router/torus_routing.cc 178-181, 200-208, 217-262, 251-259, 285-349; sstmac/hardware/common/packet.cc 68
* `Verif/Util/CartGrid.lean`: sstmac/common/cartgrid.cc 70-82, 84-90, 92-103, 105-113, 115-141, 121-123, 126-136, 127-135, 143-205, 175-181, 188, 190-203, 192-202
* `Verif/Util/DebugFlags.lean`: sprockit/sprockit/debug.h 71-73, 81-84, 100-106, 296-299, 301-304; sprockit/sprockit/debug.cc 53, 60-67, 86-89, 128-137, 139-146, 144-145, 148-159, 161-172, 174-184, 186-195, 197-222, 206-221, 242-246; sstmac/main/parseopts.cc 57-66; sumi-mpi/mpi_debug.h 58-62
* `Verif/Util/DebugFlagsProps.lean`: sstmac/main/help.cc 85-89
* `Verif/Util/Mersenne.lean`: sstmac/common/mersenne_twister.cc 49-51, 56-57, 62-70, 66-69, 98-128, 104-118, 105-108, 109-113, 122-125, 133-164, 138-151, 152-161; sstmac/common/mersenne_twister.h
* `Verif/Util/Pool.lean`: sprockit/sprockit/thread_safe_new.h 74-200, 77-80, 78, 110-133, 139-155, 158-185, 158, 159-163, 165-179, 185
* `Verif/Util/Rng.lean`: sstmac/common/rng.h 92, 103-105, 116-134, 158-200, 164-170, 186-188, 216-238, 293-321, 307-309, 333-368, 358-360, 371-389, 423-430, 454-474, 487-517, 495-500; sstmac/common/rng.cc 55-56, 156-169, 212-220, 263-271, 345-364, 385-393, 467-473, 512-534, 536-544, 546-558; sstmac/hardware/router/router.cc 68-83, 68-115, 104-115
* `Verif/Util/Shuffle.lean`: sstmac/common/rng.h 73-82, 85-90, 103-105

## Axioms of each theorem

From `#print axioms` on every theorem of the manifest (1163 theorems).

### Classical.choice, Quot.sound, propext (570)

* `Params`: C104_lines, C104_words, C104_block, C104_meaning, C104_resend_partial, C104_parallel_partial, C105_items_partial, C105_prefix_refuted, C105_order_refuted
* `SST.Apps.Boxml`: C157_once, C157_order, C157_where, C157_left, C157_guard, C157_progress, C157_finish, C157_bound
* `SST.Coll`: C37_unique_partial, C38_virtual_ranks
* `SST.Coll.Allgather`: C29_bruck, C29_bruck_in_place, C29_ring_in_place, C29_ring_separate_buffers_refuted
* `SST.Coll.Allgatherv`: C71_bruckv, C71_bruckv_in_place
* `SST.Coll.Allreduce`: C30_allreduce
* `SST.Coll.Alltoall`: C34_bruck, C34_workspace
* `SST.Coll.Barrier`: C91_no_early_exit, C91_all_leave, C91_can_leave
* `SST.Coll.Bcast`: C31_bcast, C31_one_message, C31_message_count
* `SST.Coll.Direct`: C97_completes, C97_pairs, C97_window
* `SST.Coll.Engine`: C36_ordered, C36_completes, C36_terminates
* `SST.Coll.Gather`: C32_gather
* `SST.Coll.Reduce`: C33_reduce_partial, C33_reduce_refuted
* `SST.Coll.Registry`: C144_complete_partial, C144_delivered_partial, C144_any_order_partial
* `SST.Coll.Scan`: C35_as_coded, C35_scan_partial, C35_scan_refuted, C35_with_refresh_partial
* `SST.Coll.Scatter`: C32_scatter_partial, C32_scatter_two_ranks_refuted, C32_scatter_even_root_refuted
* `SST.Coll.Smp`: C118_allgather_partial, C118_allgather_by_node, C118_one_node_refuted, C118_uneven_refuted, C118_lone_rank_refuted, C118_tags_partial, C118_alltoall_refuted
* `SST.Events`: C04_time_order, C04_clock_monotone, C04_clock_is_last_event, C06_insertion_order_irrelevant, C06_tie_break, C07_never_early, C08_link_order_partial, C08_sequence_counter
* `SST.Launch`: C58_exclusive_partial, C58_returned_partial, C58_all_returned_partial, C60_once, C60_reaches, C60_only, C61_first_available, C61_stride_iff, C61_greedy_dfly, C86_inverse
* `SST.Mem.LogP`: C114_null_refuted
* `SST.Mem.Pisces`: C114_pisces_once, C114_pisces_completes_partial, C114_pisces_large_refuted, C114_pisces_requests_refuted
* `SST.Mem.Snappr`: C114_snappr_once, C114_snappr_completes, C114_snappr_channels
* `SST.Mpi`: C17_send_order_partial, C17_recv_order, C18_in_order, C18_all_released, C18_never_backwards, C19_one_place, C19_match_once, C19_receives_kept, C19_no_missed_match, C20_match_criteria, C20_abort_justified, C20_earliest_message, C21_protocol_by_size, C21_monotone, C22_testsome_progress_partial, C22_testany_progress_partial, C22_waitall, C22_waitsome_null_refuted, C70_probe_agrees, C92_once, C93_fits_partial, C93_accepts_partial
* `SST.Mpi.CollCall`: C116_bcast, C116_reductions
* `SST.Mpi.Comm`: C23_incl, C23_incl_rejects, C24_members, C24_no_duplicates, C24_ids_distinct, C25_rank_roundtrip, C25_coords_roundtrip, C26_shift_partial, C26_symmetric_partial, C27_tag_eq, C27_unique_partial, C27_tags_refuted
* `SST.Mpi.Dt`: C120_discipline_partial, C120_fresh, C120_base_refuted, C120_dup_refuted, C120_rename_refuted, C120_processes_refuted
* `SST.Mpi.Handles`: C117_handles_partial, C117_teardown_partial
* `SST.Mpi.Ops`: C119_integers, C119_modular, C119_order_partial, C119_sum_prod_partial, C119_defined_arith_partial, C119_loc, C119_user
* `SST.Mpi.Quiesce`: C149_busy
* `SST.Mpi.Req`: C115_handles_partial, C115_start, C115_start_other, C115_wait, C115_wait_returns, C115_test, C115_blocking, C115_sendrecv
* `SST.Mpi.Types`: C28_roundtrip_partial
* `SST.Mpi.Xfer`: C94_delivers, C94_once, C94_no_abort, C94_progress, C94_completes, C94_taken, C94_received, C142_synchronous_partial, C142_buffered_refuted
* `SST.Nic`: C52_with_last_packet, C52_exactly_once, C53_pisces, C53_pisces_all_sent, C53_end_to_end, C53_network_not_empty, C53_snappr_fifo, C53_snappr_fifo_all_sent, C53_snappr_no_flow_control, C53_snappr_round_robin_partial, C55_fifo, C55_round_robin_partial, C55_round_robin_refuted
* `SST.Nic.LogP`: C109_injection, C109_arrival, C109_reception_partial, C109_order_partial
* `SST.Nic.Merlin`: C154_order_partial, C154_room_partial, C154_acks_partial, C154_safe_partial, C154_received_partial, C154_zero_mtu_refuted, C154_large_mtu_refuted
* `SST.Os`: C57_cpuset, C57_cpuset_count, C83_simple_partial, C83_cpuset, C84_partial, C89_disjoint, C89_aligned, C89_guarded, C89_succeeds_partial, C89_pages, C90_offsets, C90_start, C90_copy, C90_moved, C90_late, C90_safe_partial
* `SST.Os.CallGraph`: C147_written_partial
* `SST.Os.Exit`: C146_return_partial, C146_status_partial
* `SST.Os.Libc`: C145_memset_partial, C145_memcpy_partial, C145_large_refuted, C145_offset_refuted
* `SST.Os.Libs`: C111_lookup, C111_registered_partial, C111_order_partial
* `SST.Os.Progress`: C67_fifo
* `SST.Os.Threads`: C107_safe, C107_one_runs, C107_compute, C107_waits, C107_wake, C107_join, C107_join_now, C107_freed, C107_freed_once, C107_idle, C107_timeout_fires, C107_pthread_exit_refuted
* `SST.Parallel`: C09_incoming_not_in_past, C09_register_never_aborts, C09_window_never_aborts, C09_setup_never_aborts, C09_lookahead_valid, C10_same_history, C10_complete_same, C10_terminates, C10_ipc_complete_same_partial, C11_every_thread_once, C11_tree_shape, C11_minimum, C11_is_round_bound, C62_block, C69_window_exact, C69_vote_lower_bound
* `SST.Parallel.CoreLinks`: C156_carries, C156_started_iff, C156_started_logp, C156_started, C156_names, C156_one_destination, C156_same_machine_partial, C156_nothing_else, C156_shared_port_refuted, C156_one_way_refuted, C156_latency_refuted, C156_runs, C156_torus, C156_hypercube, C156_full, C156_fat_tree, C156_dragonfly, C156_dragonfly_alltoall, C156_dragonfly_plus, C156_cascade
* `SST.Parallel.Links`: C106_lookahead, C106_fast_logp_refused, C106_order_partial
* `SST.Params.Units`: C108_time, C108_frequency, C108_size, C108_bandwidth_partial, C108_bandwidth_accepted, C108_bandwidth_refuted, C108_quantity, C108_no_number
* `SST.Pisces`: C50_credits_conserved, C50_receiver_never_overflows, C50_credits_never_exceed, C50_links, C50_switch, C50_nic, C51_buffer_order_partial, C51_buffer_same_size_partial, C51_crossbar_order_refuted
* `SST.Pisces.Arbit`: C54_simple
* `SST.Sculpin`: C100_link_exclusive, C101_cut, C101_delivered, C102_not_faster, C102_in_order
* `SST.Serial`: C12_round_trip, C13_size_exact, C14_pack_inside, C14_unpack_inside, C14_check_exact, C15_sequence, C15_event_stream
* `SST.Serial.Comm`: C16_disjoint_inside, C16_merged
* `SST.Snappr`: C50_snappr_network_wrr, C50_snappr_wrr, C51_snappr_fifo_partial, C51_snappr_wrr, C54_snappr_fifo, C54_snappr_wrr, C66_snappr_port, C66_snappr_wrr, C66_snappr_wrr_port, C77_checks_fifo, C77_time_fifo, C77_checks_wrr, C77_time_wrr, C78_rate_partial, C78_partial
* `SST.Stats`: C65_credit, C65_dump_partial, C113_headings, C113_rows_partial, C113_histogram_partial, C113_histogram_refuted
* `SST.Sumi`: C87_dense, C87_sparse, C87_back, C88_bijective, C88_intersect
* `SST.Sumi.Tp`: C121_conserved, C121_complete, C121_server, C121_function, C121_order, C121_no_failure_partial
* `SST.Time`: C01_add_exact_partial, C01_add_monotone_partial, C01_add_assoc, C01_add_strict_mono_partial, C01_epoch_constant, C02_lt_iff_instant, C02_eq_iff_instant, C02_ge_iff_instant, C02_ne_gt, C02_trichotomy, C02_lt_trans, C03_diff_add, C03_sub_add_partial, C68_divideUp_ceil_partial
* `SST.Topo.Cascade`: C99_wired_partial, C99_local, C99_distance_refuted, C99_one_group_deadlock_free, C99_groups_refuted
* `SST.Topo.Dragonfly`: C39_dragonfly, C46_dragonfly_circulant, C46_dragonfly_alltoall, C46_dragonfly_single_partial, C47_dragonfly_circulant, C47_dragonfly_circulant_covers, C47_dragonfly_alltoall, C47_dragonfly_single_partial, C48_dragonfly_upper_bound_partial, C48_dragonfly_alltoall_upper_bound_partial, C48_dragonfly_self_refuted, C48_dragonfly_refuted, C49_dragonfly, C95_constructed, C95_valiant, C95_ugal, C95_par_partial, C95_ugal_minimal, C95_third_group_partial, C95_two_groups_refuted, C95_par_refuted, C96_rotate, C96_scatter, C96_rotate_refuted
* `SST.Topo.DragonflyPlus`: C98_wired, C98_minimal, C98_minimal_deadlock_free, C98_adaptive, C98_adaptive_deadlock_free, C98_alltoall, C98_hops, C98_circulant_refuted
* `SST.Topo.FatTree`: C44_fat_tree_links_partial, C44_fat_tree_core_links, C44_fat_tree_no_abort, C45_fat_tree_always_decides, C45_fat_tree_delivers, C45_fat_tree_deadlock_free, C48_fat_tree_true_distance, C48_fat_tree_distance_refuted, C48_fat_tree_distance_low_refuted, C48_fat_tree_distance_partial, C49_fat_tree
* `SST.Topo.File`: C103_wired, C103_link_ports, C103_node_ports_partial, C103_table, C103_increment_deadlock_free, C103_accepted_refuted, C103_ring_refuted, C103_increment_refuted
* `SST.Topo.Full`: C49_full, C49_star, C75_full_links, C75_full_delivers, C75_full_deadlock_free
* `SST.Topo.Hypercube`: C43_hypercube_links, C43_hypercube_neighbours, C43_hypercube_minimal_routing, C43_hypercube_deadlock_free, C48_hypercube_distance, C49_hypercube, C74_hypercube_par_delivers_partial, C74_hypercube_par_delivers_refuted, C74_hypercube_par_deadlock_free_partial
* `SST.Topo.Torus`: C39_torus, C40_torus_links_partial, C40_torus_neighbours_partial, C41_torus_minimal_routing, C41_torus_distance_partial, C42_torus_deadlock_free, C49_torus
* `SST.Topo.TorusPositive`: C135_delivery, C135_shortest, C135_deadlock_free
* `SST.Topo.TorusValiant`: C72_torus_valiant_delivers_partial, C72_torus_ugal_delivers_partial
* `SST.Util`: C63_fits, C63_grid
* `SST.Util.Pool`: C112_disjoint, C112_fresh, C112_threads, C112_bounded_partial, C112_bounded_refuted
* `SST.Util.Rng`: C110_mwc, C110_cong_period, C110_cong_distinct, C110_realvalue_partial, C110_realvalue_refuted, C110_lags_refuted
* `Verif.Apps.Comd`: C159_cell, C159_numbers, C159_lists, C159_planes, C159_layer, C159_neighbours, C159_pairs, C159_fits, C159_inside, C159_ends
* `Verif.Apps.Fft`: C128_fft_lines, C128_fft_agree, C128_fft_ends, C128_fft_exchanges
* `Verif.Apps.Halo`: C128_halo_match, C128_halo_fits, C128_halo_inside, C128_halo_ends, C128_halo_agree, C128_halo_vertices_refuted
* `Verif.Apps.Hpcg`: C160_factors, C160_counter, C160_grid, C160_grid_best, C160_place
* `Verif.Apps.Lulesh`: C158_recv_buffers, C158_send_buffers, C158_position, C158_sends, C158_recvs, C158_messages, C158_fits, C158_inside, C158_agree, C158_ends
* `Verif.Apps.Pic`: C152_fill, C152_pack, C152_boxes_partial, C152_partners, C152_neighbours, C152_sizes, C152_parts_partial, C152_parts_refuted, C152_any_order, C152_conserved, C152_ends_partial, C152_initial, C152_fractions_partial
* `Verif.Apps.Sweep`: C128_sweep_refuses, C128_sweep_ends, C128_sweep_inside, C128_sweep_agree, C128_sweep_fits_partial, C128_sweep_fits_refuted
* `Verif.Apps.Traffic`: C162_ends, C162_traffic, C162_run, C162_shuffle, C162_accepted, C162_pairs, C162_roles, C162_nodes, C162_nodes_refuted, C162_messages, C162_requests_partial, C162_requests_refuted, C162_flows_partial
* `Verif.Clang.Compute`: C141_charges_partial, C141_empty_refuted, C141_limit_refuted, C141_step_refuted, C141_down_refuted, C141_else_refuted, C141_no_hint_refuted, C141_switch_refuted, C141_unseen_refuted, C141_while
* `Verif.Dumpi`: C123_replay_partial, C123_time_partial, C124_below, C124_stops_partial, C124_barrier_refuted
* `Verif.Dumpi.Meta`: C150_number, C150_files_partial
* `Verif.Launch.Files`: C134_address, C134_box_partial, C134_coordinates_partial, C134_default_names, C134_names_partial, C134_coords
* `Verif.Launch.Options`: C137_values, C137_others
* `Verif.Launch.Request`: C131_atoi, C131_aprun_partial, C131_invalid, C131_nodes, C131_apps, C131_apps_once, C131_apps_partial, C131_apps_refuted, C131_services
* `Verif.Mpi.Lifecycle`: C139_calls, C139_legal_partial
* `Verif.Os.AppEnv`: C129_args_refuted, C129_args_shared_refuted, C129_getenv_refuted, C129_omp_refuted, C129_omp_partial, C129_status_refuted, C129_apis_refuted, C129_apis_leak_refuted, C129_loaded
* `Verif.Os.AppStreams`: C130_text_partial, C130_stdout, C130_cout_rank, C130_cout_refuted
* `Verif.Os.Compute`: C132_cores_refuted, C132_threads_refuted, C132_threads_partial
* `Verif.Os.CpuSet`: C127_set_partial, C127_clr_partial, C127_isset_partial, C127_build_partial, C127_count_refuted
* `Verif.Os.Pth`: C126_numbers, C126_join_partial, C126_join_right, C126_deletion_partial, C126_values, C126_mask_partial
* `Verif.Otf2.Writer`: C125_comm_ids
* `Verif.Params.Keywords`: C161_validate
* `Verif.Stats.Vtk`: C151_levels_partial, C151_colors_partial, C151_end_refuted
* `Verif.Util.DebugFlags`: C136_flags_partial, C136_errors_partial, C136_off_others_partial, C136_conditional_partial

### Quot.sound, propext (366)

* `Params`: C104_command_line, C104_defaults
* `Params.Core`: C155_python_partial, C155_round_trip_partial, C155_flat_partial, C155_node_values_partial, C155_global_values_partial, C155_switch_values_partial, C155_apps_partial, C155_topology_partial, C155_shadowed_refuted, C155_eleventh_app_refuted, C155_topology_over_node_refuted
* `SST.Apps.Boxml`: C157_free_local_refuted, C157_remote_refuted, C157_iterator_refuted
* `SST.Clang.Wrapper`: C148_words_partial, C148_options_partial, C148_options_refuted, C148_warnings_refuted, C148_link, C148_order_refuted, C148_run, C148_visibility_refuted, C148_preprocess_refuted
* `SST.Coll`: C37_decodable_partial, C37_one_partner, C38_power_of_two
* `SST.Coll.Barrier`: C91_terminates
* `SST.Coll.Direct`: C97_only_pairs, C97_data_refuted
* `SST.Coll.Engine`: C36_empty_never_signals
* `SST.Coll.Registry`: C144_no_message_refuted
* `SST.Coll.Smp`: C118_round_robin_refuted, C118_allreduce_refuted, C118_tags_refuted
* `SST.Events`: C04_unchecked_same, C05_conservation, C05_exactly_once, C07_unchecked_refuted
* `SST.Launch`: C58_early_refuted, C58_leak_refuted, C58_mapper_refuted, C59_block, C59_random, C59_round_robin_partial, C60_sends, C61_random, C61_stride, C85_exclusive
* `SST.Mem.LogP`: C114_logp
* `SST.Mpi`: C17_overtake_refuted, C22_testall_progress_partial, C22_waitany, C22_waitsome_partial, C22_waitsome_status_refuted, C22_testall_flag_partial, C22_test_persistent_refuted, C22_testsome_partial, C92_no_missed_message_partial, C92_reported_available_partial, C92_eager1_refuted, C92_consumed_refuted, C92_reads_deleted_refuted, C92_safe_partial, C93_rendezvous_overflow_refuted, C93_short_receive_refuted, C93_large_receive_refuted
* `SST.Mpi.CollCall`: C116_user_op_refuted, C116_gather_partial, C116_scatter_partial, C116_alltoall_partial, C116_noncontiguous_refuted, C116_scatter_noncontiguous_refuted, C116_scatter_in_place_refuted, C116_alltoall_in_place_refuted, C116_alltoall_init, C116_allgatherv_partial, C116_allgatherv_displs_refuted, C116_null_counts_partial, C116_null_volume_refuted, C116_null_gatherv_refuted
* `SST.Mpi.Comm`: C23_range, C23_range_zero_stride_refuted, C23_translate, C23_translate_back, C24_agreement, C24_null, C24_split_id, C25_coords_in_range, C26_outside
* `SST.Mpi.Handles`: C117_group_free_refuted, C117_split_group_refuted, C117_dup_of_split_refuted, C117_cart_free_refuted, C117_self_group_refuted, C117_second_handle_refuted, C117_cart_teardown_refuted
* `SST.Mpi.Ops`: C119_order_refuted, C119_unsigned_short_refuted, C119_user_order
* `SST.Mpi.Quiesce`: C149_count, C149_since, C149_qos_partial, C149_init_refuted, C149_partner_refuted, C149_parallel_refuted
* `SST.Mpi.Req`: C115_null_refuted, C115_nonblocking, C115_inactive_refuted, C115_persistent_status_refuted, C115_ignore_refuted
* `SST.Mpi.Types`: C28_vector_single_partial, C28_vector_dense_partial, C28_struct_dense_partial
* `SST.Mpi.Xfer`: C94_flow_ids, C142_synchronous_refuted, C142_buffered_partial
* `SST.Nic`: C53_cut, C53_pisces_empty_refuted, C76_small_partial, C76_large_refuted
* `SST.Nic.LogP`: C109_contention_level, C109_contention_state, C109_reproducible_refuted
* `SST.Os`: C56_exclusive_partial, C56_order_partial, C56_not_lost_partial, C56_trylock_refuted, C57_simple_count, C80_signal_refuted, C80_abort_refuted, C82_refuted, C83_simple_refuted, C84_refuted, C89_small_chunk_refuted, C90_grown_refuted, C90_size_refuted, C90_thread_end_refuted, C90_postfix_refuted
* `SST.Os.CallGraph`: C147_times, C147_total, C147_flow, C147_calls_partial, C147_calls_refuted, C147_followed, C147_deep_refuted, C147_late_refuted
* `SST.Os.Libc`: C145_small, C145_charge_partial, C145_hostname_partial, C145_advance_partial, C145_advance_refuted
* `SST.Os.Libs`: C111_exactly_once, C111_waits, C111_registered_refuted
* `SST.Os.Progress`: C67_woken_partial, C67_first_waiter_partial
* `SST.Os.Threads`: C107_timeout_refuted, C107_double_wake_refuted, C107_timeout_partial, C107_two_joiners_refuted, C107_cancel_refuted, C107_cancel_partial
* `SST.Parallel.Links`: C106_numbering, C106_delivery, C106_complete, C106_unique, C106_kind, C106_handlers
* `SST.Params.Units`: C108_units_unique
* `SST.Pisces`: C51_buffer_order_refuted, C51_crossbar_same_size_partial, C66_buffer_holds_nothing_sendable, C66_crossbar_refuted, C66_crossbar_no_stall_partial, C66_crossbar_partial
* `SST.Pisces.Arbit`: C54_simple_busy, C54_cut_through_partial, C79_partial
* `SST.Sculpin`: C100_no_abort, C100_fifo, C100_all_sent, C101_large_refuted, C101_empty_refuted, C101_eject, C102_alone, C102_cut_through_partial, C102_cut_through_refuted
* `SST.Serial`: C12_nonempty_list_refuted, C12_null_in_list_refuted, C12_null_buffer_refuted
* `SST.Serial.Comm`: C16_order, C16_reset
* `SST.Snappr`: C50_snappr_network_fifo, C50_snappr_never_overflows, C50_snappr_fifo, C66_snappr_fifo
* `SST.Stats`: C65_total
* `SST.Sumi`: C87_failed_partial, C87_failed_refuted, C88_index_partial, C88_shifted_me, C88_my_rank_refuted, C88_nonmember_refuted, C88_shift_refuted
* `SST.Sumi.Tp`: C121_get_refuted, C121_get_node_refuted, C121_held_refuted, C121_gap_refuted, C121_self_refuted, C121_stale_refuted
* `SST.Time`: C01_add_monotone_refuted, C03_sub_add_refuted, C03_borrow_forgets_minuend
* `SST.Topo.Cascade`: C99_local_distance
* `SST.Topo.Dragonfly`: C47_dragonfly_single_refuted, C95_keeps_target, C95_two_switches_refuted, C95_third_group_refuted, C96_round_robin
* `SST.Topo.File`: C103_node_ports_refuted, C103_round_robin
* `SST.Topo.Full`: C48_full_partial, C75_full_neighbours, C75_star_delivers
* `SST.Topo.TorusValiant`: C72_torus_valiant_delivers_refuted
* `SST.Util`: C64_shuffle, C64_huge_refuted, C64_every
* `SST.Util.Rng`: C110_seeded, C110_shr3_period_refuted, C110_shr3_injective, C110_in_range, C110_lfib4_partial, C110_swb_partial, C110_router_partial, C110_router_refuted, C110_simple, C110_combo, C110_table
* `Verif.Apps.Comd`: C159_coord, C159_rank, C159_capacity_partial
* `Verif.Apps.Fft`: C128_load_partial
* `Verif.Apps.Halo`: C128_halo_requests
* `Verif.Apps.Hpcg`: C160_counter_ends
* `Verif.Apps.Lulesh`: C158_align, C158_collectives
* `Verif.Apps.Pic`: C152_negative_refuted
* `Verif.Apps.Traffic`: C162_seed_refuted, C162_count
* `Verif.Clang.Memory`: C143_at_most_partial, C143_exact_partial, C143_assigned, C143_repeated, C143_constants_refuted, C143_fields_refuted, C143_second_loop_refuted, C143_step_refuted, C143_rows_refuted, C143_address_refuted
* `Verif.Dumpi`: C123_waits, C123_proc_null_refuted, C123_sendrecv_proc_null_refuted, C123_unimplemented_refuted, C123_split_undefined_refuted, C123_init_thread_refuted, C123_comm_self_refuted, C123_world_group_refuted, C123_comm_group_refuted, C123_inactive_refuted, C123_clock_refuted, C123_perf_refuted, C123_unknown_type_refuted, C124_ranks_refuted
* `Verif.Dumpi.Meta`: C150_meta, C150_folder, C150_missing_refuted, C150_equals_refuted, C150_found, C150_long_refuted
* `Verif.Launch.Files`: C134_node_id_map, C134_node_id_map_refuted, C134_names_read, C134_host_map, C134_hosts
* `Verif.Launch.Options`: C137_outcome, C137_no_file
* `Verif.Launch.Request`: C131_launcher, C131_params, C131_params_refuted, C131_mapping_partial, C131_mapping_right, C131_mapping_refuted
* `Verif.Mpi.HostTime`: C138_never_less_partial, C138_outside, C138_blocked_refuted, C138_wtime_refuted, C138_testall_refuted, C138_test_refuted, C138_spawned_refuted
* `Verif.Os.AppEnv`: C129_words, C129_args_partial, C129_args_fit, C129_env, C129_getenv_partial, C129_api_entry, C129_apis_partial
* `Verif.Os.Compute`: C132_detailed_partial, C132_cutoff_refuted, C132_access, C132_time, C132_alone_partial, C132_alone_upper, C132_null_refuted, C132_sleep_partial, C132_sleep_bound, C132_blas_partial, C132_dgemm_parts, C132_dgemm_sorted
* `Verif.Os.CpuSet`: C127_ops, C127_set_refuted, C127_clr_refuted, C127_isset_refuted, C127_size_refuted
* `Verif.Os.Pth`: C126_keys, C126_affinity_partial
* `Verif.Otf2`: C122_replay_partial, C122_complete_partial, C122_order, C122_vectors_refuted, C122_dangling_refuted
* `Verif.Otf2.Writer`: C125_group_refuted, C125_start, C125_end_refuted, C125_events
* `Verif.Params.Keywords`: C161_registered, C161_unknown, C161_order, C161_suffix_refuted, C161_files
* `Verif.Stats.Vtk`: C151_links_partial, C151_links_refuted, C151_filter, C151_colors_refuted
* `Verif.Topo.Opa`: C153_links_partial, C153_part, C153_shortened, C153_ports_partial, C153_routes_partial, C153_traced, C153_visits_once, C153_simulated_partial
* `Verif.Util.DebugFlags`: C136_off_refuted, C136_conditional_refuted, C136_late_refuted, C136_list, C136_list_refuted, C136_wrap
* `Verif.Util.Mersenne`: C140_values, C140_unique, C140_not_zero, C140_list_words, C140_list_exists, C140_list_values

### none (67)

* `SST.Clang.Wrapper`: C148_words_refuted
* `SST.Coll.Registry`: C144_two_communicators_refuted, C144_two_communicators, C144_ahead_refuted
* `SST.Events`: C04_unchecked_refuted, C05_stop_event_lost_refuted, C06_unchecked_duplicate_refuted, C08_sequence_wrap_refuted
* `SST.Launch`: C59_round_robin_refuted, C61_node_id_refuted, C61_cart_refuted, C61_cart_bounds_refuted
* `SST.Mpi`: C22_testall_refuted
* `SST.Mpi.CollCall`: C116_allgatherv_type_refuted, C116_gatherv_short_refuted
* `SST.Mpi.Ops`: C119_noncommutative_refuted
* `SST.Mpi.Quiesce`: C149_stale_refuted
* `SST.Mpi.Types`: C28_contiguous_refuted, C28_vector_block_refuted, C28_indexed_refuted, C28_struct_gap_refuted, C28_extent_refuted, C28_zero_block_refuted
* `SST.Os`: C56_hand_off, C57_simple_core_refuted, C81_refuted, C89_locks_refuted
* `SST.Os.Libc`: C145_charge_refuted, C145_param
* `SST.Os.Libs`: C111_same_name_refuted
* `SST.Os.Progress`: C67_lost_refuted
* `SST.Parallel`: C62_balance_refuted, C62_occupied_refuted, C62_occupied_zero_refuted
* `SST.Pisces.Arbit`: C54_null_refuted, C54_cut_through_refuted, C79_refuted, C79_small_refuted
* `SST.Stats`: C113_rows_refuted
* `SST.Time`: C02_le_refuted
* `SST.Topo.Cascade`: C99_wired_refuted
* `SST.Topo.DragonflyPlus`: C98_hops_refuted
* `SST.Topo.FatTree`: C44_fat_tree_abort_refuted
* `SST.Topo.Full`: C48_full_self_refuted
* `Verif.Apps.Comd`: C159_capacity_refuted
* `Verif.Apps.Traffic`: C162_flows_refuted
* `Verif.Dumpi.Meta`: C150_shortest
* `Verif.Launch.Options`: C137_old_names_refuted
* `Verif.Os.AppEnv`: C129_status_zero
* `Verif.Os.AppStreams`: C130_where_partial, C130_stderr_file_refuted
* `Verif.Os.Compute`: C132_detailed_refuted, C132_loop_refuted, C132_access_refuted, C132_width_refuted, C132_bytes_refuted, C132_negligible_refuted, C132_sleep_refuted, C132_dgemm_refuted, C132_dgemm_large_refuted, C132_kernels_refuted
* `Verif.Os.Omp`: C133_parallel_refuted, C133_threads_refuted, C133_test_lock_refuted
* `Verif.Stats.Vtk`: C151_levels_refuted
* `Verif.Topo.Opa`: C153_links_refuted, C153_unlinked_refuted

### propext (160)

* `Params`: C104_unset_refuted, C104_parallel_refuted, C104_comment_refuted, C104_variable_refuted, C104_brace_refuted, C104_dotted_block_refuted, C104_tab_refuted, C104_cycle_refuted, C104_brace_count_refuted, C104_option_refuted
* `Params.Core`: C155_nested_topology_refuted
* `SST.Clang.Wrapper`: C148_objects_partial, C148_objects_refuted, C148_temps_partial, C148_temps_refuted, C148_passes_refuted
* `SST.Coll`: C37_unique_refuted
* `SST.Coll.Direct`: C97_alltoall_volume_refuted
* `SST.Coll.Registry`: C144_overlap_refuted
* `SST.Events`: C05_unchecked_duplicate_refuted, C07_past_aborts, C07_past_aborts_in_handler
* `SST.Mpi`: C22_test_null_refuted, C92_immediate
* `SST.Mpi.CollCall`: C116_in_place_extent_refuted
* `SST.Mpi.Comm`: C23_translate_null, C26_bad_dimension, C26_shift_refuted
* `SST.Mpi.Dt`: C120_base_run_refuted, C120_dup_run_refuted, C120_rename_run_refuted
* `SST.Mpi.Handles`: C117_empty_group_refuted
* `SST.Mpi.Ops`: C119_operators_partial, C119_operators_refuted, C119_nan_refuted, C119_sizes_partial, C119_sizes_refuted
* `SST.Mpi.Quiesce`: C149_off, C149_header_refuted
* `SST.Mpi.Req`: C115_proc_null_partial
* `SST.Mpi.Xfer`: C94_contents, C94_put_refuted, C94_unpack_refuted, C94_short_unpack_refuted, C94_overrun_refuted
* `SST.Nic`: C55_priority_refuted
* `SST.Nic.LogP`: C109_reception_refuted, C109_order_refuted, C109_negligible_refuted
* `SST.Os.Exit`: C146_status_refuted, C146_exit_refuted, C146_exit_code_refuted, C146_thread_exit_refuted
* `SST.Os.Libc`: C145_hostname_refuted, C145_param_refuted
* `SST.Os.Libs`: C111_order_refuted
* `SST.Parallel`: C10_setup_message_lost_refuted, C62_occupied_range_refuted
* `SST.Parallel.CoreLinks`: C156_torus_one_refuted
* `SST.Parallel.Links`: C106_logp_ties_refuted
* `SST.Pisces.Arbit`: C54_null_partial
* `SST.Serial`: C13_null_buffer_refuted, C14_long_string_refuted
* `SST.Snappr`: C51_snappr_fifo_refuted, C78_refuted
* `SST.Stats`: C65_bounds_refuted, C65_mean_refuted
* `SST.Time`: C02_le_iff_instant_partial, C03_diff_abort_iff, C68_divideUp_refuted
* `SST.Topo.Cascade`: C99_wired_odd_refuted
* `SST.Topo.Dragonfly`: C46_dragonfly_single_refuted, C96_scatter_turns
* `SST.Topo.FatTree`: C44_fat_tree_links_refuted
* `SST.Topo.File`: C103_unknown_refuted
* `SST.Topo.Torus`: C40_torus_links_refuted, C41_torus_distance_refuted
* `SST.Topo.TorusValiant`: C73_torus_valiant_deadlock_refuted
* `SST.Util.Pool`: C112_reuse
* `Verif.Apps.Fft`: C128_fft_refuses, C128_load_refuted
* `Verif.Apps.Halo`: C128_halo_refuses
* `Verif.Apps.Lulesh`: C158_waits_sum, C158_waits_sync, C158_waits_faces, C158_requests, C158_cube
* `Verif.Apps.Pic`: C152_boxes_refuted, C152_fractions_refuted
* `Verif.Apps.Sweep`: C128_sweep_default_refuted
* `Verif.Clang.Memory`: C143_update_refuted
* `Verif.Dumpi.Meta`: C150_last_refuted, C150_mixed_refuted
* `Verif.Launch.Files`: C134_box_refuted, C134_box_size_refuted, C134_coordinates_refuted, C134_coordinate_map_partial, C134_coordinate_map_refuted, C134_names_refuted, C134_names_range_refuted, C134_hosts_refuted
* `Verif.Launch.Options`: C137_flags_refuted, C137_conflict_refuted, C137_replay_refuted, C137_help_refuted
* `Verif.Launch.Request`: C131_size, C131_depth_refuted, C131_per_node_refuted, C131_program_refuted, C131_long_refuted, C131_cores_refuted, C131_auto_partial, C131_auto_size_refuted, C131_auto_refuted
* `Verif.Mpi.HostTime`: C138_charges_partial, C138_sendrecv_refuted
* `Verif.Mpi.Lifecycle`: C139_initialized_refuted, C139_after_finalize_refuted
* `Verif.Os.AppEnv`: C129_status, C129_status_partial, C129_api_plain, C129_main_partial, C129_main_core, C129_main_refuted
* `Verif.Os.AppStreams`: C130_stderr_refuted, C130_cerr_refuted
* `Verif.Os.Compute`: C132_loop_partial, C132_nested, C132_time_mono, C132_no_threads_refuted
* `Verif.Os.Omp`: C133_main_partial, C133_set_refuted, C133_compute
* `Verif.Os.Pth`: C126_std_id_refuted, C126_status_refuted, C126_detach_refuted, C126_destructor_refuted, C126_affinity_refuted, C126_affinity_unknown_refuted, C126_affinity_join_refuted, C126_affinity_deleted_refuted, C126_inherit_refuted
* `Verif.Otf2`: C122_sizes, C122_bytes_refuted, C122_reduce_scatter_refuted, C122_sendrecv_refuted, C122_lost_refuted, C122_testall_refuted, C122_persistent_refuted, C122_startall_refuted, C122_zero_refuted
* `Verif.Otf2.Writer`: C125_group_collision_refuted, C125_written_partial, C125_first_refuted
* `Verif.Params.Keywords`: C161_order_refuted
* `Verif.Stats.Vtk`: C151_ranges_partial, C151_ranges_refuted
* `Verif.Topo.Opa`: C153_ports_refuted, C153_keys_refuted, C153_cycle_refuted

