/-
Collectives that know the nodes (`smp_optimize`).

Models
  sumi/sim_transport.cc:309-324 (the neighbours of a rank), :630-674, 771-819, 833-885 (the
  chains of collectives that allreduce, alltoall and allgather build), :948-980, 1023-1055
  (a collective that is done starts its successor);
  sumi/communicator.cc:59-136 (createSmpCommunicator); sumi/collective.h:142-191;
  sumi-mpi/mpi_comm/mpi_comm.cc:98-112, 199-206.

The ranks run asynchronously.  A single collective of a chain is taken at its own
specification (C29 for allgather, C31 for broadcast, C32 for gather, C34 for alltoall): it can
be complete on a rank once the ranks it needs data from have started it, it then leaves the
data of those ranks in the destination, and the data is what the ranks held when they started
it.  A collective over a single rank has no action and never completes (C36).
-/
set_option autoImplicit false
namespace SST.Coll.Smp

/-- A communicator in a job.  Ranks of the job are numbers below `world`; `members` lists the
job's rank of every rank of the communicator, `commToGlobalRank` (`peerTask`). -/
structure Job where
  world : Nat
  /-- the node a rank of the job was placed on -/
  node : Nat → Nat
  members : List Nat

/-- `smp_neighbors_`, sim_transport.cc:312-322: the ranks of the job on the node, in ascending
order (`std::map` and `std::set`), or nothing when there is only one. -/
def neighbors (J : Job) (g : Nat) : List Nat :=
  let l := (List.range J.world).filter (fun h => J.node h == J.node g)
  if 1 < l.length then l else []

/-- `globalRankSetIntersection`, mpi_comm.cc:98-112: an ascending set.  For the world it
returns all neighbours, which are all members. -/
def smpGroup (J : Job) (g : Nat) : List Nat := (neighbors J g).filter (fun h => J.members.contains h)

/-- Whether `createSmpCommunicator` goes past its early returns, communicator.cc:65-72. -/
def hasSmp (J : Job) (g : Nat) : Bool := 1 < (smpGroup J g).length

/-- `my_smp_rank`, communicator.cc:73-82. -/
def smpRank (J : Job) (g : Nat) : Nat := (smpGroup J g).idxOf g

/-- The members of `ownerComm`, in the order of the communicator, communicator.cc:101-115. -/
def owners (J : Job) : List Nat := J.members.filter (fun g => smpRank J g == 0)

/-- `rank_counts`, communicator.cc:104-105: how many members have rank `j` on their node. -/
def rankCount (J : Job) (j : Nat) : Nat := (J.members.filter (fun g => smpRank J g == j)).length

/-- `smp_balanced_`, communicator.cc:98-130.  The counts are made by the owners only; with no
count at all the loop has nothing to object to. -/
def balanced (J : Job) (g : Nat) : Bool :=
  if smpRank J g = 0 then J.members.all (fun h => rankCount J (smpRank J h) == rankCount J 0) else true

/-- The buffers of a call: the caller's two and `intraDst`. -/
inductive Buf where
  | src | tmp | dst
deriving DecidableEq, Repr

/-- Types of collectives, collective.h:68-84 (those used here). -/
inductive Ty where
  | allgather | alltoall | gather | bcast
deriving DecidableEq, Repr

/-- What messages are matched by: type and tag, sim_transport.cc:1032-1034. -/
abbrev Key := Ty × Nat

/-- One collective of a chain; `group` lists the ranks (of the job) it runs over. -/
inductive Stage where
  | allgather (tag : Nat) (group : List Nat) (rd wr : Buf)
  /-- to `group[0]`, `count` elements from each, into a buffer with room for `cap` -/
  | gather (tag : Nat) (group : List Nat) (count cap : Nat)
  | alltoall (tag : Nat) (group : List Nat) (count : Nat) (rd : Buf)
  /-- of `dst`, from `group[0]` -/
  | bcast (tag : Nat) (group : List Nat)
  | nothing
deriving DecidableEq, Repr

/-- `1<<28 | tag`, `2<<28 | tag`, `3<<28 | tag`, sim_transport.cc:642, 653, 808. -/
def subTag (i tag : Nat) : Nat := (i <<< 28) ||| tag

/-- `nextCollectiveTag`, mpi_comm.cc:199-206: the identifier is a `uint16_t`, the counter has
16 bits as well (`next_collective_tag_`). -/
def mpiTag (id ctr : Nat) : Nat := ((id % 65536) <<< 16) ||| (ctr % 65536)

/-- `CollectiveEngine::allgather`, sim_transport.cc:833-885, for two members or more: the
collectives rank `g` runs, in order. -/
def allgatherProg (J : Job) (tag : Nat) (g : Nat) : List Stage :=
  if hasSmp J g && balanced J g then
    .allgather (subTag 1 tag) (smpGroup J g) .src .tmp ::
    ((if smpRank J g = 0 then [.allgather (subTag 2 tag) (owners J) .tmp .dst] else []) ++
    [.bcast (subTag 3 tag) (smpGroup J g), .nothing])
  else [.allgather tag J.members .src .dst]

/-- `CollectiveEngine::alltoall`, sim_transport.cc:791-818, for two members or more, with
`nelems` elements in a block. -/
def alltoallProg (J : Job) (tag nelems : Nat) (g : Nat) : List Stage :=
  if hasSmp J g && balanced J g then
    .gather (subTag 1 tag) (smpGroup J g) ((smpGroup J g).length * nelems) (nelems * (smpGroup J g).length) ::
    ((if smpRank J g = 0 then [.alltoall (subTag 2 tag) (owners J) ((smpGroup J g).length * nelems) .tmp] else []) ++
    [.bcast (subTag 3 tag) (smpGroup J g), .nothing])
  else [.alltoall tag J.members nelems .src]

/-- `CollectiveEngine::allreduce`, sim_transport.cc:639-673, on a communicator with a node
communicator: the chain is built, and `coll`, which is started, is its last element. -/
def allreduceProg : List Stage := [.nothing]

/-- `createSmpCommunicator`, communicator.cc:63-96: the ranks with neighbours gather all
ranks' numbers over the whole communicator (`smp_balanced_` is still false, so the plain
algorithm runs); the others return. -/
def createProg (J : Job) (tag : Nat) (g : Nat) : List Stage :=
  if hasSmp J g then [.allgather tag J.members .src .dst] else []

/-- State of all ranks. -/
structure St (V : Type) where
  /-- the rank has made the call -/
  entered : Nat → Bool
  /-- collectives of its chain that are done -/
  pc : Nat → Nat
  mem : Nat → Buf → List V
  /-- what a rank held for a collective when it started it -/
  posted : Nat → Key → Option (List V)
  /-- a buffer was overrun -/
  overrun : Bool

variable {V : Type}

/-- Before any rank has made the call. -/
def init (mem : Nat → Buf → List V) : St V := ⟨fun _ => false, fun _ => 0, mem, fun _ _ => none, false⟩

/-- A rank starts a collective with this data. -/
def post (s : St V) (p : Nat) (k : Key) (v : List V) : St V :=
  { s with posted := fun q k' => if q = p ∧ k' = k then some v else s.posted q k' }

/-- `startCollective`, sim_transport.cc:948-980: a rank starts the next collective of its
chain; one that does nothing is done at once. -/
def launch (prog : Nat → List Stage) (s : St V) (p : Nat) : St V :=
  match (prog p)[s.pc p]? with
  | none => s
  | some (.allgather tag _ b _) => post s p (.allgather, tag) (s.mem p b)
  | some (.gather tag _ count _) => post s p (.gather, tag) ((s.mem p .src).take count)
  | some (.alltoall tag _ _ b) => post s p (.alltoall, tag) (s.mem p b)
  | some (.bcast tag _) => post s p (.bcast, tag) (s.mem p .dst)
  | some .nothing => { s with pc := fun q => if q = p then s.pc p + 1 else s.pc q }

/-- The call, made once. -/
def enter (prog : Nat → List Stage) (s : St V) (p : Nat) : St V :=
  launch prog { s with entered := fun q => if q = p then true else s.entered q } p

/-- Whether a collective can be complete on rank `p`: the ranks whose data it needs have
started it.  For a broadcast they are the root and any further ranks `needs p` between. -/
def ready (needs : Nat → List Nat) (s : St V) (p : Nat) : Stage → Bool
  | .allgather tag grp _ _ => 2 ≤ grp.length && grp.all (fun q => (s.posted q (.allgather, tag)).isSome)
  | .gather tag grp _ _ =>
    2 ≤ grp.length && (grp[0]? != some p || grp.all (fun q => (s.posted q (.gather, tag)).isSome))
  | .alltoall tag grp _ _ => 2 ≤ grp.length && grp.all (fun q => (s.posted q (.alltoall, tag)).isSome)
  | .bcast tag grp =>
    2 ≤ grp.length && (grp.take 1 ++ needs p).all (fun q => (s.posted q (.bcast, tag)).isSome)
  | .nothing => false

/-- What a rank posted. -/
def got (s : St V) (k : Key) (q : Nat) : List V := (s.posted q k).getD []

/-- A write to a buffer. -/
def write (s : St V) (p : Nat) (b : Buf) (v : List V) : St V :=
  { s with mem := fun q c => if q = p ∧ c = b then v else s.mem q c }

/-- The effect of a collective on rank `p`. -/
def effect (s : St V) (p : Nat) : Stage → St V
  | .allgather tag grp _ b => write s p b (grp.flatMap (got s (.allgather, tag)))
  | .gather tag grp _ cap =>
    if grp[0]? = some p then
      { write s p .tmp (grp.flatMap (got s (.gather, tag))) with
        overrun := s.overrun || cap < (grp.flatMap (got s (.gather, tag))).length }
    else s
  | .alltoall tag grp count _ =>
    write s p .dst (grp.flatMap (fun q => ((got s (.alltoall, tag) q).drop (grp.idxOf p * count)).take count))
  | .bcast tag grp => write s p .dst ((grp.take 1).flatMap (got s (.bcast, tag)))
  | .nothing => s

/-- Completion and the start of the successor, sim_transport.cc:973-977 and 1047-1052. -/
def finish (prog : Nat → List Stage) (s : St V) (p : Nat) (st : Stage) : St V :=
  launch prog { effect s p st with pc := fun q => if q = p then s.pc p + 1 else s.pc q } p

/-- One step of one rank. -/
inductive Step (procs : List Nat) (prog : Nat → List Stage) (needs : Nat → List Nat) : St V → St V → Prop where
  | enter (s : St V) (p : Nat) (hp : p ∈ procs) (h : s.entered p = false) : Step procs prog needs s (enter prog s p)
  | finish (s : St V) (p : Nat) (st : Stage) (hp : p ∈ procs) (he : s.entered p = true)
      (h : (prog p)[s.pc p]? = some st) (hr : ready needs s p st = true) :
      Step procs prog needs s (finish prog s p st)

/-- Reachable in `n` steps. -/
inductive Reach (procs : List Nat) (prog : Nat → List Stage) (needs : Nat → List Nat)
    (mem : Nat → Buf → List V) : Nat → St V → Prop where
  | start : Reach procs prog needs mem 0 (init mem)
  | step {n : Nat} {s s' : St V} (h : Reach procs prog needs mem n s) (hs : Step procs prog needs s s') :
      Reach procs prog needs mem (n + 1) s'

/-- The call has returned on rank `p` (the completion of the last collective is handed to the
caller). -/
def returned (prog : Nat → List Stage) (s : St V) (p : Nat) : Bool :=
  s.entered p && s.pc p == (prog p).length

end SST.Coll.Smp
