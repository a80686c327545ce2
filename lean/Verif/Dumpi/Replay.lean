/-!
Model of the replay of DUMPI traces: sstmac/skeletons/undumpi/parsedumpi_callbacks.cc and .h, and the
parts of MPI that take the handles of the trace when `generate_ids_` is false
(sumi-mpi/mpi_api.cc:442-574, mpi_api_wait.cc, mpi_api_send_recv.cc, mpi_api_comm.cc,
mpi_api_group.cc).

A trace is a list of records, one for each call of MPI, with the wall times of its start and its end.
libundumpi, which reads the file and calls the callbacks one after the other, is not in the repository
and is not modelled; its constants are parameters.  A datatype is modelled by its size, because the
replay passes no buffers; a message by its bytes.  Operations that MPI is given are numbered in the
order in which they are given; how they are carried out is not modelled.
-/
set_option autoImplicit false
namespace Verif.Dumpi

/-- `dumpi_clock`: seconds and nanoseconds. -/
structure Clock where
  sec : Int
  nsec : Int
deriving DecidableEq, Repr

/-- What the replay is given: the constants of libundumpi, the sizes of the builtin datatypes
(`initMaps`, parsedumpi_callbacks.cc:169-202, with the sizes of the types there), the sizes that the
trace has for other datatypes (`datatype_sizes_`), `timescaling_` as a function of nanoseconds
(parsedumpi_callbacks.cc:236), and `early_terminate_count_`. -/
structure K where
  reqNull : Int
  commWorld : Int
  commSelf : Int
  commNull : Int
  firstGroup : Int
  anySource : Int
  root : Int
  anyTag : Int
  firstType : Nat
  base : Nat → Option Nat
  sizes : List Nat
  scale : Nat → Nat
  limit : Nat

/-- `MPI_REQUEST_NULL`, mpi_integers.h:189. -/
def mpiReqNull : Int := 0x2c000000
/-- `MPI_COMM_WORLD`, mpi_integers.h:59. -/
def mpiCommWorld : Int := 0
/-- `MPI_COMM_SELF`, mpi_integers.h:60. -/
def mpiCommSelf : Int := 0x44444444
/-- `MPI_COMM_NULL`, mpi_integers.h:185. -/
def mpiCommNull : Int := 0x04000000
/-- `MPI_GROUP_WORLD`, mpi_integers.h:190. -/
def mpiGroupWorld : Int := 0
/-- `MPI_GROUP_SELF`, mpi_integers.h:191. -/
def mpiGroupSelf : Int := 1
/-- `MPI_PROC_NULL`, mpi_types.h:60. -/
def mpiProcNull : Int := -1
/-- `MPI_ANY_SOURCE`, mpi_types.h:61. -/
def mpiAnySource : Int := -2
/-- `MPI_ROOT`, mpi_types.h:62. -/
def mpiRoot : Int := -3
/-- `MPI_ANY_TAG`, mpi_types.h:63. -/
def mpiAnyTag : Int := -1

/-- The collectives that take datatypes. -/
inductive Kind where
  | bcast | gather | gatherv | scatter | scatterv | allgather | allgatherv | alltoall | alltoallv
  | reduce | allreduce | reduceScatter | scan
deriving DecidableEq, Repr

/-- The constructors of datatypes that the replay has.  A type that is built is given by the datatypes it
is built from. -/
inductive Con (α : Type) where
  | contiguous (n : Nat) (old : α)
  | vector (n block : Nat) (stride : Int) (old : α)
  | indexed (lens : List Nat) (old : α)
  | struct (fields : List (Nat × α))
  | dup (old : α)
deriving DecidableEq, Repr

/-- The records of a trace.  `pass`: the calls that `pass` handles (parsedumpi_callbacks.cc:100-114), among
them MPI_Request_free, MPI_Group_free, MPI_Comm_group and MPI_Iprobe.  `unimplemented`: the calls of
`not_implemented` (:116-120).  `member` of `commCreate` is whether the rank is in the group. -/
inductive Rec where
  | send (count dt : Nat) (dest tag comm : Int)
  | recv (count dt : Nat) (src tag comm : Int)
  | isend (count dt : Nat) (dest tag comm req : Int)
  | irecv (count dt : Nat) (src tag comm req : Int)
  | sendInit (count dt : Nat) (dest tag comm req : Int)
  | recvInit (count dt : Nat) (src tag comm req : Int)
  | start (req : Int)
  | startall (reqs : List Int)
  | wait (req : Int)
  | waitall (reqs : List Int)
  | waitany (reqs : List Int) (index : Int)
  | waitsome (reqs : List Int) (indices : List Nat)
  | test (flag : Bool) (req : Int)
  | testall (flag : Bool) (reqs : List Int)
  | testany (flag : Bool) (reqs : List Int) (index : Int)
  | testsome (reqs : List Int) (indices : List Nat)
  | probe (src tag comm : Int)
  | sendrecv (scount sdt : Nat) (dest stag : Int) (rcount rdt : Nat) (src rtag comm : Int)
  | sendrecvReplace (count dt : Nat) (dest stag src rtag comm : Int)
  | typeNew (con : Con Nat) (new : Nat)
  | typeCommit (dt : Nat)
  | typeFree (dt : Nat)
  | barrier (comm : Int)
  | coll (kind : Kind) (args : List (List Nat × Nat)) (root comm : Int) (atRoot : Bool)
  | groupIncl (grp : Int) (ranks : List Nat) (new : Int)
  | commDup (old new : Int)
  | commCreate (old grp : Int) (member : Bool) (new : Int)
  | commSplit (old color key new : Int)
  | commFree (comm : Int)
  | init
  | initThread
  | finalize
  | pass
  | unimplemented
deriving DecidableEq, Repr

/-- A record with the wall times of the call, and whether it has performance counters. -/
structure Entry where
  call : Rec
  start : Clock
  stop : Clock
  perf : Bool
deriving DecidableEq, Repr

/-- The arguments of an operation that MPI is given: its direction, bytes, peer, tag and
communicator. -/
structure Post where
  send : Bool
  bytes : Nat
  peer : Int
  tag : Int
  comm : Nat
deriving DecidableEq, Repr

/-- How a communicator is made. -/
inductive How where
  | dup
  | create (grp : Nat)
  | split (color key : Int)
deriving DecidableEq, Repr

/-- What the replay does: it computes, gives MPI an operation (with its number), waits until an
operation is complete, probes, takes part in a collective, makes a group or a communicator (with
its number), frees one. -/
inductive Out where
  | compute (t : Nat)
  | post (n : Nat) (p : Post)
  | await (n : Nat)
  | probe (src tag : Int) (comm : Nat)
  | barrier (comm : Nat)
  | coll (kind : Kind) (bytes : List (List Nat)) (root : Int) (comm : Nat)
  | newGroup (parent : Nat) (ranks : List Nat) (new : Nat)
  | newComm (how : How) (parent : Nat) (new : Nat)
  | freeComm (comm : Nat)
  | init
  | finalize
deriving DecidableEq, Repr

/-- `MpiRequest`: the operation it stands for, whether it is known to be complete, and the
arguments if it is persistent. -/
structure Obj where
  op : Option Nat
  done : Bool
  pers : Option Post
deriving DecidableEq, Repr

/-- How a replay ends before the end of the trace: an abort or an access that is not allowed, a wait
that cannot end, or `early_termination`. -/
inductive Stop where
  | abort
  | hang
  | early
deriving DecidableEq, Repr

/-- The callbacks (`trace_compute_start_`, `initialized_`, `mpitype_`, `num_global_collectives_`) and the
tables of MPI (`req_map_`, `comm_map_`, `grp_map_`), with what has been done so far. -/
structure St where
  start : Clock
  inited : Bool
  types : Nat → Option Nat
  ncoll : Nat
  reqs : Int → Option Obj
  comms : Int → Option Nat
  groups : Int → Option Nat
  next : Nat
  ncomm : Nat
  ngroup : Nat
  out : List Out

/-- Changes a table. -/
def set {α : Type} (f : Int → Option α) (k : Int) (v : Option α) : Int → Option α :=
  fun x => if x = k then v else f x

/-- The constructor (parsedumpi_callbacks.cc:123-138) and `MpiApi::init`, which enters the communicators and
groups of the world and of the process: they are numbers 0 and 1.  (Before MPI_Init there are none;
that programs call nothing else before is not modelled.) -/
def St.init (k : K) : St where
  start := ⟨-1, 0⟩
  inited := false
  types := k.base
  ncoll := 0
  reqs := fun _ => none
  comms := fun c => if c = mpiCommWorld then some 0 else if c = mpiCommSelf then some 1 else none
  groups := fun g => if g = mpiGroupWorld then some 0 else if g = mpiGroupSelf then some 1 else none
  next := 0
  ncomm := 2
  ngroup := 2
  out := []

/-- `deltat`, parsedumpi_callbacks.cc:205-211: nanoseconds, in 64 bits without sign. -/
def deltat (l r : Clock) : Nat :=
  ((1000000000 * (l.sec - r.sec) + (l.nsec - r.nsec)) % 2 ^ 64).toNat

/-- `start_mpi`, parsedumpi_callbacks.cc:214-240. -/
def startMpi (k : K) (e : Entry) (s : St) : Except Stop St :=
  if !s.inited then .ok s
  else if s.start.sec ≥ 0 then
    if e.perf then .error .abort
    else .ok { s with out := s.out ++ [.compute (k.scale (deltat e.start s.start))] }
  else .ok s

/-- `end_mpi`, parsedumpi_callbacks.cc:243-254. -/
def endMpi (e : Entry) (s : St) : St := { s with start := e.stop }

/-- `translate_request`, parsedumpi_callbacks.cc:256-261. -/
def treq (k : K) (r : Int) : Int := if r = k.reqNull then mpiReqNull else r

/-- `translate_group`, parsedumpi_callbacks.cc:263-268. -/
def tgroup (k : K) (g : Int) : Int := if g = k.firstGroup then mpiGroupWorld else g

/-- `translate_comm`, parsedumpi_callbacks.cc:270-275. -/
def tcomm (k : K) (c : Int) : Int := if c = k.commWorld then mpiCommWorld else c

/-- `getMpiid`, parsedumpi_callbacks.cc:280-289. -/
def tpeer (k : K) (p : Int) : Int :=
  if p = k.anySource then mpiAnySource else if p = k.root then mpiRoot else p

/-- `getMpitag`, parsedumpi_callbacks.h:158-161. -/
def ttag (k : K) (t : Int) : Int := if t = k.anyTag then mpiAnyTag else t

/-- The sizes of `MpiType::builtins`, mpi_api_type.cc:236-246. -/
def builtinSizes : List Nat := [1, 2, 4, 6, 8, 12, 16, 20, 32, 48, 64]

/-- `getMpitype`, parsedumpi_callbacks.cc:316-332: the size of a datatype.  A size for which there is no
builtin type gives a type without a number. -/
def getType (k : K) (id : Nat) (s : St) : Except Stop (Nat × St) :=
  match s.types id with
  | some n => .ok (n, s)
  | none =>
    match k.sizes[id]? with
    | some n =>
      if n ∈ builtinSizes then
        .ok (n, { s with types := fun x => if x = id then some n else s.types x })
      else .error .abort
    | none => .ok (8, { s with types := fun x => if x = id then some 8 else s.types x })

/-- `getMpitypes`, parsedumpi_callbacks.cc:337-349. -/
def getTypes (k : K) : List Nat → St → Except Stop (List Nat × St)
  | [], s => .ok ([], s)
  | id :: ids, s =>
    match getType k id s with
    | .error x => .error x
    | .ok (n, s) =>
      match getTypes k ids s with
      | .error x => .error x
      | .ok (ns, s) => .ok (n :: ns, s)

/-- `addMpitype`, parsedumpi_callbacks.cc:292-301. -/
def addType (k : K) (id size : Nat) (s : St) : Except Stop St :=
  if id < k.firstType then .error .abort
  else .ok { s with types := fun x => if x = id then some size else s.types x }

/-- The datatypes that a type is built from, in the order of the calls of `getMpitype`
(parsedumpi_callbacks.cc:1199-1289, 2221-2237). -/
def olds {α : Type} : Con α → List α
  | .contiguous _ t => [t]
  | .vector _ _ _ t => [t]
  | .indexed _ t => [t]
  | .struct fs => fs.map (·.2)
  | .dup t => [t]

/-- The sum of the products of two lists. -/
def dot : List Nat → List Nat → Nat
  | a :: as, b :: bs => a * b + dot as bs
  | _, _ => 0

/-- The size of a type that is built from types of the given sizes (mpi_api_type.cc: `typeContiguous`,
`doTypeHvector`, `doTypeHindexed`, `typeCreateStruct`, `typeDup`).  The callback of MPI_Type_vector
passes 0 as stride (parsedumpi_callbacks.cc:1230), which changes the extent and not the size. -/
def conSize {α : Type} : Con α → List Nat → Nat
  | .contiguous n _, ss => n * ss.headD 0
  | .vector n b _ _, ss => n * b * ss.headD 0
  | .indexed ls _, ss => ls.sum * ss.headD 0
  | .struct fs, ss => dot (fs.map (·.1)) ss
  | .dup _, ss => ss.headD 0

/-- `getComm`, mpi_api.cc:442-456. -/
def getComm (c : Int) (s : St) : Except Stop Nat :=
  match s.comms c with
  | some n => .ok n
  | none => .error .abort

/-- `getGroup`, mpi_api.cc:458-467. -/
def getGroup (g : Int) (s : St) : Except Stop Nat :=
  match s.groups g with
  | some n => .ok n
  | none => .error .abort

/-- MPI is given an operation. -/
def post (p : Post) (s : St) : St :=
  { s with next := s.next + 1, out := s.out ++ [.post s.next p] }

/-- MPI completes an operation, `MpiQueue::progressLoop`. -/
def awaitOp (n : Nat) (s : St) : St := { s with out := s.out ++ [.await n] }

/-- A rank that a message can be sent to, or received from.  `peerTask` of another number reads outside of
the group (mpi_comm.cc, `MpiGroup::at`). -/
def sendable (p : Int) : Bool := p ≥ 0
/-- The same for receives. -/
def receivable (p : Int) : Bool := p ≥ 0 || p = mpiAnySource

/-- `MpiApi::send`, mpi_api_send_recv.cc:69-97. -/
def mpiSend (bytes : Nat) (dest tag : Int) (comm : Nat) (s : St) : Except Stop St :=
  if dest = mpiProcNull then .ok s
  else if sendable dest then .ok (awaitOp s.next (post ⟨true, bytes, dest, tag, comm⟩ s))
  else .error .abort

/-- `MpiApi::recv`, mpi_api_send_recv.cc:311-336.  The callback passes `MPI_STATUS_IGNORE`, which is null, and for
`MPI_PROC_NULL` the status is written. -/
def mpiRecv (bytes : Nat) (src tag : Int) (comm : Nat) (s : St) : Except Stop St :=
  if src = mpiProcNull then .error .abort
  else if receivable src then .ok (awaitOp s.next (post ⟨false, bytes, src, tag, comm⟩ s))
  else .error .abort

/-- `addRequestPtr` with `generate_ids_` false, mpi_api.cc:553-558. -/
def addReq (r : Int) (o : Obj) (s : St) : St := { s with reqs := set s.reqs r (some o) }

/-- `MpiApi::isend`, mpi_api_send_recv.cc:269-309. -/
def mpiIsend (bytes : Nat) (dest tag : Int) (comm : Nat) (r : Int) (s : St) : Except Stop St :=
  if dest = mpiProcNull then .ok (addReq r ⟨none, true, none⟩ s)
  else if sendable dest then .ok (addReq r ⟨some s.next, false, none⟩ (post ⟨true, bytes, dest, tag, comm⟩ s))
  else .error .abort

/-- `MpiApi::irecv`, mpi_api_send_recv.cc:387-426. -/
def mpiIrecv (bytes : Nat) (src tag : Int) (comm : Nat) (r : Int) (s : St) : Except Stop St :=
  if src = mpiProcNull then .ok (addReq r ⟨none, true, none⟩ s)
  else if receivable src then .ok (addReq r ⟨some s.next, false, none⟩ (post ⟨false, bytes, src, tag, comm⟩ s))
  else .error .abort

/-- `MpiApi::doStart`, mpi_api_send_recv.cc:171-193.  The communicator is looked up again; that it is the same
one is not modelled. -/
def doStart (r : Int) (s : St) : Except Stop St :=
  match s.reqs r with
  | none => .error .abort
  | some o =>
    match o.pers with
    | none => .error .abort
    | some p =>
      if p.peer = mpiProcNull then .ok (addReq r { o with done := true } s)
      else if (if p.send then sendable p.peer else receivable p.peer) then
        .ok (addReq r { o with op := some s.next, done := false } (post p s))
      else .error .abort

/-- `MpiApi::doWait` and `finalizeWaitRequest`, mpi_api_wait.cc:82-116. -/
def doWait (r : Int) (s : St) : Except Stop St :=
  if r = mpiReqNull then .ok s
  else
    match s.reqs r with
    | none => .error .abort
    | some o =>
      if o.done then .ok { s with reqs := set s.reqs r (if o.pers.isSome then some o else none) }
      else
        match o.op with
        | none => .error .hang
        | some n =>
          .ok (awaitOp n { s with reqs := set s.reqs r (if o.pers.isSome then some { o with done := true } else none) })

/-- Does something for each of a list. -/
def each {α : Type} (f : α → St → Except Stop St) : List α → St → Except Stop St
  | [], s => .ok s
  | a :: as, s =>
    match f a s with
    | .ok s => each f as s
    | .error x => .error x

/-- Waits for the request at an index, if there is one (parsedumpi_callbacks.cc:877-881, 911-915). -/
def waitAt (k : K) (reqs : List Int) (i : Int) (s : St) : Except Stop St :=
  if i ≥ 0 ∧ i < reqs.length then doWait (treq k (reqs.getD i.toNat 0)) s else .ok s

/-- `MpiApi::sendrecv`, mpi_api_send_recv.cc:99-137, with a null status. -/
def mpiSendrecv (sb : Nat) (dest stag : Int) (rb : Nat) (src rtag : Int) (comm : Nat) (s : St) :
    Except Stop St :=
  if src = mpiProcNull then .error .abort
  else if dest = mpiProcNull then mpiRecv rb src rtag comm s
  else if sendable dest && receivable src then
    let s1 := post ⟨true, sb, dest, stag, comm⟩ s
    let s2 := awaitOp s1.next (post ⟨false, rb, src, rtag, comm⟩ s1)
    .ok (awaitOp s.next s2)
  else .error .abort

/-- The kinds of collectives whose callback takes the root from the record. -/
def rooted : Kind → Bool
  | .bcast | .gather | .gatherv | .scatter | .scatterv | .reduce => true
  | _ => false

/-- The callbacks between `start_mpi` and `end_mpi` (parsedumpi_callbacks.cc:650-2303). -/
def act (k : K) (c : Rec) (s : St) : Except Stop St :=
  match c with
  | .send n t d g c => do
    let (z, s) ← getType k t s
    let c ← getComm (tcomm k c) s
    mpiSend (n * z) (tpeer k d) (ttag k g) c s
  | .recv n t d g c => do
    let (z, s) ← getType k t s
    let c ← getComm (tcomm k c) s
    mpiRecv (n * z) (tpeer k d) (ttag k g) c s
  | .isend n t d g c r => do
    let (z, s) ← getType k t s
    let c ← getComm (tcomm k c) s
    mpiIsend (n * z) (tpeer k d) (ttag k g) c r s
  | .irecv n t d g c r => do
    let (z, s) ← getType k t s
    let c ← getComm (tcomm k c) s
    mpiIrecv (n * z) (tpeer k d) (ttag k g) c r s
  | .sendInit n t d g c r => do
    let (z, s) ← getType k t s
    let c ← getComm (tcomm k c) s
    .ok (addReq r ⟨none, false, some ⟨true, n * z, tpeer k d, ttag k g, c⟩⟩ s)
  | .recvInit n t d g c r => do
    let (z, s) ← getType k t s
    let c ← getComm (tcomm k c) s
    .ok (addReq r ⟨none, false, some ⟨false, n * z, tpeer k d, ttag k g, c⟩⟩ s)
  | .start r => doStart (treq k r) s
  | .startall rs => each doStart rs s
  | .wait r => doWait (treq k r) s
  | .waitall rs => each (fun r => doWait (treq k r)) rs s
  | .waitany rs i => waitAt k rs i s
  | .waitsome rs is => each (fun (i : Nat) => waitAt k rs i) is s
  | .test f r => if f then doWait (treq k r) s else .ok s
  | .testall f rs => if f then each (fun r => doWait (treq k r)) rs s else .ok s
  | .testany f rs i => if f then waitAt k rs i s else .ok s
  | .testsome rs is => each (fun (i : Nat) => waitAt k rs i) is s
  | .probe p g c => do
    let c ← getComm (tcomm k c) s
    .ok { s with out := s.out ++ [.probe (tpeer k p) (ttag k g) c] }
  | .sendrecv n t d g n' t' d' g' c => do
    let (z, s) ← getType k t s
    let (z', s) ← getType k t' s
    let c ← getComm (tcomm k c) s
    mpiSendrecv (n * z) (tpeer k d) (ttag k g) (n' * z') (tpeer k d') (ttag k g') c s
  | .sendrecvReplace n t d g d' g' c => do
    let (z, s) ← getType k t s
    let c ← getComm (tcomm k c) s
    mpiSendrecv (n * z) (tpeer k d) (ttag k g) (n * z) (tpeer k d') (ttag k g') c s
  | .typeNew con new => do
    let (zs, s) ← getTypes k (olds con) s
    addType k new (conSize con zs) s
  | .typeCommit t => do
    let (_, s) ← getType k t s
    .ok s
  | .typeFree t => do
    let (_, s) ← getType k t s
    .ok s
  | .barrier c => do
    let c ← getComm (tcomm k c) s
    .ok { s with out := s.out ++ [.barrier c] }
  | .coll kind args root c atRoot => do
    let args := if kind = .gatherv ∧ !atRoot then args.take 1 else args
    let (zs, s) ← getTypes k (args.map (·.2)) s
    let c ← getComm (tcomm k c) s
    .ok { s with
      out := s.out ++ [.coll kind (List.zipWith (fun a z => a.1.map (· * z)) args zs)
        (if rooted kind then tpeer k root else 0) c] }
  | .groupIncl g ranks new => do
    let g ← getGroup (tgroup k g) s
    .ok { s with groups := set s.groups new (some s.ngroup), ngroup := s.ngroup + 1,
                 out := s.out ++ [.newGroup g ranks s.ngroup] }
  | .commDup old new => do
    let c ← getComm (tcomm k old) s
    .ok { s with comms := set s.comms new (some s.ncomm), ncomm := s.ncomm + 1,
                 out := s.out ++ [.newComm .dup c s.ncomm] }
  | .commCreate old g _ new => do
    let c ← getComm (tcomm k old) s
    let g ← getGroup g s
    -- without `member` the new communicator is `comm_null`
    .ok { s with comms := set s.comms new (some s.ncomm), ncomm := s.ncomm + 1,
                 out := s.out ++ [.newComm (.create g) c s.ncomm] }
  | .commSplit old color key new => do
    let c ← getComm (tcomm k old) s
    -- `comm_null` gets the number of the trace, so that it is taken for a communicator with a group
    if color < 0 ∧ new ≠ mpiCommNull then .error .abort
    else if color < 0 then
      .ok { s with ncomm := s.ncomm + 1, out := s.out ++ [.newComm (.split color key) c s.ncomm] }
    else
      .ok { s with comms := set s.comms new (some s.ncomm), ncomm := s.ncomm + 1,
                   out := s.out ++ [.newComm (.split color key) c s.ncomm] }
  | .commFree c => do
    let n ← getComm c s
    .ok { s with comms := set s.comms c none, out := s.out ++ [.freeComm n] }
  | .init => .ok { s with out := s.out ++ [.init] }
  | .initThread => .ok { s with out := s.out ++ [.init] }
  | .finalize => .ok { s with out := s.out ++ [.finalize] }
  | .pass => .ok s
  | .unimplemented => .error .abort

/-- `incrementCollective` (parsedumpi_callbacks.h:112-117) and the counting of MPI_Barrier
(parsedumpi_callbacks.cc:1404). -/
def count (k : K) (c : Rec) (s : St) : Except Stop St :=
  match c with
  | .barrier c => .ok (if c = k.commWorld then { s with ncoll := s.ncoll + 1 } else s)
  | .coll _ _ _ c _ =>
    if s.ncoll = k.limit then .error .early
    else .ok (if c = k.commWorld then { s with ncoll := s.ncoll + 1 } else s)
  | _ => .ok s

/-- One callback.  MPI_Init sets `initialized_` (parsedumpi_callbacks.cc:2251), MPI_Init_thread does not. -/
def step (k : K) (e : Entry) (s : St) : Except Stop St := do
  let s ← count k e.call s
  let s ← startMpi k e s
  let s ← act k e.call s
  let s := endMpi e s
  .ok (if e.call = .init then { s with inited := true } else s)

/-- `parseStream` (parsedumpi_callbacks.cc:146-166): the callbacks, one after the other; where it stops, the
state before the callback that stopped it. -/
def run (k : K) : List Entry → St → St × Option Stop
  | [], s => (s, none)
  | e :: es, s =>
    match step k e s with
    | .ok s => run k es s
    | .error x => (s, some x)

/-- The replay of a trace: what it does and how it stops, if it does not reach the end.  After an early
termination MPI is finalized (`skeletonMain`, parsedumpi.cc:102-107). -/
def replay (k : K) (es : List Entry) : List Out × Option Stop :=
  match run k es (St.init k) with
  | (s, some .early) => (s.out ++ [.finalize], some .early)
  | (s, x) => (s.out, x)

end Verif.Dumpi
