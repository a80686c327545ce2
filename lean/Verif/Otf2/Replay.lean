set_option autoImplicit false
/-!
# Replay of OTF2 traces

Models `sstmac/skeletons/otf2_trace_replay`: the callbacks that the reader of a trace calls for the
events of one rank, the queue of calls that they fill, and the calls of MPI and the computations that
the replaying process makes.

Simplifications.  The callbacks of definitions (strings, regions, groups, communicators) are not
modelled: a region comes with its name, a communicator with its size.  The OTF2 library is not
modelled: it calls one callback for each event of the rank, in the order of the trace.  The numbers
that the callbacks pass on to MPI (ranks, tags, lengths) are naturals, so the narrowing of 64-bit
lengths to `int` is not seen.  `convertTime` is a parameter, because it is arithmetic of doubles.
The factor `otf2_timescale` is one.  Printing is left out.
-/

namespace Verif.Otf2

/-- The regions of a trace (callid.h, structures.cc), grouped by how callbacks.cc:646-1072 and
1103-1526 treat them.  `ignored`: the regions of `CASE_IGNORE` and those that are not known.  `other`:
every region that only gets `CASE_ADD_CALL` and `CASE_READY`, as the collectives. -/
inductive Id where
  | send | recv | isend | irecv
  | wait | waitall | waitany | waitsome
  | test | testall | ssend | sendrecv | start | startall
  | init | finalize
  | ignored (n : Nat)
  | other (n : Nat)
deriving DecidableEq, Repr

/-- The operations of `MPI_COLLECTIVE_END` (callbacks.cc:506-523). -/
inductive CollOp where
  | barrier | bcast | gather | gatherv | scatter | scatterv | allgather | allgatherv | alltoall
  | alltoallv | alltoallw | allreduce | reduce | reduceScatter | scan
deriving DecidableEq, Repr

/-- What the replaying process does in the place of one call of the trace: the bodies of the lambdas
of callbacks.cc.  Collectives of bytes carry their counts in bytes, `allreduce` and `reduce` a count
of `MPI_INT`. -/
inductive Act where
  | send (dst comm tag len : Nat)
  | recv (src comm tag len : Nat)
  | isend (dst comm tag len req : Nat)
  | irecv (src comm tag len req : Nat)
  | wait (req : Nat)
  | barrier (comm : Nat)
  | bcast (count root comm : Nat)
  | gather (scount rcount root comm : Nat)
  | scatter (scount rcount root comm : Nat)
  | allgather (scount rcount comm : Nat)
  | alltoall (scount rcount comm : Nat)
  | allreduce (ints comm : Nat)
  | reduce (ints root comm : Nat)
  | reduceScatter (counts : List Nat) (comm : Nat)
  | scan (count comm : Nat)
  | finalize
  | print
deriving DecidableEq, Repr

/-- What one rank is seen to do: time that passes in computation, and calls of MPI. -/
inductive Out where
  | compute (d : Int)
  | call (a : Act)
deriving DecidableEq, Repr

/-- MpiCall (mpicall.h:59-133).  `ptr` is its address, here a number that is not used again.  `trig`
is `on_trigger`. -/
structure Call where
  ptr : Nat
  id : Id
  start : Nat
  stop : Nat
  ready : Bool
  trig : Option Act
deriving DecidableEq, Repr

/-- The events of a trace, as the callbacks of otf2_trace_replay.cc:94-111 receive them. -/
inductive Ev where
  | enter (id : Id) (time : Nat)
  | leave (id : Id) (time : Nat)
  | send (dst comm tag len : Nat)
  | isend (dst comm tag len req : Nat)
  | isendComplete (req : Nat)
  | irecvRequest (req : Nat)
  | recv (src comm tag len : Nat)
  | irecv (src comm tag len req : Nat)
  | requestTest (req : Nat)
  | requestCancelled (req : Nat)
  | collectiveBegin
  | collectiveEnd (op : CollOp) (comm root sent received : Nat)
deriving DecidableEq, Repr

/-- Outcomes of a callback that are no state: an abort of the simulator, or behaviour that C++ leaves
undefined (the back of an empty queue, a call that was freed). -/
inductive Err where
  | abort
  | undefined
deriving DecidableEq, Repr

/-- The state of the replay of one rank: `next` the number of calls put into the queue so far, `queue`
CallQueue::call_queue, `reqs` CallQueue::request_map (callqueue.h:181-184), `now`
OTF2TraceReplayApp::compute_time (otf2_trace_replay.h:142), `out` what the rank did so far, and
`done` the calls it triggered, in order. -/
structure St where
  next : Nat := 0
  queue : List Call := []
  reqs : List (Nat × Nat) := []
  now : Int := 0
  out : List Out := []
  done : List Nat := []

/-- OTF2TraceReplayApp::startMpi (otf2_trace_replay.cc:157-167): the time since the end of the last
call is computed, unless no call has ended yet, which is seen from `compute_time` being zero. -/
def startMpi (now wall : Int) : List Out :=
  if now = 0 then [] else [.compute (wall - now)]

/-- What a trigger does (callqueue.cc:97-99): nothing if it is null, and only print for the
collectives that are not implemented (callbacks.cc:560, 566, 572, 578). -/
def actOf : Option Act → List Out
  | none => []
  | some .print => []
  | some a => [.call a]

/-- MpiCall::trigger (callqueue.cc:94-101) and OTF2TraceReplayApp::endMpi
(otf2_trace_replay.cc:169-172). -/
def trigger (conv : Nat → Int) (now : Int) (c : Call) : Int × List Out :=
  (conv c.stop, startMpi now (conv c.start) ++ actOf c.trig)

/-- The loop of CallQueue::callReady (callqueue.cc:66-76): the calls at the front of the queue that are
ready are triggered and popped. -/
def drain (conv : Nat → Int) : List Call → St → St
  | [], s => { s with queue := [] }
  | c :: q, s =>
    if c.ready then
      let t := trigger conv s.now c
      drain conv q { s with now := t.1, out := s.out ++ t.2, done := s.done ++ [c.ptr] }
    else { s with queue := c :: q }

/-- Assignment to members of the call at an address. -/
def update (p : Nat) (f : Call → Call) (q : List Call) : List Call :=
  q.map (fun c => if c.ptr = p then f c else c)

/-- Whether the call at an address is still in the queue; if not, it was destroyed by `pop`. -/
def alive (p : Nat) (q : List Call) : Bool := q.any (fun c => c.ptr = p)

/-- CallQueue::callReady (callqueue.cc:60-79). -/
def callReady (conv : Nat → Int) (p : Nat) (s : St) : Except Err St :=
  if alive p s.queue then
    let q := update p (fun c => { c with ready := true }) s.queue
    .ok (drain conv q s)
  else .error .undefined

/-- CallQueue::findLatest (callqueue.h:99-107): the last call in the queue with an id. -/
def findLatest (id : Id) (q : List Call) : Option Call :=
  q.reverse.find? (fun c => c.id = id)

/-- CallQueue::peekBack (callqueue.h:151-153). -/
def peekBack (q : List Call) : Except Err Call :=
  match q.getLast? with
  | some c => .ok c
  | none => .error .undefined

/-- CallQueue::emplaceCall (callqueue.h:119-128). -/
def emplace (id : Id) (start : Nat) (trig : Option Act) (s : St) : St :=
  { s with
    next := s.next + 1
    queue := s.queue ++ [{ ptr := s.next, id := id, start := start, stop := 0, ready := false, trig := trig }] }

/-- CallQueue::findRequest (callqueue.cc:82-91), without its abort. -/
def look (r : Nat) : List (Nat × Nat) → Option Nat
  | [] => none
  | (k, v) :: m => if k = r then some v else look r m

/-- CallQueue::removeRequest (callqueue.h:177-179). -/
def remove (r : Nat) (m : List (Nat × Nat)) : List (Nat × Nat) := m.filter (fun x => x.1 ≠ r)

/-- CallQueue::addRequest (callqueue.h:156-163): an entry of the same request is replaced. -/
def add (r p : Nat) (m : List (Nat × Nat)) : List (Nat × Nat) := (r, p) :: remove r m

/-- add_wait (callbacks.cc:290-313): the first request that completes within a call makes it a wait;
for each further one a new wait is put into the queue, and the one before is ready, taking no time. -/
def addWait (conv : Nat → Int) (r : Nat) (s : St) : Except Err St := do
  let w ← peekBack s.queue
  match w.trig with
  | none => pure { s with queue := update w.ptr (fun c => { c with trig := some (.wait r) }) s.queue }
  | some _ =>
    let s := emplace .wait w.start (some (.wait r)) s
    let s := { s with queue := update w.ptr (fun c => { c with stop := c.start }) s.queue }
    callReady conv w.ptr s

/-- The call that the replay makes for a collective (callbacks.cc:528-613), `n` being the size of the
communicator.  Divisions are of unsigned integers.  MPI_Alltoallw has no case. -/
def collAct (op : CollOp) (comm root sent received n : Nat) : Option Act :=
  match op with
  | .barrier => some (.barrier comm)
  | .bcast => some (.bcast received root comm)
  | .gather => some (.gather sent sent root comm)
  | .gatherv => some .print
  | .scatter => some (.scatter received received root comm)
  | .scatterv => some .print
  | .allgather => some (.allgather (sent / n) (received / n) comm)
  | .allgatherv => some .print
  | .alltoall => some (.alltoall (sent / n) (received / n) comm)
  | .alltoallv => some .print
  | .alltoallw => none
  | .allreduce => some (.allreduce (received / n / 4) comm)
  | .reduce => some (.reduce (sent / 4) root comm)
  | .reduceScatter => some (.reduceScatter (List.replicate n (received / n)) comm)
  | .scan => some (.scan ((sent + received) / n) comm)

/-- `CASE_READY` (callbacks.cc:1077-1087): the latest call of the region gets its end and is ready.
`trig` is the extra statement of MPI_Finalize and MPI_Init (callbacks.cc:1267, 1329). -/
def leaveReady (conv : Nat → Int) (id : Id) (time : Nat) (trig : Option (Option Act)) (s : St) :
    Except Err St :=
  match findLatest id s.queue with
  | none => .error .abort
  | some c =>
    callReady conv c.ptr
      { s with queue := update c.ptr (fun x => { x with stop := time, trig := trig.getD x.trig }) s.queue }

/-- The callbacks of events (callbacks.cc:315-624, 646-1526).  `size` gives the sizes of
communicators. -/
def step (conv : Nat → Int) (size : Nat → Nat) (s : St) : Ev → Except Err St
  | .enter id time =>
    match id with
    | .ignored _ => .ok s
    | .waitall | .waitany | .waitsome | .wait => .ok (emplace .wait time none s)
    | id => .ok (emplace id time none s)
  | .leave id time =>
    match id with
    | .ignored _ => .ok s
    | .irecv =>
      match findLatest .irecv s.queue with
      | none => .error .abort
      | some c => .ok { s with queue := update c.ptr (fun x => { x with stop := time }) s.queue }
    | .waitall | .waitany | .waitsome | .wait => leaveReady conv .wait time none s
    | .finalize => leaveReady conv .finalize time (some (some .finalize)) s
    | .init => leaveReady conv .init time (some (some .print)) s
    | id => leaveReady conv id time none s
  | .send dst comm tag len =>
    match findLatest .send s.queue with
    | none => .error .abort
    | some c =>
      .ok { s with queue := update c.ptr (fun x => { x with trig := some (.send dst comm tag len) }) s.queue }
  | .recv src comm tag len =>
    match findLatest .recv s.queue with
    | none => .error .abort
    | some c =>
      .ok { s with queue := update c.ptr (fun x => { x with trig := some (.recv src comm tag len) }) s.queue }
  | .isend dst comm tag len req => do
    let c ← peekBack s.queue
    pure { s with
      reqs := add req c.ptr s.reqs
      queue := update c.ptr (fun x => { x with trig := some (.isend dst comm tag len req) }) s.queue }
  | .isendComplete req => do
    let s ← addWait conv req s
    pure { s with reqs := remove req s.reqs }
  | .irecvRequest req => do
    let c ← peekBack s.queue
    pure { s with reqs := add req c.ptr s.reqs }
  | .irecv src comm tag len req =>
    match look req s.reqs with
    | none => .error .abort
    | some p =>
      if alive p s.queue then do
        let s := { s with queue := update p (fun x => { x with trig := some (.irecv src comm tag len req) }) s.queue }
        let s ← addWait conv req s
        callReady conv p { s with reqs := remove req s.reqs }
      else .error .undefined
  | .requestTest _ => .ok s
  | .requestCancelled _ => .ok s
  | .collectiveBegin => .ok s
  | .collectiveEnd op comm root sent received =>
    match collAct op comm root sent received (size comm) with
    | none => .ok s
    | some a => do
      let c ← peekBack s.queue
      pure { s with queue := update c.ptr (fun x => { x with trig := some a }) s.queue }

/-- The replay of the events of one rank (otf2_trace_replay.cc:254-282). -/
def run (conv : Nat → Int) (size : Nat → Nat) : List Ev → St → Except Err St
  | [], s => .ok s
  | e :: es, s =>
    match step conv size s e with
    | .ok s' => run conv size es s'
    | .error x => .error x

/-- The replay from the beginning. -/
def replay (conv : Nat → Int) (size : Nat → Nat) (es : List Ev) : Except Err St := run conv size es {}

end Verif.Otf2
