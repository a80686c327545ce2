/-
Model of MPI point-to-point matching:
  sumi-mpi/mpi_queue/mpi_queue.cc (send, recv, findMatchingRecv, incomingPt2ptMessage,
    handlePt2ptMessage, probe, iprobe),
  sumi-mpi/mpi_queue/mpi_queue_recv_request.cc (matches, isCancelled),
  sumi-mpi/mpi_queue/mpi_queue_probe_request.cc (matches),
  sumi-mpi/mpi_protocol/{eager0,eager1,rendezvous_rdma}.cc (incoming...).

One receiving rank, any number of sending tasks, and a network that delivers every message
exactly once but in any order.  Payloads, delays and statistics are not modelled.
`DIRECT_PUT` (only with `use_put_window`) matches on arrival like `EAGER0` and is not a
separate case.  A rank is single threaded, so one incoming message is handled completely
before the next.  Sequence numbers do not overflow.
-/
namespace SST.Mpi

/-- mpi_protocol.h: which protocol carries a message. -/
inductive Prot where
  | eager0
  | eager1
  | rendezvous
deriving DecidableEq, Repr

/-- `MpiMessage`: sending task, sequence number, rank of the sender in the communicator,
tag, communicator, size in bytes, protocol. -/
structure Msg where
  sender : Nat
  seq : Nat
  src : Int
  tag : Int
  comm : Nat
  bytes : Nat
  prot : Prot
deriving DecidableEq, Repr

/-- `MpiQueueRecvRequest`: `cap` is `count_ * type_->packed_size()`. -/
structure Req where
  id : Nat
  source : Int
  tag : Int
  comm : Nat
  cap : Nat
deriving DecidableEq, Repr

/-- `MPI_ANY_SOURCE`, mpi_types.h:61. -/
def anySource : Int := -2

/-- `MPI_ANY_TAG`, mpi_types.h:63. -/
def anyTag : Int := -1

/-- The comparison in `MpiQueueRecvRequest::matches`, mpi_queue_recv_request.cc:96-100, and
in `mpi_queue_probe_request::matches`, mpi_queue_probe_request.cc:71-75. -/
def Req.eligible (r : Req) (m : Msg) : Bool :=
  decide (r.comm = m.comm) && (decide (r.source = m.src) || decide (r.source = anySource))
    && (decide (r.tag = m.tag) || decide (r.tag = anyTag))

/-- Conversion to a 32-bit `int`; also the product of two `int`s when it overflows (undefined
in C++, wraps around in practice). -/
def int32 (n : Nat) : Int := Int.bmod n (2 ^ 32)

/-- `msg->payloadBytes()` when a message is compared with a receive: the size of the short
message (`smsgSend`, sumi/transport.h:200-212), which for rendezvous is the header of 64 bytes
(rendezvous_rdma.cc:112-121).  An `EAGER1` message is compared after its payload has been
fetched (`setupRdmaGet`, network_message.h). -/
def Msg.payload (m : Msg) : Nat :=
  match m.prot with
  | .rendezvous => 64
  | _ => m.bytes

/-- The size check in `matches`, mpi_queue_recv_request.cc:102-106, in 32-bit arithmetic. -/
def tooBig (m : Msg) (r : Req) : Bool := decide (int32 m.payload > int32 r.cap)

/-- Why a run aborts. -/
inductive Abort where
  /-- "incoming message has .. bytes, but matches buffer of too small size" -/
  | tooSmall
  /-- "message sequence went backwards" -/
  | backwards
deriving DecidableEq, Repr

/-- What has happened at the receiver (and at the senders), oldest first. -/
inductive Ev where
  | sent (m : Msg)
  | handled (m : Msg)
  | posted (r : Req)
  | matched (r : Req) (m : Msg)
  | cancelled (id : Nat)
deriving DecidableEq, Repr

/-- The receiving `MpiQueue`, the senders' counters and the network. -/
structure St where
  /-- `next_outbound_` of each sender for this receiver -/
  nextOut : Nat → Nat
  /-- messages in the network, not yet delivered -/
  net : List Msg
  /-- `next_inbound_` -/
  nextIn : Nat → Nat
  /-- `held_` -/
  held : Nat → List Msg
  /-- `EAGER1` messages whose payload has been requested -/
  fetching : List Msg
  /-- `need_recv_match_` -/
  unexpected : List Msg
  /-- `need_send_match_` -/
  posted : List Req
  /-- ids of requests the application has cancelled -/
  cancelled : List Nat
  /-- number of receives posted so far -/
  nextReq : Nat
  log : List Ev

/-- The queue of a rank before any message, mpi_queue.cc:88-109. -/
def St.init : St :=
  { nextOut := fun _ => 0, net := [], nextIn := fun _ => 0, held := fun _ => [], fetching := [],
    unexpected := [], posted := [], cancelled := [], nextReq := 0, log := [] }

/-- Functional update. -/
def upd {α : Type} (f : Nat → α) (i : Nat) (a : α) : Nat → α := fun j => if j = i then a else f j

/-- The loop of `findMatchingRecv(MpiMessage*)`, mpi_queue.cc:315-325: erases cancelled
requests on the way, stops at the first eligible one; the abort is in `matches`. -/
def searchPosted (cancelled : List Nat) (m : Msg) : List Req → Except Abort (Option Req × List Req)
  | [] => .ok (none, [])
  | r :: rs =>
    if r.id ∈ cancelled then searchPosted cancelled m rs
    else if r.eligible m then
      if tooBig m r then .error .tooSmall else .ok (some r, rs)
    else
      match searchPosted cancelled m rs with
      | .error a => .error a
      | .ok (x, rs') => .ok (x, r :: rs')

/-- The loop of `findMatchingRecv(MpiQueueRecvRequest*)`, mpi_queue.cc:205-218. -/
def searchUnexpected (r : Req) : List Msg → Except Abort (Option Msg × List Msg)
  | [] => .ok (none, [])
  | m :: ms =>
    if r.eligible m then
      if tooBig m r then .error .tooSmall else .ok (some m, ms)
    else
      match searchUnexpected r ms with
      | .error a => .error a
      | .ok (x, ms') => .ok (x, m :: ms')

/-- `findMatchingRecv(MpiMessage*)`, mpi_queue.cc:312-328. -/
def matchMsg (s : St) (m : Msg) : Except Abort St :=
  match searchPosted s.cancelled m s.posted with
  | .error a => .error a
  | .ok (some r, rs) => .ok { s with posted := rs, log := s.log ++ [.matched r m] }
  | .ok (none, rs) => .ok { s with posted := rs, unexpected := s.unexpected ++ [m] }

/-- `recv`, mpi_queue.cc:231-249 with `findMatchingRecv(MpiQueueRecvRequest*)`. -/
def post (s : St) (r : Req) : Except Abort St :=
  let s : St := { s with nextReq := s.nextReq + 1, log := s.log ++ [Ev.posted r] }
  match searchUnexpected r s.unexpected with
  | .error a => .error a
  | .ok (some m, ms) => .ok { s with unexpected := ms, log := s.log ++ [.matched r m] }
  | .ok (none, _) => .ok { s with posted := s.posted ++ [r] }

/-- `handlePt2ptMessage` for a first-stage message, mpi_queue.cc:417-422: `EAGER0`
(eager0.cc:103-120) and rendezvous headers (rendezvous_rdma.cc:187-198) look for a receive
at once; an `EAGER1` header (eager1.cc:82-94) only asks for the payload. -/
def handle (s : St) (m : Msg) : Except Abort St :=
  let s : St := { s with log := s.log ++ [Ev.handled m] }
  match m.prot with
  | .eager1 => .ok { s with fetching := s.fetching ++ [m] }
  | _ => matchMsg s m

/-- The loop over held messages, mpi_queue.cc:372-391; `l` is what is left of `held_[tid]`. -/
def release (s : St) (t : Nat) : List Msg → Except Abort St
  | [] => .ok { s with held := upd s.held t [] }
  | m :: l =>
    if m.seq ≤ s.nextIn t then
      match handle s m with
      | .error a => .error a
      | .ok s => release { s with nextIn := upd s.nextIn t (s.nextIn t + 1) } t l
    else .ok { s with held := upd s.held t (m :: l) }

/-- `held_[tid].insert`, a `std::set` ordered by `sortbyseqnum`, mpi_queue.cc:82-86. -/
def hold (m : Msg) : List Msg → List Msg
  | [] => [m]
  | x :: xs => if m.seq < x.seq then m :: x :: xs else if x.seq < m.seq then x :: hold m xs else x :: xs

/-- `incomingPt2ptMessage` for a first-stage message, mpi_queue.cc:361-399. -/
def arrive (s : St) (m : Msg) : Except Abort St :=
  let t := m.sender
  if m.seq = s.nextIn t then
    match handle s m with
    | .error a => .error a
    | .ok s => release { s with nextIn := upd s.nextIn t (s.nextIn t + 1) } t (s.held t)
  else if m.seq < s.nextIn t then .error .backwards
  else .ok { s with held := upd s.held t (hold m (s.held t)) }

/-- What can happen next. -/
inductive Op where
  /-- a task calls `MPI_Send`: `send`, mpi_queue.cc:168-199 -/
  | send (sender : Nat) (src tag : Int) (comm bytes : Nat) (prot : Prot)
  /-- the network delivers the `i`-th message in flight -/
  | deliver (i : Nat)
  /-- the payload of the `i`-th fetch arrives: `Eager1::incomingPayload`, eager1.cc:96-102 -/
  | payload (i : Nat)
  /-- the application posts a receive -/
  | recv (source tag : Int) (comm cap : Nat)
  /-- the application cancels a request it has posted: `MpiRequest::cancel`, mpi_request.h:184-187 -/
  | cancel (id : Nat)

/-- One step; delivering something that is not there changes nothing. -/
def step (s : St) : Op → Except Abort St
  | .send t src tag comm bytes prot =>
    let m : Msg := ⟨t, s.nextOut t, src, tag, comm, bytes, prot⟩
    .ok { s with nextOut := upd s.nextOut t (s.nextOut t + 1), net := s.net ++ [m], log := s.log ++ [.sent m] }
  | .deliver i =>
    match s.net[i]? with
    | none => .ok s
    | some m => arrive { s with net := s.net.eraseIdx i } m
  | .payload i =>
    match s.fetching[i]? with
    | none => .ok s
    | some m => matchMsg { s with fetching := s.fetching.eraseIdx i } m
  | .recv source tag comm cap => post s ⟨s.nextReq, source, tag, comm, cap⟩
  | .cancel id => if s.nextReq ≤ id then .ok s else .ok { s with cancelled := id :: s.cancelled, log := s.log ++ [.cancelled id] }

/-- A whole history. -/
def run (s : St) : List Op → Except Abort St
  | [] => .ok s
  | op :: ops =>
    match step s op with
    | .error a => .error a
    | .ok s => run s ops

/-- `iprobe`, mpi_queue.cc:290-310: the first unexpected message that matches. -/
def iprobe (s : St) (source tag : Int) (comm : Nat) : Option Msg :=
  s.unexpected.find? (fun m => Req.eligible ⟨0, source, tag, comm, 0⟩ m)

/-- Choice of protocol in `send`, mpi_queue.cc:177-186.  `count`, the packed size of the type
and the two limits are `int`s (mpi_queue.h:211-212, mpi_type.h:129); the product and the
comparisons are done in `uint64_t`. -/
def chooseProt (count packed maxVshort maxEager : BitVec 32) : Prot :=
  let bytes := count.signExtend 64 * packed.signExtend 64
  if bytes ≤ maxVshort.signExtend 64 then .eager0
  else if bytes ≤ maxEager.signExtend 64 then .eager1
  else .rendezvous

end SST.Mpi
