/-!
How the data of a point-to-point message gets from the send buffer into the receive buffer:
`MpiProtocol` (mpi_protocol/*.cc), `finalizeRecv` (mpi_queue.cc:251-260) and the copies made by
the network interface (`NetworkMessage::putOnWire`, `takeOffWire`, `intranodeMemmove`,
network_message.cc:79-163, called in nic.cc:186-241 and 282-287).

Which receive takes which message is left open here (`Mpi/Model` decides it); every pairing,
delay and order of the remaining steps is allowed.  A message is one C++ object that is passed
on and reused for the get request, the payload and the acknowledgement, so each message is in
one phase.  Buffers are lists of addresses, in the order in which a datatype packs its bytes.
The special pointers that stand for absent buffers, allocation of temporary buffers and
delays are not modelled.
-/
set_option autoImplicit false
namespace SST.Mpi.Xfer

/-- mpi_protocol.h: the protocols. -/
inductive Prot where
  | eager0
  | eager1
  | rendezvous
  | put
deriving DecidableEq, Repr

/-- Contents of a byte of memory. -/
abbrev Byte := Nat

/-- Memory of each rank. -/
abbrev Mem := Nat → Nat → Byte

/-- A posted receive (`MpiQueueRecvRequest`): rank, addresses of the bytes of `count_`
elements, whether the datatype is contiguous, and its packed size. -/
structure Recv where
  id : Nat
  rank : Nat
  locs : List Nat
  contig : Bool
  psize : Nat
deriving DecidableEq, Repr

/-- Where a message is. -/
inductive Phase where
  /-- the short message or header is under way -/
  | out
  /-- it waits at the receiver -/
  | here
  /-- `EAGER1`: the request for the payload is under way -/
  | fetch
  /-- `EAGER1`: the payload is under way, with these bytes on the wire -/
  | fetched (wire : List Byte)
  /-- `EAGER1`: the payload waits at the receiver, in a temporary buffer -/
  | ready (data : List Byte)
  /-- rendezvous: matched, the request for the payload is under way; `local_buffer_` is the
  buffer of this receive -/
  | get (r : Recv)
  /-- rendezvous: the payload is under way -/
  | pay (r : Recv) (wire : List Byte)
  /-- rendezvous: the payload has been written and waits in the completion queue -/
  | paid (r : Recv)
  /-- the software acknowledgement is under way -/
  | ack
  /-- deleted -/
  | gone
deriving DecidableEq, Repr

/-- A message. -/
structure Msg where
  src : Nat
  dst : Nat
  prot : Prot
  /-- addresses of the bytes of the send buffer -/
  locs : List Nat
  /-- the datatype is contiguous -/
  contig : Bool
  /-- number of elements sent -/
  count : Nat
  /-- the temporary buffer of `fillSendBuffer`, if one is made -/
  temp : List Byte
  /-- ghost: the bytes the send buffer held when the send was called -/
  orig : List Byte
  phase : Phase
  /-- an acknowledgement by the sender's network interface is under way -/
  nicAck : Bool
  /-- how often the send request was completed -/
  sendDone : Nat
  /-- how often a receive was completed with this message -/
  recvDone : Nat
deriving DecidableEq, Repr

/-- The state of all ranks. -/
structure St where
  mem : Mem
  /-- messages by flow id -/
  msgs : Nat → Option Msg
  /-- `send_flows_` has an entry for this flow -/
  sendFlows : Nat → Bool
  /-- `recv_flows_` -/
  recvFlows : Nat → Option Recv
  /-- `recv_buffer_` of a receive of a datatype that is not contiguous, by receive -/
  rtemp : Nat → List Byte
  /-- receives that are posted and not complete -/
  opened : List Recv
  /-- receives that are posted and not matched -/
  posted : List Recv
  /-- number of receives so far -/
  nextRecv : Nat

/-- Nothing has been sent. -/
def St.init (mem : Mem) : St :=
  { mem := mem, msgs := fun _ => none, sendFlows := fun _ => false, recvFlows := fun _ => none, rtemp := fun _ => [], opened := [],
    posted := [], nextRecv := 0 }

/-- Why the simulation stops. -/
inductive Abort where
  /-- "RDMA get protocol has no matching receive" -/
  | noRecv
  /-- "could not find matching ack" -/
  | noAck
  /-- bytes are written beyond the receive buffer -/
  | overrun
  /-- more elements are unpacked than were received -/
  | badUnpack
deriving DecidableEq, Repr

/-- Functional update. -/
def set {α : Type} (f : Nat → α) (i : Nat) (a : α) : Nat → α := fun j => if j = i then a else f j

/-- The bytes at the given addresses. -/
def load (m : Mem) (p : Nat) (locs : List Nat) : List Byte := locs.map (m p)

/-- Writes bytes to the first of the given addresses. -/
def store (m : Mem) (p : Nat) : List Nat → List Byte → Mem
  | a :: locs, v :: data => store (fun q x => if q = p ∧ x = a then v else m q x) p locs data
  | _, _ => m

/-- Copying received bytes into `recv_buffer_`: `memcpy` in eager0.cc:92 and eager1.cc:116, and
`takeBufferOffWire`, network_message.cc:110-118.  For a contiguous datatype this is the
application's buffer, otherwise a temporary one (mpi_queue_recv_request.cc:72-76). -/
def deliver (s : St) (r : Recv) (data : List Byte) : Except Abort St :=
  if data.length > r.locs.length then .error .overrun
  else if r.contig then .ok { s with mem := store s.mem r.rank r.locs data }
  else .ok { s with rtemp := set s.rtemp r.id data }

/-- `finalizeRecv`, mpi_queue.cc:251-260: completes the receive and unpacks a temporary buffer,
with the number of elements of the sender and the datatype of the receiver. -/
def finalize (s : St) (f : Nat) (m : Msg) (r : Recv) (phase : Phase) : Except Abort St :=
  let s : St := { s with msgs := set s.msgs f (some { m with phase := phase, recvDone := m.recvDone + 1 }), opened := s.opened.filter (fun x => x.id != r.id) }
  if r.contig then .ok s
  else if m.count * r.psize > (s.rtemp r.id).length then .error .badUnpack
  else .ok { s with mem := store s.mem r.rank r.locs ((s.rtemp r.id).take (m.count * r.psize)) }

/-- What can happen. -/
inductive Op where
  /-- the application sends (`start` of the protocol); the flow id is fresh -/
  | send (f src dst : Nat) (prot : Prot) (locs : List Nat) (contig : Bool) (count : Nat)
  /-- the application posts a receive -/
  | post (rank : Nat) (locs : List Nat) (contig : Bool) (psize : Nat)
  /-- the application writes its memory -/
  | write (p a v : Nat)
  /-- the short message or header reaches the receiver's queue -/
  | arrive (f : Nat)
  /-- the queue pairs the message with a receive -/
  | pair (f rid : Nat)
  /-- `Eager1::incomingHeader` -/
  | fetch (f : Nat)
  /-- the request for a payload reaches the sender's network interface -/
  | nicGet (f : Nat)
  /-- the same between ranks of a node -/
  | nicGetLocal (f : Nat)
  /-- the payload reaches the receiver's network interface -/
  | nicPay (f : Nat)
  /-- `RendezvousGet::incomingPayload` -/
  | payload (f : Nat)
  /-- the software acknowledgement reaches the sender -/
  | ack (f : Nat)
  /-- the acknowledgement by the network interface reaches the sender -/
  | nicAck (f : Nat)
deriving DecidableEq, Repr

/-- `incomingAck`: looks the send up and completes it, rendezvous_rdma.cc:131-159,
mpi_protocol.cc:108-123. -/
def complete (s : St) (f : Nat) (m : Msg) : Except Abort St :=
  if s.sendFlows f then
    .ok { s with sendFlows := set s.sendFlows f false, msgs := set s.msgs f (some { m with sendDone := m.sendDone + 1 }) }
  else .error .noAck

/-- The bytes read at the sender for a get: the temporary buffer if there is one, otherwise the
send buffer (`remote_buffer_`, network_message.cc:83-86). -/
def remote (s : St) (m : Msg) : List Byte :=
  if m.prot = .eager1 ∨ m.contig = false then m.temp else load s.mem m.src m.locs

/-- One step; a step that is not possible changes nothing. -/
def step (softAck : Bool) (s : St) : Op → Except Abort St
  | .send f src dst prot locs contig count =>
    let orig := load s.mem src locs
    -- eager0.cc:60-80, eager1.cc:64-81: packed copy, the request is complete at once;
    -- rendezvous_rdma.cc:93-127: copy only if not contiguous; mpi_protocol.cc:92-106
    let temp := if prot = .eager0 ∨ prot = .eager1 ∨ (prot = .rendezvous ∧ contig = false) then orig else []
    let done := if prot = .eager0 ∨ prot = .eager1 then 1 else 0
    .ok { s with
      sendFlows := if prot = .rendezvous ∨ prot = .put then set s.sendFlows f true else s.sendFlows
      msgs := set s.msgs f (some ⟨src, dst, prot, locs, contig, count, temp, orig, .out, decide (prot = .put), done, 0⟩) }
  | .post rank locs contig psize =>
    let r : Recv := ⟨s.nextRecv, rank, locs, contig, psize⟩
    .ok { s with opened := s.opened ++ [r], posted := s.posted ++ [r], nextRecv := s.nextRecv + 1 }
  | .write p a v => .ok { s with mem := fun q x => if q = p ∧ x = a then v else s.mem q x }
  | .arrive f =>
    match s.msgs f with
    | some m => if m.phase = .out then .ok { s with msgs := set s.msgs f (some { m with phase := .here }) } else .ok s
    | none => .ok s
  | .pair f rid =>
    match s.msgs f, s.posted.find? (fun r => r.id == rid) with
    | some m, some r =>
      let s1 : St := { s with posted := s.posted.filter (fun x => x.id != rid) }
      match m.phase, m.prot with
      | .here, .eager0 =>
        -- Eager0::incoming, eager0.cc:82-100
        match deliver s1 r m.temp with
        | .error a => .error a
        | .ok s2 => finalize s2 f m r .gone
      | .ready data, .eager1 =>
        -- Eager1::incoming, eager1.cc:104-123
        match deliver s1 r data with
        | .error a => .error a
        | .ok s2 => finalize s2 f m r .gone
      | .here, .rendezvous =>
        -- RendezvousGet::incoming, rendezvous_rdma.cc:200-240
        .ok { s1 with recvFlows := set s1.recvFlows f (some r), msgs := set s1.msgs f (some { m with phase := .get r }) }
      | .here, .put =>
        -- DirectPut::incoming, mpi_protocol.cc:143-148
        finalize s1 f m r .gone
      | _, _ => .ok s
    | _, _ => .ok s
  | .fetch f =>
    match s.msgs f with
    | some m => if m.phase = .here ∧ m.prot = .eager1 then .ok { s with msgs := set s.msgs f (some { m with phase := .fetch }) } else .ok s
    | none => .ok s
  | .nicGet f =>
    match s.msgs f with
    | some m =>
      match m.phase with
      | .fetch => .ok { s with msgs := set s.msgs f (some { m with phase := .fetched (remote s m), nicAck := true }) }
      | .get r => .ok { s with msgs := set s.msgs f (some { m with phase := .pay r (remote s m), nicAck := !softAck }) }
      | _ => .ok s
    | none => .ok s
  | .nicGetLocal f =>
    match s.msgs f with
    | some m =>
      match m.phase with
      | .fetch => .ok { s with msgs := set s.msgs f (some { m with phase := .ready (remote s m), nicAck := true }) }
      | .get r =>
        match deliver s r (remote s m) with
        | .error a => .error a
        | .ok s2 => .ok { s2 with msgs := set s2.msgs f (some { m with phase := .paid r, nicAck := !softAck }) }
      | _ => .ok s
    | none => .ok s
  | .nicPay f =>
    match s.msgs f with
    | some m =>
      match m.phase with
      | .fetched wire => .ok { s with msgs := set s.msgs f (some { m with phase := .ready wire }) }
      | .pay r wire =>
        match deliver s r wire with
        | .error a => .error a
        | .ok s2 => .ok { s2 with msgs := set s2.msgs f (some { m with phase := .paid r }) }
      | _ => .ok s
    | none => .ok s
  | .payload f =>
    match s.msgs f with
    | some m =>
      match m.phase with
      | .paid _ =>
        match s.recvFlows f with
        | none => .error .noRecv
        | some r => finalize { s with recvFlows := set s.recvFlows f none } f m r (if softAck then .ack else .gone)
      | _ => .ok s
    | none => .ok s
  | .ack f =>
    match s.msgs f with
    | some m => if m.phase = .ack then complete s f { m with phase := .gone } else .ok s
    | none => .ok s
  | .nicAck f =>
    match s.msgs f with
    | some m =>
      if m.nicAck then
        -- Eager1::incomingAck, eager1.cc:125-133, only frees the temporary buffer
        if m.prot = .eager1 then .ok { s with msgs := set s.msgs f (some { m with nicAck := false }) }
        else complete s f { m with nicAck := false }
      else .ok s
    | none => .ok s

/-- What the application must not do (MPI-3.1 3.2.4, 3.7.2, 3.3.1), the size check (C93) and
unique flow ids. -/
def Legal (s : St) : Op → Prop
  | .send f src _ prot locs _ _ =>
    s.msgs f = none ∧ prot ≠ .put ∧ ∀ r ∈ s.opened, r.rank = src → ∀ a ∈ locs, a ∉ r.locs
  | .post rank locs _ _ =>
    locs.Nodup ∧ (∀ r ∈ s.opened, r.rank = rank → ∀ a ∈ locs, a ∉ r.locs) ∧
    ∀ (f : Nat) (m : Msg), s.msgs f = some m → m.src = rank → m.sendDone = 0 → ∀ a ∈ locs, a ∉ m.locs
  | .write p a _ =>
    (∀ r ∈ s.opened, r.rank = p → a ∉ r.locs) ∧
    ∀ (f : Nat) (m : Msg), s.msgs f = some m → m.src = p → m.sendDone = 0 → a ∉ m.locs
  | .pair f rid =>
    ∀ (m : Msg) (r : Recv), s.msgs f = some m → r ∈ s.posted → r.id = rid →
      m.locs.length ≤ r.locs.length ∧ (r.contig = false → m.count * r.psize = m.locs.length)
  | _ => True

/-- States after any history in which the application keeps to the rules. -/
inductive Reach (softAck : Bool) : St → Prop
  | init (mem : Mem) : Reach softAck (St.init mem)
  | step {s s' : St} {op : Op} (h : Reach softAck s) (hl : Legal s op) (hs : step softAck s op = .ok s') : Reach softAck s'

/-- A history. -/
def run (softAck : Bool) (s : St) : List Op → Except Abort St
  | [] => .ok s
  | op :: ops =>
    match step softAck s op with
    | .error a => .error a
    | .ok s => run softAck s ops

/-- `UniqueEventId::operator uint64_t`, unique_id.h:67-72: `lo | hi` of the node and the 32-bit
counter. -/
def uniqueId (node num : BitVec 32) : BitVec 64 := num.setWidth 64 ||| (node.setWidth 64 <<< 32)

end SST.Mpi.Xfer
