/-
The transport of the processes (`SimTransport`, sumi/sim_transport.cc, sumi/sim_transport.h,
sumi/transport.h), its server on every node (`SumiServer`, sim_transport.cc:118-195) and the parts of
the network interface that turn requests into payloads and payloads into acknowledgements
(sstmac/hardware/nic/nic.cc, sstmac/hardware/network/network_message.cc).

The network may deliver whatever is on the way in any order and at any time.  The acknowledgement of a
payload is made when its injection ends; here it is on the way as soon as the payload is.  Buffers,
delays, sizes, flows and quality of service are left out (C94 has the buffers).  The server of a node is
an object that is made with the first transport of the node; here it is always there, since the
operating system keeps what arrives for a library that is not there yet (C111).
-/
set_option autoImplicit false
namespace SST.Sumi.Tp

/-- `NetworkMessage::type_t`, network_message.h:73-88, without the types that the transport does not
send. -/
inductive Kind where
  | smsg | posted | getReq | getPay | putPay | sentAck | getAck | putAck
deriving DecidableEq, Repr

/-- `NetworkMessage::isNicAck`, network_message.cc:67-79. -/
def Kind.isAck : Kind → Bool
  | .sentAck | .getAck | .putAck => true
  | _ => false

/-- A message: `sumi::Message`, message.h:62-247, with its `NetworkMessage`, network_message.h:361-401.
`op` is the number of the call that made it (a record for the statements). -/
structure Msg where
  kind : Kind
  aid : Nat
  sender : Nat
  recver : Nat
  sendCq : Int
  recvCq : Int
  needsAck : Bool
  toNode : Nat
  fromNode : Nat
  op : Nat
deriving DecidableEq, Repr

/-- `Message::no_ack`, message.h:73. -/
def noAck : Int := -1

/-- How a run may fail. -/
inductive Fail where
  /-- an `std::function` without a target is called: `std::bad_function_call` -/
  | badCall
  /-- access outside a vector -/
  | outside
  /-- `spkt_abort` -/
  | abort
  /-- the call makes no sense: no such process, no such message -/
  | misuse
deriving DecidableEq, Repr

/-- `Message::targetRank`, message.h:155-171. -/
def Msg.target (m : Msg) : Except Fail Nat :=
  match m.kind with
  | .smsg | .posted | .getPay | .putPay => .ok m.recver
  | .sentAck | .getAck | .putAck => .ok m.sender
  | .getReq => .error .abort

/-- `NetworkMessage::needsAck`, network_message.h:254-257: only payloads are acknowledged. -/
def Msg.wantsAck (m : Msg) : Bool :=
  m.needsAck && match m.kind with
    | .smsg | .posted | .getPay | .putPay => true
    | _ => false

/-- `NetworkMessage::reverse`, network_message.cc:237-245. -/
def Msg.hwReverse (m : Msg) : Msg := { m with toNode := m.fromNode, fromNode := m.toNode }

/-- `Message::reverse`, message.h:191-193. -/
def Msg.swReverse (m : Msg) : Msg := { m with sender := m.recver, recver := m.sender }

/-- `cloneInjectionAck`, message.h:119-123, `convertToAck`, network_message.cc:212-235; only called for
payloads. -/
def Msg.ack (m : Msg) : Msg :=
  { m.hwReverse with kind := match m.kind with
      | .getPay => .getAck
      | .putPay => .putAck
      | _ => .sentAck }

/-- `nicReverse` of a get request, network_message.cc:367-379. -/
def Msg.toPayload (m : Msg) : Msg := { m.hwReverse with kind := .getPay }

/-- The transport of a process: `completion_queues_` (`none`: an id without a function) and
`free_cq_ids_`, sim_transport.h:272, :298. -/
structure Proc where
  cqs : List (Option Nat)
  free : List Nat
deriving DecidableEq, Repr

/-- A call of a function of a completion queue. -/
structure Deliv where
  aid : Nat
  rank : Nat
  cq : Int
  handler : Nat
  msg : Msg
deriving DecidableEq, Repr

/-- The state of all nodes.  `procs` are the registered transports, `slots` the entries (node, application,
rank) of `procs_` of the servers (those of the registered and those made by a look-up), `pending` the lists `pending_`
with the node, `held` the lists `held_` with the process and the queue, `net` what is on the way, with the node whose
interface will handle it; `log` records the calls of queue functions, `lost` what was held by a process
that ended. -/
structure St where
  procs : Nat → Nat → Option Proc
  slots : List (Nat × Nat × Nat)
  pending : List (Nat × Msg)
  held : List (Nat × Nat × Int × Msg)
  net : List (Nat × Msg)
  log : List Deliv
  lost : List (Nat × Nat × Int × Msg)
  ops : Nat

/-- Nothing has happened. -/
def St.init : St := ⟨fun _ _ => none, [], [], [], [], [], [], 0⟩

/-- Changes the transport of a process. -/
def St.set (s : St) (a r : Nat) (p : Option Proc) : St :=
  { s with procs := fun a' r' => if a' = a ∧ r' = r then p else s.procs a' r' }

/-- Calling `completion_queues_[cq]`, cq in range or not. -/
def call (s : St) (a r : Nat) (p : Proc) (cq : Int) (m : Msg) : Except Fail St :=
  if cq < 0 ∨ (p.cqs.length : Int) ≤ cq then .error .outside
  else match p.cqs[cq.toNat]? with
    | some (some h) => .ok { s with log := s.log ++ [⟨a, r, cq, h, m⟩] }
    | _ => .error .badCall

/-- `SimTransport::incomingMessage`, sim_transport.cc:507-530: a negative queue is larger than any size
once it is converted to an unsigned number. -/
def incomingMessage (s : St) (a r : Nat) (p : Proc) (m : Msg) : Except Fail St :=
  let cq := if m.kind.isAck then m.sendCq else m.recvCq
  if cq = noAck then .ok s
  else if cq < 0 ∨ (p.cqs.length : Int) ≤ cq then .ok { s with held := s.held ++ [(a, r, cq, m)] }
  else call s a r p cq m

/-- An entry of `procs_` made by a look-up or a registration. -/
def St.slot (s : St) (x : Nat × Nat × Nat) : St := if x ∈ s.slots then s else { s with slots := x :: s.slots }

/-- `SumiServer::incomingRequest` on node `n`, sim_transport.cc:170-184; `node` places the processes. -/
def server (node : Nat → Nat → Nat) (s : St) (n : Nat) (m : Msg) : Except Fail St :=
  match m.target with
  | .error e => .error e
  | .ok t =>
    match (if node m.aid t = n then s.procs m.aid t else none) with
    | some p => incomingMessage (s.slot (n, m.aid, t)) m.aid t p m
    | none => let s' := s.slot (n, m.aid, t); .ok { s' with pending := s'.pending ++ [(n, m)] }

/-- The loop over `pending_` in `registerProc`, sim_transport.cc:143-152; the argument is the rest of the
list, `pending` of the state is what was passed over. -/
def drain (n a r : Nat) (p : Proc) (s : St) : List (Nat × Msg) → Except Fail St
  | [] => .ok s
  | (n', m) :: l =>
    match m.target with
    | .error e => .error e
    | .ok t =>
      if n' = n ∧ t = r ∧ m.aid = a then
        match incomingMessage s a r p m with
        | .error e => .error e
        | .ok s' => drain n a r p s' l
      else drain n a r p { s with pending := s.pending ++ [(n', m)] } l

/-- The function of the default completion queue (`DefaultProgressQueue::incoming`), sim_transport.cc:252-253. -/
def defaultFn : Nat := 0

/-- `NIC::injectSend`, `intranodeSend`, `finishMemcpy`, `ackSend`, nic.cc:183-192, :243-288, for a message injected at node
`x`. -/
def inject (s : St) (x : Nat) (m : Msg) : St :=
  let m' := if m.toNode = x ∧ m.kind = .getReq then m.toPayload else m
  { s with net := s.net ++ (if m'.wantsAck then [(x, m'.ack)] else []) ++ [(m.toNode, m')] }

/-- `SimTransport::send`, sim_transport.cc:391-450, of process `(a, r)`. -/
def send (node : Nat → Nat → Nat) (s : St) (a r : Nat) (p : Proc) (m : Msg) : Except Fail St :=
  if m.kind = .smsg ∧ m.recver = r then do
    let s ← if 0 ≤ m.recvCq then call s a r p m.recvCq m else .ok s
    if 0 ≤ m.sendCq then call s a r p m.sendCq m.ack else .ok s
  else .ok (inject s (node a r) m)

/-- The calls of the processes and the events of the network. -/
inductive Op where
  /-- the constructor of a transport -/
  | start (a r : Nat)
  /-- its destructor -/
  | finish (a r : Nat)
  | allocId (a r : Nat)
  | install (a r id h : Nat)
  | dealloc (a r id : Nat)
  /-- `smsgSend`, `postSend`, `rdmaPut`, `rdmaGet`: partner, local and remote queue -/
  | smsg (a r q : Nat) (lcq rcq : Int)
  | post (a r q : Nat) (lcq rcq : Int)
  | put (a r q : Nat) (lcq rcq : Int)
  | get (a r q : Nat) (lcq rcq : Int)
  /-- the responses to a message that the process has received -/
  | smsgResp (a r : Nat) (m : Msg) (lcq rcq : Int)
  | putResp (a r : Nat) (m : Msg) (lcq rcq : Int)
  | getResp (a r : Nat) (m : Msg) (lcq rcq : Int)
  /-- the `i`-th message on the way arrives -/
  | arrive (i : Nat)
deriving DecidableEq, Repr

/-- A new message, transport.h:155-212. -/
def fresh (node : Nat → Nat → Nat) (s : St) (k : Kind) (a r q : Nat) (scq rcq : Int) : Msg :=
  { kind := k, aid := a, sender := r, recver := q, sendCq := scq, recvCq := rcq, needsAck := decide (scq ≠ noAck),
    toNode := node a q, fromNode := node a r, op := s.ops }

/-- A payload that the process got from a queue. -/
def received (s : St) (a r : Nat) (m : Msg) : Bool :=
  !m.kind.isAck && s.log.any (fun d => d.aid == a && d.rank == r && d.msg == m)

/-- One step; `ops` counts the communication calls. -/
def step (node : Nat → Nat → Nat) (s : St) : Op → Except Fail St
  -- sim_transport.cc:238-293, `registerProc`, :131-153
  | .start a r =>
    match s.procs a r with
    | some _ => .error .abort
    | none =>
      let p : Proc := ⟨[some defaultFn], []⟩
      drain (node a r) a r p ({ s.set a r (some p) with pending := [] }.slot (node a r, a, r)) s.pending
  -- sim_transport.cc:333-343, `unregisterProc`, :155-164
  | .finish a r =>
    match s.procs a r with
    | none => .error .misuse
    | some _ =>
      .ok { s.set a r none with
        slots := s.slots.filter (fun x => x != (node a r, a, r))
        held := s.held.filter (fun x => !(x.1 == a && x.2.1 == r))
        lost := s.lost ++ s.held.filter (fun x => x.1 == a && x.2.1 == r) }
  -- sim_transport.h:241-251
  | .allocId a r =>
    match s.procs a r with
    | none => .error .misuse
    | some p =>
      match p.free with
      | [] => .ok (s.set a r (some { p with cqs := p.cqs ++ [none] }))
      | _ :: f => .ok (s.set a r (some { p with free := f }))
  -- `allocateCq`, sim_transport.cc:295-307: the function is moved into the vector before it is called for what was held
  | .install a r id h =>
    match s.procs a r with
    | none => .error .misuse
    | some p =>
      if p.cqs.length ≤ id then .error .outside
      else if s.held.any (fun x => x.1 == a && x.2.1 == r && x.2.2.1 == id) then .error .badCall
      else .ok (s.set a r (some { p with cqs := p.cqs.set id (some h) }))
  -- sim_transport.h:253-255
  | .dealloc a r id =>
    match s.procs a r with
    | none => .error .misuse
    | some p => .ok (s.set a r (some { p with free := p.free ++ [id] }))
  -- transport.h:200-212
  | .smsg a r q lcq rcq =>
    match s.procs a r with
    | none => .error .misuse
    | some p => send node { s with ops := s.ops + 1 } a r p (fresh node s .smsg a r q lcq rcq)
  -- transport.h:184-197
  | .post a r q lcq rcq =>
    match s.procs a r with
    | none => .error .misuse
    | some p => send node { s with ops := s.ops + 1 } a r p (fresh node s .posted a r q lcq rcq)
  -- transport.h:170-182
  | .put a r q lcq rcq =>
    match s.procs a r with
    | none => .error .misuse
    | some p => send node { s with ops := s.ops + 1 } a r p (fresh node s .putPay a r q lcq rcq)
  -- transport.h:155-168: the remote queue is the queue of the sender
  | .get a r q lcq rcq =>
    match s.procs a r with
    | none => .error .misuse
    | some p => send node { s with ops := s.ops + 1 } a r p (fresh node s .getReq a r q rcq lcq)
  -- sim_transport.cc:452-464
  | .smsgResp a r m lcq rcq =>
    match s.procs a r with
    | none => .error .misuse
    | some p =>
      if received s a r m then
        send node { s with ops := s.ops + 1 } a r p
          { m.hwReverse.swReverse with kind := .smsg, sendCq := lcq, needsAck := decide (lcq ≠ noAck), recvCq := rcq, op := s.ops }
      else .error .misuse
  -- sim_transport.cc:487-499
  | .putResp a r m lcq rcq =>
    match s.procs a r with
    | none => .error .misuse
    | some p =>
      if received s a r m then
        send node { s with ops := s.ops + 1 } a r p
          { m.swReverse.hwReverse with kind := .putPay, sendCq := lcq, needsAck := decide (lcq ≠ noAck), recvCq := rcq, op := s.ops }
      else .error .misuse
  -- `rdmaGetRequestResponse`, sim_transport.cc:466-479
  | .getResp a r m lcq rcq =>
    match s.procs a r with
    | none => .error .misuse
    | some p =>
      if received s a r m then
        send node { s with ops := s.ops + 1 } a r p
          { m.hwReverse with kind := .getReq, sendCq := rcq, needsAck := decide (rcq ≠ noAck), recvCq := lcq, op := s.ops }
      else .error .misuse
  -- `NIC::recvMessage`, nic.cc:194-241, and `NIC::sendToNode`: a get request becomes the payload, everything else goes to the server
  | .arrive i =>
    match s.net[i]? with
    | none => .error .misuse
    | some (n, m) =>
      let s' := { s with net := s.net.eraseIdx i }
      if m.kind = .getReq then
        let m' := m.toPayload
        .ok { s' with net := s'.net ++ (if m'.wantsAck then [(n, m'.ack)] else []) ++ [(m'.toNode, m')] }
      else server node s' n m

/-- A run. -/
def run (node : Nat → Nat → Nat) (s : St) : List Op → Except Fail St
  | [] => .ok s
  | op :: ops =>
    match step node s op with
    | .error e => .error e
    | .ok s' => run node s' ops

end SST.Sumi.Tp
