import Verif.Nic.RecvCq
/-
The network interface over the Merlin network (sstmac/hardware/merlin/merlin_nic.cc): messages wait
in a queue for each virtual network, are cut into packets of at most `mtu` bytes while the link has
room, and are acknowledged to the node when the link reports the packet that carried them.
-/
set_option autoImplicit false
namespace SST.Nic.Merlin

/-- What the interface reads of a `NetworkMessage` (sstmac/hardware/network/network_message.h:57-260):
`flowId()`, `byteLength()` and `needsAck()`. -/
structure Msg where
  fid : Nat
  len : Nat
  ack : Bool
deriving DecidableEq, Repr

/-- A request handed to the link (merlin_nic.cc:294-313): `flow_id`, `head`, `tail`, `size_in_bits`
and the payload. The addresses and the start time are not modelled. -/
structure Req where
  fid : Nat
  head : Bool
  tail : Bool
  bits : Nat
  payload : Option Msg
deriving DecidableEq, Repr

/-- `Pending`, merlin_nic.cc:250-258. -/
structure Pend where
  msg : Msg
  left : Nat
deriving DecidableEq, Repr

/-- One virtual network of the interface: `pending_[vn]`, `ack_queue_[vn]` (merlin_nic.cc:326-327,
a null pointer is `none`), the requests handed to the link, and the messages whose injection has
been acknowledged to the node. -/
structure Vn where
  pending : List Pend
  acks : List (Option Msg)
  sent : List Req
  told : List Msg
deriving DecidableEq, Repr

/-- `mtu_` is a `uint32_t` set from a rounded 64-bit value, merlin_nic.cc:146, 328. -/
def mtuOf (v : Nat) : Nat := v % 4294967296

/-- `next_bytes`, merlin_nic.cc:287, 318. -/
def nextBytes (mtu left : Nat) : Nat := min mtu left

/-- `next_bits`, a `uint32_t`, merlin_nic.cc:288, 319. -/
def nextBits (mtu left : Nat) : Nat := (nextBytes mtu left * 8) % 4294967296

/-- The request for the next packet of a pending message, merlin_nic.cc:290-312. -/
def request (mtu : Nat) (p : Pend) : Req :=
  let left := p.left - nextBytes mtu p.left
  { fid := p.msg.fid, head := p.left == p.msg.len, tail := left == 0, bits := nextBits mtu p.left, payload := if left = 0 then some p.msg else none }

/-- What is pushed to `ack_queue_` with it, merlin_nic.cc:296-305. -/
def ackOf (mtu : Nat) (p : Pend) : Option Msg :=
  if p.left - nextBytes mtu p.left = 0 then (if p.msg.ack then some p.msg else none) else none

/-- `sendWhatYouCan(vn, p)`, merlin_nic.cc:286-322. The answers of `spaceToSend` are a parameter; when
the list ends the answer is no. The results: whether the message is done, the pending message, the
virtual network and the answers not asked for. -/
def sendOne (mtu : Nat) (s : Vn) (p : Pend) : List Bool → Bool × Pend × Vn × List Bool
  | [] => (false, p, s, [])
  | false :: sp => (false, p, s, sp)
  | true :: sp =>
    let p' : Pend := { p with left := p.left - nextBytes mtu p.left }
    let s' : Vn := { s with acks := s.acks ++ [ackOf mtu p], sent := s.sent ++ [request mtu p] }
    if nextBytes mtu p'.left = 0 then (true, p', s', sp) else sendOne mtu s' p' sp

/-- `sendWhatYouCan(vn)`, merlin_nic.cc:273-284, for the queue of pending messages given. -/
def sendAll (mtu : Nat) (s : Vn) : List Pend → List Bool → Vn
  | [], _ => { s with pending := [] }
  | p :: ps, sp =>
    match sendOne mtu s p sp with
    | (true, _, s', sp') => sendAll mtu s' ps sp'
    | (false, p', s', _) => { s' with pending := p' :: ps }

/-- What happens to a virtual network: a message is injected (`doSend`, `sendManagerMsg`), or the link
reports that a packet has left. Each comes with the answers of `spaceToSend` from then on. -/
inductive Ev where
  | inject (m : Msg) (space : List Bool)
  | credit (space : List Bool)
deriving DecidableEq, Repr

/-- `inject`, merlin_nic.cc:260-267, and `incomingCredit`, merlin_nic.cc:199-207: `front` of an empty
queue is undefined (`none`). -/
def step (mtu : Nat) (s : Vn) : Ev → Option Vn
  | .inject m sp => some (sendAll mtu s (s.pending ++ [⟨m, m.len⟩]) sp)
  | .credit sp =>
    match s.acks with
    | [] => none
    | a :: r => some (sendAll mtu { s with acks := r, told := s.told ++ a.toList } s.pending sp)

/-- A virtual network after the constructor, merlin_nic.cc:144-145. -/
def vn0 : Vn := ⟨[], [], [], []⟩

/-- A history of one virtual network. -/
def run (mtu : Nat) : Vn → List Ev → Option Vn
  | s, [] => some s
  | s, e :: es => (step mtu s e).bind (fun s' => run mtu s' es)

/-- What `incomingPacket` gives to the completion queue, merlin_nic.cc:213-216. -/
def toPacket (r : Req) : Packet := ⟨r.fid, r.bits / 8, r.payload.map (fun m => ⟨m.fid, m.len⟩)⟩

end SST.Nic.Merlin
