/-
The receive completion queue (sstmac/hardware/common/recv_cq.h, recv_cq.cc): it collects the
packets of the messages that are on their way to a node and hands up each message when it is
complete.
-/
set_option autoImplicit false
namespace SST.Nic

/-- A message as the network sees it (`Flow`, sstmac/hardware/common/flow.h): its identifier
`flowId()` and its length `byteLength()`. Two `Flow` pointers are equal when these are. -/
structure Flow where
  id : Nat
  len : Nat
deriving DecidableEq, Repr

/-- What the queue sees of a packet (sstmac/hardware/common/packet.h:55-187): `flowId()`,
`byteLength()` (`uint32_t`) and `flow()`, which only one packet of a message carries. -/
structure Packet where
  fid : Nat
  bytes : Nat
  payload : Option Flow
deriving DecidableEq, Repr

/-- `RecvCQ::incomingMsg`, recv_cq.h:78-88. -/
structure Incoming where
  msg : Option Flow
  arrived : Nat
  total : Nat
deriving DecidableEq, Repr

/-- `bytes_recved_`, recv_cq.h:97: a map from flow identifiers. -/
abbrev Cq := Nat → Option Incoming

/-- A packet that carries the message sets it and its length, recv_cq.cc:85-89. -/
def Incoming.note (inc : Incoming) : Option Flow → Incoming
  | some f => ⟨some f, inc.arrived, f.len⟩
  | none => inc

/-- `RecvCQ::recv`, recv_cq.cc:74-98. `bytes_arrived` is a `uint64_t`. The result `some none`
means that the queue takes the entry for complete but has no message: the caller gets a null
pointer, as it does when the message is not complete (`none`). The check under
SSTMAC_SANITY_CHECK is not modelled. -/
def recv (q : Cq) (p : Packet) : Cq × Option (Option Flow) :=
  let inc := ((q p.fid).getD ⟨none, 0, 0⟩).note p.payload
  let inc := { inc with arrived := (inc.arrived + p.bytes) % 18446744073709551616 }
  if inc.arrived = inc.total then (fun i => if i = p.fid then none else q i, some inc.msg)
  else (fun i => if i = p.fid then some inc else q i, none)

/-- The empty queue. -/
def cq0 : Cq := fun _ => none

/-- All packets of a list, one after the other; the messages handed up. -/
def recvAll (q : Cq) : List Packet → Cq × List Flow
  | [] => (q, [])
  | p :: ps =>
    let r := recv q p
    let s := recvAll r.1 ps
    (s.1, (match r.2 with | some (some f) => [f] | _ => []) ++ s.2)

end SST.Nic
