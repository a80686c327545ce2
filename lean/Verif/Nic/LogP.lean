set_option autoImplicit false
/-
Model of the LogP network: sstmac/hardware/logp/logp_nic.cc, logp_switch.cc and the choice
of path in sstmac/hardware/nic/nic.cc:308-345.

Times are whole numbers of ticks that do not overflow.  Delays per byte times a number of
bytes are exact (the code multiplies by a double and truncates).
-/
namespace SST.Nic.LogP

/-- The parameters, logp_nic.cc:58-68, logp_switch.cc:67-90, nic.cc:105: injection latency and
time per byte of a NIC, time per byte, per hop and from switch to NIC of the network, the
negligible size, and the number of hops between two nodes. -/
structure Cfg where
  injLat : Nat
  injByte : Nat
  netByte : Nat
  hopLat : Nat
  outIn : Nat
  negligible : Nat
  hops : Nat → Nat → Nat

/-- A message between two nodes, with an identifier. -/
structure Msg where
  id : Nat
  src : Nat
  dst : Nat
  bytes : Nat
deriving DecidableEq

/-- `next_out_free_` and `next_in_free_` of a NIC, logp_nic.h:108-110. -/
structure Nic where
  outFree : Nat := 0
  inFree : Nat := 0

/-- `LogPNIC::doSend`, logp_nic.cc:95-116: when the message leaves, and when its injection
ends (also the time of the acknowledgement). -/
def doSend (c : Cfg) (now bytes : Nat) (n : Nic) : Nat × Nat × Nic :=
  let start := if now > n.outFree then now else n.outFree
  let stop := start + (c.injLat + c.injByte * bytes)
  (start, stop, { n with outFree := stop })

/-- `NIC::internodeSend`, nic.cc:308-329: messages up to the negligible size go directly to the
network (`sendManagerMsg`, nic.cc:331-345), with an acknowledgement at once. -/
def internodeSend (c : Cfg) (now bytes : Nat) (n : Nic) : Nat × Nat × Nic :=
  if bytes ≤ c.negligible then (now, now, n) else doSend c now bytes n

/-- `LogPSwitch::send`, logp_switch.cc:123-158, and the link to the NIC
(interconnect.cc:376-396): the time of arrival of a message that reaches the switch at `start`.
`extra` is the delay added by the random or contention model. -/
def arrival (c : Cfg) (start extra : Nat) (m : Msg) : Nat :=
  start + (extra + c.netByte * m.bytes + c.hops m.src m.dst * c.hopLat) + c.outIn

/-- `now_ - time_to_recv`, timestamp.h:303-313: if the difference is not positive the result is
in epoch 2^64-1, later than every time (`none`). -/
def recvStart (now t : Nat) : Option Nat := if now > t then some (now - t) else none

/-- `recv_start > next_in_free_`, logp_nic.cc:85. -/
def later (a : Option Nat) (b : Nat) : Bool :=
  match a with
  | none => true
  | some x => decide (x > b)

/-- `LogPNIC::mtlHandle`, logp_nic.cc:73-92: when the message is given to the node. -/
def recv (c : Cfg) (now bytes : Nat) (n : Nic) : Nat × Nic :=
  if bytes < c.negligible then (now, n)
  else
    let t := c.injByte * bytes
    if later (recvStart now t) n.inFree then (now, { n with inFree := now })
    else (n.inFree + t, { n with inFree := n.inFree + t })

/-- What happened to one message on the sending side: the call, when it left, when its
injection ended, the extra delay and the arrival. -/
structure Rec where
  msg : Msg
  call : Nat
  start : Nat
  stop : Nat
  extra : Nat
  arr : Nat
deriving DecidableEq

/-- The network: time, NICs, messages sent so far, messages on their way, messages received
with the time they were given to the node. -/
structure Net where
  now : Nat := 0
  nics : Nat → Nic := fun _ => {}
  sent : List Rec := []
  wire : List Rec := []
  got : List (Rec × Nat) := []

/-- Change one NIC. -/
def Net.setNic (s : Net) (i : Nat) (n : Nic) : Net := { s with nics := fun j => if j = i then n else s.nics j }

/-- A node sends a message. -/
def Net.send (c : Cfg) (s : Net) (m : Msg) (extra : Nat) : Net :=
  let (start, stop, n) := internodeSend c s.now m.bytes (s.nics m.src)
  let r : Rec := ⟨m, s.now, start, stop, extra, arrival c start extra m⟩
  let s := s.setNic m.src n
  { s with sent := s.sent ++ [r], wire := s.wire ++ [r] }

/-- A message reaches its NIC. -/
def Net.arrive (c : Cfg) (s : Net) (r : Rec) : Net :=
  let (d, n) := recv c r.arr r.msg.bytes (s.nics r.msg.dst)
  let s := s.setNic r.msg.dst n
  { s with now := r.arr, wire := s.wire.erase r, got := s.got ++ [(r, d)] }

/-- Steps of the network, in any order that respects time: time passes up to the next arrival,
a node sends at the current time with any extra delay, or the next message arrives.  Messages
that arrive at the same time arrive in any order. -/
inductive Step (c : Cfg) : Net → Net → Prop
  | wait (s : Net) (t : Nat) (h : s.now ≤ t) (hw : ∀ r ∈ s.wire, t ≤ r.arr) : Step c s { s with now := t }
  | send (s : Net) (m : Msg) (extra : Nat) (h : m.src ≠ m.dst) : Step c s (s.send c m extra)
  | arrive (s : Net) (r : Rec) (h : r ∈ s.wire) (hw : ∀ r' ∈ s.wire, r.arr ≤ r'.arr) : Step c s (s.arrive c r)

/-- The states that can be reached. -/
inductive Reach (c : Cfg) : Net → Prop
  | init : Reach c {}
  | step {s s' : Net} (h : Reach c s) (hs : Step c s s') : Reach c s'

/-- `SlidingContentionModel::xorshift64`, logp_switch.cc:204-212. -/
def xorshift64 (x : BitVec 64) : BitVec 64 :=
  let x := x ^^^ (x <<< 13)
  let x := x ^^^ (x >>> 7)
  x ^^^ (x <<< 17)

/-- The loop of `SlidingContentionModel::value`, logp_switch.cc:194-198, over the cutoffs from
the last to the first; `i` is the number of cutoffs left. -/
def contentionLoop (num : Int) : List Int → Nat
  | [] => 0
  | c :: below => if num > c then below.length + 1 else contentionLoop num below

/-- `SlidingContentionModel::value`, logp_switch.cc:192-200: the level of contention, from the
cutoffs in the order of the parameter.  The state is advanced first; `range` is positive. -/
def contention (range : Nat) (cutoffs : List Int) (state : BitVec 64) : Nat × BitVec 64 :=
  let x := xorshift64 state
  (contentionLoop ((x.toNat % range : Nat) : Int) cutoffs.reverse, x)

/-- The extra delay of the contention model, logp_switch.cc:138-141. -/
def contentionDelay (c : Cfg) (m : Msg) (level : Nat) : Nat := m.bytes * c.netByte * level

end SST.Nic.LogP
