import Verif.Nic.RecvCq
/-
How the network interfaces cut messages into packets.

* `PiscesNIC` (sstmac/hardware/pisces/pisces_nic.cc): a message is cut while the injection buffer has
  credits; what is left waits in `pending_inject_` until credits come back.
* `SnapprNIC` (sstmac/hardware/snappr/snappr_nic.cc): messages wait in an injection queue, of which
  there are several kinds, and are cut while there is room in the buffer of the interface.
-/
set_option autoImplicit false
namespace SST.Nic

/-! ### PiscesNIC -/

/-- The packet `PiscesNIC::inject` makes at offset `off`, pisces_nic.cc:144-149: only the tail carries
the message. -/
def cutAt (mtu : Nat) (f : Flow) (off : Nat) : Packet :=
  let bytes := min mtu (f.len - off)
  ⟨f.id, bytes, if off + bytes = f.len then some f else none⟩

/-- `PiscesNIC::inject`, pisces_nic.cc:137-171: the packets sent, the new offset and the credits
left. `spaceToSend` is pisces_buffer.h:75-77, the credits are taken in `sendPayload`. The loop of the
code does not end for an MTU of zero or an offset beyond the end of the message: the guard `0 < mtu ∧
off < f.len` leaves these two cases out. Acknowledgements and times are not modelled. -/
def inject (mtu : Nat) (f : Flow) (off : Nat) (cr : Int) : List Packet × Nat × Int :=
  if (mtu : Int) ≤ cr then
    let p := cutAt mtu f off
    if off + p.bytes = f.len then ([p], f.len, cr - p.bytes)
    else if _h : 0 < mtu ∧ off < f.len then
      let r := inject mtu f (off + (cutAt mtu f off).bytes) (cr - p.bytes)
      (p :: r.1, r.2)
    else ([], off, cr)
  else ([], off, cr)
termination_by f.len - off
decreasing_by
  unfold cutAt
  simp only
  omega

/-- The state of a `PiscesNIC`: `inj_buffer_`'s credits on the only virtual channel and
`pending_inject_[0]`. -/
structure PNic where
  cr : Int
  pend : List (Nat × Flow)
deriving DecidableEq, Repr

/-- `PiscesNIC::doSend`, pisces_nic.cc:173-183. -/
def PNic.doSend (mtu : Nat) (s : PNic) (f : Flow) : PNic × List Packet :=
  let r := inject mtu f 0 s.cr
  (⟨r.2.2, if r.2.1 < f.len then s.pend ++ [(r.2.1, f)] else s.pend⟩, r.1)

/-- The loop of `PiscesNIC::packetSent`, pisces_nic.cc:204-215. -/
def drain (mtu : Nat) (cr : Int) : List (Nat × Flow) → PNic × List Packet
  | [] => (⟨cr, []⟩, [])
  | (off, f) :: rest =>
    let r := inject mtu f off cr
    if r.2.1 = f.len then
      let d := drain mtu r.2.2 rest
      (d.1, r.1 ++ d.2)
    else (⟨r.2.2, (r.2.1, f) :: rest⟩, r.1)

/-- `PiscesNIC::packetSent`, pisces_nic.cc:198-216. `handleCredit` adds the credits; the queue of the
injection buffer itself is empty, because `inject` only sends what fits. -/
def PNic.packetSent (mtu : Nat) (s : PNic) (n : Nat) : PNic × List Packet := drain mtu (s.cr + n) s.pend

/-- What happens to a network interface: a message to send, or credits that come back. -/
inductive NicEv
  | send (f : Flow)
  | credit (n : Nat)
deriving DecidableEq, Repr

/-- One event on a `PiscesNIC`. -/
def PNic.step (mtu : Nat) (s : PNic) : NicEv → PNic × List Packet
  | .send f => s.doSend mtu f
  | .credit n => s.packetSent mtu n

/-- Any history of events; all the packets sent. -/
def PNic.run (mtu : Nat) (s : PNic) : List NicEv → PNic × List Packet
  | [] => (s, [])
  | e :: es =>
    let r := s.step mtu e
    let t := PNic.run mtu r.1 es
    (t.1, r.2 ++ t.2)

/-! ### Injection queues of SnapprNIC -/

/-- `SnapprNIC::InjectionQueue`, snappr_nic.h: the operations. `contents` is not in the code: it lists
what is in the queue, from the top on, and gives a bound for the loop of `copyToNicBuffer`. -/
structure InjQ (σ : Type) where
  empty : σ → Bool
  top : σ → Nat × Flow
  pop : σ → σ
  adjustTop : σ → Nat → σ
  insert : σ → Nat → Flow → σ
  contents : σ → List (Nat × Flow)

/-- A value for reads the code leaves undefined (`front()` of an empty queue) or initialises by
default (a fresh slot). -/
def noMsg : Nat × Flow := (0, ⟨0, 0⟩)

/-- `FIFOQueue`, snappr_nic.cc:411-445, a `std::queue`. -/
def fifoQ : InjQ (List (Nat × Flow)) where
  empty q := q.isEmpty
  top q := q.headD noMsg
  pop q := q.tail
  adjustTop q off := match q with | [] => [] | (_, f) :: r => (off, f) :: r
  insert q off f := q ++ [(off, f)]
  contents q := q

/-- The state of a `RoundRobinQueue`, snappr_nic.cc:535-538. -/
structure Ring where
  begin_ : Nat
  end_ : Nat
  slots : List (Nat × Flow)
deriving DecidableEq, Repr

/-- `begin_++` or `end_++` with the wrap around, snappr_nic.cc:511-514, 529-532. -/
def Ring.next (r : Ring) (i : Nat) : Nat := if i + 1 = r.slots.length then 0 else i + 1

/-- `RoundRobinQueue::pop`, snappr_nic.cc:510-515. -/
def Ring.pop (r : Ring) : Ring := { r with begin_ := r.next r.begin_ }

/-- `RoundRobinQueue::insert`, snappr_nic.cc:527-533. There is no test for a full queue. -/
def Ring.insert (r : Ring) (off : Nat) (f : Flow) : Ring :=
  { r with slots := r.slots.set r.end_ (off, f), end_ := r.next r.end_ }

/-- The queue read from `begin_` on, `n` slots. -/
def Ring.read (r : Ring) : Nat → Nat → List (Nat × Flow)
  | _, 0 => []
  | i, n + 1 => r.slots.getD i noMsg :: r.read (r.next i) n

/-- The number of messages in the queue. -/
def Ring.count (r : Ring) : Nat := if r.begin_ ≤ r.end_ then r.end_ - r.begin_ else r.end_ + r.slots.length - r.begin_

/-- `RoundRobinQueue`, snappr_nic.cc:493-540. -/
def ringQ : InjQ Ring where
  empty r := r.begin_ == r.end_
  top r := r.slots.getD r.begin_ noMsg
  pop r := r.pop
  adjustTop r off := (r.insert off (r.slots.getD r.begin_ noMsg).2).pop
  insert r off f := r.insert off f
  contents r := r.read r.begin_ r.count

/-- A `RoundRobinQueue` with `n` slots; the constructor makes 1024, snappr_nic.cc:503-504. -/
def ring0 (n : Nat) : Ring := ⟨0, 0, List.replicate n noMsg⟩

/-- The state of a `PriorityFIFOQueue`, snappr_nic.cc:487-488; the priority queue as a list whose head
is the largest. -/
structure Prio where
  queues : List (List (Nat × Flow))
  ready : List Nat
deriving DecidableEq, Repr

/-- `PriorityFIFOQueue`, snappr_nic.cc:447-490, with `qos` the level of each message. -/
def prioQ (qos : Flow → Nat) : InjQ Prio where
  empty p := p.ready.isEmpty
  top p := (p.queues.getD (p.ready.headD 0) []).headD noMsg
  pop p :=
    let i := p.ready.headD 0
    let q := (p.queues.getD i []).tail
    ⟨p.queues.set i q, if q.isEmpty then p.ready.tail else p.ready⟩
  adjustTop p off :=
    let i := p.ready.headD 0
    ⟨p.queues.set i (fifoQ.adjustTop (p.queues.getD i []) off), p.ready⟩
  insert p off f := ⟨p.queues.set (qos f) (p.queues.getD (qos f) [] ++ [(off, f)]), p.ready⟩
  contents p := p.queues.flatten

/-! ### SnapprNIC -/

/-- The state of a `SnapprNIC`: `inject_queue_` and `buffer_remaining_` (`uint64_t`; it never exceeds
its initial value, so no overflow is modelled). -/
structure SNic (σ : Type) where
  q : σ
  buf : Nat
deriving DecidableEq, Repr

variable {σ : Type}

/-- One turn of the loop of `SnapprNIC::copyToNicBuffer`, snappr_nic.cc:220-254, with `injectPacket`,
snappr_nic.cc:371-387: the packet made, or `none` if the loop ends. The way through the memory model
(`ignore_memory_` false), which delays `injectPacket`, makes the same packet. -/
def copyStep (Q : InjQ σ) (fc : Bool) (mtu : Nat) (s : SNic σ) : Option (SNic σ × Packet) :=
  if Q.empty s.q then none
  else
    let t := Q.top s.q
    let left := t.2.len - t.1
    let size := min left mtu
    if size ≤ s.buf then
      let p : Packet := ⟨t.2.id, size, if left = size then some t.2 else none⟩
      let buf := if fc then s.buf - size else s.buf
      if size = left then some (⟨Q.pop s.q, buf⟩, p)
      else some (⟨Q.adjustTop s.q (t.1 + size), buf⟩, p)
    else none

/-- The loop, at most `n` turns. -/
def copyLoop (Q : InjQ σ) (fc : Bool) (mtu : Nat) : Nat → SNic σ → SNic σ × List Packet
  | 0, s => (s, [])
  | n + 1, s =>
    match copyStep Q fc mtu s with
    | none => (s, [])
    | some (s', p) =>
      let r := copyLoop Q fc mtu n s'
      (r.1, p :: r.2)

/-- A number of turns after which the loop has ended, if the MTU is not zero: one for each message and
each byte. -/
def turns (q : List (Nat × Flow)) : Nat := (q.map fun e => e.2.len - e.1 + 1).sum

/-- `SnapprNIC::copyToNicBuffer`, snappr_nic.cc:217-255. -/
def copyToNicBuffer (Q : InjQ σ) (fc : Bool) (mtu : Nat) (s : SNic σ) : SNic σ × List Packet :=
  copyLoop Q fc mtu (turns (Q.contents s.q)) s

/-- `SnapprNIC::doSend`, snappr_nic.cc:257-265, and the part of `handleCredit` that concerns the
injection queue, snappr_nic.cc:342-349. -/
def SNic.step (Q : InjQ σ) (fc : Bool) (mtu : Nat) (s : SNic σ) : NicEv → SNic σ × List Packet
  | .send f => copyToNicBuffer Q fc mtu { s with q := Q.insert s.q 0 f }
  | .credit n => copyToNicBuffer Q fc mtu { s with buf := s.buf + n }

/-- Any history of events; all the packets made. -/
def SNic.run (Q : InjQ σ) (fc : Bool) (mtu : Nat) (s : SNic σ) : List NicEv → SNic σ × List Packet
  | [] => (s, [])
  | e :: es =>
    let r := s.step Q fc mtu e
    let t := SNic.run Q fc mtu r.1 es
    (t.1, r.2 ++ t.2)

end SST.Nic
