/-
Output ports of the snappr network model (sstmac/hardware/snappr/snappr_outport.h, snappr_outport.cc):
the port, and the two arbitrators that decide which waiting packet goes next.

Times and cycles are ticks. Ticks and credits are natural numbers here: overflow of the 64-bit ticks
and of the 32-bit credits is not modelled.
-/
set_option autoImplicit false
namespace SST.Snappr

/-- What a port sees of a packet (`SnapprPacket`, snappr.h:62-190): an identity, `numBytes()` and
`virtualLane()`. -/
structure Pkt where
  id : Nat
  bytes : Nat
  vl : Nat
deriving DecidableEq, Repr

/-- `SnapprPortArbitrator`, snappr_outport.h:57-79: the operations on the packets of a port. `pop` is
`none` where the code reads the front of an empty queue. -/
structure Arb (σ : Type) where
  insert : σ → Nat → Pkt → σ
  addCredits : σ → Nat → Nat → σ
  pop : σ → Nat → Option (σ × Pkt)
  empty : σ → Bool

/-! ### First come first served -/

/-- `FifoPortArbitrator::VirtualLane`, snappr_outport.cc:354-359 (without `occupancy`, which is never
read). -/
structure Lane where
  credits : Nat
  pending : List Pkt
deriving DecidableEq, Repr

/-- The state of a `FifoPortArbitrator`: `vls_` and `port_queue_`, snappr_outport.cc:463-465. -/
structure Fifo where
  lanes : Nat → Lane
  queue : List Pkt

/-- Replace one entry. -/
def setAt {α : Type} (f : Nat → α) (i : Nat) (a : α) : Nat → α := fun j => if j = i then a else f j

/-- `FifoPortArbitrator::insert`, snappr_outport.cc:372-391. -/
def Fifo.insert (s : Fifo) (p : Pkt) : Fifo :=
  let v := s.lanes p.vl
  if p.bytes ≤ v.credits then ⟨setAt s.lanes p.vl { v with credits := v.credits - p.bytes }, s.queue ++ [p]⟩
  else ⟨setAt s.lanes p.vl { v with pending := v.pending ++ [p] }, s.queue⟩

/-- The loop of `FifoPortArbitrator::addCredits`, snappr_outport.cc:442-449: the credits left, the
packets still waiting and those that go to the port queue. -/
def drain (c : Nat) : List Pkt → Nat × List Pkt × List Pkt
  | [] => (c, [], [])
  | p :: ps =>
    if p.bytes ≤ c then
      let r := drain (c - p.bytes) ps
      (r.1, r.2.1, p :: r.2.2)
    else (c, p :: ps, [])

/-- `FifoPortArbitrator::addCredits`, snappr_outport.cc:437-450. -/
def Fifo.addCredits (s : Fifo) (vl n : Nat) : Fifo :=
  let v := s.lanes vl
  let r := drain (v.credits + n) v.pending
  ⟨setAt s.lanes vl ⟨r.1, r.2.1⟩, s.queue ++ r.2.2⟩

/-- `FifoPortArbitrator`, snappr_outport.cc:352-466. -/
def fifo : Arb Fifo where
  insert s _ p := s.insert p
  addCredits s vl n := s.addCredits vl n
  pop s _ := match s.queue with | [] => none | p :: q => some ({ s with queue := q }, p)
  empty s := s.queue.isEmpty

/-- `FifoPortArbitrator::setVirtualLanes`, snappr_outport.cc:426-431. -/
def fifo0 (credits : Nat → Nat) : Fifo := ⟨fun v => ⟨credits v, []⟩, []⟩

/-! ### Weighted round robin -/

/-- `SelectionType`, snappr_outport.cc:473-477. -/
inductive Sel
  | min
  | max
  | none
deriving DecidableEq, Repr

/-- `WRR_PortArbitrator::VirtualLane`, snappr_outport.cc:471-527. -/
structure WLane where
  sel : Sel
  byteDelay : Nat
  prio : Int
  stalled : Bool
  nextFree : Nat
  credits : Nat
  pending : List Pkt
deriving DecidableEq, Repr

/-- The state of a `WRR_PortArbitrator`, snappr_outport.cc:536-555: the lanes, and the lanes in
`port_queue_` and in `bw_cap_queue_`, by number. -/
structure Wrr where
  lanes : Nat → WLane
  portQ : List Nat
  capQ : List Nat

/-- The part of `insert` that puts a lane with enough credits up for arbitration, snappr_outport.cc:697-742. The
aborts for too few credits cannot happen, as `insert` has just compared. -/
def Wrr.admit (s : Wrr) (cycle : Nat) (p : Pkt) : Wrr :=
  let v := s.lanes p.vl
  match v.sel with
  | .none => ⟨setAt s.lanes p.vl { v with nextFree := 18446744073709551615, credits := v.credits - p.bytes }, s.portQ ++ [p.vl], s.capQ⟩
  | .min => ⟨setAt s.lanes p.vl { v with nextFree := cycle + p.bytes * v.byteDelay, credits := v.credits - p.bytes }, s.portQ ++ [p.vl], s.capQ⟩
  | .max =>
    if cycle < v.nextFree then ⟨setAt s.lanes p.vl { v with credits := v.credits - p.bytes }, s.portQ, s.capQ ++ [p.vl]⟩
    else ⟨setAt s.lanes p.vl { v with nextFree := cycle, credits := v.credits - p.bytes }, s.portQ ++ [p.vl], s.capQ⟩

/-- `v.pending.push(pkt)`. -/
def Wrr.push (s : Wrr) (p : Pkt) : Wrr :=
  { s with lanes := setAt s.lanes p.vl { (s.lanes p.vl) with pending := (s.lanes p.vl).pending ++ [p] } }

/-- `WRR_PortArbitrator::insert`, snappr_outport.cc:744-774. -/
def Wrr.insert (s : Wrr) (cycle : Nat) (p : Pkt) : Wrr :=
  let v := s.lanes p.vl
  if v.pending.isEmpty then
    if p.bytes ≤ v.credits then (s.admit cycle p).push p
    else Wrr.push { s with lanes := setAt s.lanes p.vl { v with stalled := true } } p
  else s.push p

/-- `popNextNoQos`, `popNextBandwidthMax`, `popNextBandwidthMin`, snappr_outport.cc:776-786, 809-844, for
a lane whose next packet is `p`. -/
def Wrr.popNext (s : Wrr) (cycle vl : Nat) (p : Pkt) : Wrr :=
  let v := s.lanes vl
  if p.bytes ≤ v.credits then
    match v.sel with
    | .none => ⟨setAt s.lanes vl { v with nextFree := cycle, credits := v.credits - p.bytes }, s.portQ ++ [vl], s.capQ⟩
    | .max => ⟨setAt s.lanes vl { v with credits := v.credits - p.bytes }, s.portQ, s.capQ ++ [vl]⟩
    | .min => ⟨setAt s.lanes vl { v with nextFree := cycle + p.bytes * v.byteDelay, credits := v.credits - p.bytes }, s.portQ ++ [vl], s.capQ⟩
  else
    match v.sel with
    | .min => { s with lanes := setAt s.lanes vl { v with stalled := true, nextFree := cycle + p.bytes * v.byteDelay } }
    | _ => { s with lanes := setAt s.lanes vl { v with stalled := true } }

/-- `advanceBandwidthMax`, snappr_outport.cc:788-807: the new `next_free`. -/
def advanceMax (linkByteDelay cycle nextFree bytes byteDelay : Nat) : Nat :=
  let deficit := if nextFree < cycle then cycle - nextFree else 0
  let normal := bytes * byteDelay
  if normal ≤ deficit then cycle + bytes * linkByteDelay
  else cycle + bytes * linkByteDelay + normal - deficit

/-- `WRR_PortArbitrator::pop`, snappr_outport.cc:846-904. The capped lanes whose time has come move to
the port queue; the packet comes from the port queue, or if that is empty from the capped lanes.
`choose` stands for `top()` of the two priority queues, which takes a lane of the highest priority
(port queue: `priority`, then the earliest `next_free`; capped lanes: the earliest `next_free`); how
ties are broken is up to the library, and nothing proved here depends on it. -/
def Wrr.pop (choose : (Nat → WLane) → List Nat → Nat) (linkByteDelay : Nat) (s : Wrr) (cycle : Nat) : Option (Wrr × Pkt) :=
  let due := s.capQ.filter fun v => decide ((s.lanes v).nextFree ≤ cycle)
  let capQ := s.capQ.filter fun v => !decide ((s.lanes v).nextFree ≤ cycle)
  let portQ := s.portQ ++ due
  if portQ.isEmpty ∧ capQ.isEmpty then none
  else
    let vl := if portQ.isEmpty then choose s.lanes capQ else choose s.lanes portQ
    let s1 : Wrr := if portQ.isEmpty then ⟨s.lanes, [], capQ.erase vl⟩ else ⟨s.lanes, portQ.erase vl, capQ⟩
    let v := s.lanes vl
    match v.pending with
    | [] => none
    | p :: ps =>
      let v1 := if v.sel = .max then { v with pending := ps, nextFree := advanceMax linkByteDelay cycle v.nextFree p.bytes v.byteDelay }
        else { v with pending := ps }
      let s2 : Wrr := { s1 with lanes := setAt s1.lanes vl v1 }
      match ps with
      | [] => some (s2, p)
      | q :: _ => some (s2.popNext cycle vl q, p)

/-- `WRR_PortArbitrator::addCredits` with the three `unstall` functions, snappr_outport.cc:912-963. -/
def Wrr.addCredits (s : Wrr) (vl n : Nat) : Wrr :=
  let v := s.lanes vl
  let c := v.credits + n
  if v.stalled then
    match v.pending with
    | [] => { s with lanes := setAt s.lanes vl { v with credits := c } }
    | p :: _ =>
      if p.bytes ≤ c then
        let lanes := setAt s.lanes vl { v with credits := c - p.bytes, stalled := false }
        if v.sel = .max then ⟨lanes, s.portQ, s.capQ ++ [vl]⟩ else ⟨lanes, s.portQ ++ [vl], s.capQ⟩
      else { s with lanes := setAt s.lanes vl { v with credits := c } }
  else { s with lanes := setAt s.lanes vl { v with credits := c } }

/-- `WRR_PortArbitrator`, snappr_outport.cc:468-968. -/
def wrr (choose : (Nat → WLane) → List Nat → Nat) (linkByteDelay : Nat) : Arb Wrr where
  insert s c p := s.insert c p
  addCredits s vl n := s.addCredits vl n
  pop s c := s.pop choose linkByteDelay c
  empty s := s.portQ.isEmpty && s.capQ.isEmpty

/-- A `WRR_PortArbitrator` after `setVirtualLanes`, snappr_outport.cc:631-658, 671-679; the byte delays,
which the code computes from weights in floating point, are given. -/
def wrr0 (sel : Nat → Sel) (byteDelay : Nat → Nat) (prio : Nat → Int) (credits : Nat → Nat) : Wrr :=
  ⟨fun v => ⟨sel v, byteDelay v, prio v, false, 0, credits v, []⟩, [], []⟩

/-! ### The port -/

/-- `SnapprOutPort`, snappr_outport.h:127-237: the arbitrator, `total_packets_`, the time of the
scheduled arbitration (`arbitration_scheduled`), `next_free` and `stall_start` (zero is "empty"). The
last three are the totals of `xmit_active`, `xmit_idle` and `xmit_stall`. -/
structure Port (σ : Type) where
  arb : σ
  total : Nat
  sched : Option Nat
  nextFree : Nat
  stall : Nat
  active : Nat
  idle : Nat
  stalled : Nat

/-- The parameters of a port: the arbitrator, `byte_delay`, `flit_overhead` and `flow_control_`. -/
structure PCfg (σ : Type) where
  A : Arb σ
  byteDelay : Nat
  flit : Nat
  fc : Bool

/-- A packet put on the link at time `start`. -/
structure Sent where
  start : Nat
  pkt : Pkt
deriving DecidableEq, Repr

variable {σ : Type}

/-- `SnapprOutPort::scheduleArbitration`, snappr_outport.cc:224-241; `none` if a sanity check fails. -/
def PCfg.schedule (_C : PCfg σ) (s : Port σ) : Option (Port σ) :=
  if s.sched.isSome ∨ s.total = 0 then none else some { s with sched := some s.nextFree }

/-- The idle and stalled time that `send` records, snappr_outport.cc:145-172. -/
def Port.account (s : Port σ) (now : Nat) : Port σ :=
  if s.stall ≠ 0 then
    { s with stalled := s.stalled + (now - s.stall), idle := if s.nextFree < s.stall then s.idle + (s.stall - s.nextFree) else s.idle, stall := 0 }
  else if s.nextFree < now then { s with idle := s.idle + (now - s.nextFree) }
  else s

/-- `SnapprOutPort::send`, snappr_outport.cc:135-222, without the debugging aid `debug_qos_`. The
packet goes on the link; the credit for the previous switch is in Verif/Snappr/Flow.lean. -/
def PCfg.send (C : PCfg σ) (s : Port σ) (p : Pkt) (now : Nat) : Option (Port σ × List Sent) :=
  if now < s.nextFree then none
  else
    let s := s.account now
    let s := { s with active := s.active + p.bytes * C.byteDelay, nextFree := now + p.bytes * C.byteDelay + C.flit,
                      arb := if C.fc then s.arb else C.A.addCredits s.arb p.vl p.bytes }
    if C.A.empty s.arb then some (s, [⟨now, p⟩])
    else (C.schedule s).map fun s => (s, [⟨now, p⟩])

/-- `SnapprOutPort::arbitrate`, snappr_outport.cc:285-313. -/
def PCfg.arbitrate (C : PCfg σ) (s : Port σ) (now : Nat) : Option (Port σ × List Sent) :=
  if s.total = 0 ∨ now < s.nextFree then none
  else
    let s := { s with sched := none }
    if C.A.empty s.arb then some (if s.stall = 0 then { s with stall := now } else s, [])
    else
      match C.A.pop s.arb now with
      | none => none
      | some (a, p) => C.send { s with arb := a, total := s.total - 1 } p now

/-- `SnapprOutPort::requestArbitration`, snappr_outport.cc:264-283. -/
def PCfg.request (C : PCfg σ) (s : Port σ) (now : Nat) : Option (Port σ × List Sent) :=
  if s.total = 0 ∨ s.sched.isSome then none
  else if now < s.nextFree then (C.schedule s).map fun s => (s, [])
  else C.arbitrate s now

/-- What happens to a port, and when: a packet comes (`tryToSendPacket`), credits come, or the
scheduled arbitration takes place. -/
inductive PEv
  | pkt (t : Nat) (p : Pkt)
  | credit (t vl n : Nat)
  | arb (t : Nat)
deriving DecidableEq, Repr

/-- The time of an event. -/
def PEv.time : PEv → Nat
  | .pkt t _ => t
  | .credit t _ _ => t
  | .arb t => t

/-- `SnapprOutPort::tryToSendPacket` (with `congestion_`), snappr_outport.cc:328-350,
`SnapprOutPort::handleCredit`, snappr_outport.cc:123-133, and the scheduled `arbitrate`. -/
def PCfg.step (C : PCfg σ) (s : Port σ) : PEv → Option (Port σ × List Sent)
  | .pkt t p =>
    let s := { s with arb := C.A.insert s.arb t p, total := s.total + 1 }
    if s.sched.isSome then some (s, []) else C.request s t
  | .credit t vl n =>
    let s := { s with arb := C.A.addCredits s.arb vl n }
    if s.sched.isSome ∨ s.total = 0 then some (s, []) else C.request s t
  | .arb t => C.arbitrate s t

/-- When an event can happen: not before the last one and not after the scheduled arbitration, which
happens at its time. This is what the event queue guarantees (C01 and following). -/
def Port.CanHappen (s : Port σ) (last : Nat) (e : PEv) : Prop :=
  last ≤ e.time ∧ (∀ T, s.sched = some T → e.time ≤ T) ∧ ∀ t, e = .arb t → s.sched = some t

/-- A port as the constructor makes it. -/
def port0 (a : σ) : Port σ := ⟨a, 0, none, 0, 0, 0, 0, 0⟩

/-- What a port can have done by time `t`: its state and the packets it has sent. -/
inductive PCfg.Reach (C : PCfg σ) (a0 : σ) : Port σ → Nat → List Sent → Prop
  | init : Reach C a0 (port0 a0) 0 []
  | next {s s' : Port σ} {t : Nat} {log out : List Sent} {e : PEv} (h : Reach C a0 s t log) (hc : s.CanHappen t e)
      (hs : C.step s e = some (s', out)) : Reach C a0 s' e.time (log ++ out)

end SST.Snappr
