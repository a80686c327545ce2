/-
Model of an output port of a sculpin switch: sstmac/hardware/sculpin/sculpin_switch.{h,cc}.  The
clock is in ticks.
-/
set_option autoImplicit false
namespace SST.Sculpin

/-- What a port sees of a packet: an identifier, `numBytes()`, `arrival_`, `seqnum_`, `priority_`;
sculpin.h:126-137. -/
structure Pkt where
  id : Nat
  bytes : Nat
  arrival : Nat := 0
  seq : Nat := 0
  prio : Nat := 0
deriving DecidableEq, Repr

/-- `priority_compare`, sculpin_switch.h:122-135. -/
def before (l r : Pkt) : Bool :=
  if l.prio = r.prio then
    if l.arrival = r.arrival then l.seq < r.seq else l.arrival < r.arrival
  else l.prio < r.prio

/-- `std::set::insert` with `priority_compare`: in order, and not at all if an equivalent packet is
in the set. -/
def insert (p : Pkt) : List Pkt → List Pkt
  | [] => [p]
  | q :: l => if before p q then p :: q :: l else if before q p then q :: insert p l else q :: l

/-- `SculpinSwitch::Port`, sculpin_switch.h:137-150, and the calls of `pullNext` scheduled for it.
`seqnum` is 32 bits wide in the code; 2^32 packets in one queue are not modelled. -/
structure Port where
  nextFree : Nat := 0
  seq : Nat := 0
  queue : List Pkt := []
  pulls : List Nat := []
deriving DecidableEq, Repr

/-- A packet handed to the link: when its head and its tail leave. -/
structure Sent where
  pkt : Pkt
  start : Nat
  stop : Nat
deriving DecidableEq, Repr

/-- `SculpinSwitch::send`, sculpin_switch.cc:189-240, `d` is `byte_delay`.  The link sends the packet
`extra_delay` later. Statistics are left out. -/
def send (d : Nat) (p : Port) (k : Pkt) (now : Nat) : Port × Sent :=
  let free := if p.nextFree < now then now else p.nextFree
  let extra := free - now
  let tts := k.bytes * d
  let p := { p with nextFree := free + tts }
  let s : Sent := ⟨k, now + extra, now + extra + tts⟩
  if p.queue = [] then ({ p with seq := 0 }, s)
  else ({ p with pulls := p.pulls ++ [p.nextFree] }, s)

/-- `SculpinSwitch::pullNext`, sculpin_switch.cc:242-255; `none` if it aborts. -/
def pullNext (d : Nat) (p : Port) (now : Nat) : Option (Port × Sent) :=
  match p.queue with
  | [] => none
  | k :: l => some (send d { p with queue := l } k now)

/-- `SculpinSwitch::tryToSendPacket`, sculpin_switch.cc:257-291, with congestion (the default). -/
def tryToSend (d : Nat) (p : Port) (k : Pkt) (now : Nat) : Port × List Sent :=
  let k := { k with arrival := now, seq := p.seq }
  let p := { p with seq := p.seq + 1 }
  if now < p.nextFree then
    let p := if p.queue = [] then { p with pulls := p.pulls ++ [p.nextFree] } else p
    ({ p with queue := insert k p.queue }, [])
  else if p.queue = [] then
    let r := send d p k now
    (r.1, [r.2])
  else ({ p with queue := insert k p.queue }, [])

/-- The same without congestion, sculpin_switch.cc:266-270. -/
def sendFree (d : Nat) (p : Port) (k : Pkt) (now : Nat) : Port × Sent :=
  let tts := k.bytes * d
  ({ p with seq := p.seq + 1, nextFree := p.nextFree + tts }, ⟨{ k with arrival := now, seq := p.seq }, now, now + tts⟩)

/-- A port in simulated time: the clock, the packets that came and those that were sent; `none` for
the port if `pullNext` aborted. -/
structure St where
  clock : Nat := 0
  port : Option Port := some {}
  came : List Pkt := []
  sent : List Sent := []

/-- What can happen next.  Events run in the order of time: a packet comes before the first scheduled
pull or together with it, in either order. -/
inductive Step (d : Nat) : St → St → Prop
  | arrive {s : St} {p : Port} (hp : s.port = some p) (k : Pkt) (hk : k.prio = 0) {t : Nat} (h : s.clock ≤ t) (hn : ∀ T ∈ p.pulls, t ≤ T) :
      Step d s ⟨t, some (tryToSend d p k t).1, s.came ++ [{ k with arrival := t, seq := 0 }], s.sent ++ (tryToSend d p k t).2⟩
  | pull {s : St} {p : Port} (hp : s.port = some p) {T : Nat} (hT : T ∈ p.pulls) (hn : ∀ T' ∈ p.pulls, T ≤ T') :
      Step d s ⟨T, (pullNext d { p with pulls := p.pulls.erase T } T).map Prod.fst, s.came,
        s.sent ++ ((pullNext d { p with pulls := p.pulls.erase T } T).map Prod.snd).toList⟩

/-- Any history. -/
inductive Run (d : Nat) : St → Prop
  | init : Run d {}
  | step {s s' : St} (h : Run d s) (hs : Step d s s') : Run d s'

end SST.Sculpin
