/-
Bandwidth arbitrators of the packet-flow model (sstmac/hardware/pisces/pisces_arbitrator.h, .cc): when
the head and the tail of a packet leave.

Times are ticks. The code multiplies a tick count by a `double`, which is exact below 2^53; ticks are
natural numbers here.
-/
set_option autoImplicit false
namespace SST.Pisces.Arbit

/-- `IncomingPacket` and its packet, pisces_arbitrator.h:72-82: `now`, `numBytes()` and `byteDelay()`. -/
structure In where
  now : Nat
  bytes : Nat
  delay : Nat
deriving DecidableEq, Repr

/-- `head_leaves` and `tail_leaves`. -/
structure Out where
  head : Nat
  tail : Nat
deriving DecidableEq, Repr

/-- `PiscesSimpleArbitrator::arbitrate`, pisces_arbitrator.cc:112-126: the new `next_free_` and the times. -/
def simple (byteDelay nextFree : Nat) (p : In) : Nat × Out :=
  let start := if nextFree < p.now then p.now else nextFree
  let next := start + p.bytes * byteDelay
  (next, ⟨next, next⟩)

/-- `PiscesNullArbitrator::arbitrate`, pisces_arbitrator.cc:139-161. -/
def null (byteDelay : Nat) (p : In) : Out := ⟨p.now, p.now + p.bytes * max byteDelay p.delay⟩

/-- `PiscesCutThroughArbitrator::Epoch`, pisces_arbitrator.h:211-215: free cycles from `start`. The list
replaces `next`. -/
structure Epoch where
  start : Nat
  cycles : Nat
deriving DecidableEq, Repr

/-- `std::numeric_limits<uint32_t>::max()`. -/
def full : Nat := 4294967295

/-- `PiscesCutThroughArbitrator::clearOut`, pisces_arbitrator.cc:190-238. -/
def clearOut (c now : Nat) : List Epoch → List Epoch
  | [] => []
  | [e] =>
    if now ≤ e.start then [{ e with cycles := full }]
    else [⟨now, full⟩]
  | e :: n :: es =>
    if now ≤ e.start then e :: n :: es
    else if now < e.start + e.cycles * c then ⟨now, e.cycles - (now - e.start) / c⟩ :: n :: es
    else clearOut c now (n :: es)

/-- `bytesArrived - bytesSent` in 32 bits. -/
def sub32 (a b : Nat) : Nat := if b ≤ a then a - b else 4294967296 + a - b

/-- The loop of `PiscesCutThroughArbitrator::arbitrate`, pisces_arbitrator.cc:292-371. `before` are the
epochs before the current one, the last first. `none` is an access to an epoch that is not there, or no
end within `fuel` rounds. -/
def ctLoop (c : Nat) (p : In) : Nat → List Epoch → List Epoch → Nat → Nat → Nat → Option (List Epoch × Nat)
  | 0, _, _, _, _, _ => none
  | fuel + 1, before, rest, sent, left, tail =>
    if left ≤ 2 then some (before.reverse ++ rest, tail)
    else
      match rest with
      | [] => none
      | e :: es =>
        let fin := e.start + e.cycles * c
        let buffered := p.now + p.delay * p.bytes
        if p.delay ≤ c then
          if e.cycles ≤ left then ctLoop c p fuel before es (sent + e.cycles) (left - e.cycles) fin
          else ctLoop c p fuel before (⟨e.start + left * c, e.cycles - left⟩ :: es) p.bytes 0 (e.start + left * c)
        else if fin ≤ buffered then
          let here := min left (sub32 ((fin - p.now) / p.delay) sent)
          if e.cycles ≤ here then ctLoop c p fuel before es (sent + e.cycles) (left - e.cycles) fin
          else ctLoop c p fuel ({ e with cycles := e.cycles - here } :: before) es (sent + here) (left - here) fin
        else if buffered ≤ e.start then
          if left < e.cycles then ctLoop c p fuel before (⟨e.start + left * c, e.cycles - left⟩ :: es) p.bytes 0 (e.start + left * c)
          else ctLoop c p fuel before es (sent + e.cycles) (left - e.cycles) fin
        else
          let pre := (buffered - e.start) / c
          ctLoop c p fuel before ({ e with cycles := pre } :: ⟨buffered, if es.isEmpty then full else e.cycles - pre⟩ :: es) sent left tail

/-- Enough rounds for any end the loop can come to: a round uses up bytes, an epoch, or splits one. -/
def rounds (p : In) (es : List Epoch) : Nat := 4 * (p.bytes + es.length + 2)

/-- `PiscesCutThroughArbitrator::arbitrate`, pisces_arbitrator.cc:260-402, without the checks at the
end. -/
def cutThrough (c : Nat) (es : List Epoch) (p : In) : Option (List Epoch × Out) :=
  let es := clearOut c p.now es
  match es with
  | [] => none
  | e :: _ => (ctLoop c p (rounds p es) [] es 0 p.bytes 0).map fun r => (r.1, ⟨e.start, r.2⟩)

/-- The epochs of a new arbitrator, pisces_arbitrator.cc:163-170. -/
def ct0 : List Epoch := [⟨0, full⟩]

/-- The checks at the end of `arbitrate`, pisces_arbitrator.cc:376-398: the epochs do not go backward in
time, and the head does not leave after the tail. -/
def checks (es : List Epoch) (o : Out) : Bool :=
  (es.zip es.tail).all (fun x => decide (x.1.start ≤ x.2.start)) && decide (o.head ≤ o.tail)

end SST.Pisces.Arbit
