import Verif.Pisces.Slot
/-
A network of packet-flow elements joined by links that carry packets one way and credits back.
Events are taken from the links in any order, which covers every timing the arbitrators and
latencies can produce.
-/
set_option autoImplicit false
namespace SST.Pisces

variable {E : Type} [DecidableEq E]

/-- How the elements are built and joined.
`nvc`, `ports`: virtual channels and output ports; `all`: a `PiscesBuffer`, otherwise a
`PiscesNtoMQueue`; `update`: `update_vc_`; `sink`: the receiving side of a NIC;
`out e p`: element and input port behind output port `p` (`setOutput`);
`back e i`: element and output port credited for input port `i` (`setInput`);
`init e p`: the credits given to `setOutput`. -/
structure Cfg (E : Type) where
  nvc : E → Nat
  ports : E → Nat
  all : E → Bool
  update : E → Bool
  sink : E → Bool
  out : E → Nat → Option (E × Nat)
  back : E → Nat → Option (E × Nat)
  init : E → Nat → Nat

/-- An event on a link: a packet on its way to input port `i` of `e`, or credits on their way to
output port `p` of `e` (`PiscesCredit`, pisces.h:180-226). -/
inductive Msg (E : Type)
  | pay (e : E) (i : Nat) (id bytes vc : Nat)
  | credit (e : E) (p vc n : Nat)
deriving DecidableEq, Repr

/-- The state of a network. -/
structure Net (E : Type) where
  slots : E → Nat → Slot
  wire : List (Msg E)

/-- `dst_vc`, pisces_crossbar.cc:205, pisces_buffer.cc:173. -/
def Cfg.dvc (C : Cfg E) (e : E) (x : Pkt) : Nat := if C.update e then x.next else x.vc

/-- `slot(port, vc)`, pisces_crossbar.h:83-85; a buffer has one output port. -/
def Cfg.slot (C : Cfg E) (e : E) (x : Pkt) : Nat := x.out * C.nvc e + C.dvc e x

/-- `PiscesSender::send` (pisces_sender.cc:105-154) with `sendCredit` (81-108): the credit goes to
the element behind the input port with the old virtual channel, the packet to the element behind
the output port with the new one. -/
def Cfg.emit (C : Cfg E) (e : E) (x : Pkt) : List (Msg E) :=
  (match C.back e x.inp with
    | none => []
    | some (e', p) => [.credit e' p x.vc x.bytes]) ++
  (match C.out e x.out with
    | none => []
    | some (e', i) => [.pay e' i x.id x.bytes (C.dvc e x)])

/-- Replace slot `k` of element `e`. -/
def setSlot (f : E → Nat → Slot) (e : E) (k : Nat) (s : Slot) : E → Nat → Slot :=
  fun e' k' => if e' = e ∧ k' = k then s else f e' k'

/-- The element handles an event on slot `k`. -/
def Cfg.handle (C : Cfg E) (st : Net E) (e : E) (k : Nat) (ev : Ev) : Net E :=
  let r := step (C.all e) (st.slots e k) ev
  ⟨setSlot st.slots e k r.1, st.wire ++ r.2.flatMap (C.emit e)⟩

/-- One event of the simulation.
`arrive`: a packet reaches an element, which may have routed it to any of its output ports and
virtual channels (`PiscesSwitch::InputPort::handle`, pisces_switch.cc:188-197, and any router).
`eject`: a packet reaches a NIC, which credits it (`PiscesNIC::packetArrived`, pisces_nic.cc:185-196).
`credit`: credits reach an element.
`inject`: a NIC sends a packet (`PiscesNIC::inject`, pisces_nic.cc:132-170: only with credits for
a whole packet; `PiscesBuffer::sendPayload`, pisces_buffer.cc:206-219). -/
inductive Next (C : Cfg E) (st : Net E) : Net E → Prop
  | arrive {a b : List (Msg E)} {e : E} {x : Pkt} (h : st.wire = a ++ .pay e x.inp x.id x.bytes x.vc :: b) (hs : C.sink e = false)
      (ho : x.out < C.ports e) (hv : C.dvc e x < C.nvc e) (hl : (C.out e x.out).isSome) :
      Next C st (C.handle ⟨st.slots, a ++ b⟩ e (C.slot e x) (.pkt x))
  | eject {a b : List (Msg E)} {e : E} {i id bytes vc : Nat} {e' : E} {p : Nat} (h : st.wire = a ++ .pay e i id bytes vc :: b) (hs : C.sink e = true)
      (hb : C.back e i = some (e', p)) : Next C st ⟨st.slots, a ++ b ++ [.credit e' p vc bytes]⟩
  | credit {a b : List (Msg E)} {e : E} {p vc n : Nat} (h : st.wire = a ++ .credit e p vc n :: b) :
      Next C st (C.handle ⟨st.slots, a ++ b⟩ e (p * C.nvc e + vc) (.credit n))
  | inject {e : E} {x : Pkt} (hb : C.back e x.inp = none) (hv : C.dvc e x < C.nvc e) (ho : x.out < C.ports e) (hl : (C.out e x.out).isSome)
      (hspace : (x.bytes : Int) ≤ (st.slots e (C.slot e x)).cred) :
      Next C st ⟨setSlot st.slots e (C.slot e x) { (st.slots e (C.slot e x)) with cred := (st.slots e (C.slot e x)).cred - x.bytes },
        st.wire ++ C.emit e x⟩

/-- `setOutput`, pisces_crossbar.cc:262-298 and pisces_buffer.cc:73-83: the credits of a port are
divided evenly among its virtual channels. -/
def Cfg.start (C : Cfg E) : Net E := ⟨fun e k => ⟨C.init e (k / C.nvc e) / C.nvc e, []⟩, []⟩

/-- The states a network can be in. -/
inductive Reach (C : Cfg E) : Net E → Prop
  | start : Reach C C.start
  | next {st st' : Net E} (h : Reach C st) (n : Next C st st') : Reach C st'

/-- Every input port is credited to the output port that feeds it. -/
def Cfg.Joined (C : Cfg E) : Prop := ∀ e p e' i, C.out e p = some (e', i) ↔ C.back e' i = some (e, p)

/-- Bytes on the way to input port `i` of `e` on channel `v`. -/
def inFlight (w : List (Msg E)) (e : E) (i v : Nat) : Nat :=
  (w.map fun | .pay e' i' _ b v' => if e' = e ∧ i' = i ∧ v' = v then b else 0 | .credit .. => 0).sum

/-- Credits on the way to output port `p` of `e` for channel `v`. -/
def returning (w : List (Msg E)) (e : E) (p v : Nat) : Nat :=
  (w.map fun | .credit e' p' v' n => if e' = e ∧ p' = p ∧ v' = v then n else 0 | .pay .. => 0).sum

/-- Bytes of the packets of a list that came in on port `i` and channel `v`. -/
def came (l : List Pkt) (i v : Nat) : Nat := (l.map fun x => if x.inp = i ∧ x.vc = v then x.bytes else 0).sum

/-- Bytes that wait in element `e` and came in on port `i` and channel `v`. -/
def Cfg.buffered (C : Cfg E) (st : Net E) (e : E) (i v : Nat) : Nat :=
  ((List.range (C.ports e * C.nvc e)).map fun k => came (st.slots e k).queue i v).sum

end SST.Pisces
