import Verif.Sculpin.PortProps
import Verif.Nic.RecvCqProps
/-
Model of the sculpin network interface, sstmac/hardware/sculpin/sculpin_nic.cc.  The clock is in ticks.
-/
set_option autoImplicit false
namespace SST.Sculpin

/-- A packet handed to the injection link: what the receiver sees of it, when its head leaves, and how
long it takes (`timeToSend()`). -/
structure Inj where
  pkt : Nic.Packet
  start : Nat
  tts : Nat
deriving DecidableEq, Repr

/-- The loop of `SculpinNIC::doSend`: `bytes_left`, `inj_next_free_` and the packets sent. -/
structure Loop where
  left : Nat
  free : Nat
  out : List Inj := []
deriving DecidableEq, Repr

/-- The body of the loop, sculpin_nic.cc:144-158.  `uint32_t(bytes_left)` keeps the low 32 bits.  `d` is
`inj_byte_delay_`.  The link adds `extra_delay = inj_next_free_ - now` to now. -/
def body (mtu d : Nat) (f : Nic.Flow) (s : Loop) : Loop :=
  let sz := min (s.left % 4294967296) mtu
  let left := s.left - sz
  ⟨left, s.free + sz * d, s.out ++ [⟨⟨f.id, sz, if left = 0 then some f else none⟩, s.free, sz * d⟩]⟩

/-- `n` passes of the loop. -/
def loop (mtu d : Nat) (f : Nic.Flow) : Nat → Loop → Loop
  | 0, s => s
  | n + 1, s => if s.left = 0 then s else loop mtu d f n (body mtu d f s)

/-- Before the loop, sculpin_nic.cc:133-139. -/
def loop0 (free now : Nat) (f : Nic.Flow) : Loop := ⟨f.len, if free < now then now else free, []⟩

/-- `SculpinNIC::doSend` ends with this; the acknowledgement, if the message needs one, is scheduled for
`inj_next_free_`, sculpin_nic.cc:160-164. -/
def DoSend (mtu d free now : Nat) (f : Nic.Flow) (free' : Nat) (out : List Inj) : Prop :=
  ∃ n, loop mtu d f n (loop0 free now f) = ⟨0, free', out⟩

/-- Messages sent one after the other, with the time of each. -/
inductive Sends (mtu d : Nat) : Nat → List (Nat × Nic.Flow) → Nat → List Inj → Prop
  | nil (free : Nat) : Sends mtu d free [] free []
  | cons {free now free1 free2 : Nat} {f : Nic.Flow} {l : List (Nat × Nic.Flow)} {a b : List Inj}
      (h : DoSend mtu d free now f free1 a) (hs : Sends mtu d free1 l free2 b) : Sends mtu d free ((now, f) :: l) free2 (a ++ b)

/-- `SculpinNIC::handlePayload`, sculpin_nic.cc:192-206, and `SculpinSwitch::handlePayload`,
sculpin_switch.cc:313-332: a packet whose head comes at `h` from a link on which it took `prev` enters a
link on which it takes `here`. -/
def entry (h prev here : Nat) : Nat := if here < prev then h + (prev - here) else h

/-- `SculpinNIC::eject`, sculpin_nic.cc:177-190: the new `ej_next_free_`, which is when `cqHandle` runs. -/
def eject (d free now bytes : Nat) : Nat := (if free < now then now else free) + bytes * d

/-- `eject` for the packets that come, with the time of each. -/
def ejects (d : Nat) : Nat → List (Nat × Nic.Packet) → List Nat
  | _, [] => []
  | free, (t, p) :: l => eject d free t p.bytes :: ejects d (eject d free t p.bytes) l

end SST.Sculpin
