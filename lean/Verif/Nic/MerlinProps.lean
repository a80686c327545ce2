import Verif.Nic.Merlin
import Verif.Nic.RecvCqProps
/-
C154: the network interface over Merlin sends every message whole, in order and once, acknowledges
it when its last packet has left, and the messages are received once.
-/
set_option autoImplicit false
namespace SST.Nic.Merlin

/-! The specification. -/

/-- The number of packets of a message: one even when it is empty. -/
def count (mtu len : Nat) : Nat := max 1 ((len + mtu - 1) / mtu)

/-- Packet `i` of a message: only the first is the head, only the last is the tail and has the
message, all but the last are full. -/
def packet (mtu : Nat) (m : Msg) (i : Nat) : Req :=
  let last := i + 1 = count mtu m.len
  { fid := m.fid, head := i == 0, tail := decide last, bits := 8 * (if last then m.len - i * mtu else mtu), payload := if last then some m else none }

def packets (mtu : Nat) (m : Msg) : List Req := (List.range (count mtu m.len)).map (packet mtu m)

/-- The messages injected in a history, in order. -/
def injected : List Ev → List Msg
  | [] => []
  | .inject m _ :: es => m :: injected es
  | .credit _ :: es => injected es

/-- The number of packets the link has reported. -/
def credits : List Ev → Nat
  | [] => 0
  | .inject _ _ :: es => credits es
  | .credit _ :: es => credits es + 1

/-- How many packets the link has room for in one pass: the answers before the first no. -/
def room : List Bool → Nat
  | true :: sp => room sp + 1
  | _ => 0

def Ev.space : Ev → List Bool
  | .inject _ sp => sp
  | .credit sp => sp

/-- The messages among these packets that need an acknowledgement. -/
def needing (l : List Req) : List Msg := (l.filterMap Req.payload).filter Msg.ack

/-! Arithmetic of packets. -/

theorem last_iff {mtu len i : Nat} (hm : 0 < mtu) (hi : i < count mtu len) : i + 1 < count mtu len ↔ (i + 1) * mtu < len := by
  have h : i + 2 ≤ (len + mtu - 1) / mtu ↔ (i + 2) * mtu ≤ len + mtu - 1 := Nat.le_div_iff_mul_le hm
  have e : (i + 2) * mtu = (i + 1) * mtu + mtu := by rw [show i + 2 = (i + 1) + 1 from rfl, Nat.succ_mul (i + 1)]
  unfold count at *
  constructor
  · intro h1
    have : i + 2 ≤ (len + mtu - 1) / mtu := by omega
    have := h.mp this
    omega
  · intro h1
    have := h.mpr (by omega)
    omega

theorem before {mtu len i : Nat} (hm : 0 < mtu) (hi : i < count mtu len) : i = 0 ∨ i * mtu < len := by
  cases i with
  | zero => exact .inl rfl
  | succ j => exact .inr ((last_iff hm (by omega)).mp hi)

/-- Where a pending message stands: `i` packets are sent. -/
structure At (mtu : Nat) (p : Pend) (i : Nat) : Prop where
  lt : i < count mtu p.msg.len
  left : p.left = p.msg.len - i * mtu

theorem next_last {mtu : Nat} (hm : 0 < mtu) {p : Pend} {i : Nat} (h : At mtu p i) (hl : i + 1 = count mtu p.msg.len) : p.left ≤ mtu := by
  have h1 : ¬ (i + 1) * mtu < p.msg.len := fun h2 => by
    have := (last_iff hm h.lt).mpr h2
    omega
  have e := Nat.succ_mul i mtu
  have := h.left
  simp only [Nat.succ_eq_add_one] at e
  omega

theorem next_more {mtu : Nat} (hm : 0 < mtu) {p : Pend} {i : Nat} (h : At mtu p i) (hl : i + 1 ≠ count mtu p.msg.len) : mtu < p.left := by
  have h1 : (i + 1) * mtu < p.msg.len := (last_iff hm h.lt).mp (by have := h.lt; omega)
  have e := Nat.succ_mul i mtu
  have := h.left
  simp only [Nat.succ_eq_add_one] at e
  omega

theorem request_eq {mtu : Nat} (hm : 0 < mtu) (hb : mtu * 8 < 4294967296) {p : Pend} {i : Nat} (h : At mtu p i) : request mtu p = packet mtu p.msg i := by
  have hhead : (p.left == p.msg.len) = (i == 0) := by
    rcases before hm h.lt with e | e
    · subst e
      rw [h.left]; simp
    · by_cases hi : i = 0
      · subst hi; rw [h.left]; simp
      · have : 0 < i * mtu := Nat.mul_pos (by omega) hm
        have := h.left
        have h1 : (p.left == p.msg.len) = false := by rw [beq_eq_false_iff_ne]; omega
        have h2 : (i == 0) = false := by rw [beq_eq_false_iff_ne]; exact hi
        rw [h1, h2]
  by_cases hl : i + 1 = count mtu p.msg.len
  · have hx := next_last hm h hl
    have e1 : nextBytes mtu p.left = p.left := by unfold nextBytes; omega
    have e2 : nextBits mtu p.left = 8 * (p.msg.len - i * mtu) := by
      unfold nextBits
      rw [e1, Nat.mod_eq_of_lt (by omega), h.left]; omega
    simp only [request, packet, hhead, e1, e2, hl, Nat.sub_self, if_true, decide_true, beq_self_eq_true]
  · have hx := next_more hm h hl
    have e1 : nextBytes mtu p.left = mtu := by unfold nextBytes; omega
    have e2 : nextBits mtu p.left = 8 * mtu := by
      unfold nextBits
      rw [e1, Nat.mod_eq_of_lt hb]; omega
    have e3 : p.left - mtu ≠ 0 := by omega
    have e4 : (p.left - mtu == 0) = false := by rw [beq_eq_false_iff_ne]; exact e3
    simp only [request, packet, hhead, e1, e2, hl, e3, e4, if_false, decide_false]

theorem ackOf_eq {mtu : Nat} (p : Pend) : ackOf mtu p = (request mtu p).payload.filter Msg.ack := by
  unfold ackOf request
  dsimp only
  by_cases h : p.left - nextBytes mtu p.left = 0
  · rw [if_pos h, if_pos h]
    cases hh : p.msg.ack <;> simp [Option.filter, hh]
  · rw [if_neg h, if_neg h]; rfl

/-- What is left to send of a pending message. -/
def rest (mtu : Nat) (p : Pend) (i : Nat) : List Req := (packets mtu p.msg).drop i

theorem rest_cons {mtu : Nat} {p : Pend} {i : Nat} (h : i < count mtu p.msg.len) : rest mtu p i = packet mtu p.msg i :: rest mtu p (i + 1) := by
  unfold rest packets
  rw [List.drop_eq_getElem_cons (by simpa using h)]
  simp

theorem rest_nil {mtu : Nat} {p : Pend} {i : Nat} (h : count mtu p.msg.len ≤ i) : rest mtu p i = [] := by
  unfold rest packets
  exact List.drop_eq_nil_of_le (by simpa using h)

/-- Sending the packets `l`. -/
def push (s : Vn) (l : List Req) : Vn :=
  { s with acks := s.acks ++ l.map (fun r => r.payload.filter Msg.ack), sent := s.sent ++ l }

theorem push_nil (s : Vn) : push s [] = s := by simp [push]

theorem push_push (s : Vn) (a b : List Req) : push (push s a) b = push s (a ++ b) := by simp [push]

theorem sendOne_eq {mtu : Nat} (hm : 0 < mtu) (hb : mtu * 8 < 4294967296) (sp : List Bool) : ∀ (s : Vn) (p : Pend) (i : Nat), At mtu p i →
    ((rest mtu p i).length ≤ room sp ∧ ∃ p' sp', sendOne mtu s p sp = (true, p', push s (rest mtu p i), sp') ∧ room sp' = room sp - (rest mtu p i).length) ∨
    (room sp < (rest mtu p i).length ∧ ∃ p' sp', sendOne mtu s p sp = (false, p', push s ((rest mtu p i).take (room sp)), sp') ∧
      p'.msg = p.msg ∧ At mtu p' (i + room sp)) := by
  induction sp with
  | nil =>
    intro s p i h
    right
    refine ⟨by rw [rest_cons h.lt]; simp [room], p, [], ?_, rfl, h⟩
    simp [sendOne, room, push_nil]
  | cons b sp ih =>
    intro s p i h
    cases b with
    | false =>
      right
      refine ⟨by rw [rest_cons h.lt]; simp [room], p, sp, ?_, rfl, h⟩
      simp [sendOne, room, push_nil]
    | true =>
      have hs : ({ s with acks := s.acks ++ [ackOf mtu p], sent := s.sent ++ [request mtu p] } : Vn) = push s [packet mtu p.msg i] := by
        unfold push
        rw [ackOf_eq, request_eq hm hb h]; rfl
      have hsend : sendOne mtu s p (true :: sp) = if nextBytes mtu (p.left - nextBytes mtu p.left) = 0
          then (true, { p with left := p.left - nextBytes mtu p.left }, push s [packet mtu p.msg i], sp)
          else sendOne mtu (push s [packet mtu p.msg i]) { p with left := p.left - nextBytes mtu p.left } sp := by
        rw [← hs]; rfl
      have hroom : room (true :: sp) = room sp + 1 := rfl
      rw [hsend, hroom]
      by_cases hl : i + 1 = count mtu p.msg.len
      · have hx := next_last hm h hl
        have e1 : nextBytes mtu (p.left - nextBytes mtu p.left) = 0 := by unfold nextBytes; omega
        have er : rest mtu p i = [packet mtu p.msg i] := by rw [rest_cons h.lt, rest_nil (by omega)]
        left
        rw [if_pos e1, er]
        exact ⟨by simp, _, _, rfl, by simp⟩
      · have hx := next_more hm h hl
        have e0 : nextBytes mtu p.left = mtu := by unfold nextBytes; omega
        have e1 : nextBytes mtu (p.left - nextBytes mtu p.left) ≠ 0 := by unfold nextBytes; omega
        rw [if_neg e1, e0]
        have hat : At mtu { p with left := p.left - mtu } (i + 1) := by
          refine ⟨?_, ?_⟩
          · have := h.lt; dsimp only; omega
          · have := h.left
            have e := Nat.succ_mul i mtu
            simp only [Nat.succ_eq_add_one] at e
            dsimp only
            omega
        have er : rest mtu { p with left := p.left - mtu } (i + 1) = rest mtu p (i + 1) := rfl
        have := ih (push s [packet mtu p.msg i]) { p with left := p.left - mtu } (i + 1) hat
        rw [er] at this
        rw [rest_cons h.lt]
        rcases this with ⟨h1, p', sp', h2, h3⟩ | ⟨h1, p', sp', h2, h3, h4⟩
        · left
          refine ⟨by simp; omega, p', sp', ?_, by simp; omega⟩
          rw [h2, push_push]; rfl
        · right
          refine ⟨by simp; omega, p', sp', ?_, h3, ?_⟩
          · rw [h2, push_push]; rfl
          · rw [show i + (room sp + 1) = i + 1 + room sp by omega]; exact h4

/-- The pending messages stand at some packet, and `l` is what is left to send of them. -/
inductive Left (mtu : Nat) : List Pend → List Req → Prop where
  | nil : Left mtu [] []
  | cons {p ps l} (i : Nat) : At mtu p i → Left mtu ps l → Left mtu (p :: ps) (rest mtu p i ++ l)

theorem Left.append {mtu : Nat} {a b : List Pend} {l k : List Req} (h : Left mtu a l) (g : Left mtu b k) : Left mtu (a ++ b) (l ++ k) := by
  induction h with
  | nil => exact g
  | cons i hat _ ih => rw [List.append_assoc]; exact Left.cons i hat ih

theorem left_new {mtu : Nat} (m : Msg) : Left mtu [⟨m, m.len⟩] (packets mtu m) := by
  have hat : At mtu ⟨m, m.len⟩ 0 := ⟨by unfold count; omega, by simp⟩
  have := Left.cons (mtu := mtu) 0 hat Left.nil
  simpa [rest] using this

theorem left_nil_iff {mtu : Nat} {ps : List Pend} {l : List Req} (h : Left mtu ps l) : ps = [] ↔ l = [] := by
  cases h with
  | nil => simp
  | cons i hat _ => rw [rest_cons hat.lt]; simp

theorem sendAll_eq {mtu : Nat} (hm : 0 < mtu) (hb : mtu * 8 < 4294967296) {ps : List Pend} {l : List Req} (h : Left mtu ps l) :
    ∀ (s : Vn) (sp : List Bool), ∃ ps', sendAll mtu s ps sp = { push s (l.take (room sp)) with pending := ps' } ∧ Left mtu ps' (l.drop (room sp)) := by
  induction h with
  | nil => intro s sp; exact ⟨[], by simp [sendAll, push], by simpa using Left.nil⟩
  | @cons p ps l i hat hrest ih =>
    intro s sp
    rcases sendOne_eq hm hb sp s p i hat with ⟨h1, p', sp', h2, h3⟩ | ⟨h1, p', sp', h2, h3, h4⟩
    · obtain ⟨ps', e, hl⟩ := ih (push s (rest mtu p i)) sp'
      refine ⟨ps', ?_, ?_⟩
      · rw [sendAll, h2]
        dsimp only
        rw [e, push_push, List.take_append, h3, List.take_of_length_le h1]
      · rw [List.drop_append, List.drop_eq_nil_of_le h1, List.nil_append, ← h3]; exact hl
    · refine ⟨p' :: ps, ?_, ?_⟩
      · rw [sendAll, h2]
        dsimp only
        rw [List.take_append, Nat.sub_eq_zero_of_le (by omega), List.take_zero, List.append_nil]
      · rw [List.drop_append, Nat.sub_eq_zero_of_le (by omega), List.drop_zero]
        have : (rest mtu p i).drop (room sp) = rest mtu p' (i + room sp) := by
          unfold rest; rw [List.drop_drop, h3]
        rw [this]
        exact Left.cons _ h4 hrest

/-- The invariant of a history. -/
structure Inv (mtu : Nat) (s : Vn) (ms : List Msg) (k : Nat) : Prop where
  left : Left mtu s.pending ((ms.flatMap (packets mtu)).drop s.sent.length)
  sent : s.sent = (ms.flatMap (packets mtu)).take s.sent.length
  le : k ≤ s.sent.length
  acks : s.acks = (s.sent.drop k).map (fun r => r.payload.filter Msg.ack)
  told : s.told = needing (s.sent.take k)

theorem le_all {l : List Req} {a : List Req} (h : a = l.take a.length) : a.length ≤ l.length := by
  have := congrArg List.length h
  rw [List.length_take] at this
  omega

theorem inv_send {mtu : Nat} (hm : 0 < mtu) (hb : mtu * 8 < 4294967296) {s : Vn} {ms : List Msg} {k : Nat} {ps : List Pend} (sp : List Bool)
    (hl : Left mtu ps ((ms.flatMap (packets mtu)).drop s.sent.length)) (hs : s.sent = (ms.flatMap (packets mtu)).take s.sent.length)
    (hk : k ≤ s.sent.length) (ha : s.acks = (s.sent.drop k).map (fun r => r.payload.filter Msg.ack)) (ht : s.told = needing (s.sent.take k)) :
    Inv mtu (sendAll mtu s ps sp) ms k ∧ (sendAll mtu s ps sp).sent = (ms.flatMap (packets mtu)).take (s.sent.length + room sp) := by
  obtain ⟨ps', e, h'⟩ := sendAll_eq hm hb hl s sp
  have hle := le_all hs
  have e2 : (sendAll mtu s ps sp).sent = (ms.flatMap (packets mtu)).take (s.sent.length + room sp) := by
    rw [e]
    show s.sent ++ _ = _
    rw [List.take_add, ← hs]
  refine ⟨⟨?_, ?_, ?_, ?_, ?_⟩, e2⟩
  · rw [e2]
    rw [e]
    show Left mtu ps' _
    rw [List.drop_drop] at h'
    rw [List.length_take]
    by_cases hc : s.sent.length + room sp ≤ (ms.flatMap (packets mtu)).length
    · rw [Nat.min_eq_left hc]; exact h'
    · rw [List.drop_eq_nil_of_le (by omega)] at h'
      rw [List.drop_eq_nil_of_le (by omega)]; exact h'
  · rw [e2, List.length_take, ← List.take_eq_take_min]
  · rw [e]; show k ≤ (s.sent ++ _).length
    rw [List.length_append]; omega
  · rw [e]
    show s.acks ++ _ = List.map _ (List.drop k (s.sent ++ _))
    rw [List.drop_append_of_le_length hk, List.map_append, ha]
  · rw [e]
    show s.told = needing (List.take k (s.sent ++ _))
    rw [List.take_append_of_le_length hk, ht]

theorem inv_step {mtu : Nat} (hm : 0 < mtu) (hb : mtu * 8 < 4294967296) {s s' : Vn} {ms : List Msg} {k : Nat} (h : Inv mtu s ms k) (e : Ev)
    (hs : step mtu s e = some s') : Inv mtu s' (ms ++ injected [e]) (k + credits [e]) ∧
      s'.sent = ((ms ++ injected [e]).flatMap (packets mtu)).take (s.sent.length + room e.space) := by
  have hle := le_all h.sent
  cases e with
  | inject m sp =>
    cases hs
    refine inv_send hm hb sp ?_ ?_ h.le h.acks h.told
    · have := Left.append h.left (left_new (mtu := mtu) m)
      simp only [injected, List.flatMap_append, List.flatMap_cons, List.flatMap_nil, List.append_nil]
      rw [List.drop_append_of_le_length hle]; exact this
    · simp only [injected, List.flatMap_append, List.flatMap_cons, List.flatMap_nil, List.append_nil]
      rw [List.take_append_of_le_length hle]; exact h.sent
  | credit sp =>
    unfold step at hs
    cases ha : s.acks with
    | nil => rw [ha] at hs; cases hs
    | cons a r =>
      rw [ha] at hs
      cases hs
      have hk := h.acks
      rw [ha] at hk
      have hlt : k < s.sent.length := by
        rcases Nat.lt_or_ge k s.sent.length with h1 | h1
        · exact h1
        · rw [List.drop_eq_nil_of_le h1] at hk; cases hk
      rw [List.drop_eq_getElem_cons hlt, List.map_cons] at hk
      injection hk with h1 h2
      simp only [injected, List.append_nil]
      refine inv_send (s := { s with acks := r, told := s.told ++ a.toList }) hm hb sp h.left h.sent hlt h2 ?_
      show s.told ++ a.toList = needing (s.sent.take (k + 1))
      rw [h.told, List.take_succ_eq_append_getElem hlt, h1]
      unfold needing
      rw [List.filterMap_append, List.filter_append]
      congr 1
      cases hp : s.sent[k].payload with
      | none => simp [List.filterMap_cons, hp]
      | some m => cases hm2 : m.ack <;> simp [List.filterMap_cons, hp, Option.filter, hm2]

theorem injected_append (a b : List Ev) : injected (a ++ b) = injected a ++ injected b := by
  induction a with
  | nil => rfl
  | cons e a ih => cases e <;> simp [injected, ih]

theorem credits_append (a b : List Ev) : credits (a ++ b) = credits a + credits b := by
  induction a with
  | nil => simp [credits]
  | cons e a ih => cases e <;> simp [credits, ih] <;> omega

theorem run_inv {mtu : Nat} (hm : 0 < mtu) (hb : mtu * 8 < 4294967296) (es : List Ev) : ∀ {s s' : Vn} {ms : List Msg} {k : Nat}, Inv mtu s ms k →
    run mtu s es = some s' → Inv mtu s' (ms ++ injected es) (k + credits es) := by
  induction es with
  | nil =>
    intro s s' ms k h hr
    cases hr
    simpa [injected, credits] using h
  | cons e es ih =>
    intro s s' ms k h hr
    unfold run at hr
    cases hst : step mtu s e with
    | none => rw [hst] at hr; cases hr
    | some t =>
      rw [hst] at hr
      have := ih (inv_step hm hb h e hst).1 hr
      rw [List.append_assoc, ← injected_append, Nat.add_assoc, ← credits_append] at this
      exact this

theorem inv0 (mtu : Nat) : Inv mtu vn0 [] 0 := ⟨Left.nil, rfl, Nat.le_refl _, rfl, rfl⟩

theorem run_inv0 {mtu : Nat} (hm : 0 < mtu) (hb : mtu * 8 < 4294967296) {es : List Ev} {s : Vn} (hr : run mtu vn0 es = some s) :
    Inv mtu s (injected es) (credits es) := by
  simpa using run_inv hm hb es (inv0 mtu) hr

theorem run_append (mtu : Nat) (a b : List Ev) : ∀ s : Vn, run mtu s (a ++ b) = (run mtu s a).bind (fun t => run mtu t b) := by
  induction a with
  | nil => intro s; rfl
  | cons e a ih =>
    intro s
    simp only [List.cons_append, run]
    cases step mtu s e with
    | none => rfl
    | some t => exact ih t

/-! The properties. -/

/-- C154: whatever room the link has and whenever messages are injected, the packets handed to the
link are a prefix of the packets of all messages injected, message after message in the order of
injection, each message from its head to its tail; when nothing is pending they are all of them. -/
theorem C154_order_partial {mtu : Nat} (hm : 0 < mtu) (hb : mtu * 8 < 4294967296) {es : List Ev} {s : Vn} (hr : run mtu vn0 es = some s) :
    s.sent <+: (injected es).flatMap (packets mtu) ∧ (s.pending = [] ↔ s.sent = (injected es).flatMap (packets mtu)) := by
  have h := run_inv0 hm hb hr
  refine ⟨by rw [h.sent]; exact List.take_prefix _ _, ?_⟩
  rw [left_nil_iff h.left]
  constructor
  · intro hd
    have := List.take_append_drop s.sent.length ((injected es).flatMap (packets mtu))
    rw [hd, List.append_nil, ← h.sent] at this
    exact this
  · intro he
    rw [← he]
    exact List.drop_eq_nil_of_le (Nat.le_refl _)

/-- C154: an injection or a report sends at once every packet the link has room for, and no more. -/
theorem C154_room_partial {mtu : Nat} (hm : 0 < mtu) (hb : mtu * 8 < 4294967296) {es : List Ev} {s s' : Vn} (e : Ev) (hr : run mtu vn0 es = some s)
    (hr' : run mtu vn0 (es ++ [e]) = some s') :
    s'.sent = ((injected (es ++ [e])).flatMap (packets mtu)).take (s.sent.length + room e.space) := by
  have h := run_inv0 hm hb hr
  rw [run_append, hr] at hr'
  have hst : step mtu s e = some s' := by
    simp only [Option.bind_some, run] at hr'
    cases hst : step mtu s e with
    | none => rw [hst] at hr'; cases hr'
    | some t => rw [hst] at hr'; exact hr'
  rw [injected_append]
  exact (inv_step hm hb h e hst).2

/-- C154: the node is told of the injection of exactly the messages that need it and whose last packet
is among those the link has reported, each once and in order. -/
theorem C154_acks_partial {mtu : Nat} (hm : 0 < mtu) (hb : mtu * 8 < 4294967296) {es : List Ev} {s : Vn} (hr : run mtu vn0 es = some s) :
    s.told = needing (s.sent.take (credits es)) := (run_inv0 hm hb hr).told

/-- C154: the interface is safe exactly as long as the link reports no more packets than it was given. -/
theorem C154_safe_partial {mtu : Nat} (hm : 0 < mtu) (hb : mtu * 8 < 4294967296) {es : List Ev} {s : Vn} (hr : run mtu vn0 es = some s) (sp : List Bool) :
    run mtu vn0 (es ++ [.credit sp]) = none ↔ s.sent.length ≤ credits es := by
  have h := run_inv0 hm hb hr
  rw [run_append, hr]
  have hlen : s.acks.length = s.sent.length - credits es := by rw [h.acks]; simp
  simp only [Option.bind_some, run, step]
  cases ha : s.acks with
  | nil =>
    rw [ha] at hlen
    simp only [List.length_nil] at hlen
    simp only [Option.bind_none, true_iff]
    omega
  | cons a r =>
    rw [ha] at hlen
    simp only [List.length_cons] at hlen
    simp only [Option.bind_some, reduceCtorEq, false_iff]
    omega

/-! The receiver. -/

theorem sum_packets {mtu : Nat} (hm : 0 < mtu) (m : Msg) (n : Nat) (hn : n ≤ count mtu m.len) :
    (((List.range n).map (packet mtu m)).map (fun r => r.bits / 8)).sum = if n = count mtu m.len then m.len else n * mtu := by
  induction n with
  | zero => simp [count]; omega
  | succ n ih =>
    have ih := ih (by omega)
    rw [if_neg (by omega)] at ih
    rw [List.range_succ, List.map_append, List.map_append, List.sum_append_nat, ih]
    simp only [List.map_cons, List.map_nil, List.sum_cons, List.sum_nil, packet, Nat.add_zero]
    rw [Nat.mul_div_cancel_left _ (by omega)]
    by_cases hl : n + 1 = count mtu m.len
    · rw [if_pos hl, if_pos hl]
      rcases before hm (by omega : n < count mtu m.len) with e | e
      · subst e; simp
      · omega
    · rw [if_neg hl, if_neg hl, Nat.succ_mul]

theorem payload_packets (mtu : Nat) (m : Msg) (n : Nat) (hn : n ≤ count mtu m.len) :
    (((List.range n).map (packet mtu m)).filterMap Req.payload) = if n = count mtu m.len then [m] else [] := by
  induction n with
  | zero =>
    rw [if_neg (by unfold count; omega)]; rfl
  | succ n ih =>
    have ih := ih (by omega)
    rw [if_neg (by omega)] at ih
    rw [List.range_succ, List.map_append, List.filterMap_append, ih]
    by_cases hl : n + 1 = count mtu m.len
    · simp [packet, hl]
    · simp [packet, hl]

theorem packetsOf {mtu : Nat} (hm : 0 < mtu) (m : Msg) (hu : m.len < 18446744073709551616) :
    PacketsOf ⟨m.fid, m.len⟩ ((packets mtu m).map toPacket) := by
  refine ⟨?_, ?_, ?_, ?_, hu⟩
  · intro p hp
    obtain ⟨r, hr, rfl⟩ := List.mem_map.mp hp
    obtain ⟨i, _, rfl⟩ := List.mem_map.mp hr
    rfl
  · have := sum_packets hm m _ (Nat.le_refl _)
    rw [if_pos rfl] at this
    unfold bytesOf
    rw [List.map_map]
    exact this
  · have := payload_packets mtu m _ (Nat.le_refl _)
    rw [if_pos rfl] at this
    rw [List.filterMap_map]
    have e : (Packet.payload ∘ toPacket) = fun r : Req => r.payload.map (fun m => (⟨m.fid, m.len⟩ : Flow)) := rfl
    rw [e, show (fun r : Req => r.payload.map (fun m => (⟨m.fid, m.len⟩ : Flow))) = fun r => (Req.payload r).map (fun m => (⟨m.fid, m.len⟩ : Flow)) from rfl,
      ← List.map_filterMap]
    unfold packets
    rw [this]; rfl
  · intro p hp hn
    obtain ⟨r, hr, rfl⟩ := List.mem_map.mp hp
    obtain ⟨i, hi, rfl⟩ := List.mem_map.mp hr
    have hi := List.mem_range.mp hi
    by_cases hl : i + 1 = count mtu m.len
    · simp [toPacket, packet, hl] at hn
    · simp only [toPacket, packet, hl, if_false]
      omega

theorem perm_packetsOf {f : Flow} {a b : List Packet} (h : PacketsOf f a) (hp : b.Perm a) : PacketsOf f b := by
  refine ⟨fun p hm => h.ids p (hp.mem_iff.mp hm), ?_, ?_, fun p hm => h.pos p (hp.mem_iff.mp hm), h.u64⟩
  · rw [← h.len]; exact (hp.map Packet.bytes).sum_nat
  · have := hp.filterMap Packet.payload
    rw [h.one] at this
    exact List.perm_singleton.mp this

theorem ofFlow_all {mtu : Nat} (ms : List Msg) (hd : ms.Pairwise (fun a b => a.fid ≠ b.fid)) (m : Msg) (hm : m ∈ ms) :
    ofFlow m.fid ((ms.flatMap (packets mtu)).map toPacket) = (packets mtu m).map toPacket := by
  have same : ∀ m' : Msg, ∀ p ∈ (packets mtu m').map toPacket, p.fid = m'.fid := by
    intro m' p hp
    obtain ⟨r, hr, rfl⟩ := List.mem_map.mp hp
    obtain ⟨i, _, rfl⟩ := List.mem_map.mp hr
    rfl
  have none_of : ∀ (l : List Msg) (i : Nat), (∀ x ∈ l, x.fid ≠ i) → ofFlow i ((l.flatMap (packets mtu)).map toPacket) = [] := by
    intro l i hl
    unfold ofFlow
    rw [List.filter_eq_nil_iff]
    intro p hp
    obtain ⟨r, hr, rfl⟩ := List.mem_map.mp hp
    obtain ⟨x, hx, hr⟩ := List.mem_flatMap.mp hr
    have := same x (toPacket r) (List.mem_map_of_mem hr)
    simp [this, hl x hx]
  have all_of : ∀ m' : Msg, ofFlow m'.fid ((packets mtu m').map toPacket) = (packets mtu m').map toPacket := by
    intro m'
    unfold ofFlow
    rw [List.filter_eq_self]
    intro p hp
    simp [same m' p hp]
  induction ms with
  | nil => cases hm
  | cons x ms ih =>
    rw [List.pairwise_cons] at hd
    rw [List.flatMap_cons, List.map_append, ofFlow_append]
    rcases List.mem_cons.mp hm with e | h
    · subst e
      rw [all_of, none_of ms m.fid (fun y hy he => hd.1 y hy he.symm), List.append_nil]
    · rw [ih hd.2 h]
      have : ofFlow m.fid ((packets mtu x).map toPacket) = [] := by
        have := none_of [x] m.fid (fun y hy => by rw [List.mem_singleton.mp hy]; exact hd.1 m h)
        simpa using this
      rw [this, List.nil_append]

/-- C154: when the packets of messages with different identifiers arrive, from any interfaces, over any
virtual networks and in any order, the receiving interface hands up every message exactly once and
nothing else, and keeps nothing. -/
theorem C154_received_partial {mtu : Nat} (hm : 0 < mtu) (ms : List Msg) (hd : ms.Pairwise (fun a b => a.fid ≠ b.fid))
    (hu : ∀ m ∈ ms, m.len < 18446744073709551616) (arrived : List Req) (ha : arrived.Perm (ms.flatMap (packets mtu))) :
    (recvAll cq0 (arrived.map toPacket)).2.Perm (ms.map (fun m => ⟨m.fid, m.len⟩)) ∧ ∀ i, (recvAll cq0 (arrived.map toPacket)).1 i = none := by
  have hp : (arrived.map toPacket).Perm ((ms.flatMap (packets mtu)).map toPacket) := ha.map _
  have hc : Complete (arrived.map toPacket) := by
    intro p hmem
    obtain ⟨r, hr, rfl⟩ := List.mem_map.mp (hp.mem_iff.mp hmem)
    obtain ⟨m, hmm, hr⟩ := List.mem_flatMap.mp hr
    obtain ⟨i, _, rfl⟩ := List.mem_map.mp hr
    refine ⟨⟨m.fid, m.len⟩, perm_packetsOf (packetsOf hm m (hu m hmm)) ?_⟩
    rw [← ofFlow_all ms hd m hmm]
    exact hp.filter _
  have h := C52_exactly_once _ hc
  refine ⟨h.1.trans ?_, h.2.2⟩
  have h1 := hp.filterMap Packet.payload
  refine h1.trans ?_
  have : ∀ l : List Msg, (∀ m ∈ l, m.len < 18446744073709551616) →
      ((l.flatMap (packets mtu)).map toPacket).filterMap Packet.payload = l.map (fun m => (⟨m.fid, m.len⟩ : Flow)) := by
    intro l
    induction l with
    | nil => intro _; rfl
    | cons x l ih =>
      intro hl
      rw [List.flatMap_cons, List.map_append, List.filterMap_append, (packetsOf hm x (hl x (List.mem_cons_self ..))).one,
        ih (fun y hy => hl y (List.mem_cons_of_mem _ hy))]
      rfl
  rw [this ms hu]

/-! Where the claim fails. -/

/-- An `mtu` of a multiple of 2^32 bytes is stored as zero. Then every message that is not empty is
taken for sent after one empty packet without the message: it is never acknowledged or received. -/
theorem C154_zero_mtu_refuted (v : Nat) (hv : 4294967296 ∣ v) (m : Msg) (hlen : 0 < m.len) (sp : List Bool) :
    ∃ s, run (mtuOf v) vn0 [.inject m (true :: sp), .credit sp] = some s ∧ s.pending = [] ∧ s.acks = [] ∧ s.told = [] ∧
      (recvAll cq0 (s.sent.map toPacket)).2 = [] := by
  have hz : mtuOf v = 0 := Nat.mod_eq_zero_of_dvd hv
  have h0 : ¬ m.len = 0 := by omega
  refine ⟨⟨[], [], [⟨m.fid, true, false, 0, none⟩], []⟩, ?_, rfl, rfl, rfl, ?_⟩
  · rw [hz]
    simp [run, step, sendAll, sendOne, nextBytes, nextBits, ackOf, request, vn0, h0]
  · simp [recvAll, recv, toPacket, cq0, Incoming.note]

/-- With an `mtu` of half a gigabyte or more, the bits of a packet do not fit their 32-bit field: a
message of that size or more that goes in one packet is never handed up. -/
theorem C154_large_mtu_refuted (mtu : Nat) (m : Msg) (h1 : 536870912 ≤ m.len) (h2 : m.len ≤ mtu) (hu : m.len < 18446744073709551616) :
    ∃ s, run mtu vn0 [.inject m [true]] = some s ∧ s.pending = [] ∧ (∃ r, s.sent = [r] ∧ r.tail = true ∧ r.payload = some m) ∧
      (recvAll cq0 (s.sent.map toPacket)).2 = [] := by
  have e1 : min mtu m.len = m.len := by omega
  refine ⟨⟨[], [if m.ack then some m else none], [⟨m.fid, true, true, (m.len * 8) % 4294967296, some m⟩], []⟩, ?_, rfl, ⟨_, rfl, rfl, rfl⟩, ?_⟩
  · simp [run, step, sendAll, sendOne, e1, nextBits, ackOf, request, vn0, nextBytes]
  · have : ¬ (m.len * 8 % 4294967296 / 8) % 18446744073709551616 = m.len := by omega
    simp [recvAll, recv, toPacket, cq0, Incoming.note, this]

/-! Concrete cases. -/

/-- Three messages, the second empty, cut into packets of at most 4096 bytes. -/
def demo : List Ev := [.inject ⟨1, 9000, true⟩ [true, true, false], .inject ⟨2, 0, false⟩ [], .credit [true, true], .inject ⟨3, 4096, true⟩ [true], .credit [], .credit []]

example : ∃ s, run 4096 vn0 demo = some s ∧ s.pending = [] ∧ s.told = [⟨1, 9000, true⟩] ∧ s.sent.map Req.bits = [32768, 32768, 6464, 0, 32768] :=
  ⟨_, rfl, by decide, by decide, by decide⟩

example : (packets 4096 ⟨1, 9000, true⟩).map (fun r => (r.head, r.tail, r.bits)) = [(true, false, 32768), (false, false, 32768), (false, true, 6464)] := by decide

example : 4294967296 ∣ 8589934592 ∧ 536870912 ≤ 1000000000 := by decide

end SST.Nic.Merlin
