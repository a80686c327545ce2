import Verif.Nic.Inject
import Verif.Nic.RecvCqProps
/-
C53: cutting a message into packets.
-/
set_option autoImplicit false
namespace SST.Nic

/-- The packets of message `f` from offset `off` on: full packets, then one tail that carries the
message. -/
def pieces (mtu : Nat) (f : Flow) (off : Nat) : List Packet :=
  if h : mtu = 0 ∨ f.len - off ≤ mtu then [⟨f.id, f.len - off, some f⟩]
  else ⟨f.id, mtu, none⟩ :: pieces mtu f (off + mtu)
termination_by f.len - off
decreasing_by omega

/-- What is left of the messages of a queue. -/
def rest (mtu : Nat) (q : List (Nat × Flow)) : List Packet := q.flatMap fun e => pieces mtu e.2 e.1

/-- The messages of a history. -/
def sentOf (evs : List NicEv) : List Flow := evs.filterMap fun | .send f => some f | .credit _ => none

/-- The credits of a history. -/
def creditOf (evs : List NicEv) : Nat := (evs.map fun | .send _ => 0 | .credit n => n).sum

/-- All packets of some messages, in order. -/
def packetsOf (mtu : Nat) (fs : List Flow) : List Packet := fs.flatMap fun f => pieces mtu f 0

theorem pieces_ids (mtu : Nat) (f : Flow) (off : Nat) : ∀ p ∈ pieces mtu f off, p.fid = f.id := by
  fun_induction pieces mtu f off with
  | case1 off h => intro p hp; simp only [List.mem_singleton] at hp; rw [hp]
  | case2 off h ih =>
    intro p hp
    rcases List.mem_cons.mp hp with h1 | h1
    · rw [h1]
    · exact ih p h1

theorem pieces_len (mtu : Nat) (f : Flow) (off : Nat) : bytesOf (pieces mtu f off) = f.len - off := by
  fun_induction pieces mtu f off with
  | case1 off h => simp [bytesOf]
  | case2 off h ih =>
    unfold bytesOf at ih ⊢
    rw [List.map_cons, List.sum_cons, ih]
    simp only
    omega

theorem pieces_one (mtu : Nat) (f : Flow) (off : Nat) : (pieces mtu f off).filterMap Packet.payload = [f] := by
  fun_induction pieces mtu f off with
  | case1 off h => rfl
  | case2 off h ih => rw [List.filterMap_cons]; exact ih

theorem pieces_pos (mtu : Nat) (f : Flow) (off : Nat) : ∀ p ∈ pieces mtu f off, p.payload = none → 0 < p.bytes := by
  fun_induction pieces mtu f off with
  | case1 off h => intro p hp; simp only [List.mem_singleton] at hp; rw [hp]; intro h; cases h
  | case2 off h ih =>
    intro p hp hn
    rcases List.mem_cons.mp hp with h1 | h1
    · rw [h1]; simp only; omega
    · exact ih p h1 hn

theorem pieces_mtu (mtu : Nat) (hm : 0 < mtu) (f : Flow) (off : Nat) : ∀ p ∈ pieces mtu f off, p.bytes ≤ mtu := by
  fun_induction pieces mtu f off with
  | case1 off h => intro p hp; simp only [List.mem_singleton] at hp; rw [hp]; simp only; omega
  | case2 off h ih =>
    intro p hp
    rcases List.mem_cons.mp hp with h1 | h1
    · rw [h1]; exact Nat.le_refl _
    · exact ih p h1

/-- The packets are the packets of the message. -/
theorem pieces_packetsOf (mtu : Nat) (f : Flow) (h64 : f.len < 18446744073709551616) : PacketsOf f (pieces mtu f 0) :=
  ⟨pieces_ids mtu f 0, by rw [pieces_len]; rfl, pieces_one mtu f 0, pieces_pos mtu f 0, h64⟩

theorem pieces_tail (mtu : Nat) (f : Flow) (off : Nat) (h : f.len - off ≤ mtu) : pieces mtu f off = [⟨f.id, f.len - off, some f⟩] := by
  rw [pieces, dif_pos (Or.inr h)]

theorem pieces_full (mtu : Nat) (hm : 0 < mtu) (f : Flow) (off : Nat) (h : mtu < f.len - off) :
    pieces mtu f off = ⟨f.id, mtu, none⟩ :: pieces mtu f (off + mtu) := by
  rw [pieces, dif_neg (by omega)]

/-! ### PiscesNIC -/

/-- What one call of `inject` does. -/
theorem inject_spec (mtu : Nat) (hm : 0 < mtu) (f : Flow) (off : Nat) (cr : Int) (ho : off < f.len) :
    (inject mtu f off cr).1 ++ (if (inject mtu f off cr).2.1 < f.len then pieces mtu f (inject mtu f off cr).2.1 else []) = pieces mtu f off ∧
    (inject mtu f off cr).2.1 ≤ f.len ∧
    ((inject mtu f off cr).2.1 < f.len → (inject mtu f off cr).2.2 < mtu) ∧
    (inject mtu f off cr).2.2 + bytesOf (inject mtu f off cr).1 = cr ∧
    (0 ≤ cr → 0 ≤ (inject mtu f off cr).2.2) := by
  fun_induction inject mtu f off cr with
  | case1 off cr hc p hp =>
    have hb : p.bytes = f.len - off := by omega
    have hb2 : p.bytes = min mtu (f.len - off) := rfl
    have hpe : p = ⟨f.id, f.len - off, some f⟩ := by
      show cutAt mtu f off = _
      have h1 : min mtu (f.len - off) = f.len - off := by omega
      unfold cutAt
      simp only [h1]
      rw [if_pos (by omega)]
    refine ⟨?_, Nat.le_refl _, fun h => (Nat.lt_irrefl _ h).elim, ?_, ?_⟩
    · rw [if_neg (Nat.lt_irrefl _), List.append_nil, pieces_tail _ _ _ (by omega), hpe]
    · unfold bytesOf
      simp only [List.map_cons, List.map_nil, List.sum_cons, List.sum_nil]
      omega
    · intro _
      show (0 : Int) ≤ cr - p.bytes
      omega
  | case2 off cr hc p hp h r ih =>
    have hb2 : p.bytes = min mtu (f.len - off) := rfl
    have hlt : mtu < f.len - off := by omega
    have hb : p.bytes = mtu := by omega
    have hb' : (cutAt mtu f off).bytes = mtu := hb
    have hpe : p = ⟨f.id, mtu, none⟩ := by
      show cutAt mtu f off = _
      have h1 : min mtu (f.len - off) = mtu := by omega
      unfold cutAt
      simp only [h1]
      rw [if_neg (by omega)]
    have ih := ih (by omega)
    obtain ⟨h1, h2, h3, h4, h5⟩ := ih
    refine ⟨?_, h2, h3, ?_, ?_⟩
    · rw [pieces_full mtu hm f off hlt, List.cons_append, hpe]
      congr 1
      refine h1.trans ?_
      rw [hb']
    · have h4' : r.2.2 + (bytesOf r.1 : Int) = cr - p.bytes := h4
      show r.2.2 + (bytesOf (p :: r.1) : Int) = cr
      have : bytesOf (p :: r.1) = p.bytes + bytesOf r.1 := by unfold bytesOf; rw [List.map_cons, List.sum_cons]
      omega
    · intro h0
      exact h5 (by omega)
  | case3 off cr hc p hp h => exact (h ⟨hm, ho⟩).elim
  | case4 off cr hc =>
    refine ⟨?_, Nat.le_of_lt ho, fun _ => Int.not_le.mp hc, ?_, fun h => h⟩
    · rw [if_pos ho, List.nil_append]
    · unfold bytesOf; simp

/-- What holds between events: waiting messages are not finished, and messages only wait for lack of
credits. -/
structure PInv (mtu : Nat) (s : PNic) : Prop where
  off : ∀ e ∈ s.pend, e.1 < e.2.len
  full : s.pend ≠ [] → s.cr < mtu
  nonneg : 0 ≤ s.cr

theorem drain_spec (mtu : Nat) (hm : 0 < mtu) : ∀ (q : List (Nat × Flow)) (cr : Int), 0 ≤ cr → (∀ e ∈ q, e.1 < e.2.len) →
    PInv mtu (drain mtu cr q).1 ∧ (drain mtu cr q).2 ++ rest mtu (drain mtu cr q).1.pend = rest mtu q ∧
      (drain mtu cr q).1.cr + bytesOf (drain mtu cr q).2 = cr := by
  intro q
  induction q with
  | nil => intro cr h _; exact ⟨⟨(fun e he => by cases he), fun h => (h rfl).elim, h⟩, rfl, by simp [drain, bytesOf]⟩
  | cons e q ih =>
    obtain ⟨off, f⟩ := e
    intro cr h0 hq
    obtain ⟨i1, i2, i3, i4, i5⟩ := inject_spec mtu hm f off cr (hq (off, f) (List.mem_cons_self ..))
    have hq' := fun e he => hq e (List.mem_cons_of_mem _ he)
    have hr : rest mtu ((off, f) :: q) = pieces mtu f off ++ rest mtu q := by unfold rest; rw [List.flatMap_cons]
    simp only [drain]
    by_cases hc : (inject mtu f off cr).2.1 = f.len
    · rw [if_pos hc]
      obtain ⟨d1, d2, d3⟩ := ih (inject mtu f off cr).2.2 (i5 h0) hq'
      rw [hc, if_neg (Nat.lt_irrefl _), List.append_nil] at i1
      refine ⟨d1, ?_, ?_⟩
      · simp only
        rw [List.append_assoc, d2, i1, hr]
      · simp only
        rw [bytesOf_append]
        omega
    · rw [if_neg hc]
      have hlt : (inject mtu f off cr).2.1 < f.len := by omega
      rw [if_pos hlt] at i1
      refine ⟨⟨?_, fun _ => i3 hlt, i5 h0⟩, ?_, i4⟩
      · intro e he
        rcases List.mem_cons.mp he with h | h
        · rw [h]; exact hlt
        · exact hq' e h
      · simp only
        rw [hr, ← i1, List.append_assoc]
        unfold rest
        rw [List.flatMap_cons]

theorem inject_poor (mtu : Nat) (f : Flow) (off : Nat) (cr : Int) (h : cr < mtu) : inject mtu f off cr = ([], off, cr) := by
  rw [inject, if_neg (by omega)]

theorem PNic.step_spec (mtu : Nat) (hm : 0 < mtu) (s : PNic) (h : PInv mtu s) (e : NicEv) (he : ∀ f, e = .send f → 0 < f.len) :
    PInv mtu (s.step mtu e).1 ∧ (s.step mtu e).2 ++ rest mtu (s.step mtu e).1.pend = rest mtu s.pend ++ packetsOf mtu (sentOf [e]) ∧
      (s.step mtu e).1.cr + bytesOf (s.step mtu e).2 = s.cr + creditOf [e] := by
  cases e with
  | credit n =>
    have hn := h.nonneg
    obtain ⟨d1, d2, d3⟩ := drain_spec mtu hm s.pend (s.cr + n) (by omega) h.off
    refine ⟨d1, ?_, ?_⟩
    · show (drain mtu (s.cr + n) s.pend).2 ++ rest mtu (drain mtu (s.cr + n) s.pend).1.pend = _
      rw [d2]
      exact (List.append_nil _).symm
    · refine Eq.trans d3 ?_
      simp [creditOf]
  | send f =>
    obtain ⟨i1, i2, i3, i4, i5⟩ := inject_spec mtu hm f 0 s.cr (he f rfl)
    have hp : packetsOf mtu (sentOf [NicEv.send f]) = pieces mtu f 0 := by simp [sentOf, packetsOf]
    rw [hp]
    have h2 : ((inject mtu f 0 s.cr).2.2 : Int) + bytesOf (inject mtu f 0 s.cr).1 = s.cr + creditOf [NicEv.send f] := by
      simp [creditOf]; exact i4
    simp only [PNic.step, PNic.doSend]
    by_cases hlt : (inject mtu f 0 s.cr).2.1 < f.len
    · rw [if_pos hlt] at i1 ⊢
      refine ⟨⟨?_, fun _ => i3 hlt, i5 h.nonneg⟩, ?_, h2⟩
      · intro e he
        rcases List.mem_append.mp he with h' | h'
        · exact h.off e h'
        · rw [List.mem_singleton] at h'; rw [h']; exact hlt
      · have hr : rest mtu (s.pend ++ [((inject mtu f 0 s.cr).2.1, f)]) = rest mtu s.pend ++ pieces mtu f (inject mtu f 0 s.cr).2.1 := by
          unfold rest; rw [List.flatMap_append]; simp
        rw [hr]
        by_cases hpd : s.pend = []
        · rw [hpd]
          exact i1
        · rw [inject_poor mtu f 0 s.cr (h.full hpd)]
          rfl
    · rw [if_neg hlt, List.append_nil] at i1
      rw [if_neg hlt]
      have hpd : s.pend = [] := by
        apply Classical.byContradiction
        intro hpd
        rw [inject_poor mtu f 0 s.cr (h.full hpd)] at hlt
        exact hlt (he f rfl)
      refine ⟨⟨h.off, fun hn => (hn hpd).elim, i5 h.nonneg⟩, ?_, h2⟩
      rw [i1, hpd]
      simp [rest]

theorem PNic.run_spec (mtu : Nat) (hm : 0 < mtu) : ∀ (evs : List NicEv) (s : PNic), PInv mtu s → (∀ f ∈ sentOf evs, 0 < f.len) →
    PInv mtu (s.run mtu evs).1 ∧ (s.run mtu evs).2 ++ rest mtu (s.run mtu evs).1.pend = rest mtu s.pend ++ packetsOf mtu (sentOf evs) ∧
      (s.run mtu evs).1.cr + bytesOf (s.run mtu evs).2 = s.cr + creditOf evs := by
  intro evs
  induction evs with
  | nil => intro s h _; exact ⟨h, by simp [PNic.run, sentOf, packetsOf], by simp [PNic.run, bytesOf, creditOf]⟩
  | cons e es ih =>
    intro s h hf
    have hs : sentOf (e :: es) = sentOf [e] ++ sentOf es := by
      show sentOf ([e] ++ es) = _
      unfold sentOf; rw [List.filterMap_append]
    have hc : creditOf (e :: es) = creditOf [e] + creditOf es := by
      unfold creditOf; rw [List.map_cons, List.map_cons, List.map_nil, List.sum_cons, List.sum_cons, List.sum_nil]; omega
    obtain ⟨a1, a2, a3⟩ := s.step_spec mtu hm h e (fun f he => hf f (by rw [hs, he]; simp [sentOf]))
    obtain ⟨b1, b2, b3⟩ := ih (s.step mtu e).1 a1 (fun f h => hf f (by rw [hs]; exact List.mem_append_right _ h))
    refine ⟨b1, ?_, ?_⟩
    · simp only [PNic.run]
      rw [List.append_assoc, b2, ← List.append_assoc, a2, hs, List.append_assoc]
      unfold packetsOf
      rw [List.flatMap_append]
    · simp only [PNic.run]
      rw [bytesOf_append, hc]
      omega

/-- **C53** (packet-flow model). Whatever messages are sent and whenever credits come back, the packets
sent so far followed by those of the waiting messages are the packets of all the messages, in the order
of the calls: stopping for lack of credits and resuming does not change them. The credits never go
below zero and account for every byte, and a message only waits while there is less than one packet's
credit. -/
theorem C53_pisces (mtu : Nat) (hm : 0 < mtu) (c0 : Nat) (evs : List NicEv) (hlen : ∀ f ∈ sentOf evs, 0 < f.len) :
    let r := PNic.run mtu ⟨c0, []⟩ evs
    r.2 ++ rest mtu r.1.pend = packetsOf mtu (sentOf evs) ∧ 0 ≤ r.1.cr ∧ r.1.cr + bytesOf r.2 = c0 + creditOf evs ∧
      (r.1.pend ≠ [] → r.1.cr < mtu) := by
  have hi : PInv mtu ⟨c0, []⟩ := ⟨(fun e he => by cases he), fun h => (h rfl).elim, Int.natCast_nonneg _⟩
  obtain ⟨h1, h2, h3⟩ := PNic.run_spec mtu hm evs ⟨c0, []⟩ hi hlen
  exact ⟨h2, h1.nonneg, h3, h1.full⟩

/-- **C53** (packet-flow model, no message is stuck). When the credits of all packets have come back
and there was room for one packet at the start, every message has been sent completely. -/
theorem C53_pisces_all_sent (mtu : Nat) (hm : 0 < mtu) (c0 : Nat) (hc : mtu ≤ c0) (evs : List NicEv) (hlen : ∀ f ∈ sentOf evs, 0 < f.len)
    (hret : creditOf evs = bytesOf (PNic.run mtu ⟨c0, []⟩ evs).2) :
    (PNic.run mtu ⟨c0, []⟩ evs).2 = packetsOf mtu (sentOf evs) := by
  obtain ⟨h1, h2, h3, h4⟩ := C53_pisces mtu hm c0 evs hlen
  have hp : (PNic.run mtu ⟨c0, []⟩ evs).1.pend = [] := by
    apply Classical.byContradiction
    intro h
    have := h4 h
    omega
  rw [hp] at h1
  simpa [rest] using h1

/-- **C53** (the cut itself). The packets of a message add up to its length, none is larger than the
MTU, they carry its identifier, and exactly one, the last, is the tail. -/
theorem C53_cut (mtu : Nat) (hm : 0 < mtu) (f : Flow) :
    bytesOf (pieces mtu f 0) = f.len ∧ (∀ p ∈ pieces mtu f 0, p.bytes ≤ mtu ∧ p.fid = f.id) ∧
    ∃ l t, pieces mtu f 0 = l ++ [t] ∧ t.payload = some f ∧ ∀ p ∈ l, p.payload = none ∧ p.bytes = mtu := by
  refine ⟨by rw [pieces_len]; rfl, fun p hp => ⟨pieces_mtu mtu hm f 0 p hp, pieces_ids mtu f 0 p hp⟩, ?_⟩
  generalize 0 = off
  fun_induction pieces mtu f off with
  | case1 off h => exact ⟨[], _, rfl, rfl, by intro p hp; cases hp⟩
  | case2 off h ih =>
    obtain ⟨l, t, h1, h2, h3⟩ := ih
    refine ⟨_ :: l, t, by rw [h1]; rfl, h2, ?_⟩
    intro p hp
    rcases List.mem_cons.mp hp with h | h
    · rw [h]; exact ⟨rfl, rfl⟩
    · exact h3 p h

theorem ofFlow_packetsOf (mtu : Nat) : ∀ (fs : List Flow), (fs.map Flow.id).Nodup → ∀ f ∈ fs, ofFlow f.id (packetsOf mtu fs) = pieces mtu f 0 := by
  intro fs
  induction fs with
  | nil => intro _ f hf; cases hf
  | cons g gs ih =>
    intro hn f hf
    rw [List.map_cons, List.nodup_cons] at hn
    have hs : packetsOf mtu (g :: gs) = pieces mtu g 0 ++ packetsOf mtu gs := by unfold packetsOf; rw [List.flatMap_cons]
    rw [hs, ofFlow_append]
    have hid : ∀ (i : Nat), (∀ x ∈ gs, x.id ≠ i) → ofFlow i (packetsOf mtu gs) = [] := by
      intro i hi
      unfold ofFlow
      rw [List.filter_eq_nil_iff]
      intro p hp
      unfold packetsOf at hp
      obtain ⟨x, hx, hpx⟩ := List.mem_flatMap.mp hp
      rw [beq_iff_eq, pieces_ids mtu x 0 p hpx]
      exact hi x hx
    rcases List.mem_cons.mp hf with h | h
    · subst h
      rw [hid f.id (fun x hx hc => hn.1 (hc ▸ List.mem_map_of_mem hx)), List.append_nil]
      unfold ofFlow
      rw [List.filter_eq_self]
      intro p hp
      rw [beq_iff_eq]
      exact pieces_ids mtu f 0 p hp
    · have : ofFlow f.id (pieces mtu g 0) = [] := by
        unfold ofFlow
        rw [List.filter_eq_nil_iff]
        intro p hp
        rw [beq_iff_eq, pieces_ids mtu g 0 p hp]
        intro hc
        exact hn.1 (hc ▸ List.mem_map_of_mem h)
      rw [this, List.nil_append]
      exact ih hn.2 f h

theorem payload_packetsOf (mtu : Nat) (fs : List Flow) : (packetsOf mtu fs).filterMap Packet.payload = fs := by
  induction fs with
  | nil => rfl
  | cons f fs ih =>
    unfold packetsOf at ih ⊢
    rw [List.flatMap_cons, List.filterMap_append, pieces_one, ih]
    rfl

theorem PacketsOf.perm {f : Flow} {a b : List Packet} (h : a.Perm b) (ha : PacketsOf f a) : PacketsOf f b := by
  refine ⟨fun p hp => ha.ids p (h.mem_iff.mpr hp), ?_, ?_, fun p hp => ha.pos p (h.mem_iff.mpr hp), ha.u64⟩
  · rw [← ha.len]
    unfold bytesOf
    exact ((h.map _).sum_nat).symm
  · have h1 := h.filterMap Packet.payload
    rw [ha.one] at h1
    exact List.singleton_perm.mp h1 |>.symm ▸ rfl

/-- The packets of messages with different identifiers, in any order, are complete messages. -/
theorem complete_packetsOf (mtu : Nat) (fs : List Flow) (hn : (fs.map Flow.id).Nodup) (h64 : ∀ f ∈ fs, f.len < 18446744073709551616)
    (l : List Packet) (hl : l.Perm (packetsOf mtu fs)) : Complete l := by
  intro p hp
  have hp' := hl.mem_iff.mp hp
  unfold packetsOf at hp'
  obtain ⟨f, hf, hpf⟩ := List.mem_flatMap.mp hp'
  refine ⟨f, ?_⟩
  rw [pieces_ids mtu f 0 p hpf]
  refine PacketsOf.perm ((hl.filter _).symm) ?_
  have := ofFlow_packetsOf mtu fs hn f hf
  unfold ofFlow at this
  rw [this]
  exact pieces_packetsOf mtu f (h64 f hf)

/-- **C53** with **C52**. From the sending interface to the receiving one: if every packet that was
sent arrives once, in any order, and all messages were sent completely, then the receiver hands up
every message exactly once and remembers nothing. -/
theorem C53_end_to_end (mtu : Nat) (hm : 0 < mtu) (c0 : Nat) (hc : mtu ≤ c0) (evs : List NicEv) (hlen : ∀ f ∈ sentOf evs, 0 < f.len)
    (h64 : ∀ f ∈ sentOf evs, f.len < 18446744073709551616) (hn : ((sentOf evs).map Flow.id).Nodup)
    (hret : creditOf evs = bytesOf (PNic.run mtu ⟨c0, []⟩ evs).2) (arrived : List Packet)
    (ha : arrived.Perm (PNic.run mtu ⟨c0, []⟩ evs).2) :
    (recvAll cq0 arrived).2.Perm (sentOf evs) ∧ ∀ i, (recvAll cq0 arrived).1 i = none := by
  have hall := C53_pisces_all_sent mtu hm c0 hc evs hlen hret
  rw [hall] at ha
  obtain ⟨h1, _, h3⟩ := C52_exactly_once arrived (complete_packetsOf mtu _ hn h64 arrived ha)
  refine ⟨h1.trans ?_, h3⟩
  have := ha.filterMap Packet.payload
  rwa [payload_packetsOf] at this

/-- A history in which a message of 10 bytes is sent with 8 bytes of credit and an MTU of 4, then one of
5 bytes; credits come back 4 and 2 bytes at a time, and so on. -/
def demoEvs : List NicEv := [.send ⟨1, 10⟩, .send ⟨2, 5⟩, .credit 4, .credit 4, .credit 2, .credit 4, .credit 1]

example : (0 < 4) ∧ (4 ≤ 8) ∧ (∀ f ∈ sentOf demoEvs, 0 < f.len) ∧ ((sentOf demoEvs).map Flow.id).Nodup ∧
    creditOf demoEvs = bytesOf (PNic.run 4 ⟨8, []⟩ demoEvs).2 := by
  refine ⟨by decide, by decide, by decide, by decide, ?_⟩
  simp [demoEvs, creditOf, PNic.run, PNic.step, PNic.doSend, PNic.packetSent, inject, cutAt, bytesOf, drain]

/-- **C53** (refuted for empty messages). An empty message given to `PiscesNIC::doSend` while there is
less than one packet's credit is neither sent nor kept. `NIC::internodeSend` only passes empty messages
to `doSend` when `negligible_size` is negative. -/
theorem C53_pisces_empty_refuted (mtu : Nat) (s : PNic) (h : s.cr < mtu) (i : Nat) : s.doSend mtu ⟨i, 0⟩ = (s, []) := by
  unfold PNic.doSend
  rw [inject_poor mtu _ 0 s.cr h]
  rfl

end SST.Nic
