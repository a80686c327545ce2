import Verif.Mpi.Lemmas2

/-!
Properties C17 - C21 and C70: MPI point-to-point matching.

Specification vocabulary: `Accepts r m` says that MPI's rules let receive `r` take message
`m`; `Before L e f` says that event `e` precedes event `f` in history `L`; `Reach s` says
that `s` is the outcome of some sequence of sends, deliveries in any order, payload
arrivals in any order, receives and cancels.
-/
set_option autoImplicit false
namespace SST.Mpi

/-- Same communicator, source named or `MPI_ANY_SOURCE` (-2), tag named or `MPI_ANY_TAG` (-1). -/
def Accepts (r : Req) (m : Msg) : Prop :=
  r.comm = m.comm ∧ (r.source = m.src ∨ r.source = -2) ∧ (r.tag = m.tag ∨ r.tag = -1)

/-- `e` happened before `f`. -/
def Before (L : List Ev) (e f : Ev) : Prop := ∃ a b c, L = a ++ e :: (b ++ f :: c)

/-- Reachable from the start. -/
def Reach (s : St) : Prop := ∃ ops, run St.init ops = .ok s

theorem Reach.full {s : St} (h : Reach s) : Full s := by
  obtain ⟨ops, h⟩ := h
  exact Full.init.run h

theorem eligible_iff (r : Req) (m : Msg) : r.eligible m = true ↔ Accepts r m := by
  simp only [Req.eligible, Accepts, Bool.and_eq_true, Bool.or_eq_true, decide_eq_true_eq, and_assoc]
  rfl

theorem sent_before_seq {s : St} (h : Full s) {m1 m2 : Msg} (hb : Before s.log (.sent m1) (.sent m2))
    (ht : m1.sender = m2.sender) : m1.seq < m2.seq := by
  obtain ⟨a, b, c, hL⟩ := hb
  have hq := h.inv.n.sseq m1.sender
  have e : fromS m1.sender (sents s.log) = fromS m1.sender (sents a) ++ m1 :: (fromS m1.sender (sents b) ++ m2 :: fromS m1.sender (sents c)) := by
    rw [hL]
    simp only [sents_append, fromS_append, ← List.singleton_append (l := b ++ _), ← List.singleton_append (l := c)]
    have e1 : fromS m1.sender (sents [Ev.sent m1]) = [m1] := by simp [sents, fromS]
    have e2 : fromS m1.sender (sents [Ev.sent m2]) = [m2] := by simp [sents, fromS, ht]
    rw [e1, e2]; simp
  have hp : ((fromS m1.sender (sents s.log)).map Msg.seq).Pairwise (· < ·) := by
    rw [hq]; exact List.pairwise_lt_range
  rw [e, List.pairwise_map, List.pairwise_append] at hp
  exact (List.pairwise_cons.1 hp.2.1).1 m2 (by simp)

theorem posted_before_id {s : St} (h : Full s) {r1 r2 : Req} (hb : Before s.log (.posted r1) (.posted r2)) :
    r1.id < r2.id := by
  obtain ⟨a, b, c, hL⟩ := hb
  have hq := h.inv.m.ids
  have e : posteds s.log = posteds a ++ r1 :: (posteds b ++ r2 :: posteds c) := by
    rw [hL]
    simp only [posteds_append, ← List.singleton_append (l := b ++ _), ← List.singleton_append (l := c)]
    simp [posteds]
  have hp : ((posteds s.log).map Req.id).Pairwise (· < ·) := by rw [hq]; exact List.pairwise_lt_range
  rw [e, List.pairwise_map, List.pairwise_append] at hp
  exact (List.pairwise_cons.1 hp.2.1).1 r2 (by simp)

theorem list_prefix_of_seq {l1 l2 : List Msg} {a b : Nat} (h1 : l1.map Msg.seq = List.range a)
    (h2 : l2.map Msg.seq = List.range b) (hs : ∀ m ∈ l1, m ∈ l2) : l1 <+: l2 := by
  have key : ∀ i (hi : i < l1.length), l2[i]? = some l1[i] := by
    intro i hi
    obtain ⟨j, hj, hj'⟩ := List.mem_iff_getElem.1 (hs l1[i] (List.getElem_mem hi))
    have e1 : l1[i].seq = i := by
      have : (l1.map Msg.seq)[i]? = (List.range a)[i]? := by rw [h1]
      have hia : i < a := by have := congrArg List.length h1; simp at this; omega
      simpa [hi, hia, List.getElem?_range] using this
    have e2 : l2[j].seq = j := by
      have : (l2.map Msg.seq)[j]? = (List.range b)[j]? := by rw [h2]
      have hia : j < b := by have := congrArg List.length h2; simp at this; omega
      simpa [hj, hia, List.getElem?_range] using this
    have : j = i := by rw [← e1, ← e2, hj']
    subst this
    simp [hj, hj']
  rw [List.prefix_iff_getElem?]
  exact key

/-! ### C17: non-overtaking -/

/-- If two messages of one sender are both acceptable to a receive and the later one is
matched by it, the earlier one has already been matched - provided the earlier one is not
carried by the second eager protocol. -/
theorem C17_send_order_partial (s : St) (hr : Reach s) (m1 m2 : Msg) (r : Req) (pre post : List Ev)
    (hm : s.log = pre ++ .matched r m2 :: post)
    (hsent : Before s.log (.sent m1) (.sent m2)) (hfrom : m1.sender = m2.sender)
    (hprot : m1.prot ≠ .eager1) (hacc : Accepts r m1) :
    ∃ r1, Ev.matched r1 m1 ∈ pre := by
  have h := hr.full
  have hq := sent_before_seq h hsent hfrom
  obtain ⟨_, _, hh, _, _, _, _, hov, _⟩ := h.inv.m.good _ _ _ hm
  refine hov m1 ?_ hfrom hq hprot ((eligible_iff _ _).2 hacc)
  -- `m2` has been handled, so `m1`, with a smaller number, has been handled before it
  have hs1 : m1 ∈ sents s.log := by
    obtain ⟨a, b, c, hL⟩ := hsent
    rw [mem_sents, hL]; simp
  have hpre : ∀ t, (fromS t (handleds pre)) <+: (fromS t (handleds s.log)) := by
    intro t
    rw [hm, handleds_append, fromS_append]
    exact List.prefix_append _ _
  have hrange : ∀ t, (fromS t (handleds pre)).map Msg.seq = List.range (fromS t (handleds pre)).length := by
    intro t
    obtain ⟨k, hk⟩ := hpre t
    have := h.inv.n.hseq t
    rw [← hk, List.map_append] at this
    have h2 := congrArg (List.take (fromS t (handleds pre)).length) this
    rw [List.take_left' (by simp), List.take_range] at h2
    rw [h2]
    refine congrArg List.range ?_
    have := congrArg List.length this
    simp at this
    omega
  obtain ⟨x, hx, e1, e2⟩ := exists_of_seq_lt hrange (t := m2.sender) (q := m1.seq)
    (Nat.lt_trans hq (seq_lt_of_mem hrange (mem_handleds.2 hh)))
  have hx' : x ∈ handleds s.log := by rw [hm, handleds_append]; exact List.mem_append_left _ hx
  have := eq_of_key h.inv.n.sseq (h.inv.n.handled_sent hx') hs1 (e1.trans hfrom.symm) e2
  subst this
  exact mem_handleds.1 hx

/-- If two receives are both able to take a message and the later one takes it, the
earlier one has already been matched or was cancelled.  All protocols. -/
theorem C17_recv_order (s : St) (hr : Reach s) (m : Msg) (r1 r2 : Req) (pre post : List Ev)
    (hm : s.log = pre ++ .matched r2 m :: post)
    (hposted : Before s.log (.posted r1) (.posted r2)) (hacc : Accepts r1 m) :
    (∃ m1, Ev.matched r1 m1 ∈ pre) ∨ Ev.cancelled r1.id ∈ pre := by
  have h := hr.full
  have hid := posted_before_id h hposted
  obtain ⟨_, _, _, hp2, _, _, _, _, hrc⟩ := h.inv.m.good _ _ _ hm
  refine hrc r1 ?_ hid ((eligible_iff _ _).2 hacc)
  -- the post of `r1` precedes that of `r2`, which is in `pre`
  obtain ⟨p, q, hpq⟩ := List.append_of_mem hp2
  obtain ⟨a, b, c, hL⟩ := hposted
  have hmem : r1 ∈ posteds s.log := by rw [mem_posteds, hL]; simp
  rw [hm, posteds_append] at hmem
  rcases List.mem_append.1 hmem with h1 | h1
  · exact mem_posteds.1 h1
  · -- `r1` after `r2`: contradicts increasing ids
    exfalso
    have hids := h.inv.m.ids
    have hsorted : ((posteds s.log).map Req.id).Pairwise (· < ·) := by rw [hids]; exact List.pairwise_lt_range
    rw [hm, posteds_append, List.pairwise_map, List.pairwise_append] at hsorted
    have := hsorted.2.2 r2 (mem_posteds.2 hp2) r1 h1
    omega

/-- Two sends of one rank with tag 7 to one receiver, small then large, each received. -/
def demo17 : List Op :=
  [.send 3 3 7 0 100 .eager0, .send 3 3 7 0 100000 .rendezvous, .deliver 1, .recv 3 7 0 100000,
   .deliver 0, .recv (-2) (-1) 0 100000]

/-- The log of a run that does not abort. -/
def logOf (r : Except Abort St) : List Ev := match r with | .ok s => s.log | .error _ => []

example : logOf (run St.init demo17) =
    [.sent ⟨3, 0, 3, 7, 0, 100, .eager0⟩, .sent ⟨3, 1, 3, 7, 0, 100000, .rendezvous⟩,
     .posted ⟨0, 3, 7, 0, 100000⟩, .handled ⟨3, 0, 3, 7, 0, 100, .eager0⟩,
     .matched ⟨0, 3, 7, 0, 100000⟩ ⟨3, 0, 3, 7, 0, 100, .eager0⟩,
     .handled ⟨3, 1, 3, 7, 0, 100000, .rendezvous⟩, .posted ⟨1, -2, -1, 0, 100000⟩,
     .matched ⟨1, -2, -1, 0, 100000⟩ ⟨3, 1, 3, 7, 0, 100000, .rendezvous⟩] := by decide

/-- The second eager protocol breaks non-overtaking: a 4096-byte message followed by a
100-byte one with the same tag; the receive takes the second. -/
theorem C17_overtake_refuted :
    ∃ (s : St) (m1 m2 : Msg) (r : Req) (pre post : List Ev), Reach s ∧
      s.log = pre ++ .matched r m2 :: post ∧ Before s.log (.sent m1) (.sent m2) ∧ m1.sender = m2.sender ∧
      Accepts r m1 ∧ Accepts r m2 ∧ ∀ r1, Ev.matched r1 m1 ∉ s.log := by
  refine ⟨_, ⟨3, 0, 3, 7, 0, 4096, .eager1⟩, ⟨3, 1, 3, 7, 0, 100, .eager0⟩, ⟨0, 3, 7, 0, 8192⟩,
    [.sent ⟨3, 0, 3, 7, 0, 4096, .eager1⟩, .sent ⟨3, 1, 3, 7, 0, 100, .eager0⟩, .posted ⟨0, 3, 7, 0, 8192⟩,
     .handled ⟨3, 0, 3, 7, 0, 4096, .eager1⟩, .handled ⟨3, 1, 3, 7, 0, 100, .eager0⟩], [],
    ⟨[.send 3 3 7 0 4096 .eager1, .send 3 3 7 0 100 .eager0, .recv 3 7 0 8192, .deliver 0, .deliver 0], rfl⟩, rfl,
    ⟨[], [], _, rfl⟩, rfl, ?_, ?_, ?_⟩
  · exact (eligible_iff _ _).1 (by decide)
  · exact (eligible_iff _ _).1 (by decide)
  · intro r1 hr1
    simp [upd, St.init] at hr1

/-! ### C18: messages are processed in the order they were sent -/

/-- The messages of one sender that the receiver has processed are, in order, the first so
many messages the sender sent - whatever order the network delivered them in. -/
theorem C18_in_order (s : St) (hr : Reach s) (t : Nat) :
    fromS t (handleds s.log) <+: fromS t (sents s.log) := by
  have h := hr.full
  refine list_prefix_of_seq (h.inv.n.hseq t) (h.inv.n.sseq t) ?_
  intro m hm
  obtain ⟨h1, h2⟩ := mem_fromS.1 hm
  exact mem_fromS.2 ⟨h.inv.n.handled_sent h1, h2⟩

/-- Once the network is empty nothing is held back: every message has been processed. -/
theorem C18_all_released (s : St) (hr : Reach s) (hnet : s.net = []) (t : Nat) :
    s.held t = [] ∧ fromS t (handleds s.log) = fromS t (sents s.log) := by
  have h := hr.full
  have hall : s.nextOut t ≤ s.nextIn t := by
    apply Classical.byContradiction
    intro hlt
    obtain ⟨m, hm, e1, e2⟩ := exists_of_seq_lt h.inv.n.sseq (Nat.lt_of_not_le hlt)
    have hc := h.inv.n.cons m
    rw [hnet, e1] at hc
    have := List.count_pos_iff.2 hm
    by_cases hh : m ∈ s.held t
    · have := h.strict t m hh; omega
    · have h0 := List.count_eq_zero.2 hh
      have hhd : m ∈ handleds s.log := List.count_pos_iff.1 (by simp at hc; omega)
      have := seq_lt_of_mem h.inv.n.hseq hhd
      rw [e1] at this
      omega
  constructor
  · apply List.eq_nil_iff_forall_not_mem.2
    intro m hm
    have h1 := h.strict t m hm
    have h2 := seq_lt_of_mem h.inv.n.sseq (h.inv.n.held_sent hm)
    rw [h.inv.n.hsend t m hm] at h2
    omega
  · refine (C18_in_order s hr t).eq_of_length_le ?_
    have h1 := congrArg List.length (h.inv.n.hseq t)
    have h2 := congrArg List.length (h.inv.n.sseq t)
    simp at h1 h2
    omega

/-- The receiver never stops with "message sequence went backwards". -/
theorem C18_never_backwards (ops : List Op) : run St.init ops ≠ .error .backwards := by
  suffices ∀ s, Full s → run s ops ≠ .error .backwards from this _ Full.init
  induction ops with
  | nil => intro s _; simp [run]
  | cons op ops ih =>
    intro s h
    simp only [run]
    cases hst : step s op with
    | error a =>
      have := (step_error h hst).1
      subst this
      simp
    | ok s1 => exact ih s1 (h.step hst)

/-- Three messages delivered in the order 2, 1, 0 are processed in the order 0, 1, 2. -/
def demo18 : List Op :=
  [.send 1 1 5 0 8 .eager0, .send 1 1 6 0 8 .eager0, .send 1 1 7 0 8 .eager0, .deliver 2, .deliver 1, .deliver 0]

example : (handleds (logOf (run St.init demo18))).map Msg.tag = [5, 6, 7] := by decide

/-! ### C19: nothing is lost and nothing is matched twice -/

/-- Every message sent is in exactly one place: in the network, held for an earlier one,
waiting for its payload, waiting for a receive, or matched. -/
theorem C19_one_place (s : St) (hr : Reach s) (m : Msg) (hm : Ev.sent m ∈ s.log) :
    s.net.count m + (s.held m.sender).count m + s.fetching.count m + s.unexpected.count m +
      ((matches_ s.log).map Prod.snd).count m = 1 := by
  have h := hr.full
  have h1 := h.inv.n.cons m
  have h2 := h.inv.m.cons m
  have h3 := h.inv.n.sent_le_one m
  have h4 := List.count_pos_iff.2 (mem_sents.2 hm)
  omega

/-- A match uses a message and a receive that no earlier match used, both of which exist. -/
theorem C19_match_once (s : St) (hr : Reach s) (r : Req) (m : Msg) (pre post : List Ev)
    (hm : s.log = pre ++ .matched r m :: post) :
    Ev.sent m ∈ s.log ∧ Ev.posted r ∈ pre ∧ Ev.cancelled r.id ∉ pre ∧
      (∀ r', Ev.matched r' m ∉ pre) ∧ (∀ m', Ev.matched r m' ∉ pre) := by
  have h := hr.full
  obtain ⟨_, _, hh, hp, hc, h1, h2, _, _⟩ := h.inv.m.good _ _ _ hm
  refine ⟨?_, hp, hc, h1, h2⟩
  refine mem_sents.1 (h.inv.n.handled_sent ?_)
  rw [hm, handleds_append]
  exact List.mem_append_left _ (mem_handleds.2 hh)

/-- A receive that was posted is matched, cancelled or still waiting. -/
theorem C19_receives_kept (s : St) (hr : Reach s) (r : Req) (h : Ev.posted r ∈ s.log) :
    r ∈ s.posted ∨ (∃ m, Ev.matched r m ∈ s.log) ∨ Ev.cancelled r.id ∈ s.log := by
  have hf := hr.full
  rcases hf.inv.m.pall r h with h1 | h1 | h1
  · exact .inl h1
  · exact .inr (.inl h1)
  · exact .inr (.inr ((hf.inv.m.canc _).1 h1))

/-- Once the network and the payload fetches are drained, a message that was sent and a
receive that was posted and not cancelled are not both left unmatched if the receive
accepts the message. -/
theorem C19_no_missed_match (s : St) (hr : Reach s) (hnet : s.net = []) (hfetch : s.fetching = [])
    (r : Req) (m : Msg) (hm : Ev.sent m ∈ s.log) (hp : Ev.posted r ∈ s.log) (hc : Ev.cancelled r.id ∉ s.log)
    (hacc : Accepts r m) : (∃ r', Ev.matched r' m ∈ s.log) ∨ (∃ m', Ev.matched r m' ∈ s.log) := by
  have hf := hr.full
  have h1 := C19_one_place s hr m hm
  have h2 := (C18_all_released s hr hnet m.sender).1
  rw [hnet, hfetch, h2] at h1
  simp only [List.count_nil] at h1
  rcases C19_receives_kept s hr r hp with h3 | h3 | h3
  · by_cases hu : m ∈ s.unexpected
    · have := hf.inv.m.dead m hu r h3 (fun hcc => hc ((hf.inv.m.canc _).1 hcc))
      rw [(eligible_iff r m).2 hacc] at this
      cases this
    · have := List.count_eq_zero.2 hu
      exact .inl (mem_matched_snd.1 (List.count_pos_iff.1 (by omega)))
  · exact .inr h3
  · exact absurd h3 hc

/-- A run with an unexpected message, a cancelled receive and two matches. -/
def demo19 : List Op :=
  [.recv 4 1 0 64, .recv (-2) 1 0 64, .cancel 0, .send 4 4 1 0 64 .eager1, .send 4 4 2 0 32 .eager0,
   .deliver 1, .deliver 0, .payload 0, .recv 4 2 0 32]

example : matches_ (logOf (run St.init demo19)) =
    [(⟨1, -2, 1, 0, 64⟩, ⟨4, 0, 4, 1, 0, 64, .eager1⟩), (⟨2, 4, 2, 0, 32⟩, ⟨4, 1, 4, 2, 0, 32, .eager0⟩)] := by
  decide

/-! ### C20: what may match -/

/-- A receive is only ever given a message of its communicator, from the source and with
the tag it asked for. -/
theorem C20_match_criteria (s : St) (hr : Reach s) (r : Req) (m : Msg) (h : Ev.matched r m ∈ s.log) :
    r.comm = m.comm ∧ (r.source = m.src ∨ r.source = -2) ∧ (r.tag = m.tag ∨ r.tag = -1) := by
  obtain ⟨pre, post, hsp⟩ := List.append_of_mem h
  exact (eligible_iff r m).1 (hr.full.inv.m.good _ _ _ hsp).1

theorem int32_small {n : Nat} (h : n < 2 ^ 31) : int32 n = n := by
  unfold int32; exact Int.bmod_eq_of_le (by omega) (by omega)

/-- The size check does what it should for sizes below 2^31 and messages that are not sent by
rendezvous. -/
theorem tooBig_iff {m : Msg} {r : Req} (hp : m.prot ≠ .rendezvous) (hm : m.bytes < 2 ^ 31) (hr : r.cap < 2 ^ 31) :
    tooBig m r = true ↔ r.cap < m.bytes := by
  have : m.payload = m.bytes := by unfold Msg.payload; split <;> simp_all
  unfold tooBig
  rw [this, int32_small hm, int32_small hr]
  simp

/-- For a rendezvous message it compares the size of the header. -/
theorem tooBig_rendezvous {m : Msg} {r : Req} (hp : m.prot = .rendezvous) (hr : r.cap < 2 ^ 31) :
    tooBig m r = true ↔ r.cap < 64 := by
  have : m.payload = 64 := by unfold Msg.payload; rw [hp]
  unfold tooBig
  rw [this, int32_small (by omega), int32_small hr]
  simp
  omega

theorem fits_not_tooBig {m : Msg} {r : Req} (hfit : m.bytes ≤ r.cap) (hr : r.cap < 2 ^ 31)
    (hhead : m.prot = .rendezvous → 64 ≤ r.cap) : tooBig m r = false := by
  cases hb : tooBig m r with
  | false => rfl
  | true =>
    by_cases hp : m.prot = .rendezvous
    · have := (tooBig_rendezvous hp hr).mp hb
      have := hhead hp
      omega
    · have := (tooBig_iff hp (by omega) hr).mp hb
      omega

/-- The simulation stops with a matching error only if some message that was sent is
accepted by a receive that was posted, and does not fit into it - or the receive is for fewer
than 64 bytes and the message sent by rendezvous, or the receive is for 2^31 bytes or more. -/
theorem C20_abort_justified (s : St) (hr : Reach s) (op : Op) (a : Abort) (h : step s op = .error a) :
    ∃ r m, (Ev.posted r ∈ s.log ∨ op = .recv r.source r.tag r.comm r.cap) ∧ Ev.sent m ∈ s.log ∧
      Accepts r m ∧ (r.cap < m.bytes ∨ (m.prot = .rendezvous ∧ r.cap < 64) ∨ 2 ^ 31 ≤ r.cap) := by
  obtain ⟨_, r, m, h1, h2, h3, h4⟩ := step_error hr.full h
  refine ⟨r, m, h1, h2, (eligible_iff r m).1 h3, ?_⟩
  by_cases hf : m.bytes ≤ r.cap ∧ r.cap < 2 ^ 31 ∧ (m.prot = .rendezvous → 64 ≤ r.cap)
  · rw [fits_not_tooBig hf.1 hf.2.1 hf.2.2] at h4; cases h4
  · by_cases h5 : m.bytes ≤ r.cap
    · by_cases h6 : r.cap < 2 ^ 31
      · refine Or.inr (Or.inl ?_)
        by_cases h7 : m.prot = .rendezvous
        · refine ⟨h7, ?_⟩
          by_cases h8 : r.cap < 64
          · exact h8
          · exact absurd ⟨h5, h6, fun _ => by omega⟩ hf
        · exact absurd ⟨h5, h6, fun h => absurd h h7⟩ hf
      · exact Or.inr (Or.inr (by omega))
    · exact Or.inl (by omega)

/-- Of the messages waiting for a receive, a new receive takes the one queued first among
those it accepts. -/
theorem C20_earliest_message (s : St) (source tag : Int) (comm cap : Nat) (a b : List Msg) (m : Msg)
    (hq : s.unexpected = a ++ m :: b) (hm : Accepts ⟨s.nextReq, source, tag, comm, cap⟩ m) (hfit : m.bytes ≤ cap)
    (hcap : cap < 2 ^ 31) (hhead : m.prot = .rendezvous → 64 ≤ cap)
    (ha : ∀ x ∈ a, ¬ Accepts ⟨s.nextReq, source, tag, comm, cap⟩ x) :
    ∃ s', step s (.recv source tag comm cap) = .ok s' ∧ s'.unexpected = a ++ b ∧
      s'.log = s.log ++ [.posted ⟨s.nextReq, source, tag, comm, cap⟩, .matched ⟨s.nextReq, source, tag, comm, cap⟩ m] := by
  have key : searchUnexpected ⟨s.nextReq, source, tag, comm, cap⟩ (a ++ m :: b) = .ok (some m, a ++ b) := by
    clear hq
    induction a with
    | nil =>
      simp only [List.nil_append, searchUnexpected, (eligible_iff _ m).2 hm, if_true]
      rw [fits_not_tooBig (r := ⟨s.nextReq, source, tag, comm, cap⟩) hfit hcap hhead]
      rfl
    | cons y a ih =>
      have hy : Req.eligible ⟨s.nextReq, source, tag, comm, cap⟩ y = false := by
        cases hh : Req.eligible ⟨s.nextReq, source, tag, comm, cap⟩ y with
        | false => rfl
        | true => exact absurd ((eligible_iff _ y).1 hh) (ha y (List.mem_cons_self ..))
      simp only [List.cons_append, searchUnexpected, hy]
      rw [ih (fun x hx => ha x (List.mem_cons_of_mem _ hx))]
      simp
  refine ⟨_, by simp only [step, post, hq, key]; rfl, by simp, by simp⟩

/-- Wrong communicator, wrong tag, then the right one with both wildcards. -/
example : matches_ (logOf (run St.init [.recv (-2) (-1) 1 8, .recv 2 9 0 8, .recv (-2) (-1) 0 8,
    .send 2 2 8 0 8 .eager0, .deliver 0])) = [(⟨2, -2, -1, 0, 8⟩, ⟨2, 0, 2, 8, 0, 8, .eager0⟩)] := by decide

example : (match run St.init [.recv 2 8 0 4, .send 2 2 8 0 8 .eager0, .deliver 0] with
      | .error .tooSmall => true | _ => false) = true := by decide

/-! ### C93: messages that do not fit -/

/-- A message that is not sent by rendezvous and is longer than the receive it matches stops
the simulation instead of being received: no pair of sizes below 2^31 is matched unless the
message fits.  Missing: rendezvous messages (`C93_rendezvous_overflow_refuted`) and sizes from
2^31 (`C93_large_receive_refuted`). -/
theorem C93_fits_partial (s : St) (hr : Reach s) (r : Req) (m : Msg) (h : Ev.matched r m ∈ s.log)
    (hp : m.prot ≠ .rendezvous) (hm : m.bytes < 2 ^ 31) (hc : r.cap < 2 ^ 31) : m.bytes ≤ r.cap := by
  obtain ⟨pre, post, hsp⟩ := List.append_of_mem h
  obtain ⟨_, h2, _⟩ := hr.full.inv.m.good _ _ _ hsp
  by_cases hle : m.bytes ≤ r.cap
  · exact hle
  · rw [(tooBig_iff hp hm hc).mpr (by omega)] at h2; cases h2

/-- A message that fits is never rejected, if the receive is for fewer than 2^31 bytes and, for
rendezvous, at least 64: when all receives and messages are so, no step stops the simulation.
Missing: the other sizes (`C93_short_receive_refuted`, `C93_large_receive_refuted`). -/
theorem C93_accepts_partial (s : St) (hr : Reach s) (op : Op)
    (hfit : ∀ r m, (Ev.posted r ∈ s.log ∨ op = .recv r.source r.tag r.comm r.cap) → Ev.sent m ∈ s.log → Accepts r m →
      m.bytes ≤ r.cap ∧ r.cap < 2 ^ 31 ∧ (m.prot = .rendezvous → 64 ≤ r.cap)) : ∃ s', step s op = .ok s' := by
  cases hs : step s op with
  | ok s' => exact ⟨s', rfl⟩
  | error a =>
    obtain ⟨r, m, h1, h2, h3, h4⟩ := C20_abort_justified s hr op a hs
    obtain ⟨f1, f2, f3⟩ := hfit r m h1 h2 h3
    rcases h4 with h | ⟨h, h'⟩ | h
    · omega
    · have := f3 h; omega
    · omega

/-- A message of 9000 bytes sent by rendezvous is matched with a receive for 64 bytes. -/
theorem C93_rendezvous_overflow_refuted :
    ¬ ∀ s : St, Reach s → ∀ r m, Ev.matched r m ∈ s.log → m.bytes ≤ r.cap := by
  intro h
  have hrun : ∃ s, run St.init [.recv 2 8 0 64, .send 2 2 8 0 9000 .rendezvous, .deliver 0] = .ok s ∧
      Ev.matched ⟨0, 2, 8, 0, 64⟩ ⟨2, 0, 2, 8, 0, 9000, .rendezvous⟩ ∈ s.log := ⟨_, rfl, by decide⟩
  obtain ⟨s, h1, h2⟩ := hrun
  have := h s ⟨_, h1⟩ _ _ h2
  exact absurd this (by decide)

/-- With the limits for the eager protocols set to 0, a message of 8 bytes is rejected by a
receive for 8 bytes. -/
theorem C93_short_receive_refuted :
    ¬ ∀ ops, (∀ t src tag comm bytes prot, Op.send t src tag comm bytes prot ∈ ops → bytes ≤ 8) →
      (∀ source tag comm cap, Op.recv source tag comm cap ∈ ops → cap = 8) → ∃ s, run St.init ops = .ok s := by
  intro h
  obtain ⟨s, hs⟩ := h [.recv 2 8 0 8, .send 2 2 8 0 8 .rendezvous, .deliver 0]
    (by simp only [List.mem_cons, List.not_mem_nil, reduceCtorEq, false_or, or_false, Op.send.injEq]; omega)
    (by simp only [List.mem_cons, List.not_mem_nil, reduceCtorEq, or_false, Op.recv.injEq]; omega)
  simp only [run, step] at hs
  cases hs

/-- A receive for 4 GB rejects a message of 8 bytes. -/
theorem C93_large_receive_refuted :
    ¬ ∀ ops, (∀ t src tag comm bytes prot, Op.send t src tag comm bytes prot ∈ ops → bytes ≤ 8) →
      (∀ source tag comm cap, Op.recv source tag comm cap ∈ ops → cap = 2 ^ 32) → ∃ s, run St.init ops = .ok s := by
  intro h
  obtain ⟨s, hs⟩ := h [.recv 2 8 0 (2 ^ 32), .send 2 2 8 0 8 .eager0, .deliver 0]
    (by simp only [List.mem_cons, List.not_mem_nil, reduceCtorEq, false_or, or_false, Op.send.injEq]; omega)
    (by simp only [List.mem_cons, List.not_mem_nil, reduceCtorEq, or_false, Op.recv.injEq]; omega)
  simp only [run, step] at hs
  cases hs

/-! ### C21: the protocol depends on the size only -/

/-- The protocol is decided by the exact number of bytes, with no wrap-around for any
counts and sizes an `int` can hold. -/
theorem C21_protocol_by_size (count packed vshort eager : BitVec 32)
    (h1 : 0 ≤ count.toInt) (h2 : 0 ≤ packed.toInt) (h3 : 0 ≤ vshort.toInt) (h4 : 0 ≤ eager.toInt) :
    let n := count.toInt * packed.toInt
    (chooseProt count packed vshort eager = .eager0 ↔ n ≤ vshort.toInt) ∧
    (chooseProt count packed vshort eager = .eager1 ↔ vshort.toInt < n ∧ n ≤ eager.toInt) ∧
    (chooseProt count packed vshort eager = .rendezvous ↔ vshort.toInt < n ∧ eager.toInt < n) := by
  have key : ∀ x : BitVec 32, 0 ≤ x.toInt → (x.signExtend 64).toNat = x.toNat ∧ x.toInt = (x.toNat : Int) ∧ x.toNat < 2 ^ 31 := by
    intro x hx
    have hx2 : x.toInt = (x.toNat : Int) ∧ x.toNat < 2 ^ 31 := by
      rw [BitVec.toInt_eq_toNat_cond] at hx ⊢
      have := x.isLt
      split at hx <;> rename_i hc
      · rw [if_pos hc]; exact ⟨rfl, by omega⟩
      · omega
    refine ⟨?_, hx2⟩
    have hm : x.msb = false := by
      rw [BitVec.msb_eq_decide]; simp; omega
    rw [BitVec.signExtend_eq_setWidth_of_msb_false hm, BitVec.toNat_setWidth]
    have := x.isLt
    omega
  obtain ⟨c1, c2, c3⟩ := key count h1
  obtain ⟨p1, p2, p3⟩ := key packed h2
  obtain ⟨v1, v2, v3⟩ := key vshort h3
  obtain ⟨e1, e2, e3⟩ := key eager h4
  have hprod : (count.signExtend 64 * packed.signExtend 64).toNat = count.toNat * packed.toNat := by
    rw [BitVec.toNat_mul, c1, p1, Nat.mod_eq_of_lt]
    calc count.toNat * packed.toNat ≤ 2 ^ 31 * 2 ^ 31 := Nat.mul_le_mul (by omega) (by omega)
      _ < 2 ^ 64 := by decide
  have hn : count.toInt * packed.toInt = ((count.toNat * packed.toNat : Nat) : Int) := by rw [c2, p2]; simp
  intro n
  have hn' : n = ((count.toNat * packed.toNat : Nat) : Int) := hn
  unfold chooseProt
  simp only [BitVec.le_def, hprod, v1, e1]
  rw [v2, e2, hn']
  generalize count.toNat * packed.toNat = k
  by_cases a1 : k ≤ vshort.toNat
  · simp [a1]; omega
  · by_cases a2 : k ≤ eager.toNat
    · simp [a1, a2]; omega
    · simp [a1, a2]; omega

/-- Position of a protocol in the order of increasing sizes. -/
def Prot.rank : Prot → Nat
  | .eager0 => 0
  | .eager1 => 1
  | .rendezvous => 2

/-- A longer message never uses a protocol meant for shorter ones. -/
theorem C21_monotone (c1 p1 c2 p2 vshort eager : BitVec 32)
    (h1 : 0 ≤ c1.toInt) (h2 : 0 ≤ p1.toInt) (h3 : 0 ≤ c2.toInt) (h4 : 0 ≤ p2.toInt)
    (h5 : 0 ≤ vshort.toInt) (h6 : 0 ≤ eager.toInt) (hle : c1.toInt * p1.toInt ≤ c2.toInt * p2.toInt) :
    (chooseProt c1 p1 vshort eager).rank ≤ (chooseProt c2 p2 vshort eager).rank := by
  obtain ⟨a0, a1, a2⟩ := C21_protocol_by_size c1 p1 vshort eager h1 h2 h5 h6
  obtain ⟨b0, b1, b2⟩ := C21_protocol_by_size c2 p2 vshort eager h3 h4 h5 h6
  cases ha : chooseProt c1 p1 vshort eager <;> cases hb : chooseProt c2 p2 vshort eager <;>
    simp only [ha, hb, reduceCtorEq, false_iff, true_iff] at a0 a1 a2 b0 b1 b2 <;>
    simp only [Prot.rank] <;> omega

/-- At the default limits: 512 bytes, 513 bytes, and a size above 2^32. -/
example : chooseProt 64 8 512 8192 = .eager0 ∧ chooseProt 513 1 512 8192 = .eager1 ∧
    chooseProt 2147483647 8 512 8192 = .rendezvous := by decide

/-! ### C70: what a probe reports is what a receive gets -/

/-- An immediate probe reports a message exactly when a receive with the same arguments,
posted instead, is matched at once, and the message it reports is the one the receive gets (if
it is large enough for the message and the header, and smaller than 2^31 bytes). -/
theorem C70_probe_agrees (s : St) (source tag : Int) (comm cap : Nat) (hcap : cap < 2 ^ 31) (hhead : 64 ≤ cap ∨ ∀ m ∈ s.unexpected, m.prot ≠ .rendezvous) :
    (∀ m, iprobe s source tag comm = some m → m.bytes ≤ cap →
      ∃ s', step s (.recv source tag comm cap) = .ok s' ∧
        s'.log = s.log ++ [.posted ⟨s.nextReq, source, tag, comm, cap⟩, .matched ⟨s.nextReq, source, tag, comm, cap⟩ m]) ∧
    (iprobe s source tag comm = none →
      ∃ s', step s (.recv source tag comm cap) = .ok s' ∧
        s'.log = s.log ++ [.posted ⟨s.nextReq, source, tag, comm, cap⟩]) := by
  have helig : ∀ (i j : Nat) (c c' : Nat) (m : Msg), Req.eligible ⟨i, source, tag, comm, c⟩ m = Req.eligible ⟨j, source, tag, comm, c'⟩ m :=
    fun _ _ _ _ _ => rfl
  have key : ∀ l : List Msg, (64 ≤ cap ∨ ∀ m ∈ l, m.prot ≠ .rendezvous) →
      (∀ m, l.find? (fun m => Req.eligible ⟨0, source, tag, comm, 0⟩ m) = some m → m.bytes ≤ cap →
        ∃ ms, searchUnexpected ⟨s.nextReq, source, tag, comm, cap⟩ l = .ok (some m, ms)) ∧
      (l.find? (fun m => Req.eligible ⟨0, source, tag, comm, 0⟩ m) = none →
        ∃ ms, searchUnexpected ⟨s.nextReq, source, tag, comm, cap⟩ l = .ok (none, ms)) := by
    intro l
    induction l with
    | nil => exact fun _ => ⟨by simp, fun _ => ⟨_, rfl⟩⟩
    | cons y l ih =>
      intro hh
      replace ih := ih (hh.imp id fun h m hm => h m (List.mem_cons_of_mem _ hm))
      simp only [List.find?_cons, searchUnexpected]
      rw [helig 0 s.nextReq 0 cap y]
      cases he : Req.eligible ⟨s.nextReq, source, tag, comm, cap⟩ y with
      | true =>
        refine ⟨?_, by simp⟩
        intro m hm hb
        simp only [Option.some.injEq] at hm
        subst hm
        have hf : tooBig y ⟨s.nextReq, source, tag, comm, cap⟩ = false :=
          fits_not_tooBig hb hcap fun hp => hh.elim id fun h => absurd hp (h y List.mem_cons_self)
        exact ⟨l, by simp [hf]⟩
      | false =>
        refine ⟨?_, ?_⟩
        · intro m hm hb
          obtain ⟨ms, h⟩ := ih.1 m hm hb
          exact ⟨y :: ms, by simp [h]⟩
        · intro hn
          obtain ⟨ms, h⟩ := ih.2 hn
          exact ⟨y :: ms, by simp [h]⟩
  constructor
  · intro m hm hb
    obtain ⟨ms, h⟩ := (key s.unexpected hhead).1 m hm hb
    refine ⟨_, by simp only [step, post, h]; rfl, by simp⟩
  · intro hn
    obtain ⟨ms, h⟩ := (key s.unexpected hhead).2 hn
    refine ⟨_, by simp only [step, post, h]; rfl, by simp⟩

example : (match run St.init [.send 2 2 8 0 8 .eager0, .send 2 2 9 0 16 .eager0, .deliver 0, .deliver 0] with
    | .ok s => (iprobe s (-2) 9 0).map Msg.bytes | _ => none) = some 16 := by decide

end SST.Mpi
