import Verif.Nic.LogPLemmas
set_option autoImplicit false
/-
The LogP network: injection and reception take their time and do not overlap, every message
arrives once at the time the parameters say, and order is kept when the NIC is not faster than
the network.  Refuted: receptions early in a run overlap; messages of exactly the negligible
size are delayed; messages overtake when the NIC is faster; contention differs between runs.
-/
namespace SST.Nic.LogP

/-- A NIC injects one message after the other, in the order of the calls, each for its latency
and time per byte; a message leaves at the call or exactly when an earlier one is finished.
Messages up to the negligible size leave and are acknowledged at the call. -/
theorem C109_injection (c : Cfg) (s : Net) (hr : Reach c s) :
    (s.sent.Pairwise fun a b => a.msg.src = b.msg.src → c.negligible < a.msg.bytes → c.negligible < b.msg.bytes → a.stop ≤ b.start) ∧
    (∀ r ∈ s.sent, c.negligible < r.msg.bytes → r.call ≤ r.start ∧ r.stop = r.start + c.injLat + c.injByte * r.msg.bytes) ∧
    (∀ r ∈ s.sent, r.start = r.call ∨ ∃ r' ∈ s.sent, r'.msg.src = r.msg.src ∧ c.negligible < r'.msg.bytes ∧ r'.stop = r.start) ∧
    (∀ r ∈ s.sent, r.msg.bytes ≤ c.negligible → r.start = r.call ∧ r.stop = r.call) := by
  have h := sinv c s hr
  exact ⟨h.order, fun r hm hb => ⟨(h.times r hm).1, (h.times r hm).2.2.1 hb⟩, h.wait, fun r hm => (h.times r hm).2.2.2⟩

/-- Every message arrives exactly once, at the time it left plus its bytes, its hops and the
latency of the link; never before the look-ahead of a parallel simulation. -/
theorem C109_arrival (c : Cfg) (s : Net) (hr : Reach c s) :
    (s.got.map (·.1) ++ s.wire).Perm s.sent ∧
    (∀ r ∈ s.sent, r.arr = r.start + r.extra + c.netByte * r.msg.bytes + c.hops r.msg.src r.msg.dst * c.hopLat + c.outIn ∧
      r.call + c.outIn ≤ r.arr) ∧
    (∀ r ∈ s.wire, s.now ≤ r.arr) ∧ (∀ g ∈ s.got, g.1.arr ≤ s.now) := by
  have h := sinv c s hr
  refine ⟨h.once, fun r hm => ?_, h.ahead, h.gotPast⟩
  obtain ⟨h1, h2, _⟩ := h.times r hm
  rw [h2]
  unfold arrival
  omega

theorem notEarly_of (c : Cfg) (s : Net) (hr : Reach c s) (hb : c.injByte ≤ c.netByte) (ho : 0 < c.outIn) : NotEarly c s := by
  intro g hg _
  have h := sinv c s hr
  have hm : g.1 ∈ s.sent := h.once.subset (List.mem_append_left _ (List.mem_map_of_mem hg))
  rw [(h.times g.1 hm).2.1]
  unfold arrival
  have := Nat.mul_le_mul_right g.1.msg.bytes hb
  omega

/-- A NIC takes in one message after the other, each for its time per byte; a message is given
to the node when it has arrived, or exactly when an earlier one and then this one have been
taken in.  Full property: for all parameters; proved when no message arrives earlier than it
takes to take it in, in particular when the NIC is at least as fast as the network. -/
theorem C109_reception_partial (c : Cfg) (s : Net) (hr : Reach c s)
    (he : (∀ g ∈ s.got, c.negligible ≤ g.1.msg.bytes → c.injByte * g.1.msg.bytes < g.1.arr) ∨
      (c.injByte ≤ c.netByte ∧ 0 < c.outIn)) :
    (s.got.Pairwise fun a b => a.1.msg.dst = b.1.msg.dst → c.negligible ≤ a.1.msg.bytes →
      c.negligible ≤ b.1.msg.bytes → a.2 + c.injByte * b.1.msg.bytes ≤ b.2) ∧
    (∀ g ∈ s.got, g.1.arr ≤ g.2) ∧ (∀ g ∈ s.got, g.1.msg.bytes < c.negligible → g.2 = g.1.arr) ∧
    (∀ g ∈ s.got, g.2 = g.1.arr ∨ ∃ g' ∈ s.got, g'.1.msg.dst = g.1.msg.dst ∧ c.negligible ≤ g'.1.msg.bytes ∧
      g.2 = g'.2 + c.injByte * g.1.msg.bytes) := by
  have hn : NotEarly c s := he.elim id fun h => notEarly_of c s hr h.1 h.2
  have h := rinv c s hr hn
  exact ⟨h.order, fun g hg => (h.times g hg).1, fun g hg => (h.times g hg).2, h.wait⟩

/-- Two nodes send 100 bytes to a third at the start; the NIC needs 10 ticks per byte. -/
def slow : Cfg := ⟨1, 10, 1, 1, 1, 0, fun _ _ => 1⟩

/-- The messages of that run. -/
def slowA : Msg := ⟨0, 0, 2, 100⟩
/-- The second one. -/
def slowB : Msg := ⟨1, 1, 2, 100⟩

/-- Their records. -/
def slowRecA : Rec := ⟨slowA, 0, 0, 1001, 0, 102⟩
/-- The second one. -/
def slowRecB : Rec := ⟨slowB, 0, 0, 1001, 0, 102⟩

/-- A slow NIC gives two messages to its node at once, long before it could have taken in even
one of them: the subtraction of times wraps around. -/
theorem C109_reception_refuted : ∃ s, Reach slow s ∧ s.got = [(slowRecA, 102), (slowRecB, 102)] ∧
    slowRecA.msg.dst = slowRecB.msg.dst ∧ slow.injByte * slowRecA.msg.bytes = 1000 ∧ slow.injByte * slowRecB.msg.bytes = 1000 := by
  refine ⟨(((Net.send slow {} slowA 0).send slow slowB 0).arrive slow slowRecA).arrive slow slowRecB, ?_, ?_, by decide, by decide, by decide⟩
  · refine .step (.step (.step (.step .init (.send _ slowA 0 (by decide))) (.send _ slowB 0 (by decide))) (.arrive _ slowRecA ?_ ?_))
      (.arrive _ slowRecB ?_ ?_)
    all_goals decide
  · decide

/-- Messages of one pair of nodes arrive, and are given to the node, in the order of the calls
if both are above the negligible size, nothing extra delays them, and the network is at least as
fast per byte as the NIC.  Full property: for all parameters and sizes. -/
theorem C109_order_partial (c : Cfg) (s : Net) (hr : Reach c s) (hb : c.netByte ≤ c.injByte) (hl : 0 < c.injLat)
    (he : ∀ r ∈ s.sent, r.extra = 0) :
    (s.sent.Pairwise fun a b => a.msg.src = b.msg.src → a.msg.dst = b.msg.dst → c.negligible < a.msg.bytes →
      c.negligible < b.msg.bytes → a.arr < b.arr) ∧
    ((∀ g ∈ s.got, c.negligible ≤ g.1.msg.bytes → c.injByte * g.1.msg.bytes < g.1.arr) →
      s.sent.Pairwise fun a b => a.msg.src = b.msg.src → a.msg.dst = b.msg.dst → c.negligible < a.msg.bytes →
      c.negligible < b.msg.bytes → ∀ d d', (a, d) ∈ s.got → (b, d') ∈ s.got → d + c.injByte * b.msg.bytes ≤ d') := by
  have h := sinv c s hr
  have key : ∀ a ∈ s.sent, ∀ b ∈ s.sent, (a.msg.src = b.msg.src → c.negligible < a.msg.bytes → c.negligible < b.msg.bytes → a.stop ≤ b.start) →
      a.msg.src = b.msg.src → a.msg.dst = b.msg.dst → c.negligible < a.msg.bytes → c.negligible < b.msg.bytes → a.arr < b.arr := by
    intro a ha b hmb hab h1 h2 h3 h4
    have h5 := hab h1 h3 h4
    obtain ⟨_, ea, sa, _⟩ := h.times a ha
    obtain ⟨_, eb, _, _⟩ := h.times b hmb
    have sa := sa h3
    have xa := he a ha
    have xb := he b hmb
    rw [ea, eb, xa, xb]
    unfold arrival
    rw [h1, h2]
    have := Nat.mul_le_mul_right a.msg.bytes hb
    omega
  have first := List.Pairwise.imp_of_mem (fun {a b} ha hb hab => key a ha b hb hab) h.order
  refine ⟨first, fun hn => ?_⟩
  have hR := rinv c s hr hn
  refine List.Pairwise.imp_of_mem ?_ first
  intro a b _ _ hab h1 h2 h3 h4 d d' hd hd'
  have hlt := hab h1 h2 h3 h4
  -- the positions in the list of received messages
  have hne : (a, d) ≠ (b, d') := by
    intro he
    injection he with h1 _
    subst h1
    omega
  have both : s.got.Pairwise fun x y => x.1.arr ≤ y.1.arr ∧ (x.1.msg.dst = y.1.msg.dst → c.negligible ≤ x.1.msg.bytes →
      c.negligible ≤ y.1.msg.bytes → x.2 + c.injByte * y.1.msg.bytes ≤ y.2) := h.gotOrder.and hR.order
  have main : ∀ (l : List (Rec × Nat)), (l.Pairwise fun x y => x.1.arr ≤ y.1.arr ∧ (x.1.msg.dst = y.1.msg.dst → c.negligible ≤ x.1.msg.bytes →
      c.negligible ≤ y.1.msg.bytes → x.2 + c.injByte * y.1.msg.bytes ≤ y.2)) → (a, d) ∈ l → (b, d') ∈ l →
      d + c.injByte * b.msg.bytes ≤ d' := by
    intro l
    induction l with
    | nil => intro _ hx; cases hx
    | cons x l ih =>
      intro hp ha hb
      rw [List.pairwise_cons] at hp
      rcases List.mem_cons.1 ha with ha | ha
      · rcases List.mem_cons.1 hb with hb | hb
        · exact absurd (ha.trans hb.symm) hne
        · have := (hp.1 _ hb).2
          rw [← ha] at this
          exact this h2 (by simp only; omega) (by simp only; omega)
      · rcases List.mem_cons.1 hb with hb | hb
        · have := (hp.1 _ ha).1
          rw [← hb] at this
          simp only at this
          omega
        · exact ih hp.2 ha hb
  exact main s.got both hd hd'

/-- A NIC ten times faster than the network. -/
def fast : Cfg := ⟨1, 1, 10, 1, 1, 0, fun _ _ => 1⟩
/-- A long message. -/
def fastA : Msg := ⟨0, 0, 1, 1000⟩
/-- A short message. -/
def fastB : Msg := ⟨1, 0, 1, 1⟩
/-- Their records. -/
def fastRecA : Rec := ⟨fastA, 0, 0, 1001, 0, 10002⟩
/-- The second one. -/
def fastRecB : Rec := ⟨fastB, 0, 1001, 1003, 0, 1013⟩

/-- With a NIC faster than the network a short message overtakes a long one sent before it
between the same nodes. -/
theorem C109_order_refuted : ∃ s, Reach fast s ∧ s.sent = [fastRecA, fastRecB] ∧
    s.got = [(fastRecB, 1013), (fastRecA, 10002)] := by
  refine ⟨(((Net.send fast {} fastA 0).send fast fastB 0).arrive fast fastRecB).arrive fast fastRecA, ?_, by decide, by decide⟩
  refine .step (.step (.step (.step .init (.send _ fastA 0 (by decide))) (.send _ fastB 0 (by decide))) (.arrive _ fastRecB ?_ ?_))
      (.arrive _ fastRecA ?_ ?_)
  all_goals decide

/-- A network where messages up to 100 bytes are negligible. -/
def small : Cfg := ⟨1, 1, 1, 1, 1, 100, fun _ _ => 1⟩
/-- Two messages of exactly that size. -/
def smallA : Msg := ⟨0, 0, 2, 100⟩
/-- The second one. -/
def smallB : Msg := ⟨1, 1, 2, 100⟩
/-- Their records. -/
def smallRecA : Rec := ⟨smallA, 0, 0, 0, 0, 102⟩
/-- The second one. -/
def smallRecB : Rec := ⟨smallB, 0, 0, 0, 0, 102⟩

/-- A message of exactly the negligible size takes no time to send, but it is taken in like a
large one: the second of two waits for the first. -/
theorem C109_negligible_refuted : ∃ s, Reach small s ∧ s.got = [(smallRecA, 102), (smallRecB, 202)] ∧
    (∀ r ∈ s.sent, r.msg.bytes ≤ small.negligible ∧ r.stop = r.call) ∧ smallRecB.arr < 202 := by
  refine ⟨(((Net.send small {} smallA 0).send small smallB 0).arrive small smallRecA).arrive small smallRecB, ?_, by decide, by decide, by decide⟩
  refine .step (.step (.step (.step .init (.send _ smallA 0 (by decide))) (.send _ smallB 0 (by decide))) (.arrive _ smallRecA ?_ ?_))
      (.arrive _ smallRecB ?_ ?_)
  all_goals decide

/-- The theorems' hypotheses are met by a run with two large messages, where the second waits. -/
def even : Cfg := ⟨1, 1, 1, 1, 1, 10, fun _ _ => 1⟩
/-- A record of that run. -/
def evenRecA : Rec := ⟨⟨0, 0, 2, 100⟩, 0, 0, 101, 0, 102⟩
/-- The second one. -/
def evenRecB : Rec := ⟨⟨1, 0, 2, 50⟩, 0, 101, 152, 0, 153⟩
/-- From another node. -/
def evenRecC : Rec := ⟨⟨2, 1, 2, 120⟩, 0, 0, 121, 0, 122⟩

example : ∃ s, Reach even s ∧ s.sent = [evenRecA, evenRecB, evenRecC] ∧ s.got = [(evenRecA, 102), (evenRecC, 222), (evenRecB, 272)] ∧
    (∀ r ∈ s.sent, r.extra = 0) ∧ even.netByte ≤ even.injByte ∧ even.injByte ≤ even.netByte ∧ 0 < even.outIn ∧ 0 < even.injLat := by
  refine ⟨(((((Net.send even {} evenRecA.msg 0).send even evenRecB.msg 0).send even evenRecC.msg 0).arrive even evenRecA).arrive even evenRecC).arrive even evenRecB,
    ?_, by decide, by decide, by decide, by decide, by decide, by decide, by decide⟩
  refine .step (.step (.step (.step (.step (.step .init (.send _ evenRecA.msg 0 (by decide))) (.send _ evenRecB.msg 0 (by decide)))
    (.send _ evenRecC.msg 0 (by decide))) (.arrive _ evenRecA ?_ ?_)) (.arrive _ evenRecC ?_ ?_)) (.arrive _ evenRecB ?_ ?_)
  all_goals decide

theorem loop_count (num : Int) (l : List Int) (h : l.Pairwise fun a b => b ≤ a) :
    contentionLoop num l = (l.filter fun x => decide (x < num)).length := by
  induction l with
  | nil => rfl
  | cons x l ih =>
    rw [List.pairwise_cons] at h
    unfold contentionLoop
    by_cases hx : num > x
    · rw [if_pos hx, List.filter_cons_of_pos (by simpa using hx), List.filter_eq_self.2]
      · rfl
      · intro y hy
        have := h.1 y hy
        simp; omega
    · rw [if_neg hx, ih h.2, List.filter_cons_of_neg (by simpa using hx)]

/-- The level of contention is the number of cutoffs below the random number, which is in the
range; so it is at most the number of cutoffs. -/
theorem C109_contention_level (range : Nat) (cutoffs : List Int) (state : BitVec 64) (hr : 0 < range)
    (hs : cutoffs.Pairwise fun a b => a ≤ b) :
    ∃ num : Nat, num < range ∧ (contention range cutoffs state).1 = (cutoffs.filter fun x => decide (x < (num : Int))).length ∧
    (contention range cutoffs state).1 ≤ cutoffs.length := by
  have h : (contention range cutoffs state).1 =
      (cutoffs.filter fun x => decide (x < (((xorshift64 state).toNat % range : Nat) : Int))).length := by
    unfold contention
    simp only []
    rw [loop_count _ _ (by rw [List.pairwise_reverse]; exact hs), List.filter_reverse, List.length_reverse]
  exact ⟨_, Nat.mod_lt _ hr, h, h ▸ List.length_filter_le _ _⟩

example : (contention 100 [60, 90] 12345678901).1 ≤ 2 ∧ [(60 : Int), 90].Pairwise fun a b => a ≤ b := by decide +kernel

theorem xor_shl_zero (x : BitVec 64) (k : Nat) (hk : 0 < k) (h : x ^^^ (x <<< k) = 0#64) : x = 0#64 := by
  have hb : ∀ i, i < 64 → x.getLsbD i = false := by
    intro i
    induction i using Nat.strongRecOn with
    | _ i ih =>
      intro hi
      have := congrArg (fun y => y.getLsbD i) h
      simp only [BitVec.getLsbD_xor, BitVec.getLsbD_shiftLeft, BitVec.getLsbD_zero] at this
      by_cases hlt : i < k
      · simpa [hlt] using this
      · have hz := ih (i - k) (by omega) (by omega)
        simpa [hi, hlt, hz] using this
  apply BitVec.eq_of_getLsbD_eq
  intro i hi
  rw [hb i hi]; simp

theorem xor_shr_zero (x : BitVec 64) (k : Nat) (hk : 0 < k) (h : x ^^^ (x >>> k) = 0#64) : x = 0#64 := by
  have hb : ∀ j i, i = 63 - j → i < 64 → x.getLsbD i = false := by
    intro j
    induction j using Nat.strongRecOn with
    | _ j ih =>
      intro i hij hi
      have := congrArg (fun y => y.getLsbD i) h
      simp only [BitVec.getLsbD_xor, BitVec.getLsbD_ushiftRight, BitVec.getLsbD_zero] at this
      by_cases hlt : k + i < 64
      · have hz := ih (63 - (k + i)) (by omega) (k + i) (by omega) hlt
        simpa [hz] using this
      · have hz : x.getLsbD (k + i) = false := BitVec.getLsbD_of_ge _ _ (by omega)
        simpa [hz] using this
  apply BitVec.eq_of_getLsbD_eq
  intro i hi
  rw [hb (63 - i) i (by omega) hi]; simp

/-- The generator of the contention model never gets stuck at zero, unless it is seeded with
zero: then it stays there. -/
theorem C109_contention_state (x : BitVec 64) : xorshift64 x = 0#64 ↔ x = 0#64 := by
  constructor
  · intro h
    unfold xorshift64 at h
    have h1 := xor_shl_zero _ 17 (by decide) h
    have h2 := xor_shr_zero _ 7 (by decide) h1
    exact xor_shl_zero _ 13 (by decide) h2
  · rintro rfl
    decide

/-- The seed of the contention model comes from the machine, not from the parameters, and the
arrival of a message depends on it. -/
theorem C109_reproducible_refuted : ∃ (seed seed' : BitVec 64) (c : Cfg) (m : Msg) (start : Nat),
    seed.toNat < 2 ^ 32 ∧ seed'.toNat < 2 ^ 32 ∧
    arrival c start (contentionDelay c m (contention 100 [60, 90] seed).1) m ≠
      arrival c start (contentionDelay c m (contention 100 [60, 90] seed').1) m :=
  ⟨0, 3, even, evenRecA.msg, 0, by decide +kernel⟩

end SST.Nic.LogP
