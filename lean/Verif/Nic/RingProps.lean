import Verif.Nic.QueueProps
/-
C55 for the round robin queue (a ring of fixed size) and the priority queue.
-/
set_option autoImplicit false
namespace SST.Nic

theorem mod_two {x N : Nat} (h : x < 2 * N) : x % N = if x < N then x else x - N := by
  split
  · rename_i h1; exact Nat.mod_eq_of_lt h1
  · rename_i h1
    rw [Nat.mod_eq_sub_mod (by omega), Nat.mod_eq_of_lt (by omega)]

/-- The ring `r` holds the list `q`. -/
structure Holds (r : Ring) (q : List (Nat × Flow)) : Prop where
  bl : r.begin_ < r.slots.length
  ql : q.length ≤ r.slots.length
  el : r.end_ = (r.begin_ + q.length) % r.slots.length
  at_ : ∀ k, k < q.length → r.slots.getD ((r.begin_ + k) % r.slots.length) noMsg = q.getD k noMsg

theorem Ring.next_eq (r : Ring) (i : Nat) (h : i < r.slots.length) : r.next i = (i + 1) % r.slots.length := by
  unfold Ring.next
  rw [mod_two (by omega)]
  split <;> split <;> omega

theorem Holds.pop {r : Ring} {e : Nat × Flow} {q : List (Nat × Flow)} (h : Holds r (e :: q)) : Holds r.pop q := by
  have hN : 0 < r.slots.length := by have := h.bl; omega
  have hql := h.ql
  rw [List.length_cons] at hql
  refine ⟨?_, ?_, ?_, ?_⟩
  · show r.next r.begin_ < _
    rw [r.next_eq _ h.bl]
    exact Nat.mod_lt _ hN
  · show q.length ≤ r.slots.length
    omega
  · show r.end_ = (r.next r.begin_ + q.length) % r.slots.length
    rw [r.next_eq _ h.bl, Nat.mod_add_mod, h.el, List.length_cons]
    congr 1
    omega
  · intro k hk
    show r.slots.getD ((r.next r.begin_ + k) % r.slots.length) noMsg = _
    rw [r.next_eq _ h.bl, Nat.mod_add_mod, Nat.add_assoc, Nat.add_comm 1 k, h.at_ (k + 1) (by rw [List.length_cons]; omega)]
    rfl

theorem getD_set (l : List (Nat × Flow)) (i j : Nat) (v : Nat × Flow) (hi : i < l.length) :
    (l.set i v).getD j noMsg = if j = i then v else l.getD j noMsg := by
  rw [List.getD_eq_getElem?_getD, List.getD_eq_getElem?_getD, List.getElem?_set]
  by_cases h : i = j
  · subst h
    rw [if_pos rfl, if_pos rfl, if_pos hi]
    rfl
  · rw [if_neg h, if_neg (Ne.symm h)]

theorem Holds.insert {r : Ring} {q : List (Nat × Flow)} (h : Holds r q) (hq : q.length < r.slots.length) (off : Nat) (f : Flow) :
    Holds (r.insert off f) (q ++ [(off, f)]) := by
  have hb := h.bl
  have hel : r.end_ < r.slots.length := by rw [h.el]; exact Nat.mod_lt _ (by omega)
  have hlen : (r.insert off f).slots.length = r.slots.length := List.length_set ..
  refine ⟨by rw [hlen]; exact hb, ?_, ?_, ?_⟩
  · rw [hlen, List.length_append]
    simp only [List.length_cons, List.length_nil]
    omega
  · rw [hlen]
    show r.next r.end_ = (r.begin_ + _) % _
    rw [r.next_eq _ hel, h.el, List.length_append, Nat.mod_add_mod]
    rfl
  · intro k hk
    rw [hlen]
    show (r.slots.set r.end_ (off, f)).getD ((r.begin_ + k) % r.slots.length) noMsg = _
    rw [getD_set _ _ _ _ hel]
    rw [List.length_append] at hk
    simp only [List.length_cons, List.length_nil] at hk
    by_cases hk2 : k < q.length
    · have hne : (r.begin_ + k) % r.slots.length ≠ r.end_ := by
        rw [h.el, mod_two (by omega), mod_two (by omega)]
        split <;> split <;> omega
      rw [if_neg hne, h.at_ k hk2]
      rw [List.getD_eq_getElem?_getD, List.getD_eq_getElem?_getD, List.getElem?_append_left hk2]
    · have hk3 : k = q.length := by omega
      subst hk3
      rw [if_pos h.el.symm, List.getD_eq_getElem?_getD, List.getElem?_append_right (Nat.le_refl _)]
      simp

theorem Holds.count {r : Ring} {q : List (Nat × Flow)} (h : Holds r q) (hq : q.length < r.slots.length) : r.count = q.length := by
  have hb := h.bl
  unfold Ring.count
  rw [h.el, mod_two (by omega)]
  split <;> split <;> omega

theorem Holds.empty {r : Ring} {q : List (Nat × Flow)} (h : Holds r q) (hq : q.length < r.slots.length) : ringQ.empty r = q.isEmpty := by
  have hb := h.bl
  show (r.begin_ == r.end_) = _
  cases q with
  | nil =>
    have := h.el
    rw [List.length_nil, Nat.add_zero, Nat.mod_eq_of_lt hb] at this
    rw [this]
    simp
  | cons e q =>
    rw [List.length_cons] at hq
    have : r.begin_ ≠ r.end_ := by
      rw [h.el, List.length_cons, mod_two (by omega)]
      split <;> omega
    simp [this]

theorem Holds.top {r : Ring} {e : Nat × Flow} {q : List (Nat × Flow)} (h : Holds r (e :: q)) : ringQ.top r = e := by
  have := h.at_ 0 (by simp)
  rw [Nat.add_zero, Nat.mod_eq_of_lt h.bl] at this
  exact this

theorem Holds.read {r : Ring} {q : List (Nat × Flow)} (h : Holds r q) : r.read r.begin_ q.length = q := by
  have hb := h.bl
  have gen : ∀ (n i : Nat), i + n = q.length → r.read ((r.begin_ + i) % r.slots.length) n = q.drop i := by
    intro n
    induction n with
    | zero => intro i hi; rw [List.drop_eq_nil_of_le (by omega)]; rfl
    | succ n ih =>
      intro i hi
      simp only [Ring.read]
      have hi' : i < q.length := by omega
      rw [h.at_ i hi', r.next_eq _ (Nat.mod_lt _ (by omega)), Nat.mod_add_mod, Nat.add_assoc, ih (i + 1) (by omega),
        List.drop_eq_getElem_cons hi', List.getD_eq_getElem?_getD, List.getElem?_eq_getElem hi']
      rfl
  have := gen q.length 0 (by omega)
  rw [Nat.add_zero, Nat.mod_eq_of_lt hb, List.drop_zero] at this
  exact this

/-- The interface with the ring and the one with the list are in corresponding states. -/
structure Sim (a : SNic Ring) (b : SNic (List (Nat × Flow))) : Prop where
  holds : Holds a.q b.q
  short : b.q.length < a.q.slots.length
  buf : a.buf = b.buf

theorem sim_step {a : SNic Ring} {b : SNic (List (Nat × Flow))} (h : Sim a b) (fc : Bool) (mtu : Nat) :
    match copyStep ringQ fc mtu a, copyStep rrQ fc mtu b with
    | none, none => True
    | some (a', p), some (b', p') => p = p' ∧ Sim a' b' ∧ a'.q.slots.length = a.q.slots.length ∧ b'.q.length ≤ b.q.length
    | _, _ => False := by
  obtain ⟨qa, ba⟩ := a
  obtain ⟨qb, bb⟩ := b
  obtain ⟨h1, h2, h3⟩ := h
  simp only at h1 h2 h3
  subst h3
  cases qb with
  | nil =>
    have e1 : copyStep ringQ fc mtu ⟨qa, ba⟩ = none := by
      unfold copyStep
      simp only [h1.empty h2]
      rfl
    rw [e1]
    trivial
  | cons e q =>
    obtain ⟨off, f⟩ := e
    rw [copyStep_eq ringQ fc mtu ⟨qa, ba⟩ off f (by rw [h1.empty h2]; rfl) h1.top,
      copyStep_eq rrQ fc mtu ⟨(off, f) :: q, ba⟩ off f rfl rfl]
    by_cases hs : min (f.len - off) mtu ≤ ba
    · simp only [if_pos hs]
      by_cases ht : min (f.len - off) mtu = f.len - off
      · simp only [if_pos ht]
        refine ⟨trivial, ⟨h1.pop, ?_, rfl⟩, rfl, ?_⟩
        · show q.length < qa.slots.length
          rw [List.length_cons] at h2
          omega
        · show q.length ≤ q.length + 1
          omega
      · simp only [if_neg ht]
        have hins := h1.insert h2 (off + min (f.len - off) mtu) f
        have htop : (qa.slots.getD qa.begin_ noMsg).2 = f := congrArg Prod.snd h1.top
        rw [List.cons_append] at hins
        refine ⟨trivial, ⟨?_, ?_, rfl⟩, ?_, ?_⟩
        · show Holds ((qa.insert _ (qa.slots.getD qa.begin_ noMsg).2).pop) (q ++ [(off + min (f.len - off) mtu, f)])
          rw [htop]
          exact hins.pop
        · show (q ++ [(off + min (f.len - off) mtu, f)]).length < (qa.slots.set _ _).length
          rw [List.length_set, List.length_append]
          exact h2
        · exact List.length_set ..
        · show (q ++ [(off + min (f.len - off) mtu, f)]).length ≤ _
          rw [List.length_append]
          exact Nat.le_refl _
    · simp only [if_neg hs]

theorem sim_loop (fc : Bool) (mtu : Nat) : ∀ (n : Nat) (a : SNic Ring) (b : SNic (List (Nat × Flow))), Sim a b →
    (copyLoop ringQ fc mtu n a).2 = (copyLoop rrQ fc mtu n b).2 ∧ Sim (copyLoop ringQ fc mtu n a).1 (copyLoop rrQ fc mtu n b).1 ∧
      (copyLoop ringQ fc mtu n a).1.q.slots.length = a.q.slots.length := by
  intro n
  induction n with
  | zero => intro a b h; exact ⟨rfl, h, rfl⟩
  | succ n ih =>
    intro a b h
    have hs := sim_step h fc mtu
    unfold copyLoop
    cases ha : copyStep ringQ fc mtu a with
    | none =>
      cases hb : copyStep rrQ fc mtu b with
      | none => exact ⟨rfl, h, rfl⟩
      | some x => rw [ha, hb] at hs; exact hs.elim
    | some x =>
      cases hb : copyStep rrQ fc mtu b with
      | none => rw [ha, hb] at hs; exact hs.elim
      | some y =>
        rw [ha, hb] at hs
        obtain ⟨e1, e2, e3, _⟩ := hs
        obtain ⟨i1, i2, i3⟩ := ih x.1 y.1 e2
        simp only
        exact ⟨by rw [e1, i1], i2, i3.trans e3⟩

theorem sim_copy {a : SNic Ring} {b : SNic (List (Nat × Flow))} (h : Sim a b) (fc : Bool) (mtu : Nat) :
    (copyToNicBuffer ringQ fc mtu a).2 = (copyToNicBuffer rrQ fc mtu b).2 ∧ Sim (copyToNicBuffer ringQ fc mtu a).1 (copyToNicBuffer rrQ fc mtu b).1 ∧
      (copyToNicBuffer ringQ fc mtu a).1.q.slots.length = a.q.slots.length := by
  unfold copyToNicBuffer
  have : ringQ.contents a.q = rrQ.contents b.q := by
    show a.q.read a.q.begin_ a.q.count = b.q
    rw [h.holds.count h.short, h.holds.read]
  rw [this]
  exact sim_loop fc mtu _ a b h

/-- A message is only given to the queue while at least two slots of the ring are free. -/
def NeverFull (fc : Bool) (mtu : Nat) (s : SNic Ring) (evs : List NicEv) : Prop :=
  ∀ pre f post, evs = pre ++ NicEv.send f :: post → (s.run ringQ fc mtu pre).1.q.count + 1 < s.q.slots.length

theorem sim_run (fc : Bool) (mtu : Nat) : ∀ (evs : List NicEv) (a : SNic Ring) (b : SNic (List (Nat × Flow))), Sim a b → NeverFull fc mtu a evs →
    (a.run ringQ fc mtu evs).2 = (b.run rrQ fc mtu evs).2 ∧ Sim (a.run ringQ fc mtu evs).1 (b.run rrQ fc mtu evs).1 := by
  intro evs
  induction evs with
  | nil => intro a b h _; exact ⟨rfl, h⟩
  | cons e es ih =>
    intro a b h hf
    have key : (a.step ringQ fc mtu e).2 = (b.step rrQ fc mtu e).2 ∧ Sim (a.step ringQ fc mtu e).1 (b.step rrQ fc mtu e).1 ∧
        (a.step ringQ fc mtu e).1.q.slots.length = a.q.slots.length := by
      cases e with
      | credit n => exact sim_copy (a := ⟨a.q, a.buf + n⟩) (b := ⟨b.q, b.buf + n⟩) ⟨h.holds, h.short, by simp only [h.buf]⟩ fc mtu
      | send f =>
        have hc := hf [] f es rfl
        have hc2 : a.q.count + 1 < a.q.slots.length := hc
        rw [h.holds.count h.short] at hc2
        have := sim_copy (a := ⟨a.q.insert 0 f, a.buf⟩) (b := ⟨b.q ++ [(0, f)], b.buf⟩)
          ⟨h.holds.insert h.short 0 f, by
            show _ < (a.q.slots.set _ _).length
            rw [List.length_set, List.length_append]; exact hc2, h.buf⟩ fc mtu
        refine ⟨this.1, this.2.1, this.2.2.trans ?_⟩
        show (a.q.slots.set _ _).length = _
        rw [List.length_set]
    obtain ⟨k1, k2, k3⟩ := key
    obtain ⟨i1, i2⟩ := ih _ _ k2 (by
      intro pre f post he
      rw [k3]
      exact hf (e :: pre) f post (by rw [he]; rfl))
    simp only [SNic.run]
    exact ⟨by rw [k1, i1], i2⟩

theorem sim0 (N : Nat) (hN : 0 < N) (b0 : Nat) : Sim ⟨ring0 N, b0⟩ ⟨[], b0⟩ := by
  refine ⟨⟨?_, ?_, ?_, ?_⟩, ?_, rfl⟩
  · simpa [ring0] using hN
  · simp
  · simp [ring0]
  · intro k hk; simp at hk
  · simpa [ring0] using hN

/-- **C55** (round robin), partial: for histories that never fill the ring, that is never have more
than `N - 1` messages waiting, where the code has `N = 1024`. The messages whose tail was taken and
those that wait are the messages given to the queue, each once. -/
theorem C55_round_robin_partial (N : Nat) (hN : 0 < N) (fc : Bool) (mtu : Nat) (hm : 0 < mtu) (b0 : Nat) (evs : List NicEv)
    (hn : ((sentOf evs).map Flow.id).Nodup) (hf : NeverFull fc mtu ⟨ring0 N, b0⟩ evs) :
    ((SNic.run ringQ fc mtu ⟨ring0 N, b0⟩ evs).2.filterMap Packet.payload ++
      (ringQ.contents (SNic.run ringQ fc mtu ⟨ring0 N, b0⟩ evs).1.q).map Prod.snd).Perm (sentOf evs) := by
  obtain ⟨h1, h2⟩ := sim_run fc mtu evs _ _ (sim0 N hN b0) hf
  obtain ⟨_, _, h3, _⟩ := SNic.run_spec rr_isList fc mtu hm evs ⟨[], b0⟩ ⟨(fun e he => by cases he), List.nodup_nil, Or.inl rfl⟩ hn
  have hc : ringQ.contents (SNic.run ringQ fc mtu ⟨ring0 N, b0⟩ evs).1.q = (SNic.run rrQ fc mtu ⟨[], b0⟩ evs).1.q := by
    show Ring.read _ _ (Ring.count _) = _
    rw [h2.holds.count h2.short, h2.holds.read]
  rw [hc, h1]
  have h := h3.filterMap Packet.payload
  rw [List.filterMap_append, payload_rest, List.filterMap_append, payload_packetsOf] at h
  exact h

/-- **C53** (round robin), partial: as `C55_round_robin_partial`. The packets of each message are made
in order, those of different messages interleave; the room accounts for every byte and a message only
waits while there is less than one packet's room. -/
theorem C53_snappr_round_robin_partial (N : Nat) (hN : 0 < N) (mtu : Nat) (hm : 0 < mtu) (b0 : Nat) (evs : List NicEv)
    (hn : ((sentOf evs).map Flow.id).Nodup) (hf : NeverFull true mtu ⟨ring0 N, b0⟩ evs) :
    let r := SNic.run ringQ true mtu ⟨ring0 N, b0⟩ evs
    (∀ i, ofFlow i r.2 ++ ofFlow i (rest mtu (ringQ.contents r.1.q)) = ofFlow i (packetsOf mtu (sentOf evs))) ∧
    r.1.buf + bytesOf r.2 = b0 + creditOf evs ∧ (ringQ.empty r.1.q = false → r.1.buf < mtu) := by
  obtain ⟨h1, h2⟩ := sim_run true mtu evs _ _ (sim0 N hN b0) hf
  obtain ⟨g1, g2, _, _, g5, _⟩ := SNic.run_spec rr_isList true mtu hm evs ⟨[], b0⟩ ⟨(fun e he => by cases he), List.nodup_nil, Or.inl rfl⟩ hn
  have hc : ringQ.contents (SNic.run ringQ true mtu ⟨ring0 N, b0⟩ evs).1.q = (SNic.run rrQ true mtu ⟨[], b0⟩ evs).1.q := by
    show Ring.read _ _ (Ring.count _) = _
    rw [h2.holds.count h2.short, h2.holds.read]
  simp only
  rw [hc, h1, h2.buf, h2.holds.empty h2.short]
  refine ⟨g2, g5 rfl, fun he => ?_⟩
  rcases g1.full with h | h
  · rw [h] at he; cases he
  · exact h

/-- Two messages that take turns: a ring of 8 slots, an MTU of 4 and room for 8 bytes. -/
example : (SNic.run ringQ true 4 ⟨ring0 8, 8⟩ demoEvs).2.map (fun p => (p.fid, p.bytes)) = [(1, 4), (1, 4), (1, 2), (2, 4), (2, 1)] := by decide

example : (SNic.run ringQ true 4 ⟨ring0 8, 4⟩ [.send ⟨1, 10⟩, .send ⟨2, 5⟩, .credit 4, .credit 4, .credit 4, .credit 1]).2.map (fun p => (p.fid, p.bytes)) =
    [(1, 4), (1, 4), (2, 4), (1, 2), (2, 1)] := by decide

example : NeverFull true 4 ⟨ring0 8, 8⟩ demoEvs := by
  have h0 : ∀ k, k < 8 → ((SNic.run ringQ true 4 ⟨ring0 8, 8⟩ (demoEvs.take k)).1.q.count + 1 < 8) := by decide
  intro pre f post he
  have hl : pre.length < 8 := by
    have := congrArg List.length he
    rw [List.length_append, List.length_cons] at this
    have h7 : demoEvs.length = 7 := rfl
    omega
  have hp : demoEvs.take pre.length = pre := by rw [he]; exact List.take_left
  have := h0 pre.length hl
  rw [hp] at this
  exact this

theorem ring_inserts (mtu : Nat) (hm : 0 < mtu) (fc : Bool) : ∀ (fs : List Flow) (r : Ring), r.begin_ < r.slots.length → r.end_ < r.slots.length →
    (∀ f ∈ fs, 0 < f.len) →
    ∀ q, Holds r q → q.length + fs.length = r.slots.length → (∀ e ∈ q, e.1 = 0 ∧ 0 < e.2.len) →
    ∃ r', SNic.run ringQ fc mtu ⟨r, 0⟩ (fs.map NicEv.send) = (⟨r', 0⟩, []) ∧ r'.begin_ = r.begin_ ∧ r'.end_ = r.begin_ := by
  intro fs
  induction fs with
  | nil =>
    intro r hb _ _ q hq hl _
    refine ⟨r, rfl, rfl, ?_⟩
    rw [List.length_nil, Nat.add_zero] at hl
    rw [hq.el, hl, mod_two (by omega)]
    split <;> omega
  | cons f fs ih =>
    intro r hb he hpos q hq hl hz
    rw [List.length_cons] at hl
    have hins := hq.insert (by omega) 0 f
    have hlen : (r.insert 0 f).slots.length = r.slots.length := List.length_set ..
    have hz' : ∀ e ∈ q ++ [(0, f)], e.1 = 0 ∧ 0 < e.2.len := by
      intro e he
      rcases List.mem_append.mp he with h | h
      · exact hz e h
      · rw [List.mem_singleton] at h; rw [h]; exact ⟨rfl, hpos f (List.mem_cons_self ..)⟩
    have hstep : copyStep ringQ fc mtu ⟨r.insert 0 f, 0⟩ = none := by
      cases hem : ringQ.empty (r.insert 0 f) with
      | true => unfold copyStep; rw [hem]; rfl
      | false =>
        cases hc : q ++ [(0, f)] with
        | nil => simp at hc
        | cons e t =>
          obtain ⟨off, g⟩ := e
          rw [hc] at hins
          have := hz' (off, g) (by rw [hc]; exact List.mem_cons_self ..)
          simp only at this
          rw [copyStep_eq ringQ fc mtu _ off g hem hins.top, if_neg (by simp only; omega)]
    have hcopy : copyToNicBuffer ringQ fc mtu ⟨r.insert 0 f, 0⟩ = (⟨r.insert 0 f, 0⟩, []) := by
      unfold copyToNicBuffer
      cases turns (ringQ.contents (r.insert 0 f)) with
      | zero => rfl
      | succ n => unfold copyLoop; rw [hstep]
    obtain ⟨r', h1, h2, h3⟩ := ih (r.insert 0 f) (by rw [hlen]; exact hb)
      (by
        rw [hlen]
        show r.next r.end_ < _
        rw [r.next_eq _ he]; exact Nat.mod_lt _ (by omega))
      (fun g hg => hpos g (List.mem_cons_of_mem _ hg)) _ hins
      (by rw [hlen, List.length_append, List.length_cons, List.length_nil]; omega) hz'
    refine ⟨r', ?_, h2, h3⟩
    simp only [List.map_cons, SNic.run, SNic.step]
    have e1 : ringQ.insert r 0 f = r.insert 0 f := rfl
    rw [e1, hcopy]
    simp only
    rw [h1]
    rfl

/-- **C55** (round robin, refuted in general). If the interface has no room left and as many messages
are sent as the ring has slots, all of them are lost: whatever room comes back later, not one packet is
ever made. -/
theorem C55_round_robin_refuted (fc : Bool) (mtu : Nat) (hm : 0 < mtu) (r : Ring) (hb : r.begin_ < r.slots.length) (he : r.end_ = r.begin_)
    (fs : List Flow) (hl : fs.length = r.slots.length) (hpos : ∀ f ∈ fs, 0 < f.len) (credits : List Nat) :
    (SNic.run ringQ fc mtu ⟨r, 0⟩ (fs.map NicEv.send ++ credits.map NicEv.credit)).2 = [] := by
  have hh : Holds r [] := ⟨hb, by simp, by rw [List.length_nil, Nat.add_zero, Nat.mod_eq_of_lt hb]; exact he, by intro k hk; simp at hk⟩
  obtain ⟨r', h1, h2, h3⟩ := ring_inserts mtu hm fc fs r hb (by omega) hpos [] hh (by simpa using hl)
    (by intro e he; cases he)
  have append : ∀ (a b : List NicEv) (s : SNic Ring), (s.run ringQ fc mtu (a ++ b)).2 = (s.run ringQ fc mtu a).2 ++ ((s.run ringQ fc mtu a).1.run ringQ fc mtu b).2 := by
    intro a b
    induction a with
    | nil => intro s; rfl
    | cons e a ih => intro s; simp only [List.cons_append, SNic.run]; rw [ih, List.append_assoc]
  rw [append, h1]
  simp only [List.nil_append]
  have : ∀ (cs : List Nat) (b : Nat), (SNic.run ringQ fc mtu ⟨r', b⟩ (cs.map NicEv.credit)).2 = [] := by
    intro cs
    induction cs with
    | nil => intro b; rfl
    | cons c cs ih =>
      intro b
      have hemp : ringQ.empty r' = true := by show (r'.begin_ == r'.end_) = true; rw [h2, h3]; simp
      have hstep : copyStep ringQ fc mtu ⟨r', b + c⟩ = none := by unfold copyStep; rw [hemp]; rfl
      have hcopy : copyToNicBuffer ringQ fc mtu ⟨r', b + c⟩ = (⟨r', b + c⟩, []) := by
        unfold copyToNicBuffer
        cases turns (ringQ.contents r') with
        | zero => rfl
        | succ n => unfold copyLoop; rw [hstep]
      simp only [List.map_cons, SNic.run, SNic.step]
      rw [hcopy]
      exact ih (b + c)
  exact this credits 0

/-- The queue of the code has 1024 slots: the 1024th waiting message makes all 1024 vanish. -/
example (mtu : Nat) (hm : 0 < mtu) (credits : List Nat) :
    (SNic.run ringQ true mtu ⟨ring0 1024, 0⟩ (((List.range 1024).map fun i => (⟨i, 100⟩ : Flow)).map NicEv.send ++ credits.map NicEv.credit)).2 = [] := by
  refine C55_round_robin_refuted true mtu hm (ring0 1024) ?_ rfl _ ?_ ?_ credits
  · show 0 < (List.replicate 1024 noMsg).length
    rw [List.length_replicate]; decide
  · show _ = (List.replicate 1024 noMsg).length
    rw [List.length_map, List.length_range, List.length_replicate]
  · intro f hf
    obtain ⟨i, _, rfl⟩ := List.mem_map.mp hf
    exact Nat.zero_lt_succ _

/-- **C55** (the priority class, refuted). `PriorityFIFOQueue::insert` never marks a level as ready, so
the queue reports that it is empty whatever was given to it, and no packet is ever made. (The class
cannot be selected: its registration names `FIFOQueue`, snappr_nic.cc:449-454.) -/
theorem C55_priority_refuted (qos : Flow → Nat) (fc : Bool) (mtu : Nat) (levels b0 : Nat) (evs : List NicEv) :
    (SNic.run (prioQ qos) fc mtu ⟨⟨List.replicate levels [], []⟩, b0⟩ evs).2 = [] := by
  generalize List.replicate levels ([] : List (Nat × Flow)) = qs
  induction evs generalizing qs b0 with
  | nil => rfl
  | cons e es ih =>
    simp only [SNic.run]
    have : ∀ (qs : List (List (Nat × Flow))) (b : Nat), copyToNicBuffer (prioQ qos) fc mtu ⟨⟨qs, []⟩, b⟩ = (⟨⟨qs, []⟩, b⟩, []) := by
      intro qs b
      have hstep : copyStep (prioQ qos) fc mtu ⟨⟨qs, []⟩, b⟩ = none := rfl
      unfold copyToNicBuffer
      cases turns ((prioQ qos).contents ⟨qs, []⟩) with
      | zero => rfl
      | succ n => unfold copyLoop; rw [hstep]
    cases e with
    | send f =>
      have e1 : (prioQ qos).insert ⟨qs, []⟩ 0 f = ⟨qs.set (qos f) (qs.getD (qos f) [] ++ [(0, f)]), []⟩ := rfl
      simp only [SNic.step, e1, this]; exact ih _ _
    | credit n => simp only [SNic.step, this]; exact ih _ _

end SST.Nic
