import Verif.Nic.InjectProps
/-
C53 and C55 for the interface with injection queues.
-/
set_option autoImplicit false
namespace SST.Nic

/-- What round robin means: the message whose packet was sent goes to the end of the queue. -/
def rrQ : InjQ (List (Nat × Flow)) where
  empty q := q.isEmpty
  top q := q.headD noMsg
  pop q := q.tail
  adjustTop q off := match q with | [] => [] | (_, f) :: r => r ++ [(off, f)]
  insert q off f := q ++ [(off, f)]
  contents q := q

/-- A queue that holds a list, serves the head, and may put a message that is not finished anywhere. -/
structure IsList (Q : InjQ (List (Nat × Flow))) : Prop where
  empty : ∀ q, Q.empty q = q.isEmpty
  top : ∀ q, Q.top q = q.headD noMsg
  pop : ∀ q, Q.pop q = q.tail
  adjust : ∀ o f r off, (Q.adjustTop ((o, f) :: r) off).Perm ((off, f) :: r)
  insert : ∀ q off f, Q.insert q off f = q ++ [(off, f)]
  contents : ∀ q, Q.contents q = q

theorem fifo_isList : IsList fifoQ :=
  ⟨fun _ => rfl, fun _ => rfl, fun _ => rfl, fun _ _ _ _ => List.Perm.refl _, fun _ _ _ => rfl, fun _ => rfl⟩

theorem rr_isList : IsList rrQ :=
  ⟨fun _ => rfl, fun _ => rfl, fun _ => rfl, fun _ _ r _ => List.perm_append_singleton .., fun _ _ _ => rfl, fun _ => rfl⟩

/-- Identifiers of the messages of a queue. -/
def qids (q : List (Nat × Flow)) : List Nat := q.map (·.2.id)

theorem rest_cons (mtu : Nat) (e : Nat × Flow) (q : List (Nat × Flow)) : rest mtu (e :: q) = pieces mtu e.2 e.1 ++ rest mtu q := by
  unfold rest; rw [List.flatMap_cons]

theorem rest_append (mtu : Nat) (a b : List (Nat × Flow)) : rest mtu (a ++ b) = rest mtu a ++ rest mtu b := by
  unfold rest; rw [List.flatMap_append]

theorem rest_perm {mtu : Nat} {a b : List (Nat × Flow)} (h : a.Perm b) : (rest mtu a).Perm (rest mtu b) := h.flatMap_right _

theorem ofFlow_pieces (mtu : Nat) (f : Flow) (off i : Nat) : ofFlow i (pieces mtu f off) = if f.id = i then pieces mtu f off else [] := by
  split
  · rename_i h
    subst h
    unfold ofFlow
    rw [List.filter_eq_self]
    intro p hp
    rw [beq_iff_eq]
    exact pieces_ids mtu f off p hp
  · rename_i h
    unfold ofFlow
    rw [List.filter_eq_nil_iff]
    intro p hp
    rw [beq_iff_eq, pieces_ids mtu f off p hp]
    exact h

theorem ofFlow_rest_perm {mtu : Nat} {a b : List (Nat × Flow)} (h : a.Perm b) : (qids a).Nodup → ∀ i, ofFlow i (rest mtu a) = ofFlow i (rest mtu b) := by
  induction h with
  | nil => intro _ _; rfl
  | cons x _ ih =>
    intro hn i
    unfold qids at hn
    rw [List.map_cons, List.nodup_cons] at hn
    rw [rest_cons, rest_cons, ofFlow_append, ofFlow_append, ih hn.2 i]
  | swap x y l =>
    intro hn i
    unfold qids at hn
    rw [List.map_cons, List.map_cons, List.nodup_cons] at hn
    have hne : y.2.id ≠ x.2.id := fun hc => hn.1 (hc ▸ List.mem_cons_self ..)
    simp only [rest_cons, ofFlow_append, ofFlow_pieces]
    by_cases h1 : x.2.id = i <;> by_cases h2 : y.2.id = i
    · omega
    · simp [h1, h2]
    · simp [h1, h2]
    · simp [h1, h2]
  | trans h1 h2 ih1 ih2 =>
    intro hn i
    rw [ih1 hn i, ih2 ((h1.map _).nodup_iff.mp hn) i]

/-- The messages of a queue are not beyond their end. -/
def OffOk (q : List (Nat × Flow)) : Prop := ∀ e ∈ q, e.1 ≤ e.2.len

theorem turns_perm {a b : List (Nat × Flow)} (h : a.Perm b) : turns a = turns b := (h.map _).sum_nat

theorem copyStep_eq {σ : Type} (Q : InjQ σ) (fc : Bool) (mtu : Nat) (s : SNic σ) (off : Nat) (f : Flow) (he : Q.empty s.q = false)
    (ht : Q.top s.q = (off, f)) : copyStep Q fc mtu s =
      if min (f.len - off) mtu ≤ s.buf then
        if min (f.len - off) mtu = f.len - off then
          some (⟨Q.pop s.q, if fc then s.buf - min (f.len - off) mtu else s.buf⟩,
            ⟨f.id, min (f.len - off) mtu, if f.len - off = min (f.len - off) mtu then some f else none⟩)
        else
          some (⟨Q.adjustTop s.q (off + min (f.len - off) mtu), if fc then s.buf - min (f.len - off) mtu else s.buf⟩,
            ⟨f.id, min (f.len - off) mtu, if f.len - off = min (f.len - off) mtu then some f else none⟩)
      else none := by
  have h1 : f = (Q.top s.q).2 := by rw [ht]
  have h2 : off = (Q.top s.q).1 := by rw [ht]
  subst h1 h2
  unfold copyStep
  rw [he]
  rfl

/-- What one turn of the loop does. -/
theorem copyStep_some {Q : InjQ (List (Nat × Flow))} (hQ : IsList Q) {fc : Bool} {mtu : Nat} (hm : 0 < mtu) {s s' : SNic (List (Nat × Flow))}
    {p : Packet} (ho : OffOk s.q) (h : copyStep Q fc mtu s = some (s', p)) :
    ∃ q1, s'.q.Perm q1 ∧ rest mtu s.q = p :: rest mtu q1 ∧ OffOk q1 ∧ turns q1 < turns s.q ∧ (qids q1).Sublist (qids s.q) ∧ p.bytes ≤ s.buf ∧
      s'.buf = (if fc then s.buf - p.bytes else s.buf) ∧ (Q = fifoQ → s'.q = q1) := by
  obtain ⟨q, buf⟩ := s
  cases q with
  | nil =>
    unfold copyStep at h
    simp only [hQ.empty] at h
    simp at h
  | cons e q =>
    obtain ⟨off, f⟩ := e
    have hoff : off ≤ f.len := ho (off, f) (List.mem_cons_self ..)
    have ho' : OffOk q := fun e he => ho e (List.mem_cons_of_mem _ he)
    rw [copyStep_eq Q fc mtu _ off f (by rw [hQ.empty]; rfl) (by rw [hQ.top]; rfl)] at h
    simp only [hQ.pop, List.tail_cons] at h
    split at h
    · rename_i hs
      split at h
      · rename_i ht
        obtain ⟨rfl, rfl⟩ := Prod.mk.inj (Option.some.inj h)
        refine ⟨q, List.Perm.refl _, ?_, ho', ?_, ?_, hs, rfl, fun _ => rfl⟩
        · rw [rest_cons, pieces_tail mtu f off (by omega), ht, if_pos rfl]; rfl
        · unfold turns; rw [List.map_cons, List.sum_cons]; simp only; omega
        · exact List.sublist_cons_self _ _
      · rename_i ht
        obtain ⟨rfl, rfl⟩ := Prod.mk.inj (Option.some.inj h)
        have hmin : min (f.len - off) mtu = mtu := by omega
        refine ⟨(off + min (f.len - off) mtu, f) :: q, hQ.adjust .., ?_, ?_, ?_, ?_, hs, rfl, ?_⟩
        · rw [rest_cons, rest_cons, pieces_full mtu hm f off (by omega), hmin, if_neg (by omega)]; rfl
        · intro e he
          rcases List.mem_cons.mp he with h | h
          · rw [h]; simp only; omega
          · exact ho' e h
        · unfold turns; rw [List.map_cons, List.map_cons, List.sum_cons, List.sum_cons]; simp only; omega
        · exact List.Sublist.refl _
        · intro hq; rw [hq]; rfl
    · cases h

theorem copyStep_none {Q : InjQ (List (Nat × Flow))} (hQ : IsList Q) {fc : Bool} {mtu : Nat} {s : SNic (List (Nat × Flow))}
    (h : copyStep Q fc mtu s = none) : s.q = [] ∨ s.buf < mtu := by
  obtain ⟨q, buf⟩ := s
  cases q with
  | nil => exact Or.inl rfl
  | cons e q =>
    right
    obtain ⟨off, f⟩ := e
    rw [copyStep_eq Q fc mtu _ off f (by rw [hQ.empty]; rfl) (by rw [hQ.top]; rfl)] at h
    split at h
    · split at h <;> cases h
    · rename_i hb; simp only at hb ⊢; omega

/-- What the loop does. -/
theorem copyLoop_spec {Q : InjQ (List (Nat × Flow))} (hQ : IsList Q) (fc : Bool) (mtu : Nat) (hm : 0 < mtu) :
    ∀ (n : Nat) (s : SNic (List (Nat × Flow))), OffOk s.q → (qids s.q).Nodup → turns s.q ≤ n →
    let r := copyLoop Q fc mtu n s
    OffOk r.1.q ∧ (qids r.1.q).Nodup ∧ (∀ x ∈ qids r.1.q, x ∈ qids s.q) ∧ (r.1.q = [] ∨ r.1.buf < mtu) ∧
    (∀ i, ofFlow i r.2 ++ ofFlow i (rest mtu r.1.q) = ofFlow i (rest mtu s.q)) ∧
    (r.2 ++ rest mtu r.1.q).Perm (rest mtu s.q) ∧
    (Q = fifoQ → r.2 ++ rest mtu r.1.q = rest mtu s.q) ∧
    (fc = true → r.1.buf + bytesOf r.2 = s.buf) ∧ (fc = false → r.1.buf = s.buf) := by
  intro n
  induction n with
  | zero =>
    intro s ho hn ht
    have hq : s.q = [] := by
      cases hc : s.q with
      | nil => rfl
      | cons e q => rw [hc] at ht; unfold turns at ht; rw [List.map_cons, List.sum_cons] at ht; omega
    refine ⟨ho, hn, fun _ h => h, Or.inl hq, fun i => rfl, List.Perm.refl _, fun _ => rfl, fun _ => ?_, fun _ => rfl⟩
    simp [copyLoop, bytesOf]
  | succ n ih =>
    intro s ho hn ht
    unfold copyLoop
    cases hs : copyStep Q fc mtu s with
    | none => exact ⟨ho, hn, fun _ h => h, copyStep_none hQ hs, fun i => rfl, List.Perm.refl _, fun _ => rfl, fun _ => by simp [bytesOf], fun _ => rfl⟩
    | some sp =>
      obtain ⟨s', p⟩ := sp
      obtain ⟨q1, h1, h2, h3, h4, h5, h6, h7, h8⟩ := copyStep_some hQ hm ho hs
      have hn1 : (qids q1).Nodup := hn.sublist h5
      have hp1 : (qids s'.q).Perm (qids q1) := h1.map _
      have hn' : (qids s'.q).Nodup := hp1.nodup_iff.mpr hn1
      have ho' : OffOk s'.q := fun e he => h3 e (h1.mem_iff.mp he)
      obtain ⟨a1, a2, a3, a4, a5, a6, a7, a8, a9⟩ := ih s' ho' hn' (by rw [turns_perm h1]; omega)
      simp only
      refine ⟨a1, a2, fun x hx => h5.subset (hp1.mem_iff.mp (a3 x hx)), a4, ?_, ?_, ?_, ?_, ?_⟩
      · intro i
        rw [h2]
        have e1 : ∀ l, ofFlow i (p :: l) = ofFlow i [p] ++ ofFlow i l := fun l => ofFlow_append i [p] l
        rw [e1, e1 (rest mtu q1), List.append_assoc, a5 i, ofFlow_rest_perm h1 hn' i]
      · rw [h2, List.cons_append]
        exact (a6.trans (rest_perm h1)).cons p
      · intro hq
        rw [List.cons_append, a7 hq, h2, h8 hq]
      · intro hf
        have := a8 hf
        rw [hf, if_pos rfl] at h7
        have hb : bytesOf (p :: (copyLoop Q fc mtu n s').2) = p.bytes + bytesOf (copyLoop Q fc mtu n s').2 := by
          unfold bytesOf; rw [List.map_cons, List.sum_cons]
        rw [hb]
        omega
      · intro hf
        rw [a9 hf, h7, hf]
        rfl

/-- What holds of the interface between events, for any list queue. -/
structure SInv (mtu : Nat) (s : SNic (List (Nat × Flow))) : Prop where
  off : OffOk s.q
  ids : (qids s.q).Nodup
  full : s.q = [] ∨ s.buf < mtu

theorem SNic.step_spec {Q : InjQ (List (Nat × Flow))} (hQ : IsList Q) (fc : Bool) (mtu : Nat) (hm : 0 < mtu) (s : SNic (List (Nat × Flow)))
    (h : SInv mtu s) (e : NicEv) (he : ∀ f, e = .send f → f.id ∉ qids s.q) :
    let r := s.step Q fc mtu e
    SInv mtu r.1 ∧ (∀ x ∈ qids r.1.q, x ∈ qids s.q ++ (sentOf [e]).map Flow.id) ∧
    (∀ i, ofFlow i r.2 ++ ofFlow i (rest mtu r.1.q) = ofFlow i (rest mtu s.q) ++ ofFlow i (packetsOf mtu (sentOf [e]))) ∧
    (r.2 ++ rest mtu r.1.q).Perm (rest mtu s.q ++ packetsOf mtu (sentOf [e])) ∧
    (Q = fifoQ → r.2 ++ rest mtu r.1.q = rest mtu s.q ++ packetsOf mtu (sentOf [e])) ∧
    (fc = true → r.1.buf + bytesOf r.2 = s.buf + creditOf [e]) ∧ (fc = false → r.1.buf = s.buf + creditOf [e]) := by
  cases e with
  | credit n =>
    have := copyLoop_spec hQ fc mtu hm (turns (Q.contents s.q)) ⟨s.q, s.buf + n⟩ h.off h.ids (by rw [hQ.contents]; exact Nat.le_refl _)
    obtain ⟨a1, a2, a3, a4, a5, a6, a7, a8, a9⟩ := this
    refine ⟨⟨a1, a2, a4⟩, fun x hx => List.mem_append_left _ (a3 x hx), ?_, ?_, ?_, ?_, ?_⟩
    · intro i; exact (a5 i).trans (List.append_nil _).symm
    · exact a6.trans (by rw [show packetsOf mtu (sentOf [NicEv.credit n]) = [] from rfl, List.append_nil])
    · intro hq; exact (a7 hq).trans (List.append_nil _).symm
    · intro hf; exact (a8 hf).trans (by simp [creditOf])
    · intro hf; exact (a9 hf).trans (by simp [creditOf])
  | send f =>
    have hid : (qids (s.q ++ [(0, f)])).Nodup := by
      unfold qids
      rw [List.map_append, List.map_singleton, List.nodup_append]
      refine ⟨h.ids, by simp, ?_⟩
      intro a ha b hb hab
      rw [List.mem_singleton] at hb
      exact he f rfl (by rw [← hb, ← hab]; exact ha)
    have hoff : OffOk (s.q ++ [(0, f)]) := by
      intro e he
      rcases List.mem_append.mp he with h' | h'
      · exact h.off e h'
      · rw [List.mem_singleton] at h'; rw [h']; exact Nat.zero_le _
    have hp : packetsOf mtu (sentOf [NicEv.send f]) = pieces mtu f 0 := by simp [sentOf, packetsOf]
    have hr : rest mtu (s.q ++ [(0, f)]) = rest mtu s.q ++ pieces mtu f 0 := by rw [rest_append]; simp [rest]
    have := copyLoop_spec hQ fc mtu hm (turns (Q.contents (s.q ++ [(0, f)]))) ⟨s.q ++ [(0, f)], s.buf⟩ hoff hid (by rw [hQ.contents]; exact Nat.le_refl _)
    obtain ⟨a1, a2, a3, a4, a5, a6, a7, a8, a9⟩ := this
    simp only [SNic.step, copyToNicBuffer, hQ.insert]
    refine ⟨⟨a1, a2, a4⟩, ?_, ?_, ?_, ?_, ?_, ?_⟩
    · intro x hx
      have := a3 x hx
      unfold qids at this
      rw [List.map_append] at this
      exact this
    · intro i; rw [a5 i, hr, hp, ofFlow_append]
    · rw [hp, ← hr]; exact a6
    · intro hq; rw [hp, ← hr]; exact a7 hq
    · intro hf; exact (a8 hf).trans (by simp [creditOf])
    · intro hf; exact (a9 hf).trans (by simp [creditOf])

theorem sentOf_cons (e : NicEv) (es : List NicEv) : sentOf (e :: es) = sentOf [e] ++ sentOf es := by
  show sentOf ([e] ++ es) = _
  unfold sentOf; rw [List.filterMap_append]

theorem creditOf_cons (e : NicEv) (es : List NicEv) : creditOf (e :: es) = creditOf [e] + creditOf es := by
  unfold creditOf; rw [List.map_cons, List.map_cons, List.map_nil, List.sum_cons, List.sum_cons, List.sum_nil]; omega

theorem packetsOf_append (mtu : Nat) (a b : List Flow) : packetsOf mtu (a ++ b) = packetsOf mtu a ++ packetsOf mtu b := by
  unfold packetsOf; rw [List.flatMap_append]

theorem SNic.run_spec {Q : InjQ (List (Nat × Flow))} (hQ : IsList Q) (fc : Bool) (mtu : Nat) (hm : 0 < mtu) :
    ∀ (evs : List NicEv) (s : SNic (List (Nat × Flow))), SInv mtu s → (qids s.q ++ (sentOf evs).map Flow.id).Nodup →
    let r := s.run Q fc mtu evs
    SInv mtu r.1 ∧
    (∀ i, ofFlow i r.2 ++ ofFlow i (rest mtu r.1.q) = ofFlow i (rest mtu s.q) ++ ofFlow i (packetsOf mtu (sentOf evs))) ∧
    (r.2 ++ rest mtu r.1.q).Perm (rest mtu s.q ++ packetsOf mtu (sentOf evs)) ∧
    (Q = fifoQ → r.2 ++ rest mtu r.1.q = rest mtu s.q ++ packetsOf mtu (sentOf evs)) ∧
    (fc = true → r.1.buf + bytesOf r.2 = s.buf + creditOf evs) ∧ (fc = false → r.1.buf = s.buf + creditOf evs) := by
  intro evs
  induction evs with
  | nil =>
    intro s h _
    refine ⟨h, fun i => ?_, ?_, fun _ => ?_, fun _ => ?_, fun _ => ?_⟩
    · simp [SNic.run, sentOf, packetsOf, ofFlow]
    · simp [SNic.run, sentOf, packetsOf]
    · simp [SNic.run, sentOf, packetsOf]
    · simp [SNic.run, bytesOf, creditOf]
    · simp [SNic.run, creditOf]
  | cons e es ih =>
    intro s h hn
    rw [sentOf_cons, List.map_append, ← List.append_assoc] at hn
    have hn1 := List.nodup_append.mp hn
    obtain ⟨a1, a2, a3, a4, a5, a6, a7⟩ := s.step_spec hQ fc mtu hm h e (by
      intro f hf hc
      subst hf
      exact (List.nodup_append.mp hn1.1).2.2 _ hc _ (by simp [sentOf]) rfl)
    obtain ⟨b1, b3, b4, b5, b6, b7⟩ := ih (s.step Q fc mtu e).1 a1 (by
      rw [List.nodup_append]
      exact ⟨a1.ids, hn1.2.1, fun x hx y hy => hn1.2.2 x (a2 x hx) y hy⟩)
    simp only [SNic.run]
    rw [sentOf_cons, creditOf_cons, packetsOf_append]
    refine ⟨b1, ?_, ?_, ?_, ?_, ?_⟩
    · intro i
      rw [ofFlow_append, List.append_assoc, b3 i, ← List.append_assoc, a3 i, ofFlow_append, List.append_assoc]
    · rw [List.append_assoc]
      refine (b4.append_left _).trans ?_
      rw [← List.append_assoc, ← List.append_assoc]
      exact a4.append_right _
    · intro hq
      rw [List.append_assoc, b5 hq, ← List.append_assoc, a5 hq, List.append_assoc]
    · intro hf
      have := a6 hf
      have := b6 hf
      rw [bytesOf_append]
      omega
    · intro hf
      rw [b7 hf, a7 hf]
      omega

/-- **C53** (interface with injection queues, first come first served). Whatever messages with
different identifiers are sent and whenever room comes back, the packets made so far followed by those
of the waiting messages are the packets of all messages, in the order of the calls; the room accounts
for every byte; a message only waits while there is less than one packet's room. Empty messages are
included. -/
theorem C53_snappr_fifo (mtu : Nat) (hm : 0 < mtu) (b0 : Nat) (evs : List NicEv) (hn : ((sentOf evs).map Flow.id).Nodup) :
    let r := SNic.run fifoQ true mtu ⟨[], b0⟩ evs
    r.2 ++ rest mtu r.1.q = packetsOf mtu (sentOf evs) ∧ r.1.buf + bytesOf r.2 = b0 + creditOf evs ∧ (r.1.q ≠ [] → r.1.buf < mtu) := by
  obtain ⟨h1, _, _, h4, h5, _⟩ := SNic.run_spec fifo_isList true mtu hm evs ⟨[], b0⟩
    ⟨(fun e he => by cases he), List.nodup_nil, Or.inl rfl⟩ hn
  refine ⟨h4 rfl, h5 rfl, fun hne => ?_⟩
  exact h1.full.resolve_left hne

/-- **C53** (no message is stuck). When the room of all packets has come back and there was room for
one packet at the start, every message has been cut completely. -/
theorem C53_snappr_fifo_all_sent (mtu : Nat) (hm : 0 < mtu) (b0 : Nat) (hb : mtu ≤ b0) (evs : List NicEv) (hn : ((sentOf evs).map Flow.id).Nodup)
    (hret : creditOf evs = bytesOf (SNic.run fifoQ true mtu ⟨[], b0⟩ evs).2) :
    (SNic.run fifoQ true mtu ⟨[], b0⟩ evs).2 = packetsOf mtu (sentOf evs) := by
  obtain ⟨h1, h2, h3⟩ := C53_snappr_fifo mtu hm b0 evs hn
  have hq : (SNic.run fifoQ true mtu ⟨[], b0⟩ evs).1.q = [] := by
    apply Classical.byContradiction
    intro h
    have := h3 h
    omega
  rw [hq] at h1
  simpa [rest] using h1

/-- **C53** (without flow control). If the room is at least one packet, every message is cut at once. -/
theorem C53_snappr_no_flow_control (mtu : Nat) (hm : 0 < mtu) (b0 : Nat) (hb : mtu ≤ b0) (evs : List NicEv) (hn : ((sentOf evs).map Flow.id).Nodup) :
    (SNic.run fifoQ false mtu ⟨[], b0⟩ evs).2 = packetsOf mtu (sentOf evs) := by
  obtain ⟨h1, _, _, h4, _, h6⟩ := SNic.run_spec fifo_isList false mtu hm evs ⟨[], b0⟩
    ⟨(fun e he => by cases he), List.nodup_nil, Or.inl rfl⟩ hn
  have h6 := h6 rfl
  have hq : (SNic.run fifoQ false mtu ⟨[], b0⟩ evs).1.q = [] := by
    rcases h1.full with h | h
    · exact h
    · simp only at h6; omega
  have := h4 rfl
  rw [hq] at this
  simpa [rest] using this

theorem payload_rest (mtu : Nat) (q : List (Nat × Flow)) : (rest mtu q).filterMap Packet.payload = q.map Prod.snd := by
  induction q with
  | nil => rfl
  | cons e q ih => rw [rest_cons, List.filterMap_append, pieces_one, ih]; rfl

/-- **C55** (first come first served). The messages whose tail was taken, followed by those still in the
queue, are exactly the messages given to the queue, in order: none is lost, none is taken twice. -/
theorem C55_fifo (fc : Bool) (mtu : Nat) (hm : 0 < mtu) (b0 : Nat) (evs : List NicEv) (hn : ((sentOf evs).map Flow.id).Nodup) :
    (SNic.run fifoQ fc mtu ⟨[], b0⟩ evs).2.filterMap Packet.payload ++ (SNic.run fifoQ fc mtu ⟨[], b0⟩ evs).1.q.map Prod.snd = sentOf evs := by
  obtain ⟨_, _, _, h4, _, _⟩ := SNic.run_spec fifo_isList fc mtu hm evs ⟨[], b0⟩
    ⟨(fun e he => by cases he), List.nodup_nil, Or.inl rfl⟩ hn
  have h := congrArg (List.filterMap Packet.payload) (h4 rfl)
  rw [List.filterMap_append, List.filterMap_append, payload_rest, payload_packetsOf] at h
  exact h

example : ((sentOf demoEvs).map Flow.id).Nodup ∧ (SNic.run fifoQ true 4 ⟨[], 8⟩ demoEvs).2.length = 5 ∧
    creditOf demoEvs = bytesOf (SNic.run fifoQ true 4 ⟨[], 8⟩ demoEvs).2 := by decide

end SST.Nic
