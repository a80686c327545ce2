import Verif.Mpi.Lemmas

/-! Sequence numbers, the network and the held messages. -/
set_option autoImplicit false
namespace SST.Mpi

/-- Messages of one sender. -/
def fromS (t : Nat) (l : List Msg) : List Msg := l.filter (fun m => m.sender = t)

theorem fromS_append (t : Nat) (l k : List Msg) : fromS t (l ++ k) = fromS t l ++ fromS t k := List.filter_append ..

theorem mem_fromS {t : Nat} {l : List Msg} {m : Msg} : m ∈ fromS t l ↔ m ∈ l ∧ m.sender = t := by
  simp [fromS]

/-- Invariant of sequence numbers. -/
structure NInv (s : St) : Prop where
  hseq : ∀ t, (fromS t (handleds s.log)).map Msg.seq = List.range (s.nextIn t)
  sseq : ∀ t, (fromS t (sents s.log)).map Msg.seq = List.range (s.nextOut t)
  cons : ∀ m, (sents s.log).count m = s.net.count m + (s.held m.sender).count m + (handleds s.log).count m
  sorted : ∀ t, (s.held t).Pairwise (fun a b => a.seq < b.seq)
  hsend : ∀ t, ∀ m ∈ s.held t, m.sender = t

/-- Every held message is beyond the next one expected. -/
def Strict (s : St) (t : Nat) : Prop := ∀ m ∈ s.held t, s.nextIn t < m.seq

/-- The whole invariant. -/
structure Inv (s : St) : Prop where
  n : NInv s
  m : MInv s
  f : ∀ x ∈ s.fetching, x.prot = .eager1

/-- Two messages in a list whose sequence numbers per sender are distinct are the same if
sender and sequence number agree. -/
theorem eq_of_key {l : List Msg} {k : Nat → Nat}
    (h : ∀ t, (fromS t l).map Msg.seq = List.range (k t)) {a b : Msg} (ha : a ∈ l) (hb : b ∈ l)
    (hs : a.sender = b.sender) (hq : a.seq = b.seq) : a = b := by
  have hn : ((fromS a.sender l).map Msg.seq).Nodup := by rw [h]; exact List.nodup_range
  have hp := List.pairwise_map.1 hn
  have h1 : a ∈ fromS a.sender l := mem_fromS.2 ⟨ha, rfl⟩
  have h2 : b ∈ fromS a.sender l := mem_fromS.2 ⟨hb, hs.symm⟩
  apply Classical.byContradiction
  intro hne
  obtain ⟨p, q, hpq⟩ := List.append_of_mem h1
  rw [hpq] at hp h2
  rw [List.pairwise_append] at hp
  rcases List.mem_append.1 h2 with h2 | h2
  · exact hp.2.2 b h2 a (List.mem_cons_self ..) hq.symm
  · rcases List.mem_cons.1 h2 with h2 | h2
    · exact hne h2.symm
    · exact (List.pairwise_cons.1 hp.2.1).1 b h2 hq

theorem nodup_of_key {l : List Msg} {k : Nat → Nat}
    (h : ∀ t, (fromS t l).map Msg.seq = List.range (k t)) : l.Nodup := by
  rw [List.nodup_iff_count]
  intro a
  have hn : ((fromS a.sender l).map Msg.seq).Nodup := by rw [h]; exact List.nodup_range
  have h2 : (fromS a.sender l).Nodup := by
    refine List.Pairwise.imp ?_ (List.pairwise_map.1 hn)
    intro x y hxy e
    exact hxy (e ▸ rfl)
  have h3 := List.nodup_iff_count.1 h2 a
  have h4 : (fromS a.sender l).count a = l.count a := by
    unfold fromS
    rw [List.count_filter (by simp)]
  omega

theorem seq_lt_of_mem {l : List Msg} {k : Nat → Nat}
    (h : ∀ t, (fromS t l).map Msg.seq = List.range (k t)) {m : Msg} (hm : m ∈ l) : m.seq < k m.sender := by
  have : m.seq ∈ (fromS m.sender l).map Msg.seq := List.mem_map_of_mem (mem_fromS.2 ⟨hm, rfl⟩)
  rw [h] at this
  exact List.mem_range.1 this

theorem exists_of_seq_lt {l : List Msg} {k : Nat → Nat}
    (h : ∀ t, (fromS t l).map Msg.seq = List.range (k t)) {t q : Nat} (hq : q < k t) :
    ∃ m ∈ l, m.sender = t ∧ m.seq = q := by
  have : q ∈ (fromS t l).map Msg.seq := by rw [h]; exact List.mem_range.2 hq
  obtain ⟨m, hm, he⟩ := List.mem_map.1 this
  exact ⟨m, (mem_fromS.1 hm).1, (mem_fromS.1 hm).2, he⟩

theorem NInv.sent_le_one {s : St} (h : NInv s) (m : Msg) : (sents s.log).count m ≤ 1 :=
  List.nodup_iff_count.1 (nodup_of_key h.sseq) m

theorem NInv.handled_sent {s : St} (h : NInv s) {m : Msg} (hm : m ∈ handleds s.log) : m ∈ sents s.log := by
  have := h.cons m
  have := List.count_pos_iff.2 hm
  exact List.count_pos_iff.1 (by omega)

theorem NInv.held_sent {s : St} (h : NInv s) {t : Nat} {m : Msg} (hm : m ∈ s.held t) : m ∈ sents s.log := by
  have h1 := h.cons m
  have ht := h.hsend t m hm
  subst ht
  have := List.count_pos_iff.2 hm
  exact List.count_pos_iff.1 (by omega)

theorem NInv.net_sent {s : St} (h : NInv s) {m : Msg} (hm : m ∈ s.net) : m ∈ sents s.log := by
  have := h.cons m
  have := List.count_pos_iff.2 hm
  exact List.count_pos_iff.1 (by omega)

/-- A message in the network is never behind the receiver. -/
theorem NInv.not_behind {s : St} (h : NInv s) {m : Msg} (hm : m ∈ s.net) : s.nextIn m.sender ≤ m.seq := by
  apply Classical.byContradiction
  intro hlt
  obtain ⟨x, hx, h1, h2⟩ := exists_of_seq_lt h.hseq (Nat.lt_of_not_le hlt)
  have := eq_of_key h.sseq (h.handled_sent hx) (h.net_sent hm) h1 h2
  subst this
  have h3 := h.cons x
  have h4 := h.sent_le_one x
  have := List.count_pos_iff.2 hx
  have := List.count_pos_iff.2 hm
  omega

theorem NInv.held_le {s : St} (h : NInv s) {t : Nat} {m : Msg} (hm : m ∈ s.held t) : s.nextIn t ≤ m.seq := by
  apply Classical.byContradiction
  intro hlt
  obtain ⟨x, hx, h1, h2⟩ := exists_of_seq_lt h.hseq (Nat.lt_of_not_le hlt)
  have ht := h.hsend t m hm
  have := eq_of_key h.sseq (h.handled_sent hx) (h.held_sent hm) (h1.trans ht.symm) h2
  subst this
  have h3 := h.cons x
  have h4 := h.sent_le_one x
  have := List.count_pos_iff.2 hx
  subst ht
  have := List.count_pos_iff.2 hm
  omega

/-- A message in the network is not also held. -/
theorem NInv.net_not_held {s : St} (h : NInv s) {m : Msg} (hm : m ∈ s.net) {t : Nat} {x : Msg} (hx : x ∈ s.held t)
    (hs : m.sender = x.sender) : m.seq ≠ x.seq := by
  intro hq
  have := eq_of_key h.sseq (h.net_sent hm) (h.held_sent hx) hs hq
  subst this
  have ht := h.hsend t m hx
  subst ht
  have h3 := h.cons m
  have h4 := h.sent_le_one m
  have := List.count_pos_iff.2 hm
  have := List.count_pos_iff.2 hx
  omega

/-! ### What handling a message leaves alone -/

theorem matchMsg_frame {s s' : St} {m : Msg} (h : matchMsg s m = .ok s') :
    s'.net = s.net ∧ s'.nextOut = s.nextOut ∧ s'.nextIn = s.nextIn ∧ s'.held = s.held ∧ s'.nextReq = s.nextReq ∧
    s'.fetching = s.fetching ∧ sents s'.log = sents s.log ∧ handleds s'.log = handleds s.log ∧
    posteds s'.log = posteds s.log := by
  unfold matchMsg at h
  cases hp : searchPosted s.cancelled m s.posted with
  | error a => rw [hp] at h; simp at h
  | ok p =>
    obtain ⟨x, rs⟩ := p
    rw [hp] at h
    cases x with
    | none =>
      simp only [Except.ok.injEq] at h
      subst h
      exact ⟨rfl, rfl, rfl, rfl, rfl, rfl, rfl, rfl, rfl⟩
    | some r =>
      simp only [Except.ok.injEq] at h
      subst h
      refine ⟨rfl, rfl, rfl, rfl, rfl, rfl, ?_, ?_, ?_⟩
      · simp [sents]
      · simp [handleds]
      · simp [posteds]

theorem handle_frame {s s' : St} {m : Msg} (h : handle s m = .ok s') :
    s'.net = s.net ∧ s'.nextOut = s.nextOut ∧ s'.nextIn = s.nextIn ∧ s'.held = s.held ∧
    sents s'.log = sents s.log ∧ handleds s'.log = handleds s.log ++ [m] ∧ posteds s'.log = posteds s.log := by
  unfold handle at h
  simp only at h
  have e1 : sents (s.log ++ [Ev.handled m]) = sents s.log := by simp [sents]
  have e2 : handleds (s.log ++ [Ev.handled m]) = handleds s.log ++ [m] := by simp [handleds]
  have e3 : posteds (s.log ++ [Ev.handled m]) = posteds s.log := by simp [posteds]
  split at h
  · simp only [Except.ok.injEq] at h
    subst h
    exact ⟨rfl, rfl, rfl, rfl, e1, e2, e3⟩
  · obtain ⟨h1, h2, h3, h4, _, _, h5, h6, h7⟩ := matchMsg_frame h
    exact ⟨h1, h2, h3, h4, h5.trans e1, h6.trans e2, h7.trans e3⟩

/-- Handling does not look at the held messages, the network or the counters. -/
theorem handle_held {s s' : St} {m : Msg} (H : Nat → List Msg) (h : handle s m = .ok s') :
    handle { s with held := H } m = .ok { s' with held := H } := by
  unfold handle matchMsg at h ⊢
  simp only at h ⊢
  split at h
  · simp only [Except.ok.injEq] at h
    subst h; rfl
  · cases hp : searchPosted s.cancelled m s.posted with
    | error a => rw [hp] at h; simp at h
    | ok p =>
      obtain ⟨x, rs⟩ := p
      rw [hp] at h
      cases x with
      | none => simp only [Except.ok.injEq] at h; subst h; rfl
      | some r => simp only [Except.ok.injEq] at h; subst h; rfl

theorem handle_error {s : St} {m : Msg} {a : Abort} (h : handle s m = .error a) :
    a = .tooSmall ∧ ∃ r ∈ s.posted, r.id ∉ s.cancelled ∧ r.eligible m = true ∧ tooBig m r = true := by
  unfold handle matchMsg at h
  simp only at h
  split at h
  · simp at h
  · cases hp : searchPosted s.cancelled m s.posted with
    | error a' =>
      rw [hp] at h
      simp only [Except.error.injEq] at h
      subst h
      exact searchPosted_error hp
    | ok p =>
      obtain ⟨x, rs⟩ := p
      rw [hp] at h
      cases x <;> simp at h

/-- Handling the next message in order: matching invariant. -/
theorem MInv.handle {s s' : St} {m : Msg} (h : MInv s) (hf : ∀ x ∈ s.fetching, x.prot = .eager1)
    (hnew : m ∉ handleds s.log)
    (hlast : ∀ x ∈ handleds s.log, x.sender = m.sender → x.seq < m.seq)
    (hs : handle s m = .ok s') : MInv s' ∧ ∀ x ∈ s'.fetching, x.prot = .eager1 := by
  have hmid : MInv { s with fetching := m :: s.fetching, log := s.log ++ [.handled m] } := by
    refine ⟨h.good.snoc trivial, ?_, ?_, h.ord, h.dead, ?_, h.psort, ?_, ?_, ?_, h.clt⟩
    · show (handleds (s.log ++ [Ev.handled m])).Nodup
      rw [handleds_append]
      refine List.nodup_append.2 ⟨h.hnd, by simp [handleds], ?_⟩
      intro a ha b hb
      have hb : b = m := by simpa [handleds] using hb
      subst hb
      rintro rfl
      exact hnew ha
    · intro y
      have := h.cons y
      simp only [handleds_append, matches_append, List.map_append, List.count_append, List.count_cons]
      have e1 : (handleds [Ev.handled m]).count y = if m == y then 1 else 0 := by
        simp [handleds, List.count_cons]
      have e2 : ((matches_ [Ev.handled m]).map Prod.snd).count y = 0 := by simp [matches_]
      rw [e1, e2]
      omega
    · show (posteds (s.log ++ [Ev.handled m])).map Req.id = _
      rw [posteds_append]; simpa [posteds] using h.ids
    · intro x hx
      obtain ⟨h1, h2⟩ := h.pin x hx
      exact ⟨List.mem_append_left _ h1, by intro m hm; exact h2 m (by simpa using hm)⟩
    · intro x hx
      rcases h.pall x (by simpa using hx) with h1 | ⟨y, h1⟩ | h1
      · exact .inl h1
      · exact .inr (.inl ⟨y, by simp [h1]⟩)
      · exact .inr (.inr h1)
    · intro i
      rw [show (i ∈ s.cancelled ↔ _) from h.canc i]
      simp
  unfold Mpi.handle at hs
  simp only at hs
  split at hs
  · rename_i hp
    simp only [Except.ok.injEq] at hs
    subst hs
    refine ⟨⟨hmid.good, hmid.hnd, ?_, hmid.ord, hmid.dead, hmid.ids, hmid.psort, hmid.pin, hmid.pall, hmid.canc, hmid.clt⟩, ?_⟩
    · intro y
      have := hmid.cons y
      simp only [List.count_append, List.count_cons, List.count_nil] at this ⊢
      omega
    · intro x hx
      rcases List.mem_append.1 hx with hx | hx
      · exact hf x hx
      · simp only [List.mem_singleton] at hx
        subst hx; exact hp
  · refine ⟨MInv.matchMsg (s := { s with log := s.log ++ [.handled m] }) hmid hf ?_ hs, ?_⟩
    · intro a ha hc
      have hah := (h.pending (.inr ha)).1
      have := hlast a (mem_handleds.2 hah) hc.2.1.symm
      omega
    · rw [(matchMsg_frame hs).2.2.2.2.2.1]; exact hf

theorem upd_self {α : Type} (f : Nat → α) (i : Nat) (a : α) : upd f i a i = a := by simp [upd]
theorem upd_ne {α : Type} (f : Nat → α) {i j : Nat} (a : α) (h : j ≠ i) : upd f i a j = f j := by simp [upd, h]

/-- Handling the next message in order: the whole invariant. -/
theorem Inv.advance {s s' : St} {m : Msg} (h : Inv { s with net := m :: s.net })
    (hq : m.seq = s.nextIn m.sender) (hs : handle s m = .ok s') :
    Inv { s' with nextIn := upd s'.nextIn m.sender (s'.nextIn m.sender + 1) } := by
  obtain ⟨f1, f2, f3, f4, f5, f6, f7⟩ := handle_frame hs
  have hlast : ∀ x ∈ handleds s.log, x.sender = m.sender → x.seq < m.seq := by
    intro x hx he
    have h1 := seq_lt_of_mem h.n.hseq hx
    have h1 : x.seq < s.nextIn x.sender := h1
    rw [he] at h1
    omega
  have hnew : m ∉ handleds s.log := by
    intro hm
    have := hlast m hm rfl
    omega
  have hM : MInv s := ⟨h.m.good, h.m.hnd, h.m.cons, h.m.ord, h.m.dead, h.m.ids, h.m.psort, h.m.pin, h.m.pall, h.m.canc, h.m.clt⟩
  obtain ⟨hm', hf'⟩ := hM.handle h.f hnew hlast hs
  refine ⟨⟨?_, ?_, ?_, ?_, ?_⟩, ⟨hm'.good, hm'.hnd, hm'.cons, hm'.ord, hm'.dead, hm'.ids, hm'.psort, hm'.pin, hm'.pall, hm'.canc, hm'.clt⟩, hf'⟩
  · intro t
    simp only
    rw [f6, fromS_append, List.map_append, f3]
    have := h.n.hseq t
    simp only at this
    rw [this]
    by_cases ht : t = m.sender
    · subst ht
      rw [upd_self, List.range_succ]
      simp [fromS, hq]
    · rw [upd_ne _ _ ht]
      have : fromS t [m] = [] := by simp [fromS]; exact fun e => ht e.symm
      rw [this]; simp
  · intro t
    simp only
    rw [f5, f2]
    exact h.n.sseq t
  · intro y
    simp only
    rw [f5, f6, f1, f4]
    have := h.n.cons y
    simp only [List.count_cons, List.count_append, List.count_nil] at this ⊢
    omega
  · intro t; simp only; rw [f4]; exact h.n.sorted t
  · intro t; simp only; rw [f4]; exact h.n.hsend t

theorem upd_eta {α : Type} (f : Nat → α) (i : Nat) : upd f i (f i) = f := by
  funext j
  unfold upd
  split
  · rename_i h; rw [h]
  · rfl

theorem upd_upd {α : Type} (f : Nat → α) (i : Nat) (a b : α) : upd (upd f i a) i b = upd f i b := by
  funext j
  unfold upd
  split <;> rfl

/-- Moving the first held message to the network. -/
theorem Inv.unhold {s : St} {t : Nat} {m : Msg} {l : List Msg} (h : Inv { s with held := upd s.held t (m :: l) }) :
    Inv { s with held := upd s.held t l, net := m :: s.net } := by
  have hsd : m.sender = t := h.n.hsend t m (by simp [upd])
  refine ⟨⟨h.n.hseq, h.n.sseq, ?_, ?_, ?_⟩, ⟨h.m.good, h.m.hnd, h.m.cons, h.m.ord, h.m.dead, h.m.ids, h.m.psort, h.m.pin, h.m.pall, h.m.canc, h.m.clt⟩, h.f⟩
  · intro y
    have := h.n.cons y
    simp only [List.count_cons] at this ⊢
    by_cases hy : y.sender = t
    · rw [hy, upd_self] at this ⊢
      rw [List.count_cons] at this
      omega
    · rw [upd_ne _ _ hy] at this ⊢
      have : ¬ (m == y) = true := by
        intro e
        have := eq_of_beq e
        subst this
        exact hy hsd
      rw [if_neg this]
      omega
  · intro u
    have := h.n.sorted u
    simp only at this ⊢
    by_cases hu : u = t
    · subst hu
      rw [upd_self] at this ⊢
      exact (List.pairwise_cons.1 this).2
    · rw [upd_ne _ _ hu] at this ⊢
      exact this
  · intro u x hx
    refine h.n.hsend u x ?_
    simp only at hx ⊢
    by_cases hu : u = t
    · subst hu
      rw [upd_self] at hx ⊢
      exact List.mem_cons_of_mem _ hx
    · rw [upd_ne _ _ hu] at hx ⊢
      exact hx

theorem release_ok {t : Nat} {l : List Msg} {s s' : St} (h : Inv { s with held := upd s.held t l })
    (ho : ∀ u, u ≠ t → Strict s u) (hs : release s t l = .ok s') : Inv s' ∧ ∀ u, Strict s' u := by
  induction l generalizing s with
  | nil =>
    simp only [release, Except.ok.injEq] at hs
    subst hs
    refine ⟨h, ?_⟩
    intro u
    by_cases hu : u = t
    · subst hu; intro x hx; simp [upd_self] at hx
    · intro x hx
      simp only [upd_ne _ _ hu] at hx
      exact ho u hu x hx
  | cons m l ih =>
    have hsd : m.sender = t := h.n.hsend t m (by simp [upd])
    have hle : s.nextIn t ≤ m.seq := h.n.held_le (t := t) (by simp [upd])
    have hsort : ∀ x ∈ l, m.seq < x.seq := by
      have := h.n.sorted t
      simp only [upd_self] at this
      exact (List.pairwise_cons.1 this).1
    simp only [release] at hs
    split at hs
    · rename_i hq
      have hq : m.seq = s.nextIn t := by omega
      cases hh : handle s m with
      | error a => rw [hh] at hs; simp at hs
      | ok s1 =>
        rw [hh] at hs
        simp only at hs
        obtain ⟨f1, f2, f3, f4, f5, f6, f7⟩ := handle_frame hh
        have h1 := h.unhold
        have h2 := handle_held (upd s.held t l) hh
        have h3 := Inv.advance (s := { s with held := upd s.held t l }) h1 (by rw [hsd]; exact hq) h2
        rw [hsd] at h3
        refine ih ?_ ?_ hs
        · rw [f4]; exact h3
        · intro u hu x hx
          simp only [upd_ne _ _ hu]
          rw [f3]
          simp only at hx
          rw [f4] at hx
          exact ho u hu x hx
    · rename_i hq
      simp only [Except.ok.injEq] at hs
      subst hs
      refine ⟨h, ?_⟩
      intro u
      by_cases hu : u = t
      · subst hu
        intro x hx
        simp only [upd_self] at hx ⊢
        rcases List.mem_cons.1 hx with rfl | hx
        · omega
        · have := hsort x hx; omega
      · intro x hx
        simp only [upd_ne _ _ hu] at hx
        exact ho u hu x hx

/-- Why a release or an arrival aborts. -/
def Blame (L : List Ev) (a : Abort) : Prop :=
  a = .tooSmall ∧ ∃ r m, Ev.posted r ∈ L ∧ Ev.sent m ∈ L ∧ r.eligible m = true ∧ tooBig m r = true

theorem release_error {t : Nat} {l : List Msg} {s : St} {a : Abort} (h : Inv { s with held := upd s.held t l })
    (hs : release s t l = .error a) : Blame s.log a := by
  induction l generalizing s with
  | nil => simp [release] at hs
  | cons m l ih =>
    have hsd : m.sender = t := h.n.hsend t m (by simp [upd])
    have hle : s.nextIn t ≤ m.seq := h.n.held_le (t := t) (by simp [upd])
    simp only [release] at hs
    split at hs
    · rename_i hq
      have hq : m.seq = s.nextIn t := by omega
      cases hh : handle s m with
      | error a' =>
        rw [hh] at hs
        simp only [Except.error.injEq] at hs
        subst hs
        obtain ⟨e1, r, hr, _, e2, e3⟩ := handle_error hh
        exact ⟨e1, r, m, (h.m.pin r hr).1, mem_sents.1 (h.n.held_sent (t := t) (m := m) (by simp [upd])), e2, e3⟩
      | ok s1 =>
        rw [hh] at hs
        simp only at hs
        obtain ⟨f1, f2, f3, f4, f5, f6, f7⟩ := handle_frame hh
        have h3 := Inv.advance (s := { s with held := upd s.held t l }) h.unhold (by rw [hsd]; exact hq)
          (handle_held (upd s.held t l) hh)
        rw [hsd] at h3
        have h4 := ih (s := { s1 with nextIn := upd s1.nextIn t (s1.nextIn t + 1) }) (by rw [f4]; exact h3) hs
        obtain ⟨e1, r, x, e2, e3, e4, e5⟩ := h4
        refine ⟨e1, r, x, ?_, ?_, e4, e5⟩
        · rw [← mem_posteds] at e2 ⊢; rw [← f7]; exact e2
        · rw [← mem_sents] at e3 ⊢; rw [← f5]; exact e3
    · simp at hs

theorem mem_hold {m x : Msg} {l : List Msg} : x ∈ hold m l → x = m ∨ x ∈ l := by
  induction l with
  | nil => simp [hold]
  | cons y l ih =>
    simp only [hold]
    split
    · simp
    · split
      · intro hx
        rcases List.mem_cons.1 hx with rfl | hx
        · simp
        · rcases ih hx with h | h
          · exact .inl h
          · exact .inr (List.mem_cons_of_mem _ h)
      · intro hx; exact .inr hx

theorem hold_sorted {m : Msg} {l : List Msg} (h : l.Pairwise (fun a b => a.seq < b.seq)) :
    (hold m l).Pairwise (fun a b => a.seq < b.seq) := by
  induction l with
  | nil => simp [hold]
  | cons y l ih =>
    obtain ⟨h1, h2⟩ := List.pairwise_cons.1 h
    simp only [hold]
    split
    · rename_i hlt
      refine List.pairwise_cons.2 ⟨?_, h⟩
      intro x hx
      rcases List.mem_cons.1 hx with rfl | hx
      · exact hlt
      · have := h1 x hx; omega
    · split
      · rename_i hlt
        refine List.pairwise_cons.2 ⟨?_, ih h2⟩
        intro x hx
        rcases mem_hold hx with rfl | hx
        · exact hlt
        · exact h1 x hx
      · exact h

theorem count_hold {m : Msg} {l : List Msg} (h : ∀ x ∈ l, m.seq ≠ x.seq) (y : Msg) :
    (hold m l).count y = l.count y + (if m == y then 1 else 0) := by
  induction l with
  | nil => simp [hold, List.count_cons]
  | cons x l ih =>
    have hx := h x (List.mem_cons_self ..)
    simp only [hold]
    split
    · rw [List.count_cons]
    · split
      · rw [List.count_cons, ih (fun z hz => h z (List.mem_cons_of_mem _ hz)), List.count_cons]
        omega
      · omega

theorem arrive_ok {s s' : St} {m : Msg} (h : Inv { s with net := m :: s.net }) (hst : ∀ u, Strict s u)
    (hs : arrive s m = .ok s') : Inv s' ∧ ∀ u, Strict s' u := by
  unfold arrive at hs
  simp only at hs
  split at hs
  · rename_i hq
    cases hh : handle s m with
    | error a => rw [hh] at hs; simp at hs
    | ok s1 =>
      rw [hh] at hs
      simp only at hs
      have h1 := Inv.advance h hq hh
      obtain ⟨f1, f2, f3, f4, f5, f6, f7⟩ := handle_frame hh
      refine release_ok ?_ ?_ hs
      · simp only
        rw [upd_eta]; exact h1
      · intro u hu x hx
        simp only [upd_ne _ _ hu] at hx ⊢
        rw [f4] at hx
        rw [f3]
        exact hst u x hx
  · split at hs
    · simp at hs
    · rename_i hne hlt
      simp only [Except.ok.injEq] at hs
      subst hs
      have hgt : s.nextIn m.sender < m.seq := by omega
      have hdis : ∀ x ∈ s.held m.sender, m.seq ≠ x.seq := by
        intro x hx
        refine h.n.net_not_held (m := m) (List.mem_cons_self ..) (t := m.sender) hx ?_
        exact (h.n.hsend m.sender x hx).symm
      refine ⟨⟨⟨h.n.hseq, h.n.sseq, ?_, ?_, ?_⟩, ⟨h.m.good, h.m.hnd, h.m.cons, h.m.ord, h.m.dead, h.m.ids, h.m.psort, h.m.pin, h.m.pall, h.m.canc, h.m.clt⟩, h.f⟩, ?_⟩
      · intro y
        have := h.n.cons y
        simp only [List.count_cons] at this ⊢
        by_cases hy : y.sender = m.sender
        · rw [hy] at this ⊢
          rw [upd_self, count_hold hdis]
          omega
        · rw [upd_ne _ _ hy]
          have hne : ¬ (m == y) = true := by
            intro e
            exact hy (eq_of_beq e ▸ rfl)
          rw [if_neg hne] at this
          omega
      · intro u
        simp only
        by_cases hu : u = m.sender
        · subst hu; rw [upd_self]; exact hold_sorted (h.n.sorted _)
        · rw [upd_ne _ _ hu]; exact h.n.sorted u
      · intro u x hx
        simp only at hx
        by_cases hu : u = m.sender
        · subst hu
          rw [upd_self] at hx
          rcases mem_hold hx with rfl | hx
          · rfl
          · exact h.n.hsend _ x hx
        · rw [upd_ne _ _ hu] at hx; exact h.n.hsend u x hx
      · intro u x hx
        simp only at hx ⊢
        by_cases hu : u = m.sender
        · subst hu
          rw [upd_self] at hx
          rcases mem_hold hx with rfl | hx
          · exact hgt
          · exact hst _ x hx
        · rw [upd_ne _ _ hu] at hx; exact hst u x hx

theorem arrive_error {s : St} {m : Msg} {a : Abort} (h : Inv { s with net := m :: s.net })
    (hs : arrive s m = .error a) : Blame s.log a := by
  unfold arrive at hs
  simp only at hs
  have hsent : Ev.sent m ∈ s.log := mem_sents.1 (h.n.net_sent (m := m) (List.mem_cons_self ..))
  split at hs
  · rename_i hq
    cases hh : handle s m with
    | error a' =>
      rw [hh] at hs
      simp only [Except.error.injEq] at hs
      subst hs
      obtain ⟨e1, r, hr, _, e2, e3⟩ := handle_error hh
      exact ⟨e1, r, m, (h.m.pin r hr).1, hsent, e2, e3⟩
    | ok s1 =>
      rw [hh] at hs
      simp only at hs
      obtain ⟨f1, f2, f3, f4, f5, f6, f7⟩ := handle_frame hh
      obtain ⟨e1, r, x, e2, e3, e4, e5⟩ := release_error (by simp only; rw [upd_eta]; exact Inv.advance h hq hh) hs
      refine ⟨e1, r, x, ?_, ?_, e4, e5⟩
      · rw [← mem_posteds] at e2 ⊢; rw [← f7]; exact e2
      · rw [← mem_sents] at e3 ⊢; rw [← f5]; exact e3
  · split at hs
    · rename_i hlt
      have := h.n.not_behind (m := m) (List.mem_cons_self ..)
      simp only at this
      omega
    · simp at hs

theorem count_eraseIdx {l : List Msg} {i : Nat} {m : Msg} (h : l[i]? = some m) (y : Msg) :
    l.count y = (l.eraseIdx i).count y + (if m == y then 1 else 0) := by
  induction l generalizing i with
  | nil => simp at h
  | cons x l ih =>
    cases i with
    | zero =>
      simp at h
      subst h
      simp [List.count_cons]
    | succ i =>
      simp at h
      simp only [List.eraseIdx_cons_succ, List.count_cons]
      rw [ih h]
      omega

/-- The invariant together with "no held message is next". -/
structure Full (s : St) : Prop where
  inv : Inv s
  strict : ∀ u, Strict s u

theorem Full.init : Full St.init := by
  refine ⟨⟨⟨?_, ?_, ?_, ?_, ?_⟩, ⟨AllAt.nil _, ?_, ?_, ?_, ?_, ?_, ?_, ?_, ?_, ?_, ?_⟩, ?_⟩, ?_⟩
    <;> intros <;> simp_all [St.init, handleds, sents, matches_, posteds, fromS, Strict]

theorem takeNet {s : St} (h : Inv s) {i : Nat} {m : Msg} (hi : s.net[i]? = some m) :
    Inv { s with net := m :: s.net.eraseIdx i } := by
  refine ⟨⟨h.n.hseq, h.n.sseq, ?_, h.n.sorted, h.n.hsend⟩, ⟨h.m.good, h.m.hnd, h.m.cons, h.m.ord, h.m.dead, h.m.ids, h.m.psort, h.m.pin, h.m.pall, h.m.canc, h.m.clt⟩, h.f⟩
  intro y
  have := h.n.cons y
  have e := count_eraseIdx hi y
  simp only [List.count_cons] at this ⊢
  omega

theorem takeFetch {s : St} (h : Inv s) {i : Nat} {m : Msg} (hi : s.fetching[i]? = some m) :
    MInv { s with fetching := m :: s.fetching.eraseIdx i } := by
  refine ⟨h.m.good, h.m.hnd, ?_, h.m.ord, h.m.dead, h.m.ids, h.m.psort, h.m.pin, h.m.pall, h.m.canc, h.m.clt⟩
  intro y
  have := h.m.cons y
  have e := count_eraseIdx hi y
  simp only [List.count_cons] at this ⊢
  omega

theorem mem_of_mem_eraseIdx' {l : List Msg} {i : Nat} {x : Msg} (h : x ∈ l.eraseIdx i) : x ∈ l :=
  List.mem_of_mem_eraseIdx h

/-- Posting keeps the network part. -/
theorem post_frame {s s' : St} {r : Req} (h : post s r = .ok s') :
    s'.net = s.net ∧ s'.nextOut = s.nextOut ∧ s'.nextIn = s.nextIn ∧ s'.held = s.held ∧ s'.fetching = s.fetching ∧
    sents s'.log = sents s.log ∧ handleds s'.log = handleds s.log := by
  unfold post at h
  simp only at h
  cases hp : searchUnexpected r s.unexpected with
  | error a => rw [hp] at h; simp at h
  | ok p =>
    obtain ⟨x, ms⟩ := p
    rw [hp] at h
    cases x with
    | none =>
      simp only [Except.ok.injEq] at h
      subst h
      exact ⟨rfl, rfl, rfl, rfl, rfl, by simp [sents], by simp [handleds]⟩
    | some m =>
      simp only [Except.ok.injEq] at h
      subst h
      exact ⟨rfl, rfl, rfl, rfl, rfl, by simp [sents], by simp [handleds]⟩

theorem NInv.congr {s s' : St} (h : NInv s) (h1 : s'.net = s.net) (h2 : s'.nextOut = s.nextOut)
    (h3 : s'.nextIn = s.nextIn) (h4 : s'.held = s.held) (h5 : sents s'.log = sents s.log)
    (h6 : handleds s'.log = handleds s.log) : NInv s' := by
  refine ⟨?_, ?_, ?_, ?_, ?_⟩
  · rw [h3, h6]; exact h.hseq
  · rw [h2, h5]; exact h.sseq
  · rw [h1, h4, h5, h6]; exact h.cons
  · rw [h4]; exact h.sorted
  · rw [h4]; exact h.hsend

theorem Full.step {s s' : St} {op : Op} (h : Full s) (hs : step s op = .ok s') : Full s' := by
  cases op with
  | send t src tag comm bytes prot =>
    simp only [Mpi.step, Except.ok.injEq] at hs
    subst hs
    generalize hm : (⟨t, s.nextOut t, src, tag, comm, bytes, prot⟩ : Msg) = m
    have hmt : m.sender = t := by rw [← hm]
    have hmq : m.seq = s.nextOut t := by rw [← hm]
    have hM := h.inv.m
    have hh : handleds (s.log ++ [Ev.sent m]) = handleds s.log := by simp [handleds]
    refine ⟨⟨⟨?_, ?_, ?_, h.inv.n.sorted, h.inv.n.hsend⟩, ⟨hM.good.snoc trivial, ?_, ?_, hM.ord, hM.dead, ?_, hM.psort, ?_, ?_, ?_, hM.clt⟩, h.inv.f⟩, h.strict⟩
    · intro u; simp only; rw [hh]; exact h.inv.n.hseq u
    · intro u
      simp only
      rw [sents_append, fromS_append, List.map_append, h.inv.n.sseq u]
      by_cases hu : u = t
      · subst hu
        rw [upd_self, List.range_succ]
        simp [sents, fromS, hmt, hmq]
      · rw [upd_ne _ _ hu]
        have : fromS u (sents [Ev.sent m]) = [] := by simp [fromS, sents]; exact fun e => hu (e.symm.trans hmt)
        rw [this]; simp
    · intro y
      have := h.inv.n.cons y
      simp only
      rw [hh, sents_append]
      have e : (sents [Ev.sent m]).count y = if m == y then 1 else 0 := by simp [sents, List.count_cons]
      rw [List.count_append, e, List.count_append, List.count_cons, List.count_nil]
      omega
    · simp only; rw [hh]; exact hM.hnd
    · intro y
      have := hM.cons y
      simp only
      rw [hh, matches_append]
      simpa [matches_] using this
    · simp only; rw [posteds_append]; simpa [posteds] using hM.ids
    · intro x hx
      obtain ⟨h1, h2⟩ := hM.pin x hx
      exact ⟨List.mem_append_left _ h1, by intro m hm; exact h2 m (by simpa using hm)⟩
    · intro x hx
      rcases hM.pall x (by simpa using hx) with h1 | ⟨y, h1⟩ | h1
      · exact .inl h1
      · exact .inr (.inl ⟨y, by simp [h1]⟩)
      · exact .inr (.inr h1)
    · intro i
      rw [show (i ∈ s.cancelled ↔ _) from hM.canc i]
      simp
  | deliver i =>
    simp only [Mpi.step] at hs
    cases hi : s.net[i]? with
    | none => rw [hi] at hs; simp only [Except.ok.injEq] at hs; subst hs; exact h
    | some m =>
      rw [hi] at hs
      simp only at hs
      obtain ⟨h1, h2⟩ := arrive_ok (s := { s with net := s.net.eraseIdx i }) (takeNet h.inv hi) h.strict hs
      exact ⟨h1, h2⟩
  | payload i =>
    simp only [Mpi.step] at hs
    cases hi : s.fetching[i]? with
    | none => rw [hi] at hs; simp only [Except.ok.injEq] at hs; subst hs; exact h
    | some m =>
      rw [hi] at hs
      simp only at hs
      have hpm : m.prot = .eager1 := h.inv.f m (List.mem_of_getElem? hi)
      have hf : ∀ x ∈ s.fetching.eraseIdx i, x.prot = .eager1 := fun x hx => h.inv.f x (mem_of_mem_eraseIdx' hx)
      have hm := MInv.matchMsg (s := { s with fetching := s.fetching.eraseIdx i }) (takeFetch h.inv hi) hf
        (fun a _ hc => hc.1 hpm) hs
      obtain ⟨f1, f2, f3, f4, f5, f6, f7, f8, f9⟩ := matchMsg_frame hs
      refine ⟨⟨h.inv.n.congr f1 f2 f3 f4 f7 f8, hm, by rw [f6]; exact hf⟩, ?_⟩
      intro u x hx
      rw [f4] at hx
      rw [f3]
      exact h.strict u x hx
  | recv source tag comm cap =>
    simp only [Mpi.step] at hs
    have hm := h.inv.m.post h.inv.f hs
    obtain ⟨f1, f2, f3, f4, f5, f6, f7⟩ := post_frame hs
    refine ⟨⟨h.inv.n.congr f1 f2 f3 f4 f6 f7, hm, by rw [f5]; exact h.inv.f⟩, ?_⟩
    intro u x hx
    rw [f4] at hx
    rw [f3]
    exact h.strict u x hx
  | cancel id =>
    simp only [Mpi.step] at hs
    split at hs
    · simp only [Except.ok.injEq] at hs; subst hs; exact h
    · rename_i hlt
      simp only [Except.ok.injEq] at hs
      subst hs
      refine ⟨⟨h.inv.n.congr rfl rfl rfl rfl ?_ ?_, h.inv.m.cancel (by omega), h.inv.f⟩, h.strict⟩
      · simp [sents]
      · simp [handleds]

theorem Full.run {s s' : St} {ops : List Op} (h : Full s) (hs : run s ops = .ok s') : Full s' := by
  induction ops generalizing s with
  | nil => simp only [Mpi.run, Except.ok.injEq] at hs; subst hs; exact h
  | cons op ops ih =>
    simp only [Mpi.run] at hs
    cases hst : Mpi.step s op with
    | error a => rw [hst] at hs; simp at hs
    | ok s1 =>
      rw [hst] at hs
      exact ih (h.step hst) hs

theorem step_error {s : St} {op : Op} {a : Abort} (h : Full s) (hs : step s op = .error a) :
    a = .tooSmall ∧ ∃ r m, (Ev.posted r ∈ s.log ∨ op = .recv r.source r.tag r.comm r.cap) ∧
      Ev.sent m ∈ s.log ∧ r.eligible m = true ∧ tooBig m r = true := by
  cases op with
  | send t src tag comm bytes prot => simp [step] at hs
  | deliver i =>
    simp only [step] at hs
    cases hi : s.net[i]? with
    | none => rw [hi] at hs; simp at hs
    | some m =>
      rw [hi] at hs
      simp only at hs
      obtain ⟨e1, r, x, e2, e3, e4, e5⟩ := arrive_error (s := { s with net := s.net.eraseIdx i }) (takeNet h.inv hi) hs
      exact ⟨e1, r, x, .inl e2, e3, e4, e5⟩
  | payload i =>
    simp only [step] at hs
    cases hi : s.fetching[i]? with
    | none => rw [hi] at hs; simp at hs
    | some m =>
      rw [hi] at hs
      simp only [matchMsg] at hs
      cases hp : searchPosted s.cancelled m s.posted with
      | error a' =>
        rw [hp] at hs
        simp only [Except.error.injEq] at hs
        subst hs
        obtain ⟨e1, r, hr, _, e2, e3⟩ := searchPosted_error hp
        refine ⟨e1, r, m, .inl (h.inv.m.pin r hr).1, ?_, e2, e3⟩
        have := (h.inv.m.pending (.inl (List.mem_of_getElem? hi))).1
        exact mem_sents.1 (h.inv.n.handled_sent (mem_handleds.2 this))
      | ok p =>
        obtain ⟨x, rs⟩ := p
        rw [hp] at hs
        cases x <;> simp at hs
  | recv source tag comm cap =>
    simp only [step, post] at hs
    cases hp : searchUnexpected ⟨s.nextReq, source, tag, comm, cap⟩ s.unexpected with
    | error a' =>
      rw [hp] at hs
      simp only [Except.error.injEq] at hs
      subst hs
      obtain ⟨e1, m, hm, e2, e3⟩ := searchUnexpected_error hp
      refine ⟨e1, _, m, .inr rfl, ?_, e2, e3⟩
      have := (h.inv.m.pending (.inr hm)).1
      exact mem_sents.1 (h.inv.n.handled_sent (mem_handleds.2 this))
    | ok p =>
      obtain ⟨x, rs⟩ := p
      rw [hp] at hs
      cases x <;> simp at hs
  | cancel id =>
    simp only [step] at hs
    split at hs <;> simp at hs

end SST.Mpi
