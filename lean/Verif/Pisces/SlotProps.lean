import Verif.Pisces.Slot
/-
C51 and C66 for the packet-flow network model.
-/
set_option autoImplicit false
namespace SST.Pisces

/-- No event gives back more credits than were spent: the credits never exceed the size of the
buffer behind the port (`cap`).  C50 shows this of every network. -/
def Legal (all : Bool) (cap : Nat) (s : Slot) : List Ev → Prop
  | [] => True
  | e :: es => s.cred + back [e] ≤ cap ∧ Legal all cap (step all s e).1 es

/-- Nothing that waits could be sent. -/
def Held (s : Slot) : Prop := ∀ p ∈ s.queue, s.cred < p.bytes

theorem run_cons (all : Bool) (s : Slot) (e : Ev) (es : List Ev) :
    run all s (e :: es) = ((run all (step all s e).1 es).1, (step all s e).2 ++ (run all (step all s e).1 es).2) := rfl

theorem drain_held (cred : Int) (q : List Pkt) (h0 : 0 ≤ cred) (h1 : cred < 4294967296) : Held (drain cred q).1 := by
  fun_induction drain cred q with
  | case1 cred q h =>
    intro p hp
    have := pop_none h p hp
    have h2 := fits_iff (b := p.bytes) h0 h1
    rw [this] at h2
    simp only [Bool.false_eq_true, false_iff] at h2
    show cred < _
    omega
  | case2 cred q p q' h r ih =>
    have := (fits_iff h0 h1).1 (pop_fits h)
    exact ih (by omega) (by omega)

theorem step_held {cap : Nat} (hcap : cap < 2147483648) {s : Slot} {e : Ev} (h0 : 0 ≤ s.cred) (hl : s.cred + back [e] ≤ cap) (hh : Held s) :
    Held (step true s e).1 := by
  cases e with
  | pkt p =>
    unfold step payload
    simp only [back] at *
    split
    · intro q hq
      have := hh q hq
      show s.cred - p.bytes < q.bytes
      omega
    · rename_i hf
      intro q hq
      rcases List.mem_append.1 hq with hq | hq
      · exact hh q hq
      · simp only [List.mem_singleton] at hq
        subst hq
        have h2 := fits_iff (b := q.bytes) h0 (by omega)
        show s.cred < _
        rw [h2] at hf
        omega
  | credit n =>
    simp only [back, Nat.add_zero] at hl
    exact drain_held _ _ (by omega) (by omega)

theorem run_held {cap : Nat} (hcap : cap < 2147483648) (es : List Ev) : ∀ s : Slot, 0 ≤ s.cred → Held s → Legal true cap s es →
    Held (run true s es).1 ∧ 0 ≤ (run true s es).1.cred := by
  induction es with
  | nil => exact fun s h0 hh _ => ⟨hh, h0⟩
  | cons e es ih =>
    intro s h0 hh hl
    exact ih _ (step_nonneg true s e h0 (by have := hl.1; omega)) (step_held hcap h0 hl.1 hh) hl.2

/-- C66, output buffers: after every history of packets and credits, no waiting packet (not only
the first) has enough credits to be sent. -/
theorem C66_buffer_holds_nothing_sendable (cap c0 : Nat) (hcap : cap < 2147483648) (es : List Ev) (hl : Legal true cap ⟨c0, []⟩ es) :
    ∀ p ∈ (run true ⟨c0, []⟩ es).1.queue, (run true ⟨c0, []⟩ es).1.cred < p.bytes :=
  (run_held hcap es ⟨c0, []⟩ (by simp) (by intro p hp; simp at hp) hl).1

/-- A packet of a given size on channel 0. -/
def mk (id bytes : Nat) : Pkt := { id := id, bytes := bytes, vc := 0, inp := 0, out := 0, next := 0 }

example : Legal true 30 ⟨30, []⟩ [.pkt (mk 1 20), .pkt (mk 2 15), .pkt (mk 3 12), .credit 20] ∧
    (run true ⟨30, []⟩ [.pkt (mk 1 20), .pkt (mk 2 15), .pkt (mk 3 12), .credit 20]) = (⟨3, []⟩, [mk 1 20, mk 2 15, mk 3 12]) := by
  refine ⟨⟨by decide, by decide, by decide, by decide, trivial⟩, by decide +kernel⟩

/-- C66 is false for crossbars, muxers and demuxers: one packet of twenty bytes is credited, the
first of two waiting packets is sent, and the second, for which ten credits are left, stays. -/
theorem C66_crossbar_refuted :
    ¬ ∀ (cap c0 : Nat) (es : List Ev), cap < 2147483648 → Legal false cap ⟨c0, []⟩ es →
      ∀ p, (run false ⟨c0, []⟩ es).1.queue.head? = some p → (run false ⟨c0, []⟩ es).1.cred < p.bytes := by
  intro h
  have := h 20 20 [.pkt (mk 1 20), .pkt (mk 2 10), .pkt (mk 3 10), .credit 20] (by decide)
    ⟨by decide, by decide, by decide, by decide, trivial⟩ (mk 3 10) (by decide)
  revert this
  decide

/-- C66 for crossbars, a weaker guarantee that always holds: whenever all credits are back,
nothing waits.  So a packet held back although it could be sent leaves at the latest when the
packets sent before it have been credited. -/
theorem C66_crossbar_no_stall_partial (c0 : Nat) (hcap : c0 < 2147483648) (es : List Ev) (hl : Legal false c0 ⟨c0, []⟩ es)
    (hb : ∀ p ∈ pkts es, p.bytes ≤ c0) (hall : (run false ⟨c0, []⟩ es).1.cred = c0) : (run false ⟨c0, []⟩ es).1.queue = [] := by
  suffices H : ∀ (es : List Ev) (s : Slot), 0 ≤ s.cred → (∀ p ∈ s.queue, 0 < p.bytes ∧ p.bytes ≤ c0 ∧ s.cred < c0) →
      (∀ p ∈ pkts es, p.bytes ≤ c0) → Legal false c0 s es →
      ∀ p ∈ (run false s es).1.queue, 0 < p.bytes ∧ p.bytes ≤ c0 ∧ (run false s es).1.cred < c0 by
    cases hq : (run false ⟨c0, []⟩ es).1.queue with
    | nil => rfl
    | cons p l =>
      have := H es ⟨c0, []⟩ (by simp) (by intro p hp; simp at hp) hb hl p (by rw [hq]; simp)
      omega
  intro es
  induction es with
  | nil => exact fun s _ h _ _ => h
  | cons e es ih =>
    intro s h0 hq hb hl
    rw [run_cons]
    simp only
    refine ih _ (step_nonneg false s e h0 (by have := hl.1; omega)) ?_ ?_ hl.2
    · cases e with
      | pkt p =>
        have hpb : p.bytes ≤ c0 := hb p (by simp [pkts])
        unfold step payload
        simp only
        split
        · intro q hq'
          have := hq q hq'
          exact ⟨this.1, this.2.1, by show s.cred - p.bytes < c0; omega⟩
        · rename_i hf
          intro q hq'
          have h2 := fits_iff (b := p.bytes) h0 (by have := hl.1; simp only [back] at this; omega)
          rw [h2] at hf
          rcases List.mem_append.1 hq' with h | h
          · exact hq q h
          · simp only [List.mem_singleton] at h
            subst h
            exact ⟨by omega, hpb, by show s.cred < c0; omega⟩
      | credit n =>
        have hle := hl.1
        simp only [back, Nat.add_zero] at hle
        unfold step creditOne
        simp only [Bool.false_eq_true, if_false]
        split
        · rename_i hp
          intro q hq'
          have := hq q hq'
          have h2 := pop_none hp q hq'
          have h3 := fits_iff (b := q.bytes) (cred := s.cred + n) (by omega) (by omega)
          rw [h2] at h3
          simp only [Bool.false_eq_true, false_iff] at h3
          exact ⟨this.1, this.2.1, by show s.cred + n < c0; omega⟩
        · rename_i r q' hp
          intro q hq'
          have hmem : ∀ x, x ∈ r :: q' → x ∈ s.queue := fun x hx => (pop_perm hp).mem_iff.1 hx
          have h1 := hq q (hmem q (List.mem_cons_of_mem _ hq'))
          have h2 := hq r (hmem r (List.mem_cons_self ..))
          exact ⟨h1.1, h1.2.1, by show s.cred + n - r.bytes < c0; omega⟩
    · intro p hp
      apply hb
      cases e with
      | pkt _ => exact List.mem_cons_of_mem _ hp
      | credit _ => exact hp

/-- C66 for crossbars when all packets have one size: credits then come back in that size. -/
theorem C66_crossbar_partial (cap c0 b : Nat) (hcap : cap < 2147483648) (es : List Ev)
    (hb : ∀ p ∈ pkts es, p.bytes = b) (hc : ∀ n, Ev.credit n ∈ es → n = b) (hl : Legal false cap ⟨c0, []⟩ es) :
    ∀ p ∈ (run false ⟨c0, []⟩ es).1.queue, (run false ⟨c0, []⟩ es).1.cred < p.bytes := by
  suffices H : ∀ (es : List Ev) (s : Slot), 0 ≤ s.cred → (∀ p ∈ s.queue, p.bytes = b ∧ s.cred < b) →
      (∀ p ∈ pkts es, p.bytes = b) → (∀ n, Ev.credit n ∈ es → n = b) → Legal false cap s es →
      ∀ p ∈ (run false s es).1.queue, p.bytes = b ∧ (run false s es).1.cred < b by
    intro p hp
    have := H es ⟨c0, []⟩ (by simp) (by intro p hp; simp at hp) hb hc hl p hp
    omega
  intro es
  induction es with
  | nil => exact fun s _ h _ _ _ => h
  | cons e es ih =>
    intro s h0 hq hb hc hl
    rw [run_cons]
    simp only
    refine ih _ (step_nonneg false s e h0 (by have := hl.1; omega)) ?_ ?_ (fun n hn => hc n (List.mem_cons_of_mem _ hn)) hl.2
    · cases e with
      | pkt p =>
        have hpb : p.bytes = b := hb p (by simp [pkts])
        unfold step payload
        simp only
        split
        · intro q hq'
          have := hq q hq'
          exact ⟨this.1, by show s.cred - p.bytes < b; omega⟩
        · rename_i hf
          intro q hq'
          have h2 := fits_iff (b := p.bytes) h0 (by have := hl.1; simp only [back] at this; omega)
          rw [h2] at hf
          rcases List.mem_append.1 hq' with h | h
          · exact ⟨(hq q h).1, by show s.cred < b; omega⟩
          · simp only [List.mem_singleton] at h
            subst h
            exact ⟨hpb, by show s.cred < b; omega⟩
      | credit n =>
        have hn : n = b := hc n (List.mem_cons_self ..)
        have hle := hl.1
        simp only [back, Nat.add_zero] at hle
        unfold step creditOne
        simp only [Bool.false_eq_true, if_false]
        split
        · rename_i hp
          intro q hq'
          have := hq q hq'
          have h2 := pop_none hp q hq'
          have h3 := fits_iff (b := q.bytes) (cred := s.cred + n) (by omega) (by omega)
          rw [h2] at h3
          simp only [Bool.false_eq_true, false_iff] at h3
          exact ⟨this.1, by show s.cred + n < b; omega⟩
        · rename_i r q' hp
          intro q hq'
          have hmem : ∀ x, x ∈ r :: q' → x ∈ s.queue := fun x hx => (pop_perm hp).mem_iff.1 hx
          have h1 := hq q (hmem q (List.mem_cons_of_mem _ hq'))
          have h2 := hq r (hmem r (List.mem_cons_self ..))
          exact ⟨h1.1, by show s.cred + n - r.bytes < b; omega⟩
    · intro p hp
      apply hb
      cases e with
      | pkt _ => exact List.mem_cons_of_mem _ hp
      | credit _ => exact hp

example : Legal false 20 ⟨20, []⟩ [.pkt (mk 1 10), .pkt (mk 2 10), .pkt (mk 3 10), .pkt (mk 4 10), .credit 10] ∧
    (run false ⟨20, []⟩ [.pkt (mk 1 10), .pkt (mk 2 10), .pkt (mk 3 10), .pkt (mk 4 10), .credit 10]) =
      (⟨0, [mk 4 10]⟩, [mk 1 10, mk 2 10, mk 3 10]) := by
  refine ⟨⟨by decide, by decide, by decide, by decide, by decide, trivial⟩, by decide +kernel⟩

/-! ### C51 -/

/-- `p` comes before `q`. -/
def Before (p q : Pkt) (l : List Pkt) : Prop := [p, q].Sublist l

theorem before_append {p q : Pkt} {a b : List Pkt} : Before p q (a ++ b) ↔ Before p q a ∨ (p ∈ a ∧ q ∈ b) ∨ Before p q b := by
  unfold Before
  rw [List.sublist_append_iff]
  constructor
  · rintro ⟨l1, l2, h, h1, h2⟩
    match l1, h with
    | [], h =>
      simp only [List.nil_append] at h
      subst h
      exact Or.inr (Or.inr h2)
    | [x], h =>
      simp only [List.cons_append, List.nil_append, List.cons.injEq] at h
      obtain ⟨rfl, rfl⟩ := h
      exact Or.inr (Or.inl ⟨List.singleton_sublist.1 h1, List.singleton_sublist.1 h2⟩)
    | [x, y], h =>
      simp only [List.cons_append, List.nil_append, List.cons.injEq] at h
      obtain ⟨rfl, rfl, rfl⟩ := h
      exact Or.inl h1
    | x :: y :: z :: l, h => simp at h
  · rintro (h | ⟨h1, h2⟩ | h)
    · exact ⟨[p, q], [], by simp, h, by simp⟩
    · exact ⟨[p], [q], rfl, List.singleton_sublist.2 h1, List.singleton_sublist.2 h2⟩
    · exact ⟨[], [p, q], rfl, by simp, h⟩

/-- A packet not smaller than an earlier one stays behind it. -/
def Keeps (l l' : List Pkt) : Prop := ∀ p q, p.bytes ≤ q.bytes → Before p q l → Before p q l'

theorem before_single {p q x : Pkt} : ¬ Before p q [x] := by
  intro h
  have := List.Sublist.length_le h
  simp at this

/-- Moving a packet ahead of larger ones. -/
theorem keeps_move {a b : List Pkt} {r : Pkt} (h : ∀ x ∈ a, r.bytes < x.bytes) : Keeps (a ++ r :: b) (r :: (a ++ b)) := by
  intro p q hpq hb
  rw [show r :: b = [r] ++ b from rfl, before_append, before_append] at hb
  rw [show r :: (a ++ b) = [r] ++ (a ++ b) from rfl, before_append, before_append]
  rcases hb with h1 | ⟨h1, h2⟩ | h1 | ⟨h1, h2⟩ | h1
  · exact Or.inr (Or.inr (Or.inl h1))
  · rcases List.mem_append.1 h2 with h2 | h2
    · rw [List.mem_singleton] at h2
      subst h2
      have := h p h1
      omega
    · exact Or.inr (Or.inr (Or.inr (Or.inl ⟨h1, h2⟩)))
  · exact absurd h1 before_single
  · exact Or.inr (Or.inl ⟨h1, List.mem_append.2 (Or.inr h2)⟩)
  · exact Or.inr (Or.inr (Or.inr (Or.inr h1)))

theorem keeps_append {l l' : List Pkt} (a : List Pkt) (h : Keeps l l') (hp : l.Perm l') : Keeps (a ++ l) (a ++ l') := by
  intro p q hpq hb
  rw [before_append] at hb ⊢
  rcases hb with h1 | ⟨h1, h2⟩ | h1
  · exact Or.inl h1
  · exact Or.inr (Or.inl ⟨h1, hp.mem_iff.1 h2⟩)
  · exact Or.inr (Or.inr (h p q hpq h1))

theorem keeps_append_right {l l' : List Pkt} (a : List Pkt) (h : Keeps l l') (hp : l.Perm l') : Keeps (l ++ a) (l' ++ a) := by
  intro p q hpq hb
  rw [before_append] at hb ⊢
  rcases hb with h1 | ⟨h1, h2⟩ | h1
  · exact Or.inl (h p q hpq h1)
  · exact Or.inr (Or.inl ⟨hp.mem_iff.1 h1, h2⟩)
  · exact Or.inr (Or.inr h1)

theorem Keeps.trans {a b c : List Pkt} (h : Keeps a b) (h' : Keeps b c) : Keeps a c :=
  fun p q hpq hb => h' p q hpq (h p q hpq hb)

theorem drain_keeps (cred : Int) (q : List Pkt) (h0 : 0 ≤ cred) (h1 : cred < 4294967296) : Keeps q ((drain cred q).2 ++ (drain cred q).1.queue) := by
  fun_induction drain cred q with
  | case1 cred q h => exact fun _ _ _ hb => hb
  | case2 cred q p q' h r ih =>
    have hf := (fits_iff h0 h1).1 (pop_fits h)
    obtain ⟨a, b, rfl, rfl, ha⟩ := pop_split h
    have hm : Keeps (a ++ p :: b) (p :: (a ++ b)) := by
      apply keeps_move
      intro x hx
      have h2 := ha x hx
      have h3 := fits_iff (b := x.bytes) h0 h1
      rw [h2] at h3
      simp only [Bool.false_eq_true, false_iff] at h3
      omega
    have := ih (by omega) (by omega)
    exact hm.trans (keeps_append [p] this (drain_perm _ _).symm)

theorem step_keeps {cap : Nat} (hcap : cap < 2147483648) {s : Slot} {e : Ev} (h0 : 0 ≤ s.cred) (hl : s.cred + back [e] ≤ cap) (hh : Held s) :
    Keeps (s.queue ++ pkts [e]) ((step true s e).2 ++ (step true s e).1.queue) := by
  cases e with
  | pkt p =>
    unfold step payload
    simp only [pkts, back] at *
    split
    · rename_i hf
      have := (fits_iff h0 (by omega)).1 hf
      have hm : Keeps (s.queue ++ p :: []) (p :: (s.queue ++ [])) := keeps_move fun x hx => by have := hh x hx; omega
      rw [List.append_nil] at hm
      exact hm
    · exact fun _ _ _ hb => hb
  | credit n =>
    simp only [pkts, back, List.append_nil, Nat.add_zero] at *
    exact drain_keeps _ _ (by omega) (by omega)

theorem run_keeps {cap : Nat} (hcap : cap < 2147483648) (es : List Ev) : ∀ s : Slot, 0 ≤ s.cred → Held s → Legal true cap s es →
    Keeps (s.queue ++ pkts es) ((run true s es).2 ++ (run true s es).1.queue) ∧
    (s.queue ++ pkts es).Perm ((run true s es).2 ++ (run true s es).1.queue) := by
  induction es with
  | nil =>
    intro s _ _ _
    simp only [pkts, List.append_nil, run, List.nil_append]
    exact ⟨fun _ _ _ hb => hb, List.Perm.refl _⟩
  | cons e es ih =>
    intro s h0 hh hl
    obtain ⟨h1, h2⟩ := ih _ (step_nonneg true s e h0 (by have := hl.1; omega)) (step_held hcap h0 hl.1 hh) hl.2
    have hs := step_keeps hcap h0 hl.1 hh
    have hp := (step_perm true s e).symm
    rw [run_cons]
    simp only
    have hpk : pkts (e :: es) = pkts [e] ++ pkts es := by cases e <;> simp [pkts]
    rw [hpk, ← List.append_assoc, List.append_assoc (step true s e).2]
    have k1 := keeps_append_right (pkts es) hs hp
    have k2 := keeps_append (step true s e).2 h1 h2
    rw [← List.append_assoc] at k2
    refine ⟨k1.trans k2, ?_⟩
    refine (List.Perm.append_right _ hp).trans ?_
    rw [List.append_assoc]
    exact List.Perm.append_left _ h2

/-- C51, output buffers, the part that holds: whatever the history, a packet is only ever
overtaken by strictly smaller ones; everything handed in has left or waits, once. -/
theorem C51_buffer_order_partial (cap c0 : Nat) (hcap : cap < 2147483648) (es : List Ev) (hl : Legal true cap ⟨c0, []⟩ es) :
    (∀ p q : Pkt, p.bytes ≤ q.bytes → [p, q].Sublist (pkts es) →
      [p, q].Sublist ((run true ⟨c0, []⟩ es).2 ++ (run true ⟨c0, []⟩ es).1.queue)) ∧
    (pkts es).Perm ((run true ⟨c0, []⟩ es).2 ++ (run true ⟨c0, []⟩ es).1.queue) := by
  have := run_keeps hcap es ⟨c0, []⟩ (by simp) (by intro p hp; simp at hp) hl
  simp only [List.nil_append] at this
  exact this

theorem eq_of_before {l l' : List Pkt} (nd : l.Nodup) (hp : l.Perm l') (h : ∀ p q, Before p q l → Before p q l') : l' = l := by
  induction l generalizing l' with
  | nil => exact (List.Perm.nil_eq hp).symm
  | cons a l ih =>
    have nd' : l'.Nodup := hp.nodup_iff.1 nd
    have ha : a ∈ l' := hp.mem_iff.1 (List.mem_cons_self ..)
    obtain ⟨x, y, rfl⟩ := List.append_of_mem ha
    have hx : x = [] := by
      cases x with
      | nil => rfl
      | cons z x =>
        exfalso
        have hz : z ∈ a :: l := hp.mem_iff.2 (by simp)
        have hza : z ≠ a := by
          rintro rfl
          simp at nd'
        have hzl : z ∈ l := by
          rcases List.mem_cons.1 hz with h | h
          · exact absurd h hza
          · exact h
        have hb : Before a z (a :: l) := by
          rw [show a :: l = [a] ++ l from rfl, before_append]
          exact Or.inr (Or.inl ⟨by simp, hzl⟩)
        have hb' := h a z hb
        rw [List.cons_append, show z :: (x ++ a :: y) = [z] ++ (x ++ a :: y) from rfl, before_append] at hb'
        have hzn : z ∉ x ++ a :: y := by
          simp only [List.cons_append, List.nodup_cons] at nd'
          exact nd'.1
        rcases hb' with h1 | ⟨h1, _⟩ | h1
        · exact before_single h1
        · simp only [List.mem_singleton] at h1
          exact hza h1.symm
        · exact hzn (h1.subset (by simp))
    subst hx
    simp only [List.nil_append] at *
    have := ih (List.nodup_cons.1 nd).2 (List.Perm.cons_inv hp) (by
      intro p q hb
      have hpl : p ∈ l := hb.subset (by simp)
      have := h p q (List.Sublist.cons a hb)
      rw [show a :: y = [a] ++ y from rfl, before_append] at this
      rcases this with h1 | ⟨h1, _⟩ | h1
      · exact absurd h1 before_single
      · simp only [List.mem_singleton] at h1
        subst h1
        exact absurd hpl (List.nodup_cons.1 nd).1
      · exact h1)
    rw [this]

/-- C51, output buffers, packets of one size: they leave exactly in the order they came in. -/
theorem C51_buffer_same_size_partial (cap c0 b : Nat) (hcap : cap < 2147483648) (es : List Ev) (hl : Legal true cap ⟨c0, []⟩ es)
    (hb : ∀ p ∈ pkts es, p.bytes = b) (nd : (pkts es).Nodup) :
    (run true ⟨c0, []⟩ es).2 ++ (run true ⟨c0, []⟩ es).1.queue = pkts es := by
  obtain ⟨h1, h2⟩ := C51_buffer_order_partial cap c0 hcap es hl
  refine eq_of_before nd h2 ?_
  intro p q h
  have hp := hb p (h.subset (by simp))
  have hq := hb q (h.subset (by simp))
  exact h1 p q (by omega) h

/-- C51 is false of output buffers: a small packet leaves before a large one that waits. -/
theorem C51_buffer_order_refuted :
    ¬ ∀ (cap c0 : Nat) (es : List Ev), cap < 2147483648 → Legal true cap ⟨c0, []⟩ es → (∀ p ∈ pkts es, p.bytes ≤ c0) → (pkts es).Nodup →
      (run true ⟨c0, []⟩ es).2 ++ (run true ⟨c0, []⟩ es).1.queue = pkts es := by
  intro h
  have := h 20 20 [.pkt (mk 1 15), .pkt (mk 2 10), .pkt (mk 3 5)] (by decide) ⟨by decide, by decide, by decide, trivial⟩ (by decide) (by decide)
  revert this
  decide

/-- ... and of crossbars even between packets of the same size. -/
theorem C51_crossbar_order_refuted :
    ¬ ∀ (cap c0 : Nat) (es : List Ev), cap < 2147483648 → Legal false cap ⟨c0, []⟩ es →
      ∀ p q : Pkt, p.bytes = q.bytes → [p, q].Sublist (pkts es) →
        [p, q].Sublist ((run false ⟨c0, []⟩ es).2 ++ (run false ⟨c0, []⟩ es).1.queue) := by
  intro h
  have := h 20 20 [.pkt (mk 1 20), .pkt (mk 2 10), .pkt (mk 3 10), .credit 20, .pkt (mk 4 10)] (by decide)
    ⟨by decide, by decide, by decide, by decide, by decide, trivial⟩ (mk 3 10) (mk 4 10) rfl (by decide)
  revert this
  decide

/-- C51 for crossbars when all packets have one size. -/
theorem C51_crossbar_same_size_partial (cap c0 b : Nat) (hcap : cap < 2147483648) (es : List Ev) (hl : Legal false cap ⟨c0, []⟩ es)
    (hb : ∀ p ∈ pkts es, p.bytes = b) (hc : ∀ n, Ev.credit n ∈ es → n = b) :
    (run false ⟨c0, []⟩ es).2 ++ (run false ⟨c0, []⟩ es).1.queue = pkts es := by
  suffices H : ∀ (es : List Ev) (s : Slot), 0 ≤ s.cred → (∀ p ∈ s.queue, p.bytes = b ∧ s.cred < b) →
      (∀ p ∈ pkts es, p.bytes = b) → (∀ n, Ev.credit n ∈ es → n = b) → Legal false cap s es →
      (run false s es).2 ++ (run false s es).1.queue = s.queue ++ pkts es by
    have := H es ⟨c0, []⟩ (by simp) (by intro p hp; simp at hp) hb hc hl
    simpa using this
  intro es
  induction es with
  | nil => intro s _ _ _ _ _; simp [run, pkts]
  | cons e es ih =>
    intro s h0 hq hb hc hl
    rw [run_cons]
    simp only
    have hnn := step_nonneg false s e h0 (by have := hl.1; omega)
    cases e with
    | pkt p =>
      have hpb : p.bytes = b := hb p (by simp [pkts])
      have hb' : ∀ q ∈ pkts es, q.bytes = b := fun q hq => hb q (List.mem_cons_of_mem _ hq)
      have hc' : ∀ n, Ev.credit n ∈ es → n = b := fun n hn => hc n (List.mem_cons_of_mem _ hn)
      have hl2 := hl.2
      have h2 := fits_iff (b := p.bytes) h0 (by have := hl.1; simp only [back] at this; omega)
      unfold step payload at hnn hl2 ⊢
      simp only at hnn hl2 ⊢
      split
      · rename_i hf
        rw [if_pos hf] at hnn hl2
        have hq0 : s.queue = [] := by
          cases hsq : s.queue with
          | nil => rfl
          | cons x l =>
            have := hq x (by rw [hsq]; simp)
            rw [h2] at hf
            omega
        have := ih _ hnn (by intro q hq'; rw [hq0] at hq'; simp at hq') hb' hc' hl2
        simp only [hq0, List.nil_append] at this ⊢
        rw [List.append_assoc, this]
        rfl
      · rename_i hf
        rw [if_neg hf] at hnn hl2
        rw [h2] at hf
        have := ih _ hnn (by
          intro q hq'
          rcases List.mem_append.1 hq' with h | h
          · exact ⟨(hq q h).1, by show s.cred < b; omega⟩
          · simp only [List.mem_singleton] at h
            subst h
            exact ⟨hpb, by show s.cred < b; omega⟩) hb' hc' hl2
        simp only [List.nil_append] at this ⊢
        rw [this]
        simp [pkts]
    | credit n =>
      have hn : n = b := hc n (List.mem_cons_self ..)
      have hle := hl.1
      have hl2 := hl.2
      simp only [back, Nat.add_zero] at hle
      have hc' : ∀ n, Ev.credit n ∈ es → n = b := fun n hn => hc n (List.mem_cons_of_mem _ hn)
      unfold step creditOne at hnn hl2 ⊢
      simp only [Bool.false_eq_true, if_false] at hnn hl2 ⊢
      cases hp : pop (s.cred + n) s.queue with
      | none =>
        simp only [hp] at hnn hl2 ⊢
        have := ih _ hnn (by
          intro q hq'
          have h1 := hq q hq'
          have h2 := pop_none hp q hq'
          have h3 := fits_iff (b := q.bytes) (cred := s.cred + n) (by omega) (by omega)
          rw [h2] at h3
          simp only [Bool.false_eq_true, false_iff] at h3
          exact ⟨h1.1, by show s.cred + n < b; omega⟩) hb hc' hl2
        simpa [pkts] using this
      | some x =>
        obtain ⟨r, q'⟩ := x
        simp only [hp] at hnn hl2 ⊢
        obtain ⟨a, c, e1, e2, ha⟩ := pop_split hp
        have ha0 : a = [] := by
          cases a with
          | nil => rfl
          | cons x a =>
            have h1 := hq x (by rw [e1]; simp)
            have h2 := ha x (by simp)
            have h3 := fits_iff (b := x.bytes) (cred := s.cred + n) (by omega) (by omega)
            rw [h2] at h3
            simp only [Bool.false_eq_true, false_iff] at h3
            omega
        subst ha0
        simp only [List.nil_append] at e1 e2
        subst e2
        have hr := hq r (by rw [e1]; simp)
        have := ih _ hnn (by
          intro q hq'
          have h1 := hq q (by rw [e1]; exact List.mem_cons_of_mem _ hq')
          exact ⟨h1.1, by show s.cred + n - r.bytes < b; omega⟩) hb hc' hl2
        simp only [List.cons_append, List.nil_append, pkts, e1] at this ⊢
        rw [this]

end SST.Pisces
