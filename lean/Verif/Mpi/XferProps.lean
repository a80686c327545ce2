import Verif.Mpi.Xfer
/-!
C94: the data of every message arrives in the receive buffer, once.
-/
set_option autoImplicit false
namespace SST.Mpi.Xfer

/-! ### Memory -/

theorem store_other (p : Nat) : ∀ (locs : List Nat) (data : List Byte) (m : Mem) (q x : Nat), (q = p → x ∉ locs) →
    store m p locs data q x = m q x := by
  intro locs
  induction locs with
  | nil => intro data m q x _; rfl
  | cons a locs ih =>
    intro data m q x h
    cases data with
    | nil => rfl
    | cons v data =>
      show store (fun q x => if q = p ∧ x = a then v else m q x) p locs data q x = m q x
      rw [ih data _ q x (fun e hx => h e (List.mem_cons_of_mem _ hx))]
      show (if q = p ∧ x = a then v else m q x) = m q x
      rw [if_neg]
      intro ⟨e1, e2⟩
      exact h e1 (by rw [e2]; exact List.mem_cons_self)

theorem load_congr {m m' : Mem} {p : Nat} {locs : List Nat} (h : ∀ a ∈ locs, m' p a = m p a) : load m' p locs = load m p locs :=
  List.map_congr_left h

theorem load_store (p : Nat) : ∀ (locs : List Nat) (data : List Byte) (m : Mem), locs.Nodup → data.length ≤ locs.length →
    load (store m p locs data) p (locs.take data.length) = data := by
  intro locs
  induction locs with
  | nil => intro data m _ h; cases data with | nil => rfl | cons v d => simp at h
  | cons a locs ih =>
    intro data m hn h
    cases data with
    | nil => rfl
    | cons v data =>
      rw [List.nodup_cons] at hn
      show load (store (fun q x => if q = p ∧ x = a then v else m q x) p locs data) p (a :: locs.take data.length) = v :: data
      have h2 := ih data (fun q x => if q = p ∧ x = a then v else m q x) hn.2 (by simpa using h)
      unfold load at h2 ⊢
      rw [List.map_cons, h2, store_other p locs data _ p a (fun _ => hn.1)]
      simp

/-! ### Invariant -/

/-- The send request is not complete and can be found. -/
def Pend (s : St) (f : Nat) (m : Msg) : Prop := m.sendDone = 0 ∧ s.sendFlows f = true

/-- The send request, once the payload has been read. -/
def AfterGet (soft : Bool) (s : St) (f : Nat) (m : Msg) : Prop :=
  if soft then Pend s f m ∧ m.nicAck = false else (Pend s f m ∧ m.nicAck = true) ∨ (m.sendDone = 1 ∧ m.nicAck = false)

/-- Receive `r` belongs to flow `f` and is large enough. -/
def Owns (s : St) (f : Nat) (m : Msg) (r : Recv) : Prop :=
  s.recvFlows f = some r ∧ m.locs.length ≤ r.locs.length ∧ (r.contig = false → m.count * r.psize = m.locs.length)

/-- The received bytes are in `recv_buffer_`. -/
def Holds (s : St) (m : Msg) (r : Recv) : Prop :=
  if r.contig then load s.mem r.rank (r.locs.take m.locs.length) = m.orig else s.rtemp r.id = m.orig

/-- What the phase of a message says. -/
def PhaseOk (soft : Bool) (s : St) (f : Nat) (m : Msg) : Prop :=
  match m.phase with
  | .out => m.recvDone = 0 ∧ m.nicAck = false ∧ (m.prot = .rendezvous → Pend s f m)
  | .here => m.recvDone = 0 ∧ m.nicAck = false ∧ (m.prot = .rendezvous → Pend s f m)
  | .fetch => m.prot = .eager1 ∧ m.recvDone = 0
  | .fetched w => m.prot = .eager1 ∧ m.recvDone = 0 ∧ w = m.orig
  | .ready w => m.prot = .eager1 ∧ m.recvDone = 0 ∧ w = m.orig
  | .get r => m.prot = .rendezvous ∧ m.recvDone = 0 ∧ m.nicAck = false ∧ Pend s f m ∧ Owns s f m r
  | .pay r w => m.prot = .rendezvous ∧ m.recvDone = 0 ∧ w = m.orig ∧ AfterGet soft s f m ∧ Owns s f m r
  | .paid r => m.prot = .rendezvous ∧ m.recvDone = 0 ∧ AfterGet soft s f m ∧ Owns s f m r ∧ Holds s m r
  | .ack => m.prot = .rendezvous ∧ m.recvDone = 1 ∧ soft = true ∧ Pend s f m ∧ m.nicAck = false
  | .gone => m.recvDone = 1 ∧ (m.prot = .rendezvous → if soft then m.sendDone = 1 ∧ m.nicAck = false else AfterGet soft s f m) ∧
      (m.prot = .eager0 → m.nicAck = false)

/-- What holds of every message. -/
structure MOk (soft : Bool) (s : St) (f : Nat) (m : Msg) : Prop where
  len : m.orig.length = m.locs.length
  nput : m.prot ≠ .put
  held : m.sendDone = 0 → load s.mem m.src m.locs = m.orig
  temp : (m.prot ≠ .rendezvous ∨ m.contig = false) → m.temp = m.orig
  eager : m.prot ≠ .rendezvous → m.sendDone = 1
  phase : PhaseOk soft s f m

/-- What holds of every reachable state. -/
structure GInv (soft : Bool) (s : St) : Prop where
  msgs : ∀ (f : Nat) (m : Msg), s.msgs f = some m → MOk soft s f m
  ids : s.opened.Pairwise (fun a b => a.id ≠ b.id)
  lt : ∀ r ∈ s.opened, r.id < s.nextRecv
  nodup : ∀ r ∈ s.opened, r.locs.Nodup
  disj : ∀ r ∈ s.opened, ∀ r' ∈ s.opened, r.id ≠ r'.id → r.rank = r'.rank → ∀ a ∈ r.locs, a ∉ r'.locs
  send : ∀ (f : Nat) (m : Msg), s.msgs f = some m → m.sendDone = 0 → ∀ r ∈ s.opened, r.rank = m.src → ∀ a ∈ m.locs, a ∉ r.locs
  sub : ∀ r ∈ s.posted, r ∈ s.opened
  own : ∀ (f : Nat) (r : Recv), s.recvFlows f = some r → r ∈ s.opened ∧ ∀ x ∈ s.posted, x.id ≠ r.id
  ownd : ∀ (f g : Nat) (r r' : Recv), f ≠ g → s.recvFlows f = some r → s.recvFlows g = some r' → r.id ≠ r'.id

/-- A message keeps its invariant when what it refers to stays. -/
theorem MOk.frame {soft : Bool} {s s' : St} {f : Nat} {m : Msg} (h : MOk soft s f m)
    (hmem : m.sendDone = 0 → load s'.mem m.src m.locs = load s.mem m.src m.locs)
    (hsf : s'.sendFlows f = s.sendFlows f) (hrf : s'.recvFlows f = s.recvFlows f)
    (hown : ∀ r, s.recvFlows f = some r → load s'.mem r.rank (r.locs.take m.locs.length) = load s.mem r.rank (r.locs.take m.locs.length) ∧ s'.rtemp r.id = s.rtemp r.id) :
    MOk soft s' f m := by
  have hp : Pend s' f m = Pend s f m := by unfold Pend; rw [hsf]
  have ha : AfterGet soft s' f m = AfterGet soft s f m := by unfold AfterGet; rw [hp]
  have ho : ∀ r, Owns s' f m r = Owns s f m r := by intro r; unfold Owns; rw [hrf]
  refine ⟨h.len, h.nput, fun h0 => (hmem h0).trans (h.held h0), h.temp, h.eager, ?_⟩
  have := h.phase
  unfold PhaseOk at this ⊢
  split <;> rename_i hph <;> rw [hph] at this <;> simp only [hp, ha, ho] at this ⊢
  all_goals first
    | exact this
    | skip
  obtain ⟨h1, h2, h3, h4, h5⟩ := this
  refine ⟨h1, h2, h3, h4, ?_⟩
  obtain ⟨e1, e2⟩ := hown _ h4.1
  unfold Holds at h5 ⊢
  rw [e1, e2]
  exact h5

/-- Writing to an open receive buffer does not disturb messages that do not own it. -/
theorem GInv.store_frame {soft : Bool} {s : St} (h : GInv soft s) {r : Recv} (hr : r ∈ s.opened) (data : List Byte)
    {g : Nat} {m : Msg} (hm : s.msgs g = some m) (hne : ∀ r', s.recvFlows g = some r' → r'.id ≠ r.id) :
    (m.sendDone = 0 → load (store s.mem r.rank r.locs data) m.src m.locs = load s.mem m.src m.locs) ∧
    ∀ r', s.recvFlows g = some r' → load (store s.mem r.rank r.locs data) r'.rank (r'.locs.take m.locs.length) = load s.mem r'.rank (r'.locs.take m.locs.length) := by
  constructor
  · intro h0
    refine load_congr fun a ha => store_other _ _ _ _ _ _ fun e => ?_
    exact h.send g m hm h0 r hr e.symm a ha
  · intro r' hr'
    refine load_congr fun a ha => store_other _ _ _ _ _ _ fun e => ?_
    exact h.disj r' (h.own g r' hr').1 r hr (hne r' hr') e a (List.mem_of_mem_take ha)

theorem set_self {α : Type} (f : Nat → α) (i : Nat) (a : α) : set f i a i = a := by simp [set]

theorem set_other {α : Type} (f : Nat → α) (i j : Nat) (a : α) (h : j ≠ i) : set f i a j = f j := by simp [set, h]

/-- Replacing one message, nothing else. -/
theorem GInv.update {soft : Bool} {s : St} (h : GInv soft s) {f : Nat} {m m' : Msg} (hm : s.msgs f = some m)
    (hsrc : m'.src = m.src) (hlocs : m'.locs = m.locs) (hdone : m'.sendDone = m.sendDone) (hok : MOk soft s f m') :
    GInv soft { s with msgs := set s.msgs f (some m') } := by
  refine ⟨?_, h.ids, h.lt, h.nodup, h.disj, ?_, h.sub, h.own, h.ownd⟩
  · intro g x hx
    by_cases e : g = f
    · subst e
      replace hx : set s.msgs g (some m') g = some x := hx
      rw [set_self] at hx
      cases hx
      exact hok.frame (fun _ => rfl) rfl rfl (fun _ _ => ⟨rfl, rfl⟩)
    · replace hx : set s.msgs f (some m') g = some x := hx
      rw [set_other _ _ _ _ e] at hx
      exact (h.msgs g x hx).frame (fun _ => rfl) rfl rfl (fun _ _ => ⟨rfl, rfl⟩)
  · intro g x hx h0 r hr
    by_cases e : g = f
    · subst e
      replace hx : set s.msgs g (some m') g = some x := hx
      rw [set_self] at hx
      cases hx
      rw [hsrc, hlocs]
      exact h.send g m hm (by rw [← hdone]; exact h0) r hr
    · replace hx : set s.msgs f (some m') g = some x := hx
      rw [set_other _ _ _ _ e] at hx
      exact h.send g x hx h0 r hr

/-- Completing a send. -/
theorem GInv.complete {soft : Bool} {s s' : St} (h : GInv soft s) {f : Nat} {m m1 : Msg} (hm : s.msgs f = some m)
    (hsrc : m1.src = m.src) (hlocs : m1.locs = m.locs) (hs : complete s f m1 = .ok s')
    (hok : MOk soft { s with sendFlows := set s.sendFlows f false } f { m1 with sendDone := m1.sendDone + 1 }) : GInv soft s' := by
  unfold Xfer.complete at hs
  split at hs
  · cases hs
    refine ⟨?_, h.ids, h.lt, h.nodup, h.disj, ?_, h.sub, h.own, h.ownd⟩
    · intro g x hx
      by_cases e : g = f
      · subst e
        replace hx : set s.msgs g (some { m1 with sendDone := m1.sendDone + 1 }) g = some x := hx
        rw [set_self] at hx
        cases hx
        exact hok.frame (fun _ => rfl) rfl rfl (fun _ _ => ⟨rfl, rfl⟩)
      · replace hx : set s.msgs f (some { m1 with sendDone := m1.sendDone + 1 }) g = some x := hx
        rw [set_other _ _ _ _ e] at hx
        exact (h.msgs g x hx).frame (fun _ => rfl) (set_other _ _ _ _ e) rfl (fun _ _ => ⟨rfl, rfl⟩)
    · intro g x hx h0 r hr
      by_cases e : g = f
      · subst e
        replace hx : set s.msgs g (some { m1 with sendDone := m1.sendDone + 1 }) g = some x := hx
        rw [set_self] at hx
        cases hx
        simp at h0
      · replace hx : set s.msgs f (some { m1 with sendDone := m1.sendDone + 1 }) g = some x := hx
        rw [set_other _ _ _ _ e] at hx
        exact h.send g x hx h0 r hr
  · cases hs

/-- `deliver` succeeds when the data fits; what it changes. -/
theorem deliver_ok {s : St} {r : Recv} {data : List Byte} (hlen : data.length ≤ r.locs.length) :
    deliver s r data = .ok (if r.contig then { s with mem := store s.mem r.rank r.locs data } else { s with rtemp := set s.rtemp r.id data }) := by
  unfold deliver
  rw [if_neg (by omega)]
  split <;> rfl

/-- The state after `deliver` to an open receive that flow `f`, or a posted receive, owns. -/
theorem GInv.deliver {soft : Bool} {s : St} (h : GInv soft s) {r : Recv} (hr : r ∈ s.opened) (data : List Byte)
    {g : Nat} {m : Msg} (hm : s.msgs g = some m) (hne : ∀ r', s.recvFlows g = some r' → r'.id ≠ r.id) :
    MOk soft (if r.contig then { s with mem := store s.mem r.rank r.locs data } else { s with rtemp := set s.rtemp r.id data }) g m := by
  split
  · obtain ⟨h1, h2⟩ := h.store_frame hr data hm hne
    exact (h.msgs g m hm).frame h1 rfl rfl (fun r' hr' => ⟨h2 r' hr', rfl⟩)
  · exact (h.msgs g m hm).frame (fun _ => rfl) rfl rfl (fun r' hr' => ⟨rfl, set_other _ _ _ _ (hne r' hr')⟩)

/-- Received data is in place. -/
theorem deliver_holds {s : St} {m : Msg} {r : Recv} {data : List Byte} (hn : r.locs.Nodup) (hlen : data.length ≤ r.locs.length)
    (hd : data = m.orig) (hl : m.orig.length = m.locs.length) :
    Holds (if r.contig then { s with mem := store s.mem r.rank r.locs data } else { s with rtemp := set s.rtemp r.id data }) m r := by
  unfold Holds
  cases hc : r.contig with
  | true =>
    simp only [if_true]
    rw [← hl, ← hd]
    exact load_store _ _ _ _ hn hlen
  | false =>
    simp only [Bool.false_eq_true, if_false]
    rw [set_self, hd]

/-- The state after `finalizeRecv` when the data is in place: it succeeds, the receive buffer
holds the data, and other messages are undisturbed. -/
theorem finalize_ok {s : St} {f : Nat} {m : Msg} {r : Recv} {ph : Phase} (hh : Holds s m r) (hl : m.orig.length = m.locs.length)
    (hfit : m.locs.length ≤ r.locs.length) (hn : r.locs.Nodup) (hu : r.contig = false → m.count * r.psize = m.locs.length) :
    ∃ mem, finalize s f m r ph = .ok { s with msgs := set s.msgs f (some { m with phase := ph, recvDone := m.recvDone + 1 }), opened := s.opened.filter (fun x => x.id != r.id), mem := mem } ∧
      load mem r.rank (r.locs.take m.locs.length) = m.orig ∧ (mem = s.mem ∨ ∃ data, mem = store s.mem r.rank r.locs data) := by
  unfold finalize
  unfold Holds at hh
  cases hc : r.contig with
  | true =>
    rw [hc] at hh
    simp only [if_true] at hh ⊢
    exact ⟨s.mem, rfl, hh, Or.inl rfl⟩
  | false =>
    rw [hc] at hh
    simp only [Bool.false_eq_true, if_false] at hh ⊢
    have hu := hu hc
    rw [if_neg (by rw [hh, hu]; omega)]
    refine ⟨_, rfl, ?_, Or.inr ⟨_, rfl⟩⟩
    rw [hh, hu, ← hl, List.take_length]
    exact load_store _ _ _ _ hn (by omega)

theorem opened_filter {l : List Recv} {r x : Recv} (hx : x ∈ l) (hne : x.id ≠ r.id) : x ∈ l.filter (fun y => y.id != r.id) := by
  simp [List.mem_filter, hx, hne]

/-- Global invariant after a receive has finished. -/
theorem GInv.finish {soft : Bool} {s : St} (h : GInv soft s) {f : Nat} {m m' : Msg} {r : Recv} (hm : s.msgs f = some m)
    (hr : r ∈ s.opened) (mem : Mem) (rtemp : Nat → List Byte) (posted : List Recv) (rf : Nat → Option Recv)
    (hposted : ∀ x ∈ posted, x ∈ s.posted ∧ x.id ≠ r.id)
    (hrf : ∀ g r', rf g = some r' → s.recvFlows g = some r' ∧ r'.id ≠ r.id)
    (hrf' : ∀ g, g ≠ f → rf g = s.recvFlows g)
    (hmem : ∀ (q a : Nat), (q = r.rank → a ∉ r.locs) → mem q a = s.mem q a)
    (hrt : ∀ i, i ≠ r.id → rtemp i = s.rtemp i)
    (hsrc : m'.src = m.src) (hlocs : m'.locs = m.locs) (hdone : m'.sendDone = m.sendDone)
    (hok : m.sendDone = 0 → load mem m.src m.locs = m.orig →
      MOk soft { s with mem := mem, rtemp := rtemp, posted := posted, recvFlows := rf, opened := s.opened.filter (fun x => x.id != r.id), msgs := set s.msgs f (some m') } f m')
    (hok1 : m.sendDone ≠ 0 →
      MOk soft { s with mem := mem, rtemp := rtemp, posted := posted, recvFlows := rf, opened := s.opened.filter (fun x => x.id != r.id), msgs := set s.msgs f (some m') } f m') :
    GInv soft { s with mem := mem, rtemp := rtemp, posted := posted, recvFlows := rf, opened := s.opened.filter (fun x => x.id != r.id), msgs := set s.msgs f (some m') } := by
  have hmemS : ∀ (g : Nat) (x : Msg), s.msgs g = some x → x.sendDone = 0 → load mem x.src x.locs = load s.mem x.src x.locs := by
    intro g x hx h0
    refine load_congr fun a ha => hmem _ _ fun e => ?_
    exact h.send g x hx h0 r hr e.symm a ha
  refine ⟨?_, ?_, ?_, ?_, ?_, ?_, ?_, ?_, ?_⟩
  · intro g x hx
    by_cases e : g = f
    · subst e
      have hx' : set s.msgs g (some m') g = some x := hx
      rw [set_self] at hx'
      cases hx'
      by_cases h0 : m.sendDone = 0
      · exact hok h0 ((hmemS g m hm h0).trans ((h.msgs g m hm).held h0))
      · exact hok1 h0
    · have hx' : set s.msgs f (some m') g = some x := hx
      rw [set_other _ _ _ _ e] at hx'
      refine (h.msgs g x hx').frame (hmemS g x hx') rfl (hrf' g e) ?_
      intro r' hr'
      have hne : r'.id ≠ r.id := (hrf g r' (by rw [hrf' g e]; exact hr')).2
      refine ⟨?_, hrt _ hne⟩
      refine load_congr fun a ha => hmem _ _ fun e => ?_
      exact h.disj r' (h.own g r' hr').1 r hr hne e a (List.mem_of_mem_take ha)
  · exact h.ids.filter _
  · intro x hx; exact h.lt x (List.mem_filter.mp hx).1
  · intro x hx; exact h.nodup x (List.mem_filter.mp hx).1
  · intro x hx y hy; exact h.disj x (List.mem_filter.mp hx).1 y (List.mem_filter.mp hy).1
  · intro g x hx h0 y hy
    by_cases e : g = f
    · subst e
      have hx' : set s.msgs g (some m') g = some x := hx
      rw [set_self] at hx'
      cases hx'
      rw [hsrc, hlocs]
      exact h.send g m hm (by rw [← hdone]; exact h0) y (List.mem_filter.mp hy).1
    · have hx' : set s.msgs f (some m') g = some x := hx
      rw [set_other _ _ _ _ e] at hx'
      exact h.send g x hx' h0 y (List.mem_filter.mp hy).1
  · intro x hx
    exact opened_filter (h.sub x (hposted x hx).1) (hposted x hx).2
  · intro g r' hr'
    obtain ⟨h1, h2⟩ := hrf g r' hr'
    exact ⟨opened_filter (h.own g r' h1).1 h2, fun x hx => (h.own g r' h1).2 x (hposted x hx).1⟩
  · intro g g' r1 r2 hne h1 h2
    exact h.ownd g g' r1 r2 hne (hrf g r1 h1).1 (hrf g' r2 h2).1

/-- What a step does to the messages that exist: the contents stay, and when a receive completes
with a message, a receive that was open is closed and its buffer holds the contents. -/
def Told (s s' : St) : Prop :=
  ∀ (f : Nat) (m : Msg), s.msgs f = some m → ∃ m', s'.msgs f = some m' ∧ m'.orig = m.orig ∧ m'.locs = m.locs ∧
    (m'.recvDone = m.recvDone ∨ ∃ r ∈ s.opened, r ∉ s'.opened ∧ m.locs.length ≤ r.locs.length ∧ load s'.mem r.rank (r.locs.take m.locs.length) = m.orig)

theorem Told.refl (s : St) : Told s s := fun _ m hm => ⟨m, hm, rfl, rfl, Or.inl rfl⟩

/-- All messages but one stay. -/
theorem told_set {s s' : St} {f : Nat} {m m' : Msg} (hm : s.msgs f = some m) (hs : s'.msgs = set s.msgs f (some m'))
    (ho : m'.orig = m.orig) (hl : m'.locs = m.locs)
    (hr : m'.recvDone = m.recvDone ∨ ∃ r ∈ s.opened, r ∉ s'.opened ∧ m.locs.length ≤ r.locs.length ∧ load s'.mem r.rank (r.locs.take m.locs.length) = m.orig) :
    Told s s' := by
  intro g x hx
  by_cases e : g = f
  · subst e
    rw [hm] at hx
    cases hx
    exact ⟨m', by rw [hs, set_self], ho, hl, hr⟩
  · exact ⟨x, by rw [hs, set_other _ _ _ _ e]; exact hx, rfl, rfl, Or.inl rfl⟩

/-- A step that succeeds, keeps the invariant and tells the truth. -/
def Fine (soft : Bool) (s : St) (op : Op) : Prop :=
  ∃ s', step soft s op = .ok s' ∧ GInv soft s' ∧ Told s s'

theorem fine_stay {soft : Bool} {s : St} {op : Op} (h : GInv soft s) (he : step soft s op = .ok s) : Fine soft s op :=
  ⟨s, he, h, Told.refl s⟩

theorem fine_update {soft : Bool} {s : St} {op : Op} {f : Nat} {m m' : Msg} (h : GInv soft s) (hm : s.msgs f = some m)
    (he : step soft s op = .ok { s with msgs := set s.msgs f (some m') })
    (hsrc : m'.src = m.src) (hlocs : m'.locs = m.locs) (hdone : m'.sendDone = m.sendDone) (horig : m'.orig = m.orig)
    (hrecv : m'.recvDone = m.recvDone) (hok : MOk soft s f m') : Fine soft s op :=
  ⟨_, he, h.update hm hsrc hlocs hdone hok, told_set hm rfl horig hlocs (Or.inl hrecv)⟩

/-- `remote` yields the bytes the send buffer held at the call, while the send is pending. -/
theorem remote_orig {soft : Bool} {s : St} {f : Nat} {m : Msg} (h : MOk soft s f m)
    (hp : m.prot = .eager1 ∨ (m.prot = .rendezvous ∧ m.sendDone = 0)) : remote s m = m.orig := by
  unfold remote
  split
  · rename_i hc
    refine h.temp (hc.imp (fun e => ?_) id)
    rw [e]; decide
  · rename_i hc
    rcases hp with hp | hp
    · exact absurd (Or.inl hp) hc
    · exact h.held hp.2

/-- Sending. -/
theorem fine_send {soft : Bool} {s : St} (h : GInv soft s) {f src dst : Nat} {prot : Prot} {locs : List Nat} {contig : Bool} {count : Nat}
    (hl : Legal s (.send f src dst prot locs contig count)) : Fine soft s (.send f src dst prot locs contig count) := by
  obtain ⟨hnone, hput, hdis⟩ := hl
  have hne : ∀ {g : Nat} {x : Msg}, s.msgs g = some x → g ≠ f := by
    intro g x hx e
    rw [e, hnone] at hx; cases hx
  refine ⟨_, rfl, ?_, ?_⟩
  · refine ⟨?_, h.ids, h.lt, h.nodup, h.disj, ?_, h.sub, h.own, h.ownd⟩
    · intro g x hx
      by_cases e : g = f
      · subst e
        simp only [set_self, Option.some.injEq] at hx
        subst hx
        refine ⟨by simp [load], hput, fun _ => rfl, ?_, ?_, ?_⟩
        · intro hc
          show (if _ then _ else _) = _
          rw [if_pos]
          cases prot with
          | eager0 => exact Or.inl rfl
          | eager1 => exact Or.inr (Or.inl rfl)
          | rendezvous => exact Or.inr (Or.inr ⟨rfl, hc.resolve_left (by simp)⟩)
          | put => exact absurd rfl hput
        · intro hc
          show (if _ then _ else _) = _
          rw [if_pos]
          cases prot with
          | eager0 => exact Or.inl rfl
          | eager1 => exact Or.inr rfl
          | rendezvous => exact absurd rfl hc
          | put => exact absurd rfl hput
        · refine ⟨rfl, by simpa using hput, ?_⟩
          intro hr
          replace hr : prot = .rendezvous := hr
          subst hr
          exact ⟨by simp, by simp [set_self]⟩
      · simp only [set_other _ _ _ _ e] at hx
        refine (h.msgs g x hx).frame (fun _ => rfl) ?_ rfl (fun _ _ => ⟨rfl, rfl⟩)
        show (if prot = .rendezvous ∨ prot = .put then set s.sendFlows f true else s.sendFlows) g = _
        split
        · exact set_other _ _ _ _ e
        · rfl
    · intro g x hx h0 r hr hrk
      by_cases e : g = f
      · subst e
        simp only [set_self, Option.some.injEq] at hx
        subst hx
        exact hdis r hr hrk
      · simp only [set_other _ _ _ _ e] at hx
        exact h.send g x hx h0 r hr hrk
  · intro g x hx
    exact ⟨x, by simp only [set_other _ _ _ _ (hne hx)]; exact hx, rfl, rfl, Or.inl rfl⟩

/-- Posting a receive. -/
theorem fine_post {soft : Bool} {s : St} (h : GInv soft s) {rank : Nat} {locs : List Nat} {contig : Bool} {psize : Nat}
    (hl : Legal s (.post rank locs contig psize)) : Fine soft s (.post rank locs contig psize) := by
  obtain ⟨hn, hd, hsd⟩ := hl
  refine ⟨_, rfl, ?_, fun _ m hm => ⟨m, hm, rfl, rfl, Or.inl rfl⟩⟩
  refine ⟨fun g x hx => (h.msgs g x hx).frame (fun _ => rfl) rfl rfl (fun _ _ => ⟨rfl, rfl⟩), ?_, ?_, ?_, ?_, ?_, ?_, ?_, h.ownd⟩
  · rw [List.pairwise_append]
    refine ⟨h.ids, by simp, ?_⟩
    intro a ha b hb
    rw [List.mem_singleton.mp hb]
    have := h.lt a ha
    show a.id ≠ s.nextRecv
    omega
  · intro r hr
    show r.id < s.nextRecv + 1
    rcases List.mem_append.mp hr with hr | hr
    · have := h.lt r hr; omega
    · rw [List.mem_singleton.mp hr]; exact Nat.lt_succ_self _
  · intro r hr
    rcases List.mem_append.mp hr with hr | hr
    · exact h.nodup r hr
    · rw [List.mem_singleton.mp hr]; exact hn
  · intro r hr r' hr' hne hrk
    rcases List.mem_append.mp hr with hr | hr <;> rcases List.mem_append.mp hr' with hr' | hr'
    · exact h.disj r hr r' hr' hne hrk
    · rw [List.mem_singleton.mp hr'] at hrk ⊢
      intro a ha hc
      exact hd r hr hrk a hc ha
    · rw [List.mem_singleton.mp hr] at hrk ⊢
      intro a ha
      exact hd r' hr' hrk.symm a ha
    · rw [List.mem_singleton.mp hr, List.mem_singleton.mp hr'] at hne
      exact absurd rfl hne
  · intro g x hx h0 r hr hrk
    rcases List.mem_append.mp hr with hr | hr
    · exact h.send g x hx h0 r hr hrk
    · rw [List.mem_singleton.mp hr] at hrk ⊢
      intro a ha hc
      exact hsd g x hx hrk.symm h0 a hc ha
  · intro r hr
    rcases List.mem_append.mp hr with hr | hr
    · exact List.mem_append_left _ (h.sub r hr)
    · exact List.mem_append_right _ hr
  · intro g r hr
    obtain ⟨h1, h2⟩ := h.own g r hr
    refine ⟨List.mem_append_left _ h1, ?_⟩
    intro x hx
    rcases List.mem_append.mp hx with hx | hx
    · exact h2 x hx
    · rw [List.mem_singleton.mp hx]
      have := h.lt r h1
      show s.nextRecv ≠ r.id
      omega

/-- Writing memory. -/
theorem fine_write {soft : Bool} {s : St} (h : GInv soft s) {p a v : Nat} (hl : Legal s (.write p a v)) : Fine soft s (.write p a v) := by
  obtain ⟨h1, h2⟩ := hl
  refine ⟨_, rfl, ?_, fun _ m hm => ⟨m, hm, rfl, rfl, Or.inl rfl⟩⟩
  refine ⟨?_, h.ids, h.lt, h.nodup, h.disj, h.send, h.sub, h.own, h.ownd⟩
  intro g x hx
  refine (h.msgs g x hx).frame ?_ rfl rfl ?_
  · intro h0
    refine load_congr fun b hb => ?_
    show (if _ then _ else _) = _
    rw [if_neg]
    intro ⟨e1, e2⟩
    exact h2 g x hx e1 h0 (by rw [← e2]; exact hb)
  · intro r hr
    refine ⟨load_congr fun b hb => ?_, rfl⟩
    show (if _ then _ else _) = _
    rw [if_neg]
    intro ⟨e1, e2⟩
    exact h1 r (h.own g r hr).1 e1 (by rw [← e2]; exact List.mem_of_mem_take hb)

/-- A posted receive that is found. -/
theorem find_posted {l : List Recv} {rid : Nat} {r : Recv} (h : l.find? (fun r => r.id == rid) = some r) : r ∈ l ∧ r.id = rid :=
  ⟨List.mem_of_find?_eq_some h, by simpa using List.find?_some h⟩

/-- Pairing a message whose data is at hand (`data`) with a posted receive. -/
theorem fine_eager {soft : Bool} {s : St} (h : GInv soft s) {f : Nat} {m : Msg} {r : Recv} {data : List Byte}
    (hm : s.msgs f = some m) (hr : r ∈ s.posted) (hd : data = m.orig) (hp : m.prot ≠ .rendezvous) (h0 : m.recvDone = 0)
    (hack : m.prot = .eager0 → m.nicAck = false)
    (hfit : m.locs.length ≤ r.locs.length) (hu : r.contig = false → m.count * r.psize = m.locs.length) :
    ∃ s', (match deliver { s with posted := s.posted.filter (fun x => x.id != r.id) } r data with
      | .error a => .error a
      | .ok s2 => finalize s2 f m r .gone) = Except.ok s' ∧ GInv soft s' ∧ Told s s' := by
  have hk := h.msgs f m hm
  have ho := h.sub r hr
  have hn := h.nodup r ho
  have hdl : data.length ≤ r.locs.length := by rw [hd, hk.len]; exact hfit
  rw [deliver_ok (s := { s with posted := s.posted.filter (fun x => x.id != r.id) }) hdl]
  have hh := deliver_holds (s := { s with posted := s.posted.filter (fun x => x.id != r.id) }) (m := m) hn hdl hd hk.len
  obtain ⟨mem, e1, e2, e3⟩ := finalize_ok (f := f) (ph := .gone) hh hk.len hfit hn hu
  refine ⟨_, e1, ?_, ?_⟩
  · have hsd : m.sendDone = 1 := hk.eager hp
    have key := h.finish (m' := { m with phase := .gone, recvDone := m.recvDone + 1 }) hm ho mem
      (if r.contig then s.rtemp else set s.rtemp r.id data) (s.posted.filter (fun x => x.id != r.id)) s.recvFlows
      (fun x hx => by simp only [List.mem_filter, bne_iff_ne] at hx; exact hx)
      (fun g r' hr' => ⟨hr', fun e => (h.own g r' hr').2 r hr e.symm⟩)
      (fun _ _ => rfl)
      (by
        intro q a hqa
        rcases e3 with e3 | ⟨d, e3⟩
        · rw [e3]
          split
          · exact store_other _ _ _ _ _ _ hqa
          · rfl
        · rw [e3, store_other _ _ _ _ _ _ hqa]
          split
          · exact store_other _ _ _ _ _ _ hqa
          · rfl)
      (by
        intro i hi
        split
        · rfl
        · exact set_other _ _ _ _ hi)
      rfl rfl rfl (fun hz => by omega)
      (fun _ => ⟨hk.len, hk.nput, fun hz => by replace hz : m.sendDone = 0 := hz; omega, hk.temp, hk.eager,
        by show m.recvDone + 1 = 1; omega, fun e => absurd e hp, hack⟩)
    cases hc : r.contig with
    | true => rw [hc] at key; exact key
    | false => rw [hc] at key; exact key
  · refine told_set (m' := { m with phase := .gone, recvDone := m.recvDone + 1 }) hm ?_ rfl rfl (Or.inr ⟨r, ho, ?_, hfit, e2⟩)
    · cases r.contig <;> rfl
    · intro hc
      have : r ∈ List.filter (fun x => x.id != r.id) s.opened := by
        cases hb : r.contig with
        | true => rw [hb] at hc; exact hc
        | false => rw [hb] at hc; exact hc
      simp at this

/-- A message in which only the phase and the acknowledgement change. -/
theorem MOk.rephase {soft : Bool} {s : St} {f : Nat} {m : Msg} (h : MOk soft s f m) (ph : Phase) (na : Bool)
    (hp : PhaseOk soft s f { m with phase := ph, nicAck := na }) : MOk soft s f { m with phase := ph, nicAck := na } :=
  ⟨h.len, h.nput, h.held, h.temp, h.eager, hp⟩

/-- Pairing. -/
theorem fine_pair {soft : Bool} {s : St} (h : GInv soft s) {f rid : Nat} (hl : Legal s (.pair f rid)) : Fine soft s (.pair f rid) := by
  cases hm : s.msgs f with
  | none => exact fine_stay h (by simp [step, hm])
  | some m =>
    cases hf : s.posted.find? (fun r => r.id == rid) with
    | none => exact fine_stay h (by simp [step, hm, hf])
    | some r =>
      obtain ⟨hr, hid⟩ := find_posted hf
      obtain ⟨hfit, hu⟩ := hl m r hm hr hid
      have hk := h.msgs f m hm
      have hph := hk.phase
      subst hid
      unfold Fine
      simp only [step, hm, hf]
      split
      · -- eager0
        rename_i e1 e2
        unfold PhaseOk at hph
        rw [e1] at hph
        exact fine_eager h hm hr (hk.temp (Or.inl (by rw [e2]; decide))) (by rw [e2]; decide) hph.1 (fun _ => hph.2.1) hfit hu
      · -- eager1
        rename_i data e1 e2
        unfold PhaseOk at hph
        rw [e1] at hph
        exact fine_eager h hm hr hph.2.2 (by rw [e2]; decide) hph.2.1 (fun e => by rw [e2] at e; cases e) hfit hu
      · -- rendezvous
        rename_i e1 e2
        unfold PhaseOk at hph
        rw [e1] at hph
        obtain ⟨p1, p2, p3⟩ := hph
        have ho := h.sub r hr
        refine ⟨_, rfl, ?_, told_set (m' := { m with phase := .get r }) hm rfl rfl rfl (Or.inl rfl)⟩
        refine ⟨?_, h.ids, h.lt, h.nodup, h.disj, ?_, fun x hx => h.sub x (List.mem_filter.mp hx).1, ?_, ?_⟩
        · intro g x hx
          by_cases e : g = f
          · subst e
            simp only [set_self, Option.some.injEq] at hx
            subst hx
            exact ⟨hk.len, hk.nput, hk.held, hk.temp, hk.eager, e2, p1, p2, p3 e2, set_self _ _ _, hfit, hu⟩
          · simp only [set_other _ _ _ _ e] at hx
            exact (h.msgs g x hx).frame (fun _ => rfl) rfl (set_other _ _ _ _ e) (fun _ _ => ⟨rfl, rfl⟩)
        · intro g x hx h0 r' hr' hrk
          by_cases e : g = f
          · subst e
            simp only [set_self, Option.some.injEq] at hx
            subst hx
            exact h.send g m hm h0 r' hr' hrk
          · simp only [set_other _ _ _ _ e] at hx
            exact h.send g x hx h0 r' hr' hrk
        · intro g r' hr'
          by_cases e : g = f
          · subst e
            simp only [set_self, Option.some.injEq] at hr'
            subst hr'
            refine ⟨ho, ?_⟩
            intro x hx
            simp only [List.mem_filter, bne_iff_ne] at hx
            exact hx.2
          · simp only [set_other _ _ _ _ e] at hr'
            obtain ⟨h1, h2⟩ := h.own g r' hr'
            exact ⟨h1, fun x hx => h2 x (List.mem_filter.mp hx).1⟩
        · intro g g' r1 r2 hne h1 h2
          by_cases e : g = f
          · subst e
            simp only [set_self, Option.some.injEq] at h1
            subst h1
            simp only [set_other _ _ _ _ (Ne.symm hne)] at h2
            exact (h.own g' r2 h2).2 r hr
          · simp only [set_other _ _ _ _ e] at h1
            by_cases e' : g' = f
            · subst e'
              simp only [set_self, Option.some.injEq] at h2
              subst h2
              exact ((h.own g r1 h1).2 r hr).symm
            · simp only [set_other _ _ _ _ e'] at h2
              exact h.ownd g g' r1 r2 hne h1 h2
      · rename_i e1 e2
        exact absurd e2 hk.nput
      · exact ⟨s, rfl, h, Told.refl s⟩

/-- Delivering the payload of a rendezvous message. -/
theorem fine_deliver {soft : Bool} {s : St} (h : GInv soft s) {f : Nat} {m : Msg} {r : Recv} {data : List Byte} {na : Bool}
    (hm : s.msgs f = some m) (hd : data = m.orig) (hprot : m.prot = .rendezvous) (h0 : m.recvDone = 0)
    (ha : AfterGet soft s f { m with phase := .paid r, nicAck := na }) (hown : Owns s f m r) :
    ∃ s', (match deliver s r data with
      | .error a => .error a
      | .ok s2 => .ok { s2 with msgs := set s2.msgs f (some { m with phase := .paid r, nicAck := na }) }) = Except.ok s' ∧ GInv soft s' ∧ Told s s' := by
  have hk := h.msgs f m hm
  obtain ⟨o1, o2, o3⟩ := hown
  have ho := (h.own f r o1).1
  have hn := h.nodup r ho
  have hdl : data.length ≤ r.locs.length := by rw [hd, hk.len]; exact o2
  rw [deliver_ok hdl]
  have hh := deliver_holds (s := s) (m := m) hn hdl hd hk.len
  refine ⟨_, rfl, ?_, ?_⟩
  · have hself : m.sendDone = 0 → load (store s.mem r.rank r.locs data) m.src m.locs = m.orig := by
      intro hz
      refine (load_congr fun a ha => store_other _ _ _ _ _ _ fun e => ?_).trans (hk.held hz)
      exact h.send f m hm hz r ho e.symm a ha
    have hoth : ∀ (g : Nat) (x : Msg), s.msgs g = some x → g ≠ f →
        MOk soft (if r.contig then { s with mem := store s.mem r.rank r.locs data } else { s with rtemp := set s.rtemp r.id data }) g x := by
      intro g x hx e
      exact h.deliver ho data hx (fun r' hr' => h.ownd g f r' r e hr' o1)
    cases hc : r.contig with
    | true =>
      rw [hc] at hh hoth
      simp only [if_true] at hh hoth ⊢
      refine ⟨?_, h.ids, h.lt, h.nodup, h.disj, ?_, h.sub, h.own, h.ownd⟩
      · intro g x hx
        by_cases e : g = f
        · subst e
          simp only [set_self, Option.some.injEq] at hx
          subst hx
          exact ⟨hk.len, hk.nput, hself, hk.temp, hk.eager, hprot, h0, ha, ⟨o1, o2, o3⟩, hh⟩
        · simp only [set_other _ _ _ _ e] at hx
          exact (hoth g x hx e).frame (fun _ => rfl) rfl rfl (fun _ _ => ⟨rfl, rfl⟩)
      · intro g x hx hz r' hr' hrk
        by_cases e : g = f
        · subst e
          simp only [set_self, Option.some.injEq] at hx
          subst hx
          exact h.send g m hm hz r' hr' hrk
        · simp only [set_other _ _ _ _ e] at hx
          exact h.send g x hx hz r' hr' hrk
    | false =>
      rw [hc] at hh hoth
      simp only [Bool.false_eq_true, if_false] at hh hoth ⊢
      refine ⟨?_, h.ids, h.lt, h.nodup, h.disj, ?_, h.sub, h.own, h.ownd⟩
      · intro g x hx
        by_cases e : g = f
        · subst e
          simp only [set_self, Option.some.injEq] at hx
          subst hx
          exact ⟨hk.len, hk.nput, hk.held, hk.temp, hk.eager, hprot, h0, ha, ⟨o1, o2, o3⟩, hh⟩
        · simp only [set_other _ _ _ _ e] at hx
          exact (hoth g x hx e).frame (fun _ => rfl) rfl rfl (fun _ _ => ⟨rfl, rfl⟩)
      · intro g x hx hz r' hr' hrk
        by_cases e : g = f
        · subst e
          simp only [set_self, Option.some.injEq] at hx
          subst hx
          exact h.send g m hm hz r' hr' hrk
        · simp only [set_other _ _ _ _ e] at hx
          exact h.send g x hx hz r' hr' hrk
  · refine told_set (m' := { m with phase := .paid r, nicAck := na }) hm ?_ rfl rfl (Or.inl rfl)
    cases r.contig <;> rfl

/-- The queue handles the payload of a rendezvous message. -/
theorem fine_payload {soft : Bool} {s : St} (h : GInv soft s) {f : Nat} {m : Msg} {r : Recv} (hm : s.msgs f = some m)
    (hph : m.phase = .paid r) : Fine soft s (.payload f) := by
  have hk := h.msgs f m hm
  have hp := hk.phase
  unfold PhaseOk at hp
  rw [hph] at hp
  obtain ⟨p1, p2, p3, ⟨o1, o2, o3⟩, p5⟩ := hp
  have ho := (h.own f r o1).1
  have hn := h.nodup r ho
  unfold Fine
  simp only [step, hm, hph, o1]
  obtain ⟨mem, e1, e2, e3⟩ := finalize_ok (s := { s with recvFlows := set s.recvFlows f none }) (f := f)
    (ph := if soft then .ack else .gone) (m := m) (r := r) p5 hk.len o2 hn o3
  refine ⟨_, e1, ?_, ?_⟩
  · have hok : ∀ rf ms op ps, (m.sendDone = 0 → load mem m.src m.locs = m.orig) →
        MOk soft ({ s with mem := mem, posted := ps, recvFlows := rf, opened := op, msgs := ms } : St) f
          { m with phase := if soft then .ack else .gone, recvDone := m.recvDone + 1 } := by
      intro rf ms op ps hload
      refine ⟨hk.len, hk.nput, hload, hk.temp, hk.eager, ?_⟩
      cases soft with
      | true =>
        unfold AfterGet at p3
        simp only [if_true] at p3
        exact ⟨p1, by show m.recvDone + 1 = 1; omega, rfl, p3.1, p3.2⟩
      | false =>
        refine ⟨by show m.recvDone + 1 = 1; omega, fun _ => ?_, fun e => by replace e : m.prot = .eager0 := e; rw [p1] at e; cases e⟩
        simp only [Bool.false_eq_true, if_false]
        exact p3
    exact h.finish (m' := { m with phase := if soft then .ack else .gone, recvDone := m.recvDone + 1 }) hm ho mem s.rtemp s.posted (set s.recvFlows f none)
      (fun x hx => ⟨hx, (h.own f r o1).2 x hx⟩)
      (by
        intro g r' hr'
        by_cases e : g = f
        · subst e; rw [set_self] at hr'; cases hr'
        · rw [set_other _ _ _ _ e] at hr'
          exact ⟨hr', h.ownd g f r' r e hr' o1⟩)
      (fun g e => set_other _ _ _ _ e)
      (by
        intro q a hqa
        rcases e3 with e3 | ⟨d, e3⟩
        · rw [e3]
        · rw [e3]; exact store_other _ _ _ _ _ _ hqa)
      (fun _ _ => rfl) rfl rfl rfl
      (fun _ hload => hok _ _ _ _ (fun _ => hload))
      (fun hz => hok _ _ _ _ (fun h0 => absurd h0 hz))
  · refine told_set (m' := { m with phase := if soft then .ack else .gone, recvDone := m.recvDone + 1 }) hm rfl rfl rfl (Or.inr ⟨r, ho, ?_, o2, e2⟩)
    simp

/-- Completing a send that is pending. -/
theorem fine_complete {soft : Bool} {s : St} (h : GInv soft s) {f : Nat} {m m1 : Msg} (hm : s.msgs f = some m)
    (hsrc : m1.src = m.src) (hlocs : m1.locs = m.locs) (horig : m1.orig = m.orig) (hrecv : m1.recvDone = m.recvDone)
    (hflow : s.sendFlows f = true)
    (hok : MOk soft { s with sendFlows := set s.sendFlows f false } f { m1 with sendDone := m1.sendDone + 1 }) :
    ∃ s', complete s f m1 = .ok s' ∧ GInv soft s' ∧ Told s s' := by
  have e : complete s f m1 = .ok { s with sendFlows := set s.sendFlows f false, msgs := set s.msgs f (some { m1 with sendDone := m1.sendDone + 1 }) } := by
    unfold complete; rw [if_pos hflow]
  exact ⟨_, e, h.complete hm hsrc hlocs e hok, told_set (m' := { m1 with sendDone := m1.sendDone + 1 }) hm rfl horig hlocs (Or.inl hrecv)⟩

/-- Every legal step succeeds, keeps the invariant and delivers the right data. -/
theorem fine_step {soft : Bool} {s : St} (h : GInv soft s) {op : Op} (hl : Legal s op) : Fine soft s op := by
  cases op with
  | send f src dst prot locs contig count => exact fine_send h hl
  | post rank locs contig psize => exact fine_post h hl
  | write p a v => exact fine_write h hl
  | pair f rid => exact fine_pair h hl
  | arrive f =>
    cases hm : s.msgs f with
    | none => exact fine_stay h (by simp [step, hm])
    | some m =>
      by_cases hp : m.phase = .out
      · have hk := h.msgs f m hm
        have hph := hk.phase
        unfold PhaseOk at hph
        rw [hp] at hph
        exact fine_update (m' := { m with phase := .here }) h hm (by simp [step, hm, hp]) rfl rfl rfl rfl rfl
          ⟨hk.len, hk.nput, hk.held, hk.temp, hk.eager, hph⟩
      · exact fine_stay h (by simp [step, hm, hp])
  | fetch f =>
    cases hm : s.msgs f with
    | none => exact fine_stay h (by simp [step, hm])
    | some m =>
      by_cases hp : m.phase = .here ∧ m.prot = .eager1
      · have hk := h.msgs f m hm
        have hph := hk.phase
        unfold PhaseOk at hph
        rw [hp.1] at hph
        exact fine_update (m' := { m with phase := .fetch }) h hm (by simp [step, hm, hp]) rfl rfl rfl rfl rfl
          ⟨hk.len, hk.nput, hk.held, hk.temp, hk.eager, hp.2, hph.1⟩
      · exact fine_stay h (by simp only [step, hm]; rw [if_neg hp])
  | nicGet f =>
    cases hm : s.msgs f with
    | none => exact fine_stay h (by simp [step, hm])
    | some m =>
      have hk := h.msgs f m hm
      have hph := hk.phase
      cases hp : m.phase with
      | fetch =>
        unfold PhaseOk at hph
        rw [hp] at hph
        exact fine_update (m' := { m with phase := .fetched (remote s m), nicAck := true }) h hm (by simp [step, hm, hp]) rfl rfl rfl rfl rfl
          (hk.rephase _ _ ⟨hph.1, hph.2, remote_orig hk (Or.inl hph.1)⟩)
      | get r =>
        unfold PhaseOk at hph
        rw [hp] at hph
        obtain ⟨p1, p2, p3, p4, p5⟩ := hph
        refine fine_update (m' := { m with phase := .pay r (remote s m), nicAck := !soft }) h hm (by simp [step, hm, hp]) rfl rfl rfl rfl rfl
          (hk.rephase _ _ ⟨p1, p2, remote_orig hk (Or.inr ⟨p1, p4.1⟩), ?_, p5⟩)
        cases soft with
        | true => exact ⟨p4, rfl⟩
        | false => exact Or.inl ⟨p4, rfl⟩
      | out => exact fine_stay h (by simp [step, hm, hp])
      | here => exact fine_stay h (by simp [step, hm, hp])
      | fetched w => exact fine_stay h (by simp [step, hm, hp])
      | ready w => exact fine_stay h (by simp [step, hm, hp])
      | pay r w => exact fine_stay h (by simp [step, hm, hp])
      | paid r => exact fine_stay h (by simp [step, hm, hp])
      | ack => exact fine_stay h (by simp [step, hm, hp])
      | gone => exact fine_stay h (by simp [step, hm, hp])
  | nicGetLocal f =>
    cases hm : s.msgs f with
    | none => exact fine_stay h (by simp [step, hm])
    | some m =>
      have hk := h.msgs f m hm
      have hph := hk.phase
      cases hp : m.phase with
      | fetch =>
        unfold PhaseOk at hph
        rw [hp] at hph
        exact fine_update (m' := { m with phase := .ready (remote s m), nicAck := true }) h hm (by simp [step, hm, hp]) rfl rfl rfl rfl rfl
          (hk.rephase _ _ ⟨hph.1, hph.2, remote_orig hk (Or.inl hph.1)⟩)
      | get r =>
        unfold PhaseOk at hph
        rw [hp] at hph
        obtain ⟨p1, p2, p3, p4, p5⟩ := hph
        unfold Fine
        simp only [step, hm, hp]
        refine fine_deliver h hm (remote_orig hk (Or.inr ⟨p1, p4.1⟩)) p1 p2 ?_ p5
        cases soft with
        | true => exact ⟨p4, rfl⟩
        | false => exact Or.inl ⟨p4, rfl⟩
      | out => exact fine_stay h (by simp [step, hm, hp])
      | here => exact fine_stay h (by simp [step, hm, hp])
      | fetched w => exact fine_stay h (by simp [step, hm, hp])
      | ready w => exact fine_stay h (by simp [step, hm, hp])
      | pay r w => exact fine_stay h (by simp [step, hm, hp])
      | paid r => exact fine_stay h (by simp [step, hm, hp])
      | ack => exact fine_stay h (by simp [step, hm, hp])
      | gone => exact fine_stay h (by simp [step, hm, hp])
  | nicPay f =>
    cases hm : s.msgs f with
    | none => exact fine_stay h (by simp [step, hm])
    | some m =>
      have hk := h.msgs f m hm
      have hph := hk.phase
      cases hp : m.phase with
      | fetched w =>
        unfold PhaseOk at hph
        rw [hp] at hph
        exact fine_update (m' := { m with phase := .ready w }) h hm (by simp [step, hm, hp]) rfl rfl rfl rfl rfl
          ⟨hk.len, hk.nput, hk.held, hk.temp, hk.eager, hph⟩
      | pay r w =>
        unfold PhaseOk at hph
        rw [hp] at hph
        obtain ⟨p1, p2, p3, p4, p5⟩ := hph
        unfold Fine
        simp only [step, hm, hp]
        exact fine_deliver (na := m.nicAck) h hm p3 p1 p2 p4 p5
      | out => exact fine_stay h (by simp [step, hm, hp])
      | here => exact fine_stay h (by simp [step, hm, hp])
      | fetch => exact fine_stay h (by simp [step, hm, hp])
      | ready w => exact fine_stay h (by simp [step, hm, hp])
      | get r => exact fine_stay h (by simp [step, hm, hp])
      | paid r => exact fine_stay h (by simp [step, hm, hp])
      | ack => exact fine_stay h (by simp [step, hm, hp])
      | gone => exact fine_stay h (by simp [step, hm, hp])
  | payload f =>
    cases hm : s.msgs f with
    | none => exact fine_stay h (by simp [step, hm])
    | some m =>
      cases hp : m.phase with
      | paid r => exact fine_payload h hm hp
      | out => exact fine_stay h (by simp [step, hm, hp])
      | here => exact fine_stay h (by simp [step, hm, hp])
      | fetch => exact fine_stay h (by simp [step, hm, hp])
      | fetched w => exact fine_stay h (by simp [step, hm, hp])
      | ready w => exact fine_stay h (by simp [step, hm, hp])
      | get r => exact fine_stay h (by simp [step, hm, hp])
      | pay r w => exact fine_stay h (by simp [step, hm, hp])
      | ack => exact fine_stay h (by simp [step, hm, hp])
      | gone => exact fine_stay h (by simp [step, hm, hp])
  | ack f =>
    cases hm : s.msgs f with
    | none => exact fine_stay h (by simp [step, hm])
    | some m =>
      by_cases hp : m.phase = .ack
      · have hk := h.msgs f m hm
        have hph := hk.phase
        unfold PhaseOk at hph
        rw [hp] at hph
        obtain ⟨p1, p2, p3, p4, p5⟩ := hph
        unfold Fine
        simp only [step, hm, hp, if_true]
        refine fine_complete h hm rfl rfl rfl rfl p4.2 ?_
        refine ⟨hk.len, hk.nput, fun hz => by simp at hz, hk.temp, fun e => absurd p1 e, p2, fun _ => ?_, fun e => by replace e : m.prot = .eager0 := e; rw [p1] at e; cases e⟩
        subst p3
        simp only [if_true]
        exact ⟨by rw [p4.1], p5⟩
      · exact fine_stay h (by simp [step, hm, hp])
  | nicAck f =>
    cases hm : s.msgs f with
    | none => exact fine_stay h (by simp [step, hm])
    | some m =>
      have hk := h.msgs f m hm
      have hph := hk.phase
      cases hna : m.nicAck with
      | false => exact fine_stay h (by simp [step, hm, hna])
      | true =>
        by_cases hprot : m.prot = .eager1
        · refine fine_update (m' := { m with nicAck := false }) h hm (by simp [step, hm, hna, hprot]) rfl rfl rfl rfl rfl
            ⟨hk.len, hk.nput, hk.held, hk.temp, hk.eager, ?_⟩
          have hne : m.prot ≠ .rendezvous := by rw [hprot]; decide
          have hne0 : m.prot ≠ .eager0 := by rw [hprot]; decide
          unfold PhaseOk at hph ⊢
          cases hp : m.phase with
          | out => rw [hp] at hph; exact ⟨hph.1, rfl, fun e => absurd e hne⟩
          | here => rw [hp] at hph; exact ⟨hph.1, rfl, fun e => absurd e hne⟩
          | fetch => rw [hp] at hph; exact hph
          | fetched w => rw [hp] at hph; exact hph
          | ready w => rw [hp] at hph; exact hph
          | get r => rw [hp] at hph; exact absurd hph.1 hne
          | pay r w => rw [hp] at hph; exact absurd hph.1 hne
          | paid r => rw [hp] at hph; exact absurd hph.1 hne
          | ack => rw [hp] at hph; exact absurd hph.1 hne
          | gone => rw [hp] at hph; exact ⟨hph.1, fun e => absurd e hne, fun _ => rfl⟩
        · -- an acknowledgement by the interface: rendezvous without software acknowledgement
          have key : ∀ (s0 : St) (m0 : Msg), AfterGet soft s0 f m0 → m0.nicAck = true → soft = false ∧ Pend s0 f m0 := by
            intro s0 m0 ha hn
            unfold AfterGet at ha
            cases soft with
            | true => simp only [if_true] at ha; rw [ha.2] at hn; cases hn
            | false =>
              simp only [Bool.false_eq_true, if_false] at ha
              rcases ha with ha | ha
              · exact ⟨rfl, ha.1⟩
              · rw [ha.2] at hn; cases hn
          have fin : ∀ {ph : Phase}, m.phase = ph → soft = false → Pend s f m →
              PhaseOk soft { s with sendFlows := set s.sendFlows f false } f { m with nicAck := false, sendDone := m.sendDone + 1 } →
              m.prot = .rendezvous → Fine soft s (.nicAck f) := by
            intro ph _ hs hpend hpo hpr
            unfold Fine
            simp only [step, hm, hna, if_true, if_neg hprot]
            exact fine_complete h hm rfl rfl rfl rfl hpend.2
              ⟨hk.len, hk.nput, fun hz => by simp at hz, hk.temp, fun e => absurd hpr e, hpo⟩
          cases hp : m.phase with
          | out => unfold PhaseOk at hph; rw [hp] at hph; rw [hph.2.1] at hna; cases hna
          | here => unfold PhaseOk at hph; rw [hp] at hph; rw [hph.2.1] at hna; cases hna
          | fetch => unfold PhaseOk at hph; rw [hp] at hph; exact absurd hph.1 hprot
          | fetched w => unfold PhaseOk at hph; rw [hp] at hph; exact absurd hph.1 hprot
          | ready w => unfold PhaseOk at hph; rw [hp] at hph; exact absurd hph.1 hprot
          | get r => unfold PhaseOk at hph; rw [hp] at hph; rw [hph.2.2.1] at hna; cases hna
          | pay r w =>
            unfold PhaseOk at hph; rw [hp] at hph
            obtain ⟨p1, p2, p3, p4, p5⟩ := hph
            obtain ⟨hs, hpend⟩ := key s m p4 hna
            refine fin hp hs hpend ?_ p1
            unfold PhaseOk
            rw [hp]
            subst hs
            exact ⟨p1, p2, p3, Or.inr ⟨by show m.sendDone + 1 = 1; rw [hpend.1], rfl⟩, p5⟩
          | paid r =>
            unfold PhaseOk at hph; rw [hp] at hph
            obtain ⟨p1, p2, p3, p4, p5⟩ := hph
            obtain ⟨hs, hpend⟩ := key s m p3 hna
            refine fin hp hs hpend ?_ p1
            unfold PhaseOk
            rw [hp]
            subst hs
            exact ⟨p1, p2, Or.inr ⟨by show m.sendDone + 1 = 1; rw [hpend.1], rfl⟩, p4, p5⟩
          | ack => unfold PhaseOk at hph; rw [hp] at hph; rw [hph.2.2.2.2] at hna; cases hna
          | gone =>
            unfold PhaseOk at hph; rw [hp] at hph
            obtain ⟨p1, p2, p3⟩ := hph
            have hpr : m.prot = .rendezvous := by
              cases hq : m.prot with
              | eager0 => rw [p3 hq] at hna; cases hna
              | eager1 => exact absurd hq hprot
              | rendezvous => rfl
              | put => exact absurd hq hk.nput
            have p2 := p2 hpr
            have hs : soft = false ∧ Pend s f m := by
              cases soft with
              | true => simp only [if_true] at p2; rw [p2.2] at hna; cases hna
              | false => simp only [Bool.false_eq_true, if_false] at p2; exact key s m p2 hna
            obtain ⟨hs, hpend⟩ := hs
            refine fin hp hs hpend ?_ hpr
            unfold PhaseOk
            rw [hp]
            subst hs
            refine ⟨p1, fun _ => ?_, fun _ => rfl⟩
            simp only [Bool.false_eq_true, if_false]
            exact Or.inr ⟨by show m.sendDone + 1 = 1; rw [hpend.1], rfl⟩

theorem GInv.init (soft : Bool) (mem : Mem) : GInv soft (St.init mem) := by
  refine ⟨?_, ?_, ?_, ?_, ?_, ?_, ?_, ?_, ?_⟩ <;> simp [St.init]

theorem Reach.inv {soft : Bool} {s : St} (h : Reach soft s) : GInv soft s := by
  induction h with
  | init mem => exact GInv.init soft mem
  | step _ hl hs ih =>
    obtain ⟨s1, e1, hg, _⟩ := fine_step ih hl
    rw [hs] at e1
    cases e1
    exact hg

theorem pairwise_id {l : List Recv} (h : l.Pairwise (fun a b => a.id ≠ b.id)) {a b : Recv} (ha : a ∈ l) (hb : b ∈ l) (he : a.id = b.id) : a = b := by
  induction l with
  | nil => cases ha
  | cons x l ih =>
    rw [List.pairwise_cons] at h
    rcases List.mem_cons.mp ha with ha1 | ha1
    · rcases List.mem_cons.mp hb with hb1 | hb1
      · rw [ha1, hb1]
      · rw [ha1] at he; exact absurd he (h.1 b hb1)
    · rcases List.mem_cons.mp hb with hb1 | hb1
      · rw [hb1] at he; exact absurd he.symm (h.1 a ha1)
      · exact ih h.2 ha1 hb1

theorem finalize_opened {s s' : St} {f : Nat} {m : Msg} {r : Recv} {ph : Phase} (h : finalize s f m r ph = .ok s') :
    (∃ m', s'.msgs f = some m' ∧ m'.recvDone = m.recvDone + 1) ∧ s'.opened = s.opened.filter (fun x => x.id != r.id) := by
  unfold finalize at h
  simp only at h
  split at h
  · cases h; exact ⟨⟨_, set_self _ _ _, rfl⟩, rfl⟩
  · split at h
    · cases h
    · cases h; exact ⟨⟨_, set_self _ _ _, rfl⟩, rfl⟩

theorem deliver_opened {s s' : St} {r : Recv} {d : List Byte} (h : deliver s r d = .ok s') : s'.opened = s.opened := by
  unfold deliver at h
  split at h
  · cases h
  · split at h <;> cases h <;> rfl

theorem complete_opened {s s' : St} {f : Nat} {m : Msg} (h : complete s f m = .ok s') : s'.opened = s.opened := by
  unfold complete at h
  split at h
  · cases h; rfl
  · cases h

/-- Only the completion of a receive closes it. -/
theorem step_opened {soft : Bool} {s s' : St} {op : Op} (h : step soft s op = .ok s') :
    (∀ r ∈ s.opened, r ∈ s'.opened) ∨ ∃ (f : Nat) (m : Msg) (r0 : Recv), s.msgs f = some m ∧ (∃ m', s'.msgs f = some m' ∧ m'.recvDone = m.recvDone + 1) ∧
      s'.opened = s.opened.filter (fun x => x.id != r0.id) := by
  have same : s'.opened = s.opened → _ := fun e => Or.inl (b := ∃ (f : Nat) (m : Msg) (r0 : Recv), s.msgs f = some m ∧ (∃ m', s'.msgs f = some m' ∧ m'.recvDone = m.recvDone + 1) ∧
      s'.opened = s.opened.filter (fun x => x.id != (r0 : Recv).id)) (fun r (hr : r ∈ s.opened) => e ▸ hr)
  cases op with
  | send f src dst prot locs contig count => cases h; exact same rfl
  | post rank locs contig psize => cases h; exact Or.inl fun r hr => List.mem_append_left _ hr
  | write p a v => cases h; exact same rfl
  | arrive f =>
    simp only [step] at h
    split at h
    · split at h <;> cases h <;> exact same rfl
    · cases h; exact same rfl
  | fetch f =>
    simp only [step] at h
    split at h
    · split at h <;> cases h <;> exact same rfl
    · cases h; exact same rfl
  | pair f rid =>
    simp only [step] at h
    split at h
    · rename_i m r hm hf
      split at h
      · split at h
        · cases h
        · rename_i s2 hd
          have := finalize_opened h
          exact Or.inr ⟨f, m, r, hm, this.1, by rw [this.2, deliver_opened hd]⟩
      · split at h
        · cases h
        · rename_i s2 hd
          have := finalize_opened h
          exact Or.inr ⟨f, m, r, hm, this.1, by rw [this.2, deliver_opened hd]⟩
      · cases h; exact same rfl
      · have := finalize_opened h
        exact Or.inr ⟨f, m, r, hm, this.1, this.2⟩
      · cases h; exact same rfl
    · cases h; exact same rfl
  | nicGet f =>
    simp only [step] at h
    split at h
    · split at h <;> cases h <;> exact same rfl
    · cases h; exact same rfl
  | nicGetLocal f =>
    simp only [step] at h
    split at h
    · split at h
      · cases h; exact same rfl
      · split at h
        · cases h
        · rename_i s2 hd
          cases h; exact same (deliver_opened (s' := s2) hd)
      · cases h; exact same rfl
    · cases h; exact same rfl
  | nicPay f =>
    simp only [step] at h
    split at h
    · split at h
      · cases h; exact same rfl
      · split at h
        · cases h
        · rename_i s2 hd
          cases h; exact same (deliver_opened (s' := s2) hd)
      · cases h; exact same rfl
    · cases h; exact same rfl
  | payload f =>
    simp only [step] at h
    split at h
    · rename_i m hm
      split at h
      · split at h
        · cases h
        · rename_i r hr
          have := finalize_opened h
          exact Or.inr ⟨f, m, r, hm, this.1, this.2⟩
      · cases h; exact same rfl
    · cases h; exact same rfl
  | ack f =>
    simp only [step] at h
    split at h
    · split at h
      · exact same (complete_opened h)
      · cases h; exact same rfl
    · cases h; exact same rfl
  | nicAck f =>
    simp only [step] at h
    split at h
    · split at h
      · split at h
        · cases h; exact same rfl
        · exact same (complete_opened h)
      · cases h; exact same rfl
    · cases h; exact same rfl

/-! ### C94 -/

/-- The contents of a message are the bytes that the send buffer held when the send was called. -/
theorem C94_contents (soft : Bool) (s s' : St) (f src dst : Nat) (prot : Prot) (locs : List Nat) (contig : Bool) (count : Nat)
    (hs : step soft s (.send f src dst prot locs contig count) = .ok s') :
    ∃ m, s'.msgs f = some m ∧ m.orig = locs.map (s.mem src) ∧ m.locs = locs ∧ m.recvDone = 0 := by
  simp only [step, Except.ok.injEq] at hs
  subst hs
  exact ⟨_, set_self _ _ _, rfl, rfl, rfl⟩

/-- In every history, with and without software acknowledgements, when a receive completes its
buffer holds the bytes that the send buffer held when the matching send was called; no other
step changes the contents of a message. -/
theorem C94_delivers (soft : Bool) (s s' : St) (op : Op) (hr : Reach soft s) (hl : Legal s op) (hs : step soft s op = .ok s')
    (f : Nat) (m : Msg) (hm : s.msgs f = some m) :
    ∃ m', s'.msgs f = some m' ∧ m'.orig = m.orig ∧
      (m'.recvDone = m.recvDone ∨ ∃ r ∈ s.opened, r ∉ s'.opened ∧ (r.locs.take m.orig.length).map (s'.mem r.rank) = m.orig) := by
  obtain ⟨s1, e1, _, ht⟩ := fine_step hr.inv hl
  rw [hs] at e1
  cases e1
  obtain ⟨m', h1, h2, _, h4⟩ := ht f m hm
  refine ⟨m', h1, h2, h4.imp id ?_⟩
  intro ⟨r, hr1, hr2, _, hr3⟩
  refine ⟨r, hr1, hr2, ?_⟩
  rw [(hr.inv.msgs f m hm).len]
  exact hr3

/-- Each send and each message's receive completes at most once, and an eager send at once. -/
theorem C94_once (soft : Bool) (s : St) (hr : Reach soft s) (f : Nat) (m : Msg) (hm : s.msgs f = some m) :
    m.sendDone ≤ 1 ∧ m.recvDone ≤ 1 := by
  have hk := hr.inv.msgs f m hm
  have hp := hk.phase
  have hag : AfterGet soft s f m → m.sendDone ≤ 1 := by
    intro h
    unfold AfterGet Pend at h
    split at h
    · omega
    · rcases h with h | h <;> omega
  by_cases hpr : m.prot = .rendezvous
  · unfold PhaseOk at hp
    split at hp
    · have := hp.2.2 hpr; unfold Pend at this; omega
    · have := hp.2.2 hpr; unfold Pend at this; omega
    · rw [hpr] at hp; cases hp.1
    · rw [hpr] at hp; cases hp.1
    · rw [hpr] at hp; cases hp.1
    · have := hp.2.2.2.1; unfold Pend at this; omega
    · have := hag hp.2.2.2.1; omega
    · have := hag hp.2.2.1; omega
    · have := hp.2.2.2.1; unfold Pend at this; omega
    · have h2 := hp.2.1 hpr
      split at h2
      · omega
      · have := hag h2; omega
  · have he := hk.eager hpr
    refine ⟨by omega, ?_⟩
    unfold PhaseOk at hp
    split at hp <;> first | omega | exact absurd hp.1 hpr

/-- No history ends with a payload or an acknowledgement that belongs to no request, or with
data written beyond a buffer. -/
theorem C94_no_abort (soft : Bool) (s : St) (hr : Reach soft s) (op : Op) (hl : Legal s op) : ∃ s', step soft s op = .ok s' := by
  obtain ⟨s', e, _⟩ := fine_step hr.inv hl
  exact ⟨s', e⟩

/-- How many steps of the transport a message still needs. -/
def work (m : Msg) : Nat :=
  (match m.phase with
    | .out => 12 | .here => if m.prot = .eager1 then 11 else 8 | .fetch => 9 | .fetched _ => 6 | .ready _ => 5 | .get _ => 7
    | .pay _ _ => 4 | .paid _ => 3 | .ack => 2 | .gone => 0) + (if m.nicAck then 1 else 0)

/-- The steps of the transport and the protocols. -/
def transport (f : Nat) : List Op := [.arrive f, .fetch f, .nicGet f, .nicPay f, .payload f, .ack f, .nicAck f]

/-- A message that is neither complete on both sides nor waiting for a receive can make
progress by a step of the transport, and there are only finitely many of them. -/
theorem C94_progress (soft : Bool) (s : St) (hr : Reach soft s) (f : Nat) (m : Msg) (hm : s.msgs f = some m) :
    (m.sendDone = 1 ∧ m.recvDone = 1) ∨ ((m.phase = .here ∧ m.prot ≠ .eager1) ∨ ∃ d, m.phase = .ready d) ∨
    ∃ op ∈ transport f, ∃ s' m', step soft s op = .ok s' ∧ s'.msgs f = some m' ∧ work m' < work m := by
  have hg := hr.inv
  have hk := hg.msgs f m hm
  have hp := hk.phase
  have fl : ∀ {op : Op}, (∃ s', step soft s op = .ok s' ∧ GInv soft s' ∧ Told s s') → ∃ s', step soft s op = .ok s' := fun ⟨s', e, _⟩ => ⟨s', e⟩
  cases hph : m.phase with
  | out =>
    right; right
    refine ⟨.arrive f, by simp [transport], _, { m with phase := .here }, by simp only [step, hm, hph, if_true]; rfl, set_self _ _ _, ?_⟩
    simp only [work, hph]
    split <;> omega
  | here =>
    by_cases he : m.prot = .eager1
    · right; right
      refine ⟨.fetch f, by simp [transport], _, { m with phase := .fetch }, by simp only [step, hm]; rw [if_pos ⟨hph, he⟩], set_self _ _ _, ?_⟩
      simp only [work, hph, he, if_true]
      omega
    · right; left; left; exact ⟨rfl, he⟩
  | fetch =>
    right; right
    refine ⟨.nicGet f, by simp [transport], _, { m with phase := .fetched (remote s m), nicAck := true }, by simp only [step, hm, hph]; rfl, set_self _ _ _, ?_⟩
    simp only [work, hph, if_true]
    omega
  | fetched w =>
    right; right
    refine ⟨.nicPay f, by simp [transport], _, { m with phase := .ready w }, by simp only [step, hm, hph]; rfl, set_self _ _ _, ?_⟩
    simp only [work, hph]
    omega
  | ready w => right; left; right; exact ⟨w, rfl⟩
  | get r =>
    right; right
    refine ⟨.nicGet f, by simp [transport], _, { m with phase := .pay r (remote s m), nicAck := !soft }, by simp only [step, hm, hph]; rfl, set_self _ _ _, ?_⟩
    simp only [work, hph]
    split <;> split <;> omega
  | pay r w =>
    right; right
    unfold PhaseOk at hp
    rw [hph] at hp
    have hd : w.length ≤ r.locs.length := by rw [hp.2.2.1, hk.len]; exact hp.2.2.2.2.2.1
    refine ⟨.nicPay f, by simp [transport], _, { m with phase := .paid r }, by simp only [step, hm, hph, deliver_ok hd]; rfl, set_self _ _ _, ?_⟩
    simp only [work, hph]
    omega
  | paid r =>
    right; right
    unfold PhaseOk at hp
    rw [hph] at hp
    obtain ⟨p1, p2, p3, ⟨o1, o2, o3⟩, p5⟩ := hp
    obtain ⟨mem, e1, _⟩ := finalize_ok (s := { s with recvFlows := set s.recvFlows f none }) (f := f)
      (ph := if soft then .ack else .gone) (m := m) (r := r) p5 hk.len o2 (hg.nodup r (hg.own f r o1).1) o3
    refine ⟨.payload f, by simp [transport], _, { m with phase := if soft then .ack else .gone, recvDone := m.recvDone + 1 },
      by simp only [step, hm, hph, o1]; exact e1, set_self _ _ _, ?_⟩
    simp only [work, hph]
    cases soft <;> simp <;> omega
  | ack =>
    right; right
    unfold PhaseOk at hp
    rw [hph] at hp
    refine ⟨.ack f, by simp [transport], _, { m with phase := .gone, sendDone := m.sendDone + 1 },
      by simp only [step, hm, hph, if_true, complete, hp.2.2.2.1.2]; rfl, set_self _ _ _, ?_⟩
    simp only [work, hph]
    omega
  | gone =>
    unfold PhaseOk at hp
    rw [hph] at hp
    by_cases hpr : m.prot = .rendezvous
    · have h2 := hp.2.1 hpr
      cases soft with
      | true => simp only [if_true] at h2; exact Or.inl ⟨h2.1, hp.1⟩
      | false =>
        simp only [Bool.false_eq_true, if_false, AfterGet] at h2
        rcases h2 with h2 | h2
        · right; right
          refine ⟨.nicAck f, by simp [transport], { s with sendFlows := set s.sendFlows f false, msgs := set s.msgs f (some { m with nicAck := false, sendDone := m.sendDone + 1 }) }, { m with nicAck := false, sendDone := m.sendDone + 1 }, ?_, set_self _ _ _, ?_⟩
          · have hne : m.prot ≠ .eager1 := by rw [hpr]; decide
            simp only [step, hm, h2.2, if_true, if_neg hne, complete, h2.1.2]
          · simp only [work, hph, h2.2, if_true]
            simp
        · exact Or.inl ⟨h2.1, hp.1⟩
    · exact Or.inl ⟨hk.eager hpr, hp.1⟩

/-- The steps of the transport are always allowed. -/
theorem transport_legal (s : St) (f : Nat) : ∀ op ∈ transport f, Legal s op := by
  intro op h
  simp only [transport, List.mem_cons, List.not_mem_nil, or_false] at h
  rcases h with h | h | h | h | h | h | h <;> subst h <;> trivial

/-- From every reachable state the transport can bring every message either to completion on
both sides or to the point where it waits for a receive. -/
theorem C94_completes (soft : Bool) (f : Nat) : ∀ (n : Nat) (s : St) (m : Msg), Reach soft s → s.msgs f = some m → work m ≤ n →
    ∃ (ops : List Op) (s' : St) (m' : Msg), (∀ op ∈ ops, op ∈ transport f) ∧ run soft s ops = .ok s' ∧ s'.msgs f = some m' ∧ m'.orig = m.orig ∧
      ((m'.sendDone = 1 ∧ m'.recvDone = 1) ∨ (m'.phase = .here ∧ m'.prot ≠ .eager1) ∨ ∃ d, m'.phase = .ready d) := by
  intro n
  induction n with
  | zero =>
    intro s m hr hm hw
    rcases C94_progress soft s hr f m hm with h | h | ⟨op, h1, s', m', h2, h3, h4⟩
    · exact ⟨[], s, m, by simp, rfl, hm, rfl, Or.inl h⟩
    · exact ⟨[], s, m, by simp, rfl, hm, rfl, Or.inr h⟩
    · omega
  | succ n ih =>
    intro s m hr hm hw
    rcases C94_progress soft s hr f m hm with h | h | ⟨op, h1, s', m', h2, h3, h4⟩
    · exact ⟨[], s, m, by simp, rfl, hm, rfl, Or.inl h⟩
    · exact ⟨[], s, m, by simp, rfl, hm, rfl, Or.inr h⟩
    · have hl := transport_legal s f op h1
      obtain ⟨m1, g1, g2, _⟩ := C94_delivers soft s s' op hr hl h2 f m hm
      rw [h3] at g1
      cases g1
      obtain ⟨ops, s2, m2, k1, k2, k3, k4, k5⟩ := ih s' m' (hr.step hl h2) h3 (by omega)
      refine ⟨op :: ops, s2, m2, ?_, ?_, k3, k4.trans g2, k5⟩
      · intro x hx
        rcases List.mem_cons.mp hx with e | e
        · subst e; exact h1
        · exact k1 x e
      · simp only [run, h2]
        exact k2

/-- A message that waits for a receive is taken by any posted receive that is large enough,
and needs less afterwards. -/
theorem C94_taken (soft : Bool) (s : St) (hr : Reach soft s) (f : Nat) (m : Msg) (hm : s.msgs f = some m)
    (hw : (m.phase = .here ∧ m.prot ≠ .eager1) ∨ ∃ d, m.phase = .ready d) (r : Recv) (hp : r ∈ s.posted)
    (hfit : m.locs.length ≤ r.locs.length) (hu : r.contig = false → m.count * r.psize = m.locs.length) :
    ∃ s' m', step soft s (.pair f r.id) = .ok s' ∧ s'.msgs f = some m' ∧ work m' < work m := by
  have hg := hr.inv
  have hk := hg.msgs f m hm
  have hph := hk.phase
  have huniq : ∀ x ∈ s.posted, x.id = r.id → x = r := by
    intro x hx he
    exact pairwise_id hg.ids (hg.sub x hx) (hg.sub r hp) he
  have hf : s.posted.find? (fun x => x.id == r.id) = some r := by
    cases he : s.posted.find? (fun x => x.id == r.id) with
    | none =>
      have := List.find?_eq_none.mp he r hp
      simp at this
    | some x =>
      obtain ⟨h1, h2⟩ := find_posted he
      rw [huniq x h1 h2]
  have hl : Legal s (.pair f r.id) := by
    intro m1 r1 hm1 hr1 hid
    rw [hm] at hm1
    cases hm1
    rw [huniq r1 hr1 hid]
    exact ⟨hfit, hu⟩
  have fin : ∀ {d : List Byte}, (∃ s', (match deliver { s with posted := s.posted.filter (fun x => x.id != r.id) } r d with
      | .error a => .error a
      | .ok s2 => finalize s2 f m r .gone) = Except.ok s') →
      ∃ s' m', (match deliver { s with posted := s.posted.filter (fun x => x.id != r.id) } r d with
      | .error a => .error a
      | .ok s2 => finalize s2 f m r .gone) = Except.ok s' ∧ s'.msgs f = some m' ∧ work m' ≤ 1 := by
    intro d ⟨s', e⟩
    refine ⟨s', { m with phase := .gone, recvDone := m.recvDone + 1 }, e, ?_, ?_⟩
    · split at e
      · cases e
      · unfold finalize at e
        simp only at e
        split at e
        · cases e; exact set_self _ _ _
        · split at e
          · cases e
          · cases e; exact set_self _ _ _
    · simp only [work]; split <;> omega
  obtain ⟨s1, e1, _⟩ := fine_step hg hl
  rcases hw with ⟨h1, h2⟩ | ⟨d, h1⟩
  · cases hpr : m.prot with
    | eager1 => exact absurd hpr h2
    | put => exact absurd hpr hk.nput
    | eager0 =>
      simp only [step, hm, hf, h1, hpr] at e1 ⊢
      obtain ⟨s', m', a, b, c⟩ := fin ⟨s1, e1⟩
      refine ⟨s', m', a, b, ?_⟩
      simp only [work, h1, hpr, reduceCtorEq, if_false] at c ⊢
      omega
    | rendezvous =>
      simp only [step, hm, hf, h1, hpr]
      refine ⟨_, { m with phase := .get r, prot := .rendezvous }, rfl, ?_, ?_⟩
      · exact set_self _ _ _
      · simp only [work, h1, hpr, reduceCtorEq, if_false]
        omega
  · unfold PhaseOk at hph
    rw [h1] at hph
    simp only [step, hm, hf, h1, hph.1] at e1 ⊢
    obtain ⟨s', m', a, b, c⟩ := fin ⟨s1, e1⟩
    refine ⟨s', m', a, b, ?_⟩
    have hw : work m = 5 + (if m.nicAck then 1 else 0) := by simp only [work, h1]
    omega

/-- Receives are closed only by completing with a message. -/
theorem C94_received (soft : Bool) (s s' : St) (op : Op) (hr : Reach soft s) (hl : Legal s op) (hs : step soft s op = .ok s')
    (r : Recv) (ho : r ∈ s.opened) (hc : r ∉ s'.opened) :
    ∃ (f : Nat) (m m' : Msg), s.msgs f = some m ∧ s'.msgs f = some m' ∧ m.recvDone = 0 ∧ m'.recvDone = 1 ∧
      (r.locs.take m.orig.length).map (s'.mem r.rank) = m.orig := by
  have hop := step_opened hs
  rcases hop with h | ⟨f, m, r0, h1, ⟨m', h2, h3⟩, h4⟩
  · exact absurd (h r ho) hc
  · obtain ⟨m1, g1, g2, g3⟩ := C94_delivers soft s s' op hr hl hs f m h1
    rw [h2] at g1
    cases g1
    have ho1 := (C94_once soft s hr f m h1).2
    have ho2 := (C94_once soft s' (hr.step hl hs) f m' h2).2
    refine ⟨f, m, m', h1, h2, by omega, by omega, ?_⟩
    rcases g3 with g3 | ⟨r', k1, k2, k3⟩
    · omega
    · have e1 : r.id = r0.id := by
        rw [h4, List.mem_filter] at hc
        simp only [bne_iff_ne, ne_eq] at hc
        exact Classical.byContradiction fun e => hc ⟨ho, by simpa using e⟩
      have e2 : r'.id = r0.id := by
        rw [h4, List.mem_filter] at k2
        exact Classical.byContradiction fun e => k2 ⟨k1, by simpa using e⟩
      rw [pairwise_id hr.inv.ids ho k1 (e1.trans e2.symm)]
      exact k3

/-! ### What does not hold -/

/-- With `use_put_window`, the data never arrives: the send and the receive complete and the
receive buffer is as before (`DirectPut::start` passes no buffers). -/
theorem C94_put_refuted : ∃ (mem : Mem) (s : St) (m : Msg),
    run false (St.init mem) [.send 0 0 1 .put [0, 1] true 2, .post 1 [0, 1] true 1, .arrive 0, .pair 0 0, .nicAck 0] = .ok s ∧
    s.msgs 0 = some m ∧ m.sendDone = 1 ∧ m.recvDone = 1 ∧ s.opened = [] ∧ m.orig = [7, 7] ∧ [s.mem 1 0, s.mem 1 1] = [0, 0] :=
  ⟨fun p _ => if p = 0 then 7 else 0, _, _, rfl, rfl, rfl, rfl, rfl, rfl, rfl⟩

/-- Two integers are sent and received as one element of a datatype that is not contiguous and
holds two integers.  Unpacking uses the number of elements of the sender, so it reads twice as
many bytes as were received. -/
theorem C94_unpack_refuted : ∃ (mem : Mem),
    run false (St.init mem) [.send 0 0 1 .eager0 [0, 1, 2, 3, 4, 5, 6, 7] true 2, .post 1 [0, 1, 2, 3, 8, 9, 10, 11] false 8, .arrive 0, .pair 0 0]
      = .error .badUnpack :=
  ⟨fun _ _ => 0, rfl⟩

/-- The other way round half of the data is lost: one element of eight bytes is received as two
elements of a datatype that is not contiguous and holds four bytes. -/
theorem C94_short_unpack_refuted : ∃ (mem : Mem) (s : St) (m : Msg),
    run false (St.init mem) [.send 0 0 1 .eager0 [0, 1, 2, 3, 4, 5, 6, 7] true 1, .post 1 [0, 1, 4, 5, 8, 9, 12, 13] false 4, .arrive 0, .pair 0 0]
      = .ok s ∧ s.msgs 0 = some m ∧ m.recvDone = 1 ∧ m.orig = [7, 7, 7, 7, 7, 7, 7, 7] ∧
    [0, 1, 4, 5, 8, 9, 12, 13].map (s.mem 1) = [7, 7, 7, 7, 0, 0, 0, 0] :=
  ⟨fun p _ => if p = 0 then 7 else 0, _, _, rfl, rfl, rfl, rfl, rfl⟩

/-- A rendezvous message that is one byte longer than the receive buffer, which the size check
lets pass (C93), is written beyond the end of the buffer. -/
theorem C94_overrun_refuted : ∃ (mem : Mem),
    run false (St.init mem) [.send 0 0 1 .rendezvous [0, 1, 2] true 3, .post 1 [0, 1] true 1, .arrive 0, .pair 0 0, .nicGet 0, .nicPay 0]
      = .error .overrun :=
  ⟨fun _ _ => 0, rfl⟩

/-- Flow ids: the message number `i` of node `a` and number `j` of node `b` have the same id
only if they are the same message, as long as a node sends fewer than 2^32 messages. -/
theorem C94_flow_ids (a b : BitVec 32) (i j : Nat) :
    uniqueId a (BitVec.ofNat 32 i) = uniqueId b (BitVec.ofNat 32 j) ↔ a = b ∧ i % 2 ^ 32 = j % 2 ^ 32 := by
  have key : ∀ (a : BitVec 32) (i : Nat), (uniqueId a (BitVec.ofNat 32 i)).toNat = a.toNat * 2 ^ 32 + i % 2 ^ 32 := by
    intro a i
    have ha := a.isLt
    have hi : i % 2 ^ 32 < 2 ^ 32 := Nat.mod_lt _ (by decide)
    unfold uniqueId
    rw [BitVec.toNat_or, BitVec.toNat_shiftLeft, BitVec.toNat_setWidth, BitVec.toNat_setWidth, BitVec.toNat_ofNat, Nat.or_comm,
      Nat.mod_eq_of_lt (by omega : a.toNat < 2 ^ 64), Nat.mod_eq_of_lt (by omega : i % 2 ^ 32 < 2 ^ 64), Nat.shiftLeft_eq,
      Nat.mod_eq_of_lt (by omega : a.toNat * 2 ^ 32 < 2 ^ 64), ← Nat.shiftLeft_eq, ← Nat.shiftLeft_add_eq_or_of_lt hi, Nat.shiftLeft_eq]
  have ha := a.isLt
  have hb := b.isLt
  have hi : i % 2 ^ 32 < 2 ^ 32 := Nat.mod_lt _ (by decide)
  have hj : j % 2 ^ 32 < 2 ^ 32 := Nat.mod_lt _ (by decide)
  constructor
  · intro h
    have h := congrArg BitVec.toNat h
    rw [key, key] at h
    exact ⟨BitVec.eq_of_toNat_eq (by omega), by omega⟩
  · intro ⟨h1, h2⟩
    apply BitVec.eq_of_toNat_eq
    rw [key, key, h1, h2]

example : uniqueId 3 5 = 0x300000005#64 := by decide

/-! ### A history that meets the rules -/

/-- Three messages, one per protocol, with software acknowledgements; the sender of the eager
messages reuses its buffer at once. -/
def demoOps : List Op :=
  [.send 0 0 1 .eager0 [0, 1] true 2, .write 0 0 9, .send 1 0 1 .eager1 [0, 1] true 2, .send 2 0 1 .rendezvous [4, 5] true 2,
   .post 1 [0, 1] true 1, .post 1 [2, 3] true 1, .post 1 [8, 10] false 2, .arrive 0, .arrive 1, .arrive 2, .fetch 1, .nicGet 1, .nicPay 1,
   .pair 2 1, .nicGet 2, .pair 0 0, .nicPay 2, .payload 2, .ack 2, .nicAck 1]

example : ∃ s m, run true (St.init fun p a => 10 * p + a) demoOps = .ok s ∧ s.msgs 2 = some m ∧ m.sendDone = 1 ∧ m.recvDone = 1 ∧
    m.orig = [4, 5] ∧ [2, 3].map (s.mem 1) = [4, 5] ∧ [0, 1].map (s.mem 1) = [0, 1] ∧ s.opened.length = 1 :=
  ⟨_, _, rfl, rfl, rfl, rfl, rfl, rfl, rfl, rfl⟩

/-- The first steps of such a history are legal. -/
example : ∃ s m, Reach false s ∧ s.msgs 0 = some m ∧ m.phase = .here ∧ m.orig = [0, 1] ∧ s.opened.length = 1 ∧
    Legal s (.pair 0 0) := by
  have r0 := Reach.init (softAck := false) (fun p a => 10 * p + a)
  have r1 := Reach.step (op := .send 0 0 1 .rendezvous [0, 1] true 2) r0 ⟨rfl, by decide, by simp [St.init]⟩ rfl
  have r2 := Reach.step (op := .post 1 [0, 1] true 1) r1 ⟨by decide, by simp [St.init], by
    intro f m hm hsrc
    simp only [St.init, set] at hm
    split at hm
    · cases hm; cases hsrc
    · cases hm⟩ rfl
  have r3 := Reach.step (op := .arrive 0) r2 trivial rfl
  refine ⟨_, _, r3, rfl, rfl, rfl, rfl, ?_⟩
  intro m r hm hr hid
  have hm : some _ = some m := hm
  cases hm
  have hr : r ∈ [(⟨0, 1, [0, 1], true, 1⟩ : Recv)] := hr
  simp only [List.mem_singleton] at hr
  subst hr
  exact ⟨by decide, fun h => by cases h⟩

end SST.Mpi.Xfer
