import Verif.Parallel.LinksSpec
set_option autoImplicit false
namespace SST.Parallel.Links

/-- One numbered link of the whole machine. -/
structure Slot where
  sender : Sender
  sw : Worker
  recv : Recv
  rw : Worker
  lat : Nat
deriving DecidableEq, Repr

/-- The link object a process builds for a slot it sends on. -/
def Slot.kind (s : Slot) : Kind :=
  if s.rw = s.sw then .localL s.sw.thread s.recv
  else if s.rw.rank = s.sw.rank then .mt s.sw.thread s.rw.thread s.recv
  else .ipc s.sw.thread s.rw.rank s.rw.thread

/-- What process `me` does for slot number `id`. -/
def Slot.acts (me id : Nat) (s : Slot) : List Act :=
  if s.sw.rank = me then [.link id s.lat s.sender s.kind]
  else if s.rw.rank = me then [.handler s.rw.thread id s.recv]
  else []

/-- One slot in the running state. -/
def slotStep (me : Nat) (b : Bld) (s : Slot) : Bld := ⟨b.id + 1, b.acts ++ s.acts me b.id⟩

/-- Slots of one node's LogP links. -/
def nodeSlots (c : Cfg) (s : Nat) (p : Port) : List Slot :=
  ⟨.nicLogp p.nid, c.home s, .logpIn p.swPort, c.home s, 0⟩ ::
    (List.range c.nproc).flatMap fun r => (List.range c.nthread).map fun t =>
      ⟨.logpOut p.nid, ⟨r, t⟩, .nicLogp p.nid, c.home s, c.logpLat⟩

/-- Slots of one connection between switches. -/
def connSlots (c : Cfg) (s : Nat) (k : Conn) : List Slot :=
  [⟨.switchOut s k.srcPort, c.home s, .switchPayload k.dst k.dstPort, c.home k.dst, c.linkLat⟩,
   ⟨.switchIn k.dst k.dstPort, c.home k.dst, .switchCredit s k.srcPort, c.home s, c.linkLat⟩]

/-- Slots of one injection port. -/
def injSlots (c : Cfg) (s : Nat) (p : Port) : List Slot :=
  [⟨.switchIn s p.swPort, c.home s, .nodeCredit p.nid p.epPort, c.home s, c.injLat⟩,
   ⟨.nodeOut p.nid p.epPort, c.home s, .switchPayload s p.swPort, c.home s, c.injLat⟩]

/-- Slots of one ejection port. -/
def ejSlots (c : Cfg) (s : Nat) (p : Port) : List Slot :=
  [⟨.switchOut s p.swPort, c.home s, .nodePayload p.nid p.epPort, c.home s, c.ejLat⟩,
   ⟨.nodeIn p.nid p.epPort, c.home s, .switchCredit s p.swPort, c.home s, c.ejLat⟩]

/-- LogP slots of the machine. -/
def logpSlots (c : Cfg) : List Slot :=
  (List.range c.nsw).flatMap fun s => (c.inj s).flatMap (nodeSlots c s)

/-- Slots between switches. -/
def swSlots (c : Cfg) : List Slot :=
  (List.range c.nsw).flatMap fun s => (c.out s).flatMap (connSlots c s)

/-- Slots between nodes and switches. -/
def epSlots (c : Cfg) : List Slot :=
  (List.range c.nsw).flatMap fun s =>
    (c.inj s).flatMap (injSlots c s) ++ (c.inj s).flatMap (ejSlots c s)

/-- All slots in the order of their numbers. -/
def slots (c : Cfg) : List Slot :=
  logpSlots c ++ if c.logpModel then [] else swSlots c ++ epSlots c

/-! ### The code builds the slots -/

theorem foldl_ext_mem {α β : Type} (f g : β → α → β) : ∀ (l : List α) (b : β),
    (∀ a, a ∈ l → ∀ b, f b a = g b a) → l.foldl f b = l.foldl g b
  | [], _, _ => rfl
  | a :: l, b, h => by
    simp only [List.foldl_cons]
    rw [h a (by simp), foldl_ext_mem f g l _ (fun x hx => h x (by simp [hx]))]

theorem foldl_slots {α : Type} (me : Nat) (f : Bld → α → Bld) (g : α → List Slot) :
    ∀ (l : List α) (b : Bld), (∀ a, a ∈ l → ∀ b, f b a = (g a).foldl (slotStep me) b) →
      l.foldl f b = (l.flatMap g).foldl (slotStep me) b
  | [], _, _ => rfl
  | a :: l, b, h => by
    simp only [List.foldl_cons, List.flatMap_cons, List.foldl_append]
    rw [h a (by simp), foldl_slots me f g l _ (fun x hx => h x (by simp [hx]))]

theorem bld_ext {a b : Bld} (h1 : a.id = b.id) (h2 : a.acts = b.acts) : a = b := by
  cases a; cases b; simp_all

theorem peer_slots (c : Cfg) (me s : Nat) (p : Port) (b : Bld) (ranks : List Nat)
    (hr : ∀ r, r ∈ ranks → r ≠ me) :
    peerLoop c me s p b ranks =
      (ranks.flatMap fun r => (List.range c.nthread).map fun t =>
        (⟨.logpOut p.nid, ⟨r, t⟩, .nicLogp p.nid, c.home s, c.logpLat⟩ : Slot)).foldl
          (slotStep me) b := by
  unfold peerLoop
  apply foldl_slots
  intro r hrm b
  rw [List.foldl_map]
  apply foldl_ext_mem
  intro t _ b
  have hne := hr r hrm
  simp only [slotStep, Slot.acts, Cfg.home]
  rw [if_neg hne]
  by_cases h : c.rank s = me
  · simp [h, Bld.handler, Bld.skip]
  · simp [h, Bld.skip]

theorem node_slots (c : Cfg) (me s : Nat) (b : Bld) (p : Port) (hme : me < c.nproc) :
    logpNode c me s b p = (nodeSlots c s p).foldl (slotStep me) b := by
  have hsplit : List.range c.nproc =
      List.range me ++ (me :: List.range' (me + 1) (c.nproc - (me + 1))) := by
    have h1 : List.range c.nproc = List.range' 0 me ++ List.range' me (c.nproc - me) := by
      rw [List.range_eq_range']
      have := List.range'_append (s := 0) (m := me) (n := c.nproc - me) (step := 1)
      simp only [Nat.one_mul, Nat.zero_add] at this
      rw [this]; congr 1; omega
    rw [h1, List.range_eq_range']
    congr 1
    have : c.nproc - me = (c.nproc - (me + 1)) + 1 := by omega
    rw [this, List.range'_succ]
  unfold logpNode nodeSlots
  simp only [List.foldl_cons]
  rw [hsplit, List.flatMap_append, List.flatMap_cons, List.foldl_append, List.foldl_append,
    ← peer_slots c me s p _ (List.range me) (fun r hr => by have := List.mem_range.mp hr; omega),
    ← peer_slots c me s p _ (List.range' (me + 1) (c.nproc - (me + 1)))
      (fun r hr => by have := List.mem_range'_1.mp hr; omega)]
  congr 1
  rw [List.foldl_map]
  have h0 : (if c.rank s = me then
        b.link 0 (.nicLogp p.nid) (.localL (c.thread s) (.logpIn p.swPort)) else b.skip) =
      slotStep me b ⟨.nicLogp p.nid, c.home s, .logpIn p.swPort, c.home s, 0⟩ := by
    by_cases h : c.rank s = me
    · simp [h, slotStep, Slot.acts, Slot.kind, Cfg.home, Bld.link]
    · simp [h, slotStep, Slot.acts, Cfg.home, Bld.skip]
  rw [h0]
  apply foldl_ext_mem
  intro t _ b
  by_cases h : c.rank s = me
  · by_cases ht : t = c.thread s
    · simp [h, ht, slotStep, Slot.acts, Slot.kind, Cfg.home, Bld.link]
    · have ht' : ¬ c.thread s = t := fun e => ht e.symm
      simp [h, ht, ht', slotStep, Slot.acts, Slot.kind, Cfg.home, Bld.link]
  · have h' : ¬ me = c.rank s := fun e => h e.symm
    simp [h, h', slotStep, Slot.acts, Slot.kind, Cfg.home, Bld.link]

theorem conn_slots (c : Cfg) (me s : Nat) (b : Bld) (k : Conn) :
    switchConn c me s b k = (connSlots c s k).foldl (slotStep me) b := by
  unfold switchConn connSlots
  simp only [List.foldl_cons, List.foldl_nil]
  by_cases h1 : c.rank s = me <;> by_cases h2 : c.rank k.dst = me <;>
    by_cases h3 : c.thread k.dst = c.thread s <;>
    simp_all [slotStep, Slot.acts, Slot.kind, Cfg.home, Bld.link, Bld.skip, Bld.handler] <;>
    (try (have h3' : ¬ c.thread s = c.thread k.dst := fun e => h3 e.symm)) <;> (try simp_all) <;>
    (try (intro e; omega))

theorem inj_slots (c : Cfg) (me s : Nat) (b : Bld) (p : Port) :
    injPort c me s b p = (injSlots c s p).foldl (slotStep me) b := by
  unfold injPort injSlots
  by_cases h : c.rank s = me <;>
    simp [h, slotStep, Slot.acts, Slot.kind, Cfg.home, Bld.link]

theorem ej_slots (c : Cfg) (me s : Nat) (b : Bld) (p : Port) :
    ejPort c me s b p = (ejSlots c s p).foldl (slotStep me) b := by
  unfold ejPort ejSlots
  by_cases h : c.rank s = me <;>
    simp [h, slotStep, Slot.acts, Slot.kind, Cfg.home, Bld.link]

theorem build_slots (c : Cfg) (me : Nat) (hme : me < c.nproc) :
    build c me = (slots c).foldl (slotStep me) ⟨0, []⟩ := by
  have hL : connectLogP c me ⟨0, []⟩ = (logpSlots c).foldl (slotStep me) ⟨0, []⟩ := by
    unfold connectLogP logpSlots
    apply foldl_slots
    intro s _ b
    apply foldl_slots
    intro p _ b
    exact node_slots c me s b p hme
  unfold build slots
  rw [hL]
  cases c.logpModel with
  | true => simp
  | false =>
    simp only [Bool.false_eq_true, if_false, List.foldl_append]
    generalize (logpSlots c).foldl (slotStep me) ⟨0, []⟩ = b
    have hS : connectSwitches c me b = (swSlots c).foldl (slotStep me) b := by
      unfold connectSwitches swSlots
      apply foldl_slots
      intro s _ b
      apply foldl_slots
      intro k _ b
      exact conn_slots c me s b k
    rw [hS]
    unfold connectEndpoints epSlots
    apply foldl_slots
    intro s _ b
    rw [List.foldl_append]
    rw [foldl_slots me (injPort c me s) (injSlots c s) (c.inj s) b
      (fun p _ b => inj_slots c me s b p)]
    exact foldl_slots me (ejPort c me s) (ejSlots c s) (c.inj s) _
      (fun p _ b => ej_slots c me s b p)

/-! ### Reading the result of a fold over slots -/

theorem fold_id (me : Nat) : ∀ (l : List Slot) (b : Bld),
    (l.foldl (slotStep me) b).id = b.id + l.length
  | [], _ => rfl
  | s :: l, b => by
    rw [List.foldl_cons, fold_id me l]; simp only [slotStep, List.length_cons]; omega

theorem fold_mem (me : Nat) (a : Act) : ∀ (l : List Slot) (b : Bld),
    a ∈ (l.foldl (slotStep me) b).acts ↔
      a ∈ b.acts ∨ ∃ (i : Nat) (s : Slot), l[i]? = some s ∧ a ∈ s.acts me (b.id + i)
  | [], b => by simp
  | s :: l, b => by
    rw [List.foldl_cons, fold_mem me a l]
    simp only [slotStep, List.mem_append]
    constructor
    · rintro ((h | h) | ⟨i, s', h1, h2⟩)
      · exact .inl h
      · exact .inr ⟨0, s, by simp, by simpa using h⟩
      · exact .inr ⟨i + 1, s', by simpa using h1, by
          have : b.id + (i + 1) = b.id + 1 + i := by omega
          rw [this]; exact h2⟩
    · rintro (h | ⟨i, s', h1, h2⟩)
      · exact .inl (.inl h)
      · cases i with
        | zero => simp at h1; subst h1; exact .inl (.inr (by simpa using h2))
        | succ i => exact .inr ⟨i, s', by simpa using h1, by
            have : b.id + (i + 1) = b.id + 1 + i := by omega
            rw [← this]; exact h2⟩

/-- The step of `handlerAt`. -/
def hstep (thr id : Nat) (o : Option Recv) (a : Act) : Option Recv :=
  match a with
  | .handler t i to => if t = thr ∧ i = id then some to else o
  | .link _ _ _ _ => o

theorem handlerAt_eq (acts : List Act) (thr id : Nat) :
    handlerAt acts thr id = acts.foldl (hstep thr id) none := rfl

theorem hfold_ne (thr id : Nat) : ∀ (acts : List Act) (o : Option Recv),
    (∀ t to, Act.handler t id to ∉ acts) → acts.foldl (hstep thr id) o = o
  | [], _, _ => rfl
  | a :: l, o, h => by
    rw [List.foldl_cons]
    have hl := fun o => hfold_ne thr id l o (fun t to hm => h t to (by simp [hm]))
    cases a with
    | link => rw [hl]; rfl
    | handler t i to =>
      rw [hl]
      simp only [hstep]
      rw [if_neg]
      rintro ⟨_, rfl⟩
      exact h t to (by simp)

theorem hfold_mem (thr id : Nat) (to : Recv) : ∀ (acts : List Act) (o : Option Recv),
    Act.handler thr id to ∈ acts → (∀ t to', Act.handler t id to' ∈ acts → to' = to) →
      acts.foldl (hstep thr id) o = some to
  | [], _, h, _ => by simp at h
  | a :: l, o, h, hu => by
    rw [List.foldl_cons]
    by_cases hl : Act.handler thr id to ∈ l
    · exact hfold_mem thr id to l _ hl (fun t to' hm => hu t to' (by simp [hm]))
    · have ha : a = Act.handler thr id to := by
        rcases List.mem_cons.mp h with e | e
        · exact e.symm
        · exact absurd e hl
      subst ha
      simp only [hstep, and_self, if_true]
      clear h
      -- later registrations of the same number register the same handler
      have key : ∀ (l : List Act), (∀ t to', Act.handler t id to' ∈ l → to' = to) →
          l.foldl (hstep thr id) (some to) = some to := by
        intro l
        induction l with
        | nil => intro _; rfl
        | cons a l ih =>
          intro hu
          rw [List.foldl_cons]
          have : hstep thr id (some to) a = some to := by
            cases a with
            | link => rfl
            | handler t i to' =>
              simp only [hstep]
              split
              · next e => rw [hu t to' (by simp [e.2])]
              · rfl
          rw [this]
          exact ih (fun t to' hm => hu t to' (by simp [hm]))
      exact key l (fun t to' hm => hu t to' (by simp [hm]))

theorem build_mem (c : Cfg) (me : Nat) (hme : me < c.nproc) (a : Act) :
    a ∈ (build c me).acts ↔ ∃ (i : Nat) (s : Slot), (slots c)[i]? = some s ∧ a ∈ s.acts me i := by
  rw [build_slots c me hme, fold_mem]
  simp

theorem link_mem (c : Cfg) (me : Nat) (hme : me < c.nproc) (id lat : Nat) (f : Sender) (k : Kind) :
    Act.link id lat f k ∈ (build c me).acts ↔
      ∃ (s : Slot), (slots c)[id]? = some s ∧ s.sw.rank = me ∧ s.lat = lat ∧ s.sender = f ∧
        s.kind = k := by
  rw [build_mem c me hme]
  constructor
  · rintro ⟨i, s, h1, h2⟩
    simp only [Slot.acts] at h2
    split at h2
    · next h =>
      simp at h2
      obtain ⟨rfl, rfl, rfl, rfl⟩ := h2
      exact ⟨s, h1, h, rfl, rfl, rfl⟩
    · split at h2 <;> simp at h2
  · rintro ⟨s, h1, h2, rfl, rfl, rfl⟩
    exact ⟨id, s, h1, by simp [Slot.acts, h2]⟩

theorem handler_mem (c : Cfg) (me : Nat) (hme : me < c.nproc) (thr id : Nat) (to : Recv) :
    Act.handler thr id to ∈ (build c me).acts ↔
      ∃ (s : Slot), (slots c)[id]? = some s ∧ s.sw.rank ≠ me ∧ s.rw = ⟨me, thr⟩ ∧ s.recv = to := by
  rw [build_mem c me hme]
  constructor
  · rintro ⟨i, s, h1, h2⟩
    simp only [Slot.acts] at h2
    split at h2
    · simp at h2
    · next h =>
      split at h2
      · next h' =>
        simp at h2
        obtain ⟨rfl, rfl, rfl⟩ := h2
        exact ⟨s, h1, h, by rw [← h'], rfl⟩
      · simp at h2
  · rintro ⟨s, h1, h2, h3, rfl⟩
    exact ⟨id, s, h1, by simp [Slot.acts, h2, h3]⟩

theorem handlerAt_slot (c : Cfg) (s : Slot) (id : Nat) (h : (slots c)[id]? = some s)
    (hne : s.sw.rank ≠ s.rw.rank) (hr : s.rw.rank < c.nproc) :
    handlerAt (build c s.rw.rank).acts s.rw.thread id = some s.recv := by
  rw [handlerAt_eq]
  apply hfold_mem
  · rw [handler_mem c _ hr]
    exact ⟨s, h, hne, rfl, rfl⟩
  · intro t to' hm
    rw [handler_mem c _ hr] at hm
    obtain ⟨s', h1, _, _, h4⟩ := hm
    rw [h] at h1
    simp at h1
    rw [← h4, h1]

theorem handlerAt_none (c : Cfg) (me thr id : Nat) (hme : me < c.nproc)
    (h : ∀ (s : Slot), (slots c)[id]? = some s → s.sw.rank = me ∨ s.rw ≠ ⟨me, thr⟩) :
    handlerAt (build c me).acts thr id = none := by
  rw [handlerAt_eq]
  suffices ∀ (acts : List Act) (o : Option Recv), (∀ to, Act.handler thr id to ∉ acts) →
      acts.foldl (hstep thr id) o = o by
    apply this
    intro to hm
    rw [handler_mem c _ hme] at hm
    obtain ⟨s, h1, h2, h3, _⟩ := hm
    rcases h s h1 with h | h
    · exact h2 h
    · exact h h3
  intro acts
  induction acts with
  | nil => intros; rfl
  | cons a l ih =>
    intro o h
    rw [List.foldl_cons, ih _ (fun to hm => h to (by simp [hm]))]
    cases a with
    | link => rfl
    | handler t i to =>
      simp only [hstep]
      rw [if_neg]
      rintro ⟨rfl, rfl⟩
      exact h to (by simp)

/-- The slots are exactly the required wires. -/
theorem slot_wire (c : Cfg) (f : Sender) (wf : Worker) (t : Recv) (wt : Worker) (lat : Nat) :
    (⟨f, wf, t, wt, lat⟩ : Slot) ∈ slots c ↔ Wire c f wf t wt lat := by
  constructor
  · intro h
    simp only [slots, List.mem_append, logpSlots, List.mem_flatMap, List.mem_range] at h
    rcases h with ⟨s, hs, p, hp, h⟩ | h
    · simp only [nodeSlots, List.mem_cons, List.mem_flatMap, List.mem_map, List.mem_range] at h
      rcases h with h | ⟨r, hr, t', ht', h⟩
      · simp at h
        obtain ⟨rfl, rfl, rfl, rfl, rfl⟩ := h
        exact .toLogp hs hp
      · simp at h
        obtain ⟨rfl, rfl, rfl, rfl, rfl⟩ := h
        exact .fromLogp (w := ⟨r, t'⟩) hs hp hr ht'
    · cases hm : c.logpModel with
      | true => simp [hm] at h
      | false =>
        simp only [hm, Bool.false_eq_true, if_false, List.mem_append, swSlots, epSlots,
          List.mem_flatMap, List.mem_range] at h
        rcases h with ⟨s, hs, k, hk, h⟩ | ⟨s, hs, ⟨p, hp, h⟩ | ⟨p, hp, h⟩⟩
        · simp [connSlots] at h
          rcases h with ⟨rfl, rfl, rfl, rfl, rfl⟩ | ⟨rfl, rfl, rfl, rfl, rfl⟩
          · exact .payload hm hs hk
          · exact .credit hm hs hk
        · simp [injSlots] at h
          rcases h with ⟨rfl, rfl, rfl, rfl, rfl⟩ | ⟨rfl, rfl, rfl, rfl, rfl⟩
          · exact .injectCredit hm hs hp
          · exact .inject hm hs hp
        · simp [ejSlots] at h
          rcases h with ⟨rfl, rfl, rfl, rfl, rfl⟩ | ⟨rfl, rfl, rfl, rfl, rfl⟩
          · exact .eject hm hs hp
          · exact .ejectCredit hm hs hp
  · intro h
    cases h with
    | toLogp hs hp =>
      refine List.mem_append_left _ (List.mem_flatMap.mpr ⟨_, List.mem_range.mpr hs,
        List.mem_flatMap.mpr ⟨_, hp, by simp [nodeSlots]⟩⟩)
    | fromLogp hs hp hr ht =>
      refine List.mem_append_left _ (List.mem_flatMap.mpr ⟨_, List.mem_range.mpr hs,
        List.mem_flatMap.mpr ⟨_, hp, ?_⟩⟩)
      refine List.mem_cons_of_mem _ (List.mem_flatMap.mpr ⟨_, List.mem_range.mpr hr,
        List.mem_map.mpr ⟨_, List.mem_range.mpr ht, rfl⟩⟩)
    | payload hm hs hk =>
      refine List.mem_append_right _ ?_
      rw [hm]
      exact List.mem_append_left _ (List.mem_flatMap.mpr ⟨_, List.mem_range.mpr hs,
        List.mem_flatMap.mpr ⟨_, hk, by simp [connSlots]⟩⟩)
    | credit hm hs hk =>
      refine List.mem_append_right _ ?_
      rw [hm]
      exact List.mem_append_left _ (List.mem_flatMap.mpr ⟨_, List.mem_range.mpr hs,
        List.mem_flatMap.mpr ⟨_, hk, by simp [connSlots]⟩⟩)
    | inject hm hs hp =>
      refine List.mem_append_right _ ?_
      rw [hm]
      exact List.mem_append_right _ (List.mem_flatMap.mpr ⟨_, List.mem_range.mpr hs,
        List.mem_append_left _ (List.mem_flatMap.mpr ⟨_, hp, by simp [injSlots]⟩)⟩)
    | injectCredit hm hs hp =>
      refine List.mem_append_right _ ?_
      rw [hm]
      exact List.mem_append_right _ (List.mem_flatMap.mpr ⟨_, List.mem_range.mpr hs,
        List.mem_append_left _ (List.mem_flatMap.mpr ⟨_, hp, by simp [injSlots]⟩)⟩)
    | eject hm hs hp =>
      refine List.mem_append_right _ ?_
      rw [hm]
      exact List.mem_append_right _ (List.mem_flatMap.mpr ⟨_, List.mem_range.mpr hs,
        List.mem_append_right _ (List.mem_flatMap.mpr ⟨_, hp, by simp [ejSlots]⟩)⟩)
    | ejectCredit hm hs hp =>
      refine List.mem_append_right _ ?_
      rw [hm]
      exact List.mem_append_right _ (List.mem_flatMap.mpr ⟨_, List.mem_range.mpr hs,
        List.mem_append_right _ (List.mem_flatMap.mpr ⟨_, hp, by simp [ejSlots]⟩)⟩)

/-- Both ends of a wire are on existing workers. -/
theorem wire_workers {c : Cfg} (ok : c.Ok) {f : Sender} {wf wt : Worker} {t : Recv} {lat : Nat}
    (h : Wire c f wf t wt lat) : wf.rank < c.nproc ∧ wt.rank < c.nproc := by
  cases h with
  | toLogp hs hp => exact ⟨ok.rank_lt _ hs, ok.rank_lt _ hs⟩
  | fromLogp hs hp hr ht => exact ⟨hr, ok.rank_lt _ hs⟩
  | payload hm hs hk => exact ⟨ok.rank_lt _ hs, ok.rank_lt _ (ok.dst_lt _ _ hs hk)⟩
  | credit hm hs hk => exact ⟨ok.rank_lt _ (ok.dst_lt _ _ hs hk), ok.rank_lt _ hs⟩
  | inject hm hs hp => exact ⟨ok.rank_lt _ hs, ok.rank_lt _ hs⟩
  | injectCredit hm hs hp => exact ⟨ok.rank_lt _ hs, ok.rank_lt _ hs⟩
  | eject hm hs hp => exact ⟨ok.rank_lt _ hs, ok.rank_lt _ hs⟩
  | ejectCredit hm hs hp => exact ⟨ok.rank_lt _ hs, ok.rank_lt _ hs⟩

end SST.Parallel.Links
