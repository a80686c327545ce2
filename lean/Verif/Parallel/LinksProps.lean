import Verif.Parallel.LinksLemmas
import Verif.Parallel.Props
set_option autoImplicit false
/-
C106: the wiring of a machine spread over processes and threads.
-/
namespace SST.Parallel.Links
open SST.Parallel

/-- The example machine: three switches in a row, a node on the first and on the last, two
processes of two threads. -/
def demo : Cfg where
  nproc := 2
  nthread := 2
  nsw := 3
  rank := fun s => s / 2
  thread := fun s => s % 2
  inj := fun s => if s = 0 then [⟨0, 5, 0⟩] else if s = 2 then [⟨1, 5, 0⟩] else []
  out := fun s => if s = 0 then [⟨0, 1, 0⟩] else if s = 1 then [⟨0, 0, 0⟩, ⟨1, 2, 0⟩]
    else if s = 2 then [⟨0, 1, 1⟩] else []
  logpModel := false
  logpLat := 9
  linkLat := 4
  injLat := 3
  ejLat := 1

theorem demo_ok : demo.Ok where
  rank_lt := by intro s hs; show s / 2 < 2; have : s < 3 := hs; omega
  thread_lt := by intro s hs; show s % 2 < 2; omega
  dst_lt := by
    intro s k hs hk
    have hs' : s < 3 := hs
    have : s = 0 ∨ s = 1 ∨ s = 2 := by omega
    show k.dst < 3
    rcases this with rfl | rfl | rfl <;> simp [demo] at hk
    · subst hk; decide
    · rcases hk with rfl | rfl <;> decide
    · subst hk; decide

/-- C106: all processes agree on the number of links, and every number used is below it. -/
theorem C106_numbering (c : Cfg) (me me' : Nat) (h : me < c.nproc) (h' : me' < c.nproc) :
    (build c me).id = (build c me').id ∧
      (∀ id lat f k, Act.link id lat f k ∈ (build c me).acts → id < (build c me').id) ∧
      (∀ thr id to, Act.handler thr id to ∈ (build c me).acts → id < (build c me').id) := by
  have e : ∀ m, m < c.nproc → (build c m).id = (slots c).length := by
    intro m hm
    rw [build_slots c m hm, fold_id]; simp
  refine ⟨by rw [e me h, e me' h'], ?_, ?_⟩
  · intro id lat f k hm
    rw [link_mem c me h] at hm
    obtain ⟨s, hs, _⟩ := hm
    rw [e me' h']
    exact (List.getElem?_eq_some_iff.mp hs).1
  · intro thr id to hm
    rw [handler_mem c me h] at hm
    obtain ⟨s, hs, _⟩ := hm
    rw [e me' h']
    exact (List.getElem?_eq_some_iff.mp hs).1

example : (build demo 0).id = 26 ∧ (build demo 1).id = 26 := by decide

/-- C106: every link a process builds is one the machine must have, is plugged in and timed
on the worker of its sending side, and an event sent over it reaches the receiving
component's handler on the receiving component's worker. -/
theorem C106_delivery (c : Cfg) (ok : c.Ok) (me id lat : Nat) (hme : me < c.nproc) (f : Sender)
    (k : Kind) (h : Act.link id lat f k ∈ (build c me).acts) :
    ∃ t wt, Wire c f ⟨me, k.sendThread⟩ t wt lat ∧ delivered c me id k = some (wt, t) := by
  rw [link_mem c me hme] at h
  obtain ⟨s, hs, hr, rfl, rfl, rfl⟩ := h
  have hw := (slot_wire c s.sender s.sw s.recv s.rw s.lat).mp (List.mem_of_getElem? hs)
  have hrw := (wire_workers ok hw).2
  refine ⟨s.recv, s.rw, ?_, ?_⟩
  · have : (⟨me, s.kind.sendThread⟩ : Worker) = s.sw := by
      rw [← hr]
      simp only [Slot.kind]
      split
      · rfl
      · split <;> rfl
    rw [this]; exact hw
  · simp only [Slot.kind]
    split
    · next e => simp only [delivered]; rw [e, ← hr]
    · split
      · next e => simp only [delivered]; rw [← hr, ← e]
      · next e =>
        simp only [delivered]
        rw [handlerAt_slot c s id hs (fun h => e h.symm) hrw]
        rfl

/-- C106: every link the machine must have is built, by the process of its sending side. -/
theorem C106_complete (c : Cfg) (ok : c.Ok) (f : Sender) (wf wt : Worker) (t : Recv) (lat : Nat)
    (h : Wire c f wf t wt lat) :
    ∃ id k, Act.link id lat f k ∈ (build c wf.rank).acts ∧ k.sendThread = wf.thread ∧
      delivered c wf.rank id k = some (wt, t) := by
  have hm := (slot_wire c f wf t wt lat).mpr h
  obtain ⟨i, hi⟩ := List.mem_iff_getElem?.mp hm
  have hw := wire_workers ok h
  refine ⟨i, (⟨f, wf, t, wt, lat⟩ : Slot).kind, ?_, ?_, ?_⟩
  · rw [link_mem c _ hw.1]
    exact ⟨_, hi, rfl, rfl, rfl, rfl⟩
  · simp only [Slot.kind]
    split
    · rfl
    · split <;> rfl
  · simp only [Slot.kind]
    split
    · next e => simp only [delivered]; rw [e]
    · split
      · next e => simp only [delivered]; rw [← e]
      · next e =>
        simp only [delivered]
        have := handlerAt_slot c _ i hi (fun h => e h.symm) hw.2
        simp only at this
        rw [this]; rfl

example : Wire demo (.switchOut 1 1) ⟨0, 1⟩ (.switchPayload 2 0) ⟨1, 0⟩ 4 ∧
    Act.link 14 4 (.switchOut 1 1) (.ipc 1 1 0) ∈ (build demo 0).acts ∧
    delivered demo 0 14 (.ipc 1 1 0) = some (⟨1, 0⟩, .switchPayload 2 0) :=
  ⟨.payload (c := demo) (s := 1) (k := ⟨1, 2, 0⟩) rfl (by decide) (by decide), by decide, by decide⟩

/-- C106: no two links of the machine, on the same process or on different ones, have the
same number. -/
theorem C106_unique (c : Cfg) (me me' id lat lat' : Nat) (hme : me < c.nproc) (hme' : me' < c.nproc)
    (f f' : Sender) (k k' : Kind) (h : Act.link id lat f k ∈ (build c me).acts)
    (h' : Act.link id lat' f' k' ∈ (build c me').acts) :
    me = me' ∧ lat = lat' ∧ f = f' ∧ k = k' := by
  rw [link_mem c me hme] at h
  rw [link_mem c me' hme'] at h'
  obtain ⟨s, hs, rfl, rfl, rfl, rfl⟩ := h
  obtain ⟨s', hs', rfl, rfl, rfl, rfl⟩ := h'
  rw [hs] at hs'
  cases hs'
  exact ⟨rfl, rfl, rfl, rfl⟩

/-- C106: the link class fits: an event goes straight into the sender's own queue exactly
when both sides are on the same worker, between threads exactly when they are on different
threads of one process, and through a message exactly when they are on different processes. -/
theorem C106_kind (c : Cfg) (ok : c.Ok) (me id lat : Nat) (hme : me < c.nproc) (f : Sender) (k : Kind)
    (h : Act.link id lat f k ∈ (build c me).acts) (t : Recv) (wt : Worker)
    (hd : delivered c me id k = some (wt, t)) :
    ((∃ a b, k = .localL a b) ↔ wt = ⟨me, k.sendThread⟩) ∧
    ((∃ a b r, k = .mt a b r) ↔ wt.rank = me ∧ wt.thread ≠ k.sendThread) ∧
    ((∃ a b d, k = .ipc a b d) ↔ wt.rank ≠ me) := by
  rw [link_mem c me hme] at h
  obtain ⟨s, hs, rfl, rfl, rfl, rfl⟩ := h
  have hw := (slot_wire c s.sender s.sw s.recv s.rw s.lat).mp (List.mem_of_getElem? hs)
  have hrw := (wire_workers ok hw).2
  have hwt : wt = s.rw := by
    revert hd
    simp only [Slot.kind]
    split
    · next e => simp only [delivered]; intro hd; cases hd; rw [e]
    · split
      · next e => simp only [delivered]; intro hd; cases hd; rw [← e]
      · next e =>
        simp only [delivered]
        rw [handlerAt_slot c s id hs (fun h => e h.symm) hrw]
        intro hd; cases hd; rfl
  subst hwt
  simp only [Slot.kind]
  by_cases h1 : s.rw = s.sw
  · rw [if_pos h1]
    simp only [Kind.sendThread]
    refine ⟨⟨fun _ => by rw [h1], fun _ => ⟨_, _, rfl⟩⟩, ⟨?_, ?_⟩, ⟨?_, ?_⟩⟩
    · rintro ⟨_, _, _, h⟩; cases h
    · rintro ⟨_, h⟩; exact absurd (by rw [h1]) h
    · rintro ⟨_, _, _, h⟩; cases h
    · intro h; exact absurd (by rw [h1]) h
  · rw [if_neg h1]
    by_cases h2 : s.rw.rank = s.sw.rank
    · rw [if_pos h2]
      simp only [Kind.sendThread]
      have hne : s.rw.thread ≠ s.sw.thread := by
        intro h; apply h1
        calc s.rw = ⟨s.rw.rank, s.rw.thread⟩ := rfl
          _ = ⟨s.sw.rank, s.sw.thread⟩ := by rw [h2, h]
      refine ⟨⟨?_, ?_⟩, ⟨fun _ => ⟨h2, hne⟩, fun _ => ⟨_, _, _, rfl⟩⟩, ⟨?_, ?_⟩⟩
      · rintro ⟨_, _, h⟩; cases h
      · intro h; exact absurd h h1
      · rintro ⟨_, _, _, h⟩; cases h
      · intro h; exact absurd h2 h
    · rw [if_neg h2]
      refine ⟨⟨?_, ?_⟩, ⟨?_, ?_⟩, ⟨fun _ => h2, fun _ => ⟨_, _, _, rfl⟩⟩⟩
      · rintro ⟨_, _, h⟩; cases h
      · intro h; exact absurd h h1
      · rintro ⟨_, _, _, h⟩; cases h
      · rintro ⟨h, _⟩; exact absurd h h2

/-- C106: a handler registered for incoming messages is the far end of a link that another
process built, with this process and thread as its destination. -/
theorem C106_handlers (c : Cfg) (ok : c.Ok) (me thr id : Nat) (hme : me < c.nproc) (to : Recv)
    (h : Act.handler thr id to ∈ (build c me).acts) :
    ∃ me' lat f t, me' ≠ me ∧ me' < c.nproc ∧
      Act.link id lat f (.ipc t me thr) ∈ (build c me').acts ∧
      Wire c f ⟨me', t⟩ to ⟨me, thr⟩ lat := by
  rw [handler_mem c me hme] at h
  obtain ⟨s, hs, hne, hrw, rfl⟩ := h
  have hw := (slot_wire c s.sender s.sw s.recv s.rw s.lat).mp (List.mem_of_getElem? hs)
  refine ⟨s.sw.rank, s.lat, s.sender, s.sw.thread, hne, (wire_workers ok hw).1, ?_, ?_⟩
  · rw [link_mem c _ (wire_workers ok hw).1]
    refine ⟨s, hs, rfl, rfl, rfl, ?_⟩
    have h2 : ¬ s.rw.rank = s.sw.rank := by rw [hrw]; exact fun h => hne h.symm
    have h1 : ¬ s.rw = s.sw := fun h => h2 (by rw [h])
    simp only [Slot.kind]
    rw [if_neg h1, if_neg h2, hrw]
  · rw [← hrw]; exact hw

example : Act.handler 0 14 (.switchPayload 2 0) ∈ (build demo 1).acts ∧
    handlerAt (build demo 1).acts 0 14 = some (.switchPayload 2 0) ∧
    handlerAt (build demo 1).acts 1 14 = none := by decide

/-- C106: if every process accepts the configuration, the lookahead they run with is the
same, is not zero, and is at most the latency of every link between two workers. -/
theorem C106_lookahead (c : Cfg) (ok : c.Ok) (L : Nat → Nat)
    (h : ∀ me, me < c.nproc → (construct c me).bind startLookahead = some (L me)) :
    (∀ me me', me < c.nproc → me' < c.nproc → L me = L me' ∧ 0 < L me) ∧
    ∀ f wf t wt lat, Wire c f wf t wt lat → wf ≠ wt →
      ∀ me, me < c.nproc → L me ≤ lat := by
  have key : ∀ me, me < c.nproc → 0 < L me ∧ L me = lookahead c ∧
      (∀ x ∈ ipcLats (build c me).acts, L me ≤ x) ∧
      (∀ x ∈ mtLats (build c me).acts, L me ≤ x) := by
    intro me hme
    have := h me hme
    unfold construct at this
    split at this
    · next r t hr ht => exact C09_lookahead_valid _ _ _ r t (L me) hr ht this
    · simp at this
  refine ⟨fun me me' h1 h2 => ⟨by rw [(key me h1).2.1, (key me' h2).2.1], (key me h1).1⟩, ?_⟩
  intro f wf t wt lat hw hne me hme
  have hr := (wire_workers ok hw).1
  have e : L me = L wf.rank := by rw [(key me hme).2.1, (key _ hr).2.1]
  rw [e]
  have hm := (slot_wire c f wf t wt lat).mpr hw
  obtain ⟨i, hi⟩ := List.mem_iff_getElem?.mp hm
  have hl : Act.link i lat f (⟨f, wf, t, wt, lat⟩ : Slot).kind ∈ (build c wf.rank).acts := by
    rw [link_mem c _ hr]; exact ⟨_, hi, rfl, rfl, rfl, rfl⟩
  simp only [Slot.kind] at hl
  rw [if_neg (fun e => hne e.symm)] at hl
  split at hl
  · exact (key _ hr).2.2.2 lat (List.mem_filterMap.mpr ⟨_, hl, rfl⟩)
  · exact (key _ hr).2.2.1 lat (List.mem_filterMap.mpr ⟨_, hl, rfl⟩)

example : ∀ me, me < demo.nproc → (construct demo me).bind startLookahead = some 3 := by decide

/-- C106: a machine whose LogP network is faster than its links and its injection runs in
one worker but is refused as soon as it is split over two processes that both exist in the
partition with nodes: the lookahead is computed without the LogP links and then checked
against them. -/
theorem C106_fast_logp_refused (c : Cfg) (ok : c.Ok) (hm : c.logpModel = false)
    (hlt : c.logpLat < min c.injLat c.linkLat) (s me : Nat) (p : Port) (hs : s < c.nsw)
    (hp : p ∈ c.inj s) (hme : me < c.nproc) (ht : 0 < c.nthread) (hne : c.rank s ≠ me) :
    construct c me = none := by
  cases hb : (construct c me).bind startLookahead with
  | none =>
    cases hc : construct c me with
    | none => rfl
    | some L =>
      exfalso
      have hL : L = lookahead c := by
        unfold construct at hc
        split at hc
        · unfold checkLookahead at hc
          simp only at hc
          (repeat' split at hc) <;> simp_all
        · cases hc
      rw [hc] at hb
      simp only [Option.bind_some, startLookahead] at hb
      split at hb
      · next h0 => rw [hL] at h0; simp [lookahead, hm] at h0; omega
      · cases hb
  | some L =>
    exfalso
    have hk : 0 < L ∧ L = lookahead c ∧ (∀ x ∈ ipcLats (build c me).acts, L ≤ x) := by
      unfold construct at hb
      split at hb
      · next r t hr htt =>
        have := C09_lookahead_valid _ _ _ r t L hr htt hb
        exact ⟨this.1, this.2.1, this.2.2.1⟩
      · simp at hb
    have hw : Wire c (.logpOut p.nid) ⟨me, 0⟩ (.nicLogp p.nid) (c.home s) c.logpLat :=
      .fromLogp (w := ⟨me, 0⟩) hs hp hme ht
    obtain ⟨id, k, h1, h2, h3⟩ := C106_complete c ok _ _ _ _ _ hw
    have hk3 := ((C106_kind c ok me id _ hme _ k h1 _ _ h3).2.2).mpr hne
    obtain ⟨a, b, d, rfl⟩ := hk3
    have := hk.2.2 c.logpLat (List.mem_filterMap.mpr ⟨_, h1, rfl⟩)
    rw [hk.2.1] at this
    simp [lookahead, hm] at this
    omega

example : construct { demo with logpLat := 2 } 0 = none ∧
    construct { demo with logpLat := 2, nproc := 1, nthread := 1, rank := fun _ => 0, thread := fun _ => 0 } 0 = some 3 := by
  decide

/-! ### Splitting the machine differently -/

/-- All senders in the order of the link numbers, LogP outputs left out, do not depend on
the partition. -/
def senders (c : Cfg) : List Sender := (slots c).map Slot.sender

/-- Everything but the outputs of the LogP switches. -/
def keep : Sender → Bool
  | .logpOut _ => false
  | _ => true

theorem senders_repart {c c' : Cfg} (h : Repartitioned c c') :
    (senders c').filter keep = (senders c).filter keep := by
  obtain ⟨h1, h2, h3, h4⟩ := h
  have node : ∀ (d : Cfg) (s : Nat) (p : Port),
      ((nodeSlots d s p).map Slot.sender).filter keep = [.nicLogp p.nid] := by
    intro d s p
    simp only [nodeSlots, List.map_cons, List.filter_cons, keep, if_true]
    congr 1
    rw [List.filter_eq_nil_iff]
    intro x hx
    rw [List.map_flatMap] at hx
    obtain ⟨r, _, hx⟩ := List.mem_flatMap.mp hx
    simp at hx
    obtain ⟨a, _, rfl⟩ := hx
    simp [keep]
  have logp : ∀ (d : Cfg), ((logpSlots d).map Slot.sender).filter keep =
      (List.range d.nsw).flatMap fun s => (d.inj s).flatMap fun p => [.nicLogp p.nid] := by
    intro d
    simp only [logpSlots, List.map_flatMap, List.filter_flatMap, node]
  have sw : (swSlots c').map Slot.sender = (swSlots c).map Slot.sender := by
    simp [swSlots, List.map_flatMap, connSlots, h1, h3]
  have ep : (epSlots c').map Slot.sender = (epSlots c).map Slot.sender := by
    simp [epSlots, List.map_flatMap, List.map_append, injSlots, ejSlots, h1, h2]
  simp only [senders, slots, List.map_append, List.filter_append, logp, h1, h2, h4]
  congr 1
  cases c.logpModel with
  | true => rfl
  | false => simp only [Bool.false_eq_true, if_false, List.map_append, sw, ep]

theorem pair_of_index {α : Type} : ∀ (l : List α) (i j : Nat) (a b : α), i < j → l[i]? = some a →
    l[j]? = some b → [a, b].Sublist l
  | [], _, _, _, _, _, h, _ => by simp at h
  | x :: l, 0, j + 1, a, b, _, hi, hj => by
    simp at hi hj; subst hi
    exact List.Sublist.cons_cons _ (List.singleton_sublist.mpr (List.mem_of_getElem? hj))
  | x :: l, i + 1, j + 1, a, b, h, hi, hj => by
    simp at hi hj
    exact List.Sublist.cons _ (pair_of_index l i j a b (by omega) hi hj)

theorem index_of_pair {α : Type} : ∀ (l : List α) (a b : α), [a, b].Sublist l →
    ∃ i j : Nat, i < j ∧ l[i]? = some a ∧ l[j]? = some b
  | [], _, _, h => by cases h
  | x :: l, a, b, h => by
    cases h with
    | cons _ h =>
      obtain ⟨i, j, h1, h2, h3⟩ := index_of_pair l a b h
      exact ⟨i + 1, j + 1, by omega, by simpa using h2, by simpa using h3⟩
    | cons_cons _ h =>
      obtain ⟨j, hj⟩ := List.mem_iff_getElem?.mp (List.singleton_sublist.mp h)
      exact ⟨0, j + 1, by omega, by simp, by simpa using hj⟩

/-- The machine plugs one link into place `f`. -/
def Once (c : Cfg) (f : Sender) : Prop :=
  ∀ me me' id id' lat lat' k k', me < c.nproc → me' < c.nproc →
    Act.link id lat f k ∈ (build c me).acts → Act.link id' lat' f k' ∈ (build c me').acts → id = id'

theorem once_of_count (c : Cfg) (f : Sender) (h : (senders c).count f ≤ 1) : Once c f := by
  intro me me' id id' lat lat' k k' hme hme' h1 h2
  rw [link_mem c _ hme] at h1
  rw [link_mem c _ hme'] at h2
  obtain ⟨s1, e1, _, _, f1, _⟩ := h1
  obtain ⟨s2, e2, _, _, f2, _⟩ := h2
  have g1 : (senders c)[id]? = some f := by simp [senders, e1, f1]
  have g2 : (senders c)[id']? = some f := by simp [senders, e2, f2]
  have two : ¬ [f, f].Sublist (senders c) := by
    intro hs
    have := hs.count_le f
    simp at this
    omega
  rcases Nat.lt_trichotomy id id' with hlt | he | hlt
  · exact absurd (pair_of_index _ _ _ _ _ hlt g1 g2) two
  · exact he
  · exact absurd (pair_of_index _ _ _ _ _ hlt g2 g1) two

/-- C106: splitting the same machine differently does not change which of two links has the
smaller number (and so which of two events that arrive at the same instant is handled
first), unless one of them is the output of a LogP switch. -/
theorem C106_order_partial (c c' : Cfg) (ok' : c'.Ok) (hre : Repartitioned c c') (f g : Sender)
    (hf : ∀ n, f ≠ .logpOut n) (hg : ∀ n, g ≠ .logpOut n) (of : Once c' f) (og : Once c' g)
    (r1 r2 i j l1 l2 : Nat) (k1 k2 : Kind) (hr1 : r1 < c.nproc) (hr2 : r2 < c.nproc)
    (h1 : Act.link i l1 f k1 ∈ (build c r1).acts) (h2 : Act.link j l2 g k2 ∈ (build c r2).acts)
    (r1' r2' i' j' l1' l2' : Nat) (k1' k2' : Kind) (hr1' : r1' < c'.nproc) (hr2' : r2' < c'.nproc)
    (h1' : Act.link i' l1' f k1' ∈ (build c' r1').acts)
    (h2' : Act.link j' l2' g k2' ∈ (build c' r2').acts) (hij : i < j) : i' < j' := by
  rw [link_mem c _ hr1] at h1
  rw [link_mem c _ hr2] at h2
  obtain ⟨s1, e1, _, _, rfl, _⟩ := h1
  obtain ⟨s2, e2, _, _, rfl, _⟩ := h2
  have hs : [s1.sender, s2.sender].Sublist (senders c) := by
    apply pair_of_index _ i j _ _ hij <;> simp [senders, e1, e2]
  have kf : keep s1.sender = true := by
    cases h : s1.sender <;> simp [keep]
    exact hf _ h
  have kg : keep s2.sender = true := by
    cases h : s2.sender <;> simp [keep]
    exact hg _ h
  have hs' := hs.filter keep
  rw [show [s1.sender, s2.sender].filter keep = [s1.sender, s2.sender] by simp [kf, kg],
    ← senders_repart hre] at hs'
  obtain ⟨a, b, hab, ha, hb⟩ := index_of_pair _ _ _ (hs'.trans List.filter_sublist)
  have link_of : ∀ (n : Nat) (f : Sender), (senders c')[n]? = some f →
      ∃ me lat k, me < c'.nproc ∧ Act.link n lat f k ∈ (build c' me).acts := by
    intro n f hn
    simp only [senders, List.getElem?_map, Option.map_eq_some_iff] at hn
    obtain ⟨s, hs, rfl⟩ := hn
    have hw := wire_workers ok' ((slot_wire c' s.sender s.sw s.recv s.rw s.lat).mp (List.mem_of_getElem? hs))
    exact ⟨s.sw.rank, s.lat, s.kind, hw.1, by rw [link_mem c' _ hw.1]; exact ⟨s, hs, rfl, rfl, rfl, rfl⟩⟩
  obtain ⟨m1, la1, ka1, hm1, hl1⟩ := link_of a _ ha
  obtain ⟨m2, la2, ka2, hm2, hl2⟩ := link_of b _ hb
  have ea := of _ _ _ _ _ _ _ _ hr1' hm1 h1' hl1
  have eb := og _ _ _ _ _ _ _ _ hr2' hm2 h2' hl2
  omega

/-- `demo` on one worker. -/
def demoSerial : Cfg := { demo with nproc := 1, nthread := 1, rank := fun _ => 0, thread := fun _ => 0 }

example : Repartitioned demoSerial demo ∧ demo.Ok ∧ Once demo (.switchOut 1 1) ∧
    Once demo (.switchOut 1 0) ∧
    Act.link 6 4 (.switchOut 1 0) (.localL 0 (.switchPayload 0 0)) ∈ (build demoSerial 0).acts ∧
    Act.link 12 4 (.switchOut 1 0) (.mt 1 0 (.switchPayload 0 0)) ∈ (build demo 0).acts ∧
    Act.link 8 4 (.switchOut 1 1) (.localL 0 (.switchPayload 2 0)) ∈ (build demoSerial 0).acts ∧
    Act.link 14 4 (.switchOut 1 1) (.ipc 1 1 0) ∈ (build demo 0).acts := by
  refine ⟨⟨rfl, rfl, rfl, rfl⟩, demo_ok, once_of_count _ _ (by decide), once_of_count _ _ (by decide),
    by decide, by decide, by decide, by decide⟩

/-- C106, the LogP outputs: two messages to node 2 that arrive at the same instant, `B` sent
by node 1 at time 3 and `A` by node 0 at time 5.  On one worker they travel over one link and
`B`, sent first, is handled first; with nodes 0 and 1 on different processes they travel over
two links and `A` is handled first.  So the result of a LogP run depends on how the machine
is split. -/
theorem C106_logp_ties_refuted : ∃ (c c' : Cfg) (l l0 l1 : Nat) (k k0 k1 : Kind),
    Repartitioned c c' ∧ c.nproc = 1 ∧ c'.nproc = 2 ∧
    Act.link l c.logpLat (.logpOut 2) k ∈ (build c 0).acts ∧
    Act.link l0 c.logpLat (.logpOut 2) k0 ∈ (build c' 0).acts ∧
    Act.link l1 c.logpLat (.logpOut 2) k1 ∈ (build c' 1).acts ∧
    c'.rank 0 = 0 ∧ c'.rank 1 = 1 ∧
    (⟨3 + 3 + c.logpLat, l, 0, 'B'⟩ : Events.Event Char).lt ⟨5 + 1 + c.logpLat, l, 1, 'A'⟩ = true ∧
    (⟨5 + 1 + c.logpLat, l0, 0, 'A'⟩ : Events.Event Char).lt ⟨3 + 3 + c.logpLat, l1, 0, 'B'⟩ = true :=
  ⟨⟨1, 1, 3, fun _ => 0, fun _ => 0, fun s => [⟨s, 0, 0⟩], fun _ => [], true, 7, 4, 3, 1⟩,
   ⟨2, 1, 3, fun s => s % 2, fun _ => 0, fun s => [⟨s, 0, 0⟩], fun _ => [], true, 7, 4, 3, 1⟩,
   5, 7, 8, .localL 0 (.nicLogp 2), .localL 0 (.nicLogp 2), .ipc 0 0 0,
   ⟨rfl, rfl, rfl, rfl⟩, rfl, rfl, by decide, by decide, by decide, by decide, by decide, by decide, by decide⟩

end SST.Parallel.Links
