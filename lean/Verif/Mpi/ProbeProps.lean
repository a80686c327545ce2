import Verif.Mpi.Probe
import Verif.Mpi.Props
/-!
C92: a blocking probe returns when, and only when, a matching message can be received.
-/
set_option autoImplicit false
namespace SST.Mpi

/-- States of the queue with probes after any history. -/
def PReach (s : PSt) : Prop := ∃ ops, pRun PSt.init ops = .ok s

/-- Specification: probe `p` asks for messages like `m`. -/
def Asks (p : Probe) (m : Msg) : Prop :=
  p.comm = m.comm ∧ (p.source = m.src ∨ p.source = -2) ∧ (p.tag = m.tag ∨ p.tag = -1)

theorem matches_iff (p : Probe) (m : Msg) : p.matches m = true ↔ Asks p m := by
  simp only [Probe.matches, eligible_iff, Accepts, Asks]

/-! ### The queue below behaves as without probes -/

/-- The queue operation of an operation with probes. -/
def POp.base : POp → List Op
  | .queue op => [op]
  | .probe _ _ _ => []

theorem pMatch_base {s s' : PSt} {m : Msg} (h : pMatch s m = .ok s') : matchMsg s.base m = .ok s'.base := by
  unfold pMatch at h
  split at h
  · cases h
  · rename_i b hb
    rw [hb]
    split at h
    · cases h; rfl
    · cases h; rfl
    · simp only at h
      split at h
      · cases h
      · cases h; rfl

theorem pHandle_base {s s' : PSt} {m : Msg} (h : pHandle s m = .ok s') : handle s.base m = .ok s'.base := by
  unfold pHandle at h
  unfold handle
  simp only at h ⊢
  cases hp : m.prot with
  | eager1 => rw [hp] at h; cases h; rfl
  | eager0 => rw [hp] at h; exact pMatch_base h
  | rendezvous => rw [hp] at h; exact pMatch_base h

theorem pRelease_base {t : Nat} {l : List Msg} : ∀ {s s' : PSt}, pRelease s t l = .ok s' →
    release s.base t l = .ok s'.base := by
  induction l with
  | nil => intro s s' h; cases h; rfl
  | cons m l ih =>
    intro s s' h
    unfold pRelease at h
    unfold release
    split at h
    · rename_i hle
      rw [if_pos hle]
      cases hh : pHandle s m with
      | error a => rw [hh] at h; cases h
      | ok s1 =>
        rw [hh] at h
        rw [pHandle_base hh]
        exact ih h
    · rename_i hle
      rw [if_neg hle]
      cases h; rfl

theorem pArrive_base {s s' : PSt} {m : Msg} (h : pArrive s m = .ok s') : arrive s.base m = .ok s'.base := by
  unfold pArrive at h
  unfold arrive
  simp only at h ⊢
  split at h
  · rename_i he
    rw [if_pos he]
    cases hh : pHandle s m with
    | error a => rw [hh] at h; cases h
    | ok s1 =>
      rw [hh] at h
      rw [pHandle_base hh]
      exact pRelease_base h
  · rename_i he
    rw [if_neg he]
    split at h
    · cases h
    · rename_i h2
      rw [if_neg h2]
      cases h; rfl

theorem pStep_base {s s' : PSt} {op : POp} (h : pStep s op = .ok s') : run s.base op.base = .ok s'.base := by
  have one : ∀ o b, step s.base o = .ok b → run s.base [o] = .ok b := by
    intro o b hb
    simp [run, hb]
  cases op with
  | probe a b c =>
    simp only [pStep, probe] at h
    split at h <;> cases h <;> rfl
  | queue o =>
    refine one o _ ?_
    cases o with
    | deliver i =>
      simp only [pStep] at h
      simp only [step]
      split at h
      · rename_i hn; rw [hn]; cases h; rfl
      · rename_i m hm; rw [hm]; exact pArrive_base h
    | payload i =>
      simp only [pStep] at h
      simp only [step]
      split at h
      · rename_i hn; rw [hn]; cases h; rfl
      · rename_i m hm; rw [hm]; exact pMatch_base h
    | send t src tag comm bytes prot =>
      simp only [pStep] at h
      split at h
      · cases h
      · rename_i b hb; cases h; exact hb
    | recv source tag comm cap =>
      simp only [pStep] at h
      split at h
      · cases h
      · rename_i b hb; cases h; exact hb
    | cancel id =>
      simp only [pStep] at h
      split at h
      · cases h
      · rename_i b hb; cases h; exact hb

theorem run_append {s s1 s2 : St} {a b : List Op} (h1 : run s a = .ok s1) (h2 : run s1 b = .ok s2) :
    run s (a ++ b) = .ok s2 := by
  induction a generalizing s with
  | nil => cases h1; exact h2
  | cons o a ih =>
    simp only [List.cons_append, run] at h1 ⊢
    split at h1
    · cases h1
    · exact ih h1

/-- With probes the queue goes through states it can also reach without them, so C17 to C20
apply. -/
theorem PReach.base {s : PSt} (h : PReach s) : Reach s.base := by
  obtain ⟨ops, h⟩ := h
  have : ∀ (ops : List POp) (s s' : PSt), pRun s ops = .ok s' → ∃ os, run s.base os = .ok s'.base := by
    intro ops
    induction ops with
    | nil => intro s s' h; cases h; exact ⟨[], rfl⟩
    | cons o ops ih =>
      intro s s' h
      simp only [pRun] at h
      split at h
      · cases h
      · rename_i s1 hs
        obtain ⟨os, ho⟩ := ih _ _ h
        exact ⟨_, run_append (pStep_base hs) ho⟩
  exact this ops _ _ h

/-! ### Invariant -/

/-- What holds after every history. -/
structure PInv (s : PSt) : Prop where
  wait : ∀ p ∈ s.probes, ∀ m ∈ s.base.unexpected, p.matches m = true → m.prot = .eager1
  numbered : s.asked.map Probe.id = List.range s.nextProbe
  waiting : ∀ p ∈ s.probes, p ∈ s.asked
  done : ∀ d ∈ s.done, ∃ p ∈ s.asked, p.id = d.1 ∧ p.matches d.2 = true
  once : (s.probes.map Probe.id ++ s.done.map Prod.fst).Perm (List.range s.nextProbe)

theorem PInv.init : PInv PSt.init := by
  refine ⟨?_, rfl, ?_, ?_, List.Perm.refl _⟩ <;> simp [PSt.init]

/-- Changing the queue without new unexpected messages keeps the invariant. -/
theorem PInv.shrink {s : PSt} (h : PInv s) (b : St) (hs : ∀ m ∈ b.unexpected, m ∈ s.base.unexpected) :
    PInv { s with base := b } :=
  ⟨fun p hp m hm => h.wait p hp m (hs m hm), h.numbered, h.waiting, h.done, h.once⟩

theorem matchMsg_unexpected {s b : St} {m : Msg} (h : matchMsg s m = .ok b) :
    (finds s m = true ∧ b.unexpected = s.unexpected ∧ ∃ r, r ∈ s.posted ∧ r.id ∉ s.cancelled ∧ r.eligible m = true ∧ Ev.matched r m ∈ b.log) ∨
    (finds s m = false ∧ b.unexpected = s.unexpected ++ [m]) := by
  unfold matchMsg at h
  unfold finds
  have key : ∀ (l : List Req) (r : Req) (rs : List Req), searchPosted s.cancelled m l = .ok (some r, rs) →
      r ∈ l ∧ r.id ∉ s.cancelled ∧ r.eligible m = true := by
    intro l
    induction l with
    | nil => intro r rs h; simp [searchPosted] at h
    | cons x l ih =>
      intro r rs h
      unfold searchPosted at h
      split at h
      · obtain ⟨h1, h2⟩ := ih r rs h
        exact ⟨List.mem_cons_of_mem _ h1, h2⟩
      · rename_i hc
        split at h
        · rename_i he
          split at h
          · cases h
          · cases h; exact ⟨List.mem_cons_self, hc, he⟩
        · split at h
          · cases h
          · rename_i y rs' hq
            simp only [Except.ok.injEq, Prod.mk.injEq] at h
            obtain ⟨h1, h2⟩ := ih r rs' (by rw [hq, h.1])
            exact ⟨List.mem_cons_of_mem _ h1, h2⟩
  split at h
  · cases h
  · rename_i r rs hs
    cases h
    obtain ⟨h1, h2, h3⟩ := key _ _ _ hs
    exact Or.inl ⟨by rw [hs], rfl, r, h1, h2, h3, by simp⟩
  · rename_i rs hs
    cases h
    exact Or.inr ⟨by rw [hs], rfl⟩

theorem perm_partition {α : Type} (l : List α) (p : α → Bool) :
    (l.filter (fun a => !p a) ++ l.filter p).Perm l := by
  induction l with
  | nil => exact .refl _
  | cons a l ih =>
    cases h : p a with
    | true => simp only [List.filter_cons, h, Bool.not_true, Bool.false_eq_true, if_false, if_true]
              exact (List.perm_middle).trans (ih.cons a)
    | false => simp only [List.filter_cons, h, Bool.not_false, Bool.false_eq_true, if_false, if_true, List.cons_append]
               exact ih.cons a

/-- Notifying the probes of `m`. -/
theorem PInv.notify {s : PSt} (h : PInv s) (m : Msg) (b : St)
    (hb : ∀ x ∈ b.unexpected, x ∈ s.base.unexpected ∨ x = m) : PInv (notify { s with base := b } m) := by
  refine ⟨?_, h.numbered, ?_, ?_, ?_⟩
  · intro p hp x hx hm
    simp only [SST.Mpi.notify, List.mem_filter, Bool.not_eq_true'] at hp
    rcases hb x hx with h1 | h1
    · exact h.wait p hp.1 x h1 hm
    · rw [h1, hp.2] at hm; cases hm
  · intro p hp
    simp only [SST.Mpi.notify, List.mem_filter] at hp
    exact h.waiting p hp.1
  · intro d hd
    simp only [SST.Mpi.notify, List.mem_append, List.mem_map, List.mem_filter] at hd
    rcases hd with hd | ⟨p, ⟨hp, hm⟩, rfl⟩
    · exact h.done d hd
    · exact ⟨p, h.waiting p hp, rfl, hm⟩
  · refine List.Perm.trans ?_ h.once
    simp only [SST.Mpi.notify, List.map_append, List.map_map]
    have h1 := (perm_partition s.probes (fun p => p.matches m)).map Probe.id
    rw [List.map_append] at h1
    refine List.Perm.trans ?_ (h1.append_right _)
    rw [List.append_assoc]
    refine List.Perm.append_left _ ?_
    exact List.perm_append_comm

theorem PInv.match_ {s s' : PSt} {m : Msg} (h : PInv s) (hm : pMatch s m = .ok s') : PInv s' := by
  unfold pMatch at hm
  split at hm
  · cases hm
  · rename_i b hb
    have hu := matchMsg_unexpected hb
    have hsub : ∀ x ∈ b.unexpected, x ∈ s.base.unexpected ∨ x = m := by
      intro x hx
      rcases hu with ⟨_, e, _⟩ | ⟨_, e⟩
      · rw [e] at hx; exact Or.inl hx
      · rw [e] at hx; simpa using hx
    split at hm
    · rename_i hp
      cases hm
      refine ⟨?_, h.numbered, h.waiting, h.done, h.once⟩
      intro p hpm x hx hmx
      rcases hsub x hx with h1 | h1
      · exact h.wait p hpm x h1 hmx
      · rw [h1]; exact hp
    · cases hm; exact h.notify m b hsub
    · simp only at hm
      split at hm
      · cases hm
      · cases hm; exact h.notify m b hsub

theorem PInv.handle_ {s s' : PSt} {m : Msg} (h : PInv s) (hm : pHandle s m = .ok s') : PInv s' := by
  unfold pHandle at hm
  simp only at hm
  cases hp : m.prot with
  | eager1 => rw [hp] at hm; cases hm; exact h.shrink _ (fun _ hx => hx)
  | eager0 => rw [hp] at hm; exact (h.shrink { s.base with log := s.base.log ++ [Ev.handled m] } (fun _ hx => hx)).match_ hm
  | rendezvous => rw [hp] at hm; exact (h.shrink { s.base with log := s.base.log ++ [Ev.handled m] } (fun _ hx => hx)).match_ hm

theorem PInv.release_ {t : Nat} {l : List Msg} : ∀ {s s' : PSt}, PInv s → pRelease s t l = .ok s' → PInv s' := by
  induction l with
  | nil => intro s s' h hm; cases hm; exact h.shrink _ (fun _ hx => hx)
  | cons m l ih =>
    intro s s' h hm
    unfold pRelease at hm
    split at hm
    · cases hh : pHandle s m with
      | error a => rw [hh] at hm; cases hm
      | ok s1 =>
        rw [hh] at hm
        exact ih ((h.handle_ hh).shrink { s1.base with nextIn := upd s1.base.nextIn t (s1.base.nextIn t + 1) } (fun _ hx => hx)) hm
    · cases hm; exact h.shrink _ (fun _ hx => hx)

theorem PInv.arrive_ {s s' : PSt} {m : Msg} (h : PInv s) (hm : pArrive s m = .ok s') : PInv s' := by
  unfold pArrive at hm
  simp only at hm
  split at hm
  · cases hh : pHandle s m with
    | error a => rw [hh] at hm; cases hm
    | ok s1 =>
      rw [hh] at hm
      exact ((h.handle_ hh).shrink { s1.base with nextIn := upd s1.base.nextIn m.sender (s1.base.nextIn m.sender + 1) } (fun _ hx => hx)).release_ hm
  · split at hm
    · cases hm
    · cases hm; exact h.shrink _ (fun _ hx => hx)

theorem searchUnexpected_sub {r : Req} {l : List Msg} : ∀ {x : Option Msg} {ms : List Msg},
    searchUnexpected r l = .ok (x, ms) → ∀ m ∈ ms, m ∈ l := by
  induction l with
  | nil => intro x ms h; simp only [searchUnexpected, Except.ok.injEq, Prod.mk.injEq] at h; rw [← h.2]; simp
  | cons y l ih =>
    intro x ms h
    unfold searchUnexpected at h
    split at h
    · split at h
      · cases h
      · cases h; intro m hm; exact List.mem_cons_of_mem _ hm
    · split at h
      · cases h
      · rename_i x' ms' hq
        simp only [Except.ok.injEq, Prod.mk.injEq] at h
        rw [← h.2]
        intro m hm
        rcases List.mem_cons.mp hm with e | hm
        · rw [e]; exact List.mem_cons_self
        · exact List.mem_cons_of_mem _ (ih hq m hm)

theorem PInv.probe_ {s : PSt} (h : PInv s) (source tag : Int) (comm : Nat) : PInv (probe s source tag comm) := by
  unfold probe
  simp only
  have hnum : (s.asked ++ [(⟨s.nextProbe, source, tag, comm⟩ : Probe)]).map Probe.id = List.range (s.nextProbe + 1) := by
    rw [List.map_append, h.numbered, List.range_succ]; rfl
  split
  · rename_i m hf
    refine ⟨h.wait, hnum, fun p hp => List.mem_append_left _ (h.waiting p hp), ?_, ?_⟩
    · intro d hd
      rcases List.mem_append.mp hd with hd | hd
      · obtain ⟨p, hp, h1⟩ := h.done d hd
        exact ⟨p, List.mem_append_left _ hp, h1⟩
      · rw [List.mem_singleton.mp hd]
        exact ⟨_, by simp, rfl, List.find?_some hf⟩
    · show (s.probes.map Probe.id ++ (s.done ++ [(s.nextProbe, m)]).map Prod.fst).Perm (List.range (s.nextProbe + 1))
      rw [List.map_append, ← List.append_assoc, List.range_succ]
      exact h.once.append_right _
  · rename_i hf
    refine ⟨?_, hnum, ?_, ?_, ?_⟩
    · intro p hp m hm hpm
      rcases List.mem_append.mp hp with hp | hp
      · exact h.wait p hp m hm hpm
      · rw [List.mem_singleton.mp hp] at hpm
        have := List.find?_eq_none.mp hf m hm
        exact absurd hpm this
    · intro p hp
      rcases List.mem_append.mp hp with hp | hp
      · exact List.mem_append_left _ (h.waiting p hp)
      · exact List.mem_append_right _ hp
    · intro d hd
      obtain ⟨p, hp, h1⟩ := h.done d hd
      exact ⟨p, List.mem_append_left _ hp, h1⟩
    · show ((s.probes ++ [(⟨s.nextProbe, source, tag, comm⟩ : Probe)]).map Probe.id ++ s.done.map Prod.fst).Perm (List.range (s.nextProbe + 1))
      rw [List.map_append, List.append_assoc, List.range_succ]
      refine List.Perm.trans ?_ (h.once.append_right _)
      rw [List.append_assoc]
      exact List.Perm.append_left _ List.perm_append_comm

theorem PInv.step_ {s s' : PSt} {op : POp} (h : PInv s) (hm : pStep s op = .ok s') : PInv s' := by
  cases op with
  | probe a b c => simp only [pStep] at hm; cases hm; exact h.probe_ a b c
  | queue o =>
    cases o with
    | deliver i =>
      simp only [pStep] at hm
      split at hm
      · cases hm; exact h
      · exact (h.shrink { s.base with net := s.base.net.eraseIdx i } (fun _ hx => hx)).arrive_ hm
    | payload i =>
      simp only [pStep] at hm
      split at hm
      · cases hm; exact h
      · exact (h.shrink { s.base with fetching := s.base.fetching.eraseIdx i } (fun _ hx => hx)).match_ hm
    | send t src tag comm bytes prot =>
      simp only [pStep, step] at hm
      cases hm; exact h.shrink _ (fun _ hx => hx)
    | cancel id =>
      simp only [pStep, step] at hm
      split at hm
      · cases hm
      · rename_i b hb
        cases hm
        split at hb <;> cases hb <;> exact h.shrink _ (fun _ hx => hx)
    | recv source tag comm cap =>
      simp only [pStep, step, post] at hm
      split at hm
      · cases hm
      · rename_i b hb
        cases hm
        split at hb
        · cases hb
        · rename_i x ms hq
          cases hb
          exact h.shrink _ (searchUnexpected_sub hq)
        · cases hb; exact h.shrink _ (fun _ hx => hx)

theorem PReach.inv {s : PSt} (h : PReach s) : PInv s := by
  obtain ⟨ops, h⟩ := h
  have : ∀ (ops : List POp) (s s' : PSt), PInv s → pRun s ops = .ok s' → PInv s' := by
    intro ops
    induction ops with
    | nil => intro s s' hi h; cases h; exact hi
    | cons o ops ih =>
      intro s s' hi h
      simp only [pRun] at h
      split at h
      · cases h
      · rename_i s1 hs
        exact ih _ _ (hi.step_ hs) h
  exact this ops _ _ PInv.init h

/-! ### C92 -/

/-- A probe that finds a message that can be received returns at once with the message that a
receive with the same arguments would get (C70); otherwise it waits. -/
theorem C92_immediate (s : PSt) (source tag : Int) (comm : Nat) :
    match iprobe s.base source tag comm with
    | some m => (probe s source tag comm).done = s.done ++ [(s.nextProbe, m)] ∧ (probe s source tag comm).probes = s.probes
    | none => (probe s source tag comm).done = s.done ∧ (probe s source tag comm).probes = s.probes ++ [⟨s.nextProbe, source, tag, comm⟩] := by
  have e : s.base.unexpected.find? (fun m => Probe.matches ⟨s.nextProbe, source, tag, comm⟩ m) = iprobe s.base source tag comm := rfl
  cases hi : iprobe s.base source tag comm with
  | some m => simp [probe, e, hi]
  | none => simp [probe, e, hi]

/-- Every probe waits or has returned, and returns once, with a message it asked for. -/
theorem C92_once (s : PSt) (h : PReach s) :
    (s.asked.map Probe.id).Nodup ∧ (s.probes.map Probe.id ++ s.done.map Prod.fst).Perm (s.asked.map Probe.id) ∧
    ∀ d ∈ s.done, ∃ p ∈ s.asked, p.id = d.1 ∧ Asks p d.2 := by
  have hi := h.inv
  refine ⟨by rw [hi.numbered]; exact List.nodup_range, by rw [hi.numbered]; exact hi.once, ?_⟩
  intro d hd
  obtain ⟨p, hp, h1, h2⟩ := hi.done d hd
  exact ⟨p, hp, h1, (matches_iff p d.2).mp h2⟩

/-- While a probe waits, no message it asks for can be received - except messages of the
second eager protocol.  Missing: those (`C92_eager1_refuted`). -/
theorem C92_no_missed_message_partial (s : PSt) (h : PReach s) (p : Probe) (hp : p ∈ s.probes) (m : Msg)
    (hm : m ∈ s.base.unexpected) (hprot : m.prot ≠ .eager1) : ¬ Asks p m :=
  fun ha => hprot (h.inv.wait p hp m hm ((matches_iff p m).mpr ha))

/-! ### Which message a waiting probe returns -/

/-- `s'` follows from `s` by handling messages: probes that returned meanwhile report messages
that can be received, or that a posted receive took. -/
def Tells (s s' : PSt) : Prop :=
  (∀ m ∈ s.base.unexpected, m ∈ s'.base.unexpected) ∧ (∀ e ∈ s.base.log, e ∈ s'.base.log) ∧
  (∀ r ∈ s'.base.posted, r ∈ s.base.posted) ∧ s'.base.cancelled = s.base.cancelled ∧
  ∀ d ∈ s'.done, d ∈ s.done ∨ d.2 ∈ s'.base.unexpected ∨
    ∃ r ∈ s.base.posted, r.id ∉ s.base.cancelled ∧ Accepts r d.2 ∧ Ev.matched r d.2 ∈ s'.base.log

theorem Tells.refl (s : PSt) : Tells s s :=
  ⟨fun _ h => h, fun _ h => h, fun _ h => h, rfl, fun _ h => Or.inl h⟩

theorem Tells.trans {a b c : PSt} (h1 : Tells a b) (h2 : Tells b c) : Tells a c := by
  obtain ⟨u1, l1, p1, c1, d1⟩ := h1
  obtain ⟨u2, l2, p2, c2, d2⟩ := h2
  refine ⟨fun m h => u2 m (u1 m h), fun e h => l2 e (l1 e h), fun r h => p1 r (p2 r h), c2.trans c1, ?_⟩
  intro d hd
  rcases d2 d hd with h | h | ⟨r, hr, hc, ha, hm⟩
  · rcases d1 d h with h | h | ⟨r, hr, hc, ha, hm⟩
    · exact Or.inl h
    · exact Or.inr (Or.inl (u2 _ h))
    · exact Or.inr (Or.inr ⟨r, hr, hc, ha, l2 _ hm⟩)
  · exact Or.inr (Or.inl h)
  · exact Or.inr (Or.inr ⟨r, p1 r hr, by rw [← c1]; exact hc, ha, hm⟩)

/-- Changing only bookkeeping of the queue. -/
theorem Tells.tweak (s : PSt) (b : St) (h1 : b.unexpected = s.base.unexpected) (h2 : ∀ e ∈ s.base.log, e ∈ b.log)
    (h3 : b.posted = s.base.posted) (h4 : b.cancelled = s.base.cancelled) : Tells s { s with base := b } :=
  ⟨fun m h => by rw [← h1] at h; exact h, h2, fun r h => by rw [← h3]; exact h, h4, fun _ h => Or.inl h⟩

theorem searchPosted_sub {c : List Nat} {m : Msg} {l : List Req} : ∀ {x : Option Req} {rs : List Req},
    searchPosted c m l = .ok (x, rs) → ∀ r ∈ rs, r ∈ l := by
  induction l with
  | nil => intro x rs h; simp only [searchPosted, Except.ok.injEq, Prod.mk.injEq] at h; rw [← h.2]; simp
  | cons y l ih =>
    intro x rs h
    unfold searchPosted at h
    split at h
    · intro r hr; exact List.mem_cons_of_mem _ (ih h r hr)
    · split at h
      · split at h
        · cases h
        · cases h; intro r hr; exact List.mem_cons_of_mem _ hr
      · split at h
        · cases h
        · rename_i x' rs' hq
          simp only [Except.ok.injEq, Prod.mk.injEq] at h
          rw [← h.2]
          intro r hr
          rcases List.mem_cons.mp hr with e | hr
          · rw [e]; exact List.mem_cons_self
          · exact List.mem_cons_of_mem _ (ih hq r hr)

theorem matchMsg_keeps {s b : St} {m : Msg} (h : matchMsg s m = .ok b) :
    (∀ e ∈ s.log, e ∈ b.log) ∧ (∀ r ∈ b.posted, r ∈ s.posted) ∧ b.cancelled = s.cancelled := by
  unfold matchMsg at h
  split at h
  · cases h
  · rename_i r rs hs
    cases h
    exact ⟨fun e he => List.mem_append_left _ he, searchPosted_sub hs, rfl⟩
  · rename_i rs hs
    cases h
    exact ⟨fun e he => he, searchPosted_sub hs, rfl⟩

theorem tells_match {s s' : PSt} {m : Msg} (hm : pMatch s m = .ok s') : Tells s s' := by
  have hb := pMatch_base hm
  have hu := matchMsg_unexpected hb
  obtain ⟨f1, f2, f3⟩ := matchMsg_keeps hb
  refine ⟨?_, f1, f2, f3, ?_⟩
  · intro x hx
    rcases hu with ⟨_, e, _⟩ | ⟨_, e⟩
    · rw [e]; exact hx
    · rw [e]; exact List.mem_append_left _ hx
  · have hd : ∀ d ∈ s'.done, d ∈ s.done ∨ d.2 = m := by
      have hn : ∀ (b : St) d, d ∈ (notify { s with base := b } m).done → d ∈ s.done ∨ d.2 = m := by
        intro b d hd
        simp only [notify, List.mem_append, List.mem_map] at hd
        rcases hd with hd | ⟨p, _, rfl⟩
        · exact Or.inl hd
        · exact Or.inr rfl
      unfold pMatch at hm
      split at hm
      · cases hm
      · split at hm
        · cases hm; intro d hd; exact Or.inl hd
        · cases hm; exact hn _
        · simp only at hm
          split at hm
          · cases hm
          · cases hm; exact hn _
    intro d hdm
    rcases hd d hdm with h | h
    · exact Or.inl h
    · right
      rcases hu with ⟨_, _, r, hr, hc, he, hlog⟩ | ⟨_, e⟩
      · rw [h]; exact Or.inr ⟨r, hr, hc, (eligible_iff r m).mp he, hlog⟩
      · rw [h, e]; exact Or.inl (by simp)

theorem tells_handle {s s' : PSt} {m : Msg} (hm : pHandle s m = .ok s') : Tells s s' := by
  unfold pHandle at hm
  simp only at hm
  have h0 : Tells s { s with base := { s.base with log := s.base.log ++ [Ev.handled m] } } :=
    Tells.tweak s _ rfl (fun e he => List.mem_append_left _ he) rfl rfl
  cases hp : m.prot with
  | eager1 => rw [hp] at hm; cases hm; exact Tells.tweak s _ rfl (fun e he => List.mem_append_left _ he) rfl rfl
  | eager0 => rw [hp] at hm; exact h0.trans (tells_match hm)
  | rendezvous => rw [hp] at hm; exact h0.trans (tells_match hm)

theorem tells_release {t : Nat} {l : List Msg} : ∀ {s s' : PSt}, pRelease s t l = .ok s' → Tells s s' := by
  induction l with
  | nil => intro s s' hm; cases hm; exact Tells.tweak s _ rfl (fun _ h => h) rfl rfl
  | cons m l ih =>
    intro s s' hm
    unfold pRelease at hm
    split at hm
    · cases hh : pHandle s m with
      | error a => rw [hh] at hm; cases hm
      | ok s1 =>
        rw [hh] at hm
        exact ((tells_handle hh).trans (Tells.tweak s1 { s1.base with nextIn := upd s1.base.nextIn t (s1.base.nextIn t + 1) } rfl (fun _ h => h) rfl rfl)).trans (ih hm)
    · cases hm; exact Tells.tweak s _ rfl (fun _ h => h) rfl rfl

theorem tells_arrive {s s' : PSt} {m : Msg} (hm : pArrive s m = .ok s') : Tells s s' := by
  unfold pArrive at hm
  simp only at hm
  split at hm
  · cases hh : pHandle s m with
    | error a => rw [hh] at hm; cases hm
    | ok s1 =>
      rw [hh] at hm
      exact ((tells_handle hh).trans (Tells.tweak s1 { s1.base with nextIn := upd s1.base.nextIn m.sender (s1.base.nextIn m.sender + 1) } rfl (fun _ h => h) rfl rfl)).trans (tells_release hm)
  · split at hm
    · cases hm
    · cases hm; exact Tells.tweak s _ rfl (fun _ h => h) rfl rfl

/-- When a probe returns during any step, the message it reports can be received right after
the step - unless a receive that was already posted accepts it.  Missing: that case
(`C92_consumed_refuted`). -/
theorem C92_reported_available_partial (s s' : PSt) (op : POp) (hm : pStep s op = .ok s') (d : Nat × Msg)
    (hd : d ∈ s'.done) (hnew : d ∉ s.done)
    (hno : ∀ r ∈ s.base.posted, r.id ∉ s.base.cancelled → ¬ Accepts r d.2) : d.2 ∈ s'.base.unexpected := by
  have close : ∀ {s0 : PSt}, s0.done = s.done → s0.base.posted = s.base.posted → s0.base.cancelled = s.base.cancelled →
      Tells s0 s' → d.2 ∈ s'.base.unexpected := by
    intro s0 e1 e2 e3 ht
    rcases ht.2.2.2.2 d hd with h | h | ⟨r, hr, hc, ha, _⟩
    · rw [e1] at h; exact absurd h hnew
    · exact h
    · rw [e2] at hr; rw [e3] at hc; exact absurd ha (hno r hr hc)
  cases op with
  | probe a b c =>
    simp only [pStep] at hm
    cases hm
    have hi := C92_immediate s a b c
    split at hi
    · rename_i m hf
      rw [hi.1] at hd
      rcases List.mem_append.mp hd with h | h
      · exact absurd h hnew
      · rw [List.mem_singleton.mp h]
        have : (probe s a b c).base = s.base := by unfold probe; simp only; split <;> rfl
        rw [this]
        exact List.mem_of_find?_eq_some hf
    · rw [hi.1] at hd; exact absurd hd hnew
  | queue o =>
    cases o with
    | deliver i =>
      simp only [pStep] at hm
      split at hm
      · cases hm; exact absurd hd hnew
      · exact close (s0 := { s with base := { s.base with net := s.base.net.eraseIdx i } }) rfl rfl rfl (tells_arrive hm)
    | payload i =>
      simp only [pStep] at hm
      split at hm
      · cases hm; exact absurd hd hnew
      · exact close (s0 := { s with base := { s.base with fetching := s.base.fetching.eraseIdx i } }) rfl rfl rfl (tells_match hm)
    | send t src tag comm bytes prot =>
      simp only [pStep] at hm
      split at hm
      · cases hm
      · cases hm; exact absurd hd hnew
    | cancel id =>
      simp only [pStep] at hm
      split at hm
      · cases hm
      · cases hm; exact absurd hd hnew
    | recv source tag comm cap =>
      simp only [pStep] at hm
      split at hm
      · cases hm
      · cases hm; exact absurd hd hnew

/-- A probe for tag 9 waits, a message with tag 8 does not wake it, one with tag 9 does, and
can then be received. -/
example : (match pRun PSt.init [.queue (.send 2 2 8 0 8 .eager0), .queue (.send 2 2 9 0 16 .rendezvous), .probe (-2) 9 0,
      .queue (.deliver 0), .queue (.deliver 0)] with
    | .ok s => (s.done.map fun d => (d.1, d.2.bytes), s.probes.length, s.base.unexpected.map Msg.bytes) | _ => ([], 9, [])) =
    ([(0, 16)], 0, [8, 16]) := by decide

/-! ### What does not hold -/

/-- A probe that waits is not woken by a message of the second eager protocol: the message
can be received, nothing is in flight, and the probe still waits. -/
theorem C92_eager1_refuted :
    ¬ ∀ s : PSt, PReach s → s.base.net = [] → s.base.fetching = [] → ∀ p ∈ s.probes, ∀ m ∈ s.base.unexpected, ¬ Asks p m := by
  intro h
  have hrun : ∃ s, pRun PSt.init [.probe 2 9 0, .queue (.send 2 2 9 0 1000 .eager1), .queue (.deliver 0), .queue (.payload 0)] = .ok s ∧
      s.base.net = [] ∧ s.base.fetching = [] ∧ s.probes = [⟨0, 2, 9, 0⟩] ∧ s.base.unexpected = [⟨2, 0, 2, 9, 0, 1000, .eager1⟩] :=
    ⟨_, rfl, rfl, rfl, rfl, rfl⟩
  obtain ⟨s, h1, h2, h3, h4, h5⟩ := hrun
  refine h s ⟨_, h1⟩ h2 h3 ⟨0, 2, 9, 0⟩ (by rw [h4]; simp) ⟨2, 0, 2, 9, 0, 1000, .eager1⟩ (by rw [h5]; simp) ?_
  exact ⟨rfl, Or.inl rfl, Or.inl rfl⟩

/-- A probe can return with a message that a posted receive has already taken: nothing can be
received after it. -/
theorem C92_consumed_refuted :
    ¬ ∀ (s s' : PSt) (op : POp), PReach s → pStep s op = .ok s' → ∀ d ∈ s'.done, d ∉ s.done → d.2 ∈ s'.base.unexpected := by
  intro h
  have hrun : ∃ s s', pRun PSt.init [.queue (.recv 2 9 0 64), .probe 2 9 0, .queue (.send 2 2 9 0 16 .eager0)] = .ok s ∧
      pStep s (.queue (.deliver 0)) = .ok s' ∧ s.done = [] ∧ s'.done = [(0, ⟨2, 0, 2, 9, 0, 16, .eager0⟩)] ∧ s'.base.unexpected = [] :=
    ⟨_, _, rfl, rfl, rfl, rfl, rfl⟩
  obtain ⟨s, s', h1, h2, h3, h4, h5⟩ := hrun
  have := h s s' _ ⟨_, h1⟩ h2 (0, ⟨2, 0, 2, 9, 0, 16, .eager0⟩) (by rw [h4]; simp) (by rw [h3]; simp)
  rw [h5] at this
  cases this

/-- A short message that a posted receive takes while a probe waits for another message is
read after it has been deleted. -/
theorem C92_reads_deleted_refuted : ¬ ∀ ops, pRun PSt.init ops ≠ .error .readsDeleted := by
  intro h
  exact h [.queue (.recv 2 5 0 64), .probe 2 9 0, .queue (.send 2 2 5 0 16 .eager0), .queue (.deliver 0)] rfl

/-- Without waiting probes no deleted message is read. -/
theorem C92_safe_partial (s : PSt) (h : s.probes = []) (op : POp) : pStep s op ≠ .error .readsDeleted := by
  have hmatch : ∀ (s : PSt) (m : Msg), s.probes = [] → pMatch s m ≠ .error .readsDeleted ∧ ∀ s', pMatch s m = .ok s' → s'.probes = [] := by
    intro s m hp
    have hn : ∀ b : St, (notify { s with base := b } m).probes = [] := by intro b; simp [notify, hp]
    unfold pMatch
    split
    · exact ⟨by simp, by simp⟩
    · split
      · exact ⟨by simp, fun s' h => by cases h; exact hp⟩
      · exact ⟨by simp, fun s' h => by cases h; exact hn _⟩
      · simp only [hn]
        simp only [List.isEmpty_nil, Bool.not_true, Bool.and_false, Bool.false_eq_true, if_false]
        exact ⟨by simp, fun s' h => by cases h; exact hn _⟩
  have hhandle : ∀ (s : PSt) (m : Msg), s.probes = [] → pHandle s m ≠ .error .readsDeleted ∧ ∀ s', pHandle s m = .ok s' → s'.probes = [] := by
    intro s m hp
    unfold pHandle
    simp only
    cases m.prot with
    | eager1 => exact ⟨by simp, fun s' h => by cases h; exact hp⟩
    | eager0 => exact hmatch _ m hp
    | rendezvous => exact hmatch _ m hp
  have hrel : ∀ (l : List Msg) (s : PSt) (t : Nat), s.probes = [] → pRelease s t l ≠ .error .readsDeleted := by
    intro l
    induction l with
    | nil => intro s t _; simp [pRelease]
    | cons m l ih =>
      intro s t hp
      unfold pRelease
      split
      · split
        · rename_i a ha
          intro e
          cases e
          exact (hhandle s m hp).1 ha
        · rename_i s1 hs
          exact ih { s1 with base := { s1.base with nextIn := upd s1.base.nextIn t (s1.base.nextIn t + 1) } } _ ((hhandle s m hp).2 s1 hs)
      · simp
  cases op with
  | probe a b c => simp [pStep]
  | queue o =>
    cases o with
    | deliver i =>
      simp only [pStep]
      split
      · simp
      · rename_i m _
        have hh := hhandle { s with base := { s.base with net := s.base.net.eraseIdx i } } m h
        unfold pArrive
        simp only
        split
        · split
          · rename_i a ha
            intro e
            cases e
            exact hh.1 ha
          · rename_i s1 hs
            exact hrel _ { s1 with base := { s1.base with nextIn := upd s1.base.nextIn m.sender (s1.base.nextIn m.sender + 1) } } _ (hh.2 s1 hs)
        · split <;> simp
    | payload i =>
      simp only [pStep]
      split
      · simp
      · exact (hmatch { s with base := { s.base with fetching := s.base.fetching.eraseIdx i } } _ h).1
    | send t src tag comm bytes prot => simp only [pStep]; split <;> simp
    | cancel id => simp only [pStep]; split <;> simp
    | recv source tag comm cap => simp only [pStep]; split <;> simp

end SST.Mpi
