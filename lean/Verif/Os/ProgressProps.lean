import Verif.Os.Progress
import Verif.Os.CoresProps
/-
C67.
-/
set_option autoImplicit false
namespace SST.Os.Progress

/-- Specification. The items that arrived for a queue, in order. -/
def St.arrivedFor (s : St) (cq : Nat) : List Nat := (s.arrived.filter (·.1 == cq)).map (·.2)

/-- Specification. The items handed out from a queue, in order. -/
def St.gotFrom (s : St) (cq : Nat) : List Nat := (s.got.filter (·.2.1 == cq)).map (·.2.2)

/-- Nothing is lost, repeated or reordered. -/
def Fifo (s : St) : Prop := ∀ cq, s.gotFrom cq ++ s.queues cq = s.arrivedFor cq

theorem take_fifo {s : St} (h : Fifo s) (t cq : Nat) : Fifo (s.take t cq) := by
  unfold St.take
  split
  · exact h
  · next x xs hq =>
    intro k
    have hk := h k
    unfold St.gotFrom St.arrivedFor at *
    simp only
    rw [List.filter_append, List.map_append]
    by_cases hc : cq = k
    · subst hc
      rw [upd_same, List.filter_cons, if_pos (by simp), hq] at *
      rw [← hk]
      simp
    · rw [upd_other _ _ (fun e => hc e.symm), List.filter_cons, if_neg (by simpa using hc)]
      simpa using hk

theorem takeAny_fifo {s : St} (n : Nat) (h : Fifo s) (t : Nat) : Fifo (s.takeAny n t) := by
  unfold St.takeAny
  split
  · exact h
  · exact take_fifo h t _

theorem resume_fifo {s : St} (n : Nat) (h : Fifo s) (t : Nat) : Fifo (s.resume n t) := by
  unfold St.resume
  split
  · exact h
  · next cq _ => exact take_fifo (s := { s with pending := upd s.pending cq ((s.pending cq).filter (· ≠ t)) }) h t cq
  · exact takeAny_fifo (s := { s with anyThreads := s.anyThreads.filter (· ≠ t) }) n h t

theorem push_fifo {s : St} (h : Fifo s) (cq x : Nat) : Fifo { s with queues := upd s.queues cq (s.queues cq ++ [x]), arrived := s.arrived ++ [(cq, x)] } := by
  intro k
  have hk := h k
  unfold St.gotFrom St.arrivedFor at *
  simp only
  rw [List.filter_append, List.map_append, ← hk]
  by_cases hc : cq = k
  · subst hc
    rw [upd_same, List.filter_cons, if_pos (by simp)]
    simp
  · rw [upd_other _ _ (fun e => hc e.symm), List.filter_cons, if_neg (by simpa using hc)]
    simp

theorem step_fifo {n : Nat} {s s' : St} (h : Fifo s) (hs : Step n s s') : Fifo s' := by
  cases hs with
  | find t cq hp hc =>
    unfold St.find
    split
    · exact h
    · exact take_fifo h t cq
  | findAny t hp =>
    unfold St.findAny
    split
    · exact h
    · exact take_fifo h t _
  | incoming des cq x hc =>
    unfold St.incoming
    have hp := push_fifo h cq x
    simp only
    split
    · split
      · exact resume_fifo n hp _
      · exact hp
    · split
      · exact resume_fifo n hp _
      · exact hp
    · exact hp
  | fire t rest hw => exact resume_fifo (s := { s with wakes := rest }) n h t
  | timeout t hp => exact resume_fifo n h t

/-- **C67**. In every execution, for every queue, the items handed out are the items that arrived, in order
and each once, except for those still in the queue. -/
theorem C67_fifo {n : Nat} {s : St} (h : Reach n s) (cq : Nat) : s.gotFrom cq ++ s.queues cq = s.arrivedFor cq := by
  have : Fifo s := by
    induction h with
    | init => intro cq; rfl
    | step _ hs ih => exact step_fifo ih hs
  exact this cq

/-! ### Wake-ups -/

/-- The invariant of executions in which items arrive from the event loop. -/
structure Inv (n : Nat) (s : St) : Prop where
  wakes : s.wakes = []
  spurious : s.spurious = []
  pend : ∀ cq, s.pending cq ≠ [] → s.queues cq = []
  any : s.anyThreads ≠ [] → ∀ cq, cq < n → s.queues cq = []
  placeFind : ∀ t cq, t ∈ s.pending cq ↔ s.place t = .find cq
  placeAny : ∀ t, t ∈ s.anyThreads ↔ s.place t = .any

theorem Inv.init (n : Nat) : Inv n .init where
  wakes := rfl
  spurious := rfl
  pend := fun _ h => absurd rfl h
  any := fun h => absurd rfl h
  placeFind := fun t cq => ⟨fun h => (by cases h), fun h => (by cases h)⟩
  placeAny := fun t => ⟨fun h => (by cases h), fun h => (by cases h)⟩

/-- A thread outside takes an item. -/
theorem Inv.take {n : Nat} {s : St} (hi : Inv n s) (t cq : Nat) (hp : s.place t = .out) : Inv n (s.take t cq) := by
  have hout : upd s.place t .out = s.place := by
    funext u
    by_cases h : u = t
    · subst h; rw [upd_same, hp]
    · rw [upd_other _ _ h]
  unfold St.take
  split
  · rw [hout]
    exact ⟨hi.wakes, hi.spurious, hi.pend, hi.any, hi.placeFind, hi.placeAny⟩
  · next x xs hq =>
    rw [hout]
    refine ⟨hi.wakes, hi.spurious, fun k hk => ?_, fun hk k hkn => ?_, hi.placeFind, hi.placeAny⟩
    · have := hi.pend k hk
      by_cases hc : k = cq
      · subst hc; rw [hq] at this; cases this
      · show upd s.queues cq xs k = []
        rw [upd_other _ _ hc]; exact this
    · have := hi.any hk k hkn
      by_cases hc : k = cq
      · subst hc; rw [hq] at this; cases this
      · show upd s.queues cq xs k = []
        rw [upd_other _ _ hc]; exact this

theorem firstFull_none {n : Nat} {s : St} (h : s.firstFull n = none) : ∀ cq, cq < n → s.queues cq = [] := by
  intro cq hc
  unfold St.firstFull at h
  have := List.find?_eq_none.mp h cq (List.mem_range.mpr hc)
  simpa using this

theorem firstFull_some {n : Nat} {s : St} {cq : Nat} (h : s.firstFull n = some cq) : cq < n ∧ s.queues cq ≠ [] := by
  unfold St.firstFull at h
  refine ⟨List.mem_range.mp (List.mem_of_find?_eq_some h), ?_⟩
  have := List.find?_some h
  simpa using this

theorem Inv.find {n : Nat} {s : St} (hi : Inv n s) (t cq : Nat) (hp : s.place t = .out) : Inv n (s.find t cq) := by
  unfold St.find
  split
  · next hq =>
    refine ⟨hi.wakes, hi.spurious, fun k hk => ?_, hi.any, fun u k => ?_, fun u => ?_⟩
    · by_cases hc : k = cq
      · subst hc; exact hq
      · refine hi.pend k (fun h => hk ?_)
        show upd s.pending cq _ k = []
        rw [upd_other _ _ hc]; exact h
    · show u ∈ upd s.pending cq (s.pending cq ++ [t]) k ↔ upd s.place t (.find cq) u = .find k
      have hti := hi.placeFind u k
      by_cases hu : u = t
      · subst hu
        rw [upd_same]
        by_cases hc : k = cq
        · subst hc; rw [upd_same]; simp
        · rw [upd_other _ _ hc, hti, hp]
          constructor
          · intro h; cases h
          · intro h; injection h with h; exact absurd h.symm hc
      · rw [upd_other _ _ hu, ← hti]
        by_cases hc : k = cq
        · subst hc; rw [upd_same, List.mem_append, List.mem_singleton]
          exact ⟨fun h => h.resolve_right hu, .inl⟩
        · rw [upd_other _ _ hc]
    · show u ∈ s.anyThreads ↔ upd s.place t (.find cq) u = .any
      by_cases hu : u = t
      · subst hu
        rw [upd_same, hi.placeAny, hp]
        constructor
        · intro h; cases h
        · intro h; cases h
      · rw [upd_other _ _ hu]; exact hi.placeAny u
  · exact hi.take t cq hp

theorem Inv.findAny {n : Nat} {s : St} (hi : Inv n s) (t : Nat) (hp : s.place t = .out) : Inv n (s.findAny n t) := by
  unfold St.findAny
  split
  · next hq =>
    refine ⟨hi.wakes, hi.spurious, hi.pend, fun _ => firstFull_none hq, fun u k => ?_, fun u => ?_⟩
    · show u ∈ s.pending k ↔ upd s.place t .any u = .find k
      by_cases hu : u = t
      · subst hu
        rw [upd_same, hi.placeFind, hp]
        constructor
        · intro h; cases h
        · intro h; cases h
      · rw [upd_other _ _ hu]; exact hi.placeFind u k
    · show u ∈ s.anyThreads ++ [t] ↔ upd s.place t .any u = .any
      by_cases hu : u = t
      · subst hu; rw [upd_same]; simp
      · rw [upd_other _ _ hu, ← hi.placeAny, List.mem_append, List.mem_singleton]
        exact ⟨fun h => h.resolve_right hu, .inl⟩
  · exact hi.take t _ hp

/-- The facts about places hold after a thread has left the lists. -/
theorem leave_find {n : Nat} {s : St} (hi : Inv n s) (t cq : Nat) (hp : s.place t = .find cq) :
    (∀ u k, u ∈ upd s.pending cq ((s.pending cq).filter (· ≠ t)) k ↔ upd s.place t .out u = .find k) ∧ (∀ u, u ∈ s.anyThreads ↔ upd s.place t .out u = .any) := by
  refine ⟨fun u k => ?_, fun u => ?_⟩
  · by_cases hu : u = t
    · subst hu
      rw [upd_same]
      refine ⟨fun h => ?_, fun h => by cases h⟩
      by_cases hc : k = cq
      · subst hc
        rw [upd_same, List.mem_filter] at h
        simp at h
      · rw [upd_other _ _ hc, hi.placeFind, hp] at h
        injection h with h
        exact absurd h.symm hc
    · rw [upd_other _ _ hu, ← hi.placeFind]
      by_cases hc : k = cq
      · subst hc
        rw [upd_same, List.mem_filter]
        simp [hu]
      · rw [upd_other _ _ hc]
  · by_cases hu : u = t
    · subst hu
      rw [upd_same, hi.placeAny, hp]
      exact ⟨fun h => (by cases h), fun h => (by cases h)⟩
    · rw [upd_other _ _ hu]; exact hi.placeAny u

theorem leave_any {n : Nat} {s : St} (hi : Inv n s) (t : Nat) (hp : s.place t = .any) :
    (∀ u k, u ∈ s.pending k ↔ upd s.place t .out u = .find k) ∧ (∀ u, u ∈ s.anyThreads.filter (· ≠ t) ↔ upd s.place t .out u = .any) := by
  refine ⟨fun u k => ?_, fun u => ?_⟩
  · by_cases hu : u = t
    · subst hu
      rw [upd_same, hi.placeFind, hp]
      exact ⟨fun h => (by cases h), fun h => (by cases h)⟩
    · rw [upd_other _ _ hu]; exact hi.placeFind u k
  · by_cases hu : u = t
    · subst hu
      rw [upd_same, List.mem_filter]
      simp
    · rw [upd_other _ _ hu, ← hi.placeAny, List.mem_filter]
      simp [hu]

theorem filter_ne_nil {l : List Nat} {t : Nat} (h : l.filter (· ≠ t) ≠ []) : l ≠ [] := fun e => h (by rw [e]; rfl)

theorem Inv.timeout {n : Nat} {s : St} (hi : Inv n s) (t : Nat) (hp : s.place t ≠ .out) : Inv n (s.resume n t) := by
  unfold St.resume
  cases hpl : s.place t with
  | out => exact absurd hpl hp
  | find cq =>
    simp only
    have hq : s.queues cq = [] := hi.pend cq (List.ne_nil_of_mem ((hi.placeFind t cq).mpr hpl))
    obtain ⟨h1, h2⟩ := leave_find hi t cq hpl
    unfold St.take
    simp only [hq]
    refine ⟨hi.wakes, hi.spurious, fun k hk => ?_, hi.any, h1, h2⟩
    by_cases hc : k = cq
    · subst hc; exact hq
    · replace hk : upd s.pending cq ((s.pending cq).filter (· ≠ t)) k ≠ [] := hk
      rw [upd_other _ _ hc] at hk
      exact hi.pend k hk
  | any =>
    simp only
    have hq : ∀ cq, cq < n → s.queues cq = [] := hi.any (List.ne_nil_of_mem ((hi.placeAny t).mpr hpl))
    obtain ⟨h1, h2⟩ := leave_any hi t hpl
    unfold St.takeAny
    have hf : St.firstFull n { s with anyThreads := s.anyThreads.filter (· ≠ t) } = none := by
      unfold St.firstFull
      rw [List.find?_eq_none]
      intro cq hc
      simp [hq cq (List.mem_range.mp hc)]
    rw [hf]
    exact ⟨hi.wakes, hi.spurious, hi.pend, fun _ => hq, h1, h2⟩

/-- What happens when an item arrives from the event loop for a queue somebody waits on. -/
theorem incoming_find {n : Nat} {s : St} (hi : Inv n s) (cq x t : Nat) (rest : List Nat) (hp : s.pending cq = t :: rest) :
    s.incoming n true cq x = { s with queues := upd (upd s.queues cq (s.queues cq ++ [x])) cq [], arrived := s.arrived ++ [(cq, x)], pending := upd s.pending cq ((s.pending cq).filter (· ≠ t)), got := s.got ++ [(t, cq, x)], place := upd s.place t .out } := by
  have hpl : s.place t = .find cq := (hi.placeFind t cq).mp (by rw [hp]; exact List.mem_cons_self ..)
  have hq : s.queues cq = [] := hi.pend cq (by rw [hp]; exact List.cons_ne_nil _ _)
  unfold St.incoming
  simp only [hp, if_true]
  unfold St.resume
  simp only [hpl]
  unfold St.take
  simp only [upd_same, hq, List.nil_append]
  rw [hp]

/-- What happens when an item arrives from the event loop, nobody waits on its queue and somebody waits on
any. -/
theorem incoming_any {n : Nat} {s : St} (hi : Inv n s) (cq x t : Nat) (hc : cq < n) (rest : List Nat) (hp : s.pending cq = []) (ha : s.anyThreads = t :: rest) :
    s.incoming n true cq x = { s with queues := upd (upd s.queues cq (s.queues cq ++ [x])) cq [], arrived := s.arrived ++ [(cq, x)], anyThreads := s.anyThreads.filter (· ≠ t), got := s.got ++ [(t, cq, x)], place := upd s.place t .out } := by
  have hpl : s.place t = .any := (hi.placeAny t).mp (by rw [ha]; exact List.mem_cons_self ..)
  have hq : ∀ cq, cq < n → s.queues cq = [] := hi.any (by rw [ha]; exact List.cons_ne_nil _ _)
  unfold St.incoming
  simp only [hp, ha, if_true]
  unfold St.resume
  simp only [hpl]
  unfold St.takeAny
  have hf : St.firstFull n { s with queues := upd s.queues cq (s.queues cq ++ [x]), arrived := s.arrived ++ [(cq, x)], anyThreads := (t :: rest).filter (· ≠ t) } = some cq := by
    cases hff : St.firstFull n { s with queues := upd s.queues cq (s.queues cq ++ [x]), arrived := s.arrived ++ [(cq, x)], anyThreads := (t :: rest).filter (· ≠ t) } with
    | none =>
      have := firstFull_none hff cq hc
      replace this : upd s.queues cq (s.queues cq ++ [x]) cq = [] := this
      rw [upd_same] at this
      simp at this
    | some k =>
      obtain ⟨h1, h2⟩ := firstFull_some hff
      replace h2 : upd s.queues cq (s.queues cq ++ [x]) k ≠ [] := h2
      by_cases hk : k = cq
      · rw [hk]
      · rw [upd_other _ _ hk] at h2
        exact absurd (hq k h1) h2
  rw [ha] at *
  rw [hf]
  simp only
  unfold St.take
  simp only [upd_same, hq cq hc, List.nil_append]

theorem Inv.incoming {n : Nat} {s : St} (hi : Inv n s) (cq x : Nat) (hc : cq < n) : Inv n (s.incoming n true cq x) := by
  cases hp : s.pending cq with
  | cons t rest =>
    rw [incoming_find hi cq x t rest hp]
    have hpl : s.place t = .find cq := (hi.placeFind t cq).mp (by rw [hp]; exact List.mem_cons_self ..)
    obtain ⟨h1, h2⟩ := leave_find hi t cq hpl
    refine ⟨hi.wakes, hi.spurious, fun k hk => ?_, fun hk k hkn => ?_, h1, h2⟩
    · show upd (upd s.queues cq _) cq [] k = []
      by_cases hkc : k = cq
      · subst hkc; rw [upd_same]
      · replace hk : upd s.pending cq ((s.pending cq).filter (· ≠ t)) k ≠ [] := hk
        rw [upd_other _ _ hkc] at hk
        rw [upd_other _ _ hkc, upd_other _ _ hkc]
        exact hi.pend k hk
    · show upd (upd s.queues cq _) cq [] k = []
      by_cases hkc : k = cq
      · subst hkc; rw [upd_same]
      · rw [upd_other _ _ hkc, upd_other _ _ hkc]
        exact hi.any hk k hkn
  | nil =>
    cases ha : s.anyThreads with
    | cons t rest =>
      rw [incoming_any hi cq x t hc rest hp ha]
      have hpl : s.place t = .any := (hi.placeAny t).mp (by rw [ha]; exact List.mem_cons_self ..)
      obtain ⟨h1, h2⟩ := leave_any hi t hpl
      have hq : ∀ k, k < n → upd (upd s.queues cq (s.queues cq ++ [x])) cq [] k = [] := fun k hkn => by
        by_cases hkc : k = cq
        · subst hkc; rw [upd_same]
        · rw [upd_other _ _ hkc, upd_other _ _ hkc]
          exact hi.any (by rw [ha]; exact List.cons_ne_nil _ _) k hkn
      refine ⟨hi.wakes, hi.spurious, fun k hk => ?_, fun _ => hq, h1, h2⟩
      by_cases hkc : k = cq
      · subst hkc; exact absurd hp hk
      · show upd (upd s.queues cq _) cq [] k = []
        rw [upd_other _ _ hkc, upd_other _ _ hkc]
        exact hi.pend k hk
    | nil =>
      have he : s.incoming n true cq x = { s with queues := upd s.queues cq (s.queues cq ++ [x]), arrived := s.arrived ++ [(cq, x)] } := by
        unfold St.incoming
        simp only [hp, ha]
      rw [he]
      refine ⟨hi.wakes, hi.spurious, fun k hk => ?_, fun hk => absurd ha hk, hi.placeFind, hi.placeAny⟩
      by_cases hkc : k = cq
      · subst hkc; exact absurd hp hk
      · show upd s.queues cq _ k = []
        rw [upd_other _ _ hkc]
        exact hi.pend k hk

theorem ReachDes.inv {n : Nat} {s : St} (h : ReachDes n s) : Inv n s := by
  induction h with
  | init => exact Inv.init n
  | find _ t cq hp hc ih => exact ih.find t cq hp
  | findAny _ t hp ih => exact ih.findAny t hp
  | incoming _ cq x hc ih => exact ih.incoming cq x hc
  | timeout _ t hp ih => exact ih.timeout t hp

/-- **C67** (partial). If items arrive from the event loop only: no caller waits for a queue, or for any
queue, while it has an item; and no thread is resumed anywhere else. What is missing: items that a thread
sends to its own process (`C67_lost_refuted`). -/
theorem C67_woken_partial {n : Nat} {s : St} (h : ReachDes n s) :
    (∀ t cq, s.place t = .find cq → s.queues cq = []) ∧ (∀ t, s.place t = .any → ∀ cq, cq < n → s.queues cq = []) ∧ s.spurious = [] := by
  have hi := h.inv
  exact ⟨fun t cq hp => hi.pend cq (List.ne_nil_of_mem ((hi.placeFind t cq).mpr hp)), fun t hp => hi.any (List.ne_nil_of_mem ((hi.placeAny t).mpr hp)), hi.spurious⟩

/-- **C67** (partial). In these executions an item that arrives goes at once to the caller that has waited
longest for its queue, or else for any queue. -/
theorem C67_first_waiter_partial {n : Nat} {s : St} (h : ReachDes n s) (cq x t : Nat) (hc : cq < n)
    (ht : (s.pending cq).head? = some t ∨ (s.pending cq = [] ∧ s.anyThreads.head? = some t)) :
    (s.incoming n true cq x).got = s.got ++ [(t, cq, x)] ∧ (s.incoming n true cq x).place t = .out := by
  rcases ht with ht | ⟨hp, ht⟩
  · obtain ⟨rest, hr⟩ := List.head?_eq_some_iff.mp ht
    rw [incoming_find h.inv cq x t rest hr]
    exact ⟨rfl, upd_same _ _ _⟩
  · obtain ⟨rest, hr⟩ := List.head?_eq_some_iff.mp ht
    rw [incoming_any h.inv cq x t hc rest hp hr]
    exact ⟨rfl, upd_same _ _ _⟩

/-- The lists of waiting callers are in the order of the calls. -/
example : ReachDes 2 (St.incoming 2 true (St.findAny 2 (St.find St.init 7 1) 8) 0 99) :=
  .incoming (.findAny (.find .init 7 1 rfl (by decide)) 8 (by decide)) 0 99 (by decide)

/-- **C67** (refuted). A thread sends two messages to its own process while two threads wait: the first
waiting thread is resumed twice, the second time outside of its call, and the second waits forever although
an item is there. -/
theorem C67_lost_refuted : ∃ s, Reach 1 s ∧ s.wakes = [] ∧ s.place 2 = .find 0 ∧ s.queues 0 = [11] ∧ s.spurious = [1] := by
  let s2 := St.find (St.find St.init 1 0) 2 0
  let s4 := St.incoming 1 false (St.incoming 1 false s2 0 10) 0 11
  have r4 : Reach 1 s4 := .step (.step (.step (.step .init (.find 1 0 rfl (by decide))) (.find 2 0 (by decide) (by decide))) (.incoming false 0 10 (by decide))) (.incoming false 0 11 (by decide))
  have r5 := r4.step (.fire 1 [1] (by rfl))
  have r6 := r5.step (.fire 1 [] (by rfl))
  exact ⟨_, r6, by rfl, by rfl, by rfl, by rfl⟩

end SST.Os.Progress
