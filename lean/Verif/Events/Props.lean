import Verif.Events.Lemmas2
/-!
Properties C04-C08 of the serial event kernel.

A *history* is any list of operations (`Op`): schedule calls from outside, starts of
`runEvents` calls and iterations of its loop with any horizon, in any order, with any
handlers.  `trace` is the list of executed events, `calls` the list of all schedule
calls with the clock at which they were made.  `doOps true` is a build with sanity
checks, `doOps false` the default build; `none` means the process aborted.
-/
set_option autoImplicit false
namespace SST.Events
variable {S P : Type}

/-- Specification of the tie-breaking order: time, then link, then sequence number. -/
def Before (a b : Event P) : Prop :=
  a.time < b.time ∨
  (a.time = b.time ∧ (a.link < b.link ∨ (a.link = b.link ∧ a.seq < b.seq)))

/-! ### Programs used in the examples -/

/-- A handler that reacts to payload `n+1` by scheduling payload `n` two ticks later
on link 1, and (for even payloads) at the same time on link 0. -/
def demoHandler : Handler Nat Nat := fun u e =>
  match e.payload with
  | 0 => (u + 1, [])
  | n + 1 => (u + 1, [.schedule ⟨e.time + 2, 1, 10 * n, n⟩] ++
      (if n % 2 = 0 then [.schedule ⟨e.time, 7, 10 * n + 1, 0⟩] else []))

/-- A history of scheduling and running events used in examples. -/
def demoOps : List (Op Nat) :=
  [.sched ⟨5, 3, 0, 2⟩, .sched ⟨1, 2, 0, 3⟩, .enter, .tick none, .tick (some 4), .tick none,
   .tick none, .tick none, .tick none, .tick none, .tick none, .tick none, .tick none,
   .tick none, .tick none]

/-! ### C04 -/

/-- C04: in every checked history that does not abort, the executed events have
non-decreasing times. -/
theorem C04_time_order (h : Handler S P) (u : S) (ops : List (Op P)) (y : Exec S P)
    (hr : doOps true h (start u) ops = some y) :
    y.trace.Pairwise (fun a b => a.time ≤ b.time) :=
  (good_ops (good_start u) hr).order

/-- C04: the clock never decreases, whatever happens next. -/
theorem C04_clock_monotone (h : Handler S P) (u : S) (ops later : List (Op P)) (y z : Exec S P)
    (hy : doOps true h (start u) ops = some y) (hz : doOps true h y later = some z) :
    y.mgr.now ≤ z.mgr.now := by
  have : Good z ∧ y.mgr.now ≤ z.mgr.now := by
    refine history_induct (fun x => Good x ∧ y.mgr.now ≤ x.mgr.now) ?_ ?_ ?_
      ⟨good_ops (good_start u) hy, Nat.le_refl _⟩ hz
    · rintro x a w ⟨hx, hn⟩ ha
      refine ⟨good_act hx ha, ?_⟩
      have : w.mgr.now = x.mgr.now := by
        cases a with
        | schedule e =>
          simp only [doAct] at ha
          split at ha
          · cases ha
          · rename_i m hm; cases ha; rw [schedule_some hm]
        | remote e => simp [doAct] at ha; rw [← ha]
        | stop => simp [doAct] at ha; rw [← ha]
      omega
    · rintro x e q w ⟨hx, hn⟩ hq hle
      exact ⟨good_pop hx hq (hle rfl), Nat.le_trans hn (hle rfl)⟩
    · rintro x ⟨hx, hn⟩
      exact ⟨good_enter hx, hn⟩
  exact this.2

/-- C04: once something has run, the clock is the time of the last executed event. -/
theorem C04_clock_is_last_event (h : Handler S P) (u : S) (ops : List (Op P)) (y : Exec S P)
    (hr : doOps true h (start u) ops = some y) (hne : y.trace ≠ []) :
    y.trace.getLast?.map (·.time) = some y.mgr.now := by
  have := (good_ops (good_start u) hr).last
  rwa [if_neg hne] at this

/-- C04: a default build (no sanity checks) behaves exactly like a checked build on every
history on which the checked build does not abort. -/
theorem C04_unchecked_same (h : Handler S P) (u : S) (ops : List (Op P)) (y : Exec S P)
    (hr : doOps true h (start u) ops = some y) : doOps false h (start u) ops = some y :=
  ops_unchecked hr

example : ∃ y, doOps true demoHandler (start 0) demoOps = some y ∧ y.mgr.queue = [] ∧
    y.trace.map (·.time) = [1, 1, 3, 5, 5, 5, 7, 7, 7, 9] := by
  refine ⟨(doOps true demoHandler (start 0) demoOps).get (by decide), by simp, ?_, ?_⟩ <;> decide

/-- C04 is false of the default build: an event scheduled into the past runs, and the
clock goes backwards. -/
theorem C04_unchecked_refuted : ∃ (ops : List (Op Nat)) (y : Exec Nat Nat),
    doOps false demoHandler (start 0) ops = some y ∧
    ¬ y.trace.Pairwise (fun a b => a.time ≤ b.time) :=
  ⟨[.sched ⟨5, 0, 0, 0⟩, .tick none, .sched ⟨2, 0, 1, 0⟩, .tick none], _, rfl, by decide⟩

/-! ### C05 -/

/-- C05: at any point of a checked history without `stop()`, the executed events and the
queued events together are exactly the scheduled events, with multiplicity. -/
theorem C05_conservation (h : Handler S P) (u : S) (ops : List (Op P)) (y : Exec S P)
    (hr : doOps true h (start u) ops = some y) (hstop : y.mgr.stopped = false) :
    (y.trace ++ y.mgr.queue).Perm (y.calls.map (·.2)) :=
  conserved_ops (x := start u) (by intro _; simp [start, Mgr.init]) hr hstop

/-- C05: when the queue has run empty, every scheduled event was executed exactly once. -/
theorem C05_exactly_once (h : Handler S P) (u : S) (ops : List (Op P)) (y : Exec S P)
    (hr : doOps true h (start u) ops = some y) (hstop : y.mgr.stopped = false)
    (hempty : y.mgr.queue = []) :
    y.trace.Perm (y.calls.map (·.2)) := by
  have := C05_conservation h u ops y hr hstop
  rwa [hempty, List.append_nil] at this

example : ∃ y, doOps true demoHandler (start 0) demoOps = some y ∧ y.mgr.stopped = false ∧
    y.mgr.queue = [] ∧ y.calls.length = 10 := by
  refine ⟨(doOps true demoHandler (start 0) demoOps).get (by decide), by simp, ?_, ?_, ?_⟩ <;> decide

/-- C05 is false of the default build when two events have the same time, link and
sequence number: the second is dropped without any message. -/
theorem C05_unchecked_duplicate_refuted : ∃ (ops : List (Op Nat)) (y : Exec Nat Nat),
    doOps false demoHandler (start 0) ops = some y ∧ y.mgr.stopped = false ∧
    y.mgr.queue = [] ∧ ¬ y.trace.Perm (y.calls.map (·.2)) :=
  ⟨[.sched ⟨5, 0, 0, 0⟩, .sched ⟨5, 0, 0, 1⟩, .tick none], _, rfl, rfl, rfl, by
    intro h; exact absurd h.length_eq (by decide)⟩

/-- C05: the event that ends a time-limited simulation has the key of the first
self-event of the first component; if that self-event is due at the same time, the stop
request is silently lost (in every build). -/
theorem C05_stop_event_lost_refuted : ∃ (m : Mgr Nat) (e : Event Nat),
    e.link = selfLinkId 0 ∧ e.seq = 0 ∧ m.queue = [e] ∧
    (scheduleStop m e.time 99).queue = [e] :=
  ⟨{ (Mgr.init : Mgr Nat) with queue := [⟨7, selfLinkId 0, 0, 1⟩] }, ⟨7, selfLinkId 0, 0, 1⟩,
    rfl, rfl, rfl, by decide⟩

/-! ### C06 -/

/-- C06: scheduling the same events in another order from the same reachable state gives
the same queue, and from there on every history executes the same events in the same
order with the same results. -/
theorem C06_insertion_order_irrelevant (h : Handler S P) (u : S) (ops : List (Op P))
    (x y : Exec S P) (l₁ l₂ : List (Event P)) (hp : l₁.Perm l₂)
    (hx : doOps true h (start u) ops = some x)
    (hy : doOps true h x (l₁.map Op.sched) = some y) :
    ∃ y', doOps true h x (l₂.map Op.sched) = some y' ∧ y'.mgr = y.mgr ∧
      ∀ later z, doOps true h y later = some z →
        ∃ z', doOps true h y' later = some z' ∧
          z'.trace = z.trace ∧ z'.user = z.user ∧ z'.mgr = z.mgr := by
  obtain ⟨h1, h2, h3⟩ := ops_fill hy
  have hf := fill_true_perm hp (good_ops (good_start u) hx).sorted h1
  obtain ⟨y', g1, g2, g3, g4⟩ := fill_ops (h := h) hf
  refine ⟨y', g1, g2, ?_⟩
  intro later z hz
  obtain ⟨z', hz', hs⟩ := same_ops (y := y') ⟨g2.symm, by rw [h2, g3], by rw [h3, g4]⟩ hz
  exact ⟨z', hz', hs.2.2.symm, hs.2.1.symm, hs.1.symm⟩

/-- C06: the event executed next is the least pending one in the order time, link,
sequence number. -/
theorem C06_tie_break (h : Handler S P) (u : S) (ops : List (Op P)) (x y : Exec S P)
    (horizon : Option Nat) (hx : doOps true h (start u) ops = some x)
    (hy : step true h horizon x = .next y) :
    ∃ e, y.trace = x.trace ++ [e] ∧ e ∈ x.mgr.queue ∧
      ∀ e' ∈ x.mgr.queue, e' = e ∨ Before e e' := by
  have hs := (good_ops (good_start u) hx).sorted
  simp only [step] at hy
  split at hy
  · cases hy
  · rename_i e q hq
    split at hy
    · cases hy
    · split at hy
      · cases hy
      · split at hy
        · cases hy
        · rename_i w hw
          cases hy
          refine ⟨e, ?_, by simp [hq], ?_⟩
          · have : ∀ as (a b : Exec S P), doActs true a as = some b → b.trace = a.trace := by
              intro as
              induction as with
              | nil => intro a b h; simp [doActs] at h; rw [h]
              | cons c cs ih =>
                intro a b h
                simp only [doActs] at h
                split at h
                · cases h
                · rename_i d hd
                  rw [ih d b h]
                  cases c with
                  | schedule e =>
                    simp only [doAct] at hd
                    split at hd
                    · cases hd
                    · cases hd; rfl
                  | remote e => simp [doAct] at hd; rw [← hd]
                  | stop => simp [doAct] at hd; rw [← hd]
            rw [this _ _ _ hw]
          · intro e' he'
            rw [hq, Sorted, List.pairwise_cons] at hs
            rw [hq] at he'
            rcases List.mem_cons.1 he' with h1 | h1
            · exact Or.inl h1
            · exact Or.inr ((lt_iff _ _).1 (hs.1 e' h1))

example : ∃ y, doOps true demoHandler (start 0)
      (([⟨4, 2, 1, 0⟩, ⟨4, 1, 9, 0⟩, ⟨4, 2, 0, 1⟩] : List (Event Nat)).map Op.sched) = some y ∧
    y.mgr.queue.map (fun e => (e.link, e.seq)) = [(1, 9), (2, 0), (2, 1)] :=
  ⟨_, rfl, by decide⟩

/-- C06 is false of the default build when keys collide: which of two events with one key
survives depends on the insertion order. -/
theorem C06_unchecked_duplicate_refuted : ∃ (a b : Event Nat) (x y : Exec Nat Nat),
    doOps false demoHandler (start 0) [.sched a, .sched b] = some x ∧
    doOps false demoHandler (start 0) [.sched b, .sched a] = some y ∧
    x.mgr.queue ≠ y.mgr.queue :=
  ⟨⟨5, 0, 0, 0⟩, ⟨5, 0, 0, 1⟩, _, _, rfl, rfl, by decide⟩

/-! ### C07 -/

/-- C07: in a checked build a schedule call before the clock aborts, from outside ... -/
theorem C07_past_aborts (h : Handler S P) (x : Exec S P) (e : Event P)
    (hp : e.time < x.mgr.now) : doOp true h x (.sched e) = none := by
  simp [doOp, doAct, schedule, hp]

/-- ... and from inside a handler, at whatever position in its actions. -/
theorem C07_past_aborts_in_handler (x : Exec S P) (before after : List (Act P)) (e : Event P)
    (hp : e.time < x.mgr.now) : doActs true x (before ++ .schedule e :: after) = none := by
  induction before generalizing x with
  | nil => simp [doActs, doAct, schedule, hp]
  | cons a as ih =>
    simp only [List.cons_append, doActs]
    split
    · rfl
    · rename_i y hy
      apply ih
      cases a with
      | schedule e' =>
        simp only [doAct] at hy
        split at hy
        · cases hy
        · rename_i m hm; cases hy; rw [schedule_some hm]; exact hp
      | remote e' => simp [doAct] at hy; rw [← hy]; exact hp
      | stop => simp [doAct] at hy; rw [← hy]; exact hp

/-- C07: consequently every event ever executed had been scheduled, and every schedule call
was made at a clock not after the event's time. -/
theorem C07_never_early (h : Handler S P) (u : S) (ops : List (Op P)) (y : Exec S P)
    (hr : doOps true h (start u) ops = some y) :
    (∀ c ∈ y.calls, c.1 ≤ c.2.time) ∧
    (y.mgr.stopped = false → ∀ e ∈ y.trace, ∃ t, (t, e) ∈ y.calls ∧ t ≤ e.time) := by
  have hg := (good_ops (good_start u) hr).early
  refine ⟨hg, ?_⟩
  intro hs e he
  have := (C05_conservation h u ops y hr hs).mem_iff.1 (List.mem_append_left _ he)
  obtain ⟨c, hc, rfl⟩ := List.mem_map.1 this
  exact ⟨c.1, hc, hg c hc⟩

example : doOps true demoHandler (start 0)
    [.sched ⟨5, 0, 0, 0⟩, .tick none, .sched ⟨2, 0, 1, 0⟩] = none := by rfl

/-- C07 is false of the default build. -/
theorem C07_unchecked_refuted : ∃ (ops : List (Op Nat)) (y : Exec Nat Nat),
    doOps false demoHandler (start 0) ops = some y ∧
    ∃ c ∈ y.calls, c.2.time < c.1 ∧ c.2 ∈ y.trace :=
  ⟨[.sched ⟨5, 0, 0, 0⟩, .tick none, .sched ⟨2, 0, 1, 0⟩, .tick none], _, rfl,
    (5, ⟨2, 0, 1, 0⟩), by decide, by decide, by decide⟩

/-! ### C08 -/

/-- C08: if the events sent over the link with port `i` have non-decreasing arrival times
in the order of sending, they are executed in the order of sending (the executed ones are
an initial segment of the sent ones), whatever else is sent and scheduled, in both kinds
of build.  At most `2^32` sends on that link, because sequence numbers have 32 bits. -/
theorem C08_link_order_partial (sanity : Bool) (prog : LinkProgram S P) (u : S)
    (links : Nat → Link) (i : Nat) (ops : List (LOp P)) (y : Exec (S × (Nat → Link)) P)
    (hfresh : (links i).seq = 0)
    (hids : ∀ j, j ≠ i → (links j).id % 2^32 ≠ (links i).id % 2^32)
    (hr : doLOps sanity prog (start (u, links)) ops = some y)
    (hcount : ((y.calls.map (·.2)).filter (fun e => e.link == (links i).id % 2^32)).length ≤ 2^32)
    (hmono : ((y.calls.map (·.2)).filter (fun e => e.link == (links i).id % 2^32)).Pairwise
      (fun a b => a.time ≤ b.time)) :
    y.trace.filter (fun e => e.link == (links i).id % 2^32) <+:
      (y.calls.map (·.2)).filter (fun e => e.link == (links i).id % 2^32) := by
  have h0 : LinkInv i ((links i).id % 2^32) (start (u, links) : Exec (S × (Nat → Link)) P) := by
    constructor
    · simp [start, Mgr.init, Sorted]
    · rfl
    · exact hids
    · simp [start, hfresh]
    · simp [start]
    · simp [start, Mgr.init]
  have := (linkInv_ops h0 hr).split hcount hmono
  exact ⟨_, this.symm⟩

/-- Component used in the examples: answers payload `n+1` with `n` on port 0. -/
def pingProg : LinkProgram Nat Nat := fun u e =>
  match e.payload with
  | 0 => (u + 1, [])
  | n + 1 => (u + 1, [⟨0, 3, n⟩, ⟨0, 3, 0⟩])

example : ∃ y, doLOps true pingProg (start (0, fun i => ⟨i, 0, 4⟩))
      [.send ⟨1, 0, 2⟩, .enter, .tick none, .tick none, .tick none, .tick none, .tick none] = some y ∧
    ((y.calls.map (·.2)).filter (fun e => e.link == 0)).map (fun e => (e.time, e.seq, e.payload))
      = [(11, 0, 1), (11, 1, 0), (18, 2, 0), (18, 3, 0)] ∧
    (y.trace.filter (fun e => e.link == 0)).map (fun e => (e.time, e.seq, e.payload))
      = [(11, 0, 1), (11, 1, 0), (18, 2, 0), (18, 3, 0)] :=
  ⟨_, rfl, by decide, by decide⟩

/-- C08 without the bound on the number of sends is false: when the 32-bit counter wraps,
two events sent one after the other for the same time are delivered in reverse order.
(`seq = 2^32 - 1` is the counter after `2^32 - 1` sends.) -/
theorem C08_sequence_wrap_refuted : ∃ (y : Exec (Nat × (Nat → Link)) Nat),
    doLOps true pingProg (start (0, fun i => ⟨i, 2^32 - 1, 4⟩))
      [.send ⟨0, 0, 0⟩, .send ⟨0, 0, 0⟩, .enter, .tick none, .tick none] = some y ∧
    (y.calls.map (·.2)).map (fun e => (e.time, e.seq)) = [(4, 2^32 - 1), (4, 0)] ∧
    y.trace.map (fun e => (e.time, e.seq)) = [(4, 0), (4, 2^32 - 1)] :=
  ⟨_, rfl, by decide, by decide⟩

/-- C08: the sequence number given to the `n`-th send on a fresh link is `n` modulo
`2^32`, so the state used in the refutation is reached. -/
theorem C08_sequence_counter (prog : LinkProgram S P) (sanity : Bool) (u : S)
    (links : Nat → Link) (i : Nat) (ops : List (LOp P)) (y : Exec (S × (Nat → Link)) P)
    (hfresh : (links i).seq = 0)
    (hids : ∀ j, j ≠ i → (links j).id % 2^32 ≠ (links i).id % 2^32)
    (hr : doLOps sanity prog (start (u, links)) ops = some y) :
    (y.user.2 i).seq =
      ((y.calls.map (·.2)).filter (fun e => e.link == (links i).id % 2^32)).length % 2^32 := by
  have h0 : LinkInv i ((links i).id % 2^32) (start (u, links) : Exec (S × (Nat → Link)) P) := by
    constructor
    · simp [start, Mgr.init, Sorted]
    · rfl
    · exact hids
    · simp [start, hfresh]
    · simp [start]
    · simp [start, Mgr.init]
  exact (linkInv_ops h0 hr).counter

end SST.Events
