import Verif.Otf2.ReplayRun
set_option autoImplicit false
/-!
# C122: the replay of a trace does what the traced program did

The specification is in `Spec.lean`: programs, the traces they leave, and `faithful`, what the replay of
a program should do.
-/

namespace Verif.Otf2

theorem made_of_inv {conv : Nat → Int} {size : Nat → Nat} {ops : List Op} {used : List Nat} {s : St}
    {E : List XC} {L : List (Call × XC)} (hi : Inv conv used (pending [] ops) none s E L [])
    (he : E ++ L.map (·.2) = ops.flatMap (callsOf size)) :
    E = (ops.takeWhile (finished (pending [] ops))).flatMap (callsOf size) := by
  rw [← takeWhile_calls, ← he]
  symm
  apply takeWhile_split
  · intro c hc
    unfold okc
    split
    · rename_i a b c' d r hr
      rw [hi.made c hc a b c' d r hr]; rfl
    · rfl
  · intro c hc
    rw [List.head?_map] at hc
    cases hL : L.head? with
    | none => rw [hL] at hc; simp at hc
    | some x =>
      rw [hL] at hc; simp at hc; subst hc
      have hr := hi.head x (by rw [hL]; rfl)
      obtain ⟨r, m, h1, _, h3⟩ := (hi.fits x (List.mem_of_mem_head? (by rw [hL]; rfl))).waiting hr
      simp [okc, h3, h1]

/-- C122.  The replay of the trace of a program does not fail, and it does what the program did up to the
first receive whose request never completes: the same calls with the same arguments in the same order,
and between them computations for the time between the calls.
Partial: programs with blocking sends other than MPI_Send, with MPI_Sendrecv, with persistent receives
or with several requests completed by one test have traces for which this fails, as shown below. -/
theorem C122_replay_partial (conv : Nat → Int) (size : Nat → Nat) (ops : List Op) (hl : Legal [] [] ops)
    (ht : ∀ op ∈ ops, conv op.stop ≠ 0) :
    ∃ s, replay conv size (record [] ops) = .ok s ∧
      seen s.out = seen (faithful conv size none (ops.takeWhile (finished (pending [] ops)))) := by
  obtain ⟨s, E, L, used, h1, h2, h3⟩ := inv_program size ops (inv_init conv) hl
  refine ⟨s, h1, ?_⟩
  have hE := made_of_inv h2 (by simpa using h3)
  have hem := h2.emitted
  have : s.out = (emit conv (0, []) E).2 := by rw [← hem]
  rw [this, hE]
  have := emit_program conv size (ops.takeWhile (finished (pending [] ops))) none [] (by simp)
    (fun op ho => ht op ((List.takeWhile_sublist _).subset ho))
  simpa [seen] using this

/-- C122.  If moreover every receive completes, the replay does all that the program did, and leaves no
call in its queue. -/
theorem C122_complete_partial (conv : Nat → Int) (size : Nat → Nat) (ops : List Op) (hl : Legal [] [] ops)
    (ht : ∀ op ∈ ops, conv op.stop ≠ 0)
    (hp : ∀ r m, (r, some m) ∉ pending [] ops) :
    ∃ s, replay conv size (record [] ops) = .ok s ∧ s.queue = [] ∧
      seen s.out = seen (faithful conv size none ops) := by
  obtain ⟨s, E, L, used, h1, h2, h3⟩ := inv_program size ops (inv_init conv) hl
  have hmem : ∀ (pend : Pend) r m, find r pend = some (some m) → (r, some m) ∈ pend := by
    intro pend
    induction pend with
    | nil => intro r m h; simp [find] at h
    | cons a l ih =>
      obtain ⟨k, v⟩ := a
      intro r m h
      rw [find] at h
      split at h
      · rename_i hk; subst hk; simp at h; subst h; simp
      · exact List.mem_cons_of_mem _ (ih r m h)
  have hL : L = [] := by
    cases L with
    | nil => rfl
    | cons x L =>
      obtain ⟨r, m, hr, _, _⟩ := (h2.fits x (by simp)).waiting (h2.head x (by simp))
      exact absurd (hmem _ r m hr) (hp r m)
  refine ⟨s, h1, by rw [h2.queue, hL]; rfl, ?_⟩
  subst hL
  have hE : E = ops.flatMap (callsOf size) := by simpa using h3
  have hem := h2.emitted
  have : s.out = (emit conv (0, []) E).2 := by rw [← hem]
  rw [this, hE]
  have := emit_program conv size ops none [] (by simp) ht
  simpa [seen] using this

/-- A program with a receive and a send that overlap, a wait for both, a test, a region that is not
replayed, and a collective. -/
def demo : List Op :=
  [⟨.init, 1, 2⟩,
   ⟨.irecv ⟨1, 0, 7, 64⟩ 10, 5, 6⟩,
   ⟨.isend .isend 1 0 7 32 11, 8, 9⟩,
   ⟨.send 2 0 3 16, 12, 14⟩,
   ⟨.skipped 0, 15, 16⟩,
   ⟨.complete .waitall [11, 10], 20, 30⟩,
   ⟨.irecv ⟨2, 0, 3, 8⟩ 12, 31, 32⟩,
   ⟨.probe .test none, 33, 34⟩,
   ⟨.probe .test (some 12), 35, 36⟩,
   ⟨.coll 0 .allreduce 0 0 16 16, 40, 50⟩,
   ⟨.finalize, 60, 61⟩]

/-- Communicators of four ranks. -/
def four : Nat → Nat := fun _ => 4

/-- The clock of the examples. -/
def clock : Nat → Int := fun t => (t : Int)

example : Legal [] [] demo ∧ (∀ op ∈ demo, clock op.stop ≠ 0) ∧ pending [] demo = [] := by
  refine ⟨?_, ?_, by decide +kernel⟩
  · simp [demo, Legal, allowed, usedAfter, pendAfter, simple, waits, drop]
  · simp [demo, clock]

example : seen (faithful clock four none demo) =
    [.compute 3, .call (.irecv 1 0 7 64 10), .compute 2, .call (.isend 1 0 7 32 11),
     .compute 3, .call (.send 2 0 3 16), .compute 6, .call (.wait 11), .call (.wait 10),
     .compute 1, .call (.irecv 2 0 3 8 12), .compute 1, .compute 1, .call (.wait 12),
     .compute 4, .call (.allreduce 1 0), .compute 10, .call .finalize] := by decide +kernel

/-- What is looked at of a replay: its error, or what it did and how many calls it left. -/
def shown (r : Except Err St) : Sum Err (List Out × Nat) :=
  match r with
  | .error e => .inl e
  | .ok s => .inr (seen s.out, s.queue.length)

/-- C122.  For every trace, well-formed or not: calls are replayed in the order in which they were
entered, each at most once, and none is left out before one that is replayed. -/
theorem C122_order (conv : Nat → Int) (size : Nat → Nat) (es : List Ev) (s : St)
    (h : replay conv size es = .ok s) : s.done ++ s.queue.map (·.ptr) = List.range s.next := by
  have hdrain : ∀ (q : List Call) (s : St), (drain conv q s).done ++ (drain conv q s).queue.map (·.ptr)
      = s.done ++ q.map (·.ptr) ∧ (drain conv q s).next = s.next := by
    intro q s
    rw [drain_eq]
    refine ⟨?_, rfl⟩
    simp only [List.append_assoc, ← List.map_append, List.takeWhile_append_dropWhile]
  have hready : ∀ p (s s' : St), callReady conv p s = .ok s' →
      s'.done ++ s'.queue.map (·.ptr) = s.done ++ s.queue.map (·.ptr) ∧ s'.next = s.next := by
    intro p s s' h
    unfold callReady at h
    split at h
    · simp only [Except.ok.injEq] at h
      subst h
      have := hdrain (update p (fun c => { c with ready := true }) s.queue) s
      rw [update_ptrs _ _ _ (fun _ => by rfl)] at this
      exact this
    · simp at h
  let Good : St → Prop := fun s => s.done ++ s.queue.map (·.ptr) = List.range s.next
  have hupd : ∀ (s : St) p (f : Call → Call), (∀ c, (f c).ptr = c.ptr) → Good s →
      ∀ reqs, Good { s with queue := update p f s.queue, reqs := reqs } := by
    intro s p f hf hg reqs
    show _ ++ _ = _
    rw [update_ptrs _ _ _ hf]; exact hg
  have hemp : ∀ id t a (s : St), Good s → Good (emplace id t a s) := by
    intro id t a s hg
    show s.done ++ (s.queue ++ [_]).map Call.ptr = List.range (s.next + 1)
    rw [List.map_append, ← List.append_assoc, List.range_succ]
    have : s.done ++ s.queue.map (·.ptr) = List.range s.next := hg
    rw [this]; rfl
  have hwait : ∀ r (s s' : St), Good s → addWait conv r s = .ok s' → Good s' := by
    intro r s s' hg h
    unfold addWait at h
    cases hp : peekBack s.queue with
    | error e => rw [hp] at h; simp [bind, Except.bind] at h
    | ok w =>
      rw [hp] at h
      simp only [bind, Except.bind] at h
      cases ht : w.trig with
      | none =>
        rw [ht] at h
        simp only [pure, Except.pure, Except.ok.injEq] at h
        subst h
        exact hupd s w.ptr _ (fun _ => by rfl) hg s.reqs
      | some a =>
        rw [ht] at h
        have h1 := hready _ _ _ h
        have h2 := hupd _ w.ptr (fun c => { c with stop := c.start }) (fun _ => by rfl)
          (hemp .wait w.start (some (.wait r)) s hg) s.reqs
        have h2' : _ ++ _ = List.range (s.next + 1) := h2
        show _ ++ _ = List.range s'.next
        rw [h1.1, h1.2]
        exact h2'
  have hleave : ∀ id t a (s s' : St), Good s → leaveReady conv id t a s = .ok s' → Good s' := by
    intro id t a s s' hg h
    unfold leaveReady at h
    split at h
    · simp at h
    · rename_i c _
      have h1 := hready _ _ _ h
      have h2 := hupd s c.ptr (fun x => { x with stop := t, trig := a.getD x.trig }) (fun _ => by rfl) hg s.reqs
      show _ ++ _ = List.range s'.next
      rw [h1.1, h1.2]
      exact h2
  have hstep : ∀ (s : St) e s', Good s → step conv size s e = .ok s' → Good s' := by
    intro s e s' hg h
    cases e with
    | enter id t =>
      cases id <;> simp only [step, Except.ok.injEq] at h <;> subst h <;>
        first | exact hg | exact hemp _ _ _ s hg
    | leave id t =>
      cases id with
      | ignored n => simp only [step, Except.ok.injEq] at h; subst h; exact hg
      | irecv =>
        simp only [step] at h
        split at h
        · simp at h
        · simp only [Except.ok.injEq] at h; subst h
          exact hupd s _ _ (fun _ => by rfl) hg s.reqs
      | _ => exact hleave _ _ _ s s' hg h
    | send d c t l =>
      simp only [step] at h
      split at h
      · simp at h
      · simp only [Except.ok.injEq] at h; subst h
        exact hupd s _ _ (fun _ => by rfl) hg s.reqs
    | recv d c t l =>
      simp only [step] at h
      split at h
      · simp at h
      · simp only [Except.ok.injEq] at h; subst h
        exact hupd s _ _ (fun _ => by rfl) hg s.reqs
    | isend d c t l r =>
      simp only [step] at h
      cases hp : peekBack s.queue with
      | error e => rw [hp] at h; simp [bind, Except.bind] at h
      | ok w =>
        rw [hp] at h
        simp only [bind, Except.bind, pure, Except.pure, Except.ok.injEq] at h
        subst h
        exact hupd s _ _ (fun _ => by rfl) hg _
    | isendComplete r =>
      simp only [step] at h
      cases hp : addWait conv r s with
      | error e => rw [hp] at h; simp [bind, Except.bind] at h
      | ok s1 =>
        rw [hp] at h
        simp only [bind, Except.bind, pure, Except.pure, Except.ok.injEq] at h
        subst h
        exact hwait r s s1 hg hp
    | irecvRequest r =>
      simp only [step] at h
      cases hp : peekBack s.queue with
      | error e => rw [hp] at h; simp [bind, Except.bind] at h
      | ok w =>
        rw [hp] at h
        simp only [bind, Except.bind, pure, Except.pure, Except.ok.injEq] at h
        subst h
        exact hg
    | irecv a b c d r =>
      simp only [step] at h
      split at h
      · simp at h
      · rename_i p _
        split at h
        · cases hp : addWait conv r { s with queue := update p (fun x => { x with trig := some (.irecv a b c d r) }) s.queue } with
          | error e => rw [hp] at h; simp [bind, Except.bind] at h
          | ok s1 =>
            rw [hp] at h
            simp only [bind, Except.bind] at h
            have h1 := hready _ _ _ h
            have h2 := hwait r _ s1 (hupd s p _ (fun _ => by rfl) hg s.reqs) hp
            show _ ++ _ = List.range s'.next
            rw [h1.1, h1.2]
            exact h2
        · simp at h
    | requestTest r => simp only [step, Except.ok.injEq] at h; subst h; exact hg
    | requestCancelled r => simp only [step, Except.ok.injEq] at h; subst h; exact hg
    | collectiveBegin => simp only [step, Except.ok.injEq] at h; subst h; exact hg
    | collectiveEnd o c root a b =>
      simp only [step] at h
      split at h
      · simp only [Except.ok.injEq] at h; subst h; exact hg
      · cases hp : peekBack s.queue with
        | error e => rw [hp] at h; simp [bind, Except.bind] at h
        | ok w =>
          rw [hp] at h
          simp only [bind, Except.bind, pure, Except.pure, Except.ok.injEq] at h
          subst h
          exact hupd s _ _ (fun _ => by rfl) hg s.reqs
  have hrun : ∀ es (s s' : St), Good s → run conv size es s = .ok s' → Good s' := by
    intro es
    induction es with
    | nil => intro s s' hg h; simp [run] at h; subst h; exact hg
    | cons e es ih =>
      intro s s' hg h
      rw [run] at h
      cases hs : step conv size s e with
      | error x => rw [hs] at h; simp at h
      | ok s1 => rw [hs] at h; exact ih s1 s' (hstep s e s1 hg hs) h
  exact hrun es {} s rfl h

example : (replay clock four (record [] demo)).toOption.map (fun s => (s.done, s.next)) = some (List.range 11, 11) := by
  decide +kernel

/-- What a tracer records for a collective of `n` bytes per rank on `p` ranks (the comments of
callbacks.cc:550-595): the bytes sent and received, at the root or elsewhere. -/
def recorded (op : CollOp) (n p : Nat) (root : Bool) : Nat × Nat :=
  match op with
  | .bcast => (if root then n * p else 0, n)
  | .scatter => (if root then n * p else 0, n)
  | .gather => (n, if root then n * p else 0)
  | .reduce => (n, if root then n * p else 0)
  | .reduceScatter => (n, if root then n * p else 0)
  | _ => (n * p, n * p)

/-- The call of a collective of `n` bytes per rank. -/
def wanted (op : CollOp) (n root comm : Nat) : Option Act :=
  match op with
  | .barrier => some (.barrier comm)
  | .bcast => some (.bcast n root comm)
  | .scatter => some (.scatter n n root comm)
  | .gather => some (.gather n n root comm)
  | .allgather => some (.allgather n n comm)
  | .alltoall => some (.alltoall n n comm)
  | .allreduce => some (.allreduce (n / 4) comm)
  | .reduce => some (.reduce (n / 4) root comm)
  | _ => none

/-- C122.  From the bytes that were recorded, the replay finds the count of the call, on every rank. -/
theorem C122_sizes (op : CollOp) (n p root comm : Nat) (atRoot : Bool) (hp : 0 < p)
    (ho : op ∈ [CollOp.barrier, .bcast, .scatter, .gather, .allgather, .alltoall, .allreduce, .reduce]) :
    collAct op comm root (recorded op n p atRoot).1 (recorded op n p atRoot).2 p = wanted op n root comm := by
  have hd : n * p / p = n := Nat.mul_div_cancel n hp
  simp only [List.mem_cons, List.not_mem_nil, or_false] at ho
  rcases ho with rfl | rfl | rfl | rfl | rfl | rfl | rfl | rfl <;> simp [collAct, recorded, wanted, hd]

example : recorded .bcast 4 4 true = (16, 4) ∧ recorded .bcast 4 4 false = (0, 4) ∧
    wanted .allreduce 4 0 0 = some (.allreduce 1 0) := by decide

/-- C122 is refuted for reductions of bytes: counts are in units of four bytes, so that a reduction of
two bytes is replayed as one of nothing. -/
theorem C122_bytes_refuted :
    collAct .reduce 0 0 (recorded .reduce 2 4 true).1 (recorded .reduce 2 4 true).2 4 = some (.reduce 0 0 0) ∧
      collAct .allreduce 0 0 (recorded .allreduce 3 4 true).1 (recorded .allreduce 3 4 true).2 4
        = some (.allreduce 0 0) := by decide

/-- C122 is refuted for MPI_Reduce_scatter: the ranks call it with different counts. -/
theorem C122_reduce_scatter_refuted :
    ∃ n p, collAct .reduceScatter 0 0 (recorded .reduceScatter n p true).1 (recorded .reduceScatter n p true).2 p
      ≠ collAct .reduceScatter 0 0 (recorded .reduceScatter n p false).1 (recorded .reduceScatter n p false).2 p :=
  ⟨4, 4, by decide⟩

/-- C122 is refuted for collectives with counts for each rank: they are not replayed at all. -/
theorem C122_vectors_refuted (conv : Nat → Int) (n : Nat) (op : CollOp) (comm root s v start stop : Nat)
    (size : Nat → Nat) (ho : op ∈ [CollOp.gatherv, .scatterv, .allgatherv, .alltoallv, .alltoallw]) :
    ∃ st, replay conv size (record [] [⟨.coll n op comm root s v, start, stop⟩]) = .ok st ∧ st.out = [] := by
  obtain ⟨st, E, L, used, h1, h2, h3⟩ := inv_program size [⟨.coll n op comm root s v, start, stop⟩]
    (inv_init conv) ⟨trivial, trivial⟩
  refine ⟨st, h1, ?_⟩
  have hE := made_of_inv h2 (by simpa using h3)
  have hem := h2.emitted
  have : st.out = (emit conv (0, []) E).2 := by rw [← hem]
  rw [this, hE]
  simp only [List.mem_cons, List.not_mem_nil, or_false] at ho
  rcases ho with rfl | rfl | rfl | rfl | rfl <;>
    simp [List.takeWhile_cons, finished, callsOf, collAct, emit, emit1, startMpi, actOf]

/-- C122 is refuted for a blocking send that is not MPI_Send, and for MPI_Sendrecv: the replay aborts. -/
theorem C122_sendrecv_refuted :
    shown (replay clock four [.enter .sendrecv 1, .send 1 0 0 8, .recv 1 0 0 8, .leave .sendrecv 2]) = .inl .abort ∧
      shown (replay clock four [.enter .ssend 1, .send 1 0 0 8, .leave .ssend 2]) = .inl .abort := by
  decide +kernel

/-- C122 is refuted: with an MPI_Send still in the queue, a synchronous send takes its place; the message
to rank 1 is never sent. -/
theorem C122_lost_refuted :
    shown (replay clock four
      [.enter .irecv 1, .irecvRequest 5, .leave .irecv 2,
       .enter .send 3, .send 1 0 0 8, .leave .send 4,
       .enter .ssend 5, .send 2 0 0 16, .leave .ssend 6,
       .enter .wait 7, .irecv 3 0 0 4 5, .leave .wait 8])
      = .inr ([.call (.irecv 3 0 0 4 5), .compute 1, .call (.send 2 0 0 16), .compute 1, .compute 1,
          .call (.wait 5)], 0) := by decide +kernel

/-- C122 is refuted for a test that completes two requests: the replay aborts. -/
theorem C122_testall_refuted :
    shown (replay clock four
      [.enter .isend 1, .isend 1 0 0 8 5, .leave .isend 2,
       .enter .isend 3, .isend 2 0 0 8 6, .leave .isend 4,
       .enter .testall 5, .isendComplete 5, .isendComplete 6, .leave .testall 7]) = .inl .abort := by
  decide +kernel

/-- C122 is refuted for persistent receives: the call that started the request has been destroyed when the
request completes. -/
theorem C122_persistent_refuted :
    shown (replay clock four
      [.enter .start 1, .irecvRequest 5, .leave .start 2,
       .enter .wait 3, .irecv 1 0 0 8 5, .leave .wait 4]) = .inl .undefined := by decide +kernel

/-- C122 is refuted for a call that starts two sends: only the last is replayed. -/
theorem C122_startall_refuted :
    shown (replay clock four
      [.enter .startall 1, .isend 1 0 0 8 5, .isend 2 0 0 8 6, .leave .startall 2])
      = .inr ([.call (.isend 2 0 0 8 6)], 0) := by decide +kernel

/-- C122 is refuted for a receive that is cancelled or whose request is never completed: nothing that
follows it is replayed, however much. -/
theorem C122_dangling_refuted (n : Nat) :
    ∃ s, replay clock four (record [] (⟨.irecv ⟨1, 0, 0, 8⟩ 5, 1, 2⟩ ::
        List.replicate n ⟨.send 1 0 0 8, 3, 4⟩)) = .ok s ∧ s.out = [] := by
  have hl : ∀ n used pend, Legal used pend (List.replicate n ⟨.send 1 0 0 8, 3, 4⟩) := by
    intro n
    induction n with
    | zero => intro used pend; trivial
    | succ n ih => intro used pend; exact ⟨trivial, ih used pend⟩
  have hp : ∀ n pend, pending pend (List.replicate n ⟨.send 1 0 0 8, 3, 4⟩) = pend := by
    intro n
    induction n with
    | zero => intro pend; rfl
    | succ n ih => intro pend; exact ih pend
  obtain ⟨s, E, L, used, h1, h2, h3⟩ := inv_program four
    (⟨.irecv ⟨1, 0, 0, 8⟩ 5, 1, 2⟩ :: List.replicate n ⟨.send 1 0 0 8, 3, 4⟩) (inv_init clock)
    ⟨by simp [allowed], hl n _ _⟩
  refine ⟨s, h1, ?_⟩
  have hE := made_of_inv h2 (by simpa using h3)
  have hpend : pending [] (⟨.irecv ⟨1, 0, 0, 8⟩ 5, 1, 2⟩ :: List.replicate n ⟨.send 1 0 0 8, 3, 4⟩)
      = [(5, some ⟨1, 0, 0, 8⟩)] := hp n _
  rw [hpend] at hE
  have : E = [] := by rw [hE]; simp [List.takeWhile_cons, finished]
  have hem := h2.emitted
  rw [this] at hem
  exact congrArg Prod.snd hem

/-- C122 is refuted for a call that ends at the beginning of the clock: the time between it and the next
call is not computed. -/
theorem C122_zero_refuted :
    shown (replay clock four (record [] [⟨.plain (.other 0), 0, 0⟩, ⟨.send 1 0 0 8, 100, 101⟩]))
      = .inr ([.call (.send 1 0 0 8)], 0) ∧
    seen (faithful clock four none [⟨.plain (.other 0), 0, 0⟩, ⟨.send 1 0 0 8, 100, 101⟩])
      = [.compute 100, .call (.send 1 0 0 8)] := by decide +kernel

end Verif.Otf2
