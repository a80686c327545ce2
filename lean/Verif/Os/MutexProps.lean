import Verif.Os.Mutex
/-
C56, C80, C81 and C82.
-/
set_option autoImplicit false
namespace SST.Os

/-- The `lock` and `unlock` calls. -/
def LockUnlock : Call → Prop
  | .lock _ => True
  | .unlock _ => True
  | _ => False

/-- The threads that called `lock`, in order. -/
def lockers (cs : List Call) : List Nat := cs.filterMap fun | .lock t => some t | _ => none

theorem lockers_append (a b : List Call) : lockers (a ++ b) = lockers a ++ lockers b := by
  unfold lockers; rw [List.filterMap_append]

/-- What holds throughout: the mutex is locked exactly when one thread is inside, and threads wait only
then. -/
structure MOk (w : World) (cs : List Call) : Prop where
  shape : (w.m.locked = false ∧ w.inside = [] ∧ w.m.waiters = []) ∨ (w.m.locked = true ∧ ∃ t, w.inside = [t])
  order : w.entered ++ w.m.waiters = lockers cs

theorem reach_ok {w : World} {cs : List Call} (h : Reach LockUnlock w cs) : MOk w cs := by
  induction h with
  | start => exact ⟨.inl ⟨rfl, rfl, rfl⟩, rfl⟩
  | @call w w' cs c h hk hp hs ih =>
    obtain ⟨⟨locked, waiters, conds⟩, inside, entered⟩ := w
    have ho : entered ++ waiters = lockers cs := ih.order
    cases c with
    | trylock t => exact hk.elim
    | wait t => exact hk.elim
    | signal t => exact hk.elim
    | lock t =>
      have hl : lockers (cs ++ [.lock t]) = lockers cs ++ [t] := lockers_append _ _
      cases locked with
      | false =>
        have hs := Option.some.inj hs
        rcases ih.shape with ⟨_, h2, h3⟩ | ⟨h1, _⟩
        · subst hs
          simp only at h2 h3
          subst h2 h3
          refine ⟨.inr ⟨rfl, t, rfl⟩, ?_⟩
          show entered ++ [t] ++ [] = _
          rw [hl, ← ho, List.append_nil, List.append_nil]
        · cases h1
      | true =>
        have hs := Option.some.inj hs
        rcases ih.shape with ⟨h1, _⟩ | ⟨_, u, hu⟩
        · cases h1
        · subst hs
          refine ⟨.inr ⟨rfl, u, hu⟩, ?_⟩
          show entered ++ (waiters ++ [t]) = _
          rw [hl, ← ho, List.append_assoc]
    | unlock t =>
      have hl : lockers (cs ++ [.unlock t]) = lockers cs := by rw [lockers_append]; exact List.append_nil _
      replace hp : t ∈ inside := hp
      rcases ih.shape with ⟨_, h2, _⟩ | ⟨h1, u, hu⟩
      · simp only at h2
        subst h2
        cases hp
      · simp only at h1 hu
        subst h1 hu
        rw [List.mem_singleton] at hp
        subst hp
        have hs := Option.some.inj hs
        cases waiters with
        | nil =>
          subst hs
          refine ⟨.inl ⟨rfl, ?_, rfl⟩, ?_⟩
          · show [t].erase t = []
            simp
          · show entered ++ [] = _
            rw [hl, ← ho]
        | cons x xs =>
          subst hs
          refine ⟨.inr ⟨rfl, x, ?_⟩, ?_⟩
          · show [t].erase t ++ [x] = [x]
            simp
          · show entered ++ [x] ++ xs = _
            rw [hl, ← ho, List.append_assoc]; rfl

/-- **C56** (partial). In every history of `lock` and `unlock` calls of a correct program, at most one
thread is inside the critical section. What is missing: `trylock` (`C56_trylock_refuted`). -/
theorem C56_exclusive_partial {w : World} {cs : List Call} (h : Reach LockUnlock w cs) : w.inside.length ≤ 1 := by
  rcases (reach_ok h).shape with ⟨_, h2, _⟩ | ⟨_, u, hu⟩
  · rw [h2]; exact Nat.zero_le _
  · rw [hu]; exact Nat.le_refl _

/-- **C56** (partial). Threads enter in the order of their `lock` calls: those that have entered and those
that wait are, in this order, those that have called. -/
theorem C56_order_partial {w : World} {cs : List Call} (h : Reach LockUnlock w cs) : w.entered ++ w.m.waiters = lockers cs :=
  (reach_ok h).order

/-- **C56** (partial). No thread waits while nobody is inside, so a mutex is never lost. -/
theorem C56_not_lost_partial {w : World} {cs : List Call} (h : Reach LockUnlock w cs) (hw : w.m.waiters ≠ []) : w.inside ≠ [] := by
  rcases (reach_ok h).shape with ⟨_, _, h3⟩ | ⟨_, u, hu⟩
  · exact (hw h3).elim
  · rw [hu]; simp

/-- **C56**. Unlocking a locked mutex with waiters hands it to the first of them and keeps it locked. -/
theorem C56_hand_off (m : Mut) (x : Nat) (xs : List Nat) (hl : m.locked = true) (hw : m.waiters = x :: xs) :
    m.unlock = ({ m with waiters := xs }, 0, some x) := by
  unfold Mut.unlock
  rw [hl, hw]
  rfl

/-- Run a list of calls. -/
def World.run (w : World) : List Call → Option World
  | [] => some w
  | c :: cs => match w.step c with
    | none => none
    | some w' => w'.run cs

/-- Each call is proper when it is made. -/
def World.allProper (w : World) : List Call → Prop
  | [] => True
  | c :: cs => w.Proper c ∧ match w.step c with
    | none => True
    | some w' => w'.allProper cs

instance (w : World) (c : Call) : Decidable (w.Proper c) := by
  cases c <;> unfold World.Proper <;> infer_instance

instance decAllProper : (w : World) → (cs : List Call) → Decidable (w.allProper cs)
  | _, [] => isTrue trivial
  | w, c :: cs => by
    unfold World.allProper
    cases w.step c with
    | none => exact inferInstance
    | some w' =>
      have := decAllProper w' cs
      exact inferInstance

theorem run_reach {K : Call → Prop} (cs : List Call) {w w' : World} {done : List Call} (h : Reach K w done) (hk : ∀ c ∈ cs, K c) (hp : w.allProper cs)
    (hr : w.run cs = some w') : Reach K w' (done ++ cs) := by
  induction cs generalizing w done with
  | nil =>
    cases hr
    rw [List.append_nil]; exact h
  | cons c cs ih =>
    simp only [World.run] at hr
    cases hs : w.step c with
    | none => rw [hs] at hr; cases hr
    | some w1 =>
      rw [hs] at hr
      have hp2 := hp.2
      rw [hs] at hp2
      have := ih (Reach.call h (hk c (List.mem_cons_self ..)) hp.1 hs) (fun x hx => hk x (List.mem_cons_of_mem _ hx)) hp2 hr
      rw [List.append_assoc] at this
      exact this

/-- Three threads lock, and the first two unlock. -/
example : ∃ w, Reach LockUnlock w [.lock 1, .lock 2, .lock 3, .unlock 1, .unlock 2] ∧ w.inside = [3] ∧ w.entered = [1, 2, 3] :=
  ⟨⟨⟨true, [], []⟩, [3], [1, 2, 3]⟩,
    run_reach [.lock 1, .lock 2, .lock 3, .unlock 1, .unlock 2] .start (by intro c hc; simp only [List.mem_cons, List.not_mem_nil, or_false] at hc; rcases hc with rfl | rfl | rfl | rfl | rfl <;> trivial) (by decide) (by decide),
    rfl, rfl⟩

/-- **C56** (refuted). A successful `trylock` does not lock the mutex: a second thread gets in. -/
theorem C56_trylock_refuted : ∃ w, Reach (fun _ => True) w [.trylock 1, .lock 2] ∧ w.inside = [1, 2] :=
  ⟨⟨⟨true, [], []⟩, [1, 2], [1, 2]⟩, run_reach [.trylock 1, .lock 2] .start (fun _ _ => trivial) (by decide) (by decide), rfl⟩

/-- **C80** (refuted). A thread woken by `cond_signal` runs although the signalling thread is still inside
the critical section. -/
theorem C80_signal_refuted : ∃ w, Reach (fun _ => True) w [.lock 1, .wait 1, .lock 2, .signal 2] ∧ w.inside = [2, 1] :=
  ⟨⟨⟨true, [], []⟩, [2, 1], [1, 2, 1]⟩,
    run_reach [.lock 1, .wait 1, .lock 2, .signal 2] .start (fun _ _ => trivial) (by decide) (by decide), rfl⟩

/-- **C80** (refuted). Signalling when no thread waits, which must do nothing, aborts the simulation. -/
theorem C80_abort_refuted : ∃ w, Reach (fun _ => True) w [.lock 1] ∧ w.Proper (.signal 1) ∧ w.step (.signal 1) = none :=
  ⟨⟨⟨true, [], []⟩, [1], [1]⟩, run_reach [.lock 1] .start (fun _ _ => trivial) (by decide) (by decide), by decide, by decide⟩

/-- **C81** (refuted). The routine of `pthread_once` is run again by every call. -/
theorem C81_refuted : (once 0).2 = true ∧ (once (once 0).1).2 = true := by decide

/-- The threads that hold a write lock after the threads of `ts` have asked for it, none releasing it. -/
def writers (ts : List Nat) : List Nat := ts.filter fun _ => decide (rwlock = 0)

/-- **C82** (refuted). Every thread that asks for a write lock gets it at once, whoever holds it. -/
theorem C82_refuted (ts : List Nat) : writers ts = ts := List.filter_eq_self.mpr fun _ _ => rfl

example : writers [1, 2] = [1, 2] := C82_refuted _

end SST.Os
