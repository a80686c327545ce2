set_option autoImplicit false
/-
Model of the life of simulated threads on one node: starting, blocking, being woken, joining
and ending (sstmac/software/process/operating_system.cc:301-340, 410-432, 454-579, 741-761;
sstmac/software/process/thread.cc:78-171, 388-400; sstmac/software/process/app.cc:438-450;
sstmac/software/libraries/unblock_event.cc:50-79;
sstmac/libraries/pthread/sstmac_pthread.cc:76-154).

Simulated threads are coroutines: one runs until it blocks or ends, then the event loop
continues.  All events of the node's operating system travel on its own self link with
increasing sequence numbers (event_scheduler.cc:108-115), so events of the same time run in
the order in which they were sent.

Simplifications: cores are always available, so `releaseCores` / `reserveCores` around a
sleep or a join do not block (cores are C57 and C83); the waiting lists of mutexes, condition
variables and queues are one list `waiting` of threads that wait and have not been woken,
and waking a thread takes it off its list (sstmac_pthread.cc:329-332, 494-497); one
application with its threads.
-/
namespace SST.Os.Threads

/-- Why a thread is blocked: a timer (`compute`, `sleep`, operating_system.cc:300-340), a
waiting list (`block`), a waiting list with a time limit (`blockTimeout`, 507-512), or the
end of another thread (`joinThread`, 526-544). -/
inductive Wait
  | timer (due : Nat)
  | list
  | timed
  | join (u : Nat)
deriving DecidableEq, Repr

/-- Progress of a thread: not created, created but not started (`PENDING`), on the
processor, blocked, or finished (`DONE`). -/
inductive St
  | new
  | pending
  | running
  | blocked (w : Wait)
  | done
deriving DecidableEq, Repr

/-- `Thread`, thread.h:82-420: its state, `block_counter_`, `timed_out_`, `joiners_`,
`detach_state_`, whether it is cancelled, and whether the object has been deleted.
`claimed` records that a thread has called `join` on it. -/
structure Th where
  st : St
  ctr : Nat
  timedOut : Bool
  joiners : List Nat
  joinable : Bool
  cancelled : Bool
  deleted : Bool
  claimed : Bool
deriving DecidableEq, Repr

/-- The events of the node: `switchToThread` (operating_system.cc:416), `startThread` (746),
`UnblockEvent`, `TimeoutEvent` with the block counter it was made with, and
`DeleteThreadEvent`. -/
inductive Ev
  | switchTo (t : Nat)
  | start (t : Nat)
  | unblock (t : Nat)
  | timeout (t ctr : Nat)
  | delete (t : Nat)
deriving DecidableEq, Repr

/-- A scheduled event. -/
structure Q where
  time : Nat
  ev : Ev
deriving DecidableEq, Repr

/-- The node: clock, pending events in the order in which they will run, `active_thread_`,
the threads, and the threads on waiting lists that nobody has woken. -/
structure Sys where
  now : Nat
  queue : List Q
  active : Option Nat
  th : Nat → Th
  waiting : List Nat

/-- What can go wrong: a deleted or finished thread is used, the process of the simulator
ends, or the step is not possible. -/
inductive Bad
  | ub
  | processExit
  | notPossible
deriving DecidableEq, Repr

/-- Scheduling on one self link: after all events of the same or an earlier time
(event_scheduler.cc:108-115 with the order of event_manager.h:298-309). -/
def ins (q : Q) : List Q → List Q
  | [] => [q]
  | x :: xs => if x.time ≤ q.time then x :: ins q xs else q :: x :: xs

/-- Change thread `t`. -/
def Sys.upd (s : Sys) (t : Nat) (f : Th → Th) : Sys :=
  { s with th := fun u => if u = t then f (s.th u) else s.th u }

/-- `sendDelayedExecutionEvent`. -/
def Sys.push (s : Sys) (d : Nat) (e : Ev) : Sys := { s with queue := ins ⟨s.now + d, e⟩ s.queue }

/-- `OperatingSystem::block`, operating_system.cc:454-469, up to the context switch. -/
def Sys.block (s : Sys) (t : Nat) (w : Wait) : Sys :=
  { s.upd t (fun h => { h with st := .blocked w, timedOut := false }) with active := none }

/-- `delete thr`: a second delete is undefined behaviour. -/
def Sys.del (s : Sys) (t : Nat) : Except Bad Sys :=
  if (s.th t).deleted then .error .ub else .ok (s.upd t fun h => { h with deleted := true })

/-- `switchToThread` from the event loop (operating_system.cc:420-431), then the end of
`block` on the thread (471-479) and the rest of the blocking call: `joinThread` deletes the
joined thread (542-543), a condition wait that timed out leaves its waiting list
(sstmac_pthread.cc:458-469).  A context that is not suspended cannot be resumed. -/
def Sys.resume (s : Sys) (t : Nat) : Except Bad Sys :=
  if (s.th t).deleted then .error .ub
  else match (s.th t).st with
    | .blocked w =>
      let s' := { s.upd t (fun h => { h with st := .running, ctr := h.ctr + 1 }) with active := some t }
      match w with
      | .join u => s'.del u
      | .timed => .ok (if (s.th t).timedOut then { s' with waiting := s'.waiting.erase t } else s')
      | _ => .ok s'
    | _ => .error .ub

/-- `OperatingSystem::unblock` and `switchToThread`, operating_system.cc:410-432, 514-524: a
cancelled thread is deleted; from a running thread the switch is sent as an event. -/
def Sys.wakeup (s : Sys) (t : Nat) : Except Bad Sys :=
  if (s.th t).deleted then .error .ub
  else if (s.th t).cancelled then s.del t
  else match s.active with
    | none => s.resume t
    | some _ => .ok (s.push 0 (.switchTo t))

/-- `completeActiveThread`, operating_system.cc:557-579: wake the joiners in order. -/
def Sys.wakeJoiners : Sys → List Nat → Except Bad Sys
  | s, [] => .ok s
  | s, j :: js => do
    let s ← s.wakeup j
    s.wakeJoiners js

/-- What a running thread can do. -/
inductive Call
  | compute (d : Nat)
  | wait
  | waitTimeout (d : Nat)
  | wake (u : Nat)
  | spawn (u : Nat) (joinable : Bool)
  | join (u : Nat)
  | exit
  | pthreadExit
  | appExit (subthreads : List Nat)
deriving DecidableEq, Repr

/-- `Thread::cleanup` of a thread of an application (thread.cc:107-123) and
`completeActiveThread`. -/
def Sys.finish (s : Sys) (t : Nat) : Except Bad Sys := do
  let js := (s.th t).joiners
  let s := if (s.th t).joinable then s else s.push 0 (.delete t)
  let s := s.upd t fun h => { h with st := .done, joiners := [] }
  let s ← s.wakeJoiners js
  .ok { s with active := none }

/-- One call of the running thread `t`. -/
def Sys.call (s : Sys) (t : Nat) : Call → Except Bad Sys
  -- `compute`, operating_system.cc:331-340; `sleep` is the same up to cores
  | .compute d => .ok ((s.push d (.unblock t)).block t (.timer (s.now + d)))
  -- e.g. sstmac_pthread.cc:275-276
  | .wait => .ok ({ s with waiting := s.waiting ++ [t] }.block t .list)
  -- `blockTimeout`, operating_system.cc:507-512, from sstmac_pthread.cc:445-453
  | .waitTimeout d =>
    .ok (({ s with waiting := s.waiting ++ [t] }.push d (.timeout t (s.th t).ctr)).block t .timed)
  -- e.g. sstmac_pthread.cc:330-332
  | .wake u => { s with waiting := s.waiting.erase u }.wakeup u
  -- `SSTMAC_pthread_create`, sstmac_pthread.cc:76-105, `startThread` 741-746
  | .spawn u j =>
    .ok ((s.upd u fun h => { h with st := .pending, joinable := j }).push 0 (.start u))
  -- `joinThread`, operating_system.cc:526-544
  | .join u =>
    if (s.th u).deleted then .error .ub
    else
      let s := s.upd u fun h => { h with claimed := true }
      if (s.th u).st = .done then s.del u
      else .ok ((s.upd u fun h => { h with joiners := h.joiners ++ [t] }).block t (.join u))
  -- the thread function returns: thread.cc:141-147
  | .exit => s.finish t
  -- `SSTMAC_pthread_exit`, sstmac_pthread.cc:115-121, throws `kill_exception`
  -- (thread.h:199-205), which `runRoutine` catches and returns (thread.cc:148-149).  When the
  -- function of a context returns, `fcontext` calls `_exit(0)`
  -- (asm/make_x86_64_sysv_elf_gas.S:53-57), and `ucontext` ends the process because `uc_link`
  -- is NULL (threading_ucontext.cc:93)
  | .pthreadExit => .error .processExit
  -- `App::cleanup`, app.cc:438-450, called for the main thread, which deletes itself
  | .appExit subs =>
    ({ s with th := fun u => if u ∈ subs then { s.th u with cancelled := true } else s.th u }).finish t

/-- The event loop runs the next event. -/
def Sys.pop (s : Sys) : Except Bad Sys :=
  match s.queue with
  | [] => .error .notPossible
  | q :: qs =>
    let s := { s with now := q.time, queue := qs }
    match q.ev with
    | .switchTo t => s.resume t
    -- `startThread` and `initThread`: the state is set to INITIALIZED whatever it was
    | .start t =>
      if (s.th t).deleted then .error .ub
      else .ok { s.upd t (fun h => { h with st := .running, cancelled := false }) with active := some t }
    | .unblock t => s.wakeup t
    | .timeout t c =>
      if (s.th t).deleted then .error .ub
      else if (s.th t).ctr = c then (s.upd t fun h => { h with timedOut := true }).wakeup t
      else .ok s
    | .delete t => s.del t

/-- A step: a call of the running thread, or, when none runs, the next event. -/
inductive Act
  | call (t : Nat) (c : Call)
  | pop
deriving DecidableEq, Repr

/-- One step. -/
def Sys.step (s : Sys) : Act → Except Bad Sys
  | .call t c => if s.active = some t then s.call t c else .error .notPossible
  | .pop => if s.active = none then s.pop else .error .notPossible

/-- A thread object before use. -/
def Th.fresh : Th := ⟨.new, 0, false, [], false, false, false, false⟩

/-- The node with the application's main thread 0 running. -/
def Sys.start : Sys :=
  ⟨0, [], some 0, fun t => if t = 0 then { Th.fresh with st := .running } else Th.fresh, []⟩

/-- Several steps. -/
def Sys.run (s : Sys) : List Act → Except Bad Sys
  | [] => .ok s
  | a :: as => do
    let s ← s.step a
    s.run as

/-- The calls of a program that follows the rules, without time limits, `pthread_exit` and
the end of the application: it wakes threads that wait, creates threads that do not exist,
and joins a joinable thread other than itself at most once. -/
def Proper (s : Sys) (t : Nat) : Call → Prop
  | .compute _ => True
  | .wait => True
  | .wake u => u ∈ s.waiting
  | .spawn u _ => (s.th u).st = .new
  | .join u => u ≠ t ∧ (s.th u).st ≠ .new ∧ (s.th u).joinable = true ∧ (s.th u).claimed = false
  | .exit => True
  | .waitTimeout _ => False
  | .pthreadExit => False
  | .appExit _ => False

/-- States a proper program reaches. -/
inductive Reach : Sys → Prop
  | start : Reach Sys.start
  | call {s s' : Sys} {t : Nat} {c : Call} : Reach s → Proper s t c → s.step (.call t c) = .ok s' → Reach s'
  | pop {s s' : Sys} : Reach s → s.step .pop = .ok s' → Reach s'

end SST.Os.Threads
