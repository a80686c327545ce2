import Verif.Os.Cores
/-
Completion queues (`MultiProgressQueue`, sstmac/software/process/progress_queue.h:186-262, and
`ProgressQueue`, progress_queue.cc:50-74), with the way the operating system resumes threads
(`switchToThread`, operating_system.cc:411-432).

A thread that is inside a blocking call is resumed either at once, if the event loop runs, or by a later
event, if another thread runs.
-/
set_option autoImplicit false
namespace SST.Os.Progress

/-- Where a thread is. -/
inductive Place
  /-- Not in a blocking call on this object. -/
  | out
  /-- Blocked in `find(cq)`. -/
  | find (cq : Nat)
  /-- Blocked in `find_any()`. -/
  | any
deriving DecidableEq, Repr

/-- The state; threads and items are numbers. The last four fields are a record for the statements. -/
structure St where
  /-- `queues`. -/
  queues : Nat → List Nat
  /-- `pending_threads`. -/
  pending : Nat → List Nat
  /-- `any_threads`. -/
  anyThreads : List Nat
  /-- The threads for which a resume event is scheduled, in order. -/
  wakes : List Nat
  place : Nat → Place
  /-- The items that have arrived: queue and item. -/
  arrived : List (Nat × Nat)
  /-- The items handed out: thread, queue and item. -/
  got : List (Nat × Nat × Nat)
  /-- The threads whose call returned without an item. -/
  nulls : List Nat
  /-- The threads resumed while they were not in a call. -/
  spurious : List Nat

/-- Nothing has happened. -/
def St.init : St := ⟨fun _ => [], fun _ => [], [], [], fun _ => .out, [], [], [], []⟩

/-- Returning from `find(cq)`, progress_queue.h:237-248. -/
def St.take (s : St) (t cq : Nat) : St :=
  match s.queues cq with
  | [] => { s with nulls := s.nulls ++ [t], place := upd s.place t .out }
  | x :: xs => { s with queues := upd s.queues cq xs, got := s.got ++ [(t, cq, x)], place := upd s.place t .out }

/-- The first queue that is not empty, progress_queue.h:198-204; `n`: the number of queues. -/
def St.firstFull (n : Nat) (s : St) : Option Nat := (List.range n).find? fun cq => (s.queues cq).isEmpty == false

/-- Returning from `find_any()`, progress_queue.h:211-224. -/
def St.takeAny (n : Nat) (s : St) (t : Nat) : St :=
  match s.firstFull n with
  | none => { s with nulls := s.nulls ++ [t], place := upd s.place t .out }
  | some cq => s.take t cq

/-- Resuming a thread: the end of `ProgressQueue::block`, progress_queue.cc:59, and what follows it. -/
def St.resume (n : Nat) (s : St) (t : Nat) : St :=
  match s.place t with
  | .out => { s with spurious := s.spurious ++ [t] }
  | .find cq => St.take { s with pending := upd s.pending cq ((s.pending cq).filter (· ≠ t)) } t cq
  | .any => St.takeAny n { s with anyThreads := s.anyThreads.filter (· ≠ t) } t

/-- A blocking `find(cq)` of thread `t`, progress_queue.h:227-249. -/
def St.find (s : St) (t cq : Nat) : St :=
  if s.queues cq = [] then { s with pending := upd s.pending cq (s.pending cq ++ [t]), place := upd s.place t (.find cq) }
  else s.take t cq

/-- A blocking `find_any()` of thread `t`, progress_queue.h:197-225. -/
def St.findAny (n : Nat) (s : St) (t : Nat) : St :=
  match s.firstFull n with
  | none => { s with anyThreads := s.anyThreads ++ [t], place := upd s.place t .any }
  | some cq => s.take t cq

/-- `incoming(cq, item)`, progress_queue.h:251-260; `des`: called from the event loop, and not by a thread. -/
def St.incoming (n : Nat) (des : Bool) (s : St) (cq x : Nat) : St :=
  let s := { s with queues := upd s.queues cq (s.queues cq ++ [x]), arrived := s.arrived ++ [(cq, x)] }
  match s.pending cq, s.anyThreads with
  | t :: _, _ => if des then s.resume n t else { s with wakes := s.wakes ++ [t] }
  | [], t :: _ => if des then s.resume n t else { s with wakes := s.wakes ++ [t] }
  | [], [] => s

/-- What can happen, with queues `0`, ..., `n - 1`. -/
inductive Step (n : Nat) : St → St → Prop
  | find {s : St} (t cq : Nat) (h : s.place t = .out) (hc : cq < n) : Step n s (s.find t cq)
  | findAny {s : St} (t : Nat) (h : s.place t = .out) : Step n s (s.findAny n t)
  | incoming {s : St} (des : Bool) (cq x : Nat) (hc : cq < n) : Step n s (s.incoming n des cq x)
  /-- The first scheduled resume event. -/
  | fire {s : St} (t : Nat) (rest : List Nat) (h : s.wakes = t :: rest) : Step n s (St.resume n { s with wakes := rest } t)
  /-- A `TimeoutEvent`, unblock_event.cc:68-78, of a thread that still is in the call it was made for. -/
  | timeout {s : St} (t : Nat) (h : s.place t ≠ .out) : Step n s (s.resume n t)

/-- The states that can be reached. -/
inductive Reach (n : Nat) : St → Prop
  | init : Reach n .init
  | step {s s' : St} (h : Reach n s) (hs : Step n s s') : Reach n s'

/-- The states that can be reached if items only arrive from the event loop. -/
inductive ReachDes (n : Nat) : St → Prop
  | init : ReachDes n .init
  | find {s : St} (h : ReachDes n s) (t cq : Nat) (hp : s.place t = .out) (hc : cq < n) : ReachDes n (s.find t cq)
  | findAny {s : St} (h : ReachDes n s) (t : Nat) (hp : s.place t = .out) : ReachDes n (s.findAny n t)
  | incoming {s : St} (h : ReachDes n s) (cq x : Nat) (hc : cq < n) : ReachDes n (s.incoming n true cq x)
  | timeout {s : St} (h : ReachDes n s) (t : Nat) (hp : s.place t ≠ .out) : ReachDes n (s.resume n t)

end SST.Os.Progress
