set_option autoImplicit false

/-!
# Identities of threads, values of keys and affinities

Model of the calls of the pthread library that name threads: `pthread_create`, `pthread_self`,
`pthread_join`, `pthread_detach`, the keys and values of a thread, and the calls that read and set
the cpu masks of threads (sstmac/libraries/pthread/sstmac_pthread.cc), with `std::thread`
(sstmac/software/process/thread.cc:410-444) and what lies under them in `App`, `Thread` and
`OperatingSystem`.

One node of the machine is modelled; threads that get a number on other nodes are the action
`elsewhere`.  Cores and the times at which threads run are not part of this model (see
Os/Cores.lean and Os/Threads.lean), nor are mutexes and conditions (Os/Mutex.lean).  An object is
named by the order in which it was made; the address of an object is never used again.  Numbers of
keys are unbounded here, where the code has an `int`.
-/

namespace Verif.Os.Pth

/-- `Thread::main_thread`, thread.h:127: the number of a thread that has none yet. -/
def noId : Nat := 2 ^ 32 - 1

/-- A `Thread` object, thread.h:440-475: the process that it belongs to (named by the object of its
main thread; an `App` is a `Thread`), the rank `tid()`, the number `thread_id_`, whether its context
was started, whether it is `DONE`, `detach_state_`, whether it was deleted, whether it is the thread
of a `std::thread`, `tls_values_` and `cpumask_`. -/
structure Thr where
  app : Nat
  rank : Nat
  id : Nat
  started : Bool
  done : Bool
  detached : Bool
  freed : Bool
  std : Bool
  tls : List (Nat × Nat)
  mask : BitVec 64

/-- `cpumask_ = ~0`, thread.cc:187 and :196. -/
def allCores : BitVec 64 := BitVec.allOnes 64

/-- State of a node: the counter `THREAD_ID_CNT` (thread.cc:74), the number of objects, the objects,
`App::subthreads_` and `App::next_tls_key_` (app.h:263) of each process,
`OperatingSystem::running_threads_` (operating_system.h:408), the start events that are scheduled,
the joins that wait (who, for whom, the number that was named in `pthread_join`), and whether the
simulator has aborted or its behaviour is undefined. -/
structure St where
  cnt : Nat
  n : Nat
  thr : Nat → Thr
  subs : Nat → List (Nat × Nat)
  nextKey : Nat → Nat
  running : List (Nat × Nat)
  starts : List Nat
  waits : List (Nat × Nat × Option Nat)
  halted : Bool

/-- A node before any process is started. -/
def St.init : St :=
  ⟨0, 0, fun _ => ⟨0, 0, noId, false, false, true, false, false, [], allCores⟩, fun _ => [], fun _ => 0, [], [], [], false⟩

/-- `std::map::find`. -/
def look (l : List (Nat × Nat)) (k : Nat) : Option Nat :=
  match l with
  | [] => none
  | (a, b) :: r => if a = k then some b else look r k

/-- `std::map::erase`. -/
def del (l : List (Nat × Nat)) (k : Nat) : List (Nat × Nat) := l.filter fun p => p.1 ≠ k

/-- `map[k] = v`. -/
def put (l : List (Nat × Nat)) (k v : Nat) : List (Nat × Nat) := (k, v) :: del l k

/-- Assignment to one place of a function. -/
def upd {α : Type} (f : Nat → α) (i : Nat) (a : α) : Nat → α := fun j => if j = i then a else f j

/-- What happens: a process starts, a thread gets its number on another node, a thread (the first
argument) makes a call, a scheduled start happens, a thread returns from its routine. -/
inductive Act where
  /-- A process of this rank is started. -/
  | launch (rank : Nat)
  /-- A thread gets its number on another node. -/
  | elsewhere
  /-- `pthread_create` with the attributes (detached, cpu mask). -/
  | create (c : Nat) (attr : Option (Bool × BitVec 64))
  /-- The constructor of `std::thread`. -/
  | std (c : Nat)
  /-- The next scheduled start. -/
  | start
  /-- `pthread_self`. -/
  | self (c : Nat)
  /-- `pthread_join`. -/
  | join (c i : Nat)
  /-- `std::thread::join` on the object `k`. -/
  | joinStd (c k : Nat)
  /-- `pthread_detach`. -/
  | detach (c i : Nat)
  /-- The routine of the thread returns this value. -/
  | finish (c ret : Nat)
  /-- `pthread_key_create` with a destructor (0: none). -/
  | key (c dtor : Nat)
  /-- `pthread_key_delete`. -/
  | keyDel (c k : Nat)
  /-- `pthread_setspecific`. -/
  | set (c k v : Nat)
  /-- `pthread_getspecific`. -/
  | get (c k : Nat)
  /-- `sched_setaffinity`. -/
  | schedSet (c : Nat) (m : BitVec 64)
  /-- `sched_getaffinity`. -/
  | schedGet (c : Nat)
  /-- `pthread_setaffinity_np`. -/
  | affSet (c i : Nat) (m : BitVec 64)
  /-- `pthread_getaffinity_np`. -/
  | affGet (c i : Nat)

/-- What can be seen of it. -/
inductive Out where
  /-- A new thread `k`, to which the caller got the number `i`. -/
  | made (k i : Nat)
  /-- The call returned this number. -/
  | num (v : Nat)
  /-- The call returned this mask. -/
  | mask (m : BitVec 64)
  /-- The call returned 0. -/
  | ok
  /-- The call returned `EINVAL`. -/
  | einval
  /-- The join of thread `k` returned; what was stored in `*status`, if anything. -/
  | joined (k : Nat) (status : Option Nat)
  /-- The caller waits for the end of thread `k`. -/
  | blocked (k : Nat)
  /-- Thread `k` was detached. -/
  | detached (k : Nat)
  /-- The thread ended: the threads whose joins returned, the destructors that were called. -/
  | ended (joiners : List Nat) (dtors : List (Nat × Nat))
  /-- The simulator stops with an error. -/
  | abort
  /-- The deleted object `k` is used, or deleted again. -/
  | ub (k : Nat)
  deriving DecidableEq

/-- A thread that can make a call: started, not ended, not waiting in a join, its process alive. -/
def St.runs (s : St) (c : Nat) : Bool :=
  decide (c < s.n) && (s.thr c).started && !(s.thr c).done && !(s.waits.any fun w => w.1 == c) && !(s.thr (s.thr c).app).freed

/-- `THREAD_ID_CNT++`, thread.cc:74, an unsigned number of 32 bits. -/
def St.bump (s : St) : St := { s with cnt := (s.cnt + 1) % 2 ^ 32 }

/-- A new object. -/
def St.add (s : St) (t : Thr) : St := { s with n := s.n + 1, thr := upd s.thr s.n t }

/-- `OperatingSystem::startApp` and `startThread` with no active thread, operating_system.cc:741-761
and :781-789, for a new `App` (app.cc:227-236), whose number is given by `initId`, thread.cc:231-242.
The detach state of an `App` is the default of thread.cc:191. -/
def launch (s : St) (rank : Nat) : St :=
  let k := s.n
  let s1 := (s.add ⟨k, rank, s.cnt, true, false, true, false, false, [], allCores⟩).bump
  { s1 with running := put s1.running rank k }

/-- `SSTMAC_pthread_create`, sstmac_pthread.cc:76-106, with `PthreadRunner`,
sstmac_pthread_runner.cc:52-66, `App::addSubthread`, app.cc:568-575, and `startThread` with an active
thread, operating_system.cc:744-746 and :761.  `initId` is `thread.cc:231-242`. -/
def create (s : St) (c : Nat) (attr : Option (Bool × BitVec 64)) : St :=
  let k := s.n
  let p := (s.thr c).app
  let d := match attr with | some (d, _) => d | none => false
  let m := match attr with | some (_, m) => m | none => allCores
  let s1 := (s.add ⟨p, (s.thr c).rank, s.cnt, false, false, d, false, false, [], m⟩).bump
  { s1 with subs := upd s1.subs p (put (s1.subs p) s.cnt k), running := put s1.running (s.thr c).rank k, starts := s1.starts ++ [k] }

/-- `start_std_thread`, thread.cc:432-439, with `stdThread`, thread.cc:410-423.  Its number is still
`main_thread` when it is returned; it is not in `subthreads_`. -/
def std (s : St) (c : Nat) : St :=
  let k := s.n
  let s1 := s.add ⟨(s.thr c).app, (s.thr c).rank, noId, false, false, false, false, true, [], allCores⟩
  { s1 with running := put s1.running (s.thr c).rank k, starts := s1.starts ++ [k] }

/-- `startThread` as an event, operating_system.cc:747-761, with `initThread` and `initId`,
thread.cc:80-99 and :231-242. -/
def begin_ (s : St) (k : Nat) (r : List Nat) : St :=
  let t := s.thr k
  let s1 := if t.id = noId then { s.bump with thr := upd s.thr k { t with id := s.cnt, started := true } } else { s with thr := upd s.thr k { t with started := true } }
  { s1 with running := put s1.running t.rank k, starts := r }

/-- `delete t` in `joinThread` and `DeleteThreadEvent`; deleting twice is undefined. -/
def free (s : St) (k : Nat) : Option St :=
  if (s.thr k).freed then none else some { s with thr := upd s.thr k { s.thr k with freed := true } }

/-- The end of `joinThread`, operating_system.cc:542-543, and `App::removeSubthread`,
sstmac_pthread.cc:151 and app.cc:589-593, for `pthread_join`. -/
def afterJoin (s : St) (p k : Nat) (via : Option Nat) : Option St :=
  (free { s with running := del s.running (s.thr k).rank } k).map fun s1 =>
    match via with
    | some i => { s1 with subs := upd s1.subs p (del (s1.subs p) i) }
    | none => s1

/-- `joinThread`, operating_system.cc:526-544, of the object `k` by `c`. -/
def joinThread (s : St) (c k : Nat) (via : Option Nat) : St × Out :=
  if (s.thr k).freed then ({ s with halted := true }, .ub k)
  else if (s.thr k).done then
    match afterJoin s (s.thr c).app k via with
    | some s1 => (s1, .joined k none)
    | none => ({ s with halted := true }, .ub k)
  else ({ s with waits := s.waits ++ [(c, k, via)] }, .blocked k)

/-- The joins that waited for `k` return, `completeActiveThread`, operating_system.cc:566-573. -/
def wake (s : St) (k : Nat) : List (Nat × Nat × Option Nat) → Option St
  | [] => some s
  | (c, _, via) :: r =>
    match afterJoin s (s.thr c).app k via with
    | some s1 => wake s1 k r
    | none => none

/-- `Thread::cleanup`, thread.cc:106-123, then `completeActiveThread`, operating_system.cc:556-578:
the waiting joins return, then the scheduled deletion happens.  An `App` has no `parent_app_` and is
always deleted.  The value that the routine returned is dropped, sstmac_pthread_runner.cc:70-74;
destructors of keys (`tls_key_fxns_`, app.cc:117-124) are never called. -/
def finish (s : St) (c : Nat) : St × Out :=
  let t := s.thr c
  let own := decide (t.app = c)
  let s1 := { s with thr := upd s.thr c { t with done := true } }
  let s2 := if t.detached && !own then { s1 with subs := upd s1.subs t.app (del (s1.subs t.app) t.id) } else s1
  let ws := s2.waits.filter fun w => w.2.1 == c
  let s3 := { s2 with waits := s2.waits.filter fun w => w.2.1 != c }
  match wake s3 c ws with
  | none => ({ s with halted := true }, .ub c)
  | some s4 =>
    if t.detached || own then
      match free s4 c with
      | some s5 => (s5, .ended (ws.map (·.1)) [])
      | none => ({ s with halted := true }, .ub c)
    else (s4, .ended (ws.map (·.1)) [])

/-- Whether the process of `c` has a thread other than `c` that has not ended.  The end of a process
with running threads is not part of this model (see Os/Threads.lean). -/
def St.busy (s : St) (c : Nat) : Bool :=
  (List.range s.n).any fun k => k != c && (s.thr k).app == c && !(s.thr k).done

/-- One action; `none` if it cannot happen. -/
def step (s : St) (a : Act) : Option (St × Out) :=
  if s.halted then none else
  match a with
  | .launch r => some (launch s r, .made s.n s.cnt)
  | .elsewhere => some (s.bump, .ok)
  | .create c attr => if s.runs c then some (create s c attr, .made s.n s.cnt) else none
  | .std c => if s.runs c then some (std s c, .made s.n noId) else none
  | .start =>
    match s.starts with
    | [] => none
    | k :: r => some (begin_ s k r, .ok)
  -- `SSTMAC_pthread_self`, sstmac_pthread.cc:166-172
  | .self c => if s.runs c then some (s, .num (s.thr c).id) else none
  -- `SSTMAC_pthread_join`, sstmac_pthread.cc:133-153; `getSubthread` throws, app.cc:577-587
  | .join c i =>
    if s.runs c then
      match look (s.subs (s.thr c).app) i with
      | none => some ({ s with halted := true }, .abort)
      | some k => some (joinThread s c k (some i))
    else none
  -- `join_std_thread`, thread.cc:441-444
  | .joinStd c k => if s.runs c && (decide (k < s.n) && (s.thr k).std) then some (joinThread s c k none) else none
  -- `SSTMAC_pthread_detach`, sstmac_pthread.cc:683-689
  | .detach c i =>
    if s.runs c then
      match look (s.subs (s.thr c).app) i with
      | none => some ({ s with halted := true }, .abort)
      | some k =>
        if (s.thr k).freed then some ({ s with halted := true }, .ub k)
        else some ({ s with thr := upd s.thr k { s.thr k with detached := true } }, .detached k)
    else none
  | .finish c _ => if s.runs c && !((s.thr c).app == c && s.busy c) then some (finish s c) else none
  -- `SSTMAC_pthread_key_create`, sstmac_pthread.cc:536-543, `App::allocateTlsKey`, app.cc:117-124
  | .key c _ =>
    if s.runs c then
      let p := (s.thr c).app
      some ({ s with nextKey := upd s.nextKey p (s.nextKey p + 1) }, .num (s.nextKey p))
    else none
  -- `SSTMAC_pthread_key_delete`, sstmac_pthread.cc:545-551
  | .keyDel c _ => if s.runs c then some (s, .ok) else none
  -- `SSTMAC_pthread_setspecific`, sstmac_pthread.cc:553-561, `Thread::setTlsValue`, thread.cc:260-264
  | .set c k v =>
    if s.runs c then some ({ s with thr := upd s.thr c { s.thr c with tls := put (s.thr c).tls k v } }, .ok) else none
  -- `SSTMAC_pthread_getspecific`, sstmac_pthread.cc:563-579, `Thread::getTlsValue`, thread.cc:251-258
  | .get c k => if s.runs c then some (s, .num ((look (s.thr c).tls k).getD 0)) else none
  -- `SSTMAC_sched_setaffinity`, sstmac_sched.cc:171-184
  | .schedSet c m => if s.runs c then some ({ s with thr := upd s.thr c { s.thr c with mask := m } }, .ok) else none
  -- `SSTMAC_sched_getaffinity`, sstmac_sched.cc:186-192
  | .schedGet c => if s.runs c then some (s, .mask (s.thr c).mask) else none
  -- `SSTMAC_pthread_setaffinity_np`, sstmac_pthread.cc:781-791, `getThread`, operating_system.cc:823-832
  | .affSet c i m =>
    if s.runs c then
      match look s.running i with
      | none => some (s, .einval)
      | some k =>
        if (s.thr k).freed then some ({ s with halted := true }, .ub k)
        else some ({ s with thr := upd s.thr k { s.thr k with mask := m } }, .ok)
    else none
  -- `SSTMAC_pthread_getaffinity_np`, sstmac_pthread.cc:793-803
  | .affGet c i =>
    if s.runs c then
      match look s.running i with
      | none => some (s, .einval)
      | some k => if (s.thr k).freed then some ({ s with halted := true }, .ub k) else some (s, .mask (s.thr k).mask)
    else none

/-- The histories of a node: what happened and what could be seen, and the state after it. -/
inductive Run : St → List (Act × Out) → Prop
  | init : Run St.init []
  | step {s s' : St} {h : List (Act × Out)} {a : Act} {o : Out} : Run s h → step s a = some (s', o) → Run s' (h ++ [(a, o)])

end Verif.Os.Pth
