/-
Simulated pthread mutexes and condition variables (sstmac/libraries/pthread/sstmac_pthread.cc,
sstmac/software/process/mutex.h).

Threads are numbers. A simulated thread runs until it blocks, so each call is one step. An unblocked thread
resumes later (`OperatingSystem::switchToThread`, operating_system.cc:411-432), but nothing can prevent its
call from succeeding, so it counts as inside from then on. The table of
mutexes (`getMutex`) is not modelled: a call on an unknown mutex returns `EINVAL` and changes nothing.
-/
set_option autoImplicit false
namespace SST.Os

/-- `mutex_t`, mutex.h:11-21. -/
structure Mut where
  locked : Bool
  waiters : List Nat
  conds : List Nat
deriving DecidableEq, Repr

/-- A new mutex, mutex.h:18. -/
def Mut.new : Mut := ⟨false, [], []⟩

/-- What a call does to its caller: it returns a code, or it blocks. -/
inductive Ret
  | code (n : Nat)
  | blocked
deriving DecidableEq, Repr

/-- `EINVAL`. -/
def einval : Nat := 22

/-- `SSTMAC_pthread_mutex_lock`, sstmac_pthread.cc:260-281; also `stdMutex::lock`, thread.cc. -/
def Mut.lock (m : Mut) (t : Nat) : Mut × Ret :=
  if m.locked then ({ m with waiters := m.waiters ++ [t] }, .blocked) else ({ m with locked := true }, .code 0)

/-- `SSTMAC_pthread_mutex_trylock`, sstmac_pthread.cc:291-308. -/
def Mut.trylock (m : Mut) : Mut × Ret := if m.locked then (m, .code 1) else (m, .code 0)

/-- `SSTMAC_pthread_mutex_unlock`, sstmac_pthread.cc:317-337: the return code, and the thread that is
unblocked, whose `lock` call then returns 0. -/
def Mut.unlock (m : Mut) : Mut × Nat × Option Nat :=
  if !m.locked then (m, einval, none)
  else match m.waiters with
    | w :: ws => ({ m with waiters := ws }, 0, some w)
    | [] => ({ m with locked := false }, 0, none)

/-- `SSTMAC_pthread_cond_timedwait` without a timeout, sstmac_pthread.cc:409-456: the caller blocks; if
threads wait for the mutex, the first is unblocked by an event of the same time (`UnblockEvent`,
339-359), taken here as part of the call. -/
def Mut.condWait (m : Mut) (t : Nat) : Mut × Option Nat :=
  match m.waiters with
  | w :: ws => ({ m with waiters := ws, conds := m.conds ++ [t] }, some w)
  | [] => ({ m with locked := false, conds := m.conds ++ [t] }, none)

/-- `SSTMAC_pthread_cond_signal` for a condition variable used with this mutex, sstmac_pthread.cc:474-500: the
thread unblocked. `none` is the abort "signaled, but there are no waiting threads". -/
def Mut.signal (m : Mut) : Option (Mut × Nat) :=
  match m.conds with
  | [] => none
  | c :: cs => some ({ m with locked := true, conds := cs }, c)

/-- `SSTMAC_pthread_once`, sstmac_pthread.cc:525-535: the control variable afterwards and whether the
routine is run. -/
def once (control : Nat) : Nat × Bool := if control = 0 then (0, true) else (control, false)

/-- `SSTMAC_pthread_rwlock_wrlock`, and its relatives, sstmac_pthread.cc:691-719: the code
returned. There is no state. -/
def rwlock : Nat := 0

/-! ### What threads observe -/

/-- A call of thread `t`. -/
inductive Call
  | lock (t : Nat)
  | trylock (t : Nat)
  | unlock (t : Nat)
  | wait (t : Nat)
  | signal (t : Nat)
deriving DecidableEq, Repr

/-- The mutex; the threads inside the critical section, that is those whose last `lock`, `trylock` or
condition wait has succeeded and which have not called `unlock` or waited since; and all threads that
have entered it, in order. -/
structure World where
  m : Mut
  inside : List Nat
  entered : List Nat
deriving DecidableEq, Repr

/-- Thread `t` enters. -/
def World.enter (w : World) (t : Nat) : World := { w with inside := w.inside ++ [t], entered := w.entered ++ [t] }

/-- A thread that is unblocked enters. -/
def World.enterOpt (w : World) : Option Nat → World
  | none => w
  | some t => w.enter t

/-- The effect of a call. `none`: the simulation aborts. -/
def World.step (w : World) : Call → Option World
  | .lock t => let r := w.m.lock t; some (if r.2 = .code 0 then World.enter { w with m := r.1 } t else { w with m := r.1 })
  | .trylock t => let r := w.m.trylock; some (if r.2 = .code 0 then World.enter { w with m := r.1 } t else { w with m := r.1 })
  | .unlock t => let r := w.m.unlock; some (World.enterOpt { w with m := r.1, inside := w.inside.erase t } r.2.2)
  | .wait t => let r := w.m.condWait t; some (World.enterOpt { w with m := r.1, inside := w.inside.erase t } r.2)
  | .signal _ => match w.m.signal with
    | none => none
    | some (m, c) => some (World.enter { w with m := m } c)

/-- Calls a correct program makes: a running thread (not one that is blocked) locks a mutex it does not
hold, and unlocks or waits with a mutex it holds. -/
def World.Proper (w : World) : Call → Prop
  | .lock t => t ∉ w.inside ∧ t ∉ w.m.waiters ∧ t ∉ w.m.conds
  | .trylock t => t ∉ w.inside ∧ t ∉ w.m.waiters ∧ t ∉ w.m.conds
  | .unlock t => t ∈ w.inside
  | .wait t => t ∈ w.inside
  | .signal t => t ∉ w.m.waiters ∧ t ∉ w.m.conds

/-- A world that can be reached by a program that makes the calls `calls`, all of a kind `K`. -/
inductive Reach (K : Call → Prop) : World → List Call → Prop
  | start : Reach K ⟨.new, [], []⟩ []
  | call {w w' : World} {cs : List Call} {c : Call} (h : Reach K w cs) (hk : K c) (hp : w.Proper c) (hs : w.step c = some w') :
      Reach K w' (cs ++ [c])

end SST.Os
