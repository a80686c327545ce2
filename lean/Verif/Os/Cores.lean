/-
Scheduling of cores to threads: `SimpleComputeScheduler`
(sstmac/software/process/simple_compute_scheduler.cc) and `CpusetComputeScheduler`
(sstmac/software/process/cpuset_compute_scheduler.cc), with the core lists of `Thread`
(sstmac/software/process/thread.h:293-319).

Threads are numbers. A thread that is unblocked resumes as a later event (`switchToThread`,
operating_system.cc:411-432).
-/
set_option autoImplicit false
namespace SST.Os

/-- Replace the value of a function at one point. -/
def upd {α : Type} (f : Nat → α) (t : Nat) (a : α) : Nat → α := fun u => if u = t then a else f u

/-! ### The simple scheduler -/

/-- The scheduler and the cores of each thread. `woken`: threads that have been unblocked and have not yet
run, with the number of cores each asked for. -/
structure Simple where
  ncores : Nat
  active : Nat
  pending : List (Nat × Nat)
  woken : List (Nat × Nat)
  held : Nat → List Nat

/-- A node of `n` cores on which nothing runs. -/
def Simple.new (n : Nat) : Simple := ⟨n, 0, [], [], fun _ => []⟩

/-- `SimpleComputeScheduler::reserveCores`, simple_compute_scheduler.cc:53-89, up to the point where the
thread continues or blocks. After being unblocked the thread tests again, so a retry is the same. -/
def Simple.reserve (s : Simple) (n t : Nat) : Simple :=
  if n + s.active > s.ncores then { s with pending := s.pending ++ [(n, t)] }
  else { s with active := s.active + n, held := upd s.held t (s.held t ++ List.range' s.active n) }

/-- The search for a thread that fits, simple_compute_scheduler.cc:103-117. -/
def firstFit (free : Nat) : List (Nat × Nat) → Option (Nat × Nat)
  | [] => none
  | p :: ps => if p.1 ≤ free then some p else firstFit free ps

/-- `SimpleComputeScheduler::releaseCores`, simple_compute_scheduler.cc:91-121. `none`: the thread does not
have that many cores (`vector::pop_back` on an empty vector). -/
def Simple.release (s : Simple) (n t : Nat) : Option Simple :=
  if (s.held t).length < n then none
  else
    let s' := { s with active := s.active - n, held := upd s.held t ((s.held t).take ((s.held t).length - n)) }
    match firstFit (s'.ncores - s'.active) s'.pending with
    | none => some s'
    | some p => some { s' with pending := s'.pending.erase p, woken := s'.woken ++ [p] }

/-- A step of the node: a running thread reserves or releases cores, or a woken thread resumes. -/
inductive Simple.Step : Simple → Simple → Prop
  | reserve (s : Simple) (n t : Nat) : Simple.Step s (s.reserve n t)
  | release (s s' : Simple) (n t : Nat) (h : s.release n t = some s') : Simple.Step s s'
  | resume (s : Simple) (p : Nat × Nat) (h : p ∈ s.woken) : Simple.Step s ({ s with woken := s.woken.erase p }.reserve p.1 p.2)

/-- The states reached by a history on a node of `n` cores. -/
inductive Simple.Reach (n : Nat) : Simple → Prop
  | new : Simple.Reach n (.new n)
  | step {s s' : Simple} (h : Simple.Reach n s) (hs : s.Step s') : Simple.Reach n s'

/-! ### The cpuset scheduler -/

/-- `1 << i` as it is combined with a `uint64_t`: an `int` shift, sign-extended, thread.h:298,
cpuset_compute_scheduler.cc:57, cpuset_compute_scheduler.h:71. Only for `i < 32`: a larger shift is
undefined. -/
def bit (i : Nat) : BitVec 64 := (1#32 <<< i).signExtend 64

/-- The scheduler and the threads: each thread's cpu mask, its cores, the mask of its cores. -/
structure Cpus where
  ncores : Nat
  avail : BitVec 64
  pending : List (Nat × Nat)
  cpumask : Nat → BitVec 64
  held : Nat → List Nat
  mask : Nat → BitVec 64

/-- The constructor, cpuset_compute_scheduler.h:64-73: all cores available. -/
def Cpus.new (n : Nat) : Cpus :=
  ⟨n, (List.range n).foldl (fun m i => m ||| bit i) 0#64, [], fun _ => BitVec.allOnes 64, fun _ => [], fun _ => 0#64⟩

/-- The cores found by the loop of `allocateCores`, cpuset_compute_scheduler.cc:55-66: the first `need`
cores of `is` that are valid. -/
def findCores (valid : BitVec 64) : List Nat → Nat → List Nat
  | [], _ => []
  | _, 0 => []
  | i :: is, need + 1 => if valid &&& bit i ≠ 0#64 then i :: findCores valid is need else findCores valid is (need + 1)

/-- `CpusetComputeScheduler::allocateCores`, cpuset_compute_scheduler.cc:52-81. `none`: not enough, and
the thread is left as it was. -/
def Cpus.allocate (s : Cpus) (n t : Nat) : Option Cpus :=
  let cs := findCores (s.cpumask t &&& s.avail) (List.range s.ncores) n
  if cs.length < n then none
  else
    let m := cs.foldl (fun m i => m ||| bit i) (s.mask t)
    some { s with held := upd s.held t (s.held t ++ cs), mask := upd s.mask t m, avail := s.avail &&& ~~~m }

/-- `reserveCores`, cpuset_compute_scheduler.cc:83-97. -/
def Cpus.reserve (s : Cpus) (n t : Nat) : Cpus :=
  match s.allocate n t with
  | some s' => s'
  | none => { s with pending := s.pending ++ [(n, t)] }

/-- The loop over waiting threads in `releaseCores`, cpuset_compute_scheduler.cc:111-126: those that get
their cores leave the list. -/
def Cpus.retry (s : Cpus) : List (Nat × Nat) → Cpus
  | [] => s
  | p :: ps => match s.allocate p.1 p.2 with
    | some s' => Cpus.retry { s' with pending := s'.pending.erase p } ps
    | none => Cpus.retry s ps

/-- Giving back one core, cpuset_compute_scheduler.cc:103-105 with `popActiveCore` and `addCore`,
thread.h:297-315. `none`: the thread has no core. -/
def Cpus.giveBack (s : Cpus) (t : Nat) : Option Cpus :=
  match (s.held t).getLast? with
  | none => none
  | some c => some { s with held := upd s.held t (s.held t).dropLast, mask := upd s.mask t (s.mask t &&& ~~~bit c), avail := s.avail ||| bit c }

/-- Giving back `n` cores, cpuset_compute_scheduler.cc:102-109. -/
def Cpus.giveBackN (s : Cpus) (t : Nat) : Nat → Option Cpus
  | 0 => some s
  | n + 1 => match s.giveBack t with
    | none => none
    | some s' => s'.giveBackN t n

/-- `releaseCores`, cpuset_compute_scheduler.cc:99-126. -/
def Cpus.release (s : Cpus) (n t : Nat) : Option Cpus :=
  match s.giveBackN t n with
  | none => none
  | some s' => some (s'.retry s'.pending)

/-- A step of the node. A thread changes only its own mask, while it runs (`SSTMAC_sched_setaffinity`,
sstmac_sched.cc:173-185, which then releases and reserves cores again: those are steps of their own). -/
inductive Cpus.Step : Cpus → Cpus → Prop
  | reserve (s : Cpus) (n t : Nat) (hb : ∀ p ∈ s.pending, p.2 ≠ t) : Cpus.Step s (s.reserve n t)
  | release (s s' : Cpus) (n t : Nat) (h : s.release n t = some s') : Cpus.Step s s'
  | setMask (s : Cpus) (t : Nat) (m : BitVec 64) (hb : ∀ p ∈ s.pending, p.2 ≠ t) :
      Cpus.Step s { s with cpumask := upd s.cpumask t m }

/-- The states reached by a history on a node of `n` cores. -/
inductive Cpus.Reach (n : Nat) : Cpus → Prop
  | new : Cpus.Reach n (.new n)
  | step {s s' : Cpus} (h : Cpus.Reach n s) (hs : s.Step s') : Cpus.Reach n s'

end SST.Os
