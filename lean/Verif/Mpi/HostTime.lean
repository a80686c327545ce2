set_option autoImplicit false

/-!
# Time of the host that is charged to simulated processes (`host_compute_timer`)

`sstmac/software/process/host_timer.h`, `sstmac/software/process/thread.cc`, `sstmac/software/process/app.cc` and the calls of
`sumi-mpi/mpi_api*.cc`.  Host times are whole microseconds of a clock that never goes back; the rounding of their differences as `double`,
host_timer.h:70, and the timer of an API, which is always null, api.cc:128-131, are not modelled.
-/

namespace Verif.Mpi.HostTime

/-- What happens to the timer of a thread. -/
inductive Prim where
  /-- The host spends time, in this process or in others while this one is blocked. -/
  | pass (d : Nat)
  /-- `Thread::startAPICall`, thread.cc:213-222: the time since the start is charged with `compute`. -/
  | stamp
  /-- `Thread::endAPICall`, thread.cc:224-230. -/
  | restart
deriving DecidableEq

/-- The clock of the host, the timer's start, host_timer.h:74, and the charges so far. -/
structure St where
  now : Nat
  start : Nat
  charges : List Nat
deriving DecidableEq

/-- `HostTimer::stamp` and `HostTimer::start`, host_timer.h:59-71. -/
def prim (s : St) : Prim → St
  | .pass d => { s with now := s.now + d }
  | .stamp => { s with charges := s.charges ++ [s.now - s.start] }
  | .restart => { s with start := s.now }

/-- A sequence. -/
def prims (s : St) (l : List Prim) : St := l.foldl prim s

/-- Calls of a process; numbers are the times that pass on the host after each part of a call, in this process and in others. -/
inductive Call where
  /-- Calls with one `StartMPICall` and one `FinishMPICall` or `endAPICall`: MPI_Send, MPI_Recv, MPI_Isend, MPI_Irecv, MPI_Start,
  MPI_Wait, MPI_Waitall, MPI_Waitany, MPI_Waitsome, all collectives, MPI_Comm_size, MPI_Comm_dup, MPI_Comm_split, MPI_Finalize and others. -/
  | ordinary (a : Nat)
  /-- MPI_Init. -/
  | init (a b : Nat)
  /-- MPI_Test. -/
  | test (a b : Nat)
  /-- MPI_Testall, with the answer for each request. -/
  | testall (a : Nat) (reqs : List (Nat × Bool))
  /-- MPI_Testany. -/
  | testany (a : Nat) (reqs : List (Nat × Bool))
  /-- MPI_Testsome. -/
  | testsome (a : Nat) (reqs : List (Nat × Bool))
  /-- MPI_Probe and MPI_Iprobe. -/
  | probe (a : Nat)
  /-- MPI_Wtime. -/
  | wtime (a : Nat)
  /-- MPI_Sendrecv; whether there is a destination and a source. -/
  | sendrecv (dst src : Bool) (a b : Nat)
  /-- Calls without either: MPI_Comm_rank, MPI_Get_count, types and groups, and all that blocks outside of MPI: computations, sleeps and
  pthreads. -/
  | unstamped (a : Nat)
deriving DecidableEq

/-- `StartMPICall` and the time until the next part, mpi_api.h:900-908. -/
def begun (a : Nat) : List Prim := [.stamp, .pass a]

/-- The requests that a loop tests until `stop` ends it; the request that ends it is tested. -/
def upTo (stop : Bool) : List (Nat × Bool) → List Nat
  | [] => []
  | r :: l => if r.2 = stop then [r.1] else r.1 :: upTo stop l

/-- The inner `test`, mpi_api_test.cc:54-80, which begins a call and does not end it. -/
def tests (l : List Nat) : List Prim := l.flatMap begun

/-- What each call does to the timer: mpi_api.cc:223-272, :287-330, mpi_api_test.cc:82-231, mpi_api_probe.cc:58-100,
mpi_api_send_recv.cc:72-137. -/
def Call.prims : Call → List Prim
  | .ordinary a => begun a ++ [.restart]
  | .init a b => begun a ++ [.restart, .pass b, .restart]
  | .test a b => begun a ++ tests [b] ++ [.restart]
  | .testall a reqs => begun a ++ tests (upTo false reqs) ++ [.restart]
  | .testany a reqs => if reqs = [] then begun a else begun a ++ tests (upTo true reqs) ++ [.restart]
  | .testsome a reqs => begun a ++ tests (reqs.map Prod.fst) ++ [.restart]
  | .probe a => begun a
  | .wtime a => begun a
  | .sendrecv dst src a b =>
    if !dst && !src then [.pass a, .restart]
    else if dst && src then begun a ++ [.restart]
    else begun a ++ [.restart, .pass b, .restart]
  | .unstamped a => [.pass a]

/-- One piece of the program's own work on the host and the call after it. -/
def piece (s : St) (p : Nat × Call) : St := HostTime.prims (prim s (.pass p.1)) p.2.prims

/-- `App::run`, app.cc:534-542: `endAPICall` at time `t`, the program, its last work and `startAPICall`. -/
def run (t : Nat) (program : List (Nat × Call)) (last : Nat) : List Nat :=
  (HostTime.prims (program.foldl piece ⟨t, t, []⟩) [.pass last, .stamp]).charges

/-- A thread that is spawned at time `t`, thread.cc:289-298, and first runs `wait` later; its first call. -/
def spawned (t wait : Nat) (p : Nat × Call) : List Nat := (piece ⟨t + wait, t, []⟩ p).charges

end Verif.Mpi.HostTime
