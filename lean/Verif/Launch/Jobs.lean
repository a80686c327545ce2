import Verif.Launch.Alloc
import Verif.Launch.Mapper
/-
The job launcher (sstmac/software/launch/job_launcher.cc) and the end of an application
(sstmac/software/process/app.cc).
-/
set_option autoImplicit false
namespace SST.Launch

/-- The allocator of a request. -/
inductive Allocator
  | first
  | random (v : Nat → Nat)
  | stride (s : Nat)
  | greedy (numGroups ng na conc : Nat)
  | file (nodes : List Nat)

/-- `NodeAllocator::allocate`. -/
def Allocator.run : Allocator → Nat → List Nat → Option Res
  | .first, n, av => some (firstAvailable n av)
  | .random v, n, av => Launch.random v n av
  | .stride s, n, av => some (strideAlloc s n av)
  | .greedy g ng na conc, n, av => some (greedyDfly g ng na conc n av)
  | .file ns, n, av => some (nodeIdAlloc ns n av)

/-- The mapper of a request. `nodeId`: the list of nodes in the file, node_id_task_mapper.cc:69-87. -/
inductive Mapper
  | block
  | random (smp : Bool) (v : Nat → Nat)
  | roundRobin
  | nodeId (nodes : List Nat)

/-- `TaskMapper::mapRanks`. -/
def Mapper.run : Mapper → List Nat → Nat → Nat → Option (List Nat)
  | .block, nodes, ppn, nproc => blockMap nodes ppn nproc
  | .random smp v, nodes, ppn, nproc => randomMap smp v nodes ppn nproc
  | .roundRobin, nodes, ppn, nproc => roundRobinMap nodes ppn nproc
  | .nodeId file, _, _, _ => some file

/-- `AppLaunchRequest`. -/
structure Request where
  aid : Nat
  nproc : Nat
  ppn : Nat
  alloc : Allocator
  mapper : Mapper

/-- A job some of whose ranks still run. -/
structure Job where
  aid : Nat
  /-- The nodes allocated to it. -/
  nodes : List Nat
  /-- `rank_to_node_indexing`. -/
  rankToNode : List Nat
  /-- The ranks that still run. -/
  live : List Nat
deriving DecidableEq, Repr

/-- The launcher, the jobs that run, and the `JobStopRequest`s on their way (with the nodes of the job they
name and its rank table). -/
structure Sys where
  available : List Nat
  jobs : List Job
  stops : List Job
deriving DecidableEq, Repr

/-- The constructor, job_launcher.cc:73-84. -/
def Sys.init (numNodes : Nat) : Sys := ⟨List.range numNodes, [], []⟩

/-- `requestAllocation`, launch_request.cc:168-179: the number of nodes. -/
def numNodesFor (nproc ppn : Nat) : Nat := if nproc % ppn ≠ 0 then nproc / ppn + 1 else nproc / ppn

/-- The loop of `DefaultJoblauncher::handleLaunchRequest`, job_launcher.cc:209-216. `none`: an exception. -/
def takeNodes : List Nat → List Nat → Option (List Nat)
  | [], available => some available
  | nid :: nodes, available => if nid ∈ available then takeNodes nodes (available.erase nid) else none

/-- `incomingLaunchRequest`, job_launcher.cc:94-102, with `DefaultJoblauncher::handleLaunchRequest`,
job_launcher.cc:199-218, and `satisfyLaunchRequest`, job_launcher.cc:184-197. `none`: the simulation aborts. -/
def Sys.launch (s : Sys) (r : Request) : Option Sys :=
  match r.alloc.run (numNodesFor r.nproc r.ppn) s.available with
  | some (.ok nodes) => match takeNodes nodes s.available with
    | none => none
    | some available => match r.mapper.run nodes r.ppn r.nproc with
      | none => none
      | some rankToNode => some { s with available := available, jobs := s.jobs ++ [⟨r.aid, nodes, rankToNode, List.range rankToNode.length⟩] }
  | _ => none

/-- The end of a rank, `App::run`, app.cc:552-560: rank 0 notifies the launcher. The job is forgotten when
none of its ranks runs. -/
def Sys.finish (s : Sys) (j : Job) (rank : Nat) : Sys :=
  let j' := { j with live := j.live.erase rank }
  let jobs := if j'.live = [] then s.jobs.erase j else s.jobs.replace j j'
  { s with jobs := jobs, stops := if rank = 0 then s.stops ++ [j] else s.stops }

/-- `cleanupApp`, job_launcher.cc:163-182, for a `JobStopRequest` that arrives. -/
def Sys.cleanup (s : Sys) (j : Job) : Sys :=
  { s with available := insAll j.rankToNode s.available, stops := s.stops.erase j }

/-- What can happen. -/
inductive Step : Sys → Sys → Prop
  | launch {s s' : Sys} (r : Request) (h : s.launch r = some s') : Step s s'
  | finish {s : Sys} (j : Job) (rank : Nat) (hj : j ∈ s.jobs) (hr : rank ∈ j.live) : Step s (s.finish j rank)
  | cleanup {s : Sys} (j : Job) (hj : j ∈ s.stops) : Step s (s.cleanup j)

/-! ### The exclusive launcher -/

/-- `ExclusiveJoblauncher`: whether `active_job_` is set, `pending_requests_`; and, for the statements, the
jobs started so far and the number that have stopped. -/
structure Excl where
  active : Bool
  pending : List Nat
  started : List Nat
  stopped : Nat
deriving DecidableEq, Repr

/-- `incomingLaunchRequest` with `ExclusiveJoblauncher::handleLaunchRequest`, job_launcher.cc:226-236. -/
def Excl.launch (s : Excl) (aid : Nat) : Excl :=
  if s.active then { s with pending := s.pending ++ [aid] }
  else { s with active := true, started := s.started ++ [aid] }

/-- `ExclusiveJoblauncher::stopEventReceived`, job_launcher.cc:238-248. -/
def Excl.stop (s : Excl) : Excl :=
  let s := { s with active := false, stopped := s.stopped + 1 }
  match s.pending with
  | [] => s
  | next :: rest => Excl.launch { s with pending := rest } next

/-- An execution of the exclusive launcher; the list: the requests made so far, in order. A stop comes from
a job that has started and not stopped. -/
inductive ExclRun : List Nat → Excl → Prop
  | init : ExclRun [] ⟨false, [], [], 0⟩
  | launch {reqs : List Nat} {s : Excl} (h : ExclRun reqs s) (aid : Nat) : ExclRun (reqs ++ [aid]) (s.launch aid)
  | stop {reqs : List Nat} {s : Excl} (h : ExclRun reqs s) (hr : s.stopped < s.started.length) : ExclRun reqs s.stop

end SST.Launch
