import Verif.Os.AppEnv
set_option autoImplicit false

/-!
# Requests to launch applications

Model of which applications are launched and with how many processes: sstmac/software/launch/launch_request.cc, `addLaunchRequests`
in sstmac/software/launch/job_launcher.cc, the table of mappings in sstmac/software/launch/task_mapping.cc, and the size of a
network that is made to measure, sstmac/backends/native/manager.cc and sstmac/main/params.cc.
-/

namespace Verif.Launch.Request

open Verif.Os.AppEnv (Str find put tokens)

/-- `atoi` of the C library, without leading blanks and without overflow. -/
def atoi (s : Str) : Int :=
  match s with
  | '-' :: r => - ((Nat.ofDigitChars 10 (r.takeWhile Char.isDigit) 0 : Nat) : Int)
  | '+' :: r => (Nat.ofDigitChars 10 (r.takeWhile Char.isDigit) 0 : Nat)
  | r => (Nat.ofDigitChars 10 (r.takeWhile Char.isDigit) 0 : Nat)

/-- How the reading of a command can fail. -/
inductive Err where
  /-- An array is overrun. -/
  | overrun
  /-- The simulation aborts: an invalid option. -/
  | option
  /-- An exception: no valid `-n`. -/
  | procs
  /-- An exception: no valid `-N`. -/
  | perNode
  /-- An exception: cores are given twice. -/
  | cores
  /-- An exception: not `aprun`. -/
  | launcher
  /-- Another form of an option, which `getopt_long_only` accepts: not modelled. -/
  | form
  deriving DecidableEq

/-- What the options have set. -/
structure Got where
  n : Int := -1
  perNode : Int := -1
  cc : Str := []
  deriving DecidableEq

/-- The loop over `getopt_long_only`, launch_request.cc:259-281, for options that are words by themselves, with values in the next word.  Words
that are no options are passed over; a word `--` ends the options.  The option `-d` is in the table but has no case. -/
def options : List Str → Got → Except Err Got
  | [], g => .ok g
  | w :: ws, g =>
    if w = ['-', 's', 's'] then options ws g
    else if w = ['-', 'n'] then match ws with
      | [] => .error .option
      | v :: ws => options ws { g with n := atoi v }
    else if w = ['-', 'N'] then match ws with
      | [] => .error .option
      | v :: ws => options ws { g with perNode := atoi v }
    else if w = ['-', 'c', 'c'] then match ws with
      | [] => .error .option
      | v :: ws => options ws { g with cc := v }
    else if w = ['-', 'S'] then match ws with
      | [] => .error .option
      | _ :: ws => options ws g
    else if w = ['-', 'd'] then .error .option
    else if w = ['-', '-'] then .ok g
    else match w with
      | '-' :: _ :: _ => .error .form
      | _ => options ws g

/-- `parseAprun`, launch_request.cc:227-310: processes, processes per node (-1: not given), cores. -/
def parseAprun (cmd : Str) (cores : List Int) : Except Err (Int × Int × List Int) :=
  if 200 ≤ cmd.length || 50 < (tokens ' ' cmd).length then .error .overrun
  else match options (tokens ' ' cmd).tail {} with
    | .error e => .error e
    | .ok g =>
      if g.n ≤ 0 then .error .procs
      else if g.perNode = 0 || g.n < g.perNode then .error .perNode
      else if g.cc = [] then .ok (g.n, g.perNode, cores)
      else if cores ≠ [] then .error .cores
      else .ok (g.n, g.perNode, (tokens ',' g.cc).map atoi)

/-- `parseLaunchCmd` with a command, launch_request.cc:188-208; `nodeCores` is the parameter `node_cores`. -/
def parseLaunchCmd (cmd : Str) (nodeCores : Int) (cores : List Int) : Except Err (Int × Int × List Int) :=
  if cmd.takeWhile (· ≠ ' ') = ['a', 'p', 'r', 'u', 'n'] then
    match parseAprun cmd cores with
    | .error e => .error e
    | .ok (n, p, c) => .ok (n, if p = -1 then (if nodeCores > n then n else nodeCores) else p, c)
  else .error .launcher

/-- The parameters of an application that say how many processes it has. -/
structure AppPar where
  cmd : Option Str := none
  size : Int := 0
  tasksPerNode : Int := 1
  nodeCores : Int := 1
  cores : List Int := []

/-- `SoftwareLaunchRequest`, launch_request.cc:75-107, without traces: processes, processes per node, cores. -/
def request (a : AppPar) : Except Err (Int × Int × List Int) :=
  match a.cmd with
  | some c => parseLaunchCmd c a.nodeCores a.cores
  | none => .ok (a.size, a.tasksPerNode, a.cores)

/-- The number of nodes of a request, `requestAllocation`, launch_request.cc:168-179. -/
def numNodes (nproc perNode : Int) : Int := nproc.tdiv perNode + if nproc.tmod perNode ≠ 0 then 1 else 0

/-- The core of a process, `StartAppRequest::coreAffinity`, app_launcher.cc:130-134: never one. -/
def coreAffinity (_cores : List Int) (_intranodeRank : Nat) : Option Int := none

/-! ### Which applications are launched -/

/-- The loop of `addLaunchRequests`, job_launcher.cc:112-142; `f` bounds its turns. -/
def scan (has : Nat → Bool) : Nat → Nat → Bool → List Nat
  | 0, _, _ => []
  | f + 1, aid, keep =>
    if keep || aid < 10 then
      if has aid then aid :: scan has f (aid + 1) true else scan has f (aid + 1) false
    else []

/-- The numbers of the applications that are launched, if `apps` are those with parameters. -/
def launched (apps : List Nat) : List Nat := scan (fun a => apps.contains a) (apps.foldr max 0 + 11) 1 true

/-- The numbers of the services, job_launcher.cc:145-160: from after the last application. -/
def serviceIds (apps : List Nat) (services : Nat) : List Nat := (List.range services).map fun i => (launched apps).getLast?.getD 0 + 1 + i

/-- The parameters of an application, job_launcher.cc:125: those common to all are written over its own (sprockit/sprockit/sim_parameters.h:615-617 and
`combineInto`, sim_parameters.cc:1047-1066). -/
def appParams (common own : List (Str × Str)) : List (Str × Str) := common.foldl (fun m kv => put m kv.1 kv.2) own

/-! ### A network to measure -/

/-- `computeMaxNprocForApp` of an application without traces, manager.cc:120-179: without a command it is given one for no process. -/
def autoProcs (a : AppPar) : Except Err Int :=
  match parseLaunchCmd (a.cmd.getD ['a', 'p', 'r', 'u', 'n', ' ', '-', 'n', ' ', '0', ' ', '-', 'N', ' ', '1']) a.nodeCores [] with
  | .error e => .error e
  | .ok (n, _, _) => .ok n

/-- `computeMaxNproc` for applications 1, 2, ... and so on, manager.cc:181-200.  The number of nodes is this number (C63). -/
def autoNodes : List AppPar → Except Err Int
  | [] => .ok 0
  | a :: l => match autoProcs a, autoNodes l with
    | .error e, _ => .error e
    | _, .error e => .error e
    | .ok n, .ok m => .ok (max n m)

/-! ### The table of mappings of one simulator process -/

/-- `app_ids_launched_` and `local_refcounts_` for one application; the mapping itself is a value of type `M`. -/
structure Entry (M : Type) where
  mapping : Option M
  refs : Int

/-- What is done with it. -/
inductive MapEv (M : Type) where
  /-- `addGlobalMapping`, task_mapping.cc:114-122: by the launcher of jobs, and for each process that starts here. -/
  | add (m : M)
  /-- `removeGlobalMapping`, task_mapping.cc:124-134: for each process that ends here, and by the launcher. -/
  | remove
  /-- A message to start a process is unpacked, task_mapping.cc:59-78. -/
  | unpack (m : M)

/-- One call. -/
def mapStep {M : Type} (s : Entry M) : MapEv M → Entry M
  | .add m => ⟨some m, s.refs + 1⟩
  | .remove => if s.refs - 1 = 0 then ⟨none, 0⟩ else ⟨s.mapping, s.refs - 1⟩
  | .unpack m => match s.mapping with
    | none => ⟨some m, s.refs⟩
    | some _ => s

/-- After some calls. -/
def mapRun {M : Type} (h : List (MapEv M)) : Entry M := h.foldl mapStep ⟨none, 0⟩

/-- Packing a message to start a process, task_mapping.cc:79-85, and `globalMapping`, :104-112: `none` is the abort. -/
def globalMapping {M : Type} (s : Entry M) : Option M := s.mapping

end Verif.Launch.Request
