/-
The end of simulated processes (sstmac/software/process/app.cc, thread.{h,cc}, sstmac/main/util.cc,
sstmac/software/launch/job_launcher.cc, sstmac/main/sstmac.cc): what the node, the loader of
executables, the launcher of jobs and the caller of the simulator learn of it.

`_exit` is replaced by `sstmac_exit`; `exit` is not replaced at all (stdlib.h:86-91) and is not
modelled: it ends the simulator.
-/
set_option autoImplicit false
namespace SST.Os.Exit

/-- A process: application, rank, node, and the parameter `notify` (app.cc:245). -/
structure Proc where
  /-- application -/
  aid : Nat
  /-- rank, `sid_.task_` -/
  rank : Nat
  /-- node -/
  node : Nat
  /-- parameter `notify` -/
  notify : Bool
deriving DecidableEq, Repr

/-- How a process ends: `main` returns, its main thread calls `_exit`, another of its threads calls
`_exit`. -/
inductive How where
  | returns (rc : Int)
  | exits (code : Int)
  | threadExits (code : Int)
deriving DecidableEq, Repr

/-- What is kept of the processes. -/
structure World where
  /-- `app_refcount_` of the nodes, node.cc:222-243 -/
  nodes : Nat → Int := fun _ => 0
  /-- `dlopens_`, app.h:280-288: count, and whether the executable is loaded -/
  libs : Nat → Option (Int × Bool) := fun _ => none
  /-- the `JobStopRequest`s that were sent -/
  stops : List Nat := []
  /-- `app_rc_` -/
  rc : Int := 0
  /-- threads whose function returned without a switch to another thread -/
  lost : List Proc := []
  /-- processes whose main thread goes on -/
  running : List Proc := []

/-- `lockDlopen`, app.cc:148-153. -/
def lockLib (e : Option (Int × Bool)) : Option (Int × Bool) :=
  match e with
  | none => some (1, false)
  | some (n, l) => some (n + 1, l)

/-- `dlopenCheck`, app.cc:161-199, for an application with an executable. -/
def openLib (e : Option (Int × Bool)) : Option (Int × Bool) :=
  match e with
  | none => some (1, true)
  | some (n, _) => some (n + 1, true)

/-- `dlcloseCheck`, app.cc:201-215. -/
def closeLib (e : Option (Int × Bool)) : Option (Int × Bool) :=
  match e with
  | none => none
  | some (n, l) => if n - 1 = 0 ∧ l = true then none else some (n - 1, l)

/-- An assignment to an entry of a table. -/
def set {β : Type} (f : Nat → β) (k : Nat) (v : β) : Nat → β := fun k' => if k' = k then v else f k'

/-- What happens: the launcher reads the parameters of an application (job_launcher.cc:136), a process
starts, a process ends, the launcher handles the end of a job (job_launcher.cc:163-167). -/
inductive Op where
  | lock (aid : Nat)
  | start (p : Proc)
  | finish (p : Proc) (how : How)
  | unlock (aid : Nat)
deriving DecidableEq, Repr

/-- The steps.  `exe` says which applications are loaded from an executable.  Start:
`AppLauncher::incomingRequest`, app_launcher.cc:70-110, and `App::run`, app.cc:534-538.  Return:
`App::run`, app.cc:539-566.  `_exit`: `Thread::kill`, thread.h:199-205, leaves `run` with an
exception that `Thread::runRoutine`, thread.cc:148-151, catches: with code 0 the thread is completed
(`cleanup`), otherwise the function of the context just returns.  In another thread only
this thread ends, likewise. -/
def exec (exe : Nat → Bool) (w : World) : Op → World
  | .lock aid => { w with libs := set w.libs aid (lockLib (w.libs aid)) }
  | .unlock aid => { w with libs := set w.libs aid (closeLib (w.libs aid)) }
  | .start p =>
    { w with nodes := set w.nodes p.node (w.nodes p.node + 1), running := w.running ++ [p]
             libs := if exe p.aid then set w.libs p.aid (openLib (w.libs p.aid)) else w.libs }
  | .finish p (.returns rc) =>
    { w with nodes := set w.nodes p.node (w.nodes p.node - 1), running := w.running.erase p
             stops := if p.rank = 0 ∧ p.notify = true then w.stops ++ [p.aid] else w.stops
             libs := set w.libs p.aid (closeLib (w.libs p.aid)), rc := rc }
  | .finish p (.exits code) =>
    { w with running := w.running.erase p, lost := if code = 0 then w.lost else w.lost ++ [p] }
  | .finish p (.threadExits code) => { w with lost := if code = 0 then w.lost else w.lost ++ [p] }

/-- The exit status of the simulator, sstmac.cc:367-371. -/
def status (useAppRc : Bool) (w : World) : Int := if useAppRc then w.rc else 0

end SST.Os.Exit
