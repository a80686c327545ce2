import Verif.Os.AppEnv
set_option autoImplicit false

/-!
# Options of the command line

Model of `parseOpts`, sstmac/main/parseopts.cc:85-308, and of `initParams` and `remapParams`, sstmac/main/sstmac.cc:175-208 and
sstmac/main/params.cc:162-199.  `getopt_long` is taken to have split the command line into options.  A set of parameters is a function from
full names, with dots, to values; how texts become such sets is in Params/Model.lean.  Files are always found.  The option `-d` is in
Util/DebugFlags.lean; `topology.auto` is in Launch/Request.lean.
-/

namespace Verif.Launch.Options

open Verif.Os.AppEnv (Str)

/-- A set of parameters. -/
def P : Type := Str → Option Str

/-- No parameters. -/
def P.empty : P := fun _ => none

/-- `SimParameters::addParamOverride`. -/
def P.set (p : P) (k v : Str) : P := fun x => if x = k then some v else p x

/-- `q.combineInto(p)`, sim_parameters.h:243-246: existing values are replaced. -/
def P.over (p q : P) : P := fun x => match q x with
  | some v => some v
  | none => p x

/-- `q.combineInto(p, false, false, true)`: existing values are kept. -/
def P.keep (p q : P) : P := fun x => match p x with
  | some v => some v
  | none => q x

/-- Options without a value that set a variable, parseopts.cc:88-104 and :105-138. -/
inductive Flag where
  | noCongestion | pisces | macrels | mpitest | printNodes | noWallTime | printParams | debugFlags | dumpi | otf2 | lowRes | pingAll | inf | useAppRc
deriving DecidableEq

/-- What `getopt_long` returns, parseopts.cc:143-212.  `other` stands for the options that are accepted but have no case: `-P`, `-t`, `-m`,
`-u`, `-o` and `--srun`, and for options that are not known. -/
inductive Opt where
  | flag (f : Flag)
  | exe (v : Str)
  | help
  | benchmark (v : Str)
  | graph (v : Str)
  | debug (v : Str)
  | nproc (v : Str)
  | app (v : Str)
  | argv (v : Str)
  | dump (v : Str)
  | file (v : Str)
  | xyz (v : Str)
  | auto
  | incl (v : Str)
  | param (k v : Str)
  | affinity (v : Str)
  | other (c : Char)
deriving DecidableEq

/-- `struct opts`, sstmac.h:60-92. -/
structure Opts where
  configfile : Str
  got : Bool
  params : P
  benchmark : Str
  graph : Str
  xyz : Str
  dump : Str
  useAppRc : Bool
  printWall : Bool
  printParams : Bool
  lowRes : Bool

/-- The options and the local variables of `parseOpts`, parseopts.cc:88-104. -/
structure Acc where
  o : Opts
  flags : Flag → Bool
  need : Bool
  machine : Bool
  exes : Nat

/-- Before the first option, sstmac.h:76-89. -/
def Acc.init : Acc := ⟨⟨[], false, .empty, [], [], [], [], false, true, false, false⟩, fun _ => false, true, false, 1⟩

/-- How `parseOpts` ends: `success` and `fail` are `PARSE_OPT_EXIT_SUCCESS` and `PARSE_OPT_EXIT_FAIL`, `abort` is `machineAlreadyConfigured`,
parseopts.cc:79-83. -/
inductive Res where
  | success
  | fail
  | abort
  | ok (o : Opts)

/-- `node.app1.name`. -/
def kName : Str := ['n', 'o', 'd', 'e', '.', 'a', 'p', 'p', '1', '.', 'n', 'a', 'm', 'e']
/-- `node.app1.launch_cmd`. -/
def kLaunch : Str := ['n', 'o', 'd', 'e', '.', 'a', 'p', 'p', '1', '.', 'l', 'a', 'u', 'n', 'c', 'h', '_', 'c', 'm', 'd']
/-- `node.app1.argv`. -/
def kArgv : Str := ['n', 'o', 'd', 'e', '.', 'a', 'p', 'p', '1', '.', 'a', 'r', 'g', 'v']
/-- `cpu_affinity`. -/
def kAffinity : Str := ['c', 'p', 'u', '_', 'a', 'f', 'f', 'i', 'n', 'i', 't', 'y']
/-- `switch.arbitrator`. -/
def kArb : Str := ['s', 'w', 'i', 't', 'c', 'h', '.', 'a', 'r', 'b', 'i', 't', 'r', 'a', 't', 'o', 'r']
/-- `sst_rank` and `sst_nproc`. -/
def kRank : Str := ['s', 's', 't', '_', 'r', 'a', 'n', 'k']
@[inherit_doc kRank] def kNproc : Str := ['s', 's', 't', '_', 'n', 'p', 'r', 'o', 'c']
/-- The name of the parameter for the n-th `-e`, parseopts.cc:150. -/
def kExe (n : Nat) : Str := ['n', 'o', 'd', 'e', '.', 'a', 'p', 'p'] ++ Nat.toDigits 10 n ++ ['.', 'e', 'x', 'e']
/-- The command for `-n`, parseopts.cc:169. -/
def launchCmd (v : Str) : Str := ['a', 'p', 'r', 'u', 'n', ' ', '-', 'n', ' '] ++ v ++ [' ', '-', 'N', ' ', '1']
/-- The files that come with the simulator. -/
def fDebug : Str := ['d', 'e', 'b', 'u', 'g', '.', 'i', 'n', 'i']
@[inherit_doc fDebug] def fInf : Str := ['i', 'n', 'f', 'i', 'n', 'i', 't', 'e', '.', 'i', 'n', 'i']
@[inherit_doc fDebug] def fPisces : Str := ['p', 'i', 's', 'c', 'e', 's', '.', 'i', 'n', 'i']
@[inherit_doc fDebug] def fMacrels : Str := ['m', 'a', 'c', 'r', 'e', 'l', 's', '.', 'i', 'n', 'i']
@[inherit_doc fDebug] def fMpitest : Str := ['m', 'p', 'i', '_', 't', 'e', 's', 't', '_', 'a', 'l', 'l', '.', 'i', 'n', 'i']
/-- The applications that flags choose. -/
def aDumpi : Str := ['p', 'a', 'r', 's', 'e', 'd', 'u', 'm', 'p', 'i']
@[inherit_doc aDumpi] def aOtf2 : Str := ['p', 'a', 'r', 's', 'e', 'o', 't', 'f', '2']
@[inherit_doc aDumpi] def aPing : Str := ['m', 'p', 'i', '_', 'p', 'i', 'n', 'g', '_', 'a', 'l', 'l']
@[inherit_doc aDumpi] def aNodes : Str := ['m', 'p', 'i', '_', 'p', 'r', 'i', 'n', 't', 'n', 'o', 'd', 'e', 's']
/-- `null`. -/
def vNull : Str := ['n', 'u', 'l', 'l']

/-- A parameter of the options is set. -/
def Acc.put (a : Acc) (k v : Str) : Acc := { a with o := { a.o with params := a.o.params.set k v } }

/-- One case of the switch, parseopts.cc:145-212; `files` are the parameters in a file. -/
def step (files : Str → P) (a : Acc) : Opt → Acc
  | .flag f => { a with flags := fun g => if g = f then true else a.flags g }
  | .exe v => { (a.put (kExe a.exes) v) with exes := a.exes + 1 }
  | .help => a
  | .benchmark v => { a with o := { a.o with benchmark := v }, need := false }
  | .graph v => { a with o := { a.o with graph := v } }
  | .debug _ => a
  | .nproc v => a.put kLaunch (launchCmd v)
  | .app v => a.put kName v
  | .argv v => a.put kArgv v
  | .dump v => { a with o := { a.o with dump := v } }
  | .file v => { a with o := { a.o with configfile := v, got := true } }
  | .xyz v => { a with o := { a.o with xyz := v } }
  | .auto => { a with o := { a.o with params := a.o.params.over (files fDebug) }, need := false, machine := true }
  | .incl v => { a with o := { a.o with params := a.o.params.over (files v) } }
  | .param k v => a.put k v
  | .affinity v => a.put kAffinity v
  | .other _ => a

/-- The loop over options, parseopts.cc:143-220: help and unknown options end it at once. -/
def loop (files : Str → P) : Acc → List Opt → Res ⊕ Acc
  | a, [] => .inr a
  | _, .help :: _ => .inl .success
  | _, .other _ :: _ => .inl .fail
  | a, o :: r => loop files (step files a o) r

/-- The flag `--inf`, parseopts.cc:232-240. -/
def afterInf (files : Str → P) (a : Acc) : Acc :=
  if a.flags .inf then { a with o := { a.o with params := a.o.params.over (files fInf) }, need := false, machine := true } else a

/-- The flags `--dumpi` and `--otf2`, parseopts.cc:242-254. -/
def afterTrace (files : Str → P) (a : Acc) : Acc :=
  if a.flags .dumpi || a.flags .otf2 then
    let p := if a.machine then a.o.params else a.o.params.keep (files fDebug)
    { a with o := { a.o with params := p.set kName (if a.flags .dumpi then aDumpi else aOtf2) }, need := false, machine := true }
  else a

/-- The other flags, parseopts.cc:261-304, when the tests of the machine, :270-272 and :277-279, and of `--mpitest`, :289-292, have passed. -/
def afterFlags (a : Acc) : Opts :=
  let p := if a.flags .noCongestion then a.o.params.set kArb vNull else a.o.params
  let c := if a.flags .pisces then fPisces else a.o.configfile
  let c := if a.flags .macrels then fMacrels else c
  let p := if a.flags .pingAll then p.set kName aPing else p
  let c := if a.flags .mpitest then fMpitest else c
  let p := if a.flags .printNodes then p.set kName aNodes else p
  { a.o with configfile := c, params := p, useAppRc := a.flags .useAppRc, printWall := !a.flags .noWallTime, printParams := a.flags .printParams, lowRes := a.flags .lowRes }

/-- The end of `parseOpts`, parseopts.cc:222-307. -/
def finish (files : Str → P) (a : Acc) : Res :=
  if a.flags .debugFlags then .success
  else if a.flags .inf && a.machine then .abort
  else
    let a := afterTrace files (afterInf files a)
    if a.o.configfile = [] && a.need then .fail
    else if (a.flags .pisces || a.flags .macrels) && a.machine then .abort
    else if a.flags .mpitest && !(a.o.configfile = [] && !a.flags .pisces && !a.flags .macrels) then .fail
    else .ok (afterFlags a)

/-- `parseOpts`, parseopts.cc:85-308. -/
def parse (files : Str → P) (opts : List Opt) : Res :=
  match loop files .init opts with
  | .inl r => r
  | .inr a => finish files a

/-- `initParams`, sstmac.cc:175-208, for process `rank` of `nproc`, which are given as texts. -/
def initParams (files : Str → P) (o : Opts) (rank nproc : Str) : P :=
  (((if o.got then files o.configfile else .empty).over o.params).set kRank rank).set kNproc nproc

/-- `remapParams`, params.cc:162-199, without the part for `topology.auto` and the debug flags: the number of threads, read as `nthread`, must
be 1.  The list of old names, params.cc:82-155, is not used. -/
def remap (p : P) (nthread : Option Int) : Option P :=
  match nthread with
  | some n => if 1 < n then none else some p
  | none => some p

/-- `topology_name`, the first of the old names, and `topology.name`, params.cc:83. -/
def kOld : Str := ['t', 'o', 'p', 'o', 'l', 'o', 'g', 'y', '_', 'n', 'a', 'm', 'e']
@[inherit_doc kOld] def kNew : Str := ['t', 'o', 'p', 'o', 'l', 'o', 'g', 'y', '.', 'n', 'a', 'm', 'e']

end Verif.Launch.Options
