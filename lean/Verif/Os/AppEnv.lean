set_option autoImplicit false

/-!
# What a simulated process starts with

Model of the arguments, the environment, the libraries (APIs), the `main` function, the exit status and the
loaded executable of simulated processes: sstmac/software/process/app.cc and app.h.  Strings are lists of
characters; a process is a pair of the number of its application and its rank.
-/

namespace Verif.Os.AppEnv

/-- Strings. -/
abbrev Str := List Char

/-- The application and the rank. -/
abbrev Proc := Nat × Nat

/-- `std::map::find`. -/
def find {α : Type} (m : List (Str × α)) (k : Str) : Option α :=
  match m with
  | [] => none
  | (a, b) :: r => if a = k then some b else find r k

/-- `m[k] = v` of `std::map`. -/
def put {α : Type} (m : List (Str × α)) (k : Str) (v : α) : List (Str × α) := (k, v) :: m.filter fun p => p.1 ≠ k

/-- `tokenize` with one separator, sprockit/sprockit/basic_string_tokenizer.h:88-135; `n` bounds the turns of the loop. -/
def tokensN (sep : Char) : Nat → Str → List Str
  | 0, _ => []
  | _ + 1, [] => []
  | n + 1, c :: s =>
    if c = sep then tokensN sep n ((c :: s).dropWhile (· = sep))
    else ((c :: s).takeWhile (· ≠ sep)) :: tokensN sep n ((c :: s).dropWhile (· ≠ sep))

/-- `tokenize`. -/
def tokens (sep : Char) (s : Str) : List Str := tokensN sep s.length s

/-- The bytes that `initArgv` writes, app.cc:744-757: all strings with their ends. -/
def argvBytes (args : List Str) : Nat := (args.map fun a => a.length + 1).sum

/-- `initArgv`, app.cc:735-760; `none` if the strings do not fit into the buffer of 256 bytes per argument, which is then
overrun. -/
def initArgv (name argv : Str) : Option (List Str) :=
  let args := name :: tokens ' ' argv
  if 256 * args.length < argvBytes args then none else some args

/-- What the parameters say: the name and the arguments of each application, its environment, and the environment of
the nodes. -/
structure Conf where
  name : Nat → Str
  argv : Nat → Str
  appEnv : Nat → List (Str × Str)
  osEnv : List (Str × Str)

/-- A variable of the node, app.cc:261-265. -/
def addOs (m : List (Str × Str)) (kv : Str × Str) : List (Str × Str) :=
  match find m kv.1 with
  | some _ => m
  | none => put m kv.1 kv.2

/-- The environment of a new process, app.cc:255-266: its own, and of the node what is not there yet. -/
def startEnv (own os : List (Str × Str)) : List (Str × Str) :=
  os.foldl addOs (own.foldl (fun m kv => put m kv.1 kv.2) [])

/-- The state of a simulation: `argv_map_`, the environments, `app_rc_`. -/
structure St where
  argvs : Nat → Option (List Str)
  env : Proc → List (Str × Str)
  rc : Int

/-- What happens. -/
inductive Ev where
  /-- The process is made and enters `main`. -/
  | main (p : Proc)
  /-- The process puts `v` into its `argv`, for instance by `getopt`. -/
  | permute (p : Proc) (v : List Str)
  /-- `setenv`. -/
  | setenv (p : Proc) (k v : Str) (overwrite : Bool)
  /-- `main` returns. -/
  | ends (p : Proc) (rc : Int)
  deriving DecidableEq

/-- The start. -/
def St.init : St := ⟨fun _ => none, fun _ => [], 0⟩

/-- Assignment to a table. -/
def upd {α β : Type} [DecidableEq α] (f : α → β) (a : α) (b : β) (x : α) : β := if x = a then b else f x

/-- `setenv`, app.cc:391-403. -/
def setenv (m : List (Str × Str)) (k v : Str) (overwrite : Bool) : List (Str × Str) :=
  if overwrite then put m k v else match find m k with | none => put m k v | some _ => m

/-- `getenv`, app.cc:405-423, with the buffer of 64 bytes of app.h:272: `error` is the abort. -/
def getenv (m : List (Str × Str)) (k : Str) : Except Unit (Option Str) :=
  match find m k with
  | none => .ok none
  | some v => if 64 ≤ v.length then .error () else .ok (some v)

/-- One event; `none` is an overrun buffer.  `main`: app.cc:227-266 and :762-774; the array of arguments is made by the
first process of the application and is the array of all of them.  `ends`: app.cc:566. -/
def step (c : Conf) (s : St) : Ev → Option St
  | .main p =>
    let s := { s with env := upd s.env p (startEnv (c.appEnv p.1) c.osEnv) }
    match s.argvs p.1 with
    | some _ => some s
    | none =>
      match initArgv (c.name p.1) (c.argv p.1) with
      | none => none
      | some a => some { s with argvs := upd s.argvs p.1 (some a) }
  | .permute p v => some { s with argvs := upd s.argvs p.1 (some v) }
  | .setenv p k v ow => some { s with env := upd s.env p (setenv (s.env p) k v ow) }
  | .ends _ rc => some { s with rc := rc }

/-- A history. -/
def run (c : Conf) : St → List Ev → Option St
  | s, [] => some s
  | s, e :: h => match step c s e with | none => none | some s => run c s h

/-- The exit status of the simulator, main/sstmac.cc:367-371. -/
def exitStatus (useAppRc : Bool) (s : St) : Int := if useAppRc then s.rc else 0

/-- The number of threads of OpenMP of a new process, app.cc:250-251; `parse` reads a number. -/
def ompThreads (parse : Str → Int) (own : List (Str × Str)) : Int :=
  match find own "OMP_NUM_THREADS".toList with
  | none => 1
  | some v => parse v

/-! ### APIs -/

/-- The entry `alias:name` or `name` of the list of APIs, app.cc:277-286: alias and name. -/
def parseApi (s : Str) : Str × Str :=
  if ':' ∈ s then (s.takeWhile (· ≠ ':'), (s.dropWhile (· ≠ ':')).tail) else (s, s)

/-- `apis_`, and the kinds of the objects made. -/
structure Apis where
  map : List (Str × Nat)
  objs : List Str

/-- The API of a name is made if the name is not in the table, app.cc:288-294. -/
def makeApi (s : Apis) (name : Str) : Apis :=
  match find s.map name with
  | some _ => s
  | none => ⟨put s.map name s.objs.length, s.objs ++ [name]⟩

/-- One entry of the list, app.cc:288-295. -/
def addApi (s : Apis) (e : Str × Str) : Apis :=
  match find (makeApi s e.2).map e.2 with
  | some i => ⟨put (makeApi s e.2).map e.1 i, (makeApi s e.2).objs⟩
  | none => makeApi s e.2

/-- The list of APIs. -/
def addApis (l : List (Str × Str)) : Apis := l.foldl addApi ⟨[], []⟩

/-- A `std::set` of pointers. -/
def toSet : List Nat → List Nat
  | [] => []
  | a :: l => a :: (toSet l).filter fun b => b ≠ a

/-- The objects that are deleted at the end of the process, app.cc:543-549: each value of the table once. -/
def deleted (s : Apis) : List Nat := toSet (s.map.map (·.2))

/-! ### Main functions -/

/-- What comes of the launch of an application by name. -/
inductive Launched where
  | full
  | empty
  | noBuilder
  | valueError
  | nullPointer
  deriving DecidableEq

/-- The launch of application `name` when the functions `full` (with arguments) and `empty` (without) are registered:
`aliasMains` app.cc:674-695 and :711-733, `create` sprockit/sprockit/factory.h:284-303, and the constructors app.cc:654-672 and
:776-793. -/
def launch (integrated : Bool) (full empty : List Str) (name : Str) : Launched :=
  if name ∈ full then .full
  else if name ∈ empty then
    if integrated then .empty else if full = [] then .nullPointer else .valueError
  else .noBuilder

/-! ### The loaded executable -/

/-- An entry of `dlopens_`. -/
structure Lib where
  refcount : Int
  loaded : Bool
  deriving DecidableEq

/-- Calls about one application: `lockDlopen`, `unlockDlopen`, `dlopenCheck` with a parameter `exe`, `dlcloseCheck`. -/
inductive LibEv where
  | lock
  | unlock
  | opens
  | closes
  deriving DecidableEq

/-- One call, app.cc:147-215. -/
def libStep (s : Option Lib) : LibEv → Option Lib
  | .lock => let e := s.getD ⟨0, false⟩; some { e with refcount := e.refcount + 1 }
  | .opens => let e := s.getD ⟨0, false⟩; some ⟨e.refcount + 1, if e.refcount = 0 || !e.loaded then true else e.loaded⟩
  | .unlock | .closes =>
    match s with
    | none => none
    | some e => let n := e.refcount - 1; if n = 0 && e.loaded then none else some { e with refcount := n }

end Verif.Os.AppEnv
