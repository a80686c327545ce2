set_option autoImplicit false
/-
Model of the libraries of an operating system and of the requests for them:
sstmac/software/process/operating_system.cc:581-624, 787-821, operating_system.h:385-392,
sstmac/software/libraries/library.cc:52-64.
-/
namespace SST.Os.Libs

/-- A request: the name of the library it is for (`Flow::libname`) and its identity. -/
abbrev Req := Nat × Nat

/-- The members of `OperatingSystem` that concern libraries, operating_system.h:385-392.  Libraries
and names are numbers. -/
structure St where
  /-- `lib_refcounts_`; 0 is also "no entry" -/
  refs : Nat → Int
  /-- `libs_`: the library under a name -/
  libs : Nat → Option Nat
  /-- `pending_library_request_`, all names in one list, which keeps the order for each name -/
  pending : List Req
  /-- the calls of `incomingRequest` scheduled by `sendExecutionEventNow`, in order: library and
  request -/
  sched : List (Nat × Req)
  /-- ghost: the calls of `incomingRequest` so far -/
  got : List (Nat × Req)

/-- A new operating system. -/
def St.init : St := ⟨fun _ => 0, fun _ => none, [], [], []⟩

/-- Write one entry of a map. -/
def put {A : Type} (f : Nat → A) (i : Nat) (a : A) : Nat → A := fun j => if j = i then a else f j

/-- `OperatingSystem::registerLib`, operating_system.cc:581-607; `nm` gives the names of libraries,
which never change. -/
def register (nm : Nat → Nat) (s : St) (l : Nat) : St :=
  { s with
    refs := put s.refs l (s.refs l + 1), libs := put s.libs (nm l) (some l)
    sched := s.sched ++ (s.pending.filter fun r => r.1 == nm l).map fun r => (l, r)
    pending := s.pending.filter fun r => r.1 != nm l }

/-- `OperatingSystem::unregisterLib`, operating_system.cc:609-624. -/
def unregister (nm : Nat → Nat) (s : St) (l : Nat) : St :=
  if s.refs l = 1 then { s with refs := put s.refs l 0, libs := put s.libs (nm l) none }
  else { s with refs := put s.refs l (s.refs l - 1) }

/-- `OperatingSystem::handleRequest` and `handleLibraryRequest`, operating_system.cc:787-821. -/
def request (s : St) (r : Req) : St :=
  match s.libs r.1 with
  | some l => { s with got := s.got ++ [(l, r)] }
  | none => { s with pending := s.pending ++ [r] }

/-- The next scheduled call happens. -/
def fire (s : St) : St :=
  match s.sched with
  | [] => s
  | p :: ps => { s with sched := ps, got := s.got ++ [p] }

/-- What can happen: a library is created or registered again, destroyed or unregistered, a request
arrives, a scheduled call happens. -/
inductive Op where
  | reg (l : Nat)
  | unreg (l : Nat)
  | req (r : Req)
  | fire
deriving DecidableEq

/-- One happening. -/
def step (nm : Nat → Nat) (s : St) : Op → St
  | .reg l => register nm s l
  | .unreg l => unregister nm s l
  | .req r => request s r
  | .fire => fire s

/-- A history of an operating system. -/
def run (nm : Nat → Nat) (ops : List Op) : St := ops.foldl (step nm) .init

end SST.Os.Libs
