/-
The call graph of a simulated thread (sstmac/software/process/graphviz.{h,cc}, backtrace.h, thread.cc):
functions marked with `CallGraphAppend` are kept on a stack, the time the thread spends is given to
the functions on it, and at the end the times and the numbers of calls are written for KCacheGrind.

Functions are numbers, `uint64_t` times and counts are natural numbers (they do not wrap).
`Thread::appendBacktrace` (thread.cc:267-276) leaves its parameter without a name, so the code does not
compile with call graphs; modelled is what the assignment of `id` says.
-/
set_option autoImplicit false
namespace SST.Os.CallGraph

/-- What can go wrong: a function number outside a table, an access outside `backtrace_`, an abort. -/
inductive Bad where
  | range
  | stack
  | abort
deriving DecidableEq, Repr

/-- The thread's stack and its call graph, graphviz.h:56-175, thread.h:441-445. -/
structure St where
  /-- `backtrace_`, oldest first; `bt_nfxn_` is its length -/
  stack : List Nat := []
  /-- `last_bt_collect_nfxn_` -/
  last : Nat := 0
  /-- `traces_.size()` and the size of every `calls_`: the functions known when the graph was made -/
  n : Nat
  /-- `self_time_ticks_` -/
  self : Nat → Nat := fun _ => 0
  /-- `calls_[..].time_ticks` of a caller and a function -/
  time : Nat → Nat → Nat := fun _ _ => 0
  /-- `calls_[..].ncalls` -/
  ncalls : Nat → Nat → Nat := fun _ _ => 0

/-- An addition to an entry of a table. -/
def add1 (t : Nat → Nat) (f c : Nat) : Nat → Nat := fun x => if x = f then t x + c else t x

/-- An addition to an entry of a table with two indices. -/
def add2 (t : Nat → Nat → Nat) (f g c : Nat) : Nat → Nat → Nat := fun x y => if x = f ∧ y = g then t x y + c else t x y

/-- `BACKTRACE_NFXN`, graphviz.h:211. -/
def depth : Nat := 50

/-- `Thread::appendBacktrace`, thread.cc:267-276: no check of the bound of the array. -/
def push (s : St) (f : Nat) : Except Bad St :=
  if s.stack.length < depth then .ok { s with stack := s.stack ++ [f] } else .error .stack

/-- `Thread::popBacktrace`, thread.cc:278-283. -/
def pop (s : St) : Except Bad St :=
  if s.stack = [] then .error .stack
  else .ok { s with stack := s.stack.dropLast, last := min s.last (s.stack.length - 1) }

/-- The loops of `collect`, graphviz.cc:190-203: position `i` of the caller; before `stop` the call is
not counted. -/
def walk (count stop : Nat) : Nat → List Nat → St → St
  | i, f :: g :: rest, s =>
    walk count stop (i + 1) (g :: rest)
      { s with time := add2 s.time f g count, ncalls := add2 s.ncalls f g (if i < stop then 0 else 1) }
  | _, _, s => s

/-- `CallGraph::collect`, graphviz.cc:169-208. -/
def collect (s : St) (count : Nat) : Except Bad St :=
  match s.stack.getLast? with
  | none => .error .abort
  | some f =>
    if s.stack.all (· < s.n) then
      let s' := walk count (min (s.stack.length - 1) s.last) 0 s.stack s
      .ok { s' with self := add1 s'.self f count, last := s.stack.length }
    else .error .range

/-- `CallGraph::reassign`, graphviz.cc:210-226, and `reassignSelf`, graphviz.h:115-120. -/
def reassign (s : St) (g count : Nat) : Except Bad St :=
  match s.stack.getLast? with
  | none => .error .stack
  | some f =>
    if f < s.n ∧ g < s.n then
      if s.self f < count then .error .abort
      else .ok { s with self := add1 (fun x => if x = f then s.self x - count else s.self x) g count
                        time := add2 s.time f g count, ncalls := add2 s.ncalls f g 1 }
    else .error .range

/-- What a thread does. -/
inductive Op where
  | enter (f : Nat)
  | leave
  | spend (ticks : Nat)
  | idle (f ticks : Nat)
deriving DecidableEq, Repr

/-- One step. -/
def step (s : St) : Op → Except Bad St
  | .enter f => push s f
  | .leave => pop s
  | .spend c => collect s c
  | .idle f c => reassign s f c

/-- A list of steps. -/
def run (n : Nat) (ops : List Op) : Except Bad St := ops.foldlM step { n := n }

/-- `FunctionTrace::include`, graphviz.cc:110-120; `ids` is the number of functions known now. -/
def included (s : St) (ids f : Nat) : Except Bad Bool :=
  match (List.range ids).find? (fun g => s.n ≤ g || s.time f g ≠ 0) with
  | some g => if s.n ≤ g then .error .range else .ok true
  | none => .ok (s.self f ≠ 0)

/-- A line of the output: function, own time, and the functions called with counts and times. -/
structure Line where
  /-- the function -/
  fn : Nat
  /-- own time -/
  self : Nat
  /-- called function, number of calls, time -/
  calls : List (Nat × Nat × Nat)
deriving DecidableEq, Repr

/-- `FunctionTrace::summary`, graphviz.cc:122-138, for as many functions as there are entries. -/
def summary (s : St) (f : Nat) : Line :=
  ⟨f, s.self f, (List.range s.n).filterMap (fun g => if s.time f g ≠ 0 then some (g, s.ncalls f g, s.time f g) else none)⟩

/-- `CallGraphOutput::dumpCallGraph`, graphviz.cc:242-263, with `ids` functions known at the end. -/
def dump (s : St) (ids : Nat) : Except Bad (List Line) :=
  (List.range s.n).foldlM (fun out f => do
    let b ← included s ids f
    pure (if b then out ++ [summary s f] else out)) []

end SST.Os.CallGraph
