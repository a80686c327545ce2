/-
The engine that runs the action graph of a collective on one rank
(sumi/collective_actor.{h,cc}).

Actions are their identifiers (distinct within a rank: C38).  The partner of every send and
receive is assumed resolved (`addCommDependency`, :354-359, adds one more dependency
otherwise).  The functions call each other recursively: clearing an action starts others,
starting a shuffle clears it at once, and starting a receive may find its message already
there and clear it too.  The model keeps the active calls of `clearDependencies` in `stack`.
A send or receive may complete at any point, also in the middle of these calls, which covers
everything the recursion and the network can do.
-/
set_option autoImplicit false
namespace SST.Coll.Engine

/-- What can be seen of the engine: an action starts (`startAction`), an action is complete
(`clearAction`), completion of the collective is signalled (`putDoneNotification`). -/
inductive Ev where
  | start (a : Nat)
  | finish (a : Nat)
  | notify
deriving DecidableEq, Repr

/-- The members of `DagCollectiveActor` that decide what runs, collective_actor.h:505-525 (and `complete_`, collective.h:117). -/
structure St where
  /-- `initial_actions_` -/
  initial : List Nat := []
  /-- `pending_comms_`: pairs of a dependency and the action that waits for it -/
  pending : List (Nat × Nat) := []
  /-- `Action::join_counter` -/
  join : Nat → Nat := fun _ => 0
  /-- `active_comms_` -/
  active : List Nat := []
  /-- active calls of `clearDependencies`, innermost first -/
  stack : List Nat := []
  /-- `complete_` -/
  complete : Bool := false
  /-- history, newest first -/
  log : List Ev := []

/-- `addDependency(precursor, ac)`, collective_actor.cc:384-402, 335-347 and 360-373; no
precursor is `addAction`, :330-334. -/
def addDep (s : St) : Option Nat × Nat → St
  | (some b, a) =>
    { s with initial := s.initial.filter (· ≠ a), pending := s.pending ++ [(b, a)]
             join := fun x => if x = a then s.join a + 1 else s.join x }
  | (none, a) => if s.join a = 0 ∧ a ∉ s.initial then { s with initial := s.initial ++ [a] } else s

/-- `initDag`: a sequence of `addDependency` calls. -/
def build (calls : List (Option Nat × Nat)) : St := calls.foldl addDep {}

/-- `checkCollectiveDone` and `putDoneNotification`, collective_actor.cc:415-425 and 826-841. -/
def check (s : St) : St :=
  if s.active = [] ∧ s.pending = [] ∧ s.initial = [] ∧ s.complete = false then
    { s with complete := true, log := .notify :: s.log }
  else s

/-- `clearAction`, collective_actor.cc:253-260, up to the call of `clearDependencies`. -/
def clear (a : Nat) (s : St) : St :=
  let s := check { s with active := s.active.erase a, log := .finish a :: s.log }
  { s with stack := a :: s.stack }

/-- `startAction`, collective_actor.cc:161-212: sends and receives become active, shuffles
and joins are done at once. -/
def startAct (isComm : Nat → Bool) (a : Nat) (s : St) : St :=
  let s := { s with log := .start a :: s.log }
  if isComm a then { s with active := a :: s.active } else clear a s

/-- One iteration of the loop of `clearDependencies`, collective_actor.cc:227-250, for the
waiting action `a`. -/
def release (isComm : Nat → Bool) (b a : Nat) (s : St) : St :=
  let s := { s with pending := s.pending.erase (b, a)
                    join := fun x => if x = a then s.join a - 1 else s.join x }
  if s.join a = 0 then startAct isComm a s else s

/-- One step: the loops of `start` and `clearDependencies` and the completion of sends and receives, collective_actor.cc:147-273. -/
inductive Step (isComm : Nat → Bool) : St → St → Prop
  /-- an iteration of the loop of `start`, collective_actor.cc:147-159 -/
  | init (s : St) (a : Nat) (h : a ∈ s.initial) :
      Step isComm s (startAct isComm a { s with initial := s.initial.erase a })
  /-- a send or receive completes: `commActionDone`, collective_actor.cc:262-273, 551-568 -/
  | complete (s : St) (a : Nat) (h : a ∈ s.active) : Step isComm s (clear a s)
  | release (s : St) (b a : Nat) (rest : List Nat) (hs : s.stack = b :: rest) (h : (b, a) ∈ s.pending) :
      Step isComm s (release isComm b a s)
  /-- the loop of `clearDependencies` is over -/
  | ret (s : St) (b : Nat) (rest : List Nat) (hs : s.stack = b :: rest) (h : ∀ a, (b, a) ∉ s.pending) :
      Step isComm s { s with stack := rest }

/-- The states of a rank, for every order of completions. -/
inductive Reach (isComm : Nat → Bool) (calls : List (Option Nat × Nat)) : St → Prop
  | init : Reach isComm calls (build calls)
  | step {s s' : St} (h : Reach isComm calls s) (hs : Step isComm s s') : Reach isComm calls s'

end SST.Coll.Engine
