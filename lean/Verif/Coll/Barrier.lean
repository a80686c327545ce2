import Verif.Coll.Allgather
/-!
The barrier (`MpiApi::barrier`, mpi_api_collectives.cc:515-535, `CollectiveEngine::barrier`,
sim_transport.cc:902-910, `BruckBarrierCollective`, allgather.h:135-152): a Bruck exchange of
messages without data.  The ranks call it at different times; messages for a rank that has not
called it yet wait at that rank (`pending_collective_msgs_`).
-/
set_option autoImplicit false
namespace SST.Coll.Barrier
open SST.Coll SST.Coll.Allgather

/-- Actions of the barrier of `n` ranks: `BruckActor` with 0 elements of size 0,
allgather.h:148-151.  Messages carry no values. -/
def barrier (n : Nat) : Rounds Unit := bruck n 0

/-- The ranks that have called the barrier, and the state of all actions. -/
structure BState where
  /-- the rank has called the barrier -/
  entered : Nat → Bool
  /-- what has become of the actions and messages -/
  run : State Act Loc Unit

/-- Nobody has called the barrier. -/
def BState.init : BState := { entered := fun _ => false, run := start (fun _ => ()) }

/-- One step: a rank calls the barrier, or an action or message makes progress.  Actions of a
rank start only after the call (`startCollective`, sim_transport.cc:944-990, builds the actor
and starts its first actions). -/
inductive BStep (n : Nat) : BState → BState → Prop
  | enter (b : BState) (q : Nat) (hq : q < n) (h : b.entered q = false) :
      BStep n b { b with entered := fun x => if x = q then true else b.entered x }
  | run (b : BState) (s' : State Act Loc Unit) (h : Step (barrier n).sys b.run s')
      (he : ∀ a : Act, b.run.st a = .idle → s'.st a ≠ .idle → b.entered a.p = true) :
      BStep n b { b with run := s' }

/-- States reachable in any order of calls and under every schedule. -/
inductive BReach (n : Nat) : BState → Prop
  | init : BReach n BState.init
  | step {b b' : BState} (h : BReach n b) (hs : BStep n b b') : BReach n b'

/-- Rank `p` has left the barrier: it has called it and all its actions are complete
(`checkCollectiveDone`, collective_actor.cc:415-425; with one rank the call returns at once,
`skipCollective`). -/
def BState.hasLeft (n : Nat) (b : BState) (p : Nat) : Prop :=
  b.entered p = true ∧ ∀ a ∈ (barrier n).acts, a.p = p → b.run.st a = .done

end SST.Coll.Barrier
