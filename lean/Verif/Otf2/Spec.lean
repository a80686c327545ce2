import Verif.Otf2.Replay
set_option autoImplicit false
/-!
# What a trace records, and what its replay should do

A program of one rank is a list of calls of MPI with the times at which they were entered and left.
`record` is the trace that a tracer writes for it, by the conventions that callbacks.cc relies on:
entering and leaving a call are events; a send or receive that blocks has one event within the call;
a request that starts has one event in the call that starts it; a request that completes has one event
in the call that completes it, and for a receive only this one says what was received.
`faithful` is what the replay should do.
-/

namespace Verif.Otf2

/-- The message of a receive. -/
structure Msg where
  src : Nat
  comm : Nat
  tag : Nat
  len : Nat
deriving DecidableEq, Repr

/-- The calls of a program.  `complete`: a call that completes requests, in this order.  `probe`: a
call as MPI_Test that completes at most one request.  `plain`: a call with no event of its own.
`skipped`: a call that the replay does not look at. -/
inductive Body where
  | send (dst comm tag len : Nat)
  | recv (m : Msg)
  | isend (region : Id) (dst comm tag len req : Nat)
  | irecv (m : Msg) (req : Nat)
  | complete (region : Id) (reqs : List Nat)
  | probe (region : Id) (req : Option Nat)
  | coll (n : Nat) (op : CollOp) (comm root sent received : Nat)
  | plain (region : Id)
  | skipped (n : Nat)
  | init
  | finalize
deriving DecidableEq, Repr

/-- A call with the times of its start and its end. -/
structure Op where
  body : Body
  start : Nat
  stop : Nat
deriving DecidableEq, Repr

/-- The requests that have started and not completed, with the message of those that receive. -/
abbrev Pend := List (Nat × Option Msg)

/-- Finds a request. -/
def find (r : Nat) : Pend → Option (Option Msg)
  | [] => none
  | (k, v) :: m => if k = r then some v else find r m

/-- The requests without one. -/
def drop (r : Nat) (m : Pend) : Pend := m.filter (fun x => x.1 ≠ r)

/-- The event of the completion of a request. -/
def completion (pend : Pend) (r : Nat) : Ev :=
  match find r pend with
  | some (some m) => .irecv m.src m.comm m.tag m.len r
  | _ => .isendComplete r

/-- The events of the completions of some requests. -/
def completions : Pend → List Nat → List Ev
  | _, [] => []
  | pend, r :: rs => completion pend r :: completions (drop r pend) rs

/-- The requests that are pending after a call. -/
def pendAfter (pend : Pend) (op : Op) : Pend :=
  match op.body with
  | .isend _ _ _ _ _ r => (r, none) :: pend
  | .irecv m r => (r, some m) :: pend
  | .complete _ rs => rs.foldl (fun p r => drop r p) pend
  | .probe _ (some r) => drop r pend
  | _ => pend

/-- The requests that are pending after a program. -/
def pending : Pend → List Op → Pend
  | pend, [] => pend
  | pend, op :: ops => pending (pendAfter pend op) ops

/-- The events of one call. -/
def eventsOf (pend : Pend) (op : Op) : List Ev :=
  match op.body with
  | .send d c t l => [.enter .send op.start, .send d c t l, .leave .send op.stop]
  | .recv m => [.enter .recv op.start, .recv m.src m.comm m.tag m.len, .leave .recv op.stop]
  | .isend g d c t l r => [.enter g op.start, .isend d c t l r, .leave g op.stop]
  | .irecv _ r => [.enter .irecv op.start, .irecvRequest r, .leave .irecv op.stop]
  | .complete g rs => .enter g op.start :: (completions pend rs ++ [.leave g op.stop])
  | .probe g none => [.enter g op.start, .leave g op.stop]
  | .probe g (some r) => [.enter g op.start, completion pend r, .leave g op.stop]
  | .coll n o c root s v =>
    [.enter (.other n) op.start, .collectiveBegin, .collectiveEnd o c root s v, .leave (.other n) op.stop]
  | .plain g => [.enter g op.start, .leave g op.stop]
  | .skipped n => [.enter (.ignored n) op.start, .leave (.ignored n) op.stop]
  | .init => [.enter .init op.start, .leave .init op.stop]
  | .finalize => [.enter .finalize op.start, .leave .finalize op.stop]

/-- The trace of a program. -/
def record : Pend → List Op → List Ev
  | _, [] => []
  | pend, op :: ops => eventsOf pend op ++ record (pendAfter pend op) ops

/-- The regions that complete any number of requests. -/
def waits (g : Id) : Bool := g = .wait || g = .waitall || g = .waitany || g = .waitsome

/-- The regions that the replay treats as calls that are complete when they are left. -/
def simple (g : Id) : Bool :=
  match g with
  | .isend | .test | .testall | .start | .startall | .ssend | .sendrecv | .other _ => true
  | _ => false

/-- A call that can be made when some requests have been used and some are pending: a request that
starts is new, requests that complete are pending, and the regions are those of such calls. -/
def allowed (used : List Nat) (pend : Pend) (op : Op) : Prop :=
  match op.body with
  | .isend g _ _ _ _ r => simple g = true ∧ r ∉ used
  | .irecv _ r => r ∉ used
  | .complete g rs => waits g = true ∧ rs.Nodup ∧ ∀ r ∈ rs, r ∈ pend.map (·.1)
  | .probe g (some r) => simple g = true ∧ r ∈ pend.map (·.1)
  | .probe g none => simple g = true
  | .plain g => simple g = true
  | _ => True

/-- The requests that have been used after a call. -/
def usedAfter (used : List Nat) (op : Op) : List Nat :=
  match op.body with
  | .isend _ _ _ _ _ r => r :: used
  | .irecv _ r => r :: used
  | _ => used

/-- Programs whose calls are allowed, one after the other. -/
def Legal : List Nat → Pend → List Op → Prop
  | _, _, [] => True
  | used, pend, op :: ops => allowed used pend op ∧ Legal (usedAfter used op) (pendAfter pend op) ops

/-- The calls of MPI that stand for one call of the program. -/
def mpiOf (size : Nat → Nat) (b : Body) : List Act :=
  match b with
  | .send d c t l => [.send d c t l]
  | .recv m => [.recv m.src m.comm m.tag m.len]
  | .isend _ d c t l r => [.isend d c t l r]
  | .irecv m r => [.irecv m.src m.comm m.tag m.len r]
  | .complete _ rs => rs.map .wait
  | .probe _ (some r) => [.wait r]
  | .coll _ o c root s v =>
    match collAct o c root s v (size c) with
    | none => []
    | some .print => []
    | some a => [a]
  | .finalize => [.finalize]
  | _ => []

/-- The computation before a call that starts at a time, the call before having ended at `last`; before
the first call there is none. -/
def gap (last : Option Int) (start : Int) : List Out :=
  match last with
  | none => []
  | some t => [.compute (start - t)]

/-- What the replay should do: before each call, compute for the time between the end of the call before
and its start; then make the call.  Time within a call is not replayed, because the simulation of
the call takes its own time. -/
def faithful (conv : Nat → Int) (size : Nat → Nat) : Option Int → List Op → List Out
  | _, [] => []
  | last, op :: ops =>
    match op.body with
    | .skipped _ => faithful conv size last ops
    | b =>
      gap last (conv op.start) ++ (mpiOf size b).map .call ++ faithful conv size (some (conv op.stop)) ops

/-- What is seen of a list of computations and calls: computing for no time is not seen. -/
def seen (l : List Out) : List Out := l.filter (fun o => o ≠ .compute 0)

/-- A call that is not a receive whose request never completes. -/
def finished (pend : Pend) (op : Op) : Bool :=
  match op.body with
  | .irecv _ r => !(pend.map (·.1)).contains r
  | _ => true

end Verif.Otf2
