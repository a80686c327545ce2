/-
The engine's table of collectives on one rank (sumi/sim_transport.cc and sumi/collective.cc):
how calls and arriving messages find each other, and when a call is reported complete.

A collective is known by its type and tag only.  A message whose collective has not been
called waits in the engine; a message whose collective is running goes to the actor of the
rank it names.  When an actor is complete is left to the collective: a predicate on the
messages it has got (the graph of actions that decides this is the subject of C38-C40).
Sends, buffers and completion queues are not modelled.
-/
set_option autoImplicit false
namespace SST.Coll.Registry

/-- What the tables of the engine are indexed by: type and tag, transport.h:541-547
(`collectives_[ty][tag]`, `pending_collective_msgs_[ty][tag]`). -/
abbrev Key := Nat × Nat

/-- A message of a collective: the rank it is for (`domTargetRank`) and its content. -/
abbrev Msg := Nat × Nat

/-- One collective of a call: its type and tag, the caller's rank in its communicator
(`dom_me_`), and which messages complete it.  A call of the interface is a list of these:
each is the `subsequent_` of the one before, collective.h:142-154.  The `DoNothingCollective`
at the end of the node-aware calls only names the communicator of the report and is left out. -/
structure Phase where
  /-- type and tag -/
  key : Key
  /-- `dom_me_` -/
  rank : Nat
  /-- do these messages, in this order, complete it? -/
  need : List Nat → Bool

/-- `DagCollectiveActor`: the call it belongs to and the messages it has got. -/
structure Actor where
  /-- the call -/
  id : Nat
  /-- `dom_me_` -/
  rank : Nat
  /-- which messages complete it -/
  need : List Nat → Bool
  /-- what it got -/
  got : List Nat

/-- `DagCollective`, collective.h:193-232: the actors (`my_actors_`), the messages for actors that
do not exist (`pending_`), the ranks still to be done (the keys of `refcounts_`; every count is
1, because each collective that is called has one actor), the collectives that follow.  The
empty entry that `my_actors_[target]` leaves for an actor that does not exist is left out: only
the report of a deadlock looks at it. -/
structure Coll where
  /-- `my_actors_` -/
  actors : List Actor
  /-- `pending_` -/
  waiting : List Msg
  /-- keys of `refcounts_` -/
  refs : List Nat
  /-- `subsequent_` and what follows it -/
  subs : List Phase

/-- `Collective::actorDone`, collective.cc:122-138, for an actor that was not done before. -/
def Coll.actorDone (c : Coll) (rank : Nat) : Coll := { c with refs := c.refs.filter (· ≠ rank) }

/-- What the engine sees of a message given to a collective: the collective, the call whose
actor answers with a done message, the call it was delivered to. -/
structure Got where
  /-- the collective afterwards -/
  coll : Coll
  /-- the done message: the call it is of -/
  done : Option Nat
  /-- the call that got the message -/
  to : Option Nat

/-- `DagCollective::recv`, collective.cc:167-194, with `putDoneNotification`,
collective_actor.cc:826-841, which happens once. -/
def Coll.recv (c : Coll) (m : Msg) : Got :=
  match c.actors.find? (·.rank = m.1) with
  | none => ⟨{ c with waiting := c.waiting ++ [m] }, none, none⟩
  | some a =>
    let a' : Actor := { a with got := a.got ++ [m.2] }
    let c' : Coll := { c with actors := c.actors.map (fun b => if b.rank = m.1 then a' else b) }
    if a'.need a'.got then ⟨if a.need a.got then c' else c'.actorDone m.1, some a.id, some a.id⟩
    else ⟨c', none, some a.id⟩

/-- The engine of one rank. -/
structure World where
  /-- `collectives_` -/
  active : Key → Option Coll := fun _ => none
  /-- `pending_collective_msgs_` -/
  pend : Key → List Msg := fun _ => []
  /-- the done messages returned to callers, oldest first -/
  reports : List Nat := []
  /-- which call got which message of which collective, oldest first -/
  log : List (Nat × Key × Nat) := []

/-- An assignment to an entry of a table. -/
def set {β : Type} (f : Key → β) (k : Key) (v : β) : Key → β := fun k' => if k' = k then v else f k'

/-- The loops of `deliverPending` and `addActors`, sim_transport.cc:918-920 and
collective.cc:238-241: every message is given to the collective, the last answer is kept. -/
def feed (k : Key) : List Msg → Coll → Option Nat → List (Nat × Key × Nat) →
    Coll × Option Nat × List (Nat × Key × Nat)
  | [], c, d, l => (c, d, l)
  | m :: ms, c, _, l =>
    let r := c.recv m
    feed k ms r.coll r.done (match r.to with | some i => l ++ [(i, k, m.2)] | none => l)

/-- What is left in the table after a collective got messages: nothing once no rank is to be done
(`finishCollective`, sim_transport.cc:982-1004); after a done message its `subsequent_` is taken
(`popSubsequent`, collective.h:150-154). -/
def kept (c : Coll) (d : Option Nat) : Option Coll :=
  if c.refs = [] then none else some (if d.isSome then { c with subs := [] } else c)

/-- The `Collective` as it is called, `initActors`, collective.cc:158-165. -/
def fresh (id : Nat) (p : Phase) (subs : List Phase) : Coll :=
  ⟨[⟨id, p.rank, p.need, []⟩], [], [p.rank], subs⟩

/-- `addActors`, collective.cc:224-237, up to the loop: the actor of the new collective takes the
place of one with its rank, its rank is to be done. -/
def merge (c : Coll) (id : Nat) (p : Phase) : Coll :=
  { c with actors := c.actors.filter (·.rank ≠ p.rank) ++ [⟨id, p.rank, p.need, []⟩]
           refs := c.refs.filter (· ≠ p.rank) ++ [p.rank], waiting := [] }

/-- `startCollective`, sim_transport.cc:948-980, with `deliverPending`, :912-922.  The first
number bounds the collectives that are started one after the other.  The first call of its type
and tag gets the messages that wait for it; a collective that its own actions complete takes
itself and these messages out of the tables before (`start`, :969, then :996-1000).  A call of a
type and tag that is running gives its actor to the running collective, what was to follow it is
deleted (:962-967); that its own actions complete it is left out here.  After a done message
the next collective is started (:973-977). -/
def start (id : Nat) : Nat → List Phase → World → World × Option Nat
  | 0, _, w => (w, none)
  | _ + 1, [], w => (w, some id)
  | n + 1, p :: subs, w =>
    match w.active p.key with
    | some c =>
      let r := feed p.key c.waiting (merge c id p) none w.log
      let w' := { w with active := set w.active p.key (kept r.1 r.2.1), log := r.2.2 }
      match r.2.1 with
      | none => (w', none)
      | some d => start d n r.1.subs w'
    | none =>
      if p.need [] then ({ w with pend := set w.pend p.key [] }, none) else
      let r := feed p.key (w.pend p.key) (fresh id p subs) none w.log
      let w' := { w with active := set w.active p.key (kept r.1 r.2.1), pend := set w.pend p.key [], log := r.2.2 }
      match r.2.1 with
      | none => (w', none)
      | some d => start d n r.1.subs w'

/-- `incoming`, sim_transport.cc:1023-1055: a message for a collective that was not called waits. -/
def incoming (n : Nat) (k : Key) (m : Msg) (w : World) : World × Option Nat :=
  match w.active k with
  | none => ({ w with pend := set w.pend k (w.pend k ++ [m]) }, none)
  | some c =>
    let r := feed k [m] c none w.log
    let w' := { w with active := set w.active k (kept r.1 r.2.1), log := r.2.2 }
    match r.2.1 with
    | none => (w', none)
    | some d => start d n r.1.subs w'

/-- What the rank does: it calls an operation (`allreduce`, `barrier`, …: a list of collectives), or a
message arrives. -/
inductive Op where
  | call (id : Nat) (chain : List Phase)
  | arrive (key : Key) (m : Msg)

/-- A call or a message; a done message that is returned is a report (`blockUntilNext`,
sim_transport.cc:1057-1072, or the return of the call). -/
def exec (n : Nat) (w : World) (op : Op) : World :=
  let r := match op with
    | .call id chain => start id n chain w
    | .arrive k m => incoming n k m w
  match r.2 with
  | none => r.1
  | some d => { r.1 with reports := r.1.reports ++ [d] }

/-- How many collectives the operations have. -/
def phases : List Op → Nat
  | [] => 0
  | .call _ ch :: ops => ch.length + phases ops
  | .arrive _ _ :: ops => phases ops

/-- A history of the engine. -/
def run (ops : List Op) : World := ops.foldl (exec (phases ops + 1)) {}

end SST.Coll.Registry
