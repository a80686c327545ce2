set_option autoImplicit false
/-
Model of the run of the `boxml` skeleton: boxes are placed on ranks, events (computations at
a box and messages between boxes) depend on other events, and every rank runs a loop that
sends, computes and receives what has become valid
(skeletons/boxml/boxml-run.cc:54-376, boxml-data.cc:324-496, 622-676).

Modelled: events of type `computation` and `pt2pt` in the mode `full_asynch`
(boxml.h:200), where epochs are not used.  Collectives, epochs, times, statistics and the
reading of files are not modelled.  `randomize_events` shuffles the valid lists and the
network delivers messages in any order, so the model lets a rank take any valid send, any
valid computation or any message that has been put for it, in any order and interleaved in
any way with the other ranks; the order of the loop (sends, then one computation, then a
blocking poll) is one of these.

Simplifications: sets of event numbers are lists without repetition (the order in which
`simple_event_done` takes listeners from its unordered set is here ascending; it only orders
the valid lists, from which any element may be taken), globals of the
simulator process are one state, a pass over the valid sends is a sequence of single sends,
and the counter `n_events` is updated with each of them.
-/
namespace SST.Apps.Boxml

/-- An event: `comp` (skeletons/boxml/containers.h:288-345, `at_`) or `comm`
(containers.h:353-400, `from_`, `to_`), with box numbers. -/
inductive Ev
  | comp (at_ : Nat)
  | comm (from_ to_ : Nat)
deriving DecidableEq, Repr

/-- What has been read: `g_events` (0 .. n-1), `g_boxindex_to_rank`, and the dependencies of
each event (`dep_`, containers.h:183-198). -/
structure Graph where
  n : Nat
  ev : Nat → Ev
  rankOf : Nat → Nat
  deps : Nat → List Nat

/-- What a rank did, for the record; not in the code. -/
inductive Entry
  | comp (r i : Nat)
  | send (r i : Nat)
  | pass (r i : Nat)
  | recv (r i : Nat)
deriving DecidableEq, Repr

/-- `dep_` and `listeners_` of the events, `g_rank_to_valid_comps`,
`g_rank_to_valid_sends`, messages in the network, `n_events` of each rank, and the record of
what was done, newest first. -/
structure St where
  dep : Nat → List Nat
  lis : Nat → List Nat
  validC : Nat → List Nat
  validS : Nat → List Nat
  flight : List (Nat × Nat)
  left : Nat → Int
  log : List Entry

/-- Assignment to an element. -/
def upd {α : Type} (f : Nat → α) (i : Nat) (v : α) : Nat → α := fun j => if j = i then v else f j

/-- `g_rank_to_comps`, filled by `distribute_comp`, skeletons/boxml/boxml-data.cc:425-440. -/
def comps (G : Graph) (r : Nat) : List Nat :=
  (List.range G.n).filter fun i => match G.ev i with
    | .comp b => G.rankOf b == r
    | .comm _ _ => false

/-- `g_rank_to_sends`, filled by `distribute_comm` for messages between different ranks,
boxml-data.cc:401-423. -/
def sends (G : Graph) (r : Nat) : List Nat :=
  (List.range G.n).filter fun i => match G.ev i with
    | .comp _ => false
    | .comm a b => G.rankOf a != G.rankOf b && G.rankOf a == r

/-- `g_rank_to_recvs`, boxml-data.cc:401-423. -/
def recvs (G : Graph) (r : Nat) : List Nat :=
  (List.range G.n).filter fun i => match G.ev i with
    | .comp _ => false
    | .comm a b => G.rankOf a != G.rankOf b && G.rankOf b == r

/-- `populate_listeners`, boxml-data.cc:324-366. -/
def listeners (G : Graph) (d : Nat) : List Nat :=
  (List.range G.n).filter fun i => (G.deps i).contains d

/-- `distribute_events` (boxml-data.cc:459-496) and `count_events` (boxml-run.cc:56-62). -/
def init (G : Graph) : St where
  dep := G.deps
  lis := listeners G
  validC := fun r => (comps G r).filter fun i => (G.deps i).isEmpty
  validS := fun r => (sends G r).filter fun i => (G.deps i).isEmpty
  flight := []
  left := fun r => (comps G r).length + (sends G r).length + (recvs G r).length
  log := []

/-- One turn of the loop of `simple_event_done` on rank `r` for the listener `f`,
boxml-data.cc:629-672: `remove_dep`, and if no dependency is left, `push_back` onto the
valid list of the rank that runs this. -/
def wake (G : Graph) (r index : Nat) (s : St) (f : Nat) : St :=
  let ds := (s.dep f).filter (· ≠ index)
  let s := { s with dep := upd s.dep f ds }
  match G.ev f with
  | .comp _ => if ds.isEmpty then { s with validC := upd s.validC r (s.validC r ++ [f]) } else s
  | .comm _ _ => if ds.isEmpty then { s with validS := upd s.validS r (s.validS r ++ [f]) } else s

/-- `simple_event_done`, boxml-data.cc:622-676. -/
def eventDone (G : Graph) (r index : Nat) (s : St) : St :=
  let t := (s.lis index).foldl (wake G r index) s
  { t with lis := upd t.lis index [] }

/-- `compute_boxes` for the valid computation `i`, boxml-run.cc:168-221. -/
def doComp (G : Graph) (r i : Nat) (s : St) : St :=
  let s := { s with validC := upd s.validC r ((s.validC r).erase i) }
  let s := eventDone G r i s
  { s with left := upd s.left r (s.left r - 1), log := .comp r i :: s.log }

/-- One turn of the loop of `send_boxes` for the valid send `i`, boxml-run.cc:74-115: a put to
another rank, or the completion of a message to the rank itself. -/
def doSend (G : Graph) (r i : Nat) (s : St) : St :=
  let dest := match G.ev i with
    | .comm _ b => G.rankOf b
    | .comp b => G.rankOf b
  if dest ≠ r then
    { s with validS := upd s.validS r ((s.validS r).erase i), flight := (dest, i) :: s.flight,
             left := upd s.left r (s.left r - 1), log := .send r i :: s.log }
  else
    let s := eventDone G r i s
    { s with validS := upd s.validS r ((s.validS r).erase i), log := .pass r i :: s.log }

/-- `recv_boxes` for the message of event `i`, boxml-run.cc:223-290. -/
def doRecv (G : Graph) (r i : Nat) (s : St) : St :=
  let s := { s with flight := s.flight.erase (r, i) }
  let s := eventDone G r i s
  { s with left := upd s.left r (s.left r - 1), log := .recv r i :: s.log }

/-- What rank `r` can do next. -/
inductive Step (G : Graph) : Nat → St → St → Prop
  | comp {r i s} : i ∈ s.validC r → Step G r s (doComp G r i s)
  | send {r i s} : i ∈ s.validS r → Step G r s (doSend G r i s)
  | recv {r i s} : (r, i) ∈ s.flight → Step G r s (doRecv G r i s)

/-- The states of a run, after any number of steps of any ranks in any order. -/
inductive Reach (G : Graph) : St → Prop
  | init : Reach G (init G)
  | step {r s t} : Reach G s → Step G r s t → Reach G t

/-- The pass over the valid sends keeps an iterator into the deque while it completes a local
message, boxml-run.cc:74-115; `push_back` on the same deque (boxml-data.cc:656) invalidates
it, and it is used to erase the element. -/
def staleIterator (G : Graph) (r i : Nat) (s : St) : Bool :=
  match G.ev i with
  | .comm _ b => G.rankOf b == r && (eventDone G r i s).validS r != s.validS r
  | .comp _ => false

end SST.Apps.Boxml
