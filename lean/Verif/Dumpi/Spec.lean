import Verif.Dumpi.Replay
set_option autoImplicit false
/-!
# What a DUMPI trace records, and what its replay should do

A program of one rank is a list of calls of MPI with their wall times.  It names requests, datatypes,
groups and communicators as objects, numbered in the order in which they were made; the tracer gives
each of them a handle when it is made, which it may use again later, when the object is gone.
`record` is the trace.  `faithful` is what the replay should do: to compute for the time between the
calls, and to give MPI the operations of the program, to wait for those for which the program waited, and
so on.
-/

namespace Verif.Dumpi

/-- A datatype of a program: a builtin one by its number in traces, or one that the program made. -/
inductive Ty where
  | base (id : Nat)
  | user (t : Nat)
deriving DecidableEq, Repr

/-- How a call completes requests. -/
inductive Way where
  | wait | waitall | waitany | waitsome | test | testall | testany | testsome
deriving DecidableEq, Repr

/-- The calls of a program.  A peer or a tag that is `none` is MPI_ANY_SOURCE or MPI_ANY_TAG.  `id` is the handle that
the tracer gives to the object that the call makes.  `complete`: a call with these requests (`none` is
MPI_REQUEST_NULL), of which those at the indices `fin` completed.  `worldGroup`: MPI_Comm_group of
MPI_COMM_WORLD.  `coll`: a collective with the counts and datatypes that are significant on this rank.
`other`: a call that has no effect on other ranks, as MPI_Wtime or MPI_Comm_rank. -/
inductive Body where
  | send (n : Nat) (t : Ty) (dest tag comm : Nat)
  | recv (n : Nat) (t : Ty) (src tag : Option Nat) (comm : Nat)
  | isend (n : Nat) (t : Ty) (dest tag comm : Nat) (id : Int)
  | irecv (n : Nat) (t : Ty) (src tag : Option Nat) (comm : Nat) (id : Int)
  | sendInit (n : Nat) (t : Ty) (dest tag comm : Nat) (id : Int)
  | recvInit (n : Nat) (t : Ty) (src tag : Option Nat) (comm : Nat) (id : Int)
  | start (r : Nat)
  | startall (rs : List Nat)
  | complete (way : Way) (rs : List (Option Nat)) (fin : List Nat)
  | requestFree (r : Nat)
  | probe (src tag : Option Nat) (comm : Nat)
  | sendrecv (n : Nat) (t : Ty) (dest tag : Nat) (n' : Nat) (t' : Ty) (src tag' : Option Nat) (comm : Nat)
  | sendrecvReplace (n : Nat) (t : Ty) (dest tag : Nat) (src tag' : Option Nat) (comm : Nat)
  | typeNew (con : Con Ty) (id : Nat)
  | typeCommit (t : Ty)
  | typeFree (t : Nat)
  | barrier (comm : Nat)
  | coll (kind : Kind) (args : List (List Nat × Ty)) (root comm : Nat) (atRoot : Bool)
  | worldGroup (id : Int)
  | groupIncl (g : Nat) (ranks : List Nat) (id : Int)
  | groupFree (g : Nat)
  | commDup (c : Nat) (id : Int)
  | commCreate (c g : Nat) (id : Int)
  | commSplit (c : Nat) (color : Nat) (key : Int) (id : Int)
  | commFree (c : Nat)
  | init
  | finalize
  | other
deriving DecidableEq, Repr

/-- A call with its wall times. -/
structure Op where
  body : Body
  start : Clock
  stop : Clock
deriving DecidableEq, Repr

/-- A request of the program: its handle in the trace, the operation that it waits for, its arguments if it
is persistent, and whether it was ever started. -/
structure Req where
  id : Int
  op : Option Nat
  pers : Option Post
  started : Bool
deriving DecidableEq, Repr

/-- The program: its requests, its datatypes with their handles and sizes, its groups and communicators with
their handles, and how many operations, requests, datatypes, groups and communicators there have
been. -/
structure PS where
  reqs : List (Nat × Req)
  types : List (Nat × (Nat × Nat))
  groups : List (Nat × Int)
  comms : List (Nat × Int)
  nop : Nat
  nreq : Nat
  ntype : Nat
  ngroup : Nat
  ncomm : Nat
deriving DecidableEq, Repr

/-- At the start there are MPI_COMM_WORLD, which is communicator 0, and its group, which is group 0 and has
no handle yet.  (Number 1 is left for MPI_COMM_SELF.) -/
def PS.init (k : K) : PS := ⟨[], [], [], [(0, k.commWorld)], 0, 0, 0, 2, 2⟩

/-- Finds an object. -/
def look {α : Type} (n : Nat) : List (Nat × α) → Option α
  | [] => none
  | (m, a) :: l => if m = n then some a else look n l

/-- Removes an object. -/
def del {α : Type} (n : Nat) (l : List (Nat × α)) : List (Nat × α) := l.filter (fun x => x.1 ≠ n)

/-- Changes an object. -/
def put {α : Type} (n : Nat) (a : α) (l : List (Nat × α)) : List (Nat × α) := (n, a) :: del n l

/-- The size of a datatype. -/
def sizeOf (k : K) (ps : PS) : Ty → Nat
  | .base id => (k.base id).getD 0
  | .user t => ((look t ps.types).map (·.2)).getD 0

/-- The handle of a datatype. -/
def idOf (ps : PS) : Ty → Nat
  | .base id => id
  | .user t => ((look t ps.types).map (·.1)).getD 0

/-- The handle of a request. -/
def reqId (k : K) (ps : PS) : Option Nat → Int
  | none => k.reqNull
  | some r => ((look r ps.reqs).map Req.id).getD 0

/-- The handle of a communicator. -/
def commId (ps : PS) (c : Nat) : Int := (look c ps.comms).getD 0

/-- The handle of a group. -/
def groupId (ps : PS) (g : Nat) : Int := (look g ps.groups).getD 0

/-- The source as MPI has it. -/
def srcOf : Option Nat → Int
  | none => mpiAnySource
  | some p => p

/-- The tag as MPI has it. -/
def tagOf : Option Nat → Int
  | none => mpiAnyTag
  | some g => g

/-- The source as the trace has it. -/
def srcIn (k : K) : Option Nat → Int
  | none => k.anySource
  | some p => p

/-- The tag as the trace has it. -/
def tagIn (k : K) : Option Nat → Int
  | none => k.anyTag
  | some g => g

/-- A type constructor with handles for datatypes. -/
def conIn (ps : PS) : Con Ty → Con Nat
  | .contiguous n t => .contiguous n (idOf ps t)
  | .vector n b st t => .vector n b st (idOf ps t)
  | .indexed ls t => .indexed ls (idOf ps t)
  | .struct fs => .struct (fs.map (fun f => (f.1, idOf ps f.2)))
  | .dup t => .dup (idOf ps t)

/-- The index that MPI_Waitany and MPI_Testany give. -/
def index : List Nat → Int
  | i :: _ => i
  | [] => -1

/-- The record of a call. -/
def recOf (k : K) (ps : PS) : Body → Rec
  | .send n t d g c => .send n (idOf ps t) d g (commId ps c)
  | .recv n t d g c => .recv n (idOf ps t) (srcIn k d) (tagIn k g) (commId ps c)
  | .isend n t d g c r => .isend n (idOf ps t) d g (commId ps c) r
  | .irecv n t d g c r => .irecv n (idOf ps t) (srcIn k d) (tagIn k g) (commId ps c) r
  | .sendInit n t d g c r => .sendInit n (idOf ps t) d g (commId ps c) r
  | .recvInit n t d g c r => .recvInit n (idOf ps t) (srcIn k d) (tagIn k g) (commId ps c) r
  | .start r => .start (reqId k ps (some r))
  | .startall rs => .startall (rs.map (fun r => reqId k ps (some r)))
  | .complete .wait rs _ => .wait (reqId k ps (rs.headD none))
  | .complete .waitall rs _ => .waitall (rs.map (reqId k ps))
  | .complete .waitany rs fin => .waitany (rs.map (reqId k ps)) (index fin)
  | .complete .waitsome rs fin => .waitsome (rs.map (reqId k ps)) fin
  | .complete .test rs fin => .test (fin ≠ []) (reqId k ps (rs.headD none))
  | .complete .testall rs fin => .testall (fin ≠ [] || rs = []) (rs.map (reqId k ps))
  | .complete .testany rs fin => .testany (fin ≠ []) (rs.map (reqId k ps)) (index fin)
  | .complete .testsome rs fin => .testsome (rs.map (reqId k ps)) fin
  | .requestFree _ => .pass
  | .probe p g c => .probe (srcIn k p) (tagIn k g) (commId ps c)
  | .sendrecv n t d g n' t' d' g' c =>
    .sendrecv n (idOf ps t) d g n' (idOf ps t') (srcIn k d') (tagIn k g') (commId ps c)
  | .sendrecvReplace n t d g d' g' c =>
    .sendrecvReplace n (idOf ps t) d g (srcIn k d') (tagIn k g') (commId ps c)
  | .typeNew con id => .typeNew (conIn ps con) id
  | .typeCommit t => .typeCommit (idOf ps t)
  | .typeFree t => .typeFree (idOf ps (.user t))
  | .barrier c => .barrier (commId ps c)
  | .coll kind args root c atRoot =>
    let args := args.map (fun a => (a.1, idOf ps a.2))
    .coll kind (if kind = .gatherv ∧ !atRoot then args ++ [([], 0)] else args) root (commId ps c) atRoot
  | .worldGroup _ => .pass
  | .groupIncl g ranks id => .groupIncl (groupId ps g) ranks id
  | .groupFree _ => .pass
  | .commDup c id => .commDup (commId ps c) id
  | .commCreate c g id => .commCreate (commId ps c) (groupId ps g) true id
  | .commSplit c color key id => .commSplit (commId ps c) color key id
  | .commFree c => .commFree (commId ps c)
  | .init => .init
  | .finalize => .finalize
  | .other => .pass

/-- The arguments of a send and of a receive. -/
def sendPost (k : K) (ps : PS) (n : Nat) (t : Ty) (d g c : Nat) : Post := ⟨true, n * sizeOf k ps t, d, g, c⟩
/-- The same for a receive. -/
def recvPost (k : K) (ps : PS) (n : Nat) (t : Ty) (d g : Option Nat) (c : Nat) : Post :=
  ⟨false, n * sizeOf k ps t, srcOf d, tagOf g, c⟩

/-- A persistent request starts: its operation is given to MPI. -/
def startReq (r : Nat) (ps : PS) : List Out × PS :=
  match look r ps.reqs with
  | some ⟨id, _, some p, _⟩ =>
    ([.post ps.nop p], { ps with reqs := put r ⟨id, some ps.nop, some p, true⟩ ps.reqs, nop := ps.nop + 1 })
  | _ => ([], ps)

/-- A request completes: its operation is waited for; a request that is not persistent is gone, and one that
is persistent can be started again. -/
def finishReq (r : Option Nat) (ps : PS) : List Out × PS :=
  match r with
  | none => ([], ps)
  | some r =>
    match look r ps.reqs with
    | some q =>
      ((match q.op with | some n => [.await n] | none => []),
        { ps with reqs := match q.pers with
                          | some _ => put r { q with op := none } ps.reqs
                          | none => del r ps.reqs })
    | none => ([], ps)

/-- Does something for each of a list, and collects what was done. -/
def collect {α : Type} (f : α → PS → List Out × PS) : List α → PS → List Out × PS
  | [], ps => ([], ps)
  | a :: as, ps =>
    let x := f a ps
    let y := collect f as x.2
    (x.1 ++ y.1, y.2)

/-- The size of a derived datatype by MPI's rules: the bytes of data in it, without holes. -/
def typeBytes (k : K) (ps : PS) : Con Ty → Nat
  | .contiguous n t => n * sizeOf k ps t
  | .vector n block _ t => n * (block * sizeOf k ps t)
  | .indexed lens t => (lens.map (fun n => n * sizeOf k ps t)).sum
  | .struct fields => (fields.map (fun f => f.1 * sizeOf k ps f.2)).sum
  | .dup t => sizeOf k ps t

/-- The collectives that have a root. -/
def hasRoot (kind : Kind) : Bool :=
  kind ∈ [Kind.bcast, .reduce, .gather, .gatherv, .scatter, .scatterv]

/-- What the replay should do for a call, and the program after the call. -/
def does (k : K) (ps : PS) : Body → List Out × PS
  | .send n t d g c => ([.post ps.nop (sendPost k ps n t d g c), .await ps.nop], { ps with nop := ps.nop + 1 })
  | .recv n t d g c => ([.post ps.nop (recvPost k ps n t d g c), .await ps.nop], { ps with nop := ps.nop + 1 })
  | .isend n t d g c id =>
    ([.post ps.nop (sendPost k ps n t d g c)],
      { ps with reqs := (ps.nreq, ⟨id, some ps.nop, none, true⟩) :: ps.reqs, nop := ps.nop + 1, nreq := ps.nreq + 1 })
  | .irecv n t d g c id =>
    ([.post ps.nop (recvPost k ps n t d g c)],
      { ps with reqs := (ps.nreq, ⟨id, some ps.nop, none, true⟩) :: ps.reqs, nop := ps.nop + 1, nreq := ps.nreq + 1 })
  | .sendInit n t d g c id =>
    ([], { ps with reqs := (ps.nreq, ⟨id, none, some (sendPost k ps n t d g c), false⟩) :: ps.reqs, nreq := ps.nreq + 1 })
  | .recvInit n t d g c id =>
    ([], { ps with reqs := (ps.nreq, ⟨id, none, some (recvPost k ps n t d g c), false⟩) :: ps.reqs, nreq := ps.nreq + 1 })
  | .start r => startReq r ps
  | .startall rs => collect startReq rs ps
  | .complete _ rs fin => collect (fun i => finishReq (rs.getD i none)) fin ps
  | .requestFree r => ([], { ps with reqs := del r ps.reqs })
  | .probe p g c => ([.probe (srcOf p) (tagOf g) c], ps)
  | .sendrecv n t d g n' t' d' g' c =>
    ([.post ps.nop (sendPost k ps n t d g c), .post (ps.nop + 1) (recvPost k ps n' t' d' g' c),
        .await (ps.nop + 1), .await ps.nop], { ps with nop := ps.nop + 2 })
  | .sendrecvReplace n t d g d' g' c =>
    ([.post ps.nop (sendPost k ps n t d g c), .post (ps.nop + 1) (recvPost k ps n t d' g' c),
        .await (ps.nop + 1), .await ps.nop], { ps with nop := ps.nop + 2 })
  | .typeNew con id =>
    ([], { ps with types := (ps.ntype, (id, typeBytes k ps con)) :: ps.types,
                   ntype := ps.ntype + 1 })
  | .typeCommit _ => ([], ps)
  | .typeFree t => ([], { ps with types := del t ps.types })
  | .barrier c => ([.barrier c], ps)
  | .coll kind args root c _ =>
    ([.coll kind (args.map (fun a => a.1.map (· * sizeOf k ps a.2))) (if hasRoot kind then root else 0) c], ps)
  | .worldGroup id => ([], { ps with groups := put 0 id ps.groups })
  | .groupIncl g ranks id =>
    ([.newGroup g ranks ps.ngroup], { ps with groups := (ps.ngroup, id) :: ps.groups, ngroup := ps.ngroup + 1 })
  | .groupFree g => ([], { ps with groups := del g ps.groups })
  | .commDup c id =>
    ([.newComm .dup c ps.ncomm], { ps with comms := (ps.ncomm, id) :: ps.comms, ncomm := ps.ncomm + 1 })
  | .commCreate c g id =>
    ([.newComm (.create g) c ps.ncomm], { ps with comms := (ps.ncomm, id) :: ps.comms, ncomm := ps.ncomm + 1 })
  | .commSplit c color key id =>
    ([.newComm (.split color key) c ps.ncomm], { ps with comms := (ps.ncomm, id) :: ps.comms, ncomm := ps.ncomm + 1 })
  | .commFree c => ([.freeComm c], { ps with comms := del c ps.comms })
  | .init => ([.init], ps)
  | .finalize => ([.finalize], ps)
  | .other => ([], ps)

/-- The trace of a program. -/
def record (k : K) : PS → List Op → List Entry
  | _, [] => []
  | ps, op :: ops => ⟨recOf k ps op.body, op.start, op.stop, false⟩ :: record k (does k ps op.body).2 ops

/-- A time in nanoseconds. -/
def ns (c : Clock) : Int := 1000000000 * c.sec + c.nsec

/-- The computation before a call, if a call was made since MPI_Init that ended at `last`. -/
def gap (k : K) (last : Option Clock) (start : Clock) : List Out :=
  match last with
  | none => []
  | some t => [.compute (k.scale (ns start - ns t).toNat)]

/-- The end of the last call since MPI_Init. -/
def lastAfter (last : Option Clock) (op : Op) : Option Clock :=
  if op.body = .init ∨ last.isSome then some op.stop else none

/-- What the replay should do. -/
def faithful (k : K) : PS → Option Clock → List Op → List Out
  | _, _, [] => []
  | ps, last, op :: ops =>
    gap k last op.start ++ (does k ps op.body).1 ++ faithful k (does k ps op.body).2 (lastAfter last op) ops

/-- A datatype that can be used. -/
def typeOk (k : K) (ps : PS) : Ty → Prop
  | .base id => id < k.firstType ∧ (k.base id).isSome = true
  | .user t => (look t ps.types).isSome = true

/-- A communicator that can be used. -/
def commOk (ps : PS) (c : Nat) : Prop := (look c ps.comms).isSome = true

/-- A handle that can be given to a new request: not null, and not that of another request. -/
def freshReq (k : K) (ps : PS) (id : Int) : Prop :=
  id ≠ k.reqNull ∧ id ≠ mpiReqNull ∧ ∀ x ∈ ps.reqs, x.2.id ≠ id

/-- A handle that can be given to a new communicator. -/
def freshComm (k : K) (ps : PS) (id : Int) : Prop :=
  id ≠ k.commWorld ∧ id ≠ mpiCommWorld ∧ ∀ x ∈ ps.comms, x.2 ≠ id

/-- A request that can be started: it is persistent and not active. -/
def canStart (ps : PS) (r : Nat) : Prop :=
  match look r ps.reqs with
  | some q => q.pers.isSome = true ∧ q.op = none
  | none => False

/-- A request that can be waited for: null, or one that has been started. -/
def canWait (ps : PS) : Option Nat → Prop
  | none => True
  | some r => match look r ps.reqs with
    | some q => q.started = true
    | none => False

/-- Which requests a call can complete: all of one call, or none if it is a test, or the one that the
call finds, or any of them. -/
def wayOk : Way → List (Option Nat) → List Nat → Prop
  | .wait, rs, fin => rs.length = 1 ∧ fin = [0]
  | .waitall, rs, fin => fin = List.range rs.length
  | .waitany, rs, fin => fin.length ≤ 1 ∧ ∀ i ∈ fin, i < rs.length
  | .waitsome, rs, fin => ∀ i ∈ fin, i < rs.length
  | .test, rs, fin => rs.length = 1 ∧ (fin = [] ∨ fin = [0])
  | .testall, rs, fin => (fin = [] ∨ fin = List.range rs.length)
  | .testany, rs, fin => fin.length ≤ 1 ∧ ∀ i ∈ fin, i < rs.length
  | .testsome, rs, fin => ∀ i ∈ fin, i < rs.length

/-- The requests that a call completes. -/
def finished (rs : List (Option Nat)) (fin : List Nat) : List (Option Nat) := fin.map (fun i => rs.getD i none)

/-- A call that a program can make: it uses objects that there are, starts requests that are not active,
waits for requests that were started, each at most once, and the tracer gives handles that are not in
use. -/
def allowed (k : K) (ps : PS) : Body → Prop
  | .send _ t _ _ c => typeOk k ps t ∧ commOk ps c
  | .recv _ t _ _ c => typeOk k ps t ∧ commOk ps c
  | .isend _ t _ _ c id => typeOk k ps t ∧ commOk ps c ∧ freshReq k ps id
  | .irecv _ t _ _ c id => typeOk k ps t ∧ commOk ps c ∧ freshReq k ps id
  | .sendInit _ t _ _ c id => typeOk k ps t ∧ commOk ps c ∧ freshReq k ps id
  | .recvInit _ t _ _ c id => typeOk k ps t ∧ commOk ps c ∧ freshReq k ps id
  | .start r => canStart ps r
  | .startall rs => rs.Nodup ∧ ∀ r ∈ rs, canStart ps r
  | .complete way rs fin =>
    wayOk way rs fin ∧ (∀ r ∈ finished rs fin, canWait ps r) ∧
      ((finished rs fin).filter Option.isSome).Nodup
  | .requestFree r => (look r ps.reqs).isSome = true
  | .probe _ _ c => commOk ps c
  | .sendrecv _ t _ _ _ t' _ _ c => typeOk k ps t ∧ typeOk k ps t' ∧ commOk ps c
  | .sendrecvReplace _ t _ _ _ _ c => typeOk k ps t ∧ commOk ps c
  | .typeNew con id => (∀ t ∈ olds con, typeOk k ps t) ∧ k.firstType ≤ id ∧ ∀ x ∈ ps.types, x.2.1 ≠ id
  | .typeCommit t => typeOk k ps t
  | .typeFree t => (look t ps.types).isSome = true
  | .barrier c => commOk ps c
  | .coll kind args _ c atRoot =>
    (∀ a ∈ args, typeOk k ps a.2) ∧ commOk ps c ∧ (kind = .gatherv ∧ atRoot = false → args.length = 1)
  | .worldGroup id => id = k.firstGroup
  | .groupIncl g _ id =>
    (look g ps.groups).isSome = true ∧ id ≠ k.firstGroup ∧ id ≠ mpiGroupWorld ∧ ∀ x ∈ ps.groups, x.2 ≠ id
  | .groupFree g => (look g ps.groups).isSome = true
  | .commDup c id => commOk ps c ∧ freshComm k ps id
  | .commCreate c g id => commOk ps c ∧ (look g ps.groups).isSome = true ∧ g ≠ 0 ∧ freshComm k ps id
  | .commSplit c _ _ id => commOk ps c ∧ freshComm k ps id
  | .commFree c => commOk ps c ∧ c ≠ 0
  | .init => True
  | .finalize => True
  | .other => True

/-- A clock in range: `sec` and `nsec` have 32 bits. -/
def clockOk (c : Clock) : Prop := 0 ≤ c.sec ∧ c.sec < 2 ^ 31 ∧ 0 ≤ c.nsec ∧ c.nsec < 1000000000

/-- A call does not start before the last one ended. -/
def after (last : Option Clock) (start : Clock) : Prop :=
  match last with
  | none => True
  | some t => ns t ≤ ns start

/-- Programs whose calls are allowed, one after the other, and whose times do not run back. -/
def Legal (k : K) : PS → Option Clock → List Op → Prop
  | _, _, [] => True
  | ps, last, op :: ops =>
    allowed k ps op.body ∧ clockOk op.start ∧ clockOk op.stop ∧ after last op.start ∧
      Legal k (does k ps op.body).2 (lastAfter last op) ops

/-- The constants of libundumpi do not collide: the special sources and tags are negative and differ. -/
def Sane (k : K) : Prop := k.anySource < 0 ∧ k.root < 0 ∧ k.root ≠ k.anySource ∧ k.anyTag < 0

end Verif.Dumpi
