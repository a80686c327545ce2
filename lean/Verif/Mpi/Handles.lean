import Verif.Mpi.Comm
/-!
Model of the handles of communicators and groups of one MPI process, and of the life of the
group objects behind them: sumi-mpi/mpi_api_comm.cc, sumi-mpi/mpi_api_group.cc,
sumi-mpi/mpi_comm/mpi_comm_factory.cc, sumi-mpi/mpi_comm/mpi_comm.{h,cc},
sumi-mpi/mpi_comm/mpi_comm_cart.cc and the tables in sumi-mpi/mpi_api.cc.

Group objects live in a heap; a pointer is an index into it and a deleted object stays as a
dead entry, so that a use after the deletion is visible.  Communicator objects are reachable
only through their table, so they are the values of the table.  Not modelled: the
communication that agrees on the next id (its outcome is an input), the communicators for
processes that share a node, key values, OTF2 tracing (which keeps freed communicators) and
trace replay, where the handles come from the trace (`generate_ids_` is true here).
-/
set_option autoImplicit false
namespace SST.Mpi.Handles
open SST.Mpi.Comm (Group groupIncl atAll)

/-- `MPI_COMM_WORLD`, mpi_integers.h:59. -/
def commWorld : Nat := 0
/-- `MPI_COMM_SELF`, mpi_integers.h:60. -/
def commSelf : Nat := 0x44444444
/-- `MPI_COMM_NULL`, mpi_integers.h:185. -/
def commNull : Nat := 0x04000000
/-- `MPI_GROUP_WORLD`, mpi_integers.h:190. -/
def groupWorld : Nat := 0
/-- `MPI_GROUP_SELF`, mpi_integers.h:191. -/
def groupSelf : Nat := 1

/-- `std::map<int,..>` (`comm_ptr_map`, `group_ptr_map`), mpi_api.h:849-852, as a list of
entries. -/
abbrev Map (α : Type) := List (Nat × α)

/-- `find`. -/
def Map.get {α : Type} (m : Map α) (k : Nat) : Option α :=
  match m with
  | [] => none
  | (k', v) :: m' => if k' = k then some v else Map.get m' k

/-- `erase` of a key. -/
def Map.del {α : Type} (m : Map α) (k : Nat) : Map α := m.filter (fun e => e.1 ≠ k)

/-- `m[k] = v`. -/
def Map.put {α : Type} (m : Map α) (k : Nat) (v : α) : Map α := (k, v) :: Map.del m k

/-- An `MpiGroup` object, mpi_group.h:57-106; `live` is false after `delete`. -/
structure GObj where
  group : Group
  id : Nat
  live : Bool
deriving DecidableEq, Repr

/-- An `MpiComm` object, mpi_comm.h:194-214: `grp` is `group_`, `delGrp` is `del_grp_`;
`cart` tells an `MpiCommCart`. -/
structure CObj where
  rank : Int
  grp : Nat
  delGrp : Bool
  cart : Bool
deriving DecidableEq, Repr

/-- The part of `MpiApi` (mpi_api.h:849-853) and `MpiCommFactory` (`next_id_`) modelled.  The
value `none` in the table of communicators is the object `MpiComm::comm_null`. -/
structure St where
  heap : List GObj
  comms : Map (Option CObj)
  groups : Map Nat
  counter : Nat
  next : Nat
deriving DecidableEq, Repr

/-- Why a call does not return. -/
inductive Fail where
  /-- `spkt_throw`/`spkt_abort`: unknown handle, bad rank or size -/
  | abort
  /-- use or deletion of a deleted group, or use of the null communicator's null group -/
  | fault
deriving DecidableEq, Repr

/-- What a call returns. -/
inductive Res where
  | unit
  | comm (h : Nat)
  | group (g : Nat)
  | num (v : Int)
  | nums (l : List Int)
deriving DecidableEq, Repr

/-- The calls.  `peers` is the largest `next_id_` among the other processes that take part in
the agreement; `ranks` of `split` are the ranks in the old communicator of the members of the
new one, in order (`none`: the color is negative), see C24. -/
inductive Op where
  | dup (h peers : Nat)
  | create (h g peers : Nat)
  | createGroup (h g peers : Nat)
  | split (h : Nat) (ranks : Option (List Nat)) (peers : Nat)
  | cart (h peers : Nat)
  | freeComm (h : Nat)
  | commGroup (h : Nat)
  | incl (g : Nat) (ranks : List Int)
  | freeGroup (g : Nat)
  | size (h : Nat)
  | rank (h : Nat)
  | peer (h r : Nat)
  | translate (g : Nat) (ranks : List Int) (g2 : Nat)
deriving DecidableEq, Repr

/-- `MpiCommFactory::init`, mpi_comm_factory.cc:97-111, and the tables set by `MpiApi::init`,
mpi_api.cc:236-249; `group_counter_` starts at `MPI_GROUP_SELF + 1`, mpi_api.cc:130. -/
def init (n me : Nat) : St :=
  { heap := [⟨.world n, groupWorld, true⟩, ⟨.tasks [(me : Int)], groupSelf, true⟩]
    comms := [(commWorld, some ⟨me, 0, false, false⟩), (commSelf, some ⟨0, 1, false, false⟩)]
    groups := [(groupWorld, 0), (groupSelf, 1)]
    counter := groupSelf + 1
    next := 2 }

/-- Reading a group object through a pointer. -/
def St.obj (s : St) (p : Nat) : Except Fail GObj :=
  match s.heap[p]? with
  | none => .error .fault
  | some o => if o.live then .ok o else .error .fault

/-- `getComm`, mpi_api.cc:442-456; the null communicator, once in the table, has no group. -/
def St.comm (s : St) (h : Nat) : Except Fail CObj :=
  match Map.get s.comms h with
  | none => .error .abort
  | some none => .error .fault
  | some (some c) => .ok c

/-- `getGroup`, mpi_api.cc:458-467. -/
def St.group (s : St) (g : Nat) : Except Fail Nat :=
  match Map.get s.groups g with
  | none => .error .abort
  | some p => .ok p

/-- `delete` of a group. -/
def kill (heap : List GObj) (p : Nat) : List GObj := heap.modify p (fun o => { o with live := false })

/-- `commNewIdAgree`, mpi_comm_factory.cc:122-132. -/
def St.agree (s : St) (peers : Nat) : Nat := max s.next peers

/-- `MpiComm::myTask`, mpi_comm.cc:208-212. -/
def myTask (c : CObj) (o : GObj) : Except Fail Int :=
  match o.group.at c.rank with
  | none => .error .abort
  | some t => .ok t

/-- `addCommPtr` of a new communicator, mpi_api.cc:498-507. -/
def St.addComm (s : St) (cid : Nat) (c : CObj) : St × Res :=
  ({ s with comms := Map.put s.comms cid (some c), next := cid + 1 }, .comm cid)

/-- `addCommPtr` of `MpiComm::comm_null`. -/
def St.addNull (s : St) (next : Nat) : St × Res :=
  ({ s with comms := Map.put s.comms commNull none, next := next }, .comm commNull)

/-- `MpiCommFactory::commCreate`, mpi_comm_factory.cc:156-170, for a group given by a
pointer. -/
def St.create (s : St) (c : CObj) (p peers : Nat) : Except Fail (St × Res) := do
  let old ← s.obj c.grp
  let new ← s.obj p
  let t ← myTask c old
  let newrank := new.group.rankOf t
  if newrank ≥ 0 then .ok (s.addComm (s.agree peers) ⟨newrank, p, false, false⟩)
  else .ok (s.addNull (s.agree peers + 1))

/-- `MpiCommFactory::commCreateGroup`, mpi_comm_factory.cc:134-154: a process outside the
group does not take part in the agreement. -/
def St.createGroup (s : St) (c : CObj) (p peers : Nat) : Except Fail (St × Res) := do
  let old ← s.obj c.grp
  let new ← s.obj p
  let t ← myTask c old
  let newrank := new.group.rankOf t
  if newrank ≥ 0 then .ok (s.addComm (s.agree peers) ⟨newrank, p, false, false⟩)
  else .ok (s.addNull s.next)

/-- `MpiCommFactory::commSplit`, mpi_comm_factory.cc:262-311, then `MpiApi::commSplit`,
mpi_api_comm.cc:262-275: the new group gets an id but no entry in the table of groups. -/
def St.split (s : St) (c : CObj) (ranks : Option (List Nat)) (peers : Nat) :
    Except Fail (St × Res) := do
  let old ← s.obj c.grp
  match ranks with
  | none => .ok (s.addNull s.next)
  | some rs =>
    match atAll old.group (rs.map Int.ofNat) with
    | none => .error .abort
    | some ts =>
      let s' : St := { s with heap := s.heap ++ [⟨.tasks ts, s.counter, true⟩], counter := s.counter + 1 }
      .ok (s'.addComm (s.agree peers) ⟨(rs.idxOf c.rank.toNat : Nat), s.heap.length, true, false⟩)

/-- `MpiCommFactory::createCart`, mpi_comm_factory.cc:328-343.  The constructor of
`MpiCommCart`, mpi_comm_cart.cc:49-55, passes `TOPO_CART` in the place of `del_grp`, where it
converts to true: the new communicator deletes its parent's group. -/
def St.cart (s : St) (c : CObj) (peers : Nat) : Except Fail (St × Res) := do
  let old ← s.obj c.grp
  let t ← myTask c old
  let newrank := old.group.rankOf t
  if newrank ≥ 0 then .ok (s.addComm (s.agree peers) ⟨newrank, c.grp, true, true⟩)
  else .ok (s.addNull (s.agree peers + 1))

/-- `MpiApi::commFree`, mpi_api_comm.cc:288-311, and `~MpiComm`, mpi_comm.cc:68-71. -/
def St.freeComm (s : St) (h : Nat) : Except Fail (St × Res) := do
  let c ← s.comm h
  let s' := { s with comms := Map.del s.comms h }
  if c.delGrp then
    let o ← s.obj c.grp
    .ok ({ s' with groups := Map.del s.groups o.id, heap := kill s.heap c.grp }, .unit)
  else .ok (s', .unit)

/-- `MpiApi::groupIncl`, mpi_api_group.cc:81-100, and `addGroupPtr`, mpi_api.cc:529-535. -/
def St.incl (s : St) (g : Nat) (ranks : List Int) : Except Fail (St × Res) := do
  let p ← s.group g
  let o ← s.obj p
  match groupIncl o.group ranks with
  | .error _ => .error .abort
  | .ok new =>
    .ok ({ s with
      heap := s.heap ++ [⟨new, s.counter, true⟩]
      groups := Map.put s.groups s.counter s.heap.length
      counter := s.counter + 1 }, .group s.counter)

/-- `MpiApi::groupFree`, mpi_api_group.cc:129-145. -/
def St.freeGroup (s : St) (g : Nat) : Except Fail (St × Res) :=
  if g = groupWorld then .ok (s, .unit)
  else do
    let p ← s.group g
    let _ ← s.obj p
    .ok ({ s with groups := Map.del s.groups g, heap := kill s.heap p }, .unit)

/-- `MpiGroup::translateRanks`, mpi_group.cc:81-92; an index outside the vector is a
fault. -/
def translateAll (g g2 : Group) : List Int → Except Fail (List Int)
  | [] => .ok []
  | r :: rs =>
    match g.translate g2 r with
    | none => .error .fault
    | some t => (translateAll g g2 rs).map (t :: ·)

/-- One call. -/
def step (s : St) : Op → Except Fail (St × Res)
  -- `MpiApi::commDup`, mpi_api_comm.cc:59-83, `comm_dup`, mpi_comm_factory.cc:113-119
  | .dup h peers => do
    let c ← s.comm h
    s.create c c.grp peers
  -- `MpiApi::commCreate`, mpi_api_comm.cc:115-138
  | .create h g peers => do
    let c ← s.comm h
    let p ← s.group g
    s.create c p peers
  -- `MpiApi::commCreateGroup`, mpi_api_comm.cc:85-104
  | .createGroup h g peers => do
    let c ← s.comm h
    let p ← s.group g
    s.createGroup c p peers
  | .split h ranks peers => do
    let c ← s.comm h
    s.split c ranks peers
  -- `MpiApi::cartCreate`, mpi_api_comm.cc:169-186
  | .cart h peers => do
    let c ← s.comm h
    s.cart c peers
  | .freeComm h => s.freeComm h
  -- `MpiApi::commGroup`, mpi_api_comm.cc:161-167
  | .commGroup h => do
    let c ← s.comm h
    let o ← s.obj c.grp
    .ok (s, .group o.id)
  | .incl g ranks => s.incl g ranks
  | .freeGroup g => s.freeGroup g
  -- `MpiApi::commSize`, mpi_api_comm.cc:106-113
  | .size h => do
    let c ← s.comm h
    let o ← s.obj c.grp
    .ok (s, .num o.group.size)
  -- `MpiApi::commRank`, mpi_api.cc:216-221
  | .rank h => do
    let c ← s.comm h
    .ok (s, .num c.rank)
  -- `MpiComm::peerTask`, mpi_comm.cc:214-218: where a message to the rank goes
  | .peer h r => do
    let c ← s.comm h
    let o ← s.obj c.grp
    match o.group.at (r : Int) with
    | none => .error .abort
    | some t => .ok (s, .num t)
  -- `MpiApi::groupTranslateRanks`, mpi_api_group.cc:147-156
  | .translate g ranks g2 => do
    let p ← s.group g
    let p2 ← s.group g2
    let o ← s.obj p
    let o2 ← s.obj p2
    let l ← translateAll o.group o2.group ranks
    .ok (s, .nums l)

/-- `delete` that fails on a deleted object. -/
def kill? (heap : List GObj) (p : Nat) : Option (List GObj) :=
  match heap[p]? with
  | none => none
  | some o => if o.live then some (kill heap p) else none

/-- Deletes a list of groups in turn. -/
def killAll (heap : List GObj) : List Nat → Option (List GObj)
  | [] => some heap
  | p :: ps =>
    match kill? heap p with
    | none => none
    | some heap' => killAll heap' ps

/-- The groups that the remaining communicators delete: `comm_map_` without the null
communicator, mpi_api.cc:191-195, and `~MpiComm`. -/
def owned (comms : Map (Option CObj)) : List Nat :=
  (Map.del comms commNull).filterMap (fun e =>
    match e.2 with
    | some c => if c.delGrp then some c.grp else none
    | none => none)

/-- `~MpiApi`, mpi_api.cc:174-195: first the groups in the table, then the communicators. The
order within a table (by handle in the code) does not matter for what is deleted.  `none`: a
group is deleted twice. -/
def teardown (s : St) : Option (List GObj) := killAll s.heap (s.groups.map Prod.snd ++ owned s.comms)

end SST.Mpi.Handles
