/-
Model of MPI groups, communicator creation, Cartesian communicators and collective tags:
  sumi-mpi/mpi_comm/mpi_group.cc, sumi-mpi/mpi_api_group.cc,
  sumi-mpi/mpi_comm/mpi_comm_factory.cc, sumi-mpi/mpi_comm/mpi_comm_cart.cc,
  sumi-mpi/mpi_comm/mpi_comm.cc (nextCollectiveTag).

Task ids and ranks are integers without overflow, except for collective tags, which are
machine words.  Memory management (who deletes a group) is not modelled.
-/
set_option autoImplicit false
namespace SST.Mpi.Comm

/-! ### Groups -/

/-- `MpiGroup`, mpi_group.cc:52-63: the world group stores only its size. -/
inductive Group where
  | world (n : Nat)
  | tasks (l : List Int)
deriving DecidableEq, Repr

/-- `MPI_UNDEFINED`, mpi_integers.h:217. -/
def undefined : Int := -32766

/-- `MPI_PROC_NULL`, mpi_types.h:60. -/
def procNull : Int := -1

/-- `size`. -/
def Group.size : Group → Nat
  | .world n => n
  | .tasks l => l.length

/-- `MpiGroup::at`, mpi_group.cc:65-79; `none` is the exception "invalid rank".  A negative
rank is converted to a huge `size_t` and is rejected as well.  The world group does not
check. -/
def Group.at (g : Group) (rank : Int) : Option Int :=
  match g with
  | .world _ => some rank
  | .tasks l => if 0 ≤ rank then l[rank.toNat]? else none

/-- The search loop of `rankOfTask`, mpi_group.cc:100-104; `i` is the index of the head. -/
def findTask (t : Int) (i : Int) : List Int → Int
  | [] => undefined
  | x :: l => if x = t then i else findTask t (i + 1) l

/-- `MpiGroup::rankOfTask`, mpi_group.cc:94-107. -/
def Group.rankOf (g : Group) (t : Int) : Int :=
  match g with
  | .world _ => t
  | .tasks l => findTask t 0 l

/-- One iteration of `translateRanks`, mpi_group.cc:83-91; `none`: out-of-range access. -/
def Group.translate (g other : Group) (r : Int) : Option Int :=
  if r = procNull then some procNull
  else
    match g with
    | .world _ => some (other.rankOf r)
    | .tasks l => if 0 ≤ r then (l[r.toNat]?).map other.rankOf else none

/-- Outcomes of the group constructors other than a group. -/
inductive GErr where
  /-- "invalid group size" -/
  | tooBig
  /-- "invalid rank .. requested for MPI group" -/
  | badRank
  /-- "negative stride, but start < stop" / "positive stride, but stop < start" -/
  | badRange
  /-- the loop never ends -/
  | forever
deriving DecidableEq, Repr

/-- `at` for each listed rank, mpi_api_group.cc:90-92. -/
def atAll (g : Group) : List Int → Option (List Int)
  | [] => some []
  | r :: rs =>
    match g.at r, atAll g rs with
    | some t, some ts => some (t :: ts)
    | _, _ => none

/-- `groupIncl`, mpi_api_group.cc:81-100. -/
def groupIncl (g : Group) (ranks : List Int) : Except GErr Group :=
  if ranks.length > g.size then .error .tooBig
  else
    match atAll g ranks with
    | none => .error .badRank
    | some ts => .ok (.tasks ts)

/-- The loop for a positive stride, mpi_api_group.cc:71-74. -/
def rangeUp (stop stride rank : Int) : List Int :=
  if _h : rank ≤ stop ∧ 0 < stride then rank :: rangeUp stop stride (rank + stride) else []
termination_by (stop + 1 - rank).toNat
decreasing_by omega

/-- The loop for a negative stride, mpi_api_group.cc:63-66. -/
def rangeDown (stop stride rank : Int) : List Int :=
  if _h : rank ≥ stop ∧ stride < 0 then rank :: rangeDown stop stride (rank + stride) else []
termination_by (rank + 1 - stop).toNat
decreasing_by omega

/-- One range, mpi_api_group.cc:55-75.  With stride 0 the loop never ends (start ≤ stop). -/
def rangeOne (start stop stride : Int) : Except GErr (List Int) :=
  if stride < 0 then
    if start < stop then .error .badRange else .ok (rangeDown stop stride start)
  else if stop < start then .error .badRange
  else if stride = 0 then .error .forever
  else .ok (rangeUp stop stride start)

/-- All ranges. -/
def rangeAll : List (Int × Int × Int) → Except GErr (List Int)
  | [] => .ok []
  | (a, b, c) :: l =>
    match rangeOne a b c, rangeAll l with
    | .ok x, .ok y => .ok (x ++ y)
    | .error e, _ => .error e
    | _, .error e => .error e

/-- `groupRangeIncl`, mpi_api_group.cc:50-79. -/
def groupRangeIncl (g : Group) (ranges : List (Int × Int × Int)) : Except GErr Group :=
  match rangeAll ranges with
  | .error e => .error e
  | .ok ranks => groupIncl g ranks

/-! ### `MPI_Comm_split` -/

/-- What each rank contributes: its next free id, color and key,
mpi_comm_factory.cc:201-204. -/
structure Entry where
  nextId : Int
  color : Int
  key : Int
deriving DecidableEq, Repr

/-- `key_map[key].push_back(rank)` on a `std::map` ordered by key. -/
def keyPush (k : Int) (rank : Nat) : List (Int × List Nat) → List (Int × List Nat)
  | [] => [(k, [rank])]
  | (k', rs) :: m =>
    if k < k' then (k, [rank]) :: (k', rs) :: m
    else if k' < k then (k', rs) :: keyPush k rank m
    else (k', rs ++ [rank]) :: m

/-- The loop over the table, mpi_comm_factory.cc:269-284 (membership part). -/
def gatherKeys (color : Int) (rank : Nat) (m : List (Int × List Nat)) : List Entry → List (Int × List Nat)
  | [] => m
  | e :: l =>
    gatherKeys color (rank + 1) (if e.color ≥ 0 ∧ e.color = color then keyPush e.key rank m else m) l

/-- `std::list::sort` (stable), mpi_comm_factory.cc:298, by insertion. -/
def insertRank (x : Nat) : List Nat → List Nat
  | [] => [x]
  | y :: l => if x ≤ y then x :: y :: l else y :: insertRank x l

/-- `ranks.sort()`. -/
def sortRanks : List Nat → List Nat
  | [] => []
  | x :: l => insertRank x (sortRanks l)

/-- The largest id in the table, starting from -1, mpi_comm_factory.cc:281-283. -/
def maxId (cid : Int) : List Entry → Int
  | [] => cid
  | e :: l => maxId (if e.nextId > cid then e.nextId else cid) l

/-- The new communicator as computed by one rank. -/
structure Split where
  id : Int
  /-- parent ranks of the members, in order -/
  members : List Nat
  /-- own rank in the new communicator -/
  myRank : Option Nat
  /-- the value of `next_id_` afterwards -/
  nextId : Int
deriving DecidableEq, Repr

/-- `commSplit` at the rank `me` of the parent, mpi_comm_factory.cc:262-311; `none` is
`MPI_COMM_NULL`. -/
def commSplit (tbl : List Entry) (me : Nat) : Option Split :=
  match tbl[me]? with
  | none => none
  | some e =>
    if e.color < 0 then none
    else
      let keyMap := gatherKeys e.color 0 [] tbl
      let members := (keyMap.map (fun p => sortRanks p.2)).flatten
      let cid := maxId (-1) tbl
      some ⟨cid, members, members.idxOf? me, cid + 1⟩

/-! ### Communicator ids over a whole run -/

/-- Ids and members of the communicators that exist, and `next_id_` of every task. -/
structure Ids where
  next : Nat → Nat
  comms : List (Nat × List Nat)

/-- The maximum of `next_id_` over the callers: `commNewIdAgree` (an allreduce with
`MPI_MAX`), mpi_comm_factory.cc:122-132, or the loop of `commSplit`. -/
def agree (next : Nat → Nat) (callers : List Nat) : Nat := (callers.map next).foldl max 0

/-- Collective calls that create communicators. -/
inductive CommOp where
  /-- `comm_dup`, `commCreate`, `createCart` (mpi_comm_factory.cc:113-119, :156-170,
  :328-343): all callers take part, `members` are in the new communicator -/
  | create (callers members : List Nat)
  /-- `commCreateGroup`, mpi_comm_factory.cc:134-154: only the members take part -/
  | createGroup (members : List Nat)
  /-- `commSplit`: callers with their colors -/
  | split (callers : List Nat) (color : Nat → Int)

/-- The colors that occur, in order. -/
def colors (callers : List Nat) (color : Nat → Int) : List Int :=
  ((callers.map color).filter (fun c => 0 ≤ c)).eraseDups

/-- The identifiers after a collective call: mpi_comm_factory.cc:113-119, :134-170, :197-326 and :328-343. -/
def Ids.step (s : Ids) : CommOp → Ids
  | .create callers members =>
    let cid := agree s.next callers
    { next := fun t => if t ∈ callers then cid + 1 else s.next t
      comms := s.comms ++ [(cid, members.filter (· ∈ callers))] }
  | .createGroup members =>
    let cid := agree s.next members
    { next := fun t => if t ∈ members then cid + 1 else s.next t
      comms := s.comms ++ [(cid, members)] }
  | .split callers color =>
    let cid := agree s.next callers
    { next := fun t => if t ∈ callers ∧ 0 ≤ color t then cid + 1 else s.next t
      comms := s.comms ++ (colors callers color).map (fun c => (cid, callers.filter (fun t => color t = c))) }

/-- `MpiCommFactory::init`, mpi_comm_factory.cc:97-111: ids 0 and 1 are the world and self
communicators; only the world one is tracked. -/
def Ids.init (n : Nat) : Ids := { next := fun _ => 2, comms := [(0, List.range n)] }

/-! ### Cartesian communicators -/

/-- `set_coords`, mpi_comm_cart.cc:65-75. -/
def setCoords (prev rank : Nat) : List Nat → List Nat
  | [] => []
  | d :: ds => (rank / prev) % d :: setCoords (prev * d) rank ds

/-- `rank`, mpi_comm_cart.cc:77-87. -/
def cartRank (prev : Nat) : List Nat → List Nat → Nat
  | d :: ds, c :: cs => c * prev + cartRank (prev * d) ds cs
  | _, _ => 0

/-- `rank` on possibly negative coordinates. -/
def cartRankI (prev : Int) : List Nat → List Int → Int
  | d :: ds, c :: cs => c * prev + cartRankI (prev * d) ds cs
  | _, _ => 0

/-- `shift`, mpi_comm_cart.cc:89-120.  `Int.tmod` is the C++ remainder; `none` is the
exception for a dimension that does not exist. -/
def cartShift (dims : List Nat) (periods : List Bool) (me dir : Nat) (dis : Int) : Option Int :=
  match dims[dir]?, periods[dir]? with
  | some d, some p =>
    let coords := (setCoords 1 me dims).map Int.ofNat
    let c := coords.getD dir 0 + dis
    if c ≥ d then
      if p then some (cartRankI 1 dims (coords.set dir (c.tmod d))) else some procNull
    else if c < 0 then
      if p then some (cartRankI 1 dims (coords.set dir ((d + c).tmod d))) else some procNull
    else some (cartRankI 1 dims (coords.set dir c))
  | _, _ => none

/-! ### Collective tags -/

/-- `nextCollectiveTag`, mpi_comm.cc:199-206, with the counter as a `uint16_t`
(mpi_comm.h:197) that starts at `MPI_COMM_WORLD + 100 = 100` (mpi_comm.cc:81): the tag of
the `k`-th collective on the communicator with the given id (an `int`). -/
def collTag (id : BitVec 32) (k : Nat) : BitVec 32 :=
  ((id.setWidth 16).setWidth 32 <<< 16) ||| (BitVec.ofNat 16 (100 + k)).setWidth 32

end SST.Mpi.Comm
