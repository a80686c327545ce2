import Verif.Mpi.Types
import Verif.Mpi.Handles
/-!
Model of the handles of datatypes of one MPI process and of the `MpiType` objects behind them:
sumi-mpi/mpi_api_type.cc:253-654, sumi-mpi/mpi_types/mpi_type.{h,cc} and the choice of the
datatype that a user-defined reduction is called with (mpi_api_collectives.cc:732-737).

Objects live in a heap; a pointer is an index into it and a deleted object stays as a dead
entry, so that a use after the deletion is visible.  The fields `size_`, `extent_` and
`contiguous_` are computed when an object is made, as in the code; packing follows the pointers
to the base types.  The objects of the predefined datatypes are static members and belong to
all processes in the simulator.  Not modelled: labels, the `committed_` flag (nothing reads it but
`commitBuiltinTypes`), OTF2 tracing.
-/
set_option autoImplicit false
namespace SST.Mpi.Dt
open SST.Mpi.Handles (Map)
open SST.Mpi.Types (block repeatCopies shift)

/-- What kind of type, with pointers to the base types: PRIM, VEC (`vecdata`) and IND
(`inddata`: pointer, displacement and number of each block). -/
inductive Kind where
  | prim
  | vec (base : Nat) (count blocklen : Nat) (stride : Int)
  | ind (blocks : List (Nat × Int × Nat))
deriving DecidableEq, Repr

/-- An `MpiType` object, mpi_type.h:78-; `live` is false after its deletion. -/
structure Obj where
  id : Nat
  live : Bool
  size : Nat
  extent : Int
  contig : Bool
  kind : Kind
deriving DecidableEq, Repr

/-- `known_types_`, `allocatedTypes_`, `next_type_id_`, mpi_api.h:822, :843-844. -/
structure St where
  heap : List Obj
  known : Map Nat
  owned : Map Nat
  next : Nat
deriving DecidableEq, Repr

/-- Why a call does not return: it throws (unknown handle), or it reads a deleted object. -/
inductive Fail where
  | abort
  | fault
deriving DecidableEq, Repr

/-- What a call returns. -/
inductive Res where
  | unit
  | handle (h : Nat)
  | num (v : Int)
  | copies (l : List (Nat × Int))
deriving DecidableEq, Repr

/-- The calls.  `transfer` sends or receives `cnt` elements; its result is the list of byte copies
between the packed and the user buffer, see Types.lean.  `userType` is the datatype that the function
of a user-defined reduction gets.  `foreignDup` is `MPI_Type_dup` of the predefined datatype `b` by
another process of the job, which gets the handle `new`. -/
inductive Op where
  | contiguous (count : Nat) (h : Nat)
  | vector (count blocklen : Nat) (stride : Int) (h : Nat)
  | hvector (count blocklen : Nat) (stride : Int) (h : Nat)
  | hindexed (lens : List (Nat × Int)) (h : Nat)
  | struct (fields : List (Nat × Int × Nat))
  | dup (h : Nat)
  | free (h : Nat)
  | size (h : Nat)
  | extent (h : Nat)
  | transfer (h cnt : Nat)
  | userType (h : Nat)
  | foreignDup (b new : Nat)
deriving DecidableEq, Repr

/-- Reading an object through a pointer. -/
def obj (heap : List Obj) (p : Nat) : Except Fail Obj :=
  match heap[p]? with
  | none => .error .fault
  | some o => if o.live then .ok o else .error .fault

/-- `typeFromId`, mpi_api_type.cc:644-654. -/
def St.ptr (s : St) (h : Nat) : Except Fail Nat :=
  match Map.get s.known h with
  | none => .error .abort
  | some p => .ok p

/-- The loop of `allocateTypeId`, mpi_api_type.cc:470-474: the first number from `n` on that is not in
the table; one more try than the table has entries is enough. -/
def nextId (known : Map Nat) : Nat → Nat → Nat
  | 0, n => n
  | k + 1, n => if (Map.get known n).isSome then nextId known k (n + 1) else n

/-- `allocateTypeId` of a new object, mpi_api_type.cc:467-477, and its entry in `allocatedTypes_`. -/
def St.add (s : St) (o : Obj) : St × Res :=
  let id := nextId s.known (s.known.length + 1) s.next
  ({ heap := s.heap ++ [{ o with id := id }], known := Map.put s.known id s.heap.length,
     owned := Map.put s.owned id s.heap.length, next := id }, .handle id)

/-- `init_vector`, mpi_type.cc:183-210; `b` is the pointer to the base type `o`. -/
def mkVec (b : Nat) (o : Obj) (count blocklen : Nat) (stride : Int) : Obj :=
  { id := 0, live := true, size := count * blocklen * o.size, extent := stride,
    contig := decide (stride = blocklen * o.extent) && o.contig, kind := .vec b count blocklen stride }

/-- `init_indexed`, mpi_type.cc:212-222. -/
def mkInd (bs : List (Nat × Int × Nat)) (size : Nat) (ext : Int) : Obj :=
  { id := 0, live := true, size := size, extent := ext, contig := decide (ext = size), kind := .ind bs }

/-- The loop of `doTypeHindexed`, mpi_api_type.cc:389-399: blocks, packed size and extent. -/
def hblocks (b osize : Nat) (ext : Int) : List (Nat × Int) → List (Nat × Int × Nat) × Nat × Int
  | [] => ([], 0, ext)
  | (len, disp) :: l =>
    if len > 0 then
      let r := hblocks b osize (ext + disp) l
      ((b, ext, len) :: r.1, osize * len + r.2.1, r.2.2)
    else hblocks b osize ext l

/-- The loop of `typeCreateStruct`, mpi_api_type.cc:563-574. -/
def sblocks (s : St) (ext : Int) : List (Nat × Int × Nat) → Except Fail (List (Nat × Int × Nat) × Nat × Int)
  | [] => .ok ([], 0, ext)
  | (len, disp, h) :: l =>
    if len > 0 then do
      let p ← s.ptr h
      let o ← obj s.heap p
      let r ← sblocks s (disp + o.size * len) l
      .ok ((p, disp, len) :: r.1, o.size * len + r.2.1, r.2.2)
    else sblocks s ext l

/-- The loop of `pack_action_indexed`, mpi_type.cc:347-367; `f` packs one element through a
pointer. -/
def packBlocks (heap : List Obj) (f : Nat → Except Fail (List (Nat × Int))) : List (Nat × Int × Nat) → Except Fail (List (Nat × Int))
  | [] => .ok []
  | (b, _, n) :: r => do
    let o ← obj heap b
    let l ← if o.contig then .ok (block (o.size * n)) else (f b).map (repeatCopies n o.size o.extent)
    let m ← packBlocks heap f r
    .ok (l ++ shift (o.size * n) (o.extent * n) m)

/-- `pack_action`, mpi_type.cc:319-367, :416-443: the copies for one element.  The first argument bounds
the depth; a base type is older than the types made from it, so the length of the heap is enough. -/
def pack (heap : List Obj) : Nat → Nat → Except Fail (List (Nat × Int))
  | 0, _ => .error .fault
  | k + 1, p => do
    let o ← obj heap p
    match o.kind with
    | .prim => .ok (block o.size)
    | .vec b c _ s => do
      let ob ← obj heap b
      if c = 0 then .ok [] else (pack heap k b).map (repeatCopies c ob.size s)
    | .ind bs => packBlocks heap (pack heap k) bs

/-- `fillSendBuffer`, mpi_protocol.cc:57-68, `packSend`, `unpack_recv`, mpi_type.cc:369-391. -/
def xfer (heap : List Obj) (p cnt : Nat) : Except Fail (List (Nat × Int)) := do
  let o ← obj heap p
  if o.contig then .ok (block (cnt * o.size))
  else if cnt = 0 then .ok [] else (pack heap (heap.length + 1) p).map (repeatCopies cnt o.size o.extent)

/-- `delete` of an object. -/
def kill (heap : List Obj) (p : Nat) : List Obj := heap.modify p (fun o => { o with live := false })

/-- `type->id = id`. -/
def setId (heap : List Obj) (p id : Nat) : List Obj := heap.modify p (fun o => { o with id := id })

/-- One call. -/
def step (s : St) : Op → Except Fail (St × Res)
  -- mpi_api_type.cc:501-524
  | .contiguous count h => do
    let p ← s.ptr h
    let o ← obj s.heap p
    .ok (s.add (mkVec p o count 1 (count * o.extent)))
  -- mpi_api_type.cc:354-367
  | .vector count blocklen stride h => do
    let p ← s.ptr h
    let o ← obj s.heap p
    .ok (s.add (mkVec p o count blocklen (stride * o.extent)))
  -- mpi_api_type.cc:316-351
  | .hvector count blocklen stride h => do
    let p ← s.ptr h
    let o ← obj s.heap p
    .ok (s.add (mkVec p o count blocklen stride))
  -- mpi_api_type.cc:369-427
  | .hindexed lens h => do
    let p ← s.ptr h
    let o ← obj s.heap p
    let r := hblocks p o.size 0 lens
    .ok (s.add (mkInd r.1 r.2.1 r.2.2))
  -- mpi_api_type.cc:541-594
  | .struct fields => do
    let r ← sblocks s 0 fields
    .ok (s.add (mkInd r.1 r.2.1 r.2.2))
  -- `typeDup`, mpi_api_type.cc:610-620: the same object gets another number
  | .dup h => do
    let p ← s.ptr h
    let _ ← obj s.heap p
    let id := nextId s.known (s.known.length + 1) s.next
    .ok ({ s with heap := setId s.heap p id, known := Map.put s.known id p, next := id }, .handle id)
  -- `typeFree`, mpi_api_type.cc:626-639
  | .free h =>
    let s' := { s with known := Map.del s.known h, owned := Map.del s.owned h }
    match Map.get s.owned h with
    | none => .ok (s', .unit)
    | some p => .ok ({ s' with heap := kill s.heap p }, .unit)
  -- mpi_api_type.cc:596-608
  | .size h => do
    let p ← s.ptr h
    let o ← obj s.heap p
    .ok (s, .num o.size)
  | .extent h => do
    let p ← s.ptr h
    let o ← obj s.heap p
    .ok (s, .num o.extent)
  | .transfer h cnt => do
    let p ← s.ptr h
    let l ← xfer s.heap p cnt
    .ok (s, .copies l)
  -- mpi_api_collectives.cc:733
  | .userType h => do
    let p ← s.ptr h
    let o ← obj s.heap p
    .ok (s, .num o.id)
  -- mpi_api_type.cc:613-614 in another process: the object is static
  | .foreignDup b new => .ok ({ s with heap := setId s.heap b new }, .unit)

/-- `commitBuiltinTypes`, mpi_api_type.cc:136-251: the predefined datatypes with their handles and
sizes. -/
def init (bs : List (Nat × Nat)) : St :=
  { heap := bs.map (fun b => ⟨b.1, true, b.2, b.2, true, .prim⟩)
    known := bs.mapIdx (fun i b => (b.1, i))
    owned := []
    next := 0 }

end SST.Mpi.Dt
