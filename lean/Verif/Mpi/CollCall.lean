import Verif.Mpi.Types

/-!
Model of the MPI layer of the collectives: sumi-mpi/mpi_api_collectives.cc and
sumi-mpi/mpi_api_vcollectives.cc (what the calls hand to the collective engine, packing and
unpacking of derived types, MPI_IN_PLACE), with the constructors in mpi_request.cc:57-99.

The memory of a rank is a function from addresses to bytes.  The engine is taken to do what it
is asked for, on bytes (`reads`, `writes`, `deliver`); properties C29 to C35, C71 and C97 are
about the engine itself.  Integers do not overflow.  Mixing null and non-null buffers among the
ranks of one call is not modelled; nor are the debug output, tracing and the tags (C27).
A non-blocking call makes the same preparations and the same finish.  `MPI_Gatherv`,
`MPI_Scatterv`, `MPI_Reduce_scatter` and `MPI_Alltoallw` with data are not implemented (they abort).
-/
set_option autoImplicit false
namespace SST.Mpi.CollCall
open SST.Mpi.Types (Ty Buf repeatCopies shift packRun unpackRun)

/-- A buffer argument; `MPI_IN_PLACE` is the address -1, mpi_integers.h:164. -/
inductive Ptr where
  | null
  | inPlace
  | addr (a : Int)
deriving DecidableEq, Repr

/-- A buffer handed to the engine: `tmp` is a buffer of that many bytes of
`allocateTempPackBuffer`, mpi_api_collectives.cc:155-160; `bad` is the address -1. -/
inductive EBuf where
  | null
  | bad
  | user (a : Int)
  | tmp (bytes : Nat)
deriving DecidableEq, Repr

/-- The address as it is. -/
def Ptr.raw : Ptr → EBuf
  | .null => .null
  | .inPlace => .bad
  | .addr a => .user a

/-- The collectives, `Collective::type_t`. -/
inductive Coll where
  | bcast | gather | scatter | allgather | alltoall | reduce | allreduce | scan
deriving DecidableEq, Repr

/-- `CollectiveOpBase` after `startMpiCollective`, mpi_request.h:71-98; `packed` is the content of the
temporary send buffer. -/
structure Op where
  recvbuf : Ptr
  tmpSend : EBuf
  tmpRecv : EBuf
  sendtype : Ty
  recvtype : Ty
  sendcnt : Nat
  recvcnt : Nat
  packedRecv : Bool
  packed : Buf

/-- The arguments of a call; no type is `MPI_DATATYPE_NULL`. -/
structure Args where
  sendbuf : Ptr
  recvbuf : Ptr
  scnt : Nat
  rcnt : Nat
  st : Option Ty
  rt : Option Ty

/-- `packSend` from an address, mpi_type.cc:369-379. -/
def packAt (mem junk : Buf) (a : Int) (t : Ty) (cnt : Nat) : Buf :=
  packRun (shift 0 a (repeatCopies cnt t.size t.extent t.copies)) mem junk

/-- `unpack_recv` to an address, mpi_type.cc:381-391. -/
def unpackAt (data : Buf) (mem : Buf) (a : Int) (t : Ty) (cnt : Nat) : Buf :=
  unpackRun (shift 0 a (repeatCopies cnt t.size t.extent t.copies)) data mem

/-- Lines 96-113 of `startMpiCollective`: `MPI_IN_PLACE` as the send buffer. -/
def inPlace (c : Coll) (rank : Nat) (x : Args) : Ptr × Nat × Option Ty :=
  match x.sendbuf with
  | .inPlace =>
    match x.recvbuf, x.rt with
    | .addr a, some t =>
      (.addr (if c = .gather ∨ c = .allgather then a + t.extent * x.rcnt * rank else a), x.rcnt, x.rt)
    | _, _ => (.inPlace, x.rcnt, x.rt)
  | p => (p, x.scnt, x.st)

/-- Lines 127-150 of `startMpiCollective`: the temporary buffers.  `recvbuf` is the argument of
the call, `rb` the buffer of the operation. -/
def buffers (mem junk : Buf) (sb rb recvbuf : Ptr) (scnt rcnt : Nat) (st rt : Ty) : Op :=
  { recvbuf := rb, sendtype := st, recvtype := rt, sendcnt := scnt, recvcnt := rcnt,
    tmpSend := match sb with
      | .addr _ => if st.contig then sb.raw else .tmp (scnt * st.size)
      | _ => sb.raw
    packed := match sb with
      | .addr a => packAt mem junk a st scnt
      | _ => junk
    tmpRecv := if rb ≠ .null ∧ rt.contig = false then .tmp (rcnt * rt.size) else recvbuf.raw
    packedRecv := decide (rb ≠ .null) && !rt.contig }

/-- `startMpiCollective`, mpi_api_collectives.cc:86-153.  `none`: no type at all. -/
def prepare (c : Coll) (rank : Nat) (mem junk : Buf) (x : Args) : Option Op :=
  match inPlace c rank x with
  | (sb, scnt, st) =>
    match st, x.rt with
    | some t, some t' => some (buffers mem junk sb x.recvbuf x.recvbuf scnt x.rcnt t t')
    | none, some t' =>
      some (buffers mem junk (if x.sendbuf = .inPlace then sb else .null) x.recvbuf x.recvbuf x.rcnt x.rcnt t' t')
    | some t, none =>
      some (buffers mem junk sb (if x.recvbuf = .inPlace then x.recvbuf else .null) x.recvbuf scnt scnt t t)
    | none, none => none

/-- The `start...` functions, mpi_api_collectives.cc: allgather :252-270, alltoall :336-354, allreduce
:418-435, bcast :553-584 (its buffer is `sendbuf`), gather :636-674, reduce :757-786, scan :963-986,
scatter :1034-1062. -/
def start (c : Coll) (root rank : Nat) (mem junk : Buf) (x : Args) : Option Op :=
  match c with
  | .allgather | .alltoall => prepare c rank mem junk x
  | .allreduce | .scan => prepare c rank mem junk { x with sendbuf := if x.sendbuf = .inPlace then x.recvbuf else x.sendbuf }
  | .bcast =>
    if rank = root then prepare c rank mem junk { x with recvbuf := .null, rt := none, rcnt := x.scnt }
    else prepare c rank mem junk { x with sendbuf := .null, recvbuf := x.sendbuf, st := none, rt := x.st, rcnt := x.scnt }
  | .gather =>
    match inPlace .gather rank x with
    | (sb, scnt, st) =>
      if rank = root then prepare c rank mem junk { x with sendbuf := sb, scnt := scnt, st := st }
      else prepare c rank mem junk { x with sendbuf := sb, scnt := scnt, st := st, recvbuf := .null, rt := none }
  | .reduce =>
    if rank = root then prepare c rank mem junk x else prepare c rank mem junk { x with recvbuf := .null, rt := none }
  | .scatter =>
    if rank = root then prepare c rank mem junk x else prepare c rank mem junk { x with sendbuf := .null, st := none }

/-- `nelems * type_size` of the call of the engine: `op->sendcnt` elements of
`op->sendtype->packed_size()` bytes, mpi_api_collectives.cc:247-249, :331-333, :413-415, :548-550, :631-633,
:752-754, :958-960, :1029-1031. -/
def Op.bytes (o : Op) : Nat := o.sendcnt * o.sendtype.size

/-- Bytes the engine reads from the source at a rank, for calls of `e` bytes. -/
def reads (c : Coll) (n root rank e : Nat) : Nat :=
  match c with
  | .bcast => if rank = root then e else 0
  | .scatter => if rank = root then n * e else 0
  | .alltoall => n * e
  | _ => e

/-- Bytes the engine writes to the destination at a rank. -/
def writes (c : Coll) (n root rank e : Nat) : Nat :=
  match c with
  | .bcast => if rank = root then 0 else e
  | .gather => if rank = root then n * e else 0
  | .reduce => if rank = root then e else 0
  | .allgather | .alltoall => n * e
  | _ => e

/-- Byte `j` of the destination at a rank; `data p` is the source of rank `p`, `red` the result of
the reduction. -/
def deliver (c : Coll) (root rank e : Nat) (red : (Nat → Nat → Nat) → Nat → Nat → Nat) (data : Nat → Nat → Nat) (j : Nat) : Nat :=
  match c with
  | .bcast => data root j
  | .gather | .allgather => data (j / e) (j % e)
  | .scatter => data root (rank * e + j)
  | .alltoall => data (j / e) (rank * e + j % e)
  | _ => red data rank j

/-- What the engine finds at offset `j` of the source. -/
def Op.source (o : Op) (mem : Buf) (j : Nat) : Nat :=
  match o.tmpSend with
  | .user a => mem (a + j)
  | .tmp _ => o.packed j
  | _ => 0

/-- Whether `need` bytes are inside the buffer. -/
def EBuf.has (need : Nat) : EBuf → Bool
  | .tmp b => decide (need ≤ b)
  | _ => true

/-- Outcome of a call at a rank. -/
inductive Out where
  /-- the memory afterwards -/
  | ok (mem : Buf)
  /-- access outside a temporary buffer -/
  | overrun
  /-- access to the address `MPI_IN_PLACE` -/
  | badPtr
  /-- no datatype -/
  | badType

/-- The write of `len` bytes by the engine and `finishCollectiveOp`, mpi_api_collectives.cc:169-185. -/
def Op.finish (o : Op) (len : Nat) (data : Nat → Nat) (mem junk : Buf) : Out :=
  match o.tmpRecv with
  | .null => .ok mem
  | .bad => if len = 0 then .ok mem else .badPtr
  | .user a => .ok (fun i => if a ≤ i ∧ i < a + len then data (i - a).toNat else mem i)
  | .tmp _ =>
    match o.recvbuf with
    | .addr a => .ok (unpackAt (fun i => if 0 ≤ i ∧ i < len then data i.toNat else junk i) mem a o.recvtype o.recvcnt)
    | _ => .badPtr

/-- A collective call of `n` ranks: the outcome at a rank. -/
def run (c : Coll) (n root : Nat) (red : (Nat → Nat → Nat) → Nat → Nat → Nat) (junk : Buf) (args : Nat → Args) (mem : Nat → Buf)
    (rank : Nat) : Out :=
  match start c root rank (mem rank) junk (args rank) with
  | none => .badType
  | some o =>
    if o.tmpSend = .bad ∧ 0 < reads c n root rank o.bytes then .badPtr
    else if o.tmpSend.has (reads c n root rank o.bytes) = false then .overrun
    else if o.tmpRecv.has (writes c n root rank o.bytes) = false then .overrun
    else if o.tmpSend = .null ∧ 0 < reads c n root rank o.bytes then .ok (mem rank)
    else
      o.finish (writes c n root rank o.bytes)
        (deliver c root rank o.bytes red (fun p j =>
          match start c root p (mem p) junk (args p) with
          | some op => op.source (mem p) j
          | none => 0)) (mem rank) junk

/-! ### The initial copies of the Bruck all-to-all -/

/-- `memcpy` of `len` bytes, from low to high addresses. -/
def memcpy (mem : Buf) (dst src : Int) (len : Nat) : Buf := fun i => if dst ≤ i ∧ i < dst + len then mem (src + (i - dst)) else mem i

/-- `BruckAlltoallActor::initBuffers`, alltoall.cc:66-87: the blocks rotated by the rank into the
destination. -/
def bruckInit (mem : Buf) (dst src : Int) (n rank e : Nat) : Buf :=
  memcpy (memcpy mem dst (src + rank * e) (n * e - rank * e)) (dst + (n * e - rank * e : Nat)) src (rank * e)

/-! ### Collectives with a count per rank -/

/-- Offset of the block of rank `p`, `my_offset_` and the layout of allgatherv.cc. -/
def prefixSum (cnt : Nat → Nat) (p : Nat) : Nat := ((List.range p).map cnt).sum

/-- `MPI_Allgatherv`, mpi_api_vcollectives.cc:82-111 and :66-80: the outcome at a rank, given the
address of the receive buffer and the sources; the displacements are not used.  `abort` ("cannot
handle non-contiguous types") is `none`. -/
def allgatherv (n : Nat) (t : Ty) (cnt : Nat → Nat) (_displs : Nat → Int) (src : Nat → Int) (dst : Int) (mem : Nat → Buf) (rank : Nat) :
    Option Buf :=
  if t.contig = false then none
  else some (fun i => if dst ≤ i ∧ i < dst + prefixSum cnt n * t.size then
    match (List.range n).find? (fun p => decide (i < dst + prefixSum cnt (p + 1) * t.size)) with
    | some p => mem p (src p + (i - dst - prefixSum cnt p * t.size))
    | none => mem rank i
  else mem rank i)

/-- `startAlltoallv` without buffers, mpi_api_vcollectives.cc:192-203: the counts handed to
`startAlltoall`. -/
def alltoallvNull (n : Nat) (sendcounts recvcounts : Nat → Nat) : Nat × Nat :=
  (((List.range n).map sendcounts).sum / n, ((List.range n).map recvcounts).sum / n)

/-- `startGatherv` without buffers, mpi_api_vcollectives.cc:315-327: send and receive count at a
rank. -/
def gathervNull (n root rank sendcount : Nat) (recvcounts : Nat → Nat) : Nat × Nat :=
  (sendcount, if rank = root then ((List.range n).map recvcounts).sum / n else sendcount)

/-- `startScatterv` without buffers, mpi_api_vcollectives.cc:421-432. -/
def scattervNull (n root rank recvcount : Nat) (sendcounts : Nat → Nat) : Nat × Nat :=
  (if rank = root then ((List.range n).map sendcounts).sum / n else recvcount, recvcount)

/-- `gatherv(int, MPI_Datatype, ...)`, mpi_api_vcollectives.cc:354-360, calls
`gatherv(NULL, sendtype, sendcount, ...)`: the count and the type it passes on. -/
def gathervShort (sendcount sendtype : Nat) : Nat × Nat := (sendtype, sendcount)

end SST.Mpi.CollCall
