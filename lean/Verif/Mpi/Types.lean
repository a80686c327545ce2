/-
Model of derived datatypes: sumi-mpi/mpi_types/mpi_type.cc, sumi-mpi/mpi_api_type.cc, and
their use by a send and a receive (mpi_protocol.cc:57-68 fillSendBuffer,
mpi_queue.cc:251-260 finalizeRecv).

A buffer is a function from byte offsets to bytes.  A pack or unpack call is the sequence of
single-byte copies its memcpy calls make, as pairs (offset in the packed buffer, offset in
the user buffer).  The packed buffer is freshly allocated, so it does not overlap the user
buffer.  The PAIR kind is not modelled: no type is ever built with it
(mpi_api_type.cc:229-234 builds the pair types as primitives).
-/
set_option autoImplicit false
namespace SST.Mpi.Types

mutual
/-- `MpiType`: PRIM, VEC (`vecdata`, mpi_type.h) and IND (`inddata`). -/
inductive Ty where
  | prim (n : Nat)
  | vec (base : Ty) (count block : Nat) (byteStride : Int)
  | ind (blocks : Blocks) (ext : Int)
/-- `ind_block`s: base type, byte displacement and number of elements. -/
inductive Blocks where
  | nil
  | cons (base : Ty) (disp : Int) (num : Nat) (rest : Blocks)
end

mutual
/-- `size_`: mpi_type.cc:134-138, :201, :217. -/
def Ty.size : Ty → Nat
  | .prim n => n
  | .vec b c k _ => c * k * b.size
  | .ind bs _ => bs.size
/-- `packed_size` summed in mpi_api_type.cc:395 and :570. -/
def Blocks.size : Blocks → Nat
  | .nil => 0
  | .cons b _ n r => b.size * n + r.size
end

/-- `extent_`: mpi_type.cc:134, :200, :218. -/
def Ty.extent : Ty → Int
  | .prim n => n
  | .vec _ _ _ s => s
  | .ind _ e => e

/-- `contiguous_`: mpi_type.cc:61 (default), :207, :220. -/
def Ty.contig : Ty → Bool
  | .prim _ => true
  | .vec b _ k s => decide (s = k * b.extent) && b.contig
  | .ind bs e => decide (e = bs.size)

/-- Move a list of copies by the given packed and user offsets. -/
def shift (p : Nat) (u : Int) (l : List (Nat × Int)) : List (Nat × Int) :=
  l.map (fun x => (p + x.1, u + x.2))

/-- `num` elements one after the other: `packSend`/`unpack_recv`, mpi_type.cc:369-391. -/
def repeatCopies (num size : Nat) (ext : Int) (l : List (Nat × Int)) : List (Nat × Int) :=
  ((List.range num).map (fun i => shift (i * size) (i * ext) l)).flatten

/-- One `memcpy` of `n` bytes. -/
def block (n : Nat) : List (Nat × Int) := (List.range n).map (fun (i : Nat) => (i, (i : Int)))

mutual
/-- `pack_action`, mpi_type.cc:416-443: primitive :319-331, vector :333-345 (the block
length is not used), indexed :347-367 (the displacements are not used). -/
def Ty.copies : Ty → List (Nat × Int)
  | .prim n => block n
  | .vec b c _ s => repeatCopies c b.size s b.copies
  | .ind bs _ => bs.copies
/-- The loop over the blocks of an indexed type. -/
def Blocks.copies : Blocks → List (Nat × Int)
  | .nil => []
  | .cons b _ n r =>
    (if b.contig then block (b.size * n) else repeatCopies n b.size b.extent b.copies) ++
      shift (b.size * n) (b.extent * n) r.copies
end

/-- Buffers. -/
abbrev Buf := Int → Nat

/-- `buf[i] = x`. -/
def Buf.put (b : Buf) (i : Int) (x : Nat) : Buf := fun j => if j = i then x else b j

/-- Packing: copy from the user buffer to the packed buffer. -/
def packRun (l : List (Nat × Int)) (user packed : Buf) : Buf :=
  l.foldl (fun m x => m.put x.1 (user x.2)) packed

/-- Unpacking: copy from the packed buffer to the user buffer. -/
def unpackRun (l : List (Nat × Int)) (packed user : Buf) : Buf :=
  l.foldl (fun m x => m.put x.2 (packed x.1)) user

/-- The copies made for `cnt` elements of a type when sending (`fillSendBuffer`,
mpi_protocol.cc:57-68) and when receiving (mpi_queue_recv_request.cc:76-80 and
mpi_queue.cc:255-257): one memcpy for a contiguous type. -/
def xfer (t : Ty) (cnt : Nat) : List (Nat × Int) :=
  if t.contig then block (cnt * t.size) else repeatCopies cnt t.size t.extent t.copies

/-- Send `cnt` elements of `t` from `src` and receive them with `cnt` elements of `t'` into
`dst`; `junk` is the initial content of the packed buffer.  (`finalizeRecv` unpacks
`msg->count()` elements, the sender's count.) -/
def sendRecv (t t' : Ty) (cnt : Nat) (src dst junk : Buf) : Buf :=
  unpackRun (xfer t' cnt) (packRun (xfer t cnt) src junk) dst

/-! ### The type constructors of the MPI interface -/

/-- `MPI_Type_hvector`, mpi_api_type.cc:316-351. -/
def hvector (count blocklen : Nat) (stride : Int) (old : Ty) : Ty := .vec old count blocklen stride

/-- `MPI_Type_vector`, mpi_api_type.cc:354-367. -/
def vector (count blocklen : Nat) (stride : Int) (old : Ty) : Ty :=
  .vec old count blocklen (stride * old.extent)

/-- `MPI_Type_contiguous`, mpi_api_type.cc:501-524. -/
def contiguous (count : Nat) (old : Ty) : Ty := .vec old count 1 (count * old.extent)

/-- The block loop of `doTypeHindexed`, mpi_api_type.cc:389-399; `ext` is the running
extent. -/
def hindexedBlocks (old : Ty) (ext : Int) : List (Nat × Int) → Blocks × Int
  | [] => (.nil, ext)
  | (len, disp) :: l =>
    if len > 0 then
      let r := hindexedBlocks old (ext + disp) l
      (.cons old ext len r.1, r.2)
    else hindexedBlocks old ext l

/-- `MPI_Type_hindexed`, mpi_api_type.cc:369-427. -/
def hindexed (lens : List (Nat × Int)) (old : Ty) : Ty :=
  .ind (hindexedBlocks old 0 lens).1 (hindexedBlocks old 0 lens).2

/-- The block loop of `typeCreateStruct`, mpi_api_type.cc:563-574. -/
def structBlocks (ext : Int) : List (Nat × Int × Ty) → Blocks × Int
  | [] => (.nil, ext)
  | (len, disp, t) :: l =>
    if len > 0 then
      let r := structBlocks (disp + t.size * len) l
      (.cons t disp len r.1, r.2)
    else structBlocks ext l

/-- `MPI_Type_create_struct`, mpi_api_type.cc:541-594. -/
def struct (fields : List (Nat × Int × Ty)) : Ty :=
  .ind (structBlocks 0 fields).1 (structBlocks 0 fields).2

end SST.Mpi.Types
