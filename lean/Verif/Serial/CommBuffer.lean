import Verif.Serial.Model
/-
The send buffer shared by the threads of a process:
sstmac/backends/common/parallel_runtime.cc:77-165 (CommBuffer::allocateSpace, copyToBackup,
reset, realloc) and sstmac/backends/mpi/mpi_runtime.cc:264-276 (the buffer handed to
MPI_Isend).

A reservation takes three steps: the atomic addition, the part under the lock (which picks
the buffer), and writing the bytes.  Steps of different threads interleave freely.

Simplifications: addresses are offsets into one of the buffers; 64-bit counters do not
overflow.
-/
namespace SST.Serial.Comm

/-- `BackupBuffer`, parallel_runtime.h:98-102. -/
structure Backup where
  max : Nat
  filled : Nat
  mem : Nat → Byte

/-- Where a reservation was put. -/
inductive Place where
  /-- the addition is done, the buffer not yet chosen -/
  | pending
  /-- `storage` -/
  | main
  /-- `backups[k]` -/
  | backup (k : Nat)
deriving DecidableEq

/-- One call of `allocateSpace` followed by packing `data`. -/
structure Res where
  start : Nat
  data : List Byte
  place : Place
  written : Bool

/-- `newOffset`. -/
def Res.stop (r : Res) : Nat := r.start + r.data.length

/-- `CommBuffer`, parallel_runtime.h:91-165, with the reservations made so far. -/
structure St where
  bytes : Nat
  alloc : Nat
  filled : Nat
  mem : Nat → Byte
  backups : List Backup
  res : List Res

/-- After `realloc`/`reset`: nothing reserved, contents arbitrary. -/
def St.init (alloc : Nat) (mem : Nat → Byte) : St := ⟨0, alloc, 0, mem, [], []⟩

/-- The growing loop, parallel_runtime.cc:100-102; `fuel` bounds the number of rounds
(`n` rounds are enough to reach `n` from a positive size). -/
def grow : Nat → Nat → Nat → Nat
  | 0, sz, _ => sz
  | fuel + 1, sz, n => if sz < n then grow fuel (sz * 8) n else sz

/-- The new contents of a buffer after packing `data` at `start`. -/
def store (mem : Nat → Byte) (start : Nat) (data : List Byte) : Nat → Byte :=
  fun i => if start ≤ i ∧ i < start + data.length then data.getD (i - start) 0 else mem i

/-- The search through the backups, parallel_runtime.cc:90-97: index of the first with
`newOffset < maxSize`, counting from `k`. -/
def search (bs : List Backup) (n : Nat) (k : Nat := 0) : Option Nat :=
  match bs with
  | [] => none
  | b :: bs => if n < b.max then some k else search bs n (k + 1)

/-- The steps. -/
inductive Op where
  /-- `add_int64_atomic`, line 80, for a message with these bytes -/
  | reserve (data : List Byte)
  /-- lines 82-117 for reservation `i` -/
  | choose (i : Nat)
  /-- the owner of reservation `i` packs its message -/
  | write (i : Nat)

/-- Size of the next backup buffer, parallel_runtime.cc:99-102. -/
def nextSize (backupSize : Nat) (s : St) (n : Nat) : Nat :=
  let first := match s.backups.getLast? with
    | none => backupSize
    | some b => b.max * 8
  grow n first n

/-- Lines 82-117 of `allocateSpace` for a reservation. -/
def chooseBuf (backupSize : Nat) (s : St) (r : Res) : St × Place :=
  if r.stop > s.alloc then
    let filled := if r.start ≤ s.alloc then r.start else s.filled
    match search s.backups r.stop with
    | some k =>
      ({ s with filled, backups := s.backups.modify k (fun b => { b with filled := Nat.max r.stop b.filled }) },
       .backup k)
    | none =>
      ({ s with filled, backups := s.backups ++ [⟨nextSize backupSize s r.stop, r.stop, fun _ => 0⟩] },
       .backup s.backups.length)
  else (s, .main)

/-- One step; a step that is not enabled changes nothing. -/
def step (backupSize : Nat) (s : St) : Op → St
  | .reserve data =>
    { s with bytes := s.bytes + data.length, res := s.res ++ [⟨s.bytes, data, .pending, false⟩] }
  | .choose i =>
    match s.res[i]? with
    | none => s
    | some r =>
      if r.place = .pending then
        let (s', p) := chooseBuf backupSize s r
        { s' with res := s.res.set i { r with place := p } }
      else s
  | .write i =>
    match s.res[i]? with
    | none => s
    | some r =>
      let res := s.res.set i { r with written := true }
      match r.place with
      | .pending => s
      | .main => { s with mem := store s.mem r.start r.data, res }
      | .backup k =>
        { s with backups := s.backups.modify k (fun b => { b with mem := store b.mem r.start r.data }), res }

/-- A schedule. -/
def run (backupSize : Nat) (s : St) (ops : List Op) : St := ops.foldl (step backupSize) s

/-- `memcpy(final + from, src + from, to - from)`. -/
def copyRange (dst src : Nat → Byte) (lo hi : Nat) : Nat → Byte :=
  fun i => if lo ≤ i ∧ i < hi then src i else dst i

/-- The loop of `copyToBackup`, parallel_runtime.cc:130-136 (`bytesToFill` does not wrap
because the fill marks only grow). -/
def copyLoop (final : Nat → Byte) (lastFill fillMark : Nat) (src : Nat → Byte) : List Backup → Nat → Byte
  | [] => final
  | b :: bs => copyLoop (copyRange final src lastFill fillMark) (lastFill + (fillMark - lastFill)) b.filled b.mem bs

/-- What is handed to `MPI_Isend`: memory and number of bytes valid to read from it,
mpi_runtime.cc:264-276. -/
def sendView (s : St) : (Nat → Byte) × Nat :=
  match s.backups.getLast? with
  | none => (s.mem, s.alloc)
  | some b => (copyLoop b.mem 0 s.filled s.mem s.backups, b.max)

/-- `reset`, parallel_runtime.cc:140-154. -/
def reset (s : St) : St :=
  if s.backups.isEmpty then { s with filled := 0, bytes := 0, res := [] }
  else
    let g := Nat.min (Nat.max 2 (s.bytes / s.alloc)) 8
    { s with filled := 0, bytes := 0, backups := [], alloc := s.alloc * g, mem := fun _ => 0, res := [] }

end SST.Serial.Comm
