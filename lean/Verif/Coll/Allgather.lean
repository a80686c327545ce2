import Verif.Coll.Rounds
import Verif.Coll.Tree
/-!
The two allgather algorithms (sumi/allgather.cc).  Buffer 0 is the result buffer.  Elements
are counted in units of the data type (`type_size_` only scales addresses).
-/
set_option autoImplicit false
namespace SST.Coll.Allgather
open SST.Coll

variable {V : Type}

/-- `BruckTree::computeTree`, allgather.cc:62-75: number of rounds and blocks in the extra
round. -/
def bruckTree (n : Nat) : Nat × Nat :=
  let t := computeTree n
  if n ≠ t.virtualNproc then (t.log2nproc - 1, n - t.midpoint) else (t.log2nproc, 0)

/-- `BruckActor::initDag`, allgather.cc:104-165.  Round `i` (from 0) exchanges with the ranks
at distance `2^i`; the extra round (`nprocs_extra_round ≠ 0`) follows with message round
number `num_rounds + 1`. -/
def bruck (n m : Nat) : Rounds V where
  procs := n
  T := (bruckTree n).1 + (if (bruckTree n).2 ≠ 0 then 1 else 0)
  real := id
  tag := fun _ i => if i < (bruckTree n).1 then i else (bruckTree n).1 + 1
  send := fun p i q =>
    if q = (p + n - 2 ^ i) % n then
      some { buf := 0, off := 0, len := if i < (bruckTree n).1 then 2 ^ i * m else (bruckTree n).2 * m }
    else none
  recv := fun p i q =>
    if q = (p + 2 ^ i) % n then
      some { buf := 0, off := 2 ^ i * m, len := if i < (bruckTree n).1 then 2 ^ i * m else (bruckTree n).2 * m }
    else none
  loc := fun _ _ => none
  op := fun a _ => a

/-- `BruckActor::initBuffers`, allgather.cc:77-97, when the send buffer is not the result
buffer: the own block is copied to the start of the result buffer. -/
def bruckInit (m : Nat) (send old : Nat → Nat → V) : Loc → V :=
  fun l => if l.2.1 = 0 ∧ l.2.2 < m then send l.1 l.2.2 else old l.1 l.2.2

/-- The same in place (`dst == src`): every rank but 0 copies its block, which is at offset
`dom_me_ * nelems`, to the start. -/
def bruckInitInPlace (m : Nat) (old : Nat → Nat → V) : Loc → V :=
  fun l => if l.2.1 = 0 ∧ l.2.2 < m ∧ l.1 ≠ 0 then old l.1 (l.1 * m + l.2.2) else old l.1 l.2.2

/-- `BruckActor::finalize`, allgather.cc:173-206: every rank but 0 rotates the result buffer
(`tmp` is a copy of it) by its own offset. -/
def bruckFinalize (n m : Nat) (mem : Loc → V) (p x : Nat) : V :=
  if p = 0 then mem (p, 0, x)
  else if x < m * p then mem (p, 0, (m * n - m * p) + x) else mem (p, 0, x - m * p)

/-- The chunk a rank received last, before iteration `i+1` of the ring loop:
`recv_chunk = (last_recved - 1 + dom_nproc_) % dom_nproc_`, allgather.cc:231-256. -/
def chunk (n p : Nat) : Nat → Nat
  | 0 => p
  | i + 1 => (chunk n p i + n - 1) % n

/-- `RingAllgatherActor::initDag`, allgather.cc:225-260.  Iteration `i+1` is round `i`. -/
def ring (n m : Nat) : Rounds V where
  procs := n
  T := n - 1
  real := id
  tag := fun _ i => i + 1
  send := fun p i q =>
    if q = (p + 1) % n then some { buf := 0, off := chunk n p i * m, len := m } else none
  recv := fun p i q =>
    if q = (p + n - 1) % n then some { buf := 0, off := chunk n p (i + 1) * m, len := m } else none
  loc := fun _ _ => none
  op := fun a _ => a

/-- `RingAllgatherActor::initBuffers`, allgather.cc:208-212: nothing is copied. -/
def ringInit (old : Nat → Nat → V) : Loc → V := fun l => old l.1 l.2.2

end SST.Coll.Allgather
