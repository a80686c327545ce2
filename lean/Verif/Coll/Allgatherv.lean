import Verif.Coll.Rounds
import Verif.Coll.Allgather
/-!
The Bruck allgather with a count per rank (sumi/allgatherv.cc).  Buffer 0 is the result
buffer.  `cnt` is `recv_counts_`, assumed equal on all ranks as MPI requires.
-/
set_option autoImplicit false
namespace SST.Coll.Allgatherv
open SST.Coll

variable {V : Type}

/-- `nelems_to_recv`, allgatherv.cc:87-96: elements of `k` consecutive ranks from `p`. -/
def span (n : Nat) (cnt : Nat → Nat) (p : Nat) : Nat → Nat
  | 0 => 0
  | k + 1 => span n cnt p k + cnt ((p + k) % n)

/-- `total_nelems_` over the first `k` ranks; `my_offset_` is its value at the own rank
(constructor, allgatherv.h:65-70). -/
def offset (cnt : Nat → Nat) : Nat → Nat
  | 0 => 0
  | k + 1 => offset cnt k + cnt k

/-- `nelems_recvd` before round `i`, allgatherv.cc:119-160: the own count plus what the
rounds before received. -/
def recvd (n : Nat) (cnt : Nat → Nat) (p : Nat) : Nat → Nat
  | 0 => cnt p
  | i + 1 => recvd n cnt p i + span n cnt ((p + 2 ^ i) % n) (2 ^ i)

/-- `BruckAllgathervActor::initDag`, allgatherv.cc:98-182.  The loop at :104-117 is
`BruckTree::computeTree` written out. -/
def bruckv (n : Nat) (cnt : Nat → Nat) : Rounds V where
  procs := n
  T := (Allgather.bruckTree n).1 + (if (Allgather.bruckTree n).2 ≠ 0 then 1 else 0)
  real := id
  tag := fun _ i => i
  send := fun p i q =>
    if q = (p + n - 2 ^ i) % n then
      some { buf := 0, off := 0,
             len := if i < (Allgather.bruckTree n).1 then recvd n cnt p i
                    else offset cnt n - span n cnt ((p + n - 2 ^ i) % n) (2 ^ i) }
    else none
  recv := fun p i q =>
    if q = (p + 2 ^ i) % n then
      some { buf := 0, off := recvd n cnt p i,
             len := if i < (Allgather.bruckTree n).1 then span n cnt ((p + 2 ^ i) % n) (2 ^ i)
                    else offset cnt n - recvd n cnt p i }
    else none
  loc := fun _ _ => none
  op := fun a _ => a

/-- `initBuffers`, allgatherv.cc:61-80, separate buffers. -/
def init (cnt : Nat → Nat) (send old : Nat → Nat → V) : Loc → V :=
  fun l => if l.2.1 = 0 ∧ l.2.2 < cnt l.1 then send l.1 l.2.2 else old l.1 l.2.2

/-- `initBuffers` in place. -/
def initInPlace (cnt : Nat → Nat) (old : Nat → Nat → V) : Loc → V :=
  fun l => if l.2.1 = 0 ∧ l.2.2 < cnt l.1 ∧ l.1 ≠ 0 then old l.1 (offset cnt l.1 + l.2.2) else old l.1 l.2.2

/-- `finalize`, allgatherv.cc:190-220. -/
def finalize (n : Nat) (cnt : Nat → Nat) (mem : Loc → V) (p x : Nat) : V :=
  if p = 0 then mem (p, 0, x)
  else if x < offset cnt p then mem (p, 0, (offset cnt n - offset cnt p) + x)
  else mem (p, 0, x - offset cnt p)

end SST.Coll.Allgatherv
