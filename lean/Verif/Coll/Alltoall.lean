import Verif.Coll.Rounds
import Verif.Coll.Allgather
/-!
The Bruck alltoall (sumi/alltoall.cc), the default algorithm (sim_transport.cc:566).
Buffer 0 is the result buffer, 1 the temporary send buffer, 2 the temporary receive buffer.
Rounds `3r`, `3r+1`, `3r+2` of the model are the send shuffle, the exchange and the receive
shuffle of round `r` of the program.  Not modelled: the direct algorithm (alltoall.cc:234-297).
-/
set_option autoImplicit false
namespace SST.Coll.Alltoall
open SST.Coll

variable {V : Type}

/-- Rounds of `initDag`, alltoall.cc:139-146. -/
def rounds (n : Nat) : Nat :=
  (Allgather.bruckTree n).1 + (if (Allgather.bruckTree n).2 ≠ 0 then 1 else 0)

/-- `numSendBlocks`, alltoall.cc:154-163. -/
def numSend (n g : Nat) : Nat :=
  (n - g) / (g * 2) * g + min g ((n - g) % (g * 2))

/-- Block of the result buffer that is block `t` of the temporary buffers: iteration `t / g`
of the loop in `shuffle` (alltoall.cc:107-118) has `mainBlock = g + (t / g) * 2g` and
`tmpBlock = (t / g) * g`. -/
def mainBlock (g t : Nat) : Nat := g + t / g * (g * 2) + t % g

/-- The block of the temporary buffers that goes with block `j` of the result buffer, in the
iteration `(j - g) / 2g` of the same loop. -/
def tmpBlock (g j : Nat) : Nat := (j - g) / (g * 2) * g + (j - g) % (g * 2)

/-- `shuffle` with `copyToTemp`, alltoall.cc:98-119 and 126-129: iteration by iteration
`min (g, n - mainBlock)` blocks are copied to the send buffer. -/
def sendShuffle (n g m : Nat) : LocalOp V where
  wr := fun b x => b == 1 && decide (mainBlock g (x / m) < n)
  use := fun b _ => b == 0
  f := fun M _ x => M 0 (mainBlock g (x / m) * m + x % m)

/-- `shuffle` from the receive buffer, alltoall.cc:98-119 and 130-132. -/
def recvShuffle (n g m : Nat) : LocalOp V where
  wr := fun b x => b == 0 && decide (x / m < n) && decide (g ≤ x / m) && decide ((x / m - g) % (g * 2) < g)
  use := fun b _ => b == 2
  f := fun M _ x => M 2 (tmpBlock g (x / m) * m + x % m)

/-- `BruckAlltoallActor::initDag`, alltoall.cc:136-196. -/
def bruck (n m : Nat) : Rounds V where
  procs := n
  T := 3 * rounds n
  real := id
  tag := fun _ i => i / 3
  send := fun p i q =>
    if i % 3 = 1 ∧ q = (p + 2 ^ (i / 3)) % n then
      some { buf := 1, off := 0, len := numSend n (2 ^ (i / 3)) * m }
    else none
  recv := fun p i q =>
    if i % 3 = 1 ∧ q = (p + n - 2 ^ (i / 3)) % n then
      some { buf := 2, off := 0, len := numSend n (2 ^ (i / 3)) * m }
    else none
  loc := fun _ i =>
    if i % 3 = 0 then some (sendShuffle n (2 ^ (i / 3)) m)
    else if i % 3 = 2 then some (recvShuffle n (2 ^ (i / 3)) m)
    else none
  op := fun a _ => a

/-- `initBuffers`, alltoall.cc:65-87, with distinct send and result buffers: the send buffer
is copied to the result buffer rotated by `dom_me_` blocks. -/
def init (n m : Nat) (sendbuf : Nat → Nat → V) (old : Loc → V) : Loc → V := fun l =>
  if l.2.1 = 0 ∧ l.2.2 < n * m - l.1 * m then sendbuf l.1 (l.1 * m + l.2.2)
  else if l.2.1 = 0 ∧ l.2.2 < n * m then sendbuf l.1 (l.2.2 - (n * m - l.1 * m))
  else old l

/-- `finalize`, alltoall.cc:204-232: block `i` goes to block `(dom_me_ + n - i) % n`. -/
def finalize (n m : Nat) (mem : Loc → V) (p : Nat) : Nat → V :=
  (List.range n).foldl
    (fun tmp i => fun x => if x / m = (p + n - i) % n then mem (p, 0, i * m + x % m) else tmp x)
    (fun x => mem (p, 0, x))

end SST.Coll.Alltoall
