import Verif.Coll.Rounds
import Verif.Coll.Tree
/-!
The scan algorithm (sumi/scan.cc).  Buffer 0 is the result buffer, buffer 1 the temporary
send buffer.  Round `2r` of the model is the exchange of round `r` of the program, round
`2r+1` its shuffle.
-/
set_option autoImplicit false
namespace SST.Coll.Scan
open SST.Coll

variable {V : Type}

/-- `startShuffle`, scan.cc:147-152: the result buffer is copied into the send buffer. -/
def copy (e : Nat) : LocalOp V where
  wr := fun b x => b == 1 && decide (x < e)
  use := fun b x => b == 0 && decide (x < e)
  f := fun M _ x => M 0 x

/-- `SimultaneousBtreeScanActor::initDag`, scan.cc:87-140.  `rb` tells whether
`recv_buffer_` is non-null when `initDag` runs (the condition at :129): a shuffle is created
only then.  The loop (:106-139) stops at the first gap without partner; `gap < n` bounds its
rounds by `log2nproc`. -/
def scanDag (rb : Bool) (n e : Nat) (op : V → V → V) : Rounds V where
  procs := n
  T := 2 * (computeTree n).log2nproc
  real := id
  tag := fun _ i => i / 2
  send := fun p i q =>
    if i % 2 = 0 ∧ q = p + 2 ^ (i / 2) then some { buf := 1, off := 0, len := e } else none
  recv := fun p i q =>
    if i % 2 = 0 ∧ p = q + 2 ^ (i / 2) then some { buf := 0, off := 0, len := e, red := true }
    else none
  loc := fun p i =>
    if rb = true ∧ i % 2 = 1 ∧ p + 2 ^ (i / 2 + 1) < n then some (copy e) else none
  op := op

/-- The scan as it runs: `recv_buffer_` is null until `initBuffers` (collective_actor.h:387,
scan.cc:79), and `init` calls `initDag` first (collective_actor.h:365-369). -/
def scan (n e : Nat) (op : V → V → V) : Rounds V := scanDag false n e op

/-- `initBuffers`, scan.cc:69-85: the contribution is copied to both buffers. -/
def scanInit (contrib : Nat → Nat → V) : Loc → V := fun l => contrib l.1 l.2.2

end SST.Coll.Scan
