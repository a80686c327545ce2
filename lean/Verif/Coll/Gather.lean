import Verif.Coll.Rounds
import Verif.Coll.Tree
/-!
The gather algorithm (sumi/gather.cc).  Buffer 0 is the buffer a rank works on: the caller's
at the root, a temporary one elsewhere.
-/
set_option autoImplicit false
namespace SST.Coll.Gather
open SST.Coll

variable {V : Type}

/-- `midpoint_`, `log2nproc_`: `initTree`, gather.cc:51-63, is the loop of `computeTree`. -/
def mid (n : Nat) : Nat := (computeTree n).midpoint

/-- `maxGap`, gather.cc:125-129. -/
def maxGap (n root : Nat) : Nat := if root = 0 then mid n else mid n / 2

/-- Rank `me` gets to round `i` of the loop at gather.cc:139-173: it received in all earlier
rounds (a sender breaks out, :167). -/
def reached (me : Nat) : Nat → Bool
  | 0 => true
  | i + 1 => reached me i && me % 2 ^ (i + 1) == 0

/-- The send of rank `me` in round `i` of the loop, gather.cc:157-168. -/
def treeSend (n root e me i q : Nat) : Option Xfer :=
  if 2 ^ i ≤ maxGap n root ∧ reached me i = true ∧ me % 2 ^ (i + 1) ≠ 0 ∧ q = me - 2 ^ i then
    some { buf := 0, off := 0, len := (min (me + 2 ^ i) n - me) * e }
  else none

/-- The receive of rank `me` in round `i` of the loop, gather.cc:143-156. -/
def treeRecv (n root e me i q : Nat) : Option Xfer :=
  if 2 ^ i ≤ maxGap n root ∧ reached me i = true ∧ me % 2 ^ (i + 1) = 0 ∧ q = me + 2 ^ i ∧ q < n then
    some { buf := 0, off := 2 ^ i * e, len := (min (me + 2 ^ i + 2 ^ i) n - (me + 2 ^ i)) * e }
  else none

/-- The last step towards a root other than 0, gather.cc:187-219: the transfer from `p` to
the root, as (offset at the sender, offset at the root, elements). -/
def lastStep (n root e p : Nat) : Option (Nat × Nat × Nat) :=
  if root = 0 then none
  else if p = 0 then some (0, 0, mid n * e)
  else if p = mid n ∧ mid n ≠ root then some (0, mid n * e, (n - mid n) * e)
  else none

/-- The shuffle of a root that is the midpoint, gather.cc:176-183 and `startShuffle`,
:100-111: the first `(nproc - midpoint)` blocks are copied to the second half. -/
def shuffle (n e : Nat) : LocalOp V where
  wr := fun b x => b == 0 && decide (mid n * e ≤ x) && decide (x < mid n * e + (n - mid n) * e)
  use := fun b x => b == 0 && decide (x < (n - mid n) * e)
  f := fun M _ x => M 0 (x - mid n * e)

/-- `BtreeGatherActor::initDag`, gather.cc:119-221.  Rounds `0..K-1` are the loop, round `K`
the shuffle and round `K+1` the last step (which carries round number `K`). -/
def gather (n root e : Nat) : Rounds V where
  procs := n
  T := (computeTree n).log2nproc + 2
  real := id
  tag := fun _ i => if i ≤ (computeTree n).log2nproc then i else (computeTree n).log2nproc
  send := fun p i q =>
    if i < (computeTree n).log2nproc then treeSend n root e p i q
    else if i = (computeTree n).log2nproc + 1 ∧ q = root then
      (lastStep n root e p).map fun t => { buf := 0, off := t.1, len := t.2.2 }
    else none
  recv := fun p i q =>
    if i < (computeTree n).log2nproc then treeRecv n root e p i q
    else if i = (computeTree n).log2nproc + 1 ∧ p = root then
      (lastStep n root e q).map fun t => { buf := 0, off := t.2.1, len := t.2.2 }
    else none
  loc := fun p i =>
    if i = (computeTree n).log2nproc ∧ p = root ∧ root ≠ 0 ∧ root = mid n then some (shuffle n e) else none
  op := fun a _ => a

/-- `initBuffers`, gather.cc:65-85: the rank's own block is copied to the start of the
buffer; the rest is whatever was there. -/
def gatherInit (e : Nat) (contrib old : Nat → Nat → V) : Loc → V :=
  fun l => if l.2.2 < e then contrib l.1 l.2.2 else old l.1 l.2.2

end SST.Coll.Gather
