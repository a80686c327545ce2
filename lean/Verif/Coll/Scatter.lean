import Verif.Coll.Rounds
import Verif.Coll.Tree
/-!
The scatter algorithm (sumi/scatter.cc).  Buffers of a rank: 0 is the caller's result
buffer, 1 the temporary `recv_buffer_`, 2 the caller's send buffer at the root.
-/
set_option autoImplicit false
namespace SST.Coll.Scatter
open SST.Coll

variable {V : Type}

/-- `midpoint_` (`initTree`, scatter.cc:50-55). -/
def mid (n : Nat) : Nat := (computeTree n).midpoint

/-- `partnerGap` in iteration `k` of the loop at scatter.cc:184-222. -/
def gap (n k : Nat) : Nat := mid n / 2 / 2 ^ k

/-- `send_ty`, scatter.cc:147-148: the root sends from the send buffer, the others from
`recv_buffer_`. -/
def sendBuf (root me : Nat) : Nat := if me = root then 2 else 1

/-- The send of rank `me` in iteration `k`, scatter.cc:186-199. -/
def treeSend (n root e me k q : Nat) : Option Xfer :=
  let g := gap n k
  if 0 < g ∧ me % g = 0 ∧ (me / g) % 2 = 0 ∧ q = me + g ∧ q < n then
    some { buf := sendBuf root me, off := g * e, len := min (n - q) g * e }
  else none

/-- The receive of rank `me` in iteration `k`, scatter.cc:200-217: into `recv_buffer_`, and
in the last iteration directly into the result buffer. -/
def treeRecv (n e me k q : Nat) : Option Xfer :=
  let g := gap n k
  if 0 < g ∧ me % g = 0 ∧ (me / g) % 2 ≠ 0 ∧ q = me - g then
    some { buf := if g ≠ 1 then 1 else 0, off := 0, len := min (n - me) g * e }
  else none

/-- `finalizeBuffers`, scatter.cc:106-126: an even rank other than the root copies its block
to the result buffer. -/
def copyOut (e : Nat) : LocalOp V where
  wr := fun b x => b == 0 && decide (x < e)
  use := fun b x => b == 1 && decide (x < e)
  f := fun M _ x => M 1 x

/-- `BtreeScatterActor::initDag`, scatter.cc:134-224.  Round 0 is the send from the root to
the midpoint (:150-165).  Round 1 is the send from the root to rank 0 (:167-181): it waits
for the send of round 0, but since `prev` is not set to it, the root's later actions do not
wait for it; it is therefore carried by a process of its own (process `n`, run by the
root).  Round `2+k` is iteration `k` of the loop.  The last round is `finalizeBuffers`, run
when all actions of the rank are done. -/
def scatter (n root e : Nat) : Rounds V where
  procs := n + 1
  T := (computeTree n).log2nproc + 2
  real := fun p => if p = n then root else p
  tag := fun _ i => i - 1
  send := fun p i q =>
    if p = n then
      if i = 1 ∧ root ≠ 0 ∧ q = 0 then some { buf := 2, off := 0, len := mid n * e } else none
    else if q = n then none
    else if i = 0 then
      if root ≠ mid n ∧ p = root ∧ q = mid n then
        some { buf := 2, off := mid n * e, len := min (n - mid n) (mid n) * e } else none
    else if 2 ≤ i then treeSend n root e p (i - 2) q
    else none
  recv := fun p i q =>
    if q = n then
      if i = 1 ∧ root ≠ 0 ∧ p = 0 then some { buf := 1, off := 0, len := mid n * e } else none
    else if p = n then none
    else if i = 0 then
      if root ≠ mid n ∧ q = root ∧ p = mid n then
        some { buf := 1, off := 0, len := min (n - mid n) (mid n) * e } else none
    else if 2 ≤ i then treeRecv n e p (i - 2) q
    else none
  loc := fun p i =>
    if p ≠ n ∧ i = (computeTree n).log2nproc + 1 ∧ p ≠ root ∧ p % 2 = 0 then some (copyOut e) else none
  op := fun a _ => a
  join := fun a b => a.p = n ∧ b.p = root

/-- `initBuffers`, scatter.cc:57-104, at the start of the collective: `data` is the root's
send buffer, `old` whatever the other buffers hold.  Root 0 copies its own block to the
result; a root at the midpoint copies the second half to `recv_buffer_`. -/
def scatterInit (n root e : Nat) (data : Nat → V) (old : Loc → V) : Loc → V := fun l =>
  if l.1 = root ∧ l.2.1 = 2 then data l.2.2
  else if l.1 = root ∧ root = 0 ∧ l.2.1 = 0 ∧ l.2.2 < e then data l.2.2
  else if l.1 = root ∧ root ≠ 0 ∧ root = mid n ∧ l.2.1 = 1 ∧ l.2.2 < (n - mid n) * e then data (mid n * e + l.2.2)
  else old l

end SST.Coll.Scatter
