import Verif.Coll.Rounds
import Verif.Coll.Tree
/-!
The broadcast algorithm (sumi/bcast.cc).  Buffer 0 is the caller's buffer, which is both
send and result buffer (bcast.h:61 passes `buf, buf`).
-/
set_option autoImplicit false
namespace SST.Coll.Bcast
open SST.Coll

variable {V : Type}

/-- `roundNproc`, bcast.cc:144-149: the loop of `computeTree`. -/
def roundNproc (n : Nat) : Nat := (computeTree n).virtualNproc

/-- The values of a loop `while (gap > 0) { ...; gap /= 2; }` (bcast.cc:60-70, 87-97);
`fuel ≥ gap` is enough. -/
def strides : Nat → Nat → List Nat
  | 0, _ => []
  | fuel + 1, gap => if gap > 0 then gap :: strides fuel (gap / 2) else []

/-- The search loop of `init_child`, bcast.cc:107-113: final `windowStart` and
`windowSize` for the rank at offset `o` from the root (`windowSplit` is always their sum). -/
def search (o : Nat) : Nat → Nat → Nat → Nat × Nat
  | 0, start, size => (start, size)
  | fuel + 1, start, size =>
    if size > 0 ∧ o ≠ start + size then
      search o fuel (if o > start + size then start + size else start) (size / 2)
    else (start, size)

/-- `windowStart`, `windowSize` at the end of the search. -/
def window (n o : Nat) : Nat × Nat := search o n 0 (roundNproc n / 2)

/-- Offset of the rank from the root, bcast.cc:154 (`(me - root_ + nproc) % nproc`). -/
def offset (n root me : Nat) : Nat := (me + n - root) % n

/-- The ranks a rank sends to: `init_root` (bcast.cc:57-71) and `init_internal` (:73-98). -/
def targets (n root me : Nat) : List Nat :=
  if me = root then
    ((strides n (roundNproc n / 2)).filter (· < n)).map fun gap => (root + gap) % n
  else
    let o := offset n root me
    if o % 2 = 0 then
      let (start, size) := window n o
      let stop := min n (start + size + size)
      (((strides n size).map (o + ·)).filter (· < stop)).map fun partner => (partner + root) % n
    else []

/-- The rank a rank other than the root receives from, bcast.cc:118. -/
def parent (n root me : Nat) : Nat := ((window n (offset n root me)).1 + root) % n

/-- Number of forwarding steps from the root to offset `o`; it only serves to number the
rounds in which actions can take place, the program itself has no such number (all messages
carry round 0). -/
def depth (n : Nat) : Nat → Nat → Nat
  | 0, _ => 0
  | fuel + 1, o => if o = 0 then 0 else depth n fuel (window n o).1 + 1

/-- `BinaryTreeBcastActor::initDag`, bcast.cc:141-157.  The root's sends have no dependency;
the sends of another rank depend on its receive. -/
def bcast (n root e : Nat) : Rounds V where
  procs := n
  T := n
  real := id
  tag := fun _ _ => 0
  send := fun p i q =>
    if i = depth n n (offset n root p) ∧ q ∈ targets n root p then
      some { buf := 0, off := 0, len := e } else none
  recv := fun p i q =>
    if p ≠ root ∧ i + 1 = depth n n (offset n root p) ∧ q = parent n root p then
      some { buf := 0, off := 0, len := e } else none
  loc := fun _ _ => none
  op := fun a _ => a

/-- The buffers at the start. -/
def bcastInit (buf : Nat → Nat → V) : Loc → V := fun l => buf l.1 l.2.2

end SST.Coll.Bcast
