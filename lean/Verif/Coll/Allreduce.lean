import Verif.Coll.Rounds
import Verif.Coll.Tree
/-!
The allreduce algorithm (sumi/allreduce.cc): recursive halving of the vector, then recursive
doubling, over virtual ranks.  A process is a virtual rank; a rank with two virtual ranks
runs both concurrently on its one result buffer (buffer 0).  Contiguous data types.
-/
set_option autoImplicit false
namespace SST.Coll.Allreduce
open SST.Coll

variable {V : Type}

/-- `isLowerPartner`, allreduce.cc:231-236. -/
def low (v gap : Nat) : Bool := (v / gap) % 2 == 0

/-- `virtual_partner`, allreduce.cc:142 and 147; in round `i` the gap is `2^i`. -/
def partner (v i : Nat) : Nat := if low v (2 ^ i) then v + 2 ^ i else v - 2 ^ i

/-- `my_buffer_offset` and `round_nelems` at the start of round `i`, allreduce.cc:136-192:
the region received in a round is the subarray of the next one. -/
def win (e v : Nat) : Nat → Nat × Nat
  | 0 => (0, e)
  | i + 1 =>
    let (off, len) := win e v i
    if low v (2 ^ i) then
      -- send_nelems = round_down, recv_offset = my_buffer_offset
      (off, len - len / 2)
    else
      -- send_nelems = round_up, recv_offset = my_buffer_offset + send_nelems
      (off + (len / 2 + len % 2), len - (len / 2 + len % 2))

/-- `send_offset` and `send_nelems` of round `i`, allreduce.cc:141-151. -/
def snd (e v i : Nat) : Nat × Nat :=
  let (off, len) := win e v i
  if low v (2 ^ i) then (off + len - len / 2, len / 2) else (off, len / 2 + len % 2)

/-- `isSharedRole(virtual_partner, num_roles, my_roles)`: the partner is the other virtual
rank of the same rank. -/
def shared (n v q : Nat) : Bool := ((rankMap n).realToVirtual ((rankMap n).virtualToReal v)).contains q

/-- The halving round that round `i` performs (`i < K`) or reverses
(`mirror_round`, allreduce.cc:195). -/
def mir (K i : Nat) : Nat := if i < K then i else 2 * K - 1 - i

/-- `WilkeAllreduceActor::initDag`, allreduce.cc:87-229, for every role of every rank.
Rounds `0..K-1` are the fan-out loop (:136-192), round `K+i` is iteration `i` of the fan-in
loop (:194-223), which reverses round `mirror_round = K-i-1`.  The round number in messages
is shifted by `2K` for odd virtual ranks except in the first and last round (:132-138,
:197-201). -/
def allreduce (n e : Nat) (op : V → V → V) : Rounds V where
  procs := (computeTree n).virtualNproc
  T := 2 * (computeTree n).log2nproc
  real := (rankMap n).virtualToReal
  tag := fun v i =>
    if i = 0 ∨ i + 1 = 2 * (computeTree n).log2nproc ∨ v % 2 = 0 then i
    else i + 2 * (computeTree n).log2nproc
  send := fun v i q =>
    let K := (computeTree n).log2nproc
    let j := mir K i
    if q = partner v j ∧ shared n v q = false then
      if i < K then some { buf := 0, off := (snd e v j).1, len := (snd e v j).2 }
      else some { buf := 0, off := (win e v (j + 1)).1, len := (win e v (j + 1)).2 }
    else none
  recv := fun v i q =>
    let K := (computeTree n).log2nproc
    let j := mir K i
    if q = partner v j ∧ shared n v q = false then
      if i < K then some { buf := 0, off := (win e v (j + 1)).1, len := (win e v (j + 1)).2, red := true }
      else some { buf := 0, off := (snd e v j).1, len := (snd e v j).2 }
    else none
  loc := fun _ _ => none
  op := op

/-- `WilkeAllreduceActor::initBuffers`, allreduce.cc:68-85: the contribution is copied into
the result buffer (unless it is already there). -/
def allreduceInit (contrib : Nat → Nat → V) : Loc → V := fun l => contrib l.1 l.2.2

end SST.Coll.Allreduce
