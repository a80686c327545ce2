import Verif.Coll.Allreduce
/-!
The reduce algorithm (sumi/reduce.cc): the halving phase of allreduce, a gather towards
virtual rank 0 that reverses it, and for a root other than 0 a last step in which ranks 0
and 1 send one half each to the root.  Contiguous data types.
-/
set_option autoImplicit false
namespace SST.Coll.Reduce
open SST.Coll Allreduce

variable {V : Type}

/-- The first virtual rank of a rank. -/
def lowRole (n r : Nat) : Nat := ((rankMap n).realToVirtual r).headD 0

/-- The last virtual rank of a rank. -/
def upRole (n r : Nat) : Nat := ((rankMap n).realToVirtual r).getLastD 0

/-- `nelems_split`, reduce.cc:255 (`divide_by_2_round_up`). -/
def split (e : Nat) : Nat := e / 2 + e % 2

/-- Whether virtual rank `v` takes part in round `i`: always in the halving rounds; in the
gather rounds (reduce.cc:201-245) only if it has not left (`virtual_me >= max_active_rank`,
with `max_active_rank = 2^(mirror_round+1)`), and the last of them is skipped when the root
is not 0 (`num_halving_rounds -= 1`). -/
def active (K root v i : Nat) : Bool :=
  i < K || (decide (v < 2 ^ (mir K i + 1)) && (root == 0 || mir K i != 0))

/-- The message of the last step, reduce.cc:253-287, as (sending process, receiving process,
offset, number of elements).  The program attaches these actions to ranks, after a join of
all their virtual ranks; which virtual rank's process carries them here makes no difference
to the dependencies (`join` below). -/
def finals (n root e : Nat) : List (Nat × Nat × Nat × Nat) :=
  if root = 0 then []
  else (lowRole n 0, lowRole n root, 0, split e) ::
    (if root = 1 then [] else [(upRole n 1, upRole n root, split e, e - split e)])

/-- The last step's transfer between two processes. -/
def final (n root e v q : Nat) : Option Xfer :=
  ((finals n root e).find? (fun f => f.1 == v && f.2.1 == q)).map
    fun f => { buf := 0, off := f.2.2.1, len := f.2.2.2 }

/-- `WilkeReduceActor::initDag`, reduce.cc:99-292.  The loops at :142-198 and :209-245 build
the same actions as the loops of allreduce (allreduce.cc:136-192, 194-223), up to the
virtual ranks that leave the gather. -/
def reduce (n root e : Nat) (op : V → V → V) : Rounds V where
  procs := (computeTree n).virtualNproc
  T := 2 * (computeTree n).log2nproc + 1
  real := (rankMap n).virtualToReal
  tag := fun v i =>
    if i = 2 * (computeTree n).log2nproc then 4 * (computeTree n).log2nproc - 1
    else (allreduce n e op).tag v i
  send := fun v i q =>
    if i < 2 * (computeTree n).log2nproc then
      if active (computeTree n).log2nproc root v i then (allreduce n e op).send v i q else none
    else final n root e v q
  recv := fun v i q =>
    if i < 2 * (computeTree n).log2nproc then
      if active (computeTree n).log2nproc root v i then (allreduce n e op).recv v i q else none
    else final n root e q v
  loc := fun _ _ => none
  op := op
  -- `final_join`: the last step waits for everything its rank does before
  join := fun a b => a.i = 2 * (computeTree n).log2nproc ∧
    (rankMap n).virtualToReal a.p = (rankMap n).virtualToReal b.p

/-- `WilkeReduceActor::initBuffers`, reduce.cc:78-97: the contribution is copied into the
result buffer (the caller's at the root, a temporary one elsewhere). -/
def reduceInit (contrib : Nat → Nat → V) : Loc → V := fun l => contrib l.1 l.2.2

end SST.Coll.Reduce
