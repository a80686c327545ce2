/-
Rank translation of the communicators of the communication library (sumi/communicator.h, communicator.cc).
Ranks are `int`s, taken as integers; `%` of C++ truncates towards zero (`Int.tmod`).
-/
set_option autoImplicit false
namespace SST.Sumi

/-- The kinds of communicators, communicator.h:138-321. -/
inductive Comm
  /-- `GlobalCommunicator`: the number of ranks of the transport. -/
  | global (n : Nat)
  /-- `MapCommunicator`: `local_to_global_`. -/
  | map (l : List Int)
  /-- `ShiftedCommunicator`: the communicator and `left_shift`. The class as it stands does not define
  `globalRankSetIntersection` and so cannot be instantiated without being derived from. -/
  | shifted (c : Comm) (shift : Int)
  /-- `IndexCommunicator`: `nproc_` and `proc_list_`. -/
  | index (n : Nat) (l : List Int)
  /-- `RotateCommunicator`: `nproc_` and `shift_`. -/
  | rotate (n : Nat) (shift : Int)
  /-- `SubrangeCommunicator`: `start_` and `nproc_`. -/
  | subrange (start : Int) (n : Nat)

/-- The entries of `global_to_local_`, in the order in which the constructor inserts them, communicator.cc:160-166;
an earlier entry with the same key is overwritten. -/
def lookup (l : List Int) (g : Int) : Option Int :=
  l.zipIdx.foldl (fun (o : Option Int) (p : Int × Nat) => if p.1 = g then some (p.2 : Int) else o) none

/-- The keys of `global_to_local_` (in another order), communicator.cc:164-166. -/
def keys : List Int → List Int
  | [] => []
  | x :: xs => if x ∈ xs then keys xs else x :: keys xs

/-- `nproc()`, communicator.h:168, 194, 231, 265, 299, communicator.cc:143-147. -/
def Comm.nproc : Comm → Nat
  | .global n => n
  | .map l => (keys l).length
  | .shifted c _ => c.nproc
  | .index n _ => n
  | .rotate n _ => n
  | .subrange _ n => n

/-- An element of a vector. `none`: outside the vector. -/
def at? (l : List Int) (r : Int) : Option Int := if 0 ≤ r then l[r.toNat]? else none

/-- `a % b` of C++. `none`: division by zero. -/
def cmod (a b : Int) : Option Int := if b = 0 then none else some (a.tmod b)

/-- `commToGlobalRank`, communicator.h:198, 235, 269, 303, communicator.cc:149-153, 169-174. `none`: undefined. -/
def Comm.toGlobal : Comm → Int → Option Int
  | .global _, r => some r
  | .map l, r => at? l r
  | .shifted c s, r => (cmod (r + s) c.nproc).bind c.toGlobal
  | .index _ l, r => at? l r
  | .rotate n s, r => cmod (r + s) n
  | .subrange start _, r => some (r + start)

/-- `globalToCommRank`, communicator.h:203, 273, 307, communicator.cc:155-159, 176-185, 200-205. `none`: undefined, or
the simulation aborts. -/
def Comm.toComm : Comm → Int → Option Int
  | .global _, g => some g
  | .map l, g => lookup l g
  | .shifted c s, g => (c.toComm g).bind fun r => cmod (r - s + c.nproc) c.nproc
  | .index _ _, _ => none
  | .rotate n s, g => cmod (g + n - s) n
  | .subrange start _, g => some (g - start)

/-- `myCommRank()` of a `RotateCommunicator`, communicator.h:259-263: the base class is constructed, with
`globalToCommRank(my_global_rank)`, before `nproc_` and `shift_` get their values. `n0`, `s0`: what the memory
held. -/
def rotateMyRank (n0 s0 g : Int) : Option Int := cmod (g + n0 - s0) n0

/-- `myCommRank()` of a `SubrangeCommunicator`, communicator.h:293-297, likewise. -/
def subrangeMyRank (start0 g : Int) : Int := g - start0

/-- `myCommRank()` of a `ShiftedCommunicator`, communicator.h:187-192; `me`: the rank in the inner one. -/
def shiftedMyRank (c : Comm) (shift me : Int) : Option Int := cmod (me - shift + c.nproc) c.nproc

/-- `globalRankSetIntersection`, communicator.h:154, communicator.cc:187-198, 207-231; sets of ranks are lists.
`none`: the simulation aborts. -/
def Comm.intersect : Comm → List Int → Option (List Int)
  | .global _, nbrs => some nbrs
  | .map l, nbrs => some ((keys l).filter fun r => decide (r ∈ nbrs))
  | .shifted _ _, _ => none
  | .index _ l, nbrs => some (l.filter fun r => decide (r ∈ nbrs))
  | .rotate _ _, _ => none
  | .subrange start n, nbrs => some (nbrs.filter fun r => decide (start ≤ r) && decide (r < start + n))

end SST.Sumi
