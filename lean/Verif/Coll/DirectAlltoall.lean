import Verif.Coll.Dag
/-!
The direct exchange: `DirectAlltoallvActor` (sumi/alltoallv.cc), which runs every
`MPI_Alltoallv` (`CollectiveEngine::alltoallv`, sim_transport.cc:822-829), and
`DirectAlltoallActor` (sumi/alltoall.cc:235-311), which runs `MPI_Alltoall` when the parameter
`alltoall` asks for it.  Both build the same graph; they differ in the message sizes.
-/
set_option autoImplicit false
namespace SST.Coll.Direct
open SST.Coll

/-- A send or receive of rank `p` with partner `q`; all are in round 0 (alltoallv.cc:108-121). -/
structure XAct where
  p : Nat
  k : Kind
  q : Nat
deriving DecidableEq, Repr

/-- `(dom_me_ + dom_nproc_ + stride*stride_direction) % dom_nproc_`, alltoallv.cc:84 and
alltoall.cc:253; C++ remainder, the dividend is not negative for strides below `n`. -/
def partner (n me : Nat) (dir : Int) (stride : Nat) : Nat := (((me : Int) + n + stride * dir).tmod n).toNat

/-- `(partner + dom_nproc_ - num_initial*stride_direction) % dom_nproc_`, alltoallv.cc:89. -/
def prevPartner (n p num : Nat) (dir : Int) : Nat := (((p : Int) + n - num * dir).tmod n).toNat

/-- `addAction`, alltoallv.cc:77-93 and alltoall.cc:246-262: the action of one stride, with the
action it waits for. -/
def addAction (n me : Nat) (k : Kind) (dir : Int) (num stride : Nat) : Option XAct × XAct :=
  if stride < num then (none, ⟨me, k, partner n me dir stride⟩)
  else (some ⟨me, k, prevPartner n (partner n me dir stride) num dir⟩, ⟨me, k, partner n me dir stride⟩)

/-- The calls made by `initDag`, alltoallv.cc:123-129 and alltoall.cc:288-294 (`num_initial = 3`). -/
def initDag (n me : Nat) : List (Option XAct × XAct) :=
  (List.range n).flatMap fun i => [addAction n me .recv (-1) 3 i, addAction n me .send 1 3 i]

/-- The user's send buffer and receive buffer of each rank. -/
inductive Loc where
  | src (p x : Nat)
  | res (p x : Nat)
deriving DecidableEq, Repr

/-- The sizes given to the actions: `send->nelems` and `recv->nelems`. -/
structure Sizes where
  /-- elements sent by `p` to `q` -/
  send : Nat → Nat → Nat
  /-- elements expected by `p` from `q` -/
  recv : Nat → Nat → Nat

/-- `DirectAlltoallvActor::initDag`, alltoallv.cc:108-121: the counts of the caller. -/
def alltoallvSizes (sendcounts recvcounts : Nat → Nat → Nat) : Sizes := ⟨sendcounts, recvcounts⟩

/-- `DirectAlltoallActor::initDag`, alltoall.cc:275-287: `nelems_ * i` for partner `i`. -/
def alltoallSizes (m : Nat) : Sizes := ⟨fun _ i => m * i, fun _ i => m * i⟩

/-- The effect of a receive.  All offsets are 0 (`send_offset` and `recv_offset` are never
advanced, alltoallv.cc:105-121).  A message from the rank itself is ignored (`dataRecved`,
collective_actor.cc:595-600).  Elements beyond the payload are left as they are (in the program
they would be read past the end of the message). -/
def recvEff {V : Type} (z : Sizes) (a : XAct) (pl : List V) (M : Loc → V) : Loc → V
  | .res p x => if p = a.p ∧ a.q ≠ a.p ∧ x < z.recv a.p a.q then pl[x]?.getD (M (.res p x)) else M (.res p x)
  | .src p x => M (.src p x)

/-- All ranks.  A send is `in_place`: it reads the receive buffer (`getSendBuffer`,
collective_actor.cc:673-684), and so does the rendezvous get from it. -/
def sys {V : Type} (n : Nat) (z : Sizes) : Sys XAct Loc V (Nat × Nat) where
  all := (List.range n).flatMap fun p => (initDag n p).map (·.2)
  kind := XAct.k
  peer := fun a => ⟨a.q, if a.k = .send then .recv else .send, a.p⟩
  key := fun a => if a.k = .send then (a.q, a.p) else (a.p, a.q)
  dep := fun a b => (some b, a) ∈ initDag n a.p
  reads := fun a => if a.k = .send then (List.range (z.send a.p a.q)).map (.res a.p ·) else []
  writes := fun a l => a.k = .recv ∧ ∃ x, l = .res a.p x
  touch := fun a l => ∃ x, l = .res a.p x
  eff := fun a pl M => if a.k = .recv then recvEff z a pl M else M

end SST.Coll.Direct
