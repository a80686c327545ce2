import Verif.Apps.Prog
set_option autoImplicit false
/-
Model of the communication of the skeleton of LULESH
(skeletons/lulesh2.0.3/lulesh-comm.cc:102-2023, lulesh-init.cc:385-430 and 732-794,
lulesh.cc:85-145, 1046-1079, 1165-1220, 1806-1846, 2547-2668, with `SEDOV_SYNC_POS_VEL_EARLY`
as in lulesh.h:67).

The code is a sequence of conditional blocks, one for each neighbour; here each function is the
table of its blocks in the order of the code.  Computations, packing of data and timers are not
modelled; integers are unbounded.
-/
namespace Verif.Apps.Lulesh

/-- The variables `rowMin` ... `planeMax`, lulesh-comm.cc:117-139. -/
inductive Cond
  | rowMin | rowMax | colMin | colMax | planeMin | planeMax
deriving DecidableEq, Repr

/-- Which counter a block uses: `pmsg`, `emsg` or `cmsg`. -/
inductive Lvl
  | plane | edge | corner
deriving DecidableEq, Repr

/-- The condition of a block: variables, whether `doRecv` or `doSend` is in it, and its part
of the function. -/
structure Block where
  conds : List Cond
  guard : Bool
  lvl : Lvl
deriving DecidableEq, Repr

/-- The count of a message without the number of fields: products of `dx`, `dy`, `dz`. -/
inductive Size
  | xy | xz | yz | x | y | z | one
deriving DecidableEq, Repr

/-- A block that posts a message; `a`, `b` and `c` are the factors of `tp*tp`, `tp` and 1 in the
other rank. -/
structure Post where
  block : Block
  a : Int
  b : Int
  c : Int
  size : Size
deriving DecidableEq, Repr

/-- The blocks of `CommRecv`, lulesh-comm.cc:147-395. -/
def recvTable : List Post :=
  [⟨⟨[.planeMin], true, .plane⟩, (-1), 0, 0, .xy⟩,
   ⟨⟨[.planeMax], false, .plane⟩, 1, 0, 0, .xy⟩,
   ⟨⟨[.rowMin], true, .plane⟩, 0, (-1), 0, .xz⟩,
   ⟨⟨[.rowMax], false, .plane⟩, 0, 1, 0, .xz⟩,
   ⟨⟨[.colMin], true, .plane⟩, 0, 0, (-1), .yz⟩,
   ⟨⟨[.colMax], false, .plane⟩, 0, 0, 1, .yz⟩,
   ⟨⟨[.rowMin, .colMin], true, .edge⟩, 0, (-1), (-1), .z⟩,
   ⟨⟨[.rowMin, .planeMin], true, .edge⟩, (-1), (-1), 0, .x⟩,
   ⟨⟨[.colMin, .planeMin], true, .edge⟩, (-1), 0, (-1), .y⟩,
   ⟨⟨[.rowMax, .colMax], false, .edge⟩, 0, 1, 1, .z⟩,
   ⟨⟨[.rowMax, .planeMax], false, .edge⟩, 1, 1, 0, .x⟩,
   ⟨⟨[.colMax, .planeMax], false, .edge⟩, 1, 0, 1, .y⟩,
   ⟨⟨[.rowMax, .colMin], false, .edge⟩, 0, 1, (-1), .z⟩,
   ⟨⟨[.rowMin, .planeMax], false, .edge⟩, 1, (-1), 0, .x⟩,
   ⟨⟨[.colMin, .planeMax], false, .edge⟩, 1, 0, (-1), .y⟩,
   ⟨⟨[.rowMin, .colMax], true, .edge⟩, 0, (-1), 1, .z⟩,
   ⟨⟨[.rowMax, .planeMin], true, .edge⟩, (-1), 1, 0, .x⟩,
   ⟨⟨[.colMax, .planeMin], true, .edge⟩, (-1), 0, 1, .y⟩,
   ⟨⟨[.rowMin, .colMin, .planeMin], true, .corner⟩, (-1), (-1), (-1), .one⟩,
   ⟨⟨[.rowMin, .colMin, .planeMax], false, .corner⟩, 1, (-1), (-1), .one⟩,
   ⟨⟨[.rowMin, .colMax, .planeMin], true, .corner⟩, (-1), (-1), 1, .one⟩,
   ⟨⟨[.rowMin, .colMax, .planeMax], false, .corner⟩, 1, (-1), 1, .one⟩,
   ⟨⟨[.rowMax, .colMin, .planeMin], true, .corner⟩, (-1), 1, (-1), .one⟩,
   ⟨⟨[.rowMax, .colMin, .planeMax], false, .corner⟩, 1, 1, (-1), .one⟩,
   ⟨⟨[.rowMax, .colMax, .planeMin], true, .corner⟩, (-1), 1, 1, .one⟩,
   ⟨⟨[.rowMax, .colMax, .planeMax], false, .corner⟩, 1, 1, 1, .one⟩]

/-- The blocks of `CommSend`, lulesh-comm.cc:447-936. -/
def sendTable : List Post :=
  [⟨⟨[.planeMin], false, .plane⟩, (-1), 0, 0, .xy⟩,
   ⟨⟨[.planeMax], true, .plane⟩, 1, 0, 0, .xy⟩,
   ⟨⟨[.rowMin], false, .plane⟩, 0, (-1), 0, .xz⟩,
   ⟨⟨[.rowMax], true, .plane⟩, 0, 1, 0, .xz⟩,
   ⟨⟨[.colMin], false, .plane⟩, 0, 0, (-1), .yz⟩,
   ⟨⟨[.colMax], true, .plane⟩, 0, 0, 1, .yz⟩,
   ⟨⟨[.rowMin, .colMin], false, .edge⟩, 0, (-1), (-1), .z⟩,
   ⟨⟨[.rowMin, .planeMin], false, .edge⟩, (-1), (-1), 0, .x⟩,
   ⟨⟨[.colMin, .planeMin], false, .edge⟩, (-1), 0, (-1), .y⟩,
   ⟨⟨[.rowMax, .colMax], true, .edge⟩, 0, 1, 1, .z⟩,
   ⟨⟨[.rowMax, .planeMax], true, .edge⟩, 1, 1, 0, .x⟩,
   ⟨⟨[.colMax, .planeMax], true, .edge⟩, 1, 0, 1, .y⟩,
   ⟨⟨[.rowMax, .colMin], true, .edge⟩, 0, 1, (-1), .z⟩,
   ⟨⟨[.rowMin, .planeMax], true, .edge⟩, 1, (-1), 0, .x⟩,
   ⟨⟨[.colMin, .planeMax], true, .edge⟩, 1, 0, (-1), .y⟩,
   ⟨⟨[.rowMin, .colMax], false, .edge⟩, 0, (-1), 1, .z⟩,
   ⟨⟨[.rowMax, .planeMin], false, .edge⟩, (-1), 1, 0, .x⟩,
   ⟨⟨[.colMax, .planeMin], false, .edge⟩, (-1), 0, 1, .y⟩,
   ⟨⟨[.rowMin, .colMin, .planeMin], false, .corner⟩, (-1), (-1), (-1), .one⟩,
   ⟨⟨[.rowMin, .colMin, .planeMax], true, .corner⟩, 1, (-1), (-1), .one⟩,
   ⟨⟨[.rowMin, .colMax, .planeMin], false, .corner⟩, (-1), (-1), 1, .one⟩,
   ⟨⟨[.rowMin, .colMax, .planeMax], true, .corner⟩, 1, (-1), 1, .one⟩,
   ⟨⟨[.rowMax, .colMin, .planeMin], false, .corner⟩, (-1), 1, (-1), .one⟩,
   ⟨⟨[.rowMax, .colMin, .planeMax], true, .corner⟩, 1, 1, (-1), .one⟩,
   ⟨⟨[.rowMax, .colMax, .planeMin], false, .corner⟩, (-1), 1, 1, .one⟩,
   ⟨⟨[.rowMax, .colMax, .planeMax], true, .corner⟩, 1, 1, 1, .one⟩]

/-- The blocks of `CommSBN`, lulesh-comm.cc:987-1404. -/
def sbnTable : List Block :=
  [⟨[.planeMin], false, .plane⟩,
   ⟨[.planeMax], false, .plane⟩,
   ⟨[.rowMin], false, .plane⟩,
   ⟨[.rowMax], false, .plane⟩,
   ⟨[.colMin], false, .plane⟩,
   ⟨[.colMax], false, .plane⟩,
   ⟨[.rowMin, .colMin], false, .edge⟩,
   ⟨[.rowMin, .planeMin], false, .edge⟩,
   ⟨[.colMin, .planeMin], false, .edge⟩,
   ⟨[.rowMax, .colMax], false, .edge⟩,
   ⟨[.rowMax, .planeMax], false, .edge⟩,
   ⟨[.colMax, .planeMax], false, .edge⟩,
   ⟨[.rowMax, .colMin], false, .edge⟩,
   ⟨[.rowMin, .planeMax], false, .edge⟩,
   ⟨[.colMin, .planeMax], false, .edge⟩,
   ⟨[.rowMin, .colMax], false, .edge⟩,
   ⟨[.rowMax, .planeMin], false, .edge⟩,
   ⟨[.colMax, .planeMin], false, .edge⟩,
   ⟨[.rowMin, .colMin, .planeMin], false, .corner⟩,
   ⟨[.rowMin, .colMin, .planeMax], false, .corner⟩,
   ⟨[.rowMin, .colMax, .planeMin], false, .corner⟩,
   ⟨[.rowMin, .colMax, .planeMax], false, .corner⟩,
   ⟨[.rowMax, .colMin, .planeMin], false, .corner⟩,
   ⟨[.rowMax, .colMin, .planeMax], false, .corner⟩,
   ⟨[.rowMax, .colMax, .planeMin], false, .corner⟩,
   ⟨[.rowMax, .colMax, .planeMax], false, .corner⟩]

/-- The blocks of `CommSyncPosVel`, lulesh-comm.cc:1463-1856. -/
def posVelTable : List Block :=
  [⟨[.planeMin], true, .plane⟩,
   ⟨[.planeMax], false, .plane⟩,
   ⟨[.rowMin], true, .plane⟩,
   ⟨[.rowMax], false, .plane⟩,
   ⟨[.colMin], true, .plane⟩,
   ⟨[.colMax], false, .plane⟩,
   ⟨[.rowMin, .colMin], true, .edge⟩,
   ⟨[.rowMin, .planeMin], true, .edge⟩,
   ⟨[.colMin, .planeMin], true, .edge⟩,
   ⟨[.rowMax, .colMax], false, .edge⟩,
   ⟨[.rowMax, .planeMax], false, .edge⟩,
   ⟨[.colMax, .planeMax], false, .edge⟩,
   ⟨[.rowMax, .colMin], false, .edge⟩,
   ⟨[.rowMin, .planeMax], false, .edge⟩,
   ⟨[.colMin, .planeMax], false, .edge⟩,
   ⟨[.rowMin, .colMax], true, .edge⟩,
   ⟨[.rowMax, .planeMin], true, .edge⟩,
   ⟨[.colMax, .planeMin], true, .edge⟩,
   ⟨[.rowMin, .colMin, .planeMin], true, .corner⟩,
   ⟨[.rowMin, .colMin, .planeMax], false, .corner⟩,
   ⟨[.rowMin, .colMax, .planeMin], true, .corner⟩,
   ⟨[.rowMin, .colMax, .planeMax], false, .corner⟩,
   ⟨[.rowMax, .colMin, .planeMin], true, .corner⟩,
   ⟨[.rowMax, .colMin, .planeMax], false, .corner⟩,
   ⟨[.rowMax, .colMax, .planeMin], true, .corner⟩,
   ⟨[.rowMax, .colMax, .planeMax], false, .corner⟩]

/-- The blocks of `CommMonoQ`, lulesh-comm.cc:1916-2020. -/
def monoQTable : List Block :=
  [⟨[.planeMin], false, .plane⟩,
   ⟨[.planeMax], false, .plane⟩,
   ⟨[.rowMin], false, .plane⟩,
   ⟨[.rowMax], false, .plane⟩,
   ⟨[.colMin], false, .plane⟩,
   ⟨[.colMax], false, .plane⟩]

/-- `InitMeshDecomp` for a domain, lulesh-init.cc:777-790; the division of the domains among as
many ranks gives `myDom = myRank`. -/
structure Pos where
  col : Int
  row : Int
  plane : Int
deriving DecidableEq, Repr

/-- `col`, `row` and `plane` of a rank, lulesh-init.cc:777-790. -/
def pos (tp r : Int) : Pos :=
  let n := tp * tp * tp
  let remainder := n % n
  let myDom := if r < remainder then r * (1 + n / n) else remainder * (1 + n / n) + (r - remainder) * (n / n)
  ⟨myDom % tp, (myDom / tp) % tp, myDom / (tp * tp)⟩

/-- The variables, lulesh-comm.cc:117-139 (again at :419-440, :960-980, :1424-1446 and
:1880-1906). -/
def holds (tp : Int) (p : Pos) : Cond → Bool
  | .rowMin => p.row != 0
  | .rowMax => p.row != tp - 1
  | .colMin => p.col != 0
  | .colMax => p.col != tp - 1
  | .planeMin => p.plane != 0
  | .planeMax => p.plane != tp - 1

/-- A block is executed. -/
def Block.runs (tp : Int) (p : Pos) (flag planeOnly : Bool) (b : Block) : Bool :=
  b.conds.all (holds tp p) && (!b.guard || flag) && (!planeOnly || b.lvl == .plane)

/-- The count without the number of fields. -/
def Size.eval (dx dy dz : Nat) : Size → Nat
  | .xy => dx * dy
  | .xz => dx * dz
  | .yz => dy * dz
  | .x => dx
  | .y => dy
  | .z => dz
  | .one => 1

/-- The arguments of a pair of calls of `CommRecv` and `CommSend`. -/
structure Exchange where
  tag : Int
  fields : Nat
  dx : Nat
  dy : Nat
  dz : Nat
  flag : Bool
  planeOnly : Bool
deriving DecidableEq, Repr

/-- The count of a message. -/
def Exchange.count (x : Exchange) (e : Post) : Nat := e.size.eval x.dx x.dy x.dz * x.fields

/-- The rank at the other end of a message. -/
def Post.other (tp r : Int) (e : Post) : Int := r + e.a * (tp * tp) + e.b * tp + e.c

/-- The blocks of a table that a rank executes. -/
def active (tp r : Int) (x : Exchange) (t : List Post) : List Post :=
  t.filter fun e => e.block.runs tp (pos tp r) x.flag x.planeOnly

/-- `CommRecv`, lulesh-comm.cc:102-396. -/
def commRecv (tp : Int) (x : Exchange) (r : Int) : List Instr :=
  (active tp r x recvTable).map fun e => .irecv (e.other tp r) x.tag (x.count e)

/-- `CommSend`, lulesh-comm.cc:400-939, without its `MPI_Waitall`. -/
def commSend (tp : Int) (x : Exchange) (r : Int) : List Instr :=
  (active tp r x sendTable).map fun e => .isend (e.other tp r) x.tag (x.count e)

/-- The request number and the place in the buffer of each executed block, from the counters
`pmsg`, `emsg` and `cmsg` (lulesh-comm.cc:149-393 and the same in the other functions);
`P` is `maxPlaneComm`, `E` is `maxEdgeComm`, `pad` is `CACHE_COHERENCE_PAD_REAL`. -/
def layout (P E pad : Nat) : List Block → Nat → Nat → Nat → List (List Cond × Nat × Nat)
  | [], _, _, _ => []
  | b :: l, p, e, c =>
    match b.lvl with
    | .plane => (b.conds, p, p * P) :: layout P E pad l (p + 1) e c
    | .edge => (b.conds, p + e, p * P + e * E) :: layout P E pad l p (e + 1) c
    | .corner => (b.conds, p + e + c, p * P + e * E + c * pad) :: layout P E pad l p e (c + 1)

/-- The requests and buffers of `CommRecv` or `CommSend`. -/
def posted (P E pad : Nat) (tp r : Int) (x : Exchange) (t : List Post) : List (List Cond × Nat × Nat) :=
  layout P E pad ((active tp r x t).map (·.block)) 0 0 0

/-- The requests that are waited for and the buffers that are read by a function that takes the
data in; `flag` is its local `doRecv`. -/
def taken (P E pad : Nat) (tp r : Int) (flag : Bool) (t : List Block) : List (List Cond × Nat × Nat) :=
  layout P E pad (t.filter fun b => b.runs tp (pos tp r) flag false) 0 0 0

/-- A flag as a number, lulesh-init.cc:395-400. -/
def bit (b : Bool) : Nat := if b then 1 else 0

/-- `comBufSize` of `SetupCommBuffers`, lulesh-init.cc:404-428; `PS` is `m_maxPlaneSize`, `ES` is
`m_maxEdgeSize`. -/
def comBufSize (PS ES pad : Nat) (tp : Int) (p : Pos) : Nat :=
  let h := holds tp p
  let rn := h .rowMin; let rx := h .rowMax; let cn := h .colMin; let cx := h .colMax; let pn := h .planeMin; let px := h .planeMax
  (bit rn + bit rx + bit cn + bit cx + bit pn + bit px) * PS * 6 +
  (bit (rn && cn) + bit (rn && pn) + bit (cn && pn) + bit (rx && cx) + bit (rx && px) + bit (cx && px) +
   bit (rx && cn) + bit (rn && px) + bit (cn && px) + bit (rn && cx) + bit (rx && pn) + bit (cx && pn)) * ES * 6 +
  (bit (rn && cn && pn) + bit (rn && cn && px) + bit (rn && cx && pn) + bit (rn && cx && px) +
   bit (rx && cn && pn) + bit (rx && cn && px) + bit (rx && cx && pn) + bit (rx && cx && px)) * pad

/-- `CACHE_ALIGN_REAL`, lulesh.h:149-150, for a power of two `pad`. -/
def cacheAlign (pad n : Nat) : Nat := (n + (pad - 1)) / pad * pad

/-- The exchange of nodal masses, lulesh.cc:2605-2611. -/
def massX (nx : Nat) : Exchange := ⟨1024, 1, nx + 1, nx + 1, nx + 1, true, false⟩
/-- The exchange of forces, lulesh.cc:1050-1077. -/
def forceX (nx : Nat) : Exchange := ⟨1024, 3, nx + 1, nx + 1, nx + 1, true, false⟩
/-- The exchange of positions and velocities, lulesh.cc:1182-1217. -/
def posVelX (nx : Nat) : Exchange := ⟨2048, 6, nx + 1, nx + 1, nx + 1, false, false⟩
/-- The exchange of gradients, lulesh.cc:1823-1846. -/
def monoQX (nx : Nat) : Exchange := ⟨3072, 3, nx, nx, nx, true, true⟩

/-- An exchange: receives, computation, sends, `MPI_Waitall` on the sends (lulesh-comm.cc:938) and
`MPI_Wait` on each receive; the waits follow each other without other calls and are one here. -/
def exchange (tp : Int) (x : Exchange) (r : Int) : List Instr :=
  (commRecv tp x r ++ .comp :: commSend tp x r) ++ [.waitall]

/-- The members of `MPI_COMM_WORLD`. -/
def world (n : Int) : List Int := (List.range n.toNat).map Int.ofNat

/-- A step: `MPI_Allreduce` of the time step but in the first (lulesh.cc:95-114), forces, positions
and velocities, gradients if there are elements (lulesh.cc:1816). -/
def cycle (tp : Int) (nx : Nat) (r : Int) (k : Nat) : List (List Instr) :=
  (if k = 0 then [] else [[.coll (world (tp * tp * tp)) 1 1]]) ++
  [exchange tp (forceX nx) r, exchange tp (posVelX nx) r] ++
  (if nx * nx * nx = 0 then [] else [exchange tp (monoQX nx) r])

/-- The program of a rank, lulesh.cc:2605-2650; `its` is the number of steps, which all ranks
decide alike from the reduced time step. -/
def blocks (tp : Int) (nx its : Nat) (r : Int) : List (List Instr) :=
  [exchange tp (massX nx) r, [.coll (world (tp * tp * tp)) 0 0]] ++
  (List.range its).flatMap (cycle tp nx r) ++ [[.coll (world (tp * tp * tp)) 2 1]]

/-- The program for `n` ranks; `root` is the rounded cube root, lulesh-init.cc:741-749, and `none` is
the abort. -/
def app (n root : Int) (nx its : Nat) : Option World :=
  if root * root * root ≠ n then none
  else some ⟨n, fun r => if 0 ≤ r ∧ r < n then (blocks root nx its r).flatten else []⟩

end Verif.Apps.Lulesh
