import Verif.Apps.Prog
set_option autoImplicit false
/-
The decomposition, the link cells and the halo exchanges of the CoMD skeleton
(skeletons/CoMD/src/decomposition.c, linkCells.c, haloExchange.c, parallel.c).  Numbers are
unbounded; coordinates of atoms (real numbers) are not modelled.
-/
namespace Verif.Apps.Comd

/-- Three numbers along the axes. -/
structure V3 where
  x : Int
  y : Int
  z : Int
deriving DecidableEq, Repr

/-- `procCoord` of a rank, decomposition.c:26-31; `p` is `procGrid`. -/
def coord (p : V3) (r : Int) : V3 := ⟨r % p.x, (r / p.x) % p.y, (r / p.x) / p.y⟩

/-- `processorNum`, decomposition.c:57-66. -/
def processorNum (p : V3) (r : Int) (d : V3) : Int :=
  let c := coord p r
  let ix := (c.x + d.x + p.x) % p.x
  let iy := (c.y + d.y + p.y) % p.y
  let iz := (c.z + d.z + p.z) % p.z
  ix + p.x * (iy + p.y * iz)

/-- `nLocalBoxes`, linkCells.c:97; `g` is `gridSize`. -/
def nLocal (g : V3) : Int := g.x * g.y * g.z

/-- `nHaloBoxes`, linkCells.c:99-101. -/
def nHalo (g : V3) : Int := 2 * ((g.x + 2) * (g.y + g.z + 2) + (g.y * g.z))

/-- `nTotalBoxes`, linkCells.c:103. -/
def nTotal (g : V3) : Int := nLocal g + nHalo g

/-- The number of a cell in `getBoxFromTuple`, linkCells.c:204-245. -/
def boxNumber (g c : V3) : Int :=
  if c.z = g.z then
    nLocal g + 2 * g.z * g.y + 2 * g.z * (g.x + 2) + (g.x + 2) * (g.y + 2) + (g.x + 2) * (c.y + 1) + (c.x + 1)
  else if c.z = -1 then nLocal g + 2 * g.z * g.y + 2 * g.z * (g.x + 2) + (g.x + 2) * (c.y + 1) + (c.x + 1)
  else if c.y = g.y then nLocal g + 2 * g.z * g.y + g.z * (g.x + 2) + (g.x + 2) * c.z + (c.x + 1)
  else if c.y = -1 then nLocal g + 2 * g.z * g.y + c.z * (g.x + 2) + (c.x + 1)
  else if c.x = g.x then nLocal g + g.y * g.z + c.z * g.y + c.y
  else if c.x = -1 then nLocal g + c.z * g.y + c.y
  else c.x + g.x * c.y + g.x * g.y * c.z

/-- `getBoxFromTuple`, linkCells.c:204-251; `none` is a failed assertion. -/
def getBoxFromTuple (g c : V3) : Option Int :=
  if 0 ≤ boxNumber g c ∧ boxNumber g c < nTotal g then some (boxNumber g c) else none

/-- `getTuple`, linkCells.c:402-474. -/
def getTuple (g : V3) (b : Int) : V3 :=
  if b < nLocal g then ⟨b % g.x, (b / g.x) % g.y, (b / g.x) / g.y⟩
  else
    let ink := b - nLocal g
    if ink < 2 * g.y * g.z then
      if ink < g.y * g.z then ⟨0 - 1, 1 + ink % g.y - 1, 1 + ink / g.y - 1⟩
      else ⟨g.x + 1 - 1, 1 + (ink - g.y * g.z) % g.y - 1, 1 + (ink - g.y * g.z) / g.y - 1⟩
    else if ink < 2 * g.z * (g.y + g.x + 2) then
      let ink := ink - 2 * g.z * g.y
      if ink < (g.x + 2) * g.z then ⟨ink % (g.x + 2) - 1, 0 - 1, 1 + ink / (g.x + 2) - 1⟩
      else ⟨(ink - (g.x + 2) * g.z) % (g.x + 2) - 1, g.y + 1 - 1, 1 + (ink - (g.x + 2) * g.z) / (g.x + 2) - 1⟩
    else
      let ink := ink - 2 * g.z * (g.y + g.x + 2)
      if ink < (g.x + 2) * (g.y + 2) then ⟨ink % (g.x + 2) - 1, ink / (g.x + 2) - 1, 0 - 1⟩
      else ⟨(ink - (g.x + 2) * (g.y + 2)) % (g.x + 2) - 1, (ink - (g.x + 2) * (g.y + 2)) / (g.x + 2) - 1, g.z + 1 - 1⟩

/-- `for (int i=b; i<e; ++i)`. -/
def span (b e : Int) : List Int := (List.range (e - b).toNat).map fun (k : Nat) => b + (k : Int)

/-- The three nested loops over cells, haloExchange.c:349-352 (again at :494-497 and :543-546). -/
def cells (xb xe yb ye zb ze : Int) : List V3 :=
  (span xb xe).flatMap fun x => (span yb ye).flatMap fun y => (span zb ze).map fun z => ⟨x, y, z⟩

/-- `HaloFaceOrder`, haloExchange.c:48-50. -/
inductive Face
  | xm | xp | ym | yp | zm | zp
deriving DecidableEq, Repr

/-- The cells of `mkAtomCellList`, haloExchange.c:331-355. -/
def atomCells (g : V3) : Face → List V3
  | .xm => cells (-1) (-1 + 2) (-1) (g.y + 1) (-1) (g.z + 1)
  | .xp => cells (g.x + 1 - 2) (g.x + 1) (-1) (g.y + 1) (-1) (g.z + 1)
  | .ym => cells (-1) (g.x + 1) (-1) (-1 + 2) (-1) (g.z + 1)
  | .yp => cells (-1) (g.x + 1) (g.y + 1 - 2) (g.y + 1) (-1) (g.z + 1)
  | .zm => cells (-1) (g.x + 1) (-1) (g.y + 1) (-1) (-1 + 2)
  | .zp => cells (-1) (g.x + 1) (-1) (g.y + 1) (g.z + 1 - 2) (g.z + 1)

/-- `nCells` of the atom exchange, haloExchange.c:163-168. -/
def atomCount (g : V3) : Face → Int
  | .xm | .xp => 2 * (g.y + 2) * (g.z + 2)
  | .ym | .yp => 2 * (g.x + 2) * (g.z + 2)
  | .zm | .zp => 2 * (g.x + 2) * (g.y + 2)

/-- The cells of `mkForceSendCellList`, haloExchange.c:461-501. -/
def sendCells (g : V3) : Face → List V3
  | .xm => cells 0 1 0 g.y 0 g.z
  | .xp => cells (g.x - 1) g.x 0 g.y 0 g.z
  | .ym => cells (-1) (g.x + 1) 0 1 0 g.z
  | .yp => cells (-1) (g.x + 1) (g.y - 1) g.y 0 g.z
  | .zm => cells (-1) (g.x + 1) (-1) (g.y + 1) 0 1
  | .zp => cells (-1) (g.x + 1) (-1) (g.y + 1) (g.z - 1) g.z

/-- The cells of `mkForceRecvCellList`, haloExchange.c:510-550. -/
def recvCells (g : V3) : Face → List V3
  | .xm => cells (-1) 0 0 g.y 0 g.z
  | .xp => cells g.x (g.x + 1) 0 g.y 0 g.z
  | .ym => cells (-1) (g.x + 1) (-1) 0 0 g.z
  | .yp => cells (-1) (g.x + 1) g.y (g.y + 1) 0 g.z
  | .zm => cells (-1) (g.x + 1) (-1) (g.y + 1) (-1) 0
  | .zp => cells (-1) (g.x + 1) (-1) (g.y + 1) g.z (g.z + 1)

/-- `nCells` of the force exchange, haloExchange.c:224-229. -/
def forceCount (g : V3) : Face → Int
  | .xm | .xp => g.y * g.z
  | .ym | .yp => (g.x + 2) * g.z
  | .zm | .zp => (g.x + 2) * (g.y + 2)

/-- The number of cells in the capacity of the buffers of the atom exchange, haloExchange.c:150-155:
`maxSize*2`; the capacity is this times `MAXATOMS*sizeof(AtomMsg)`. -/
def atomCapacity (g : V3) : Int :=
  let size0 := (g.y + 2) * (g.z + 2)
  let size1 := (g.x + 2) * (g.z + 2)
  let size2 := (g.x + 2) * (g.y + 2)
  let maxSize := max size0 size1
  let _ := maxSize
  let maxSize := max size1 size2
  maxSize * 2

/-- The same of the force exchange, haloExchange.c:215-220. -/
def forceCapacity (g : V3) : Int :=
  let size0 := g.y * g.z
  let size1 := (g.x + 2) * g.z
  let size2 := (g.x + 2) * (g.y + 2)
  let maxSize := max size0 size1
  let _ := maxSize
  let maxSize := max size1 size2
  maxSize

/-- The axes. -/
inductive Axis
  | x | y | z
deriving DecidableEq, Repr

/-- `faceM = 2*iAxis`, haloExchange.c:283. -/
def Axis.faceM : Axis → Face
  | .x => .xm
  | .y => .ym
  | .z => .zm

/-- `faceP = faceM+1`, haloExchange.c:284. -/
def Axis.faceP : Axis → Face
  | .x => .xp
  | .y => .yp
  | .z => .zp

/-- `nbrRank`, haloExchange.c:262-267. -/
def nbrRank (p : V3) (r : Int) : Face → Int
  | .xm => processorNum p r ⟨-1, 0, 0⟩
  | .xp => processorNum p r ⟨1, 0, 0⟩
  | .ym => processorNum p r ⟨0, -1, 0⟩
  | .yp => processorNum p r ⟨0, 1, 0⟩
  | .zm => processorNum p r ⟨0, 0, -1⟩
  | .zp => processorNum p r ⟨0, 0, 1⟩

/-- `loadForceBuffer`, haloExchange.c:558-582: the contents of the cells of a list, one entry for a
cell; the atoms of a cell are one value. -/
def load {α : Type} (d : V3 → α) (l : List V3) : List α := l.map d

/-- `unloadForceBuffer`, haloExchange.c:590-615: the entries are stored in the cells of a list. -/
def unload {α : Type} (d : V3 → α) : List V3 → List α → V3 → α
  | c :: l, v :: vs => unload (fun e => if e = c then v else d e) l vs
  | _, _ => d

/-- `exchangeData` on all ranks, haloExchange.c:281-310: both buffers are loaded, what is sent through
the minus face comes in through the plus face of the neighbour and the other way round. -/
def exchangeData {α : Type} (p g : V3) (d : Int → V3 → α) (a : Axis) : Int → V3 → α := fun r =>
  let recvP := load (d (nbrRank p r a.faceP)) (sendCells g a.faceM)
  let recvM := load (d (nbrRank p r a.faceM)) (sendCells g a.faceP)
  unload (unload (d r) (recvCells g a.faceM) recvM) (recvCells g a.faceP) recvP

/-- `haloExchange`, haloExchange.c:249-253. -/
def haloExchange {α : Type} (p g : V3) (d : Int → V3 → α) : Int → V3 → α :=
  exchangeData p g (exchangeData p g (exchangeData p g d .x) .y) .z

/-- `sendReceiveParallel`, parallel.c:93-110: `MPI_Sendrecv` posts both and waits for both. -/
def sendReceive (n : Int) (dest : Int) (cap : Int) (src : Int) : List Instr := [.irecv src 0 cap, .isend dest 0 n, .waitall]

/-- The messages of `exchangeData`, haloExchange.c:300-301; `size k r f` is what rank `r` loads for
face `f` in the exchange number `k`, `cap k` the capacity. -/
def axisBlocks (p : V3) (size : Nat → Int → Face → Int) (cap : Nat → Int) (k : Nat) (r : Int) (a : Axis) : List (List Instr) :=
  [sendReceive (size k r a.faceM) (nbrRank p r a.faceM) (cap k) (nbrRank p r a.faceP),
   sendReceive (size k r a.faceP) (nbrRank p r a.faceP) (cap k) (nbrRank p r a.faceM)]

/-- The messages of `m` halo exchanges. -/
def blocks (p : V3) (size : Nat → Int → Face → Int) (cap : Nat → Int) (m : Nat) (r : Int) : List (List Instr) :=
  (List.range m).flatMap fun k => [Axis.x, .y, .z].flatMap (axisBlocks p size cap k r)

/-- The program of the halo exchanges alone; `none` is the assertion of decomposition.c:20. -/
def app (n : Int) (p : V3) (size : Nat → Int → Face → Int) (cap : Nat → Int) (m : Nat) : Option World :=
  if p.x * p.y * p.z ≠ n then none
  else some ⟨n, fun r => if 0 ≤ r ∧ r < n then (blocks p size cap m r).flatten else []⟩

end Verif.Apps.Comd
