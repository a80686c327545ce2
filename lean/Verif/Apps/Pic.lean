/-
The particle-in-cell skeleton: skeletons/pic/{pic.h,pic.cc,skeleton.cc}.

Fractions are exact ratios of integers, where the code has doubles.  Particles are counted, as in the skeleton, where
their contents are null.  Not modelled: the compute costs, `moveParticle` (deleted by its pragma), `int` overflow, the
timing of messages; the order in which `MPI_Waitany` reports sizes is a parameter.
-/
set_option autoImplicit false
namespace Verif.Apps.Pic

/-! ### Partners -/

/-- A position of a patch in the grid, or of a box in a patch. -/
abbrev Box := Nat × Nat × Nat

/-- `patchId`, pic.h:129-131. -/
def patchId (n c : Box) : Nat := c.2.2 * n.1 * n.2.1 + c.2.1 * n.1 + c.1

/-- The position of a patch: `init`, pic.cc:212-219. -/
def position (n : Box) (id : Nat) : Box := (id % (n.1 * n.2.1) % n.1, id % (n.1 * n.2.1) / n.1, id / (n.1 * n.2.1))

/-- The next coordinate, pic.cc:238, 252, 266. -/
def plus (n x : Nat) : Nat := (x + 1) % n

/-- The previous coordinate, pic.cc:245, 259, 273. -/
def minus (n x : Nat) : Nat := (x + n - 1) % n

/-- The rank that gets what leaves by a face: `init`, pic.cc:237-277. -/
def outgoing (n : Box) (id : Nat) (f : Fin 6) : Nat :=
  let c := position n id
  patchId n <| match f with
    | 0 => (minus n.1 c.1, c.2.1, c.2.2)
    | 1 => (plus n.1 c.1, c.2.1, c.2.2)
    | 2 => (c.1, minus n.2.1 c.2.1, c.2.2)
    | 3 => (c.1, plus n.2.1 c.2.1, c.2.2)
    | 4 => (c.1, c.2.1, minus n.2.2 c.2.2)
    | 5 => (c.1, c.2.1, plus n.2.2 c.2.2)

/-- The rank that sends what comes in at a face: `init`, pic.cc:237-277. -/
def incoming (n : Box) (id : Nat) (f : Fin 6) : Nat :=
  let c := position n id
  patchId n <| match f with
    | 0 => (plus n.1 c.1, c.2.1, c.2.2)
    | 1 => (minus n.1 c.1, c.2.1, c.2.2)
    | 2 => (c.1, plus n.2.1 c.2.1, c.2.2)
    | 3 => (c.1, minus n.2.1 c.2.1, c.2.2)
    | 4 => (c.1, c.2.1, plus n.2.2 c.2.2)
    | 5 => (c.1, c.2.1, minus n.2.2 c.2.2)

/-- The faces, in the order of the loops of `exchange`, pic.cc:106, 123. -/
def faces : List (Fin 6) := [0, 1, 2, 3, 4, 5]

/-! ### Messages

All sizes have one tag and all particles have another (pic.h:70-71): between two ranks, the sends and receives of a tag
are matched in the order in which they are posted. -/

/-- The faces whose sizes a rank `p` sends to a rank `q`, pic.cc:106-112. -/
def sizeSends (n : Box) (p q : Nat) : List (Fin 6) := faces.filter fun f => outgoing n p f = q

/-- The faces whose sizes a rank `q` receives from a rank `p`, pic.cc:123-128. -/
def sizeRecvs (n : Box) (q p : Nat) : List (Fin 6) := faces.filter fun f => incoming n q f = p

/-- The faces whose particles `p` sends to `q`: those that have any, pic.cc:115-120; `size p f` is what leaves `p` by
face `f`. -/
def partSends (n : Box) (size : Nat → Fin 6 → Nat) (p q : Nat) : List (Fin 6) :=
  faces.filter fun f => outgoing n p f = q && size p f > 0

/-- The faces whose particles `q` receives from `p`, with the number of particles expected, pic.cc:135-154; `order` is
the order in which sizes were reported by `MPI_Waitany`, and the size known for a face is that of its matched message. -/
def partRecvs (n : Box) (size : Nat → Fin 6 → Nat) (order : List (Fin 6)) (q p : Nat) : List (Fin 6) :=
  order.filter fun f => incoming n q f = p && size (incoming n q f) f > 0

/-! ### Boxes -/

/-- All boxes of a patch, in the order of the loops, skeleton.cc:233-235. -/
def boxes (od : Box) : List Box :=
  (List.range od.1).flatMap fun x => (List.range od.2.1).flatMap fun y => (List.range od.2.2).map fun z => (x, y, z)

/-- The sum over a list. -/
def total {α : Type} (l : List α) (f : α → Int) : Int := (l.map f).sum

/-- A value of a table is raised. -/
def raise {α : Type} [DecidableEq α] (t : α → Int) (a : α) (k : Int) : α → Int := fun b => if b = a then t b + k else t b

/-- Where particles of a box go. -/
inductive Dest where
  | face (f : Fin 6)
  | box (b : Box)
deriving DecidableEq

/-- The two ways of one dimension, skeleton.cc:238-250, 252-264, 266-278; `last` is the last index, `lo` and `hi` the
faces and `at' i` the box at another index of the dimension. -/
def ways (last i : Nat) (lo hi : Fin 6) (at' : Nat → Box) : List Dest :=
  if i = 0 ∧ i = last then [.face lo, .face hi]
  else if i = 0 then [.face lo, .box (at' (i + 1))]
  else if i = last then [.face hi, .box (at' (i - 1))]
  else [.box (at' (i + 1)), .box (at' (i - 1))]

/-- All ways out of a box, skeleton.cc:238-278. -/
def dests (od b : Box) : List Dest :=
  ways (od.1 - 1) b.1 0 1 (fun x => (x, b.2.1, b.2.2)) ++ ways (od.2.1 - 1) b.2.1 2 3 (fun y => (b.1, y, b.2.2)) ++
    ways (od.2.2 - 1) b.2.2 4 5 (fun z => (b.1, b.2.1, z))

/-- The tables of `skeletonFillOutgoing`, skeleton.cc:224-228. -/
structure Tables where
  occ : Box → Int
  increase : Box → Int
  moving : Fin 6 → Int

/-- One increment, skeleton.cc:238-278. -/
def Tables.add (t : Tables) (k : Int) : Dest → Tables
  | .face f => { t with moving := raise t.moving f k }
  | .box b => { t with increase := raise t.increase b k }

/-- The body of the loops, skeleton.cc:236-280; `moves` gives `boxMoves` from the occupation. -/
def Tables.visit (od : Box) (moves : Int → Int) (t : Tables) (b : Box) : Tables :=
  let k := moves (t.occ b)
  let t' := (dests od b).foldl (fun t d => t.add k d) t
  { t' with occ := raise t'.occ b (-(6 * k)) }

/-- A patch: `local.size()`, `boxOcc`, `migrateFraction` and `microIterScale`, pic.h:98-127. -/
structure Patch where
  size : Int
  occ : Box → Int
  num : Int
  den : Int
  scaleNum : Int
  scaleDen : Int

/-- `int boxMoves = frac * p.boxOcc[x][y][z]`, skeleton.cc:236-237. -/
def Patch.moves (p : Patch) (occ : Int) : Int := (p.num * occ).tdiv p.den

/-- The result of `skeletonFillOutgoing`. -/
structure Filled where
  patch : Patch
  out : Fin 6 → Int
  aborts : Bool

/-- `skeletonFillOutgoing`, skeleton.cc:223-323: more than half moving is an abort.  (The ratio to an empty patch is not
a number, and no abort, if nothing moves, infinite otherwise.) -/
def fill (od : Box) (p : Patch) : Filled :=
  let t := (boxes od).foldl (Tables.visit od p.moves) ⟨p.occ, fun _ => 0, fun _ => 0⟩
  let moving := total faces t.moving
  { patch := { p with size := p.size - moving, occ := fun b => t.occ b + t.increase b, num := p.num * p.scaleNum, den := p.den * p.scaleDen }
    out := t.moving
    aborts := 2 * moving > p.size }

/-- The boxes at a face, skeleton.cc:127-129, 142-145, 156-158, 169-172, 183-185, 196-199. -/
def faceBoxes (od : Box) (f : Fin 6) : List Box :=
  let line (n m : Nat) (b : Nat → Nat → Box) : List Box := (List.range n).flatMap fun i => (List.range m).map fun j => b i j
  match f with
    | 0 => line od.2.1 od.2.2 fun y z => (0, y, z)
    | 1 => line od.2.1 od.2.2 fun y z => (od.1 - 1, y, z)
    | 2 => line od.1 od.2.2 fun x z => (x, 0, z)
    | 3 => line od.1 od.2.2 fun x z => (x, od.2.1 - 1, z)
    | 4 => line od.1 od.2.1 fun x y => (x, y, 0)
    | 5 => line od.1 od.2.1 fun x y => (x, y, od.2.2 - 1)

/-- The divisor of a face, skeleton.cc:125, 140, 154, 167, 181, 194. -/
def area (od : Box) (f : Fin 6) : Nat :=
  match f with
    | 0 | 1 => od.2.1 * od.2.2
    | 2 | 3 => od.1 * od.2.2
    | 4 | 5 => od.1 * od.2.1

/-- One block of `skeletonPackMigrated`, skeleton.cc:122-135 and so on; the second component is `totalIncoming`. -/
def packFace (od : Box) (inc : Fin 6 → Int) (s : (Box → Int) × Int) (f : Fin 6) : (Box → Int) × Int :=
  if inc f > 0 then ((faceBoxes od f).foldl (fun o b => raise o b (inc f / area od f)) s.1, s.2 + inc f) else s

/-- `skeletonPackMigrated`, skeleton.cc:120-220. -/
def pack (od : Box) (p : Patch) (inc : Fin 6 → Int) : Patch :=
  let r := faces.foldl (packFace od inc) (p.occ, 0)
  { p with occ := r.1, size := p.size + r.2 }

/-! ### The system -/

/-- What a turn of the loop of `move` ends in. -/
inductive Turn where
  | abort
  | done (s : Nat → Patch)
  | again (s : Nat → Patch)

/-- The ranks, one for each patch, pic.cc:336-340. -/
def ranks (n : Box) : List Nat := List.range (n.1 * n.2.1 * n.2.2)

/-- All ranks fill, exchange and pack once, pic.cc:182-186, 202-203; the loop ends if nothing moved in the system,
pic.cc:131, 195.  What comes in at face `f` is what the partner sent by face `f`. -/
def turn (n od : Box) (s : Nat → Patch) : Turn :=
  let filled := fun p => fill od (s p)
  let s' := fun p => pack od (filled p).patch fun f => (filled (incoming n p f)).out f
  if (ranks n).any fun p => (filled p).aborts then .abort
  else if total (ranks n) (fun p => total faces (filled p).out) > 0 then .again s'
  else .done s'

/-- `move` after its initialisation, pic.cc:182-206, for a number of turns. -/
def move (n od : Box) : Nat → (Nat → Patch) → Turn
  | 0, s => .again s
  | k + 1, s =>
    match turn n od s with
    | .again s' => move n od k s'
    | r => r

/-! ### The initial state -/

/-- What `skeletonInitOverdecomposition` does with the boxes, skeleton.cc:99-108. -/
inductive Init where
  /-- A division by zero. -/
  | fails
  /-- A write behind the array. -/
  | overruns
  | ready (occ : Box → Int)

/-- `skeletonInitOverdecomposition`, skeleton.cc:90-108; `SKEL_MAX_OD` is 4, pic.h:67. -/
def initBoxes (od : Box) (ppc cells : Nat) : Init :=
  if od.1 * od.2.1 * od.2.2 = 0 then .fails
  else if (boxes od).any fun b => b.1 ≥ 4 || b.2.1 ≥ 4 || b.2.2 ≥ 4 then .overruns
  else .ready fun b => if b ∈ boxes od then ((ppc * cells) / (od.1 * od.2.1 * od.2.2) : Nat) else 0

/-! ### Fractions -/

/-- skeleton.cc:66-69. -/
def primes : List Nat := [1571, 2459, 2801, 3559, 3079, 3019, 6269]

/-- The index of `getSkeletonFraction`, skeleton.cc:73-76. -/
def fractionIndex (scramble : Bool) (od pos unit step : Nat) : Nat :=
  let i := od * pos / unit
  if scramble then primes[(i + step) % 7]! % 7 else i

/-- Seven times `getSkeletonFraction`, skeleton.cc:70-79. -/
def fraction7 (scramble : Bool) (low high : Int) (od pos unit step : Nat) : Int :=
  7 * low + (high - low) * fractionIndex scramble od pos unit step

end Verif.Apps.Pic
