import Verif.Apps.Prog
set_option autoImplicit false

/-!
# The workload halo3d-26

Model of sstmac/skeletons/halo3d-26/halo3d-26.cc.  Numbers are unbounded, where the code has `int`;
reading the options, the clock and printing are not modelled.
-/

namespace Verif.Apps.Halo

/-- The options, halo3d-26.cc:82-199, and the number of ranks. -/
structure Opts where
  size : Int
  pex : Int
  pey : Int
  pez : Int
  nx : Int
  ny : Int
  nz : Int
  repeats : Int
  vars : Int

/-- `get_position`, halo3d-26.cc:51-58: x, y and z. -/
def getPosition (o : Opts) (rank : Int) : Int × Int × Int :=
  let plane := rank.tmod (o.pex * o.pey)
  (if plane.tmod o.pex ≠ 0 then plane.tmod o.pex else 0, plane.tdiv o.pex, rank.tdiv (o.pex * o.pey))

/-- `convert_position_to_rank`, halo3d-26.cc:60-67. -/
def toRank (o : Opts) (x y z : Int) : Int :=
  let x := (x + o.pex).tmod o.pex
  let y := (y + o.pey).tmod o.pey
  let z := (z + o.pez).tmod o.pez
  z * (o.pex * o.pey) + y * o.pex + x

/-- The rank of a neighbour, halo3d-26.cc:221-283. -/
def neighbour (o : Opts) (rank dx dy dz : Int) : Int :=
  toRank o ((getPosition o rank).1 + dx) ((getPosition o rank).2.1 + dy) ((getPosition o rank).2.2 + dz)

/-- An exchange with a neighbour: where it is, the tag, the count. -/
structure Ex where
  dx : Int
  dy : Int
  dz : Int
  tag : Int
  count : Int

/-- The exchanges of an iteration in order, halo3d-26.cc:318-404: the faces, then the edges A to L. -/
def exchanges (o : Opts) : List Ex :=
  [⟨1, 0, 0, 1000, o.ny * o.nz * o.vars⟩, ⟨-1, 0, 0, 1000, o.ny * o.nz * o.vars⟩,
   ⟨0, 1, 0, 2000, o.nx * o.nz * o.vars⟩, ⟨0, -1, 0, 2000, o.nx * o.nz * o.vars⟩,
   ⟨0, 0, 1, 4000, o.nx * o.ny * o.vars⟩, ⟨0, 0, -1, 4000, o.nx * o.ny * o.vars⟩,
   ⟨-1, -1, 0, 8000, o.nz * o.vars⟩, ⟨0, -1, -1, 8000, o.nx * o.vars⟩, ⟨1, -1, 0, 8000, o.nz * o.vars⟩, ⟨0, -1, 1, 8000, o.nx * o.vars⟩,
   ⟨-1, 0, 1, 8000, o.ny * o.vars⟩, ⟨1, 0, 1, 8000, o.ny * o.vars⟩, ⟨-1, 0, -1, 8000, o.ny * o.vars⟩, ⟨1, 0, -1, 8000, o.ny * o.vars⟩,
   ⟨-1, 1, 0, 8000, o.nz * o.vars⟩, ⟨0, 1, 1, 8000, o.nx * o.vars⟩, ⟨1, 1, 0, 8000, o.nz * o.vars⟩, ⟨0, 1, -1, 8000, o.nx * o.vars⟩]

/-- The two calls of an exchange. -/
def calls (o : Opts) (rank : Int) (e : Ex) : List Instr :=
  [.irecv (neighbour o rank e.dx e.dy e.dz) e.tag e.count, .isend (neighbour o rank e.dx e.dy e.dz) e.tag e.count]

/-- One iteration, halo3d-26.cc:307-413: the sleep, the exchanges, `MPI_Waitall`. -/
def iteration (o : Opts) (rank : Int) : List Instr := .comp :: ((exchanges o).flatMap (calls o rank) ++ [.waitall])

/-- The members of `MPI_COMM_WORLD`. -/
def world (o : Opts) : List Int := (List.range o.size.toNat).map Int.ofNat

/-- `MPI_Barrier(MPI_COMM_WORLD)`. -/
def barrier (o : Opts) : Instr := .coll (world o) 0 0

/-- The blocks of the program of a rank: two barriers (halo3d-26.cc:201 and :209), the iterations, a barrier (:419). -/
def blocks (o : Opts) (rank : Int) : List (List Instr) :=
  [[barrier o], [barrier o]] ++ List.replicate o.repeats.toNat (iteration o rank) ++ [[barrier o]]

/-- The program; `none` is the abort of halo3d-26.cc:203-207. -/
def app (o : Opts) : Option World :=
  if o.pex * o.pey * o.pez ≠ o.size then none
  else some ⟨o.size, fun r => if 0 ≤ r ∧ r < o.size then (blocks o r).flatten else []⟩

end Verif.Apps.Halo
