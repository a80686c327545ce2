import Verif.Apps.Prog
set_option autoImplicit false

/-!
# The workload sweep3d

Model of sstmac/skeletons/sweep3d/sweep3d.cc.  Numbers are unbounded, where the code has `int`; reading
the options, the clock and printing are not modelled.
-/

namespace Verif.Apps.Sweep

/-- The options, sweep3d.cc:82-127, and the number of ranks. -/
structure Opts where
  size : Int
  pex : Int
  pey : Int
  nx : Int
  ny : Int
  nz : Int
  kba : Int
  repeats : Int
  vars : Int

/-- `myX` of `get_position`, sweep3d.cc:52-56. -/
def posX (o : Opts) (rank : Int) : Int := rank.tmod o.pex

/-- `myY`. -/
def posY (o : Opts) (rank : Int) : Int := rank.tdiv o.pex

/-- `xUp`, sweep3d.cc:180; -1 for none. -/
def xUp (o : Opts) (rank : Int) : Int := if posX o rank ≠ o.pex - 1 then rank + 1 else -1

/-- `xDown`, sweep3d.cc:181. -/
def xDown (o : Opts) (rank : Int) : Int := if posX o rank ≠ 0 then rank - 1 else -1

/-- `yUp`, sweep3d.cc:183. -/
def yUp (o : Opts) (rank : Int) : Int := if posY o rank ≠ o.pey - 1 then rank + o.pex else -1

/-- `yDown`, sweep3d.cc:184. -/
def yDown (o : Opts) (rank : Int) : Int := if posY o rank ≠ 0 then rank - o.pex else -1

/-- One step of a sweep: receive from `inX` and `inY`, compute, send to `outX` and `outY`, sweep3d.cc:211-233, :237-259, :263-285
and :289-311.  The count of the receive in y is made of `ny`, that of the send in y of `nx`. -/
def stepOf (o : Opts) (tag inX inY outX outY : Int) : List Instr :=
  (if inX > -1 then [.recv inX tag (o.nx * o.kba * o.vars)] else []) ++
  (if inY > -1 then [.recv inY tag (o.ny * o.kba * o.vars)] else []) ++
  [.comp] ++
  (if outX > -1 then [.send outX tag (o.nx * o.kba * o.vars)] else []) ++
  (if outY > -1 then [.send outY tag (o.nx * o.kba * o.vars)] else [])

/-- The sweeps: from (0,0), from (Px,0), from (Px,Py), from (0,Py). -/
def sweepStep (o : Opts) (rank : Int) : Fin 4 → List Instr
  | 0 => stepOf o 1000 (xDown o rank) (yDown o rank) (xUp o rank) (yUp o rank)
  | 1 => stepOf o 2000 (xUp o rank) (yDown o rank) (xDown o rank) (yUp o rank)
  | 2 => stepOf o 3000 (xUp o rank) (yUp o rank) (xDown o rank) (yDown o rank)
  | 3 => stepOf o 4000 (xDown o rank) (yUp o rank) (xUp o rank) (yDown o rank)

/-- The times round `for (k = 0; k < nz; k += kba)` for a positive `kba`. -/
def rounds (o : Opts) : Nat := (o.nz.toNat + o.kba.toNat - 1) / o.kba.toNat

/-- The sweeps of an iteration. -/
def sweeps (o : Opts) : List (Fin 4) :=
  List.replicate (rounds o) 0 ++ List.replicate (rounds o) 1 ++ List.replicate (rounds o) 2 ++ List.replicate (rounds o) 3

/-- The steps of a run, sweep3d.cc:206-319. -/
def steps (o : Opts) : List (Fin 4) := (List.replicate (o.repeats * 2).toNat (sweeps o)).flatten

/-- The members of `MPI_COMM_WORLD`. -/
def world (o : Opts) : List Int := (List.range o.size.toNat).map Int.ofNat

/-- `MPI_Barrier(MPI_COMM_WORLD)`, sweep3d.cc:321. -/
def barrier (o : Opts) : Instr := .coll (world o) 0 0

/-- The blocks of the program of a rank. -/
def blocks (o : Opts) (rank : Int) : List (List Instr) := (steps o).map (sweepStep o rank) ++ [[barrier o]]

/-- The program; `none` if the options are refused, sweep3d.cc:129-160, or `kba` is negative, for which the loops do not end. -/
def app (o : Opts) : Option World :=
  if o.kba = 0 then none
  else if o.nz.tmod o.kba ≠ 0 then none
  else if o.pex * o.pey ≠ o.size then none
  else if o.kba < 0 then none
  else some ⟨o.size, fun r => if 0 ≤ r ∧ r < o.size then (blocks o r).flatten else []⟩

end Verif.Apps.Sweep
