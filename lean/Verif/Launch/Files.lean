import Verif.Launch.Alloc
import Verif.Launch.Request
import Verif.Topo.Coords
set_option autoImplicit false

/-!
# Allocations and mappings from boxes, files and host names

Model of sstmac/software/launch/cart_allocation.cc, coordinate_allocation.cc, coordinate_task_mapper.cc, node_id_task_mapper.cc,
hostname_allocation.cc and hostname_task_mapper.cc, with the addresses and names of nodes in
sstmac/hardware/topology/cartesian_topology.cc and topology.cc, for a torus.  Coordinates are natural numbers.
-/

namespace Verif.Launch.Files

open SST.Topo (switchAddr size)
open SST.Launch (insAll)
open Verif.Os.AppEnv (Str find put)

/-- A torus with its sizes and the number of nodes on a switch. -/
structure Net where
  dims : List Nat
  conc : Nat

/-- `numNodes`. -/
def Net.nodes (t : Net) : Nat := size t.dims * t.conc

/-- The number of coordinates of a node, cart_allocation.cc:134-136 and coordinate_allocation.cc:111-113. -/
def Net.ncoords (t : Net) : Nat := if 1 < t.conc then t.dims.length + 1 else t.dims.length

/-- `CartesianTopology::node_addr`, cartesian_topology.cc:174-187.  There is no check of the coordinates. -/
def nodeAddr (t : Net) (cs : List Nat) : Nat := switchAddr t.dims cs * t.conc + cs[t.dims.length]?.getD 0

/-- `CartesianTopology::node_coords`, cartesian_topology.cc:160-172. -/
def nodeCoords (t : Net) (n : Nat) : List Nat :=
  if t.conc = 1 then SST.Topo.switchCoords t.dims n else SST.Topo.switchCoords t.dims (n / t.conc) ++ [n % t.conc]

/-- The coordinates of `allocateDim`, cart_allocation.cc:105-124. -/
def box : List Nat → List Nat → List (List Nat)
  | s :: ss, o :: os => (List.range s).flatMap fun i => (box ss os).map fun v => (o + i) :: v
  | _, _ => [[]]

/-- `CartAllocation` with sizes, cart_allocation.cc:68-102 and :126-162; `none` is an exception.  The number of nodes that is asked for is
not used. -/
def cartAlloc (t : Net) (sizes offsets : List Nat) (_nnode : Nat) : Option (List Nat) :=
  if sizes.length ≠ offsets.length || sizes.length ≠ t.ncoords then none
  else some (insAll ((box sizes offsets).map (nodeAddr t)) [])

/-- `CoordinateAllocation::allocate`, coordinate_allocation.cc:99-135, for the coordinates of a file; `none` is an exception, an abort or
an empty list. -/
def coordAlloc (t : Net) (file : List (List Nat)) (nnode : Nat) : Option (List Nat) :=
  match file with
  | [] => none
  | c :: _ =>
    if c.length ≠ t.ncoords || file.length < nnode then none
    else some (insAll ((file.take nnode).map (nodeAddr t)) [])

/-- `CoordinateTaskMapper::mapRanks`, coordinate_task_mapper.cc:67-85. -/
def coordMap (t : Net) (file : List (List Nat)) (_nodes : List Nat) (_nproc : Nat) : List Nat := file.map (nodeAddr t)

/-- `NodeIdTaskMapper::mapRanks`, node_id_task_mapper.cc:78-90 with node_id_allocation.cc:72-103; `none` is an exception. -/
def nodeIdMap (numNodes : Nat) (file : List Nat) (_nodes : List Nat) (nproc : Nat) : Option (List Nat) :=
  if file.any (fun n => numNodes ≤ n) || file.length ≠ nproc then none else some file

/-! ### Names of nodes -/

/-- `hostmap_` and `idmap_`. -/
structure Names where
  host : Nat → Str
  ids : List (Str × Nat)

/-- `Topology::nodeNameToId`, topology.cc:312-321; `none` is the abort. -/
def Names.id (s : Names) (h : Str) : Option Nat := find s.ids h

/-- `Topology::initHostnameMap`, topology.cc:323-338. -/
def defaultNames (numNodes : Nat) : Names :=
  (List.range numNodes).foldl (fun s i => ⟨fun n => if n = i then ['n', 'i', 'd'] ++ Nat.toDigits 10 i else s.host n, put s.ids (['n', 'i', 'd'] ++ Nat.toDigits 10 i) i⟩) ⟨fun _ => [], []⟩

/-- One line of `CartesianTopology::readCoordFile`, cartesian_topology.cc:125-156. -/
def addHost (t : Net) (s : Option Names) (e : Str × List Nat) : Option Names :=
  match s with
  | none => none
  | some s =>
    if e.1 = [] || t.nodes ≤ nodeAddr t e.2 then none
    else some ⟨fun n => if n = nodeAddr t e.2 then e.1 else s.host n, put s.ids e.1 (nodeAddr t e.2)⟩

/-- `CartesianTopology::readCoordFile`, cartesian_topology.cc:96-158; `none` is an abort. -/
def readHosts (t : Net) (file : List (Str × List Nat)) : Option Names :=
  if file = [] || t.nodes < file.length then none else file.foldl (addHost t) (some ⟨fun _ => [], []⟩)

/-- The nodes of names; `none` is an abort. -/
def idsOf (s : Names) : List Str → Option (List Nat)
  | [] => some []
  | h :: r => match s.id h, idsOf s r with
    | some n, some l => some (n :: l)
    | _, _ => none

/-- `HostnameAllocation::allocate`, hostname_allocation.cc:70-105: all hosts of the file. -/
def hostAlloc (s : Names) (file : List Str) (_nnode : Nat) : Option (List Nat) := (idsOf s file).map fun l => insAll l []

/-- `HostnameTaskMapper::mapRanks`, hostname_task_mapper.cc:70-103: the first names of the file; beyond its end the name is empty. -/
def hostMap (s : Names) (file : List Str) (_nodes : List Nat) (nproc : Nat) : Option (List Nat) :=
  idsOf s ((List.range nproc).map fun i => file[i]?.getD [])

end Verif.Launch.Files
