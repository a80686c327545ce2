/-
The partition of the switches over processes and threads (sstmac/backends/common/sim_partition.cc).

An array that `new int[n]` leaves without values is a list of `none`.
-/
set_option autoImplicit false
namespace SST.Parallel

/-- The process and the thread of every switch. -/
abbrev PartTable := List (Option (Nat × Nat))

/-- The loops of sim_partition.cc:145-151, 188-194 and 199-205, for a number of switches per worker above
zero. -/
def fillBlock (perWorker nthread : Nat) (count : Nat) (t : PartTable) : PartTable :=
  (List.range count).foldl (fun t i => t.set i (some (i / perWorker / nthread, i / perWorker % nthread))) t

/-- `BlockPartition::partitionSwitches`, sim_partition.cc:143-159; `none`: a division by zero. -/
def blockPartition (nproc nthread n : Nat) : Option PartTable :=
  let nworkers := nproc * nthread
  if nworkers = 0 then none
  else
    let per := if n % nworkers ≠ 0 then n / nworkers + 1 else n / nworkers
    if n = 0 then some [] else some (fillBlock per nthread n (List.replicate n none))

/-- `OccupiedBlockPartition::partitionSwitches`, sim_partition.cc:188-219; `none`: a division by zero. -/
def occupiedPartition (nproc nthread n occupied : Nat) : Option PartTable :=
  let nworkers := nproc * nthread
  if nworkers = 0 then none
  else
    let per := if occupied % nworkers ≠ 0 then occupied / nworkers + 1 else occupied / nworkers
    let t := if occupied = 0 then List.replicate n none else fillBlock per nthread occupied (List.replicate n none)
    let unoccupied := n - occupied
    if unoccupied = 0 then some t
    else if unoccupied / nworkers = 0 then none
    else some (fillBlock (unoccupied / nworkers) nthread unoccupied t)

end SST.Parallel
