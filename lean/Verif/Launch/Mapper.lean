import Verif.Util.Shuffle
/-
Task mappers: which node runs which rank of a job (sstmac/software/launch/*_task_mapper.cc).

Node sets (`ordered_node_set`, node_set.h:54) are lists without repetitions in ascending order. Numbers
stay below `2^31`.
-/
set_option autoImplicit false
namespace SST.Launch

/-- `TaskMapper::validateNproc`, task_mapper.cc:64-94, for `nproc >= 0`. `none`: an exception. -/
def validateNproc (ppn numNodes nproc : Nat) : Option Nat :=
  if numNodes = 0 then none
  else if ppn = 0 then none
  else if ppn * numNodes < nproc then none
  else some nproc

/-- The loop of `BlockTaskMapper::mapRanks`, block_task_mapper.cc:71-86. -/
def blockLoop (ppn nproc : Nat) : List Nat → List Nat → List Nat
  | [], result => result
  | addr :: nodes, result =>
    let thisPpn := if result.length + ppn > nproc then nproc - result.length else ppn
    blockLoop ppn nproc nodes (result ++ List.replicate thisPpn addr)

/-- `BlockTaskMapper::mapRanks`, block_task_mapper.cc:55-87: the node of each rank. -/
def blockMap (nodes : List Nat) (ppn nproc : Nat) : Option (List Nat) :=
  match validateNproc ppn nodes.length nproc with
  | none => none
  | some nproc => some (blockLoop ppn nproc nodes [])

/-- `RoundRobinTaskMapper::mapRanks`, round_robin_task_mapper.cc:51-68, with an empty `result` as it is
called (launch_request.cc:124-134 from job_launcher.cc:187-191). -/
def roundRobinMap (nodes : List Nat) (ppn nproc : Nat) : Option (List Nat) :=
  match validateNproc ppn nodes.length nproc with
  | none => none
  | some nproc => some ((List.range ppn).flatMap fun _ => nodes.take (nproc / ppn))

/-- Writing `x` to the ranks from `off` to `stop - 1`, random_task_mapper.cc:88-90 and 99-101. -/
def writeRange (result : List Nat) (x off stop : Nat) : List Nat :=
  (List.range' off (stop - off)).foldl (fun r i => r.set i x) result

/-- The loops over the nodes, random_task_mapper.cc:85-91 and 95-103; `k` is the index of the node. -/
def fillLoop (ppn nproc : Nat) : Nat → List Nat → List Nat → List Nat
  | _, [], result => result
  | k, nid :: nodes, result => fillLoop ppn nproc (k + 1) nodes (writeRange result nid (k * ppn) (min (k * ppn + ppn) nproc))

/-- `RandomTaskMapper::mapRanks`, random_task_mapper.cc:70-107; `v`: the random numbers. -/
def randomMap (smp : Bool) (v : Nat → Nat) (nodes : List Nat) (ppn nproc : Nat) : Option (List Nat) :=
  match validateNproc ppn nodes.length nproc with
  | none => none
  | some nproc =>
    let result := List.replicate nproc 0
    if smp then
      match Util.shuffle v nodes with
      | none => none
      | some smpNodes => some (fillLoop ppn nproc 0 smpNodes result)
    else Util.shuffle v (fillLoop ppn nproc 0 nodes result)

/-- The inverse table, `indexAllocation`, launch_request.cc:157-163. `none`: a node number out of range. -/
def nodeToRank (numNodes : Nat) (rankToNode : List Nat) : Option (List (List Nat)) :=
  rankToNode.zipIdx.foldl (fun t p => match t with
    | none => none
    | some t => match t[p.1]? with
      | none => none
      | some rs => some (t.set p.1 (rs ++ [p.2]))) (some (List.replicate numNodes []))

end SST.Launch
