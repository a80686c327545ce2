import Verif.Apps.Prog
set_option autoImplicit false
/-
The pairing of senders and receivers of the traffic skeleton (skeletons/traffic/main.cc).  The hash of a
rank is an arbitrary function of the seed and the rank; options and printing are left out.
-/
namespace Verif.Apps.Traffic

/-- The order of `std::pair`, main.cc:103. -/
def pairLe (a b : Nat × Nat) : Bool := a.1 < b.1 || (a.1 == b.1 && a.2 ≤ b.2)

/-- Insertion into a sorted list, for `std::sort`, main.cc:103: the sorted list of pairs is unique. -/
def ins (a : Nat × Nat) : List (Nat × Nat) → List (Nat × Nat)
  | [] => [a]
  | b :: l => if pairLe a b then a :: b :: l else b :: ins a l

/-- `pseudo_random_shuffle`, main.cc:92-108. -/
def shuffle (h : Nat → Nat) (v : List Nat) : List Nat := ((v.map fun x => (h x, x)).foldr ins []).map (·.2)

/-- Some sender is on the node of its receiver, main.cc:130-138. -/
def clash (ns spr : Nat) (senders recvers : List Nat) : Bool :=
  (List.range ns).any fun s => senders.getD s 0 / 2 == recvers.getD (s / spr) 0 / 2

/-- The loop of `shuffled_recvers`, main.cc:127-144; `none` is the abort after 10000 shuffles. -/
def recverLoop (h : Nat → Nat → Nat) (ns spr : Nat) (senders : List Nat) : Nat → Nat → List Nat → Option (List Nat)
  | 0, _, _ => none
  | f + 1, loops, v =>
    if loops + 1 = 10000 then none
    else if clash ns spr senders (shuffle (h loops) v) then recverLoop h ns spr senders f (loops + 1) (shuffle (h loops) v)
    else some (shuffle (h loops) v)

/-- `shuffled_recvers`, main.cc:116-147; its argument `seed` is not used. -/
def shuffledRecvers (h : Nat → Nat → Nat) (ns : Nat) (senders : List Nat) (_seed : Int) (half nr : Nat) : Option (List Nat) :=
  (recverLoop h ns (ns / nr) senders 10000 0 ((List.range half).map fun i => 2 * i + 1)).map (·.take nr)

/-- The pairs of a sender and its receiver, main.cc:335-337. -/
def pairsOf (ns spr : Nat) (senders recvers : List Nat) : List (Nat × Nat) :=
  (List.range ns).map fun s => (senders.getD s 0, recvers.getD (s / spr) 0)

/-- From the arguments to the pairs, main.cc:218-345; `none` is a crash or an end with a message.  Numbers
of senders and receivers are not negative. -/
def setup (h : Nat → Nat → Nat) (nproc ns nr : Nat) (sendSeed recvSeed : Int) : Option (List (Nat × Nat)) :=
  if nproc % 2 ≠ 0 ∨ nproc < 4 ∨ ns = 0 ∨ ns > nproc / 2 ∨ nr = 0 ∨ sendSeed = 0 ∨ recvSeed = 0 ∨ ns % nr ≠ 0 then none
  else
    let senders := (List.range (nproc / 2)).map fun i => 2 * i
    let senders := if sendSeed > 0 then shuffle (h sendSeed.toNat) senders else senders
    let recvers := ((List.range (nproc / 2)).map fun i => 2 * i + 1).take nr
    match (if recvSeed > 0 then shuffledRecvers h ns senders recvSeed (nproc / 2) nr else some recvers) with
    | none => none
    | some recvers =>
      let ps := pairsOf ns (ns / nr) senders recvers
      if recvSeed > 0 ∧ sendSeed > 0 ∧ ps.any (fun p => p.1 + 1 == p.2) then none else some ps

/-- What a rank learns: who sends to it and to whom it sends, main.cc:347-352. -/
def roles (rank : Nat) (ps : List (Nat × Nat)) : List Nat × Option Nat :=
  ps.foldl (fun st p => if p.2 = rank then (st.1 ++ [p.1], st.2) else if p.1 = rank then (st.1, some p.2) else st) ([], none)

/-- The same from a file of flows, main.cc:357-371. -/
def fileRoles (rank : Nat) (ps : List (Nat × Nat)) : List Nat × Option Nat :=
  ps.foldl (fun st p => if p.1 = rank then (st.1, some p.2) else if p.2 = rank then (st.1 ++ [p.1], st.2) else st) ([], none)

/-- Tags of the messages of `send_traffic` to the receiver, main.cc:418-433. -/
def sendTags (niter num window : Nat) : List Nat :=
  (List.range niter).flatMap fun i => (List.range (num / window)).flatMap fun _ => (List.range window).map fun _ => i

/-- Sender and tag of the receives of `recv_traffic`, main.cc:460-481. -/
def recvPosts (niter num window : Nat) (senders : List Nat) : List (Nat × Nat) :=
  (List.range niter).flatMap fun i => (List.range (num / window)).flatMap fun _ => (List.range window).flatMap fun _ =>
    senders.map fun s => (s, i)

/-- The requests that a receiver holds at once, main.cc:470-480. -/
def requests (window : Nat) (senders : List Nat) : Nat := window * senders.length

/-- The length of the array of requests, main.cc:206. -/
def numReqs : Nat := 100

/-- The windows of `main` without `-b`, main.cc:169-170, and the one of the warm-up, main.cc:61. -/
def windows : List Nat := [10, 16, 16, 16, 16, 16, 16, 4, 4, 4, 4, 4, 4, 4, 4, 4, 4, 4, 4]

/-- What all ranks do in step, main.cc:374-508: a window of messages, the acknowledgement to the sender number `j` of each
receiver, a collective of all ranks. -/
inductive Ev
  | win (tag w n : Nat)
  | ack (j : Nat)
  | all (kind : Nat)

/-- The calls of a rank, main.cc:418-438 and :460-487.  `MPI_Send` and `MPI_Recv` are written as the call
without blocking and the wait for it.  A rank that has nothing to do waits for nothing. -/
def calls (nproc : Nat) (ps : List (Nat × Nat)) (r : Int) : Ev → List Instr
  | .win tag w n =>
    (match (roles r.toNat ps).2 with
      | some q => (List.range w).map fun _ => Instr.isend q tag n
      | none => (List.range w).flatMap fun _ => (roles r.toNat ps).1.map fun s : Nat => Instr.irecv s tag n) ++ [.waitall]
  | .ack j =>
    (match (roles r.toNat ps).2 with
      | some q => if (roles q ps).1[j]? = some r.toNat then [Instr.irecv q 42 1] else []
      | none => ((roles r.toNat ps).1[j]?).toList.map fun s : Nat => Instr.isend s 42 1) ++ [.waitall]
  | .all kind => [.coll ((List.range nproc).map (fun i : Nat => (i : Int))) kind 0]

/-- `send_traffic` and `recv_traffic` of one size, main.cc:418-438 and :460-487, with `k` senders to a
receiver. -/
def traffic (k niter num w n : Nat) : List Ev :=
  ((List.range niter).flatMap fun i => (List.range (num / w)).map fun _ => Ev.win i w n) ++ (List.range k).map Ev.ack

/-- `main` from the first barrier to the last, main.cc:374-413, :440-458, :489-501 and :503-508, for sizes
with their numbers of messages and windows and `warm` messages before each.  The exchange of throughputs
among the senders is left out, and the array of requests is taken to be long enough. -/
def run (k warm nrepeat : Nat) (sizes : List (Nat × Nat × Nat)) : List Ev :=
  [.all 0, .all 1] ++ (sizes.flatMap fun x => traffic k 1 warm warm x.1 ++ traffic k nrepeat x.2.1 x.2.2 x.1 ++ [.all 0]) ++ [.all 0]

/-- All ranks of a run, main.cc:161-416; `none` also if windows do not divide the numbers of messages,
main.cc:421-424 and :464-467. -/
def app (h : Nat → Nat → Nat) (nproc ns nr : Nat) (a b : Int) (warm nrepeat : Nat) (sizes : List (Nat × Nat × Nat)) : Option World :=
  if sizes.any (fun x => x.2.2 == 0 || x.2.1 % x.2.2 != 0) then none
  else (setup h nproc ns nr a b).map fun ps =>
    ⟨nproc, fun r => if 0 ≤ r ∧ r < nproc then ((run (ns / nr) warm nrepeat sizes).map (calls nproc ps r)).flatten else []⟩

end Verif.Apps.Traffic
