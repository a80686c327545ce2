import Verif.Otf2.Spec
set_option autoImplicit false
/-!
# Writing OTF2 traces: identifiers of communicators and groups, times

Model of sumi-mpi/otf2_output_stat.cc.  Each rank that is traced has a list of the communicators that it
was in (`writer_.all_comms()`); at MPI_Finalize the ranks agree on global identifiers
(`assignGlobalCommIds`), and at the end of the simulation the statistics of the ranks are reduced into the
first one (`OTF2Output::output`).  The scan and the broadcasts are modelled by what they compute.
The library that writes the files is not modelled.
-/

namespace Verif.Otf2.Writer

/-- An entry of `all_comms()`: which communicator it is and whether this rank is its rank 0 (`is_root`, otf2_output_stat.cc:105). -/
structure Entry where
  comm : Nat
  root : Bool
deriving DecidableEq, Repr

/-- What an entry has at the end: `global_id` of the communicator and of its group. -/
structure Named where
  comm : Nat
  root : Bool
  id : Nat
  group : Nat
deriving DecidableEq, Repr

/-- `numOwnedComms`, otf2_output_stat.cc:148-156. -/
def owned (l : List Entry) : Nat := l.countP (fun e => e.root)

/-- `startScan` with MPI_SUM: inclusive sums, otf2_output_stat.cc:160-162. -/
def scan (acc : Nat) : List Nat → List Nat
  | [] => []
  | n :: l => (acc + n) :: scan (acc + n) l

/-- `myCommOffset`, otf2_output_stat.cc:158-167. -/
def offsets (w : List (List Entry)) : List Nat :=
  List.zipWith (fun s n => s - n) (scan 0 (w.map owned)) (w.map owned)

/-- The first loop over the communicators, otf2_output_stat.cc:169-186: the identifiers that rank 0 of each communicator
gives (`globalIds[idx]`). -/
def give (next : Nat) : List Entry → List (Nat × Nat)
  | [] => []
  | e :: l => if e.root then (e.comm, next) :: give (next + 1) l else give next l

/-- What all ranks give. -/
def given (w : List (List Entry)) : List (Nat × Nat) :=
  (List.zipWith give (offsets w) w).flatten

/-- The value that the broadcast on a communicator brings: what its rank 0 gave.  `globalIds` is 0 at first; that a
broadcast without root does not end is not modelled. -/
def bcast (g : List (Nat × Nat)) (c : Nat) : Nat :=
  match g.find? (fun x => x.1 = c) with
  | some x => x.2
  | none => 0

/-- The entry of a communicator after the broadcasts, otf2_output_stat.cc:176-200: rank 0 of the communicator adds one for the
group, the others do not. -/
def name (g : List (Nat × Nat)) (e : Entry) : Named :=
  ⟨e.comm, e.root, bcast g e.comm, if e.root then bcast g e.comm + 1 else bcast g e.comm⟩

/-- `assignGlobalCommIds` on all ranks. -/
def assign (w : List (List Entry)) : List (List Named) := w.map (fun l => l.map (name (given w)))

/-- A writer when it is reduced: its rank, how many events it has, and the times of the first and of the last. -/
structure Stat where
  rank : Nat
  events : Nat
  start : Nat
  stop : Nat
deriving DecidableEq, Repr

/-- What is reduced: `event_counts_`, `min_time_`, `max_time_`. -/
structure Sum where
  events : List Nat
  min : Nat
  max : Nat
deriving DecidableEq, Repr

/-- The largest number of 64 bits. -/
def maxTime : Nat := 2 ^ 64 - 1

/-- The constructor, otf2_output_stat.cc:59-65; `event_counts_` gets the size of the world (:127). -/
def Sum.init (size : Nat) : Sum := ⟨List.replicate size 0, maxTime, 0⟩

/-- `OTF2Writer::reduce`, otf2_output_stat.cc:121-133. -/
def reduce (s : Sum) (x : Stat) : Sum :=
  ⟨s.events.set x.rank x.events, Nat.min s.min x.start, Nat.min s.max x.stop⟩

/-- `OTF2Output::output` for the writers of a group, otf2_output_stat.cc:231-244. -/
def reduceAll (size : Nat) (l : List Stat) : Sum := l.foldl reduce (Sum.init size)

/-- `stopOutputGroup` and `dumpGlobalData`, otf2_output_stat.cc:214-222, 252-256: the definitions of the trace, which the first
writer of the group writes; it aborts (`none`) if that is not rank 0. -/
def dumpGlobal (size : Nat) (l : List Stat) : Option Sum :=
  match l with
  | [] => none
  | x :: _ => if x.rank = 0 then some (reduceAll size l) else none

end Verif.Otf2.Writer
