set_option autoImplicit false
/-
Model of statistics in groups and of their output as comma-separated values:
sstmac/common/stats/stat_collector.cc:64-131, stat_collector.h:217-305,
sstmac/common/event_manager.cc:236-285; and of histograms, stat_histogram.h:68-106.
-/
namespace SST.Stats

/-- A statistic as its group sees it: its fields in the order in which `registerOutputFields`
registers and `outputStatisticFields` outputs them, with the values at the end of the run.  Names
of fields are numbers. -/
structure Stat (V : Type) where
  fields : List (Nat × V)

/-- `implRegisterField`, stat_collector.cc:70-83: `ids` and `columns` of the group are one list, in
which the position is the identifier. -/
def registerField (cols : List Nat) (name : Nat) : Nat × List Nat :=
  match cols.idxOf? name with
  | some i => (i, cols)
  | none => (cols.length, cols ++ [name])

/-- `registerOutputFields` of a statistic: the handles of its fields. -/
def registerFields (cols : List Nat) : List Nat → List Nat × List Nat
  | [] => ([], cols)
  | n :: ns =>
    let r := registerField cols n
    let rs := registerFields r.2 ns
    (r.1 :: rs.1, rs.2)

/-- `EventManager::registerStatisticCore`, event_manager.cc:236-261, for the statistics of one group
in turn: the handles of each, and the columns of the group. -/
def registerAll {V : Type} (cols : List Nat) : List (Stat V) → List (List Nat) × List Nat
  | [] => ([], cols)
  | s :: ss =>
    let r := registerFields cols (s.fields.map (·.1))
    let rs := registerAll r.2 ss
    (r.1 :: rs.1, rs.2)

/-- The state of `StatOutputCSV` while a row is written, stat_collector.h:299-301: the cells of the
row so far, the next field, and `pending_`, sorted by field. -/
structure Row (V : Type) where
  cells : List V
  next : Nat
  pending : List (Nat × V)

/-- `std::map::operator[]=`. -/
def insert {V : Type} (h : Nat) (v : V) : List (Nat × V) → List (Nat × V)
  | [] => [(h, v)]
  | p :: ps => if h < p.1 then (h, v) :: p :: ps else if h = p.1 then (h, v) :: ps else p :: insert h v ps

/-- `StatOutputCSV::outputPending`, stat_collector.cc:120-134. -/
def outputPending {V : Type} (cells : List V) (next : Nat) : List (Nat × V) → Row V
  | [] => ⟨cells, next, []⟩
  | p :: ps => if p.1 = next then outputPending (cells ++ [p.2]) (next + 1) ps else ⟨cells, next, p :: ps⟩

/-- `StatOutputCSV::output`, stat_collector.h:283-295. -/
def output {V : Type} (r : Row V) (h : Nat) (v : V) : Row V :=
  if h = r.next then
    if r.pending = [] then { r with cells := r.cells ++ [v], next := r.next + 1 }
    else outputPending (r.cells ++ [v]) (r.next + 1) r.pending
  else { r with pending := insert h v r.pending }

/-- One statistic, `StatisticFieldsOutput::output` and `startOutputEntries`, stat_collector.h:205-209
and stat_collector.cc:105-109: the row, and what stays in `pending_`. -/
def outputStat {V : Type} (pending : List (Nat × V)) (handles : List Nat) (s : Stat V) : Row V :=
  (handles.zip (s.fields.map (·.2))).foldl (fun r p => output r p.1 p.2) ⟨[], 0, pending⟩

/-- All statistics of a group, event_manager.cc:269-283. -/
def outputAll {V : Type} (pending : List (Nat × V)) : List (List Nat × Stat V) → List (List V)
  | [] => []
  | (hs, s) :: ss =>
    let r := outputStat pending hs s
    r.cells :: outputAll r.pending ss

/-- The file of a group: the headings after "name,component", and the rows of the statistics, also
without name and component. -/
def csv {V : Type} (ss : List (Stat V)) : List Nat × List (List V) :=
  let r := registerAll [] ss
  (r.2, outputAll [] (r.1.zip ss))

/-- `StatHistogram` without logarithms, stat_histogram.h:68-98, 138-142, with exact numbers. -/
structure Hist where
  min : Rat
  max : Rat
  binSize : Rat
  counts : List Nat
deriving DecidableEq

/-- The constructor, stat_histogram.h:68-98; `none` is abort. -/
def Hist.make (min max : Rat) (numBins : Nat) : Option Hist :=
  let binSize := (max - min) / numBins
  if binSize = 0 then none else some ⟨min, max, binSize, List.replicate numBins 0⟩

/-- `addData_impl`, stat_histogram.h:100-109; `none` is an access out of bounds. -/
def Hist.add (h : Hist) (value : Rat) (count : Nat) : Option Hist :=
  if h.max < value then some h
  else if value < h.min then some h
  else
    let bin := ((value - h.min) / h.binSize).floor.toNat
    match h.counts[bin]? with
    | some c => some { h with counts := h.counts.set bin (c + count) }
    | none => none

/-- A series of data. -/
def Hist.addAll (h : Hist) (data : List (Rat × Nat)) : Option Hist := data.foldlM (fun h d => h.add d.1 d.2) h

end SST.Stats
