/-
Fixed-time-quanta statistics (sstmac/common/stats/ftq.cc, ftq.h). Times are ticks below `2^64`, as natural
numbers.
-/
set_option autoImplicit false
namespace SST.Stats

/-- `FTQCalendar::Event`, ftq.h:101-109. -/
structure Ev where
  type : Nat
  start : Nat
  length : Nat
deriving DecidableEq, Repr

/-- `FTQCalendar::maxTick`, ftq.h:144-151. -/
def maxTick (cal : List Ev) : Nat := match cal.getLast? with
  | none => 0
  | some e => e.start + e.length

/-- `FTQCalendar::padToMaxTick` with `addData_impl`, ftq.cc:176-201; `inactive`: the number of the tag. -/
def pad (inactive max : Nat) (cal : List Ev) : List Ev :=
  if max - maxTick cal ≠ 0 then cal ++ [⟨inactive, maxTick cal, max - maxTick cal⟩] else cal

/-- The amounts one event adds, with the epochs they are added to, in the order of ftq.cc:304-318. -/
def credits (tpe scale : Nat) (e : Ev) : List (Nat × Nat) :=
  let stop := e.start + e.length
  let startEpoch := e.start / tpe
  let stopEpoch := stop / tpe
  if startEpoch = stopEpoch then [(startEpoch, e.length)]
  else (startEpoch, ((startEpoch + 1) * tpe - e.start) * scale) :: (stopEpoch, (stop - stopEpoch * tpe) * scale) ::
    (List.range' (startEpoch + 1) (stopEpoch - (startEpoch + 1))).map fun ep => (ep, tpe * scale)

/-- `epochs(...) += amount`, ftq.h:193-196. `none`: outside the vector. -/
def addTo (t : List Nat) (idx amount : Nat) : Option (List Nat) :=
  match t[idx]? with
  | none => none
  | some x => some (t.set idx (x + amount))

/-- Several of them. -/
def addAll : List Nat → List (Nat × Nat) → Option (List Nat)
  | t, [] => some t
  | t, (i, a) :: cs => match addTo t i a with
    | none => none
    | some t => addAll t cs

/-- What `dump` prints. -/
structure Table where
  /-- The event types with a column, in order (`sparse_index`). -/
  types : List Nat
  numEpochs : Nat
  /-- `event_counts_`: entry `epoch * columns + column`. -/
  counts : List Nat
deriving DecidableEq, Repr

/-- `FTQOutput::dump`, ftq.cc:262-320, for `compute_mean_` or not. Event types are below 31 (`1<<event_typeid`,
ftq.cc:199). `none`: a write outside the vector. -/
def dump (mean : Bool) (tpe inactive : Nat) (cals : List (List Ev)) : Option Table :=
  let max := (cals.map maxTick).foldl Nat.max 0
  let cals := cals.map (pad inactive max)
  let events := cals.flatten
  let numEpochs := if max % tpe ≠ 0 then max / tpe + 1 else max / tpe
  let types := (List.range 64).filter fun i => events.any (·.type == i)
  let columns := if mean then 1 else types.length
  let all := events.flatMap fun e => (credits tpe (if mean then e.type else 1) e).map fun c =>
    (c.1 * columns + (if mean then 0 else types.idxOf e.type), c.2)
  (addAll (List.replicate (columns * numEpochs) 0) all).map fun t => ⟨types, numEpochs, t⟩

end SST.Stats
