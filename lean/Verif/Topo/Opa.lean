/-
Snapshots of Omni-Path fabrics: bin/tools/opareport_snapshot_parser.py (tables and maps for the file topology) and
bin/tools/opa_snapshot_route_tracer.py (routes).

A snapshot is the list of its devices, links and forwarding entries after the XML has been read.  Numbers stay numbers
where JSON has strings of them.  Not modelled: XML, JSON and YAML, the printing of warnings.  A Python exception is
`none` or `crash`.
-/
set_option autoImplicit false
namespace Verif.Topo.Opa

/-! ### Dictionaries -/

/-- A Python dictionary: keys are unique and keep their order. -/
abbrev Dict (κ β : Type) := List (κ × β)

variable {κ β : Type} [DecidableEq κ]

/-- `d[k]` or an exception. -/
def get (d : Dict κ β) (k : κ) : Option β := (d.find? fun e => e.1 = k).map (·.2)

/-- `d[k] = v`. -/
def set (d : Dict κ β) (k : κ) (v : β) : Dict κ β :=
  if d.any fun e => e.1 = k then d.map fun e => if e.1 = k then (k, v) else e else d ++ [(k, v)]

/-! ### Snapshots -/

/-- A string of the snapshot, such as a description of a node: opareport_snapshot_parser.py:102-119. -/
abbrev Name := List Char

/-- A `Node` of the snapshot: opareport_snapshot_parser.py:102-119, 157-180. -/
structure Device where
  guid : Nat
  name : Name
  lid : Nat
  switch : Bool
deriving DecidableEq

/-- A `Link`: opareport_snapshot_parser.py:122-134. -/
structure Link where
  fromGuid : Nat
  fromPort : Nat
  toGuid : Nat
  toPort : Nat
deriving DecidableEq

/-- A snapshot; `fdb` are the entries (LID, port) of a switch, opareport_snapshot_parser.py:152-153. -/
structure Snapshot where
  devices : List Device
  links : List Link
  fdb : Nat → List (Nat × Nat)

/-! ### Tables -/

/-- GUID to port to (GUID, port). -/
abbrev LinkTable := Dict Nat (Dict Nat (Nat × Nat))

/-- `link_table_[g][p] = v` with a `defaultdict`, opareport_snapshot_parser.py:129, 137-138. -/
def put (t : LinkTable) (g p : Nat) (v : Nat × Nat) : LinkTable := set t g (set ((get t g).getD []) p v)

/-- `gen_link_table`, opareport_snapshot_parser.py:127-139. -/
def linkTable (s : Snapshot) : LinkTable :=
  s.links.foldl (fun t l => put (put t l.fromGuid l.fromPort (l.toGuid, l.toPort)) l.toGuid l.toPort (l.fromGuid, l.fromPort)) []

/-- `link_table[g][p]`. -/
def look (t : LinkTable) (g p : Nat) : Option (Nat × Nat) := (get t g).bind fun row => get row p

/-- A dictionary from pairs, as by a comprehension. -/
def ofPairs (l : List (κ × β)) : Dict κ β := l.foldl (fun d e => set d e.1 e.2) []

/-- `gen_routing_tables`, opareport_snapshot_parser.py:147-154. -/
def routingTable (s : Snapshot) : Dict Nat (Dict Nat Nat) :=
  ofPairs ((s.devices.filter (·.switch)).map fun d => (d.guid, ofPairs (s.fdb d.guid)))

/-- `gen_lid_node_map`, opareport_snapshot_parser.py:157-162, 170-172. -/
def lidGuids (s : Snapshot) : Dict Nat Nat := ofPairs ((s.devices.filter (!·.switch)).map fun d => (d.lid, d.guid))

/-- `gen_node_lid_map`, opareport_snapshot_parser.py:157-167. -/
def guidLids (s : Snapshot) : Dict Nat Nat := ofPairs ((s.devices.filter (!·.switch)).map fun d => (d.guid, d.lid))

/-- `parse_if`, opareport_snapshot_parser.py:183-185: the first word of a name; an empty name is an exception there, and
an empty word here. -/
def parseIf (shorten : Bool) (n : Name) : Name :=
  if shorten then (n.dropWhile (· = ' ')).takeWhile (· ≠ ' ') else n

/-- `gen_guid_name_map`, opareport_snapshot_parser.py:175-190. -/
def guidNames (shorten : Bool) (s : Snapshot) : Dict Nat Name :=
  ofPairs (s.devices.map fun d => (d.guid, parseIf shorten d.name))

/-- `name_prefix in name`, opareport_snapshot_parser.py:210. -/
def contains (sub : Name) : Name → Bool
  | [] => sub.isPrefixOf []
  | c :: r => sub.isPrefixOf (c :: r) || contains sub r

/-- Port to (destination, inport). -/
abbrev Ports := Dict Int (Name × Int)

/-- The loop over the links of a device, opareport_snapshot_parser.py:214-218. -/
def outports (names : Dict Nat Name) (row : Dict Nat (Nat × Nat)) : Option Ports :=
  row.foldl (fun r e => r.bind fun m => (get names e.2.1).map fun nm => set m ((e.1 : Int) - 1) (nm, (e.2.2 : Int) - 1)) (some [])

/-- One device of `sst_map`, opareport_snapshot_parser.py:208-218. -/
def mapDevice (pre : Name) (names : Dict Nat Name) (t : LinkTable) (m : Dict Name Ports) (e : Nat × Name) : Option (Dict Name Ports) :=
  if contains pre e.2 then (get t e.1).bind fun row => (outports names row).map fun o => set m e.2 o else some m

/-- `sst_map`, opareport_snapshot_parser.py:203-219, without the names that are not mapped. -/
def sstMap (pre : Name) (names : Dict Nat Name) (t : LinkTable) : Option (Dict Name Ports) :=
  names.foldl (fun r e => r.bind fun m => mapDevice pre names t m e) (some [])

/-- One switch of `named_routing_tables`, opareport_snapshot_parser.py:227-229. -/
def namedRow (names : Dict Nat Name) (lids : Dict Nat Nat) (row : Dict Nat Nat) : Option (Dict Name Int) :=
  row.foldl (fun r e => r.bind fun m =>
    match get lids e.1 with
    | none => some m
    | some g => (get names g).map fun nm => set m nm ((e.2 : Int) - 1)) (some [])

/-- `named_routing_tables`, opareport_snapshot_parser.py:221-230. -/
def namedRoutes (rt : Dict Nat (Dict Nat Nat)) (names : Dict Nat Name) (lids : Dict Nat Nat) : Option (Dict Name (Dict Name Int)) :=
  rt.foldl (fun r e => r.bind fun m => (get names e.1).bind fun nm => (namedRow names lids e.2).map fun row => set m nm row) (some [])

/-- The keys of the output for a file topology, opareport_snapshot_parser.py:268-282. -/
def outputKeys (switchLinks nodeLinks named : Bool) : List Name :=
  (if switchLinks || named then [['s', 'w', 'i', 't', 'c', 'h', 'e', 's']] else []) ++
    (if nodeLinks then [['n', 'o', 'd', 'e', 's']] else [])

/-- The keys which the file topology needs, file.cc:67, 70, 82. -/
def neededKeys : List Name :=
  [['a', 'v', 'g', '_', 'n', 'u', 'm', '_', 'h', 'o', 'p', 's'], ['n', 'o', 'd', 'e', 's'], ['s', 'w', 'i', 't', 'c', 'h', 'e', 's']]

/-! ### Routes -/

/-- What `trace_route` does. -/
inductive Trace where
  | crash
  /-- The loop has not ended. -/
  | running
  | route (r : List (Nat × Nat))
deriving DecidableEq

/-- The port towards a LID, opa_snapshot_route_tracer.py:89. -/
def outPort (rt : Dict Nat (Dict Nat Nat)) (cur destLid : Nat) : Option Nat :=
  match get rt cur with
  | none => some 1
  | some row => get row destLid

/-- `trace_route`, opa_snapshot_route_tracer.py:79-94, for a number of turns; a missing GUID gives `False`, which cannot
be unpacked. -/
def trace (rt : Dict Nat (Dict Nat Nat)) (lt : LinkTable) (destLid dest : Nat) : Nat → Nat → Trace
  | 0, cur => if cur = dest then .route [] else .running
  | k + 1, cur =>
    if cur = dest then .route []
    else match outPort rt cur destLid with
      | none => .crash
      | some p => match look lt cur p with
        | none => .crash
        | some (g, q) => match trace rt lt destLid dest k g with
          | .route r => .route ((cur, p) :: (g, q) :: r)
          | o => o

end Verif.Topo.Opa
