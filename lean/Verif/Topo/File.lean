import Verif.Topo.Net
/-
Model of the topology that is read from a file and of table routing:
sstmac/hardware/topology/file.{h,cc}, sstmac/hardware/topology/topology.{h,cc} (host names and routing
tables), sstmac/hardware/router/table_routing.cc.
Names are strings in the code; here any type with decidable equality.  The objects of a JSON file have
different keys and are read in the order of the keys: a list here.  Missing fields, which throw, are not
modelled.
-/
set_option autoImplicit false
namespace SST.Topo.File
open SST.Topo

/-- An entry of `outports`: `stoi` of its key, `destination` and `inport`. -/
structure OutPort (α : Type) where
  port : Nat
  dest : α
  inport : Nat
deriving DecidableEq, Repr

/-- What the file holds: the keys of `nodes`, and the keys of `switches` with their `outports`. -/
structure Json (α : Type) where
  nodes : List α
  switches : List (α × List (OutPort α))

variable {α : Type} [DecidableEq α]

/-- `idmap_`, file.cc:69-79; `nodeNameToId`, topology.cc:312-321. -/
def nodeId (F : Json α) (a : α) : Option Nat := F.nodes.findIdx? (· == a)

/-- `switch_name_map_`, file.cc:81-88. -/
def switchId (F : Json α) (a : α) : Option Nat := F.switches.findIdx? (·.1 == a)

/-- `switches_.at(name of s).at("outports")`. -/
def outports (F : Json α) (s : Nat) : List (OutPort α) := ((F.switches[s]?).map Prod.snd).getD []

/-- `connectedOutports`, file.cc:146-170. -/
def conns (F : Json α) (s : Nat) : List Conn :=
  (outports F s).filterMap fun o => (switchId F o.dest).map fun t => { src := s, dst := t, outport := o.port, inport := o.inport }

/-- `endpointsConnectedToInjectionSwitch`, file.cc:172-198: nodes and switch ports. -/
def inj (F : Json α) (s : Nat) : List (Nat × Nat) :=
  (outports F s).filterMap fun o => (nodeId F o.dest).map fun n => (n, o.port)

/-- The network. -/
def net (F : Json α) : Net where
  size := F.switches.length
  conns := conns F
  inj := inj F

/-- `node_to_switch_`, file.cc:124-135: the last switch that has the node wins (`switch_name_map_` is
unordered, so which one is last is not known if there are several); 0 if there is none. -/
def nodeToSwitch (F : Json α) (n : Nat) : Nat :=
  ((List.range F.switches.length).filter fun s => (inj F s).any fun x => x.1 == n).getLast?.getD 0

/-- `maxNumPorts_`, file.cc:90-122. -/
def maxNumPorts (F : Json α) : Nat :=
  ((List.range F.switches.length).foldl (fun m s => (conns F s).foldl (fun m c => max (max m c.outport) c.inport) m) 0) +
  ((List.range F.switches.length).foldl (fun m s => max m (inj F s).length) 0) + 2

/-- A route of the routing table: one port or a port channel. -/
structure Entry where
  ports : List Nat
  rot : Nat := 0
deriving DecidableEq, Repr

/-- `Port::nextPort`, table_routing.cc:83-87; `none` for an index out of range. -/
def nextPort (e : Entry) : Option Nat × Entry := (e.ports[e.rot]?, { e with rot := (e.rot + 1) % e.ports.length })

/-- The table of a switch: the ports to each node.  The constructor aborts if some node has none,
table_routing.cc:136-142. -/
abbrev Table := Nat → List Nat

/-- The tables of all switches that the constructor accepts. -/
def Accepted (F : Json α) (T : Nat → Table) : Prop := ∀ s node, s < F.switches.length → node < F.nodes.length → T s node ≠ []

/-- `TableRouter::route`, table_routing.cc:159-173: any port of the entry can be the next one.  The header
is `num_hops` (8 bits); `deadlock_vc` has four bits (packet.h:68). -/
def router (T : Nat → Table) (incr : Bool) : Router Nat := fun s node h p vc h' =>
  p ∈ T s node ∧ if incr then vc = h % 16 ∧ h' = (h + 1) % 256 else vc = 0 ∧ h' = h

end SST.Topo.File
