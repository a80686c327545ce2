import Verif.Parallel.LinksSpec
set_option autoImplicit false
/-
Model of how a machine is wired when the simulator runs as an element library of SST core:
the Python configuration builds links between components
(sstmac/sst_core/sstmacro.py:39-52, 173-241, 243-261) from what the topology reports
(sstmac/sst_core/python_topology.cc:258-325), and every component then asks SST core for
the links on the ports it expects (sstmac/hardware/common/connection.cc:105-165,
sstmac/hardware/switch/network_switch.cc:85-104, sstmac/hardware/nic/nic.cc:119-141,
sstmac/hardware/logp/logp_switch.cc:95-100).

SST core itself is not in the repository.  Assumed of it: an event that a component sends on
a port leaves with the latency given to that end of the link and is handed to the handler
that the component at the other end registered for its port; asking for a port with no link
gives a null pointer.

Simplifications: latencies are whole picoseconds; components are named by kind and index;
the ejection ports of a switch are its injection ports, as in every topology of the library;
Python's exceptions for indices out of range are not modelled.
-/
namespace SST.Parallel.CoreLinks
open SST.Parallel.Links

/-- Characters of a Python or C++ string. -/
abbrev Str := List Char

/-- What the configuration starts from: topology, latencies and choice of the LogP model
(`Cfg`, shared with the simulator without SST core), the number of nodes, and
`Topology::endpointToSwitch` (sstmac/hardware/topology/topology.h:397). -/
structure Sys where
  cfg : Cfg
  nodes : Nat
  swOf : Nat → Nat

/-- The components: `"Switch %d"`, `"Node %d"` and `"LogP 0"`,
sstmac/sst_core/sstmacro.py:120-147, 213-222. -/
inductive Comp
  | switch (i : Nat)
  | node (i : Nat)
  | logp
deriving DecidableEq, Repr

/-- The two families of ports, `"input%d"` and `"output%d"`. -/
inductive Dir
  | inp
  | out
deriving DecidableEq, Repr

/-- `%d` of a non-negative number. -/
def dec (n : Nat) : Str := Nat.toDigits 10 n

/-- `"input%d"`, `"output%d"`: sstmac/sst_core/sstmacro.py:46-52,
sstmac/hardware/common/connection.cc:108, 123, 139, 154. -/
def portName : Dir → Nat → Str
  | .inp, n => ['i', 'n', 'p', 'u', 't'] ++ dec n
  | .out, n => ['o', 'u', 't', 'p', 'u', 't'] ++ dec n

/-- One `component.addLink(link, port, latency)`. -/
structure End where
  comp : Comp
  port : Str
  lat : Nat
deriving DecidableEq, Repr

/-- An `sst.Link` with its two ends, in the order of the `addLink` calls. -/
structure CLink where
  name : Str
  a : End
  b : End
deriving DecidableEq, Repr

/-- `smallLatency = "1ps"`, sstmac/sst_core/sstmacro.py:5. -/
def smallLatency : Nat := 1

/-- `NIC::LogP` (sstmac/hardware/nic/nic.h:117-120), exported to Python as
`NICLogPInjectionPort`. -/
def logpPort : Nat := 1

/-- `"%s%d:%d->%d:%d" % (linkType,srcId,srcPort,dstId,dstPort)`,
sstmac/sst_core/sstmacro.py:44. -/
def linkName (ty : Str) (srcId srcPort dstId dstPort : Nat) : Str :=
  ty ++ (dec srcId ++ ':' :: (dec srcPort ++ '-' :: '>' :: (dec dstId ++ ':' :: dec dstPort)))

/-- `"network"`, sstmac/sst_core/sstmacro.py:59. -/
def networkW : Str := ['n', 'e', 't', 'w', 'o', 'r', 'k']
/-- `"injection"`, sstmac/sst_core/sstmacro.py:197. -/
def injectionW : Str := ['i', 'n', 'j', 'e', 'c', 't', 'i', 'o', 'n']
/-- `"ejection"`, sstmac/sst_core/sstmacro.py:203. -/
def ejectionW : Str := ['e', 'j', 'e', 'c', 't', 'i', 'o', 'n']
/-- `"logPinjection"`, sstmac/sst_core/sstmacro.py:225. -/
def logPinjectionW : Str := 'l' :: 'o' :: 'g' :: 'P' :: injectionW
/-- `"logPejection"`, sstmac/sst_core/sstmacro.py:235. -/
def logPejectionW : Str := 'l' :: 'o' :: 'g' :: 'P' :: ejectionW

/-- `makeUniLink`, sstmac/sst_core/sstmacro.py:39-52.  `outLat` is always given by the
callers; `inLat` defaults to it. -/
def uniLink (ty : Str) (src : Comp) (srcId srcPort : Nat) (dst : Comp) (dstId dstPort : Nat)
    (outLat : Nat) (inLat : Option Nat) : CLink :=
  ⟨linkName ty srcId srcPort dstId dstPort, ⟨src, portName .out srcPort, outLat⟩,
    ⟨dst, portName .inp dstPort, inLat.getD outLat⟩⟩

/-- `connectSwitches`, sstmac/sst_core/sstmacro.py:173-185. -/
def connectSwitches (m : Sys) : List CLink :=
  (List.range m.cfg.nsw).flatMap fun i => (m.cfg.out i).map fun k =>
    uniLink networkW (.switch i) i k.srcPort (.switch k.dst) k.dst k.dstPort m.cfg.linkLat none

/-- `connectEndpoints`, sstmac/sst_core/sstmacro.py:187-205. -/
def connectEndpoints (m : Sys) : List CLink :=
  (List.range m.cfg.nsw).flatMap fun s =>
    ((m.cfg.inj s).map fun p =>
      uniLink injectionW (.node p.nid) p.nid p.epPort (.switch s) s p.swPort m.cfg.injLat none) ++
    ((m.cfg.inj s).map fun p =>
      uniLink ejectionW (.switch s) s p.swPort (.node p.nid) p.nid p.epPort m.cfg.injLat
        (some smallLatency))

/-- `buildLogPNetwork`, sstmac/sst_core/sstmacro.py:213-241. -/
def logPNetwork (m : Sys) : List CLink :=
  ((List.range m.nodes).map fun i =>
    ⟨logPinjectionW ++ (dec i ++ '-' :: '>' :: dec 0), ⟨.node i, portName .out logpPort, smallLatency⟩,
      ⟨.logp, portName .inp i, smallLatency⟩⟩) ++
  ((List.range m.nodes).map fun i =>
    ⟨logPejectionW ++ (dec 0 ++ '-' :: '>' :: dec i), ⟨.logp, portName .out i, m.cfg.logpLat⟩,
      ⟨.node i, portName .inp logpPort, m.cfg.logpLat⟩⟩)

/-- `build`, `buildFull` and `buildLogP`, sstmac/sst_core/sstmacro.py:243-261. -/
def build (m : Sys) : List CLink :=
  if m.cfg.logpModel then logPNetwork m
  else connectSwitches m ++ connectEndpoints m ++ logPNetwork m

/-- A port that a component has asked SST core for: `initInputLink` registers the payload
handler of `"input%d"`, `initOutputLink` the credit handler of `"output%d"`
(sstmac/hardware/common/connection.cc:105-165). -/
structure Slot where
  comp : Comp
  dir : Dir
  num : Nat
deriving DecidableEq, Repr

/-- The name the slot asks for. -/
def Slot.name (x : Slot) : Str := portName x.dir x.num

/-- `initOutputLink(out, _)`, sstmac/hardware/common/connection.cc:151-165. -/
def initOutputLink (c : Comp) (srcOutport _dstInport : Nat) : Slot := ⟨c, .out, srcOutport⟩

/-- `initInputLink(_, in)`, sstmac/hardware/common/connection.cc:136-149. -/
def initInputLink (c : Comp) (_srcOutport dstInport : Nat) : Slot := ⟨c, .inp, dstInport⟩

/-- `NetworkSwitch::configureLinks`, sstmac/hardware/switch/network_switch.cc:85-104: the
inputs are taken from the outputs, with the two ends exchanged. -/
def switchSlots (m : Sys) (s : Nat) : List Slot :=
  ((m.cfg.out s).flatMap fun k =>
    [initOutputLink (.switch s) k.srcPort k.dstPort, initInputLink (.switch s) k.dstPort k.srcPort]) ++
  ((m.cfg.inj s).flatMap fun p =>
    [initOutputLink (.switch s) p.swPort p.epPort, initInputLink (.switch s) p.epPort p.swPort])

/-- `Topology::injectionPorts`, sstmac/hardware/topology/topology.cc:355-367. -/
def injectionPorts (m : Sys) (n : Nat) : List Port :=
  (m.cfg.inj (m.swOf n)).filter fun p => p.nid == n

/-- `NIC::configureLogPLinks`, sstmac/hardware/nic/nic.cc:119-126. -/
def nodeLogpSlots (n : Nat) : List Slot :=
  [initInputLink (.node n) n logpPort, initOutputLink (.node n) logpPort n]

/-- `NIC::configureLinks`, sstmac/hardware/nic/nic.cc:128-141; in the LogP model only
`configureLogPLinks` (sstmac/hardware/logp/logp_nic.cc:66). -/
def nodeSlots (m : Sys) (n : Nat) : List Slot :=
  nodeLogpSlots n ++
    if m.cfg.logpModel then []
    else (injectionPorts m n).flatMap fun p =>
      [initOutputLink (.node n) p.epPort p.swPort, initInputLink (.node n) p.swPort p.epPort]

/-- The constructor of `LogPSwitch`, sstmac/hardware/logp/logp_switch.cc:95-100. -/
def logpSlots (m : Sys) : List Slot :=
  (List.range m.nodes).flatMap fun i =>
    [initInputLink .logp logpPort i, initOutputLink .logp i logpPort]

/-- All ports asked for by the components of the machine. -/
def slots (m : Sys) : List Slot :=
  (if m.cfg.logpModel then [] else (List.range m.cfg.nsw).flatMap (switchSlots m)) ++
    (List.range m.nodes).flatMap (nodeSlots m) ++ logpSlots m

/-- Is the end attached to the port of the slot? -/
def End.at (e : End) (x : Slot) : Bool := e.comp == x.comp && e.port == x.name

/-- No component stops with "cannot find input link" or "cannot find output link"
(sstmac/hardware/common/connection.cc:110-113, 125-128, 141-144, 156-159). -/
def started (m : Sys) : Bool :=
  (slots m).all fun x => (build m).any fun l => l.a.at x || l.b.at x

/-- What is sent on the port `x` is handed to the handler of the port `y` after `lat`. -/
def Carries (m : Sys) (x y : Slot) (lat : Nat) : Prop :=
  x ∈ slots m ∧ y ∈ slots m ∧ ∃ l, l ∈ build m ∧
    ((l.a.at x = true ∧ l.b.at y = true ∧ l.a.lat = lat) ∨
      (l.b.at x = true ∧ l.a.at y = true ∧ l.b.lat = lat))

end SST.Parallel.CoreLinks
