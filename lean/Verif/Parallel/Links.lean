import Verif.Parallel.Model
set_option autoImplicit false
/-
Model of how the simulator wires its components together when the components are spread
over processes and threads: the constructor of `Interconnect`
(sstmac/hardware/interconnect/interconnect.cc:113-190) with `connectLogP` (320-415),
`connectSwitches` (517-614), `connectEndpoints` (223-293) and
`configureInterconnectLookahead` (193-205), and what a link object does with an event
(sstmac/common/event_scheduler.cc:184-230, event_manager.cc:151-157, 283-310).

Every process runs the constructor on the same parameters and numbers all links of the
machine, building only those whose sending side it owns.

Simplifications: the list of ejection ports of a switch is the list of its injection ports,
as in every topology of the library (structured_topology.cc:65-69, file.h:107-111);
`conn.src` of an outport of switch `i` is `i`; the topology and the partition are given as
functions; component construction has no effect on links.
-/
namespace SST.Parallel.Links
open SST.Parallel

/-- `Topology::InjectionPort`, sstmac/hardware/topology/topology.h:104-108. -/
structure Port where
  nid : Nat
  swPort : Nat
  epPort : Nat
deriving DecidableEq, Repr

/-- `Topology::Connection`, sstmac/hardware/topology/topology.h:79-84, without `src`. -/
structure Conn where
  srcPort : Nat
  dst : Nat
  dstPort : Nat
deriving DecidableEq, Repr

/-- The inputs of the constructor that matter for the wiring: number of processes and of
threads per process (`rt_->nproc()`, `mgr->nthread()`), the partition
(`lpidForSwitch`, `threadForSwitch`), the topology, and the latency parameters. -/
structure Cfg where
  nproc : Nat
  nthread : Nat
  nsw : Nat
  rank : Nat → Nat
  thread : Nat → Nat
  inj : Nat → List Port
  out : Nat → List Conn
  logpModel : Bool
  logpLat : Nat
  linkLat : Nat
  injLat : Nat
  ejLat : Nat

/-- One event manager of the parallel run: a thread of a process. -/
structure Worker where
  rank : Nat
  thread : Nat
deriving DecidableEq, Repr

/-- The handlers that links deliver to: `payloadHandler` / `creditHandler` of a port of a
switch or of a node, of the NIC's LogP port (`NIC::LogP`), and of a LogP switch. -/
inductive Recv
  | switchPayload (sw port : Nat)
  | switchCredit (sw port : Nat)
  | nodePayload (nid port : Nat)
  | nodeCredit (nid port : Nat)
  | nicLogp (nid : Nat)
  | logpIn (port : Nat)
deriving DecidableEq, Repr

/-- The places links are plugged into: `connectOutput` (events out of a port) and
`connectInput` (credits back out of a port) of a switch or of a node, the NIC's LogP
output, and the output of a LogP switch towards a node. -/
inductive Sender
  | switchOut (sw port : Nat)
  | switchIn (sw port : Nat)
  | nodeOut (nid port : Nat)
  | nodeIn (nid port : Nat)
  | nicLogp (nid : Nat)
  | logpOut (nid : Nat)
deriving DecidableEq, Repr

/-- The three link classes, event_scheduler.h:530-606, with the manager whose clock is read
on sending, and the destination. -/
inductive Kind
  | localL (thr : Nat) (to : Recv)
  | mt (thr dstThr : Nat) (to : Recv)
  | ipc (thr rank dstThr : Nat)
deriving DecidableEq, Repr

/-- What one process does while it builds the machine: construct a link and plug it in, or
`addLinkHandler` on one of its thread managers. -/
inductive Act
  | link (id lat : Nat) (sender : Sender) (kind : Kind)
  | handler (thr id : Nat) (to : Recv)
deriving DecidableEq, Repr

/-- The running link number and what was built so far. -/
structure Bld where
  id : Nat
  acts : List Act
deriving DecidableEq, Repr

/-- `linkId++` with nothing built, e.g. interconnect.cc:357. -/
def Bld.skip (b : Bld) : Bld := ⟨b.id + 1, b.acts⟩

/-- `new …Link(linkId++, …)` and `connect…`. -/
def Bld.link (b : Bld) (lat : Nat) (s : Sender) (k : Kind) : Bld :=
  ⟨b.id + 1, b.acts ++ [.link b.id lat s k]⟩

/-- `addLinkHandler(linkId, handler)` without incrementing, interconnect.cc:552, 584. -/
def Bld.handler (b : Bld) (thr : Nat) (to : Recv) : Bld :=
  ⟨b.id, b.acts ++ [.handler thr b.id to]⟩

/-- `for rank … for logp …` of interconnect.cc:361-373 and 399-411, for one node. -/
def peerLoop (c : Cfg) (me s : Nat) (p : Port) (b : Bld) (ranks : List Nat) : Bld :=
  ranks.foldl (fun b _ => (List.range c.nthread).foldl (fun b _ =>
    if c.rank s = me then (b.handler (c.thread s) (.nicLogp p.nid)).skip else b.skip) b) b

/-- One node of `connectLogP`, interconnect.cc:346-412. -/
def logpNode (c : Cfg) (me s : Nat) (b : Bld) (p : Port) : Bld :=
  let b :=
    if c.rank s = me then b.link 0 (.nicLogp p.nid) (.localL (c.thread s) (.logpIn p.swPort))
    else b.skip
  let b := peerLoop c me s p b (List.range me)
  let b := (List.range c.nthread).foldl (fun b t =>
    if me = c.rank s ∧ t = c.thread s then
      b.link c.logpLat (.logpOut p.nid) (.localL (c.thread s) (.nicLogp p.nid))
    else if me = c.rank s then
      b.link c.logpLat (.logpOut p.nid) (.mt t (c.thread s) (.nicLogp p.nid))
    else
      b.link c.logpLat (.logpOut p.nid) (.ipc t (c.rank s) (c.thread s))) b
  peerLoop c me s p b (List.range' (me + 1) (c.nproc - (me + 1)))

/-- `Interconnect::connectLogP`, interconnect.cc:320-415. -/
def connectLogP (c : Cfg) (me : Nat) (b : Bld) : Bld :=
  (List.range c.nsw).foldl (fun b s => (c.inj s).foldl (logpNode c me s) b) b

/-- One connection of `connectSwitches`, interconnect.cc:538-611. -/
def switchConn (c : Cfg) (me s : Nat) (b : Bld) (k : Conn) : Bld :=
  let b :=
    if c.rank k.dst = me ∧ c.rank s ≠ me then
      b.handler (c.thread k.dst) (.switchPayload k.dst k.dstPort)
    else b
  let b :=
    if c.rank s = me then
      if c.rank k.dst = me ∧ c.thread k.dst = c.thread s then
        b.link c.linkLat (.switchOut s k.srcPort)
          (.localL (c.thread s) (.switchPayload k.dst k.dstPort))
      else if c.rank k.dst = me then
        b.link c.linkLat (.switchOut s k.srcPort)
          (.mt (c.thread s) (c.thread k.dst) (.switchPayload k.dst k.dstPort))
      else
        b.link c.linkLat (.switchOut s k.srcPort)
          (.ipc (c.thread s) (c.rank k.dst) (c.thread k.dst))
    else b.skip
  let b :=
    if c.rank k.dst ≠ me ∧ c.rank s = me then
      b.handler (c.thread s) (.switchCredit s k.srcPort)
    else b
  if c.rank k.dst = me then
    if c.rank s = me ∧ c.thread s = c.thread k.dst then
      b.link c.linkLat (.switchIn k.dst k.dstPort)
        (.localL (c.thread k.dst) (.switchCredit s k.srcPort))
    else if c.rank s = me then
      b.link c.linkLat (.switchIn k.dst k.dstPort)
        (.mt (c.thread k.dst) (c.thread s) (.switchCredit s k.srcPort))
    else
      b.link c.linkLat (.switchIn k.dst k.dstPort)
        (.ipc (c.thread k.dst) (c.rank s) (c.thread s))
  else b.skip

/-- `Interconnect::connectSwitches`, interconnect.cc:517-614. -/
def connectSwitches (c : Cfg) (me : Nat) (b : Bld) : Bld :=
  (List.range c.nsw).foldl (fun b s => (c.out s).foldl (switchConn c me s) b) b

/-- One injection port of `connectEndpoints`, interconnect.cc:255-272. -/
def injPort (c : Cfg) (me s : Nat) (b : Bld) (p : Port) : Bld :=
  if c.rank s = me then
    (b.link c.injLat (.switchIn s p.swPort)
        (.localL (c.thread s) (.nodeCredit p.nid p.epPort))).link
      c.injLat (.nodeOut p.nid p.epPort) (.localL (c.thread s) (.switchPayload s p.swPort))
  else ⟨b.id + 2, b.acts⟩

/-- One ejection port of `connectEndpoints`, interconnect.cc:275-290. -/
def ejPort (c : Cfg) (me s : Nat) (b : Bld) (p : Port) : Bld :=
  if c.rank s = me then
    (b.link c.ejLat (.switchOut s p.swPort)
        (.localL (c.thread s) (.nodePayload p.nid p.epPort))).link
      c.ejLat (.nodeIn p.nid p.epPort) (.localL (c.thread s) (.switchCredit s p.swPort))
  else ⟨b.id + 2, b.acts⟩

/-- `Interconnect::connectEndpoints`, interconnect.cc:223-293. -/
def connectEndpoints (c : Cfg) (me : Nat) (b : Bld) : Bld :=
  (List.range c.nsw).foldl (fun b s =>
    (c.inj s).foldl (ejPort c me s) ((c.inj s).foldl (injPort c me s) b)) b

/-- The link-building part of the constructor on process `me`, interconnect.cc:164-174. -/
def build (c : Cfg) (me : Nat) : Bld :=
  let b := connectLogP c me ⟨0, []⟩
  if c.logpModel then b else connectEndpoints c me (connectSwitches c me b)

/-- `configureInterconnectLookahead` (interconnect.cc:193-205), or the latency of the LogP
switch (interconnect.cc:171-173). -/
def lookahead (c : Cfg) : Nat := if c.logpModel then c.logpLat else min c.injLat c.linkLat

/-- Latencies of the IPC links a process builds, in order (event_scheduler.h:576-590). -/
def ipcLats (acts : List Act) : List Nat :=
  acts.filterMap fun | .link _ lat _ (.ipc _ _ _) => some lat | _ => none

/-- Latencies of the multithread links a process builds, in order
(event_scheduler.h:556-565). -/
def mtLats (acts : List Act) : List Nat :=
  acts.filterMap fun | .link _ lat _ (.mt _ _ _) => some lat | _ => none

/-- The whole constructor on process `me`, interconnect.cc:113-190: `none` is an abort (a
zero-latency link between workers, or the lookahead check), otherwise the lookahead. -/
def construct (c : Cfg) (me : Nat) : Option Nat :=
  match setMinLatencies 0 (ipcLats (build c me).acts), setMinLatencies 0 (mtLats (build c me).acts) with
  | some r, some t => checkLookahead (lookahead c) r t
  | _, _ => none

/-- `link_handlers_[id]` of thread manager `thr` after construction
(event_manager.cc:151-157: a later registration replaces an earlier one). -/
def handlerAt (acts : List Act) (thr id : Nat) : Option Recv :=
  acts.foldl (fun o a =>
    match a with
    | .handler t i to => if t = thr ∧ i = id then some to else o
    | .link _ _ _ _ => o) none

/-- Where an event sent over a link built by process `me` is handled:
`LocalLink::send` schedules on its own manager (event_scheduler.cc:184-193),
`MultithreadLink::send` on the destination manager of the process (220-230), and
`IpcLink::send` sends the link number to thread `thread_` of process `rank_` (195-213),
where `scheduleIncoming` looks the handler up by link number (event_manager.cc:283-310);
`none`: no handler there. -/
def delivered (c : Cfg) (me id : Nat) : Kind → Option (Worker × Recv)
  | .localL thr to => some (⟨me, thr⟩, to)
  | .mt _ thr to => some (⟨me, thr⟩, to)
  | .ipc _ r thr => (handlerAt (build c r).acts thr id).map fun h => (⟨r, thr⟩, h)

/-- The manager whose clock times the sends on a link: the one of the sending side. -/
def Kind.sendThread : Kind → Nat
  | .localL t _ => t
  | .mt t _ _ => t
  | .ipc t _ _ => t

end SST.Parallel.Links
