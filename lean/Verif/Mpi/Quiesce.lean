/-
How a process knows how long it and its partners are busy with rendezvous transfers, and how that selects
the quality of service (QoS) of the transfers: sumi-mpi/mpi_protocol/rendezvous_rdma.cc,
sumi-mpi/mpi_protocol/mpi_protocol.h and the time that messages carry, sumi-mpi/mpi_message.{h,cc}.

Not modelled: buffers, the log of delays, which flow a message belongs to (C19, C20) and the cutoffs by bandwidth,
which are read and not used.  Times are ticks as integers.
-/
set_option autoImplicit false
namespace SST.Mpi.Quiesce

/-- The parameters of `RendezvousProtocol`, rendezvous_rdma.cc:56-74, and the fixed cutoff of
rendezvous_rdma.cc:218, in ticks.  `catchUp` is `none` without `catch_up_qos`. -/
structure Conf where
  /-- `rdma_get_qos_` -/
  getQos : Nat
  /-- `catch_up_qos_` -/
  catchUp : Option Nat
  /-- `TimeDelta(0.0004)` -/
  cutoff : Int

/-- The fields of `RendezvousProtocol`, mpi_protocol.h:181-192. -/
structure S where
  /-- `numOutstanding_` -/
  out : Int
  /-- `lastQuiesce_` -/
  last : Int
  /-- `minPartnerQuiesce_` -/
  minP : Int

/-- After construction: times are zero, but the constructor does not set `numOutstanding_`
(rendezvous_rdma.cc:56-74), so its value is arbitrary. -/
def init (garbage : Int) : S := ⟨garbage, 0, 0⟩

/-- What happens at a process, with the time and the time that the message carries. -/
inductive Ev where
  /-- a long send begins -/
  | send (now : Int)
  /-- a header arrives; a receive is posted or not -/
  | header (now mq : Int) (posted : Bool)
  /-- a receive is posted whose header has arrived before -/
  | post (now : Int)
  /-- the data of a receive arrive -/
  | payload (now mq : Int)
  /-- the acknowledgement of a send arrives -/
  | ack (now mq : Int)
deriving DecidableEq

/-- `newOutstanding`, rendezvous_rdma.cc:76-84. -/
def newOutstanding (s : S) (now : Int) : S :=
  let s' := if s.out = 0 then { s with last := now, minP := now } else s
  { s' with out := s'.out + 1 }

/-- `finishedOutstanding`, rendezvous_rdma.cc:86-90. -/
def finished (s : S) : S := { s with out := s.out - 1 }

/-- The QoS in `incoming(msg, req)`, rendezvous_rdma.cc:206-221. -/
def qos (c : Conf) (s : S) (now : Int) : Nat :=
  match c.catchUp with
  | none => c.getQos
  | some q => if c.cutoff < now - s.minP then q else c.getQos

/-- What a process sends: the time that the message carries and the QoS of a transfer. -/
inductive Sent where
  /-- a header -/
  | header (mq : Int)
  /-- the request of the data -/
  | get (mq : Int) (qos : Nat)
deriving DecidableEq

/-- `incoming(msg, req)`, rendezvous_rdma.cc:200-236. -/
def getData (c : Conf) (s : S) (now : Int) : S × Option Sent :=
  let s' := newOutstanding s now
  (s', some (.get s'.minP (qos c s' now)))

/-- `start`, rendezvous_rdma.cc:113-130, `incoming(msg)`, rendezvous_rdma.cc:160-185, with `incomingHeader`,
rendezvous_rdma.cc:187-198, `incomingPayload`, rendezvous_rdma.cc:238-266, and `incomingAck`,
rendezvous_rdma.cc:132-158. -/
def step (c : Conf) (s : S) : Ev → S × Option Sent
  | .send now => (newOutstanding s now, some (.header s.minP))
  | .header now mq posted =>
    let s' := { s with minP := min s.minP mq }
    if posted then getData c s' now else (s', none)
  | .post now => getData c s now
  | .payload _ mq => (finished { s with minP := min s.minP mq }, none)
  | .ack _ mq => (finished { s with minP := min s.minP mq }, none)

/-- A history. -/
def run (c : Conf) (s : S) (h : List Ev) : S := h.foldl (fun s e => (step c s e).1) s

/-- What arrives of the time in a message: `serialize_order`, mpi_message.cc:58-68, leaves it out, and the
constructor for serialization, mpi_message.h:141, makes it zero. -/
def arrives (otherRank : Bool) (mq : Int) : Int := if otherRank then 0 else mq

end SST.Mpi.Quiesce
