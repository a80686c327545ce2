import Verif.Mpi.Model
/-!
Blocking probes (`MpiApi::probe`, mpi_api_probe.cc:58-77, `MpiQueue::probe` and
`notifyProbes`, mpi_queue.cc:261-286 and 401-415) on top of the matching model: the probe
either finds a message at once or waits in `probelist_`, and the protocols notify waiting
probes of messages they handle.
-/
set_option autoImplicit false
namespace SST.Mpi

/-- `mpi_queue_probe_request`. -/
structure Probe where
  id : Nat
  source : Int
  tag : Int
  comm : Nat
deriving DecidableEq, Repr

/-- `mpi_queue_probe_request::matches`, mpi_queue_probe_request.cc:66-75. -/
def Probe.matches (p : Probe) (m : Msg) : Bool := Req.eligible ⟨0, p.source, p.tag, p.comm, 0⟩ m

/-- The receiving queue with its probes. -/
structure PSt where
  /-- the queue without probes -/
  base : St
  /-- `probelist_`: probes that wait -/
  probes : List Probe
  /-- probes that have returned, with the message they report; oldest first -/
  done : List (Nat × Msg)
  /-- number of probes so far -/
  nextProbe : Nat
  /-- all probes so far, oldest first -/
  asked : List Probe

/-- Nothing has happened yet. -/
def PSt.init : PSt := { base := St.init, probes := [], done := [], nextProbe := 0, asked := [] }

/-- Why a run stops. -/
inductive PAbort where
  /-- an abort of the queue -/
  | queue (a : Abort)
  /-- a deleted message is read -/
  | readsDeleted
deriving DecidableEq, Repr

/-- `notifyProbes`, mpi_queue.cc:401-415: every waiting probe that matches returns. -/
def notify (s : PSt) (m : Msg) : PSt :=
  { s with probes := s.probes.filter (fun p => !p.matches m)
           done := s.done ++ (s.probes.filter (fun p => p.matches m)).map (fun p => (p.id, m)) }

/-- `findMatchingRecv(MpiMessage*)` finds a posted receive. -/
def finds (s : St) (m : Msg) : Bool :=
  match searchPosted s.cancelled m s.posted with
  | .ok (some _, _) => true
  | _ => false

/-- `Eager0::incoming(msg)`, eager0.cc:103-121 with :83-101: with a matching receive the
message is reported to the probes and deleted, and then passed to `notifyProbes` again, which
reads it if any probe is left.  `RendezvousGet::incomingHeader`, rendezvous_rdma.cc:187-198:
the probes are notified, matched or not.  `Eager1::incomingPayload`, eager1.cc:96-102: the
probes are not notified. -/
def pMatch (s : PSt) (m : Msg) : Except PAbort PSt :=
  match matchMsg s.base m with
  | .error a => .error (.queue a)
  | .ok b =>
    match m.prot with
    | .eager1 => .ok { s with base := b }
    | .rendezvous => .ok (notify { s with base := b } m)
    | .eager0 =>
      let s1 := notify { s with base := b } m
      if finds s.base m && !s1.probes.isEmpty then .error .readsDeleted else .ok s1

/-- `handlePt2ptMessage`, as `handle`. -/
def pHandle (s : PSt) (m : Msg) : Except PAbort PSt :=
  let s : PSt := { s with base := { s.base with log := s.base.log ++ [Ev.handled m] } }
  match m.prot with
  | .eager1 => .ok { s with base := { s.base with fetching := s.base.fetching ++ [m] } }
  | _ => pMatch s m

/-- The loop over held messages, as `release`. -/
def pRelease (s : PSt) (t : Nat) : List Msg → Except PAbort PSt
  | [] => .ok { s with base := { s.base with held := upd s.base.held t [] } }
  | m :: l =>
    if m.seq ≤ s.base.nextIn t then
      match pHandle s m with
      | .error a => .error a
      | .ok s => pRelease { s with base := { s.base with nextIn := upd s.base.nextIn t (s.base.nextIn t + 1) } } t l
    else .ok { s with base := { s.base with held := upd s.base.held t (m :: l) } }

/-- `incomingPt2ptMessage`, as `arrive`. -/
def pArrive (s : PSt) (m : Msg) : Except PAbort PSt :=
  let t := m.sender
  if m.seq = s.base.nextIn t then
    match pHandle s m with
    | .error a => .error a
    | .ok s => pRelease { s with base := { s.base with nextIn := upd s.base.nextIn t (s.base.nextIn t + 1) } } t (s.base.held t)
  else if m.seq < s.base.nextIn t then .error (.queue .backwards)
  else .ok { s with base := { s.base with held := upd s.base.held t (hold m (s.base.held t)) } }

/-- `MpiQueue::probe`, mpi_queue.cc:261-286. -/
def probe (s : PSt) (source tag : Int) (comm : Nat) : PSt :=
  let p : Probe := ⟨s.nextProbe, source, tag, comm⟩
  match s.base.unexpected.find? (fun m => p.matches m) with
  | some m => { s with nextProbe := s.nextProbe + 1, asked := s.asked ++ [p], done := s.done ++ [(p.id, m)] }
  | none => { s with nextProbe := s.nextProbe + 1, asked := s.asked ++ [p], probes := s.probes ++ [p] }

/-- What can happen next. -/
inductive POp where
  /-- what can happen without probes -/
  | queue (op : Op)
  /-- the application calls `MPI_Probe` -/
  | probe (source tag : Int) (comm : Nat)

/-- One step. -/
def pStep (s : PSt) : POp → Except PAbort PSt
  | .probe source tag comm => .ok (probe s source tag comm)
  | .queue (.deliver i) =>
    match s.base.net[i]? with
    | none => .ok s
    | some m => pArrive { s with base := { s.base with net := s.base.net.eraseIdx i } } m
  | .queue (.payload i) =>
    match s.base.fetching[i]? with
    | none => .ok s
    | some m => pMatch { s with base := { s.base with fetching := s.base.fetching.eraseIdx i } } m
  | .queue op =>
    match step s.base op with
    | .error a => .error (.queue a)
    | .ok b => .ok { s with base := b }

/-- A whole history. -/
def pRun (s : PSt) : List POp → Except PAbort PSt
  | [] => .ok s
  | op :: ops =>
    match pStep s op with
    | .error a => .error a
    | .ok s => pRun s ops

end SST.Mpi
