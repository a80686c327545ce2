import Verif.Events.Model
/-
Model of conservative parallel simulation with several workers:
  sstmac/backends/native/clock_cycle_event_container.cc (ClockCycleEventMap::run),
  sstmac/backends/native/multithreaded_event_container.cc (runWork, worker threads),
  sstmac/common/event_manager.cc (registerPending, runEvents),
  sstmac/common/event_scheduler.cc (LocalLink / MultithreadLink / IpcLink).

Each worker owns an event manager and the components mapped to it.  Workers share no
state inside a window: events for another worker go to a per-source list that the
destination reads only after the barrier (`pending_events_[slot][srcThread]`,
event_manager.h:192-194, 259-262), so a window of one worker is a function of that
worker's own state and the threads' interleaving does not appear in the model.

Simplifications: link sequence numbers and times are unbounded naturals (the 32-bit
wrap of sequence numbers is treated in C08, the 64-bit wrap of ticks in C01); link
numbers are the 32-bit ids, assumed distinct; `stop()` is not used by components here;
`num_profile_loops` is 0.
-/
namespace SST.Parallel
open SST.Events

/-- A simulated system: which component sends and which receives on each link, the link
latency, what each component sends during `setup()`, its initial state, and its event
handler (arbitrary).  Sends name the link number in `port`. -/
structure Program (σ P : Type) where
  src : Nat → Nat
  dst : Nat → Nat
  latency : Nat → Nat
  ncomp : Nat
  setup : Nat → List (Send P)
  init : Nat → σ
  handle : Nat → σ → Event P → σ × List (Send P)

/-- Component states and link counters held by a worker. -/
structure WSt (σ : Type) where
  st : Nat → σ
  seq : Nat → Nat

/-- Function update. -/
def upd {α : Type} (f : Nat → α) (i : Nat) (a : α) : Nat → α := fun j => if j = i then a else f j

/-- The sends of one handler at clock `now` on worker `w`, where `part` maps components
to workers: a local link schedules directly (event_scheduler.cc:184-193), a link to
another worker hands the event over (event_scheduler.cc:195-213, 220-230).  Which kind
of link is used is decided by the partition (sstmac/hardware/interconnect/interconnect.cc,
connect functions). -/
def emit {σ P : Type} (pr : Program σ P) (part : Nat → Nat) (w now : Nat) (seq : Nat → Nat) :
    List (Send P) → (Nat → Nat) × List (Act P)
  | [] => (seq, [])
  | s :: ss =>
    let e : Event P := ⟨now + s.delay + pr.latency s.port, s.port, seq s.port, s.payload⟩
    let r := emit pr part w now (upd seq s.port (seq s.port + 1)) ss
    (r.1, (if part (pr.dst s.port) = w then .schedule e else .remote e) :: r.2)

/-- The handler run by worker `w`: dispatch to the receiving component. -/
def handler {σ P : Type} (pr : Program σ P) (part : Nat → Nat) (w : Nat) : Handler (WSt σ) P :=
  fun u e =>
    let c := pr.dst e.link
    let r := pr.handle c (u.st c) e
    let o := emit pr part w e.time u.seq r.2
    (⟨upd u.st c r.1, o.1⟩, o.2)

/-- Worker `w` after `interconn_->setup()` (clock_cycle_event_container.cc:150,
multithreaded_event_container.cc:299): its components' setup sends in order. -/
def setupWorker {σ P : Type} (pr : Program σ P) (part : Nat → Nat) (w : Nat) :
    Option (Exec (WSt σ) P) :=
  let sends := ((List.range pr.ncomp).filter (fun c => part c == w)).flatMap pr.setup
  let o := emit pr part w 0 (fun _ => 0) sends
  doActs true (start ⟨pr.init, o.1⟩) o.2

/-- `runEvents` loop run to its end in `n` iterations, event_manager.cc:184-206. -/
inductive Runs {S P : Type} (sanity : Bool) (h : Handler S P) (horizon : Option Nat) :
    Nat → Exec S P → Exec S P → Prop
  | halt {x} : step sanity h horizon x = .halt → Runs sanity h horizon 0 x x
  | next {n x y z} : step sanity h horizon x = .next y → Runs sanity h horizon n y z →
      Runs sanity h horizon (n + 1) x z

/-- `n` iterations of the `runEvents` loop, not necessarily to its end. -/
inductive Prefix {S P : Type} (h : Handler S P) (horizon : Option Nat) :
    Nat → Exec S P → Exec S P → Prop
  | refl {x} : Prefix h horizon 0 x x
  | next {n x y z} : Prefix h horizon n x y → step true h horizon y = .next z →
      Prefix h horizon (n + 1) x z

/-- Events waiting to be registered at worker `w`, listed by source worker
(event_manager.h:261, event_manager.cc:329-343). -/
def pendingFor {σ P : Type} (pr : Program σ P) (part : Nat → Nat) (N : Nat)
    (ms : Nat → Mgr P) (w : Nat) : List (Event P) :=
  (List.range N).flatMap (fun v => (ms v).outbox.filter (fun e => part (pr.dst e.link) == w))

/-- `registerPending` and the reset of `min_ipc_time_` at the start of `runEvents`
(event_manager.cc:180-181, 321-345); the worker's own outgoing lists have been emptied by
their readers.  `none` is an abort. -/
def register {S P : Type} (inc : List (Event P)) (x : Exec S P) : Option (Exec S P) :=
  doActs true { x with mgr := { x.mgr with minIpc := none, outbox := [] } }
    (inc.map Act.schedule)

/-- One round of all workers: everybody registers the incoming events, in any order, and
runs to the horizon `lb + L`. -/
def Round {σ P : Type} (pr : Program σ P) (part : Nat → Nat) (N L lb : Nat)
    (ws ws' : Nat → Exec (WSt σ) P) : Prop :=
  ∀ w, w < N → ∃ inc m n,
    inc.Perm (pendingFor pr part N (fun v => (ws v).mgr) w) ∧
    register inc (ws w) = some m ∧
    Runs true (handler pr part w) (some (lb + L)) n m (ws' w)

/-- The new lower bound: the minimum of all votes
(multithreaded_event_container.cc:261-272, clock_cycle_event_container.cc:175-177;
the reduction tree itself is C11). -/
def nextBound {σ P : Type} (N : Nat) (ws : Nat → Exec (WSt σ) P) : Option Nat :=
  (List.range N).foldr (fun w t => minTime (vote (ws w)) t) none

/-- The states reached by the parallel main loop after `k` rounds
(clock_cycle_event_container.cc:147-192, multithreaded_event_container.cc:230-287) with
lower bound `lb` (`none`: `no_events_left_time`, the loop ends). -/
inductive Reach {σ P : Type} (pr : Program σ P) (part : Nat → Nat) (N L : Nat) :
    Nat → Option Nat → (Nat → Exec (WSt σ) P) → Prop
  | start {ws} : (∀ w, w < N → setupWorker pr part w = some (ws w)) →
      Reach pr part N L 0 (some 0) ws
  | round {k lb ws ws'} : Reach pr part N L k (some lb) ws →
      Round pr part N L lb ws ws' →
      Reach pr part N L (k + 1) (nextBound N ws') ws'

/-- The serial simulation: the same program with every component on worker 0. -/
def serialPart : Nat → Nat := fun _ => 0

/-- `n` events executed by the serial simulation (`EventManager::run`,
event_manager.cc:396-410: `runEvents(no_events_left_time)`). -/
inductive Serial {σ P : Type} (pr : Program σ P) : Nat → Exec (WSt σ) P → Prop
  | start {x} : setupWorker pr serialPart 0 = some x → Serial pr 0 x
  | next {n x y} : Serial pr n x →
      step true (handler pr serialPart 0) none x = .next y → Serial pr (n + 1) y

/-- The assumptions of conservative simulation: every component is on one of the `N`
workers, a component sends only on its own outgoing links
(components hold their own EventLink objects, event_scheduler.h:92-110), links between
different workers have latency at least the lookahead `L`
(checked in interconnect.cc:176-187, see `checkLookahead`), and the lookahead is not zero
(clock_cycle_event_container.cc:162-164). -/
structure Net {σ P : Type} (pr : Program σ P) (part : Nat → Nat) (N : Nat) (L : Nat) : Prop where
  npart : ∀ c, part c < N
  lat : ∀ l, part (pr.src l) ≠ part (pr.dst l) → L ≤ pr.latency l
  handle_src : ∀ c s e o, o ∈ (pr.handle c s e).2 → pr.src o.port = c
  setup_src : ∀ c o, o ∈ pr.setup c → pr.src o.port = c
  pos : 0 < L

/-! ### The message-passing variant

With several processes (`nproc_ > 1`) events are serialised into a send buffer and are
exchanged at the end of the round, after the vote
(clock_cycle_event_container.cc:115-143).  A round is therefore: run the window, vote,
exchange.  After setup there is no exchange: the first thing is `runEvents`, whose line
181 resets `min_ipc_time_`, while what was sent during setup stays in the send buffer. -/

/-- `min_ipc_time_ = no_events_left_time` at the start of the first `runEvents`,
event_manager.cc:181.  (`register` does it for the later ones: the value is not read
between the exchange and the next window.) -/
def ipcStart {S P : Type} (x : Exec S P) : Exec S P :=
  { x with mgr := { x.mgr with minIpc := none } }

/-- One round with message passing: states before `zs`, after the window `ys`, after the
exchange `zs'`. -/
def RoundIpc {σ P : Type} (pr : Program σ P) (part : Nat → Nat) (N L lb : Nat)
    (zs ys zs' : Nat → Exec (WSt σ) P) : Prop :=
  ∀ w, w < N → (∃ n, Runs true (handler pr part w) (some (lb + L)) n (zs w) (ys w)) ∧
    ∃ inc, inc.Perm (pendingFor pr part N (fun v => (ys v).mgr) w) ∧
      register inc (ys w) = some (zs' w)

/-- Main loop with message passing, clock_cycle_event_container.cc:147-192. -/
inductive ReachIpc {σ P : Type} (pr : Program σ P) (part : Nat → Nat) (N L : Nat) :
    Nat → Option Nat → (Nat → Exec (WSt σ) P) → Prop
  | start {ws : Nat → Exec (WSt σ) P} : (∀ w, w < N → setupWorker pr part w = some (ws w)) →
      ReachIpc pr part N L 0 (some 0) (fun w => ipcStart (ws w))
  | round {k lb zs ys zs'} : ReachIpc pr part N L k (some lb) zs →
      RoundIpc pr part N L lb zs ys zs' →
      ReachIpc pr part N L (k + 1) (nextBound N ys) zs'

end SST.Parallel

namespace SST.Parallel

/-! ### Lookahead -/

/-- `EventLink::setMinThreadLatency` / `setMinRemoteLatency`, event_scheduler.h:162-182:
called once for every link between workers; 0 is the unset value; `none` is an abort. -/
def setMinLatency (cur t : Nat) : Option Nat :=
  if t = 0 then none
  else if cur = 0 then some t
  else some (min cur t)

/-- All cross-worker links of one kind constructed in order. -/
def setMinLatencies (cur : Nat) : List Nat → Option Nat
  | [] => some cur
  | t :: ts =>
    match setMinLatency cur t with
    | none => none
    | some c => setMinLatencies c ts

/-- The check at the end of the `Interconnect` constructor,
sstmac/hardware/interconnect/interconnect.cc:176-187: `none` is an abort, otherwise the
accepted lookahead. -/
def checkLookahead (lookahead minRemote minThread : Nat) : Option Nat :=
  let c0 := lookahead
  let c1 := if minRemote > 0 then minRemote else c0
  let c2 := if minThread > 0 then min c1 minThread else c1
  if c2 < lookahead then none else some lookahead

/-- The parallel main loops refuse a zero lookahead
(clock_cycle_event_container.cc:162-164, multithreaded_event_container.cc:240-242). -/
def startLookahead (lookahead : Nat) : Option Nat :=
  if lookahead = 0 then none else some lookahead

end SST.Parallel
