/-
Model of the serial event kernel:
  sstmac/common/event_manager.{h,cc}, sstmac/common/event_scheduler.{h,cc},
  sstmac/common/sst_event.h.

Simulated times are natural numbers (tick counts of one epoch).  The source uses
64-bit ticks; `Timestamp::carry_bits_mask` is 0 so the epoch field never changes,
and as long as ticks do not wrap (see C01) the order on time stamps is the order on
ticks.  `EventManager::no_events_left_time` (the maximal time stamp) is `none`.

Event objects are modelled by their time, link id, sequence number and a payload of
arbitrary type.  Debug output and statistics are not modelled.
-/
namespace SST.Events

/-- `ExecutionEvent`, sstmac/common/sst_event.h:81-129: the fields used for ordering
plus a payload standing for the handler and its argument. -/
structure Event (P : Type) where
  time : Nat
  link : Nat
  seq : Nat
  payload : P
deriving DecidableEq, Repr

/-- `EventManager::EventCompare::operator()`, event_manager.h:298-309. -/
def Event.lt {P : Type} (a b : Event P) : Bool :=
  if a.time ≠ b.time then decide (a.time < b.time)
  else if a.link = b.link then decide (a.seq < b.seq)
  else decide (a.link < b.link)

/-- `std::set::insert` with `EventCompare` (event_manager.h:310-312): the set is kept
as the list of its elements in iteration order; an element that is equivalent to one
already present is not inserted. -/
def insert {P : Type} (e : Event P) : List (Event P) → List (Event P)
  | [] => [e]
  | x :: xs =>
    if e.lt x then e :: x :: xs
    else if x.lt e then x :: insert e xs
    else x :: xs

/-- The part of `EventManager` (event_manager.h:92-322) that takes part in running
events: the clock `now_`, `event_queue_`, `min_ipc_time_`, `stopped_`, and the events
sent to other managers (`multithreadSchedule`, event_manager.h:192-194, and
`ipcSchedule`, event_manager.cc:412-416) collected in `outbox`. -/
structure Mgr (P : Type) where
  now : Nat
  queue : List (Event P)
  minIpc : Option Nat
  outbox : List (Event P)
  stopped : Bool
deriving DecidableEq, Repr

/-- State after construction, event_manager.cc:108-135. -/
def Mgr.init {P : Type} : Mgr P := ⟨0, [], none, [], false⟩

/-- `std::min` on time stamps, `none` being `no_events_left_time`. -/
def minTime : Option Nat → Option Nat → Option Nat
  | none, b => b
  | a, none => a
  | some a, some b => some (min a b)

/-- `EventManager::schedule`, event_manager.cc:439-458.  `sanity` is the build option
`SSTMAC_SANITY_CHECK` (acinclude/check_debug.m4:22-38, default off).
`none` is `spkt_abort_printf`. -/
def schedule {P : Type} (sanity : Bool) (m : Mgr P) (e : Event P) : Option (Mgr P) :=
  if sanity && decide (e.time < m.now) then none
  else
    let q := insert e m.queue
    if sanity && decide (q.length = m.queue.length) then none
    else some { m with queue := q }

/-- What a handler may do to the event manager while it runs. -/
inductive Act (P : Type) where
  /-- `EventManager::schedule` (from `LocalLink::send` event_scheduler.cc:184-193 or
  `sendExecutionEvent` event_scheduler.cc:108-115). -/
  | schedule (e : Event P)
  /-- `MultithreadLink::send` event_scheduler.cc:220-230 / `IpcLink::send` :195-213. -/
  | remote (e : Event P)
  /-- `EventManager::stop`, event_manager.cc:159-169. -/
  | stop
deriving Repr

/-- A manager, the state `user` of all simulated components, and two ghost logs:
`trace` lists the executed events in order, `calls` lists every `schedule` call as
(clock at the call, event). -/
structure Exec (S P : Type) where
  mgr : Mgr P
  user : S
  trace : List (Event P)
  calls : List (Nat × Event P)
deriving Repr

/-- One action of a handler; `none` is an abort. -/
def doAct {S P : Type} (sanity : Bool) (x : Exec S P) : Act P → Option (Exec S P)
  | .schedule e =>
    match schedule sanity x.mgr e with
    | none => none
    | some m => some { x with mgr := m, calls := x.calls ++ [(x.mgr.now, e)] }
  | .remote e =>
    -- setMinIpcTime, event_manager.h:231-233, then multithreadSchedule/ipcSchedule
    some { x with mgr := { x.mgr with minIpc := minTime (some e.time) x.mgr.minIpc,
                                      outbox := x.mgr.outbox ++ [e] } }
  | .stop =>
    some { x with mgr := { x.mgr with queue := [], minIpc := none, stopped := true } }

/-- The actions of one handler in program order. -/
def doActs {S P : Type} (sanity : Bool) (x : Exec S P) : List (Act P) → Option (Exec S P)
  | [] => some x
  | a :: as =>
    match doAct sanity x a with
    | none => none
    | some y => doActs sanity y as

/-- Outcome of one iteration of the loop of `runEvents`. -/
inductive Res (α : Type) where
  | halt
  | abort
  | next (a : α)
deriving Repr

/-- `ev->time() >= event_horizon`. -/
def beyond (t : Nat) : Option Nat → Bool
  | none => false
  | some h => decide (h ≤ t)

/-- The handlers of all components: given the state and the executed event, the new
state and the actions performed.  Arbitrary. -/
abbrev Handler (S P : Type) := S → Event P → S × List (Act P)

/-- One iteration of the `while` loop of `EventManager::runEvents`,
event_manager.cc:184-205. -/
def step {S P : Type} (sanity : Bool) (h : Handler S P) (horizon : Option Nat)
    (x : Exec S P) : Res (Exec S P) :=
  match x.mgr.queue with
  | [] => .halt
  | e :: q =>
    if sanity && decide (e.time < x.mgr.now) then .abort
    else if beyond e.time horizon then .halt
    else
      let r := h x.user e
      match doActs sanity
          { mgr := { x.mgr with now := e.time, queue := q }
            user := r.1, trace := x.trace ++ [e], calls := x.calls } r.2 with
      | none => .abort
      | some y => .next y

/-- The value returned by `runEvents` when the loop ends, event_manager.cc:196-206. -/
def vote {S P : Type} (x : Exec S P) : Option Nat :=
  match x.mgr.queue with
  | [] => x.mgr.minIpc
  | e :: _ => minTime x.mgr.minIpc (some e.time)

/-- The entry points seen from outside: a `schedule` call from outside a handler
(component setup, or `registerPending`/`scheduleIncoming`, event_manager.cc:283-345),
the start of a `runEvents` call, and one iteration of its loop.  Every history of
calls to `schedule` and `runEvents` is a list of these. -/
inductive Op (P : Type) where
  | sched (e : Event P)
  | enter
  | tick (horizon : Option Nat)

/-- One operation; `none` is an abort. -/
def doOp {S P : Type} (sanity : Bool) (h : Handler S P) (x : Exec S P) :
    Op P → Option (Exec S P)
  | .sched e => doAct sanity x (.schedule e)
  | .enter => some { x with mgr := { x.mgr with minIpc := none } }
  | .tick hz =>
    match step sanity h hz x with
    | .halt => some x
    | .abort => none
    | .next y => some y

/-- A history; `none` if it aborts. -/
def doOps {S P : Type} (sanity : Bool) (h : Handler S P) (x : Exec S P) :
    List (Op P) → Option (Exec S P)
  | [] => some x
  | o :: os =>
    match doOp sanity h x o with
    | none => none
    | some y => doOps sanity h y os

/-- Nothing scheduled, nothing run. -/
def start {S P : Type} (u : S) : Exec S P := ⟨Mgr.init, u, [], []⟩

/-! ### Links -/

/-- What a link remembers: `seqnum_` (32 bits), `linkId_`, `latency_`,
event_scheduler.h:184-187. -/
structure Link where
  id : Nat
  seq : Nat
  latency : Nat
deriving DecidableEq, Repr

/-- `LocalLink::send`, event_scheduler.cc:184-193: the event handed to `schedule`, and
the link with its counter advanced.  `seqnum_` is `uint32_t` and wraps;
`ExecutionEvent::setLink` keeps only 32 bits of the id (sst_event.h:111-113). -/
def Link.send {P : Type} (l : Link) (now delay : Nat) (p : P) : Event P × Link :=
  ({ time := now + delay + l.latency, link := l.id % 2^32, seq := l.seq, payload := p },
   { l with seq := (l.seq + 1) % 2^32 })

/-- A send requested by a component: which of its links, extra delay, payload. -/
structure Send (P : Type) where
  port : Nat
  delay : Nat
  payload : P
deriving Repr

/-- Perform the sends of one handler at clock `now`, advancing the links. -/
def sendAll {P : Type} (now : Nat) (links : Nat → Link) :
    List (Send P) → (Nat → Link) × List (Act P)
  | [] => (links, [])
  | s :: ss =>
    let r := (links s.port).send now s.delay s.payload
    let rest := sendAll now (fun i => if i = s.port then r.2 else links i) ss
    (rest.1, .schedule r.1 :: rest.2)

/-- Component programs that act only through links: from their state and an event,
the new state and the list of sends. -/
abbrev LinkProgram (S P : Type) := S → Event P → S × List (Send P)

/-- The handler obtained from such a program; the links are part of the state. -/
def linkHandler {S P : Type} (prog : LinkProgram S P) : Handler (S × (Nat → Link)) P :=
  fun u e =>
    let r := prog u.1 e
    let o := sendAll e.time u.2 r.2
    ((r.1, o.1), o.2)

/-- Histories in which every event is sent over a link: a send from component setup
(`MacroBaseComponent::setup`, before the loop starts or between runs), the start of
`runEvents`, and one iteration of its loop. -/
inductive LOp (P : Type) where
  | send (s : Send P)
  | enter
  | tick (horizon : Option Nat)

/-- One operation of such a history. -/
def doLOp {S P : Type} (sanity : Bool) (prog : LinkProgram S P)
    (x : Exec (S × (Nat → Link)) P) : LOp P → Option (Exec (S × (Nat → Link)) P)
  | .send s =>
    let o := sendAll x.mgr.now x.user.2 [s]
    doActs sanity { x with user := (x.user.1, o.1) } o.2
  | .enter => doOp sanity (linkHandler prog) x .enter
  | .tick hz => doOp sanity (linkHandler prog) x (.tick hz)

/-- A history of link operations. -/
def doLOps {S P : Type} (sanity : Bool) (prog : LinkProgram S P)
    (x : Exec (S × (Nat → Link)) P) : List (LOp P) → Option (Exec (S × (Nat → Link)) P)
  | [] => some x
  | o :: os =>
    match doLOp sanity prog x o with
    | none => none
    | some y => doLOps sanity prog y os

/-- `EventManager::scheduleStop`, event_manager.cc:418-425: the stop event goes
straight into the set, without the checks of `schedule`.  A fresh `ExecutionEvent` has
`linkId_ = uint32_t(-1)` (sst_event.h:92-96). -/
def scheduleStop {P : Type} (m : Mgr P) (until_ : Nat) (p : P) : Mgr P :=
  { m with queue := insert ⟨until_, 2^32 - 1, 0, p⟩ m.queue }

/-- `EventLink::allocateSelfLinkId` (event_scheduler.cc:88-94) stored in the 32-bit
`MacroBaseComponent::selfLinkId_`: the id of the `k`-th self link. -/
def selfLinkId (k : Nat) : Nat := (2^64 - 1 - k % 2^32) % 2^32

end SST.Events
