set_option autoImplicit false
/-
Model of the memory with channels, sstmac/hardware/snappr/snappr_mem.cc:56-148 and
snappr_mem.h:84-124.  Times are natural numbers.  Events run in any order: the order of the event
manager is one of these.
-/
namespace SST.Mem.Snappr

/-- Parameters of the model: `channels_.size()`, `flow_mtu_` and `channel_byte_delay_`,
snappr_mem.cc:62-74. -/
structure Cfg where
  channels : Nat
  mtu : Nat
  byteDelay : Nat

/-- Events: `issue` is `accessRequest` for a piece of a flow (snappr_mem.cc:98, 126), `resp` is
`flowRequestResponse`, `reply` is the handler of a request of the network interface, `call` is the
callback of a flow. -/
inductive Ev where
  | issue (flow bytes : Nat)
  | resp (flow bytes : Nat)
  | reply (req bytes : Nat)
  | call (flow : Nat)
deriving DecidableEq, Repr

/-- `Flow`, snappr_mem.h:100-104, without the callback: the callback has the number of the flow. -/
structure Flow where
  left : Nat
  requestDelay : Nat
deriving DecidableEq, Repr

/-- For the record: a channel is busy with `bytes` from `start` on, for flow `owner` or, if `none`,
for the network interface. -/
structure Use where
  chan : Nat
  owner : Option Nat
  start : Nat
  bytes : Nat
deriving DecidableEq, Repr

/-- `SnapprMemoryModel`, snappr_mem.h:112-119, with the events that are scheduled; `calls`,
`asked`, `done`, `replies` and `log` record what was asked and what happened, newest first. -/
structure St where
  free : Nat → Nat
  interleaver : Nat
  nextId : Nat
  flows : Nat → Option Flow
  evs : List (Nat × Ev)
  calls : List (Nat × Nat)
  asked : List Nat
  done : List (Nat × Nat)
  replies : List (Nat × Nat)
  log : List Use

/-- The constructor, snappr_mem.cc:56-77. -/
def St.init : St := ⟨fun _ => 0, 0, 0, fun _ => none, [], [], [], [], [], []⟩

/-- Assignment to one entry of a table. -/
def put {α : Type} (f : Nat → α) (i : Nat) (x : α) : Nat → α := fun j => if j = i then x else f j

/-- `accessFlow`, snappr_mem.cc:79-106, called at `now`.  Simplified: a flow of no bytes gets a
number too. -/
def accessFlow (c : Cfg) (now bytes requestDelay : Nat) (s : St) : St :=
  let id := s.nextId
  if bytes = 0 then { s with nextId := id + 1, calls := (id, bytes) :: s.calls, evs := s.evs ++ [(now, .call id)] }
  else
    let initial := if bytes % c.mtu = 0 then c.mtu else bytes % c.mtu
    { s with
      nextId := id + 1, calls := (id, bytes) :: s.calls,
      evs := s.evs ++ [(now + requestDelay * initial, .issue id initial)],
      flows := put s.flows id (some ⟨bytes - initial, requestDelay⟩) }

/-- `accessRequest`, snappr_mem.cc:132-147, at `now`; `ev` is the response. -/
def access (c : Cfg) (now : Nat) (owner : Option Nat) (ev : Ev) (bytes : Nat) (s : St) : St :=
  let start := max (s.free s.interleaver) now
  { s with
    free := put s.free s.interleaver (start + c.byteDelay * bytes),
    interleaver := (s.interleaver + 1) % c.channels,
    evs := s.evs ++ [(start, ev)],
    log := ⟨s.interleaver, owner, start, bytes⟩ :: s.log }

/-- `accessRequest` called by the network interface, snappr_nic.cc:241. -/
def request (c : Cfg) (now req bytes : Nat) (s : St) : St :=
  { access c now none (.reply req bytes) bytes s with asked := req :: s.asked }

/-- `flowRequestResponse`, snappr_mem.cc:108-130; `none`: `flows_` has no such flow, its fields are
not initialised. -/
def response (c : Cfg) (now flow bytes : Nat) (s : St) : Option St :=
  match s.flows flow with
  | none => none
  | some f =>
    if f.left = 0 then
      some { s with evs := s.evs ++ [(now + bytes * c.byteDelay, .call flow)], flows := put s.flows flow none }
    else
      some { s with
        evs := s.evs ++ [(now + c.mtu * f.requestDelay, .issue flow c.mtu)],
        flows := put s.flows flow (some { f with left := f.left - c.mtu }) }

/-- An event runs. -/
def exec (c : Cfg) (t : Nat) (s : St) : Ev → Option St
  | .issue flow bytes => some (access c t (some flow) (.resp flow bytes) bytes s)
  | .resp flow bytes => response c t flow bytes s
  | .reply req _ => some { s with replies := (t, req) :: s.replies }
  | .call flow => some { s with done := (t, flow) :: s.done }

/-- A scheduled event runs; it is no longer scheduled. -/
inductive Exec (c : Cfg) : St → St → Prop where
  | run {s s' : St} (pre post : List (Nat × Ev)) (t : Nat) (e : Ev) (h : s.evs = pre ++ (t, e) :: post)
      (hx : exec c t { s with evs := pre ++ post } e = some s') : Exec c s s'

/-- What can happen: processors and network interfaces ask, events run. -/
inductive Step (c : Cfg) : St → St → Prop where
  | flow (s : St) (now bytes requestDelay : Nat) : Step c s (accessFlow c now bytes requestDelay s)
  | request (s : St) (now req bytes : Nat) : Step c s (request c now req bytes s)
  | exec {s s' : St} (h : Exec c s s') : Step c s s'

/-- The states a memory can be in. -/
inductive Reach (c : Cfg) : St → Prop where
  | init : Reach c St.init
  | step {s s' : St} : Reach c s → Step c s s' → Reach c s'

end SST.Mem.Snappr
