set_option autoImplicit false
/-
Model of the memory of the packet-flow machine, sstmac/hardware/pisces/pisces_memory_model.cc:64-216
and pisces_memory_model.h:93-124.  The times at which packets leave, from the arbitrator (C79), are
left out: events run in any order.  `packet_size_` is below 2^31, as is every value of an `int`.
-/
namespace SST.Mem.Pisces

/-- `nchannels_` and `packet_size_`, pisces_memory_model.cc:68, 78. -/
structure Cfg where
  channels : Nat
  packet : Nat

/-- Events: the callback of an access, `channelFree`, `dataArrived`. -/
inductive Ev where
  | call (id : Nat)
  | free (ch : Nat)
  | arrived (ch bytes : Nat)
deriving DecidableEq, Repr

/-- An entry of `stalled_requests_`, made by `accessFlow` or by `accessRequest`: the constructor for
the latter does not set `bytes_total`, pisces_memory_model.h:108-111. -/
inductive Wait where
  | flow (bytes id : Nat)
  | request (id : Nat)
deriving DecidableEq, Repr

/-- The access that waits. -/
def Wait.id : Wait → Nat
  | .flow _ id => id
  | .request id => id

/-- `ChannelRequest`, pisces_memory_model.h:93-99, of a flow in transfer. -/
structure Chan where
  total : Nat
  arrived : Nat
  id : Nat
deriving DecidableEq, Repr

/-- `PiscesMemoryModel` with the scheduled events.  `avail` has the back of `channels_available_`
first.  For the record: `calls` are the accesses and their sizes, `started` those that got a
channel, `done` those whose callback ran, newest first; `moved` are the bytes given to the
arbitrator for each. -/
structure St where
  avail : List Nat
  chan : Nat → Chan
  stalled : List Wait
  evs : List Ev
  nextId : Nat
  calls : List (Nat × Nat)
  started : List Nat
  done : List Nat
  moved : Nat → Nat

/-- The constructor, pisces_memory_model.cc:64-90. -/
def St.init (c : Cfg) : St := ⟨(List.range c.channels).reverse, fun _ => ⟨0, 0, 0⟩, [], [], 0, [], [], [], fun _ => 0⟩

/-- Assignment to one entry of a table. -/
def put {α : Type} (f : Nat → α) (i : Nat) (x : α) : Nat → α := fun j => if j = i then x else f j

/-- `start`, pisces_memory_model.cc:110-130; `access` on a channel, :206-213, is one event and the
bytes moved. -/
def start (c : Cfg) (ch bytes id : Nat) (s : St) : St :=
  if bytes ≤ c.packet then
    { s with
      evs := s.evs ++ [.call id, .free ch], started := id :: s.started,
      moved := put s.moved id (s.moved id + bytes) }
  else
    { s with
      chan := put s.chan ch ⟨bytes, 0, id⟩, evs := s.evs ++ [.arrived ch c.packet], started := id :: s.started,
      moved := put s.moved id (s.moved id + c.packet) }

/-- `accessFlow`, pisces_memory_model.cc:98-108. -/
def accessFlow (c : Cfg) (bytes : Nat) (s : St) : St :=
  let s1 := { s with nextId := s.nextId + 1, calls := (s.nextId, bytes) :: s.calls }
  match s.avail with
  | [] => { s1 with stalled := s.stalled ++ [.flow bytes s.nextId] }
  | ch :: avail => start c ch bytes s.nextId { s1 with avail := avail }

/-- `accessRequest` and `access` without channel, pisces_memory_model.cc:132-145, 175-185; `none` is
abort. -/
def accessRequest (c : Cfg) (bytes : Nat) (s : St) : Option St :=
  let s1 := { s with nextId := s.nextId + 1, calls := (s.nextId, bytes) :: s.calls }
  if c.packet < bytes then none
  else match s.avail with
    | [] => some { s1 with stalled := s.stalled ++ [.request s.nextId] }
    | _ :: avail => some { s1 with
        avail := avail, evs := s.evs ++ [.call s.nextId], started := s.nextId :: s.started,
        moved := put s.moved s.nextId (s.moved s.nextId + bytes) }

/-- `channelFree`, pisces_memory_model.cc:144-154; `none`: the size of the access that waits was
never set. -/
def channelFree (c : Cfg) (ch : Nat) (s : St) : Option St :=
  match s.stalled with
  | [] => some { s with avail := ch :: s.avail }
  | .flow bytes id :: rest => some (start c ch bytes id { s with stalled := rest })
  | .request _ :: _ => none

/-- `dataArrived`, pisces_memory_model.cc:156-173, with the casts to `uint32_t`. -/
def dataArrived (c : Cfg) (ch bytes : Nat) (s : St) : Option St :=
  let r := s.chan ch
  let a := r.arrived + bytes
  if a = r.total then channelFree c ch { s with chan := put s.chan ch { r with arrived := a }, done := r.id :: s.done }
  else
    let next := min c.packet ((r.total - a) % 2 ^ 32)
    some { s with
      chan := put s.chan ch { r with arrived := a }, evs := s.evs ++ [.arrived ch next],
      moved := put s.moved r.id (s.moved r.id + next) }

/-- An event runs. -/
def exec (c : Cfg) (s : St) : Ev → Option St
  | .call id => some { s with done := id :: s.done }
  | .free ch => channelFree c ch s
  | .arrived ch bytes => dataArrived c ch bytes s

/-- A scheduled event runs; it is no longer scheduled. -/
inductive Exec (c : Cfg) : St → St → Prop where
  | run {s s' : St} (pre post : List Ev) (e : Ev) (h : s.evs = pre ++ e :: post)
      (hx : exec c { s with evs := pre ++ post } e = some s') : Exec c s s'

/-- States reached with flows only. -/
inductive Reach (c : Cfg) : St → Prop where
  | init : Reach c (St.init c)
  | flow {s : St} (bytes : Nat) : Reach c s → Reach c (accessFlow c bytes s)
  | exec {s s' : St} : Reach c s → Exec c s s' → Reach c s'

/-- States reached from `s0`, also with single requests. -/
inductive After (c : Cfg) (s0 : St) : St → Prop where
  | refl : After c s0 s0
  | flow {s : St} (bytes : Nat) : After c s0 s → After c s0 (accessFlow c bytes s)
  | request {s s' : St} (bytes : Nat) : After c s0 s → accessRequest c bytes s = some s' → After c s0 s'
  | exec {s s' : St} : After c s0 s → Exec c s s' → After c s0 s'

end SST.Mem.Pisces
