/-!
Model of the life of MPI requests: sumi-mpi/mpi_api_send_recv.cc (all of it),
sumi-mpi/mpi_request.h, sumi-mpi/mpi_request.cc:104-115, the request table of
sumi-mpi/mpi_api.cc (`getRequest`, `addRequestPtr`, `eraseRequestPtr`), `doWait` and
`finalizeWaitRequest` of sumi-mpi/mpi_api_wait.cc and `test` of sumi-mpi/mpi_api_test.cc.

The queue below (`MpiQueue`) is seen through its interface: an operation handed to it gets the
next number, and a message taken from the completion queue completes some of the
operations handed over, each with a status if it is a receive.  Which messages arrive during
a call is an argument of the call.  `generate_ids_` is true (it is false only for trace replay).
Delays, tracing, and `MPI_Cancel` (which has no implementation) are not modelled.
-/
set_option autoImplicit false
namespace SST.Mpi.Req

/-- `MPI_Request`, mpi_integers.h:54. -/
abbrev Handle := BitVec 32

/-- `MPI_REQUEST_NULL`, mpi_integers.h:189. -/
def nullHandle : Handle := 0x2c000000#32

/-- `MPI_Status`, mpi_status.h:49-59. -/
structure Status where
  source : Int
  tag : Int
  error : Int
  count : Int
  bytes : Int
deriving DecidableEq, Repr

/-- `MPI_PROC_NULL`, mpi_types.h:59. -/
def procNull : Int := -1

/-- `proc_null_status`, mpi_api_send_recv.cc:65-67 (`MPI_ANY_TAG` is -1, mpi_types.h:62). -/
def procNullStatus : Status := ⟨procNull, -1, 0, 0, 0⟩

/-- The arguments of a point-to-point call, also `PersistentOp`, mpi_request.h:57-70. -/
structure Args where
  buf : Nat
  count : Int
  dtype : Int
  peer : Int
  tag : Int
  comm : Int
deriving DecidableEq, Repr

/-- `op_type_t`, mpi_request.h:145-150 (collectives and probes are not modelled here). -/
inductive Kind where
  | send
  | recv
deriving DecidableEq, Repr

/-- `MpiRequest`, mpi_request.h:141-260.  `stat = none`: `stat_` has never been written. -/
structure Obj where
  kind : Kind
  complete : Bool
  stat : Option Status
  pers : Option Args
deriving DecidableEq, Repr

/-- One completion: the number of the operation, and the status built for a receive
(`complete(msg)`, mpi_request.cc:108-115) or nothing for a send (`complete()`, mpi_request.h:189). -/
abbrev Comp := Nat × Option Status

/-- What taking one message from the completion queue completes. -/
abbrev Msg := List Comp

/-- The part of `MpiApi` used here.  Objects are numbered by the order of their
construction and never reused; deleting one only removes it from the table. -/
structure St where
  /-- `req_counter_`, mpi_api.h:857 -/
  counter : Nat
  /-- `req_map_` -/
  map : Handle → Option Nat
  objs : List Obj
  /-- calls of `MpiQueue::send` and `MpiQueue::recv`: the object and the arguments -/
  posts : List (Nat × Kind × Args)

/-- The state after the constructor, mpi_api.cc:118-136. -/
def St.init : St := ⟨0, fun _ => none, [], []⟩

/-- `MpiRequest::construct`, mpi_request.h:171-173 with the constructor :152-160. -/
def St.construct (s : St) (k : Kind) : St := { s with objs := s.objs ++ [⟨k, false, none, none⟩] }

/-- Update of one object. -/
def St.upd (s : St) (o : Nat) (f : Obj → Obj) : St := { s with objs := s.objs.modify o f }

/-- `queue_->send(req, ...)` or `queue_->recv(req, ...)`. -/
def St.post (s : St) (o : Nat) (k : Kind) (a : Args) : St := { s with posts := s.posts ++ [(o, k, a)] }

/-- `addRequestPtr`, mpi_api.cc:553-558.  The counter wraps as a 32-bit number. -/
def St.add (s : St) (o : Nat) : St :=
  { s with counter := s.counter + 1, map := fun h => if h = BitVec.ofNat 32 s.counter then some o else s.map h }

/-- `req_map_.erase`, also `eraseRequestPtr`, mpi_api.cc:560-571. -/
def St.erase (s : St) (h : Handle) : St := { s with map := fun j => if j = h then none else s.map j }

/-- Completion of one operation: `complete()` or `complete(msg)` on the object given with it,
mpi_request.h:189, mpi_request.cc:108-115, mpi_queue.cc:252-254. -/
def St.comp (s : St) (c : Comp) : St :=
  match s.posts[c.1]? with
  | none => s
  | some p => s.upd p.1 (fun ob => { ob with complete := true, stat := c.2.orElse (fun _ => ob.stat) })

/-- The completions of a list. -/
def St.comps (s : St) (l : List Comp) : St := l.foldl St.comp s

/-- `isComplete()` of an object. -/
def St.isDone (s : St) (o : Nat) : Bool := match s.objs[o]? with | some ob => ob.complete | none => false

/-- `progressLoop`, mpi_queue.cc:447-469: takes messages until the object is complete; the
result is the state, what was taken and the messages that are left.  `none`: the messages that
arrive do not complete it. -/
def progress (s : St) (o : Nat) : List Msg → Option (St × List Comp × List Msg)
  | [] => if s.isDone o then some (s, [], []) else none
  | m :: ms =>
    if s.isDone o then some (s, [], m :: ms)
    else (progress (s.comps m) o ms).map (fun r => (r.1, m ++ r.2.1, r.2.2))

/-- The calls.  The last argument is the list of messages that arrive during the call; `ign`
says that the caller passes `MPI_STATUS_IGNORE`. -/
inductive Op where
  | isend (a : Args) (ms : List Msg)
  | irecv (a : Args) (ms : List Msg)
  | sendInit (a : Args)
  | recvInit (a : Args)
  | start (h : Handle) (ms : List Msg)
  | free (h : Handle)
  | wait (h : Handle) (ign : Bool) (ms : List Msg)
  | test (h : Handle) (ign : Bool) (ms : List Msg)
  | send (a : Args) (ms : List Msg)
  | recv (a : Args) (ign : Bool) (ms : List Msg)
  | sendrecv (a b : Args) (ign : Bool) (ms : List Msg)
deriving DecidableEq, Repr

/-- What the caller sees. -/
inductive Out where
  /-- a new request -/
  | handle (h : Handle)
  /-- the call returns and has nothing to say -/
  | unit
  /-- the request has ended: the value of the caller's handle, and the status written
  (outer `none`: nothing is written; inner `none`: an unwritten status is copied) -/
  | ended (h : Handle) (st : Option (Option Status))
  /-- the flag of `MPI_Test` is false -/
  | notYet
deriving DecidableEq, Repr

/-- What a call does: its output, the numbers of the operations it handed to the queue,
and the completions taken during the call. -/
structure Res where
  out : Out
  posts : List Nat
  took : List Comp
deriving DecidableEq, Repr

/-- Why a call does not return. -/
inductive Err where
  /-- waits forever -/
  | blocked
  /-- "could not find mpi request" -/
  | unknown
  /-- "Starting MPI_Request that is not persistent" -/
  | notPersistent
  /-- a null pointer is dereferenced -/
  | nullDeref
deriving DecidableEq, Repr

/-- The status of an object, as copied out. -/
def St.stat (s : St) (o : Nat) : Option Status := match s.objs[o]? with | some ob => ob.stat | none => none

/-- `doIsend`, mpi_api_send_recv.cc:269-281: the object is the last one. -/
def St.doIsend (s : St) (a : Args) : St :=
  let o := s.objs.length
  if a.peer = procNull then (s.construct .send).upd o (fun ob => { ob with complete := true })
  else (s.construct .send).post o .send a

/-- The body of `irecv` up to the completion, mpi_api_send_recv.cc:394-411. -/
def St.doIrecv (s : St) (a : Args) : St :=
  let o := s.objs.length
  if a.peer = procNull then
    ((s.construct .recv).add o).upd o (fun ob => { ob with complete := true, stat := some procNullStatus })
  else ((s.construct .recv).add o).post o .recv a

/-- The numbers of the operations posted between two states. -/
def newPosts (s s' : St) : List Nat := (List.range' s.posts.length (s'.posts.length - s.posts.length))

/-- `doStart`, mpi_api_send_recv.cc:171-193. -/
def doStart (s : St) (h : Handle) : Except Err St :=
  if h = nullHandle then .error .nullDeref
  else match s.map h with
    | none => .error .unknown
    | some o =>
      match s.objs[o]? with
      | none => .error .unknown
      | some ob =>
        match ob.pers with
        | none => .error .notPersistent
        | some a =>
          if a.peer = procNull then .ok (s.upd o (fun ob => { ob with complete := true }))
          else .ok ((s.upd o (fun ob => { ob with complete := false })).post o ob.kind a)

/-- `sendInit` and `recvInit`, mpi_api_send_recv.cc:232-267, 353-385 and :341-376. -/
def doInit (s : St) (k : Kind) (a : Args) : St :=
  let o := s.objs.length
  ((s.construct k).add o).upd o (fun ob => { ob with pers := some a })

/-- `finalizeWaitRequest`, mpi_api_wait.cc:105-116. -/
def finalize (s : St) (h : Handle) (o : Nat) (ign : Bool) : St × Handle × Option (Option Status) :=
  let st := if ign then none else some (s.stat o)
  match s.objs[o]? with
  | some ob => if ob.pers.isSome then (s, h, st) else (s.erase h, nullHandle, st)
  | none => (s.erase h, nullHandle, st)

/-- `wait` and `doWait`, mpi_api_wait.cc:56-103. -/
def doWait (s : St) (h : Handle) (ign : Bool) (ms : List Msg) : Except Err (St × Res) :=
  if h = nullHandle then .ok (s, ⟨.ended nullHandle none, [], []⟩)
  else match s.map h with
    | none => .error .unknown
    | some o =>
      match progress s o ms with
      | none => .error .blocked
      | some (s, tk, _) =>
        let f := finalize s h o ign
        .ok (f.1, ⟨.ended f.2.1 f.2.2, [], tk⟩)

/-- `test`, mpi_api_test.cc:54-80.  A failing test makes progress with at most one message that
arrives within `test_delay`; it does not look at the request again. -/
def doTest (s : St) (h : Handle) (ign : Bool) (ms : List Msg) : Except Err (St × Res) :=
  if h = nullHandle then .ok (s, ⟨.ended nullHandle none, [], []⟩)
  else match s.map h with
    | none => .error .unknown
    | some o =>
      if s.isDone o then
        .ok (s.erase h, ⟨.ended nullHandle (if ign then none else some (s.stat o)), [], []⟩)
      else
        let tk := ms.headD []
        .ok (s.comps tk, ⟨.notYet, [], tk⟩)

/-- `doRecv`, mpi_api_send_recv.cc:338-351. -/
def doRecv (s : St) (a : Args) (ms : List Msg) : Except Err (St × Option Status × List Comp) :=
  let o := s.objs.length
  match progress ((s.construct .recv).post o .recv a) o ms with
  | none => .error .blocked
  | some (s, tk, _) => .ok (s, s.stat o, tk)

/-- `send`, mpi_api_send_recv.cc:69-97. -/
def doSend (s : St) (a : Args) (ms : List Msg) : Except Err (St × List Comp) :=
  if a.peer = procNull then .ok (s, [])
  else
    let o := s.objs.length
    match progress ((s.construct .send).post o .send a) o ms with
    | none => .error .blocked
    | some (s, tk, _) => .ok (s, tk)

/-- Writes `proc_null_status` through the status pointer; `MPI_STATUS_IGNORE` is the null
pointer (mpi_types.h:96), and this write is not guarded (mpi_api_send_recv.cc:112, :116, :324). -/
def writeNull (ign : Bool) : Except Err (Option (Option Status)) :=
  if ign then .error .nullDeref else .ok (some (some procNullStatus))

/-- `sendrecv`, mpi_api_send_recv.cc:98-137.  The second progress loop waits for the send with
the messages that the receive has left. -/
def doSendrecv (s : St) (a b : Args) (ign : Bool) (ms : List Msg) : Except Err (St × Option (Option Status) × List Comp) :=
  if a.peer = procNull ∧ b.peer = procNull then
    match writeNull ign with | .error e => .error e | .ok st => .ok (s, st, [])
  else if b.peer = procNull then
    match doSend s a ms with
    | .error e => .error e
    | .ok (s, tk) => match writeNull ign with | .error e => .error e | .ok st => .ok (s, st, tk)
  else if a.peer = procNull then
    match doRecv s b ms with
    | .error e => .error e
    | .ok (s, st, tk) => .ok (s, if ign then none else some st, tk)
  else
    let o := s.objs.length
    match progress (((s.doIsend a).construct .recv).post (o + 1) .recv b) (o + 1) ms with
    | none => .error .blocked
    | some (s1, tk, rest) =>
      match progress s1 o rest with
      | none => .error .blocked
      | some (s2, tk2, _) => .ok (s2, if ign then none else some (s1.stat (o + 1)), tk ++ tk2)

/-- One call. -/
def step (s : St) : Op → Except Err (St × Res)
  | .isend a ms =>
    let o := s.objs.length
    let s1 := (s.doIsend a).add o
    .ok (s1.comps ms.flatten, ⟨.handle (BitVec.ofNat 32 s.counter), newPosts s s1, ms.flatten⟩)
  | .irecv a ms =>
    let s1 := s.doIrecv a
    .ok (s1.comps ms.flatten, ⟨.handle (BitVec.ofNat 32 s.counter), newPosts s s1, ms.flatten⟩)
  | .sendInit a => .ok (doInit s .send a, ⟨.handle (BitVec.ofNat 32 s.counter), [], []⟩)
  | .recvInit a => .ok (doInit s .recv a, ⟨.handle (BitVec.ofNat 32 s.counter), [], []⟩)
  | .start h ms =>
    match doStart s h with
    | .error e => .error e
    | .ok s1 => .ok (s1.comps ms.flatten, ⟨.unit, newPosts s s1, ms.flatten⟩)
  | .free h =>
    -- `request_free`, mpi_api_send_recv.cc:139-169
    if h = nullHandle then .ok (s, ⟨.ended nullHandle none, [], []⟩)
    else match s.map h with
      | none => .error .unknown
      | some _ => .ok (s.erase h, ⟨.ended nullHandle none, [], []⟩)
  | .wait h ign ms => doWait s h ign ms
  | .test h ign ms => doTest s h ign ms
  | .send a ms =>
    match doSend s a ms with
    | .error e => .error e
    | .ok (s1, tk) => .ok (s1, ⟨.unit, newPosts s s1, tk⟩)
  | .recv a ign ms =>
    -- `recv`, mpi_api_send_recv.cc:311-336
    if a.peer = procNull then
      match writeNull ign with | .error e => .error e | .ok st => .ok (s, ⟨.ended nullHandle st, [], []⟩)
    else match doRecv s a ms with
      | .error e => .error e
      | .ok (s1, st, tk) => .ok (s1, ⟨.ended nullHandle (if ign then none else some st), newPosts s s1, tk⟩)
  | .sendrecv a b ign ms =>
    match doSendrecv s a b ign ms with
    | .error e => .error e
    | .ok (s1, st, tk) => .ok (s1, ⟨.ended nullHandle st, newPosts s s1, tk⟩)

/-- A history: the calls that returned, with their results, from the first on. -/
abbrev Trace := List (Op × Res)

/-- The states reached by the calls of a program. -/
inductive Reach : Trace → St → Prop where
  | init : Reach [] St.init
  | step {tr : Trace} {s s' : St} {op : Op} {r : Res} : Reach tr s → step s op = .ok (s', r) → Reach (tr ++ [(op, r)]) s'

end SST.Mpi.Req
