import Verif.Mpi.Model

/-!
Model of the request-completion calls: sumi-mpi/mpi_api_wait.cc and
sumi-mpi/mpi_api_test.cc (MPI_Wait, Waitall, Waitany, Waitsome, Test, Testall, Testany,
Testsome).

A request is a number, `none` in an array is `MPI_REQUEST_NULL`.  `tab` is `req_map_`.
`env` is the rest of the run: the i-th entry is the set of requests completed by the i-th
message that a progress loop takes from the completion queue.  Status arrays are given as
the list of writes `(position, status)`.  A request's status is fixed in advance.
In this file `test_delay` is zero, so that a failing test does not make progress; the
default is 1us, for which see `TestProgress`.
Delays, tracing and `MPI_STATUS_IGNORE` are not modelled.
-/
set_option autoImplicit false
namespace SST.Mpi

/-- `MpiRequest`, mpi_request.h:151-253. -/
structure Rq where
  complete : Bool
  persistent : Bool
  status : Int
deriving DecidableEq, Repr

/-- Why a call does not return. -/
inductive Stop where
  /-- waits for messages that never come -/
  | blocked
  /-- "could not find mpi request" -/
  | unknown
  /-- "MPI_Waitany: passed in all null requests" -/
  | allNull
  /-- "MPI_Waitany finished, but had no completed requests" -/
  | none
deriving DecidableEq, Repr

/-- `req_map_`, mpi_api.h:856. -/
abbrev Tab := Nat → Option Rq

/-- `req_map_.erase`. -/
def Tab.free (t : Tab) (id : Nat) : Tab := fun j => if j = id then Option.none else t j

/-- `incomingMessage`: marks requests complete. -/
def Tab.finish (t : Tab) (ids : List Nat) : Tab := fun j =>
  if j ∈ ids then (t j).map (fun q => { q with complete := true }) else t j

/-- `MpiRequest::isComplete` of a request in the table, mpi_request.h:180-182. -/
def isDone (t : Tab) (id : Nat) : Bool := match t id with | some q => q.complete | Option.none => false

/-- The progress loops, mpi_queue.cc:457-465 and :488-495: take messages until one of the
given requests is complete.  `none`: never. -/
def progress (ids : List Nat) (t : Tab) : List (List Nat) → Option (Tab × List (List Nat))
  | [] => if ids.any (isDone t) then some (t, []) else Option.none
  | c :: env => if ids.any (isDone t) then some (t, c :: env) else progress ids (t.finish c) env

/-- What `finalizeWaitRequest` leaves in the array and the table, mpi_api_wait.cc:105-116. -/
def finalEntry (id : Nat) (q : Rq) : Option Nat := if q.persistent then some id else Option.none
/-- The table after `finalizeWaitRequest`, mpi_api_wait.cc:105-116. -/
def finalTab (t : Tab) (id : Nat) (q : Rq) : Tab := if q.persistent then t else t.free id

/-- Result of a call over an array. -/
structure Res where
  tab : Tab
  reqs : List (Option Nat)
  writes : List (Nat × Int)
  indices : List Nat
  env : List (List Nat)

/-- `doWait`, mpi_api_wait.cc:81-103; result is the new table, the new array entry, the
status written and the remaining messages. -/
def doWait (t : Tab) (env : List (List Nat)) : Option Nat → Except Stop (Tab × Option Nat × Option Int × List (List Nat))
  | Option.none => .ok (t, Option.none, Option.none, env)
  | some id =>
    match t id with
    | Option.none => .error .unknown
    | some _ =>
      match progress [id] t env with
      | Option.none => .error .blocked
      | some (t, env) =>
        match t id with
        | Option.none => .error .unknown
        | some q => .ok (finalTab t id q, finalEntry id q, some q.status, env)

/-- `waitall`, mpi_api_wait.cc:118-154; `i` is the position of the head of the list. -/
def waitall (t : Tab) (env : List (List Nat)) (i : Nat) : List (Option Nat) → Except Stop Res
  | [] => .ok ⟨t, [], [], [], env⟩
  | o :: l =>
    match doWait t env o with
    | .error e => .error e
    | .ok (t, o', st, env) =>
      match waitall t env (i + 1) l with
      | .error e => .error e
      | .ok r => .ok { r with reqs := o' :: r.reqs, writes := (st.map (fun v => (i, v))).toList ++ r.writes }

/-- The loop of `waitsome` over the array, mpi_api_wait.cc:257-276 and :285-303. -/
def collect (t : Tab) (i : Nat) : List (Option Nat) → Except Stop Res
  | [] => .ok ⟨t, [], [], [], []⟩
  | Option.none :: l =>
    match collect t (i + 1) l with
    | .error e => .error e
    | .ok r => .ok { r with reqs := Option.none :: r.reqs }
  | some id :: l =>
    match t id with
    | Option.none => .error .unknown
    | some q =>
      if q.complete then
        match collect (finalTab t id q) (i + 1) l with
        | .error e => .error e
        | .ok r => .ok { r with reqs := finalEntry id q :: r.reqs, writes := (i, q.status) :: r.writes, indices := i :: r.indices }
      else
        match collect t (i + 1) l with
        | .error e => .error e
        | .ok r => .ok { r with reqs := some id :: r.reqs }

/-- `waitsome`, mpi_api_wait.cc:239-313. -/
def waitsome (t : Tab) (env : List (List Nat)) (l : List (Option Nat)) : Except Stop Res :=
  match collect t 0 l with
  | .error e => .error e
  | .ok r =>
    if r.indices ≠ [] then .ok { r with env := env }
    else
      match progress (l.filterMap id) t env with
      | Option.none => .error .blocked
      | some (t, env) =>
        match collect t 0 l with
        | .error e => .error e
        | .ok r => .ok { r with env := env }

/-- The first loop of `waitany`, mpi_api_wait.cc:171-196: stops at the first complete one. -/
def pick (t : Tab) (i : Nat) : List (Option Nat) → Except Stop Res
  | [] => .ok ⟨t, [], [], [], []⟩
  | Option.none :: l =>
    match pick t (i + 1) l with
    | .error e => .error e
    | .ok r => .ok { r with reqs := Option.none :: r.reqs }
  | some id :: l =>
    match t id with
    | Option.none => .error .unknown
    | some q =>
      if q.complete then .ok ⟨finalTab t id q, finalEntry id q :: l, [(i, q.status)], [i], []⟩
      else
        match pick t (i + 1) l with
        | .error e => .error e
        | .ok r => .ok { r with reqs := some id :: r.reqs }

/-- `waitany`, mpi_api_wait.cc:156-237.  The status is written to the single status
argument; the write is recorded with the position of the request. -/
def waitany (t : Tab) (env : List (List Nat)) (l : List (Option Nat)) : Except Stop Res :=
  match pick t 0 l with
  | .error e => .error e
  | .ok r =>
    if r.indices ≠ [] then .ok { r with env := env }
    else if l.filterMap id = [] then .error .allNull
    else
      match progress (l.filterMap id) t env with
      | Option.none => .error .blocked
      | some (t, env) =>
        match pick t 0 l with
        | .error e => .error e
        | .ok r => if r.indices = [] then .error .none else .ok { r with env := env }

/-- `test(MPI_Request*, MPI_Status*, int&, int&)`, mpi_api_test.cc:54-80. -/
def test1 (t : Tab) : Option Nat → Except Stop (Bool × Tab × Option Nat × Option Int)
  | Option.none => .ok (true, t, Option.none, Option.none)
  | some id =>
    match t id with
    | Option.none => .error .unknown
    | some q => if q.complete then .ok (true, t.free id, Option.none, some q.status) else .ok (false, t, some id, Option.none)

/-- `testall`, mpi_api_test.cc:111-151: the flag and the result. -/
def testall (t : Tab) (i : Nat) : List (Option Nat) → Except Stop (Bool × Res)
  | [] => .ok (true, ⟨t, [], [], [], []⟩)
  | o :: l =>
    match test1 t o with
    | .error e => .error e
    | .ok (false, t, o', _) => .ok (false, ⟨t, o' :: l, [], [], []⟩)
    | .ok (true, t, o', st) =>
      match testall t (i + 1) l with
      | .error e => .error e
      | .ok (b, r) => .ok (b, { r with reqs := o' :: r.reqs, writes := (st.map (fun v => (i, v))).toList ++ r.writes })

/-- `testany`, mpi_api_test.cc:153-192: flag and result, the index in `indices`. -/
def testany (t : Tab) (i : Nat) : List (Option Nat) → Except Stop (Bool × Res)
  | [] => .ok (i == 0, ⟨t, [], [], [], []⟩)
  | o :: l =>
    match test1 t o with
    | .error e => .error e
    | .ok (true, t, o', st) => .ok (true, ⟨t, o' :: l, (st.map (fun v => (i, v))).toList, [i], []⟩)
    | .ok (false, t, o', _) =>
      match testany t (i + 1) l with
      | .error e => .error e
      | .ok (b, r) => .ok (b, { r with reqs := o' :: r.reqs })

/-- `testsome`, mpi_api_test.cc:194-230. -/
def testsome (t : Tab) (i : Nat) : List (Option Nat) → Except Stop Res
  | [] => .ok ⟨t, [], [], [], []⟩
  | o :: l =>
    match test1 t o with
    | .error e => .error e
    | .ok (true, t, o', st) =>
      match testsome t (i + 1) l with
      | .error e => .error e
      | .ok r => .ok { r with reqs := o' :: r.reqs, writes := (st.map (fun v => (i, v))).toList ++ r.writes, indices := i :: r.indices }
    | .ok (false, t, o', _) =>
      match testsome t (i + 1) l with
      | .error e => .error e
      | .ok r => .ok { r with reqs := o' :: r.reqs }

end SST.Mpi
