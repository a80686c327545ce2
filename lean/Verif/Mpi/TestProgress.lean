import Verif.Mpi.Wait

/-!
Model of the test calls of sumi-mpi/mpi_api_test.cc when `test_delay` is not zero (the
default is 1us, mpi_api.cc:144): a test that fails waits up to that long for one message and
handles it (`forwardProgress`, mpi_queue.cc:499-507), but still answers no.

`env` is the list of what the failing tests of the call get, in order: the requests completed by
the message, nothing if none arrives in time.  Otherwise as in `Wait`.
-/
set_option autoImplicit false
namespace SST.Mpi

/-- `test(MPI_Request*, MPI_Status*, int&, int&)`, mpi_api_test.cc:54-80. -/
def testP (t : Tab) (env : List (List Nat)) : Option Nat → Except Stop (Bool × Tab × Option Nat × Option Int × List (List Nat))
  | Option.none => .ok (true, t, Option.none, Option.none, env)
  | some id =>
    match t id with
    | Option.none => .error .unknown
    | some q =>
      if q.complete then .ok (true, t.free id, Option.none, some q.status, env)
      else .ok (false, t.finish (env.headD []), some id, Option.none, env.tail)

/-- `testsome`, mpi_api_test.cc:194-230. -/
def testsomeP (t : Tab) (env : List (List Nat)) (i : Nat) : List (Option Nat) → Except Stop Res
  | [] => .ok ⟨t, [], [], [], env⟩
  | o :: l =>
    match testP t env o with
    | .error e => .error e
    | .ok (b, t, o', st, env) =>
      match testsomeP t env (i + 1) l with
      | .error e => .error e
      | .ok r =>
        if b then .ok { r with reqs := o' :: r.reqs, writes := (st.map (fun v => (i, v))).toList ++ r.writes, indices := i :: r.indices }
        else .ok { r with reqs := o' :: r.reqs }

/-- `testall`, mpi_api_test.cc:111-151: the flag and the result. -/
def testallP (t : Tab) (env : List (List Nat)) (i : Nat) : List (Option Nat) → Except Stop (Bool × Res)
  | [] => .ok (true, ⟨t, [], [], [], env⟩)
  | o :: l =>
    match testP t env o with
    | .error e => .error e
    | .ok (false, t, o', _, env) => .ok (false, ⟨t, o' :: l, [], [], env⟩)
    | .ok (true, t, o', st, env) =>
      match testallP t env (i + 1) l with
      | .error e => .error e
      | .ok (b, r) => .ok (b, { r with reqs := o' :: r.reqs, writes := (st.map (fun v => (i, v))).toList ++ r.writes })

/-- `testany`, mpi_api_test.cc:153-192: flag and result, the index in `indices`. -/
def testanyP (t : Tab) (env : List (List Nat)) (i : Nat) : List (Option Nat) → Except Stop (Bool × Res)
  | [] => .ok (i == 0, ⟨t, [], [], [], env⟩)
  | o :: l =>
    match testP t env o with
    | .error e => .error e
    | .ok (true, t, o', st, env) => .ok (true, ⟨t, o' :: l, (st.map (fun v => (i, v))).toList, [i], env⟩)
    | .ok (false, t, o', _, env) =>
      match testanyP t env (i + 1) l with
      | .error e => .error e
      | .ok (b, r) => .ok (b, { r with reqs := o' :: r.reqs })

end SST.Mpi
