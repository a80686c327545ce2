set_option autoImplicit false

/-!
# MPI_Init, MPI_Finalize and the calls around them

`sumi-mpi/mpi_api.cc` and `sumi-mpi/mpi_api.h`, for one process without debug output; the other processes of the job make the same calls, so
that the barrier of MPI_Finalize and the reduction of MPI_Init complete.  Communicators that are freed are the subject of Handles.lean.
-/

namespace Verif.Mpi.Lifecycle

/-- `status_`, mpi_api.h:833-835. -/
inductive Status where
  | fresh
  | initialized
  | finalized
deriving DecidableEq

/-- The status, and whether MPI_COMM_WORLD and the predefined types are in their tables. -/
structure St where
  status : Status
  world : Bool
deriving DecidableEq

/-- The constructor, mpi_api.cc:119-127. -/
def St.init : St := ⟨.fresh, false⟩

/-- Calls. -/
inductive Op where
  | init
  /-- MPI_Init_thread. -/
  | initThread (required : Int)
  | finalize
  | initialized
  | finalized
  /-- MPI_Comm_dup and MPI_Comm_create_group, which ask for MPI_Init. -/
  | checked
  /-- Any other call that needs MPI_COMM_WORLD, a predefined type or a predefined group: sends, receives, collectives and queries. -/
  | world
  /-- Calls that need none: MPI_Wtime, MPI_Get_count and others. -/
  | free
deriving DecidableEq

/-- Answers. -/
inductive Out where
  | done
  | flag (b : Bool)
  | provided (level : Int)
deriving DecidableEq

/-- `MpiApi::init`, mpi_api.cc:223-272; `none` is an error that ends the simulation. -/
def doInit (s : St) : Option St :=
  match s.status with
  | .initialized => none
  | _ => some ⟨.initialized, true⟩

/-- `initialized` and `finalized`, mpi_api.h:132-140, `initThread`, :150-154, `checkInit`, mpi_api.cc:274-280, `finalize`, :285-320, whose
barrier needs MPI_COMM_WORLD, `getComm`, :442-456. -/
def step (s : St) : Op → Option (St × Out)
  | .init => (doInit s).map fun s => (s, .done)
  | .initThread r => (doInit s).map fun s => (s, .provided r)
  | .finalize => if s.world then some ({ s with status := .finalized }, .done) else none
  | .initialized => some (s, .flag (s.status = .initialized))
  | .finalized => some (s, .flag (s.status = .finalized))
  | .checked => if s.status = .initialized then (if s.world then some (s, .done) else none) else none
  | .world => if s.world then some (s, .done) else none
  | .free => some (s, .done)

/-- A program: `none` if it is stopped. -/
def exec (s : St) : List Op → Option (St × List Out)
  | [] => some (s, [])
  | o :: l =>
    match step s o with
    | none => none
    | some (s, a) => (exec s l).map fun r => (r.1, a :: r.2)

end Verif.Mpi.Lifecycle
