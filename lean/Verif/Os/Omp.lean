set_option autoImplicit false

/-!
# Calls of OpenMP

Model of sstmac/libraries/omp/libomp.cc with the contexts of sstmac/software/process/thread.h:324-358 and :393-406,
thread.cc:320-355 and app.cc:248-253.
-/

namespace Verif.Os.Omp

/-- `omp_context`. -/
structure Ctx where
  level : Int
  id : Int
  parentId : Int
  numThreads : Int
  requested : Int
  maxSub : Int
  deriving DecidableEq

/-- The contexts of a thread, the active one first: those of the main thread of a process are made by its constructor, app.cc:248-253,
and other threads have none. -/
def contexts (isMain : Bool) (ompNumThreads : Int) : List Ctx :=
  if isMain then [⟨0, 0, -1, 1, ompNumThreads, ompNumThreads⟩] else []

/-- The call `omp_set_num_threads`, libomp.cc:135-140 and thread.h:344-347; `none`: there is no context (undefined behaviour). -/
def setNumThreads (n : Int) : List Ctx → Option (List Ctx)
  | [] => none
  | c :: l => some ({ c with requested := n } :: l)

/-- Calls that ask for a number. -/
inductive Get where
  | threadNum
  | numThreads
  | maxThreads
  | inParallel
  | level
  deriving DecidableEq

/-- libomp.cc:104-155 and thread.h:324-358. -/
def get : Get → List Ctx → Option Int
  | _, [] => none
  | .threadNum, c :: _ => some c.id
  | .numThreads, c :: _ => some c.numThreads
  | .maxThreads, c :: _ => some c.maxSub
  | .inParallel, c :: _ => some (if 0 < c.level then 1 else 0)
  | .level, c :: _ => some c.level

/-- The beginning of a parallel region, `spawnOmpParallel`, thread.cc:320-334: it aborts. -/
def parallel (_ : List Ctx) : Option (List Ctx) := none

/-- The number of threads of a computation, thread.cc:349-355: that of the context unless one is given. -/
def computeThreads (given : Int) (l : List Ctx) : Option Int :=
  match l with
  | [] => none
  | c :: _ => some (if given = -1 then c.numThreads else given)

/-- Calls of one thread. -/
inductive Call where
  | set (n : Int)
  | parallel
  | get (g : Get)
  deriving DecidableEq

/-- One call. -/
def step (l : List Ctx) : Call → Option (List Ctx)
  | .set n => setNumThreads n l
  | .parallel => parallel l
  | .get g => (get g l).map fun _ => l

/-- Some calls; `none` is an abort or undefined behaviour. -/
def run : List Ctx → List Call → Option (List Ctx)
  | l, [] => some l
  | l, c :: r => match step l c with | none => none | some l => run l r

/-- `pthread_mutex_trylock`, sstmac_pthread.cc:290-308, on a valid mutex: the result, and whether the mutex is locked then. -/
def trylock (locked : Bool) : Int × Bool := (if locked then 1 else 0, locked)

/-- `omp_test_lock`, libomp.cc:95-99. -/
def testLock (locked : Bool) : Int × Bool := trylock locked

end Verif.Os.Omp
