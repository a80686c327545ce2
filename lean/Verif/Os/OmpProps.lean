import Verif.Os.Omp
set_option autoImplicit false

/-!
# Theorems about calls of OpenMP
-/

namespace Verif.Os.Omp

/-- What OpenMP says of a program outside of parallel regions, `max` threads being set last. -/
def spec (max : Int) : Get → Int
  | .threadNum => 0
  | .numThreads => 1
  | .maxThreads => max
  | .inParallel => 0
  | .level => 0

/-- The number that was set last. -/
def lastSet (omp : Int) (h : List Call) : Int := h.foldl (fun m c => match c with | .set n => n | _ => m) omp

theorem run_main (omp : Int) (h : List Call) (hp : .parallel ∉ h) : ∀ r, run [⟨0, 0, -1, 1, r, omp⟩] h = some [⟨0, 0, -1, 1, lastSet r h, omp⟩] := by
  induction h with
  | nil => intro r; rfl
  | cons c h ih =>
    intro r
    have hp' : .parallel ∉ h := fun hc => hp (List.mem_cons_of_mem _ hc)
    cases c with
    | set n => exact ih hp' n
    | parallel => exact absurd (List.mem_cons_self) hp
    | get g => cases g <;> exact ih hp' r

/-- Outside of parallel regions every call answers as OpenMP says, except that the greatest number of threads is that of the parameters. -/
theorem C133_main_partial (omp : Int) (h : List Call) (hp : .parallel ∉ h) (g : Get) : ∃ l, run (contexts true omp) h = some l ∧ get g l = some (spec omp g) := by
  refine ⟨_, run_main omp h hp omp, ?_⟩
  cases g <;> rfl

/-- The number of threads that is set is not the greatest number that is told, unless it was that before. -/
theorem C133_set_refuted (omp n : Int) (hn : n ≠ omp) : ∃ l, run (contexts true omp) [.set n] = some l ∧ get .maxThreads l = some omp ∧ get .maxThreads l ≠ some (spec (lastSet omp [.set n]) .maxThreads) :=
  ⟨_, rfl, rfl, by intro h; exact hn (Option.some.inj h).symm⟩

/-- A parallel region aborts the simulation. -/
theorem C133_parallel_refuted (isMain : Bool) (omp : Int) (h r : List Call) : run (contexts isMain omp) (h ++ .parallel :: r) = none := by
  generalize contexts isMain omp = l
  induction h generalizing l with
  | nil => rfl
  | cons c h ih =>
    rw [List.cons_append]
    unfold run
    cases step l c with
    | none => rfl
    | some l' => exact ih l'

/-- In a thread that the program starts, every call, and every computation, reads a context that does not exist. -/
theorem C133_threads_refuted (omp : Int) (g : Get) (given : Int) : get g (contexts false omp) = none ∧ computeThreads given (contexts false omp) = none := ⟨by cases g <;> rfl, rfl⟩

/-- A computation of the main thread uses one thread, whatever number is set, or the number that it is given. -/
theorem C133_compute (omp given : Int) (h : List Call) (hp : .parallel ∉ h) : ∃ l, run (contexts true omp) h = some l ∧ computeThreads given l = some (if given = -1 then 1 else given) :=
  ⟨_, run_main omp h hp omp, rfl⟩

/-- What OpenMP says of `omp_test_lock`: it takes a lock that is free and says so by a number other than zero. -/
def testSpec (locked : Bool) (r : Int × Bool) : Prop := (r.1 ≠ 0 ↔ locked = false) ∧ r.2 = true

/-- `omp_test_lock` says of every lock that is free that it has not taken it, of every other that it has, and takes none. -/
theorem C133_test_lock_refuted (locked : Bool) : ¬ testSpec locked (testLock locked) ∧ ((testLock locked).1 ≠ 0 ↔ locked = true) ∧ (testLock locked).2 = locked := by
  unfold testSpec; cases locked <;> decide

/-- A program that sets and asks. -/
example : run (contexts true 8) [.set 4, .get .maxThreads, .get .level] = some [⟨0, 0, -1, 1, 4, 8⟩] := by decide

end Verif.Os.Omp
