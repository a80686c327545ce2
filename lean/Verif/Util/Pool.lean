set_option autoImplicit false
/-
Model of the memory pools of simulation objects: sprockit/sprockit/thread_safe_new.h:74-200 (built
with SSTMAC_CUSTOM_NEW, without the debugging checks).
-/
namespace SST.Util.Pool

/-- `MAX_NUM_NEW_SAFE_THREADS`, thread_safe_new.h:78. -/
def maxThreads : Nat := 128
/-- `increment`, thread_safe_new.h:185. -/
def increment : Nat := 512
/-- `SSTMAC_CACHE_ALIGNMENT`, thread_safe_new.h:158. -/
def alignment : Nat := 64

/-- The size of one chunk, thread_safe_new.h:159-163, for objects of `size` bytes. -/
def unitSize (size : Nat) : Nat := if size % alignment ≠ 0 then size + (alignment - size % alignment) else size

/-- `ThreadAllocatorSet`, thread_safe_new.h:77-80.  Addresses are numbers; the last entry of an
`available` vector comes first here. -/
structure St where
  /-- `available` of each thread -/
  avail : Nat → List Nat
  /-- `allocations` of all threads: first byte; all have `unitSize * increment` bytes -/
  blocks : List Nat
  /-- ghost: the objects that exist, the newest first -/
  live : List Nat

/-- The pool at the start of the program. -/
def St.init : St := ⟨fun _ => [], [], []⟩

/-- Write one entry of an array. -/
def put {A : Type} (f : Nat → A) (i : Nat) (a : A) : Nat → A := fun j => if j = i then a else f j

/-- The chunks cut from a new block, thread_safe_new.h:165-179, in the order in which they are
pushed. -/
def cut (size base : Nat) : List Nat :=
  let first := if base % alignment ≠ 0 then base + (alignment - base % alignment) else base
  let numElems := if base % alignment ≠ 0 then increment - 1 else increment
  (List.range numElems).map fun i => first + i * unitSize size

/-- `thread_safe_new::grow`, thread_safe_new.h:158-185; `base` is what `new char[]` returned. -/
def grow (size : Nat) (s : St) (thread base : Nat) : St :=
  { s with avail := put s.avail thread ((cut size base).reverse ++ s.avail thread), blocks := base :: s.blocks }

/-- `operator new` and `allocate`, thread_safe_new.h:110-133, for an object of `size` bytes; `sz` is
the number of bytes asked for.  `none`: abort (sizes differ), or a thread beyond the arrays. -/
def alloc (size : Nat) (s : St) (thread sz base : Nat) : Option St :=
  if sz ≠ size ∨ maxThreads ≤ thread then none else
  let s := if s.avail thread = [] then grow size s thread base else s
  match s.avail thread with
  | [] => none
  | p :: ps => some { s with avail := put s.avail thread ps, live := p :: s.live }

/-- `operator delete`, thread_safe_new.h:139-155. -/
def free (s : St) (thread p : Nat) : Option St :=
  if maxThreads ≤ thread then none
  else some { s with avail := put s.avail thread (p :: s.avail thread), live := s.live.erase p }

/-- What threads do: create an object (with the address the system would give a new block, used
only if one is needed), destroy one. -/
inductive Op where
  | new (thread base : Nat)
  | del (thread p : Nat)

/-- One operation on objects of `size` bytes. -/
def step (size : Nat) (s : St) : Op → Option St
  | .new t b => alloc size s t size b
  | .del t p => free s t p

/-- A history of the pool. -/
def run (size : Nat) (ops : List Op) : Option St := ops.foldlM (step size) .init

end SST.Util.Pool
