/-
The allocator of the stacks of simulated threads (sstmac/software/threading/stack_alloc.cc, stack_alloc_chunk.cc).

Addresses are natural numbers. Memory is mapped by the operating system: the address is an argument.
-/
set_option autoImplicit false
namespace SST.Os

/-- `StackAlloc::stacksize_`, `suggested_chunk_`, `protect_stacks_`. -/
structure StackCfg where
  ss : Nat
  chunk : Nat
  protect : Bool

/-- `StackAlloc::init`, stack_alloc.cc:61-79: the stack size is rounded up to whole pages. -/
def roundStack (n : Nat) : Nat := if n % 4096 ≠ 0 then n + (4096 - n % 4096) else n

/-- `size_` of a chunk, stack_alloc_chunk.cc:64. -/
def StackCfg.size (c : StackCfg) : Nat := if c.protect then 2 * c.chunk else c.chunk

/-- `step_size_` of a chunk, stack_alloc_chunk.cc:66. -/
def StackCfg.step (c : StackCfg) : Nat := if c.protect then 2 * c.ss else c.ss

/-- `next_stack_offset_` after lines 79-82 of the constructor (0 before, stack_alloc_chunk.h). -/
def StackCfg.align (c : StackCfg) (addr : Nat) : Nat := if addr % c.ss ≠ 0 then c.ss - addr % c.ss else 0

/-- The offsets `off`, `off + step`, … as long as one more step stays below `size`: the loops of
stack_alloc_chunk.cc:91-95 and of `getNextStack`, stack_alloc_chunk.cc:99-108, called in stack_alloc.cc:109-113.
A step of 0 does not occur: `alloc` has refused it before. -/
def offsets (step size off : Nat) : List Nat :=
  if _h : 0 < step ∧ off + step < size then off :: offsets step size (off + step) else []
termination_by size - off
decreasing_by omega

/-- The stacks of a chunk mapped at `addr`. -/
def StackCfg.stacks (c : StackCfg) (addr : Nat) : List Nat :=
  (offsets c.step c.size (if c.protect then c.align addr + c.ss else c.align addr)).map (addr + ·)

/-- The start addresses of the regions of size `ss` that are made inaccessible, stack_alloc_chunk.cc:86-96. -/
def StackCfg.guards (c : StackCfg) (addr : Nat) : List Nat :=
  if c.protect then (offsets c.step c.size (c.align addr)).map (addr + ·) else []

/-- `chunks_`: the free stacks, the back of the vector first, and the addresses of the chunks. -/
structure Stacks where
  avail : List Nat
  chunks : List Nat
deriving DecidableEq

/-- `StackAlloc::alloc`, stack_alloc.cc:96-119; `addr`: where a new chunk would be mapped. `none`: the error for a
stack size of 0, or `back()` of an empty vector, which is undefined. -/
def Stacks.alloc (c : StackCfg) (s : Stacks) (addr : Nat) : Option (Nat × Stacks) :=
  if c.ss = 0 then none
  else
    let s := if s.avail.isEmpty then { avail := (c.stacks addr).reverse, chunks := addr :: s.chunks } else s
    match s.avail with
    | [] => none
    | b :: rest => some (b, { s with avail := rest })

/-- `StackAlloc::free`, stack_alloc.cc:124-130. -/
def Stacks.free (s : Stacks) (b : Nat) : Stacks := { s with avail := b :: s.avail }

/-- The parts of `alloc` and `free` that touch the vector, as they interleave when two threads run: the locks of the
two functions are different objects (stack_alloc.cc:99, 126). -/
inductive Micro
  /-- `buf = available.back()`, stack_alloc.cc:115. -/
  | back
  /-- `available.pop_back()`, stack_alloc.cc:116, after which `buf` is returned. -/
  | pop
  /-- `available.push_back(b)`, stack_alloc.cc:128. -/
  | push (b : Nat)

/-- Runs such parts on (free stacks, `buf`, stacks handed out). `none`: undefined. -/
def microRun : List Micro → List Nat × Nat × List Nat → Option (List Nat × Nat × List Nat)
  | [], s => some s
  | .back :: ms, (avail, _, out) => match avail with
    | [] => none
    | b :: rest => microRun ms (b :: rest, b, out)
  | .pop :: ms, (avail, buf, out) => match avail with
    | [] => none
    | _ :: rest => microRun ms (rest, buf, out ++ [buf])
  | .push b :: ms, (avail, buf, out) => microRun ms (b :: avail, buf, out)

end SST.Os
