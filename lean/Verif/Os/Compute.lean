import Verif.Mem.LogP
set_option autoImplicit false

/-!
# What computations and pauses cost

Model of the calls by which a simulated program computes or sleeps: sstmac/software/libraries/compute, `App::computeDetailed` in
sstmac/software/process/app.cc, sstmac/hardware/processor/instruction_processor.cc and the kernels in sstmac/libraries/blas.
Products and quotients of times by `double` are taken to be exact before they are rounded down to ticks.
-/

namespace Verif.Os.Compute

open SST.Mem.LogP (Access Link newAccess accessFlows)

/-- `uint64_t`. -/
def wrap (n : Nat) : Nat := n % 2 ^ 64

/-- Ticks in a second, timestamp.cc:64-71, for the default of 100 attoseconds. -/
def oneSecond : Nat := 10 ^ 16

/-- `basic_instructions_st`, compute_event.h:121-128. -/
structure Inst where
  flops : Nat
  intops : Nat
  bytes : Nat
  nthread : Int := 1
  deriving DecidableEq

/-- What is asked of the processor. -/
inductive Asked where
  /-- Nothing: the call returns at once. -/
  | nothing
  | run (i : Inst)
  | abort
  /-- Division by zero, or overflow of `int`. -/
  | undefined
  deriving DecidableEq

/-- `App::computeDetailed`, app.cc:480-496; `cutoff` is the parameter `min_op_cutoff`. -/
def computeDetailed (cutoff flops intops bytes : Nat) (nthread : Int) : Asked :=
  if 18006744072479883520 < flops || 18006744072479883520 < bytes then .abort
  else if wrap (flops + intops) < cutoff then .nothing
  else .run ⟨flops, intops, bytes, nthread⟩

/-- `LibComputeInst::computeLoop`, lib_compute_inst.cc:105-118; the overhead is `p / q`. -/
def computeLoop (p q loops flops intops bytes : Nat) : Inst :=
  ⟨wrap (flops * loops), wrap (wrap (2 * loops) * p / q + wrap (intops * loops)), wrap (bytes * loops), 1⟩

/-- `sstmac_compute_loop2`, `3` and `4`, compute_api.cc:130-156. -/
def loops (sizes : List Nat) : Nat := sizes.foldl (fun n s => wrap (n * s)) 1

/-- `LibComputeMemmove::doAccess`, lib_compute_memmove.cc:69-79; `bits` is the parameter `lib_compute_access_width`. -/
def doAccess (p q bits bytes : Nat) : Asked :=
  if bits / 8 = 0 then .undefined else .run (computeLoop p q (bytes / (bits / 8)) 0 1 (bits / 8))

/-- The time of an operation, instruction_processor.cc:77-82: `hertz` is the frequency times the degree of parallelism. -/
def tick (hertz : Nat) : Nat := oneSecond / hertz

/-- `instructionTime`, instruction_processor.cc:86-94, and its division, :103; `none` if there is no thread or the time does not fit. -/
def instrTime (hertz : Nat) (i : Inst) : Option Nat :=
  if i.nthread ≤ 0 then none
  else if 2 ^ 64 ≤ i.flops * tick hertz + i.intops * tick hertz then none
  else some ((i.flops * tick hertz + i.intops * tick hertz) / i.nthread.toNat)

/-- What the processor does, instruction_processor.cc:96-115: wait, or use the memory. -/
inductive Work where
  | wait (t : Nat)
  | memory (bytes requestDelay : Nat)
  deriving DecidableEq

/-- `InstructionProcessor::compute`; `negligible` is the parameter `negligible_compute_bytes`. -/
def work (negligible : Nat) (bytes time : Nat) : Work :=
  if bytes ≤ negligible then .wait time else .memory bytes (time / bytes)

/-- When computations `(now, bytes, instruction time)` of the processes of one node end, with the memory of logp_memory_model.cc. -/
def ends (negligible : Nat) (l : Link) : List (Nat × Nat × Nat) → List Nat
  | [] => []
  | (now, bytes, time) :: r =>
    match work negligible bytes time with
    | .wait t => (now + t) :: ends negligible l r
    | .memory b d => (now + (newAccess l ⟨now, b, d⟩).2) :: ends negligible (newAccess l ⟨now, b, d⟩).1 r

/-- Whether the computation has to wait for cores, operating_system.cc:357-360 and the test of `SimpleComputeScheduler::reserveCores`,
simple_compute_scheduler.cc:63-64. -/
def mustWait (ncores active owned nthread : Int) : Bool := owned < nthread && nthread - owned + active > ncores

/-- The memory that models nothing, memory_model.h:165. -/
def endsNull (negligible now bytes time : Nat) : Option Nat :=
  match work negligible bytes time with
  | .wait t => some (now + t)
  | .memory _ _ => none

/-! ### Pauses -/

/-- `sstmac_sleep`, `sstmac_msleep`, `sstmac_usleep` and `sstmac_nanosleep`, compute_api.cc:63-90, with the constructor of
timestamp.h:129: `units` in a second. -/
def sleepTicks (units n : Nat) : Nat := wrap (n * (oneSecond / units))

/-! ### Kernels of linear algebra -/

/-- The parameters of a kernel: `long(loop_unroll_)`, `long(pipeline_)`, and the cache. -/
structure Kernel where
  unroll : Nat := 4
  pipeline : Nat := 2
  cache : Nat := 32768

/-- `int` does not hold the number. -/
def intOverflow (n : Nat) : Bool := 2 ^ 31 ≤ n

/-- daxpy.cc:84-95. -/
def daxpy (k : Kernel) (n : Nat) : Asked :=
  if k.pipeline = 0 || k.unroll = 0 || intOverflow (2 * n) then .undefined
  else .run ⟨n / k.pipeline, n / k.unroll / k.pipeline, 2 * n * 8, 1⟩

/-- ddot.cc:84-95. -/
def ddot (k : Kernel) (n : Nat) : Asked :=
  if k.pipeline = 0 || k.unroll = 0 || intOverflow (3 * n) then .undefined
  else .run ⟨n / k.pipeline, n / k.unroll / k.pipeline, 3 * n * 8, 1⟩

/-- dgemv.cc:84-95. -/
def dgemv (k : Kernel) (m n : Nat) : Asked :=
  if k.pipeline = 0 || k.unroll = 0 then .undefined
  else .run ⟨m * n / k.pipeline, m * n / k.unroll / k.pipeline, m * n * 8, 1⟩

/-- The loop of dgemm.cc:105-109, at most `f` turns. -/
def partitions (sum cache : Nat) : Nat → Nat → Nat
  | 0, p => p
  | f + 1, p => if cache < sum / (p * p) then partitions sum cache f (p + 1) else p

/-- dgemm.cc:86-125 for sizes in increasing order; `pw` is the power 2.807 / 3, rounded down. -/
def dgemmSorted (pw : Nat → Nat) (c : Kernel) (k n m : Nat) : Asked :=
  if c.pipeline = 0 || c.unroll = 0 || intOverflow (m * n) then .undefined
  else
    let parts := partitions (m * k + k * n + m * n) c.cache (m * k + k * n + m * n) 1
    .run ⟨pw (m * n * k) / c.pipeline, pw (m * n * k) / c.unroll / c.pipeline, m * n + m * k * parts + k * n * parts, 1⟩

/-- `DefaultDGEMM::op_3d`: the sizes are sorted first. -/
def dgemm (pw : Nat → Nat) (c : Kernel) (mm nn kk : Nat) : Asked :=
  dgemmSorted pw c (min mm (min kk nn)) (max (min mm kk) (min (max mm kk) nn)) (max mm (max kk nn))

/-- The kernels are made by the first process of the simulation, blas_api.cc:80-88: those that an application uses, given the
parameters of all applications in the order of their starts. -/
def kernelOf (started : List Kernel) (_app : Nat) : Option Kernel := started.head?

end Verif.Os.Compute
