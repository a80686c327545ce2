set_option autoImplicit false

/-!
# Runs of programs of MPI calls

A small specification of how a set of ranks runs programs of MPI calls, for the workloads that come
with the simulator (Apps/Halo.lean, Apps/Sweep.lean, Apps/Fft.lean).  It is what MPI demands and what
is proved of the simulator's MPI in Mpi/Props.lean (C17, C19, C20): on each channel (sender, receiver,
tag) of a communicator the messages match the receives in order.  A send may return when its data was
copied (`eager`) or only when its receive was called; which one depends on the size (C21) and the
theorems hold for every choice.  Each rank is at one call at a time; a call has been made as soon as
the rank has reached it, and the rank goes on when the call may return.
-/

namespace Verif.Apps

/-- The calls.  Sizes are counts of elements of one type. -/
inductive Instr where
  /-- Computation, sleep, reading a clock. -/
  | comp
  /-- `MPI_Isend` to `d` with tag `t` of `n` elements. -/
  | isend (d t n : Int)
  /-- `MPI_Irecv` from `s`. -/
  | irecv (s t n : Int)
  /-- `MPI_Send`. -/
  | send (d t n : Int)
  /-- `MPI_Recv`. -/
  | recv (s t n : Int)
  /-- `MPI_Waitall` on all requests so far. -/
  | waitall
  /-- A collective of this kind with this count, on the communicator that has these members. -/
  | coll (ms : List Int) (kind : Nat) (n : Int)
deriving DecidableEq

/-- Programs for the ranks `0` to `size - 1`. -/
structure World where
  size : Int
  prog : Int → List Instr

/-- A rank of the world. -/
def World.Has (W : World) (r : Int) : Prop := 0 ≤ r ∧ r < W.size

/-- The size of a send to `d` with tag `t`. -/
def isSend (d t : Int) : Instr → Option Int
  | .isend d' t' n => if d' = d ∧ t' = t then some n else none
  | .send d' t' n => if d' = d ∧ t' = t then some n else none
  | _ => none

/-- The size of a receive from `s` with tag `t`. -/
def isRecv (s t : Int) : Instr → Option Int
  | .irecv s' t' n => if s' = s ∧ t' = t then some n else none
  | .recv s' t' n => if s' = s ∧ t' = t then some n else none
  | _ => none

/-- The arguments of a collective on the communicator `ms`. -/
def isColl (ms : List Int) : Instr → Option (Nat × Int)
  | .coll ms' k n => if ms' = ms then some (k, n) else none
  | _ => none

/-- The sizes of the sends to `d` with tag `t` among some calls, in order. -/
def sends (l : List Instr) (d t : Int) : List Int := l.filterMap (isSend d t)

/-- The sizes of the receives from `s` with tag `t`. -/
def recvs (l : List Instr) (s t : Int) : List Int := l.filterMap (isRecv s t)

/-- The collectives on a communicator. -/
def colls (l : List Instr) (ms : List Int) : List (Nat × Int) := l.filterMap (isColl ms)

/-- The calls that rank `r` has made when it is at the call `pc r`. -/
def made (W : World) (pc : Int → Nat) (r : Int) : List Instr := (W.prog r).take (pc r + 1)

/-- The last of the first `k` calls of `r`, a receive from `s` with tag `t`, has its message. -/
def Arrived (W : World) (pc : Int → Nat) (r s t : Int) (k : Nat) : Prop :=
  (recvs ((W.prog r).take k) s t).length ≤ (sends (made W pc s) r t).length

/-- The last of the first `k` calls of `r`, a send to `d` with tag `t`, has its receive. -/
def Taken (W : World) (pc : Int → Nat) (r d t : Int) (k : Nat) : Prop :=
  (sends ((W.prog r).take k) d t).length ≤ (recvs (made W pc d) r t).length

/-- Rank `r` may go on to its next call. -/
def Ready (W : World) (eager : Int → Prop) (pc : Int → Nat) (r : Int) : Prop :=
  match (W.prog r)[pc r]? with
  | none => False
  | some .comp => True
  | some (.isend _ _ _) => True
  | some (.irecv _ _ _) => True
  | some (.recv s t _) => Arrived W pc r s t (pc r + 1)
  | some (.send d t n) => eager n ∨ Taken W pc r d t (pc r + 1)
  | some .waitall => ∀ (j : Nat), j < pc r →
      (∀ s t n, (W.prog r)[j]? = some (.irecv s t n) → Arrived W pc r s t (j + 1)) ∧
      (∀ d t n, (W.prog r)[j]? = some (.isend d t n) → eager n ∨ Taken W pc r d t (j + 1))
  | some (.coll ms _ _) => ∀ q, q ∈ ms → (colls (made W pc r) ms).length ≤ (colls (made W pc q) ms).length

/-- The states that the ranks can reach, and after how many steps. -/
inductive Runs (W : World) (eager : Int → Prop) : (Int → Nat) → Nat → Prop
  | start : Runs W eager (fun _ => 0) 0
  | step {pc : Int → Nat} {n : Nat} (r : Int) : Runs W eager pc n → W.Has r → Ready W eager pc r →
      Runs W eager (fun q => if q = r then pc q + 1 else pc q) (n + 1)

/-- Rank `r` is at the end of its program. -/
def Ended (W : World) (pc : Int → Nat) (r : Int) : Prop := (W.prog r).length ≤ pc r

/-- The sum of the lengths of the programs of the first `n` ranks. -/
def total (W : World) : Nat → Nat
  | 0 => 0
  | n + 1 => total W n + (W.prog n).length

/-- The program ends: no run has more steps than there are calls, and wherever a run stands, either
all ranks have ended or one can go on. -/
def Completes (W : World) (eager : Int → Prop) : Prop :=
  ∀ pc n, Runs W eager pc n → n ≤ total W W.size.toNat ∧
    ((∀ r, W.Has r → Ended W pc r) ∨ ∃ r, W.Has r ∧ Ready W eager pc r)

/-- Each message has a receive that is large enough and each receive has a message. -/
def Fits (W : World) : Prop :=
  ∀ s d t, W.Has s → W.Has d → (sends (W.prog s) d t).length = (recvs (W.prog d) s t).length ∧
    ∀ (i : Nat) (n m : Int), (sends (W.prog s) d t)[i]? = some n → (recvs (W.prog d) s t)[i]? = some m → n ≤ m

/-- All messages go to ranks of the world and come from ranks of the world. -/
def Inside (W : World) : Prop :=
  ∀ r, W.Has r → ∀ i, i ∈ W.prog r → (∀ d t n, i = .isend d t n ∨ i = .send d t n → W.Has d) ∧ (∀ s t n, i = .irecv s t n ∨ i = .recv s t n → W.Has s)

/-- The members of each communicator call the same collectives with the same arguments in the same
order. -/
def Agree (W : World) : Prop :=
  ∀ r, W.Has r → ∀ ms k n, .coll ms k n ∈ W.prog r → r ∈ ms ∧ ∀ q, q ∈ ms → W.Has q ∧ colls (W.prog q) ms = colls (W.prog r) ms

end Verif.Apps
