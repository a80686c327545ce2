/-
The tree along which the start message of a job is forwarded: `OutcastIterator`
(sstmac/software/launch/job_launcher.h:227-263), used by `OperatingSystem::outcastAppStart`
(sstmac/software/process/operating_system.cc:642-684) and `AppLauncher::incomingRequest`
(sstmac/software/launch/app_launcher.cc:71-113).

Numbers of ranks are at most `2^30`, so that `power2_size` fits an `int`.
-/
set_option autoImplicit false
namespace SST.Launch

/-- `pvt_forward_to`, job_launcher.h:246-261. Block sizes are powers of two: the argument is the exponent. -/
def forwardIn (rank n : Nat) : Nat → Nat → List Nat
  | 0, _ => []
  | k + 1, offset =>
    let half := 2 ^ k
    let mid := offset + half
    (if rank % 2 ^ (k + 1) = 0 then (if mid < n then [mid] else []) else []) ++
      (if rank ≥ mid then forwardIn rank n k mid else forwardIn rank n k offset)

/-- The loop that finds the power of two, job_launcher.h:232-235: the exponent. The loop ends after at most
`n` rounds. -/
def power2 (n : Nat) : Nat → Nat → Nat
  | 0, k => k
  | fuel + 1, k => if 2 ^ k < n then power2 n fuel (k + 1) else k

/-- `forward_to`, job_launcher.h:231-239: the ranks to which `rank` forwards the message. -/
def forwardTo (rank n : Nat) : List Nat := forwardIn rank n (power2 n n 0) 0

/-- The ranks that get the message: rank 0 gets it from the job launcher (job_launcher.cc:194,
operating_system.cc:653-656) and each rank that gets it forwards it (app_launcher.cc:94). -/
inductive Gets (n : Nat) : Nat → Prop
  | root : Gets n 0
  | forward {r d : Nat} (h : Gets n r) (hd : d ∈ forwardTo r n) : Gets n d

end SST.Launch
