/-
Virtual ranks and action identifiers of collectives (sumi/collective_actor.{h,cc}).
`int` arithmetic on communicator sizes is modelled by natural numbers: the doubling loop
would overflow only for more than 2^30 ranks.
-/
set_option autoImplicit false
namespace SST.Coll

/-- The loop of `RecursiveDoubling::computeTree`, collective_actor.cc:888-897.  `fuel`
bounds the iterations; `nproc` is enough (`computeTree_spec`). -/
def pow2Loop (nproc : Nat) : Nat → Nat → Nat → Nat × Nat
  | 0, log2, pow2 => (log2, pow2)
  | fuel + 1, log2, pow2 =>
    if pow2 < nproc then pow2Loop nproc fuel (log2 + 1) (pow2 * 2) else (log2, pow2)

/-- Results of `RecursiveDoubling::computeTree`, collective_actor.cc:887-898. -/
structure TreeInfo where
  log2nproc : Nat
  midpoint : Nat
  virtualNproc : Nat
deriving DecidableEq, Repr

/-- `RecursiveDoubling::computeTree`, collective_actor.cc:887-898. -/
def computeTree (nproc : Nat) : TreeInfo :=
  let r := pow2Loop nproc nproc 0 1
  { log2nproc := r.1, midpoint := r.2 / 2, virtualNproc := r.2 }

/-- `VirtualRankMap`, collective_actor.h:542-582. -/
structure RankMap where
  nproc : Nat
  virtualNproc : Nat
deriving DecidableEq, Repr

/-- `VirtualRankMap::realToVirtual`, collective_actor.cc:900-912 (the entries of `ret`). -/
def RankMap.realToVirtual (m : RankMap) (rank : Nat) : List Nat :=
  let two := m.virtualNproc - m.nproc
  if rank ≥ two then [two + rank] else [2 * rank, 2 * rank + 1]

/-- `VirtualRankMap::virtualToReal`, collective_actor.cc:914-927. -/
def RankMap.virtualToReal (m : RankMap) (v : Nat) : Nat :=
  let two := m.virtualNproc - m.nproc
  if v ≥ 2 * two then v - two else v / 2

/-- The map a collective of `n` ranks uses (allreduce.cc:93-94, reduce.cc:118-119). -/
def rankMap (n : Nat) : RankMap := { nproc := n, virtualNproc := (computeTree n).virtualNproc }

/-- `Action::messageId`, collective_actor.h:106-110.  The sum is computed in `uint32_t`
(`max_round` is unsigned, so a negative partner wraps too). -/
def messageId (ty r : Nat) (p : Int) : BitVec 32 :=
  BitVec.ofInt 32 p * 500#32 * 6#32 + BitVec.ofNat 32 r * 6#32 + BitVec.ofNat 32 ty

/-- `Action::details`, collective_actor.h:112-122: type, round, partner. -/
def details (id : BitVec 32) : Nat × Nat × Nat :=
  let p := id.toNat / 500 / 6
  let rem := id.toNat - p * 500 * 6
  let r := rem / 6
  (rem - r * 6, r, p)

theorem pow2Loop_spec (n : Nat) : ∀ fuel k : Nat, n ≤ fuel + 2 ^ k → (k = 0 ∨ 2 ^ (k - 1) < n) →
    ∃ K, pow2Loop n fuel k (2 ^ k) = (K, 2 ^ K) ∧ n ≤ 2 ^ K ∧ (K = 0 ∨ 2 ^ (K - 1) < n) := by
  intro fuel
  induction fuel with
  | zero => intro k h h2; exact ⟨k, rfl, by omega, h2⟩
  | succ fuel ih =>
    intro k h h2
    unfold pow2Loop
    split
    · rename_i hlt
      have := ih (k + 1) (by rw [Nat.pow_succ]; have := Nat.two_pow_pos k; omega) (Or.inr (by simpa using hlt))
      rw [Nat.pow_succ] at this
      exact this
    · rename_i hge
      exact ⟨k, rfl, by omega, h2⟩

/-- The virtual size is the smallest power of two that is at least `n`. -/
theorem computeTree_spec (n : Nat) : ∃ k, (computeTree n).log2nproc = k ∧ (computeTree n).virtualNproc = 2 ^ k ∧
    (computeTree n).midpoint = 2 ^ k / 2 ∧ n ≤ 2 ^ k ∧ (k = 0 ∨ 2 ^ (k - 1) < n) := by
  obtain ⟨k, h1, h2, h3⟩ := pow2Loop_spec n n 0 (by simp) (Or.inl rfl)
  rw [Nat.pow_zero] at h1
  exact ⟨k, by simp [computeTree, h1], by simp [computeTree, h1], by simp [computeTree, h1], h2, h3⟩

theorem virtualNproc_lt (n : Nat) (hn : 1 ≤ n) : n ≤ (computeTree n).virtualNproc ∧ (computeTree n).virtualNproc < 2 * n := by
  obtain ⟨k, _, h2, _, h4, h5⟩ := computeTree_spec n
  rw [h2]
  refine ⟨h4, ?_⟩
  rcases h5 with rfl | h5
  · simp; omega
  · cases k with
    | zero => simp; omega
    | succ k => simp at h5; rw [Nat.pow_succ]; omega

end SST.Coll
