import Verif.Os.Compute
import Verif.Mem.LogPProps
set_option autoImplicit false

/-!
# Theorems about the costs of computations and pauses
-/

namespace Verif.Os.Compute

open SST.Mem.LogP (Access Link newAccess accessFlows)

/-! ### What is charged -/

/-- A computation is charged for its operations, bytes and threads if their number fits and reaches the cutoff. -/
theorem C132_detailed_partial (cutoff flops intops bytes : Nat) (nthread : Int) (hf : flops ≤ 18006744072479883520) (hb : bytes ≤ 18006744072479883520) (hs : flops + intops < 2 ^ 64)
    (hc : cutoff ≤ flops + intops) : computeDetailed cutoff flops intops bytes nthread = .run ⟨flops, intops, bytes, nthread⟩ := by
  unfold computeDetailed
  rw [if_neg (by simp only [Bool.or_eq_true, decide_eq_true_eq]; omega), if_neg (by unfold wrap; omega)]

/-- Counts of operations that are too large are not noticed if both kinds add up to them: the computation takes no time. -/
theorem C132_detailed_refuted : computeDetailed 1000 (2 ^ 63) (2 ^ 63) 8 1 = .nothing := by decide

/-- A computation with few operations is not charged for its bytes either. -/
theorem C132_cutoff_refuted (cutoff flops intops bytes : Nat) (nthread : Int) (hb : bytes ≤ 18006744072479883520) (h : flops + intops < cutoff) (hc : cutoff ≤ 1000) :
    computeDetailed cutoff flops intops bytes nthread = .nothing := by
  unfold computeDetailed
  rw [if_neg (by simp only [Bool.or_eq_true, decide_eq_true_eq]; omega), if_pos (by unfold wrap; omega)]

/-- A loop is charged for each turn, and for twice the overhead. -/
theorem C132_loop_partial (p q n flops intops bytes : Nat) (h1 : flops * n < 2 ^ 64) (h2 : bytes * n < 2 ^ 64) (h3 : 2 * n < 2 ^ 64) (h4 : 2 * n * p / q + intops * n < 2 ^ 64) :
    computeLoop p q n flops intops bytes = ⟨flops * n, 2 * n * p / q + intops * n, bytes * n, 1⟩ := by
  unfold computeLoop wrap
  have h5 : intops * n < 2 ^ 64 := Nat.lt_of_le_of_lt (Nat.le_add_left _ _) h4
  rw [Nat.mod_eq_of_lt h1, Nat.mod_eq_of_lt h3, Nat.mod_eq_of_lt h5, Nat.mod_eq_of_lt h2, Nat.mod_eq_of_lt h4]

/-- A large loop costs nothing for its floating point operations. -/
theorem C132_loop_refuted : (computeLoop 0 1 (2 ^ 62) 4 1 0).flops = 0 := by decide

/-- Nested loops are the product of their sizes as long as it fits. -/
theorem C132_nested (sizes : List Nat) : loops sizes = wrap (sizes.foldl (· * ·) 1) := by
  unfold loops
  have : ∀ (l : List Nat) (a b : Nat), a = wrap b → l.foldl (fun n s => wrap (n * s)) a = wrap (l.foldl (· * ·) b) := by
    intro l
    induction l with
    | nil => intro a b h; exact h
    | cons x l ih =>
      intro a b h
      rw [List.foldl_cons, List.foldl_cons]
      apply ih
      rw [h]
      unfold wrap
      rw [Nat.mod_mul_mod]
  exact this sizes 1 1 (by decide)

example : loops [10, 20, 30] = 6000 := by decide

/-- Reading, writing and copying are charged for whole words only. -/
theorem C132_access (p q bits bytes : Nat) (hw : 8 ≤ bits) (hb : bytes < 2 ^ 64) :
    ∃ i, doAccess p q bits bytes = .run i ∧ i.bytes ≤ bytes ∧ bytes < i.bytes + bits / 8 ∧ (bytes % (bits / 8) = 0 → i.bytes = bytes) := by
  have h8 : 0 < bits / 8 := by omega
  unfold doAccess
  rw [if_neg (by omega)]
  have hle : bits / 8 * (bytes / (bits / 8)) ≤ bytes := Nat.mul_div_le _ _
  have hm := Nat.div_add_mod bytes (bits / 8)
  have hl := Nat.mod_lt bytes h8
  refine ⟨_, rfl, ?_⟩
  show wrap (bits / 8 * (bytes / (bits / 8))) ≤ bytes ∧ bytes < wrap (bits / 8 * (bytes / (bits / 8))) + bits / 8 ∧ (bytes % (bits / 8) = 0 → wrap (bits / 8 * (bytes / (bits / 8))) = bytes)
  have : wrap (bits / 8 * (bytes / (bits / 8))) = bits / 8 * (bytes / (bits / 8)) := Nat.mod_eq_of_lt (by omega)
  rw [this]
  exact ⟨hle, by omega, fun h => by omega⟩

/-- Seven bytes are free of charge. -/
theorem C132_access_refuted : doAccess 1 1 64 7 = .run ⟨0, 0, 0, 1⟩ := by decide

/-- A width of less than a byte divides by zero. -/
theorem C132_width_refuted (p q bytes : Nat) : doAccess p q 4 bytes = .undefined := by
  unfold doAccess; rw [if_pos (by decide)]

/-! ### How long it takes -/

/-- The time of instructions is within one tick per operation, and one for the division, of their exact time. -/
theorem C132_time (hertz : Nat) (h0 : 0 < hertz) (i : Inst) (t : Nat) (ht : instrTime hertz i = some t) :
    0 < i.nthread ∧ t * i.nthread.toNat * hertz ≤ (i.flops + i.intops) * oneSecond ∧
    (i.flops + i.intops) * oneSecond ≤ ((t + 1) * i.nthread.toNat + (i.flops + i.intops)) * hertz := by
  unfold instrTime at ht
  split at ht
  · cases ht
  · rename_i hn
    split at ht
    · cases ht
    · simp only [Option.some.injEq] at ht
      have hn' : 0 < i.nthread.toNat := by omega
      refine ⟨by omega, ?_⟩
      rw [← Nat.add_mul] at ht
      generalize i.flops + i.intops = N at ht ⊢
      generalize i.nthread.toNat = n at ht hn' ⊢
      have hk1 : tick hertz * hertz ≤ oneSecond := Nat.div_mul_le_self _ _
      have hk2 : oneSecond ≤ (tick hertz + 1) * hertz := by
        have := Nat.div_add_mod oneSecond hertz
        have hl := Nat.mod_lt oneSecond h0
        unfold tick
        rw [Nat.add_mul, Nat.mul_comm (oneSecond / hertz)]
        omega
      have hd1 : t * n ≤ N * tick hertz := by rw [← ht]; exact Nat.div_mul_le_self _ _
      have hd2 : N * tick hertz ≤ (t + 1) * n := by
        have := Nat.div_add_mod (N * tick hertz) n
        have hl := Nat.mod_lt (N * tick hertz) hn'
        rw [ht] at this
        rw [Nat.add_mul, Nat.mul_comm t]
        omega
      constructor
      · calc t * n * hertz ≤ N * tick hertz * hertz := Nat.mul_le_mul_right _ hd1
          _ = N * (tick hertz * hertz) := Nat.mul_assoc _ _ _
          _ ≤ N * oneSecond := Nat.mul_le_mul_left _ hk1
      · calc N * oneSecond ≤ N * ((tick hertz + 1) * hertz) := Nat.mul_le_mul_left _ hk2
          _ = (N * tick hertz + N) * hertz := by rw [← Nat.mul_assoc, Nat.mul_add, Nat.mul_one]
          _ ≤ ((t + 1) * n + N) * hertz := Nat.mul_le_mul_right _ (by omega)

/-- A thousand operations on four threads at one gigahertz take 250 nanoseconds. -/
example : instrTime (10 ^ 9) ⟨600, 400, 0, 4⟩ = some (250 * 10 ^ 7) := by decide

/-- More operations never take less time. -/
theorem C132_time_mono (hertz : Nat) (i j : Inst) (t u : Nat) (hn : i.nthread = j.nthread) (h1 : i.flops ≤ j.flops) (h2 : i.intops ≤ j.intops) (ht : instrTime hertz i = some t) (hu : instrTime hertz j = some u) :
    t ≤ u := by
  unfold instrTime at ht hu
  split at ht
  · cases ht
  · split at ht
    · cases ht
    · split at hu
      · cases hu
      · split at hu
        · cases hu
        · simp only [Option.some.injEq] at ht hu
          rw [← ht, ← hu, hn]
          exact Nat.div_le_div_right (Nat.add_le_add (Nat.mul_le_mul_right _ h1) (Nat.mul_le_mul_right _ h2))

/-- The end of one computation on a node whose memory is free. -/
def alone (negligible byteDelay lat now bytes time : Nat) : Nat := (ends negligible ⟨byteDelay, lat, 0⟩ [(now, bytes, time)]).headD 0

/-- A computation by itself takes at least as long as its instructions, and as its bytes if they are not negligible, on every memory
that needs time for a byte. -/
theorem C132_alone_partial (negligible byteDelay lat now bytes time : Nat) (hd : 0 < byteDelay) :
    now + time ≤ alone negligible byteDelay lat now bytes time ∧ (negligible < bytes → now + bytes * byteDelay ≤ alone negligible byteDelay lat now bytes time) := by
  unfold alone ends work
  by_cases h : bytes ≤ negligible
  · rw [if_pos h]
    exact ⟨Nat.le_refl _, fun h' => by omega⟩
  · rw [if_neg h]
    simp only [newAccess, List.headD_cons]
    have hb : 0 < bytes := by omega
    have hm := Nat.div_add_mod time bytes
    have hl := Nat.mod_lt time hb
    have e : (time / bytes + byteDelay) * bytes = bytes * (time / bytes) + byteDelay * bytes := by rw [Nat.add_mul, Nat.mul_comm (time / bytes)]
    have h1 : bytes ≤ byteDelay * bytes := Nat.le_mul_of_pos_left bytes hd
    rw [Nat.max_eq_left (Nat.zero_le _), e, Nat.mul_comm bytes byteDelay]
    exact ⟨by omega, fun _ => by omega⟩

/-- It takes no longer than one after the other. -/
theorem C132_alone_upper (negligible byteDelay lat now bytes time : Nat) : alone negligible byteDelay lat now bytes time ≤ now + time + lat + bytes * byteDelay := by
  unfold alone ends work
  by_cases h : bytes ≤ negligible
  · rw [if_pos h]
    simp only [List.headD_cons]
    omega
  · rw [if_neg h]
    simp only [newAccess, List.headD_cons]
    have hm := Nat.div_add_mod time bytes
    have e : (time / bytes + byteDelay) * bytes = bytes * (time / bytes) + byteDelay * bytes := by rw [Nat.add_mul, Nat.mul_comm (time / bytes)]
    rw [Nat.max_eq_left (Nat.zero_le _), e, Nat.mul_comm bytes byteDelay]
    omega

example : alone 64 100 50 1000 128 6400 = 1000 + 50 + 128 * 150 := by decide

/-- More bytes can take less time. -/
theorem C132_bytes_refuted : alone 64 1000 50 0 1000001 2000000 < alone 64 1000 50 0 1000000 2000000 := by decide +kernel

/-- Negligible bytes are free of charge, whatever the memory. -/
theorem C132_negligible_refuted (negligible byteDelay lat now bytes time : Nat) (h : bytes ≤ negligible) : alone negligible byteDelay lat now bytes time = now + time := by
  unfold alone ends work
  rw [if_pos h]
  rfl

/-- Two computations at the same time on two cores run one after the other, instructions included, if they use memory. -/
theorem C132_cores_refuted (negligible byteDelay lat now bytes time : Nat) (h : negligible < bytes) :
    ∃ t u, ends negligible ⟨byteDelay, lat, 0⟩ [(now, bytes, time), (now, bytes, time)] = [t, u] ∧ u - now = 2 * (t - now) ∧ bytes * (time / bytes) ≤ t - now := by
  unfold ends ends ends work
  rw [if_neg (by omega)]
  simp only [newAccess]
  refine ⟨_, _, rfl, ?_⟩
  rw [Nat.max_eq_left (Nat.zero_le now)]
  have : (time / bytes + byteDelay) * bytes = bytes * (time / bytes) + byteDelay * bytes := by rw [Nat.add_mul, Nat.mul_comm (time / bytes)]
  have hm := Nat.le_max_left (now + (lat + (time / bytes + byteDelay) * bytes)) now
  have hmx : max now (now + (lat + (time / bytes + byteDelay) * bytes)) = now + (lat + (time / bytes + byteDelay) * bytes) := Nat.max_eq_right (by omega)
  rw [hmx, this]
  omega

/-- A computation never ends if it uses the memory that models nothing. -/
theorem C132_null_refuted (negligible now bytes time : Nat) : endsNull negligible now bytes time = none ↔ negligible < bytes := by
  unfold endsNull work
  by_cases h : bytes ≤ negligible
  · rw [if_pos h]
    constructor
    · intro h'; cases h'
    · intro h'; omega
  · rw [if_neg h]
    exact ⟨fun _ => by omega, fun _ => rfl⟩

/-- A computation with more threads than cores waits forever: also when no other thread has a core. -/
theorem C132_threads_refuted (ncores active owned nthread : Int) (ho : owned ≤ active) (hn : owned ≤ ncores) (h : ncores < nthread) : mustWait ncores active owned nthread = true := by
  unfold mustWait
  simp only [Bool.and_eq_true, decide_eq_true_eq]
  omega

/-- With at most as many threads as cores it starts at once if nothing else runs. -/
theorem C132_threads_partial (ncores owned nthread : Int) (h : nthread ≤ ncores) : mustWait ncores owned owned nthread = false := by
  unfold mustWait
  simp only [Bool.and_eq_false_iff, decide_eq_false_iff_not]
  omega

/-- A computation on no thread has no time. -/
theorem C132_no_threads_refuted (hertz flops intops bytes : Nat) : instrTime hertz ⟨flops, intops, bytes, 0⟩ = none := by
  unfold instrTime; rw [if_pos (Int.le_refl 0)]

/-! ### Pauses -/

/-- A pause lasts as long as it says if it is no longer than 1844 seconds. -/
theorem C132_sleep_partial (units n : Nat) (hu : units ∣ oneSecond) (h : n ≤ 1844 * units) : sleepTicks units n * units = n * oneSecond := by
  obtain ⟨k, hk⟩ := hu
  have h0 : 0 < units := by
    cases units with
    | zero => rw [Nat.zero_mul] at hk; exact absurd hk (by decide)
    | succ u => omega
  have hd : oneSecond / units = k := by rw [hk]; exact Nat.mul_div_cancel_left k h0
  have hlt : n * k < 2 ^ 64 := by
    have : n * k ≤ 1844 * oneSecond := by rw [hk, ← Nat.mul_assoc]; exact Nat.mul_le_mul_right _ h
    have : 1844 * oneSecond < 2 ^ 64 := by decide
    omega
  unfold sleepTicks wrap
  rw [hd, Nat.mod_eq_of_lt hlt, hk, Nat.mul_assoc, Nat.mul_comm k]

/-- The pauses in seconds, milliseconds, microseconds and nanoseconds. -/
example : (∀ u, u ∈ [1, 10 ^ 3, 10 ^ 6, 10 ^ 9] → u ∣ oneSecond) ∧ sleepTicks 1000 5 = 5 * 10 ^ 13 := by decide

/-- A pause of 1845 seconds lasts less than a second. -/
theorem C132_sleep_refuted : sleepTicks 1 1845 < oneSecond := by decide

/-- No pause is longer than 1845 seconds. -/
theorem C132_sleep_bound (units n : Nat) : sleepTicks units n < 1845 * oneSecond := by
  unfold sleepTicks wrap
  have := Nat.mod_lt (n * (oneSecond / units)) (show 0 < 2 ^ 64 by decide)
  have : 2 ^ 64 < 1845 * oneSecond := by decide
  omega

/-! ### Kernels -/

/-- The kernels with vectors and with a matrix and a vector are charged for all bytes of their vectors, or matrix. -/
theorem C132_blas_partial (k : Kernel) (hp : 0 < k.pipeline) (hu : 0 < k.unroll) (m n : Nat) (h : 3 * n < 2 ^ 31) :
    (∃ i, daxpy k n = .run i ∧ i.bytes = 2 * (8 * n) ∧ i.flops = n / k.pipeline) ∧ (∃ i, ddot k n = .run i ∧ i.bytes = 3 * (8 * n) ∧ i.flops = n / k.pipeline) ∧
    (∃ i, dgemv k m n = .run i ∧ i.bytes = 8 * (m * n) ∧ i.flops = m * n / k.pipeline) := by
  unfold daxpy ddot dgemv intOverflow
  rw [if_neg (by simp only [Bool.or_eq_true, decide_eq_true_eq]; omega), if_neg (by simp only [Bool.or_eq_true, decide_eq_true_eq]; omega),
    if_neg (by simp only [Bool.or_eq_true, decide_eq_true_eq]; omega)]
  exact ⟨⟨_, rfl, by simp only; omega, rfl⟩, ⟨_, rfl, by simp only; omega, rfl⟩, ⟨_, rfl, by simp only; omega, rfl⟩⟩

theorem partitions_spec (sum cache f p : Nat) (hp : 0 < p) (hf : sum < p + f) (hc : ∀ q, 0 < q → q < p → cache < sum / (q * q)) :
    sum / (partitions sum cache f p * partitions sum cache f p) ≤ cache ∧ 0 < partitions sum cache f p ∧ ∀ q, 0 < q → q < partitions sum cache f p → cache < sum / (q * q) := by
  induction f generalizing p with
  | zero =>
    refine ⟨?_, hp, hc⟩
    show sum / (p * p) ≤ cache
    rw [Nat.div_eq_of_lt]
    · exact Nat.zero_le _
    · have : p ≤ p * p := Nat.le_mul_of_pos_left p hp
      omega
  | succ f ih =>
    unfold partitions
    by_cases h : cache < sum / (p * p)
    · rw [if_pos h]
      apply ih _ (by omega) (by omega)
      intro q h1 h2
      by_cases e : q = p
      · rw [e]; exact h
      · exact hc q h1 (by omega)
    · rw [if_neg h]
      exact ⟨by omega, hp, hc⟩

/-- The product of matrices is cut into the fewest parts whose blocks fit into the cache, and does not depend on the order of the sizes. -/
theorem C132_dgemm_parts (sum cache : Nat) : sum / (partitions sum cache sum 1 * partitions sum cache sum 1) ≤ cache ∧
    ∀ q, 0 < q → q < partitions sum cache sum 1 → cache < sum / (q * q) := by
  have := partitions_spec sum cache sum 1 (by omega) (by omega) (fun q h1 h2 => by omega)
  exact ⟨this.1, this.2.2⟩

theorem C132_dgemm_sorted (pw : Nat → Nat) (c : Kernel) (m n k : Nat) : dgemm pw c m n k = dgemm pw c n m k ∧ dgemm pw c m n k = dgemm pw c m k n := by
  unfold dgemm
  constructor
  · have e1 : min m (min k n) = min n (min k m) := by omega
    have e2 : max (min m k) (min (max m k) n) = max (min n k) (min (max n k) m) := by omega
    have e3 : max m (max k n) = max n (max k m) := by omega
    rw [e1, e2, e3]
  · have e1 : min m (min k n) = min m (min n k) := by omega
    have e2 : max (min m k) (min (max m k) n) = max (min m n) (min (max m n) k) := by omega
    have e3 : max m (max k n) = max m (max n k) := by omega
    rw [e1, e2, e3]

/-- A product of matrices is charged for a number of bytes that is the number of their entries, an eighth of what they have. -/
theorem C132_dgemm_refuted (pw : Nat → Nat) : ∃ i, dgemm pw {} 100 100 100 = .run i ∧ i.bytes = 3 * (100 * 100) ∧ i.bytes < 8 * (3 * (100 * 100)) :=
  ⟨_, rfl, by show 100 * 100 + 100 * 100 * partitions 30000 32768 30000 1 + 100 * 100 * partitions 30000 32768 30000 1 = 30000; decide +kernel,
    by show 100 * 100 + 100 * 100 * partitions 30000 32768 30000 1 + 100 * 100 * partitions 30000 32768 30000 1 < 240000; decide +kernel⟩

/-- Large matrices overflow. -/
theorem C132_dgemm_large_refuted (pw : Nat → Nat) : dgemm pw {} 46341 46341 46341 = .undefined := rfl

/-- An application computes with the kernels of the application that started first. -/
theorem C132_kernels_refuted (k l : Kernel) : kernelOf [k, l] 1 = some k := rfl

end Verif.Os.Compute
