set_option autoImplicit false

/-!
# Sets of cpus

Model of the `CPU_*` calls, sstmac/libraries/pthread/sstmac_sched.cc:91-169 and sstmac_sched.h:85-118,
on `sstmac_cpu_set_t`, a number of 64 bits (sstmac_cpu_set.h:52-55), and a specification: a set of
cpus is the set of the bits that are 1.
-/

namespace Verif.Os.CpuSet

/-- `SSTMAC_CPU_SETSIZE`, sstmac_sched.h:85. -/
def setSize : Nat := 64

/-- `1<<cpu` on a signed number of 32 bits, then converted to 64 bits.  From 32 on the behaviour of
the shift is undefined; here it is that of x86, which uses `cpu` modulo 32. -/
def bit (cpu : Nat) : BitVec 64 := (1#32 <<< (cpu % 32)).signExtend 64

/-- `SSTMAC_CPU_SET_S`, sstmac_sched.cc:91-97; `none` is the abort for a large size. -/
def set (cpu size : Nat) (s : BitVec 64) : Option (BitVec 64) := if size > setSize then none else some (s ||| bit cpu)

/-- `SSTMAC_CPU_CLR_S`, sstmac_sched.cc:99-105. -/
def clr (cpu size : Nat) (s : BitVec 64) : Option (BitVec 64) := if size > setSize then none else some (s &&& ~~~ bit cpu)

/-- `SSTMAC_CPU_ISSET_S`, sstmac_sched.cc:107-110: the result is converted to 32 bits. -/
def isset (cpu : Nat) (s : BitVec 64) : BitVec 32 := (s &&& bit cpu).truncate 32

/-- `SSTMAC_CPU_ZERO_S`, sstmac_sched.cc:112-118. -/
def zero (size : Nat) : Option (BitVec 64) := if size > setSize then none else some 0

/-- `SSTMAC_count_bits`, sstmac_sched.cc:120-129, and `SSTMAC_CPU_COUNT_S`, :131-134. -/
def count (s : BitVec 64) : Nat := (List.range setSize).countP fun i => s &&& bit i != 0

/-- `SSTMAC_CPU_EQUAL_S`, sstmac_sched.cc:136-141. -/
def equal (s t : BitVec 64) : Bool := s == t

/-- `SSTMAC_CPU_AND_S`, sstmac_sched.cc:143-146. -/
def and (s t : BitVec 64) : BitVec 64 := s &&& t

/-- `SSTMAC_CPU_OR_S`, sstmac_sched.cc:148-151. -/
def or (s t : BitVec 64) : BitVec 64 := s ||| t

/-- `SSTMAC_CPU_XOR_S`, sstmac_sched.cc:153-156. -/
def xor (s t : BitVec 64) : BitVec 64 := s ^^^ t

/-- `SSTMAC_CPU_ALLOC_SIZE`, sstmac_sched.h:116 (again with the shift of x86). -/
def allocSize (n : Nat) : Nat := (1#32 <<< (n % 32)).toNat

/-! ## Specification -/

/-- Cpu `c` is in the set. -/
def Mem (c : Nat) (s : BitVec 64) : Prop := s.getLsbD c = true

/-- The number of cpus of a set. -/
def card (s : BitVec 64) : Nat := (List.range 64).countP fun i => s.getLsbD i

/-! ## Theorems -/

/-- The bit of a cpu below 31. -/
theorem bit_lsb {c : Nat} (h : c < 31) (i : Nat) : (bit c).getLsbD i = decide (i = c) := by
  unfold bit
  rw [Nat.mod_eq_of_lt (by omega), BitVec.getLsbD_signExtend]
  have hm : (1#32 <<< c).msb = false := by
    rw [BitVec.msb_eq_getLsbD_last, BitVec.getLsbD_shiftLeft]
    simp only [BitVec.getLsbD_one]
    simp; omega
  rw [hm, BitVec.getLsbD_shiftLeft, BitVec.getLsbD_one]
  by_cases hi : i = c
  · subst hi; simp; omega
  · by_cases h2 : i < 32 <;> simp [hi, h2] <;> omega

/-- `CPU_SET` adds the cpu and nothing else, for cpus below 31. -/
theorem C127_set_partial {c : Nat} (h : c < 31) (s : BitVec 64) : ∃ t, set c 64 s = some t ∧ ∀ i, Mem i t ↔ i = c ∨ Mem i s := by
  refine ⟨s ||| bit c, rfl, fun i => ?_⟩
  unfold Mem
  rw [BitVec.getLsbD_or, bit_lsb h, Bool.or_eq_true, decide_eq_true_eq]
  exact Or.comm

/-- `CPU_CLR` removes the cpu and nothing else, for cpus below 31. -/
theorem C127_clr_partial {c : Nat} (h : c < 31) (s : BitVec 64) : ∃ t, clr c 64 s = some t ∧ ∀ i, Mem i t ↔ i ≠ c ∧ Mem i s := by
  refine ⟨s &&& ~~~ bit c, rfl, fun i => ?_⟩
  unfold Mem
  rw [BitVec.getLsbD_and, BitVec.getLsbD_not, bit_lsb h, Bool.and_eq_true, Bool.and_eq_true, Bool.not_eq_true', decide_eq_false_iff_not, decide_eq_true_eq]
  constructor
  · intro ⟨h1, _, h2⟩; exact ⟨h2, h1⟩
  · intro ⟨h1, h2⟩; exact ⟨h2, BitVec.lt_of_getLsbD h2, h1⟩

/-- `CPU_ISSET` tells whether the cpu is in the set, for cpus below 31. -/
theorem C127_isset_partial {c : Nat} (h : c < 31) (s : BitVec 64) : isset c s ≠ 0 ↔ Mem c s := by
  unfold isset Mem
  constructor
  · intro hne
    cases hs : s.getLsbD c with
    | true => rfl
    | false =>
      exfalso
      apply hne
      apply BitVec.eq_of_getLsbD_eq
      intro i hi
      rw [BitVec.getLsbD_setWidth, BitVec.getLsbD_and, bit_lsb h]
      by_cases e : i = c
      · subst e; simp [hs]
      · simp [e]
  · intro hs he
    have h1 : ((s &&& bit c).truncate 32).getLsbD c = true := by
      rw [BitVec.getLsbD_setWidth, BitVec.getLsbD_and, bit_lsb h, hs]
      simp; omega
    rw [he] at h1
    simp at h1

/-- The empty set, intersection, union, symmetric difference and equality are right for all sets. -/
theorem C127_ops (s t : BitVec 64) :
    (∃ z, zero 64 = some z ∧ ∀ i, ¬ Mem i z) ∧ (∀ i, Mem i (and s t) ↔ Mem i s ∧ Mem i t) ∧ (∀ i, Mem i (or s t) ↔ Mem i s ∨ Mem i t) ∧
    (∀ i, Mem i (xor s t) ↔ (Mem i s ∧ ¬ Mem i t) ∨ (¬ Mem i s ∧ Mem i t)) ∧ (equal s t = true ↔ ∀ i, Mem i s ↔ Mem i t) := by
  unfold Mem
  refine ⟨⟨0, rfl, fun i => by simp⟩, fun i => ?_, fun i => ?_, fun i => ?_, ?_⟩
  · simp [and]
  · simp [or]
  · simp only [xor, BitVec.getLsbD_xor]
    cases s.getLsbD i <;> cases t.getLsbD i <;> simp
  · unfold equal
    rw [beq_iff_eq]
    constructor
    · intro h i; rw [h]
    · intro h
      apply BitVec.eq_of_getLsbD_eq
      intro i _
      cases h1 : s.getLsbD i <;> cases h2 : t.getLsbD i <;> first | rfl | (have := h i; rw [h1, h2] at this; simp at this)

/-- A set that is built cpu by cpu, below 31, has exactly these cpus. -/
theorem C127_build_partial (l : List Nat) (h : ∀ c, c ∈ l → c < 31) :
    ∃ t, l.foldl (fun s c => s.bind (set c 64)) (zero 64) = some t ∧ ∀ i, Mem i t ↔ i ∈ l := by
  have gen : ∀ (l : List Nat) (s : BitVec 64), (∀ c, c ∈ l → c < 31) →
      ∃ t, l.foldl (fun s c => s.bind (set c 64)) (some s) = some t ∧ ∀ i, Mem i t ↔ i ∈ l ∨ Mem i s := by
    intro l
    induction l with
    | nil => intro s _; exact ⟨s, rfl, fun i => by simp⟩
    | cons c r ih =>
      intro s hl
      obtain ⟨u, hu, hm⟩ := C127_set_partial (hl c (by simp)) s
      obtain ⟨t, ht, hmt⟩ := ih u (fun c hc => hl c (by simp [hc]))
      refine ⟨t, ?_, fun i => ?_⟩
      · rw [List.foldl_cons, Option.bind_some, hu]; exact ht
      · rw [hmt, hm, List.mem_cons, ← or_assoc, or_comm (a := i ∈ r)]
  obtain ⟨t, ht, hm⟩ := gen l 0 h
  exact ⟨t, ht, fun i => by rw [hm]; simp [Mem]⟩

/-- Cpus 0, 3 and 30. -/
example : [0, 3, 30].foldl (fun s c => s.bind (set c 64)) (zero 64) = some 0x40000009#64 ∧ isset 3 0x40000009#64 ≠ 0 ∧ isset 4 0x40000009#64 = 0 ∧
    clr 3 64 0x40000009#64 = some 0x40000001#64 := by decide

/-- `CPU_SET` of cpu 31 adds all cpus from 31 to 63; of cpu 32, cpu 0. -/
theorem C127_set_refuted : set 31 64 0 = some 0xFFFFFFFF80000000#64 ∧ set 32 64 0 = some 1#64 := by decide

/-- `CPU_CLR` of cpu 31 removes all cpus from 31 to 63. -/
theorem C127_clr_refuted : clr 31 64 (BitVec.allOnes 64) = some 0x7FFFFFFF#64 := by decide

/-- `CPU_ISSET` does not find cpu 40 in a set that has it, and finds it in a set that does not. -/
theorem C127_isset_refuted : Mem 40 (1#64 <<< 40) ∧ isset 40 (1#64 <<< 40) = 0 ∧ ¬ Mem 40 0x100#64 ∧ isset 40 0x100#64 ≠ 0 := by unfold Mem; decide

/-- `CPU_COUNT` is wrong for every set of low cpus that is not empty: it counts each of them twice,
although no cpu of 31 or above is in the set. -/
theorem C127_count_refuted (s : BitVec 64) (h : ∀ i, Mem i s → i < 31) : count s = 2 * card s := by
  have hc : ∀ i, i < 31 → (s &&& bit i != 0) = s.getLsbD i := by
    intro i hi
    cases hs : s.getLsbD i with
    | true =>
      rw [bne_iff_ne]
      intro he
      have : (s &&& bit i).getLsbD i = true := by rw [BitVec.getLsbD_and, bit_lsb hi, hs]; simp
      rw [he] at this; simp at this
    | false =>
      rw [bne_eq_false_iff_eq]
      apply BitVec.eq_of_getLsbD_eq
      intro j hj
      rw [BitVec.getLsbD_and, bit_lsb hi]
      by_cases e : j = i
      · subst e; simp [hs]
      · simp [e]
  have h31 : (s &&& bit 31 != 0) = false := by
    rw [bne_eq_false_iff_eq]
    apply BitVec.eq_of_getLsbD_eq
    intro j hj
    rw [BitVec.getLsbD_and]
    cases hs : s.getLsbD j with
    | false => simp
    | true =>
      have hj31 := h j hs
      have : ∀ j, j < 31 → (bit 31).getLsbD j = false := by decide
      simp [this j hj31]
  have hp : ∀ i, bit (32 + i) = bit i := by intro i; unfold bit; rw [Nat.add_mod_left]
  have hs31 : s.getLsbD 31 = false := by
    cases hs : s.getLsbD 31 with
    | false => rfl
    | true => have := h 31 hs; omega
  have hlow : (List.range 32).countP (fun i => s &&& bit i != 0) = (List.range 32).countP fun i => s.getLsbD i := by
    apply List.countP_congr
    intro i hi
    have hi' := List.mem_range.mp hi
    by_cases e : i = 31
    · subst e; rw [h31, hs31]
    · rw [hc i (by omega)]
  have hr : List.range 64 = List.range 32 ++ (List.range 32).map (32 + ·) := by decide
  have hhigh : ((List.range 32).map (32 + ·)).countP (fun i => s.getLsbD i) = 0 := by
    rw [List.countP_eq_zero]
    intro i hi
    obtain ⟨j, hj, rfl⟩ := List.mem_map.mp hi
    intro hs
    have := h _ hs; omega
  have hhigh2 : ((List.range 32).map (32 + ·)).countP (fun i => s &&& bit i != 0) = (List.range 32).countP fun i => s &&& bit i != 0 := by
    rw [List.countP_map]
    apply List.countP_congr
    intro i _
    simp only [Function.comp, hp]
  unfold count card setSize
  rw [hr, List.countP_append, List.countP_append, hhigh, hhigh2, hlow]
  omega

/-- A set of one cpu is counted as two. -/
example : count 4 = 2 ∧ card 4 = 1 := by decide

/-- The size that `CPU_ALLOC_SIZE` gives for 7 cpus makes `CPU_ZERO_S` and `CPU_SET_S` abort. -/
theorem C127_size_refuted (s : BitVec 64) : zero (allocSize 7) = none ∧ set 0 (allocSize 7) s = none := by
  unfold zero set; exact ⟨by decide, by rw [if_pos (by decide)]⟩

end Verif.Os.CpuSet
