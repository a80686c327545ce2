import Verif.Os.Stacks
/-
C89: thread stacks are disjoint, aligned and guarded.
-/
set_option autoImplicit false
namespace SST.Os

/-! ### Specification -/

/-- Two regions of `n` bytes do not overlap. -/
def Apart (n a b : Nat) : Prop := a + n ≤ b ∨ b + n ≤ a

/-- The histories of a program: allocations, where the operating system maps a new chunk away from the earlier ones,
and frees of stacks that are in use. The list: the stacks in use. -/
inductive StackRun (c : StackCfg) : Stacks → List Nat → Prop
  | init : StackRun c ⟨[], []⟩ []
  | alloc {s : Stacks} {live : List Nat} {addr b : Nat} {s' : Stacks} (h : StackRun c s live)
      (hfresh : ∀ a ∈ s.chunks, Apart c.size a addr) (ha : s.alloc c addr = some (b, s')) : StackRun c s' (b :: live)
  | free {s : Stacks} {live : List Nat} {b : Nat} (h : StackRun c s live) (hb : b ∈ live) : StackRun c (s.free b) (live.erase b)

/-! ### Lemmas -/

theorem offsets_mem {step size off x : Nat} (h : x ∈ offsets step size off) : ∃ k, x = off + k * step ∧ x + step < size := by
  fun_induction offsets step size off with
  | case1 off hc ih =>
    rcases List.mem_cons.1 h with rfl | h
    · exact ⟨0, by omega, hc.2⟩
    · obtain ⟨k, e, hk⟩ := ih h
      refine ⟨k + 1, ?_, hk⟩
      rw [Nat.add_mul]; omega
  | case2 off hc => cases h

theorem offsets_of {step size : Nat} (hs : 0 < step) : ∀ (k off : Nat), off + k * step + step < size → off + k * step ∈ offsets step size off := by
  intro k
  induction k with
  | zero =>
    intro off h
    rw [offsets, dif_pos ⟨hs, by omega⟩]
    simp
  | succ k ih =>
    intro off h
    rw [Nat.add_mul] at h
    have := ih (off + step) (by omega)
    rw [offsets, dif_pos ⟨hs, by omega⟩]
    refine List.mem_cons_of_mem _ ?_
    rw [Nat.add_mul, show off + (k * step + 1 * step) = off + step + k * step by omega]
    exact this

theorem offsets_nodup (step size off : Nat) : (offsets step size off).Nodup := by
  fun_induction offsets step size off with
  | case1 off hc ih =>
    refine List.nodup_cons.2 ⟨?_, ih⟩
    intro h
    obtain ⟨k, e, _⟩ := offsets_mem h
    have := Nat.zero_le (k * step)
    omega
  | case2 off hc => exact List.nodup_nil

theorem align_spec (c : StackCfg) (h : 0 < c.ss) (addr : Nat) : (addr + c.align addr) % c.ss = 0 ∧ c.align addr < c.ss := by
  unfold StackCfg.align
  have hlt := Nat.mod_lt addr h
  split
  · refine ⟨?_, by omega⟩
    rw [show addr + (c.ss - addr % c.ss) = (addr / c.ss + 1) * c.ss by
      have := Nat.div_add_mod addr c.ss
      rw [Nat.add_mul, Nat.mul_comm (addr / c.ss)]
      omega]
    exact Nat.mul_mod_left _ _
  · rename_i h'
    exact ⟨by rw [Nat.add_zero]; omega, h⟩

/-- Where the stacks of a chunk are. -/
theorem stacks_mem {c : StackCfg} {addr b : Nat} (h : b ∈ c.stacks addr) :
    ∃ k, b = addr + c.align addr + (if c.protect then c.ss else 0) + k * c.step ∧ b + c.step < addr + c.size := by
  unfold StackCfg.stacks at h
  obtain ⟨x, hx, rfl⟩ := List.mem_map.1 h
  obtain ⟨k, e, hk⟩ := offsets_mem hx
  refine ⟨k, ?_, by omega⟩
  split <;> simp_all <;> omega

theorem guards_mem {c : StackCfg} {addr g : Nat} (h : g ∈ c.guards addr) :
    c.protect = true ∧ ∃ k, g = addr + c.align addr + k * c.step ∧ g + c.step < addr + c.size := by
  unfold StackCfg.guards at h
  split at h
  · rename_i hp
    obtain ⟨x, hx, rfl⟩ := List.mem_map.1 h
    obtain ⟨k, e, hk⟩ := offsets_mem hx
    exact ⟨hp, k, by omega, by omega⟩
  · cases h

theorem step_ge (c : StackCfg) : c.ss ≤ c.step := by
  unfold StackCfg.step
  split <;> omega

theorem stacks_nodup (c : StackCfg) (addr : Nat) : (c.stacks addr).Nodup := by
  unfold StackCfg.stacks
  rw [List.nodup_iff_pairwise_ne, List.pairwise_map]
  refine (offsets_nodup _ _ _).imp ?_
  intro a b h e
  exact h (by omega)

/-- Multiples of a step: equal or a step apart. -/
theorem mul_apart {j k s : Nat} (h : j < k) : j * s + s ≤ k * s := by
  calc j * s + s = (j + 1) * s := by rw [Nat.add_mul]; omega
    _ ≤ k * s := Nat.mul_le_mul_right s h

theorem stacks_apart {c : StackCfg} {addr a b : Nat} (ha : a ∈ c.stacks addr) (hb : b ∈ c.stacks addr) (hne : a ≠ b) : Apart c.ss a b := by
  obtain ⟨j, ej, _⟩ := stacks_mem ha
  obtain ⟨k, ek, _⟩ := stacks_mem hb
  have hs := step_ge c
  unfold Apart
  rcases Nat.lt_trichotomy j k with h | h | h
  · have := mul_apart (s := c.step) h
    left; omega
  · subst h; omega
  · have := mul_apart (s := c.step) h
    right; omega

/-- What holds after every history. -/
structure StackInv (c : StackCfg) (s : Stacks) (live : List Nat) : Prop where
  pos : live ++ s.avail ≠ [] → 0 < c.ss
  nodup : (live ++ s.avail).Nodup
  inChunk : ∀ b ∈ live ++ s.avail, ∃ addr ∈ s.chunks, b ∈ c.stacks addr
  apart : s.chunks.Pairwise (Apart c.size)

theorem alloc_cases {c : StackCfg} {s s' : Stacks} {addr b : Nat} (h : s.alloc c addr = some (b, s')) :
    0 < c.ss ∧ ((s.avail = [] ∧ (c.stacks addr).reverse = b :: s'.avail ∧ s'.chunks = addr :: s.chunks) ∨
      (s.avail = b :: s'.avail ∧ s'.chunks = s.chunks)) := by
  unfold Stacks.alloc at h
  split at h
  · cases h
  · rename_i h0
    refine ⟨by omega, ?_⟩
    obtain ⟨avail, chunks⟩ := s
    cases avail with
    | nil =>
      simp only [List.isEmpty_nil, if_true] at h
      split at h
      · cases h
      · rename_i x rest e
        have := Option.some.inj h
        simp only [Prod.mk.injEq] at this
        obtain ⟨rfl, rfl⟩ := this
        exact Or.inl ⟨rfl, e, rfl⟩
    | cons x rest =>
      simp only [List.isEmpty_cons, if_false, Bool.false_eq_true, Option.some.injEq, Prod.mk.injEq] at h
      obtain ⟨rfl, rfl⟩ := h
      exact Or.inr ⟨rfl, rfl⟩

theorem stacks_in {c : StackCfg} {addr b : Nat} (h : b ∈ c.stacks addr) : addr ≤ b ∧ b + c.ss < addr + c.size := by
  obtain ⟨k, e, hk⟩ := stacks_mem h
  have := step_ge c
  exact ⟨by omega, by omega⟩

theorem sinv {c : StackCfg} {s : Stacks} {live : List Nat} (h : StackRun c s live) : StackInv c s live := by
  induction h with
  | init => exact ⟨fun h => absurd rfl h, List.nodup_nil, (fun b h => nomatch h), List.Pairwise.nil⟩
  | @alloc s live addr b s' h hf ha ih =>
    obtain ⟨h0, hc⟩ := alloc_cases ha
    refine ⟨fun _ => h0, ?_, ?_, ?_⟩
    · rcases hc with ⟨e1, e2, e3⟩ | ⟨e1, e2⟩
      · have hn := ih.nodup
        rw [e1, List.append_nil] at hn
        have hs : (b :: s'.avail).Nodup := e2 ▸ ((List.reverse_perm _).nodup_iff.2 (stacks_nodup c addr))
        have hd : ∀ x ∈ live, x ∉ b :: s'.avail := by
          intro x hx hx'
          rw [← e2, List.mem_reverse] at hx'
          obtain ⟨a, ha, hxa⟩ := ih.inChunk x (List.mem_append_left _ hx)
          have := stacks_in hxa
          have := stacks_in hx'
          have := hf a ha
          unfold Apart at this
          omega
        have hp : (b :: live ++ s'.avail).Perm (live ++ (b :: s'.avail)) := List.perm_middle.symm
        refine hp.nodup_iff.2 ?_
        rw [List.nodup_append]
        exact ⟨hn, hs, fun x hx y hy e => hd x hx (e ▸ hy)⟩
      · have hp : (b :: live ++ s'.avail).Perm (live ++ (b :: s'.avail)) := List.perm_middle.symm
        refine hp.nodup_iff.2 ?_
        rw [← e1]
        exact ih.nodup
    · intro x hx
      have hx' : x ∈ live ++ (b :: s'.avail) := List.perm_middle.mem_iff.2 hx
      rcases hc with ⟨e1, e2, e3⟩ | ⟨e1, e2⟩
      · rcases List.mem_append.1 hx' with hl | hl
        · obtain ⟨a, ha, hxa⟩ := ih.inChunk x (List.mem_append_left _ hl)
          exact ⟨a, e3 ▸ List.mem_cons_of_mem _ ha, hxa⟩
        · rw [← e2, List.mem_reverse] at hl
          exact ⟨addr, e3 ▸ List.mem_cons_self .., hl⟩
      · rw [← e1] at hx'
        rw [e2]
        exact ih.inChunk x hx'
    · rcases hc with ⟨e1, e2, e3⟩ | ⟨e1, e2⟩
      · rw [e3, List.pairwise_cons]
        exact ⟨fun a ha => (hf a ha).symm, ih.apart⟩
      · rw [e2]
        exact ih.apart
  | @free s live b h hb ih =>
    have hp : (live.erase b ++ b :: s.avail).Perm (live ++ s.avail) := by
      have h1 : (live.erase b ++ b :: s.avail).Perm (b :: live.erase b ++ s.avail) := List.perm_middle
      have h2 : (b :: live.erase b).Perm live := (List.perm_cons_erase hb).symm
      exact h1.trans (h2.append_right _)
    refine ⟨fun _ => ih.pos (List.ne_nil_of_mem (List.mem_append_left _ hb)), hp.nodup_iff.2 ih.nodup, ?_, ih.apart⟩
    intro x hx
    exact ih.inChunk x (hp.mem_iff.1 hx)

/-! ### C89 -/

/-- **C89**: after every history of allocations and frees, the stacks in use do not overlap each other, nor the free
ones. -/
theorem C89_disjoint (c : StackCfg) (s : Stacks) (live : List Nat) (h : StackRun c s live) : (live ++ s.avail).Pairwise (Apart c.ss) := by
  have hi := sinv h
  refine List.Pairwise.imp_of_mem ?_ hi.nodup
  intro a b ha hb hne
  obtain ⟨x, hx, hax⟩ := hi.inChunk a ha
  obtain ⟨y, hy, hby⟩ := hi.inChunk b hb
  by_cases e : x = y
  · subst e
    exact stacks_apart hax hby hne
  · have h1 := stacks_in hax
    have h2 := stacks_in hby
    have : Apart c.size x y := by
      obtain ⟨i, hi', rfl⟩ := List.mem_iff_getElem.1 hx
      obtain ⟨j, hj', rfl⟩ := List.mem_iff_getElem.1 hy
      have hp := List.pairwise_iff_getElem.1 hi.apart
      rcases Nat.lt_trichotomy i j with hl | hl | hl
      · exact hp i j hi' hj' hl
      · subst hl; exact absurd rfl e
      · exact (hp j i hj' hi' hl).symm
    unfold Apart at *
    omega

/-- **C89**: every stack in use starts at a multiple of the stack size (the running thread is found by rounding
down the stack pointer), and lies inside a mapped chunk. -/
theorem C89_aligned (c : StackCfg) (s : Stacks) (live : List Nat) (h : StackRun c s live) (b : Nat) (hb : b ∈ live) :
    b % c.ss = 0 ∧ (∀ sp, b ≤ sp → sp < b + c.ss → sp / c.ss * c.ss = b) ∧ ∃ addr ∈ s.chunks, addr ≤ b ∧ b + c.ss ≤ addr + c.size := by
  have hi := sinv h
  have hb' : b ∈ live ++ s.avail := List.mem_append_left _ hb
  have hpos := hi.pos (List.ne_nil_of_mem hb')
  obtain ⟨a, ha, hba⟩ := hi.inChunk b hb'
  have hin := stacks_in hba
  have hmod : b % c.ss = 0 := by
    obtain ⟨k, e, _⟩ := stacks_mem hba
    have h0 := (align_spec c hpos a).1
    rw [e]
    unfold StackCfg.step
    split
    · rw [show k * (2 * c.ss) = (k * 2) * c.ss by rw [Nat.mul_assoc], Nat.add_mul_mod_self_right, Nat.add_mod_right, h0]
    · rw [Nat.add_mul_mod_self_right, Nat.add_zero, h0]
  refine ⟨hmod, ?_, a, ha, hin.1, by omega⟩
  intro sp h1 h2
  have e := Nat.div_add_mod b c.ss
  rw [hmod, Nat.add_zero] at e
  have : sp / c.ss = b / c.ss := by
    apply Nat.div_eq_of_lt_le
    · rw [Nat.mul_comm, e]; exact h1
    · rw [Nat.add_mul, Nat.mul_comm (b / c.ss), e]; omega
  rw [this, Nat.mul_comm]
  exact e

/-- **C89**: with protection, the region just below every stack in use is inaccessible, and no stack in use overlaps
an inaccessible region. -/
theorem C89_guarded (c : StackCfg) (hp : c.protect = true) (s : Stacks) (live : List Nat) (h : StackRun c s live) (b : Nat) (hb : b ∈ live) :
    (∃ addr ∈ s.chunks, ∃ g ∈ c.guards addr, g + c.ss = b) ∧ ∀ addr ∈ s.chunks, ∀ g ∈ c.guards addr, Apart c.ss g b := by
  have hi := sinv h
  have hb' : b ∈ live ++ s.avail := List.mem_append_left _ hb
  have hpos := hi.pos (List.ne_nil_of_mem hb')
  obtain ⟨a, ha, hba⟩ := hi.inChunk b hb'
  have hin := stacks_in hba
  obtain ⟨k, e, hk⟩ := stacks_mem hba
  rw [if_pos hp] at e
  have hst : c.step = 2 * c.ss := by unfold StackCfg.step; rw [if_pos hp]
  constructor
  · refine ⟨a, ha, a + c.align a + k * c.step, ?_, by omega⟩
    unfold StackCfg.guards
    rw [if_pos hp, List.mem_map]
    exact ⟨c.align a + k * c.step, offsets_of (by omega) k _ (by omega), by omega⟩
  · intro x hx g hg
    obtain ⟨_, j, ej, hj⟩ := guards_mem hg
    by_cases exa : x = a
    · subst exa
      unfold Apart
      rcases Nat.lt_or_ge k j with hl | hl
      · have := mul_apart (s := c.step) hl
        right; omega
      · have := Nat.mul_le_mul_right c.step hl
        left; omega
    · have : Apart c.size x a := by
        obtain ⟨i, hi', rfl⟩ := List.mem_iff_getElem.1 hx
        obtain ⟨j, hj', rfl⟩ := List.mem_iff_getElem.1 ha
        have hp := List.pairwise_iff_getElem.1 hi.apart
        rcases Nat.lt_trichotomy i j with hl | hl | hl
        · exact hp i j hi' hj' hl
        · subst hl; exact absurd rfl exa
        · exact (hp j i hj' hi' hl).symm
      unfold Apart at *
      omega

/-- **C89**, partial: an allocation always succeeds when a chunk is at least two stacks; by default it is eight. -/
theorem C89_succeeds_partial (c : StackCfg) (h0 : 0 < c.ss) (h : 2 * c.ss ≤ c.chunk) (s : Stacks) (addr : Nat) : ∃ b s', s.alloc c addr = some (b, s') := by
  unfold Stacks.alloc
  rw [if_neg (by omega)]
  obtain ⟨avail, chunks⟩ := s
  cases avail with
  | cons b rest => exact ⟨b, _, rfl⟩
  | nil =>
    simp only [List.isEmpty_nil, if_true]
    have hne : (c.stacks addr).reverse ≠ [] := by
      have ha := (align_spec c h0 addr).2
      rw [Ne, List.reverse_eq_nil_iff]
      unfold StackCfg.stacks StackCfg.step StackCfg.size
      rw [List.map_eq_nil_iff, offsets, dif_pos]
      · simp
      · cases c.protect <;> simp <;> omega
    cases e : (c.stacks addr).reverse with
    | nil => exact absurd e hne
    | cons b rest => exact ⟨b, _, rfl⟩

/-- **C89**, refuted: a chunk size that is not above the stack size gives no stack at all, and the allocator takes the
back of an empty vector, wherever the chunk is mapped. -/
theorem C89_small_chunk_refuted (c : StackCfg) (h : c.chunk ≤ c.ss) (s : Stacks) (hs : s.avail = []) (addr : Nat) : s.alloc c addr = none := by
  unfold Stacks.alloc
  split
  · rfl
  · have : c.stacks addr = [] := by
      unfold StackCfg.stacks StackCfg.step StackCfg.size
      rw [List.map_eq_nil_iff, offsets, dif_neg]
      cases c.protect <;> simp <;> omega
    rw [hs]
    simp only [List.isEmpty_nil, if_true, this, List.reverse_nil]

/-- The stack size is a whole number of pages, at least what was asked for and less than a page more. -/
theorem C89_pages (n : Nat) : roundStack n % 4096 = 0 ∧ n ≤ roundStack n ∧ roundStack n < n + 4096 := by
  unfold roundStack
  split <;> omega

/-- The parts of one `alloc`, one `free` after the other: what `Stacks.alloc` and `Stacks.free` do. -/
theorem micro_seq (c : StackCfg) (h0 : 0 < c.ss) (b : Nat) (rest : List Nat) (chunks : List Nat) (addr f : Nat) :
    microRun [.back, .pop, .push f] (b :: rest, 0, []) = some (f :: rest, b, [b]) ∧
    (Stacks.alloc c ⟨b :: rest, chunks⟩ addr).map (fun p => (p.1, (p.2.free f).avail)) = some (b, f :: rest) := by
  refine ⟨rfl, ?_⟩
  unfold Stacks.alloc
  rw [if_neg (by omega)]
  rfl

/-- **C89**, refuted for concurrent threads: when a `free` comes between the two halves of an `alloc`, the stack just
handed out is handed out again, although a program that waits for the lock of one of the two never sees that. -/
theorem C89_locks_refuted :
    microRun [.back, .push 7, .pop, .back, .pop] ([3, 5], 0, []) = some ([5], 3, [3, 3]) ∧
    microRun [.back, .pop, .push 7, .back, .pop] ([3, 5], 0, []) = some ([5], 7, [3, 7]) := by decide

/-- A history with two chunks and a free. -/
example : ∃ s live, StackRun ⟨8, 24, false⟩ s live ∧ live = [224, 104] ∧ s.chunks = [210, 101] ∧ s.avail = [112, 216] := by
  have h1 : Stacks.alloc ⟨8, 24, false⟩ ⟨[], []⟩ 101 = some (112, ⟨[104], [101]⟩) := by decide +kernel
  have h2 : Stacks.alloc ⟨8, 24, false⟩ ⟨[104], [101]⟩ 0 = some (104, ⟨[], [101]⟩) := by decide +kernel
  have h3 : Stacks.alloc ⟨8, 24, false⟩ ⟨[], [101]⟩ 210 = some (224, ⟨[216], [210, 101]⟩) := by decide +kernel
  refine ⟨_, _, .free (b := 112) (.alloc (.alloc (.alloc .init ?_ h1) ?_ h2) ?_ h3) ?_, ?_, ?_, ?_⟩
  · intro a ha; cases ha
  · intro a ha; simp at ha; subst ha; unfold Apart; decide
  · intro a ha; simp at ha; subst ha; unfold Apart; decide
  · decide
  · decide
  · rfl
  · rfl

/-- A protected chunk: stacks and guards alternate. -/
example : StackCfg.stacks ⟨8, 24, true⟩ 101 = [112, 128] ∧ StackCfg.guards ⟨8, 24, true⟩ 101 = [104, 120] := by
  decide +kernel

end SST.Os
