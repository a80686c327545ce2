import Verif.Os.Cores
/-
C57, C83 and C84.
-/
set_option autoImplicit false
namespace SST.Os

theorem upd_same {α : Type} (f : Nat → α) (t : Nat) (a : α) : upd f t a t = a := if_pos rfl
theorem upd_other {α : Type} (f : Nat → α) {t u : Nat} (a : α) (h : u ≠ t) : upd f t a u = f u := if_neg h

/-- The number of cores held by the threads of `W`. -/
def total (held : Nat → List Nat) (W : List Nat) : Nat := (W.map fun t => (held t).length).sum

theorem total_nil (h : Nat → List Nat) : total h [] = 0 := rfl
theorem total_cons (h : Nat → List Nat) (t : Nat) (W : List Nat) : total h (t :: W) = (h t).length + total h W := rfl

theorem total_upd_not (h : Nat → List Nat) (t : Nat) (l : List Nat) (W : List Nat) (hn : t ∉ W) : total (upd h t l) W = total h W := by
  induction W with
  | nil => rfl
  | cons u W ih =>
    rw [List.mem_cons, not_or] at hn
    rw [total_cons, total_cons, ih hn.2, upd_other _ _ (Ne.symm hn.1)]

theorem total_upd (h : Nat → List Nat) (t : Nat) (l : List Nat) (W : List Nat) (hn : W.Nodup) (ht : t ∈ W) :
    total (upd h t l) W + (h t).length = total h W + l.length := by
  induction W with
  | nil => cases ht
  | cons u W ih =>
    rw [List.nodup_cons] at hn
    rw [total_cons, total_cons]
    rcases List.mem_cons.mp ht with rfl | ht
    · rw [upd_same, total_upd_not _ _ _ _ hn.1]; omega
    · have hne : u ≠ t := fun e => hn.1 (e ▸ ht)
      rw [upd_other _ _ hne]
      have := ih hn.2 ht
      omega

/-! ### The simple scheduler -/

/-- The count of active cores covers the cores held, and is at most the number of cores. -/
structure SInv (n : Nat) (s : Simple) : Prop where
  nc : s.ncores = n
  le : s.active ≤ n
  cov : ∀ W : List Nat, W.Nodup → total s.held W ≤ s.active

theorem reserve_inv {n : Nat} {s : Simple} (hi : SInv n s) (k t : Nat) : SInv n (s.reserve k t) := by
  unfold Simple.reserve
  have h1 := hi.nc
  split
  · exact ⟨hi.nc, hi.le, hi.cov⟩
  · refine ⟨hi.nc, ?_, fun W hW => ?_⟩
    · show s.active + k ≤ n; omega
    · show total (upd s.held t (s.held t ++ List.range' s.active k)) W ≤ s.active + k
      have h2 := hi.cov W hW
      by_cases ht : t ∈ W
      · have := total_upd s.held t (s.held t ++ List.range' s.active k) W hW ht
        rw [List.length_append, List.length_range'] at this
        omega
      · rw [total_upd_not _ _ _ _ ht]; omega

theorem release_inv {n : Nat} {s s' : Simple} (hi : SInv n s) {k t : Nat} (h : s.release k t = some s') : SInv n s' := by
  unfold Simple.release at h
  split at h
  · cases h
  · next hlt =>
    have hb : SInv n { s with active := s.active - k, held := upd s.held t ((s.held t).take ((s.held t).length - k)) } := by
      refine ⟨hi.nc, ?_, fun W hW => ?_⟩
      · show s.active - k ≤ n
        have := hi.le; omega
      · show total (upd s.held t ((s.held t).take ((s.held t).length - k))) W ≤ s.active - k
        by_cases ht : t ∈ W
        · have h2 := hi.cov W hW
          have := total_upd s.held t ((s.held t).take ((s.held t).length - k)) W hW ht
          rw [List.length_take] at this
          omega
        · rw [total_upd_not _ _ _ _ ht]
          have h2 := hi.cov (t :: W) (List.nodup_cons.mpr ⟨ht, hW⟩)
          rw [total_cons] at h2
          omega
    simp only at h
    split at h <;> cases h
    · exact hb
    · exact ⟨hb.nc, hb.le, hb.cov⟩

theorem simple_inv {n : Nat} {s : Simple} (h : Simple.Reach n s) : SInv n s := by
  induction h with
  | new => exact ⟨rfl, Nat.zero_le _, fun W _ => by
      show total (fun _ => []) W ≤ 0
      induction W with
      | nil => exact Nat.le_refl _
      | cons u W ih => rw [total_cons]; simpa using ih (by simp_all)⟩
  | @step s s' h hs ih =>
    cases hs with
    | reserve k t => exact reserve_inv ih k t
    | release _ k t h => exact release_inv ih h
    | resume p hp => exact reserve_inv (s := { s with woken := s.woken.erase p }) ⟨ih.nc, ih.le, ih.cov⟩ p.1 p.2

/-- **C57**. With the simple scheduler, in every history, any set of different threads together hold at
most as many cores as the node has. -/
theorem C57_simple_count {n : Nat} {s : Simple} (h : Simple.Reach n s) (W : List Nat) (hW : W.Nodup) : total s.held W ≤ n :=
  Nat.le_trans ((simple_inv h).cov W hW) (simple_inv h).le

/-- **C57** (refuted). With the simple scheduler one core can be held by two threads: cores are named by
the count of active cores. Thread 1 takes core 0, thread 2 takes core 1, thread 1 releases, and thread 3 is
given core 1 too. -/
theorem C57_simple_core_refuted : ∃ s, Simple.Reach 2 s ∧ s.held 2 = [1] ∧ s.held 3 = [1] :=
  ⟨_, .step (.step (.step (.step .new (.reserve _ 1 1)) (.reserve _ 1 2)) (.release _ _ 1 1 rfl)) (.reserve _ 1 3), by decide, by decide⟩

example : ∃ s, Simple.Reach 2 s ∧ total s.held [1, 2] = 2 ∧ s.pending = [(1, 3)] :=
  ⟨_, .step (.step (.step .new (.reserve _ 1 1)) (.reserve _ 1 2)) (.reserve _ 1 3), by decide, by decide⟩

/-- **C83** (refuted). With the simple scheduler a thread can wait for a core that is free: a release wakes
one thread, however many cores it frees. -/
theorem C83_simple_refuted : ∃ s, Simple.Reach 2 s ∧ s.woken = [] ∧ s.pending = [(1, 3)] ∧ s.active = 1 ∧ s.ncores = 2 :=
  ⟨_, .step (.step (.step (.step (.step .new (.reserve _ 2 1)) (.reserve _ 1 2)) (.reserve _ 1 3)) (.release _ _ 2 1 rfl))
    (.resume _ (1, 2) (by decide)), by decide, by decide, by decide, by decide⟩

/-- Histories in which cores are reserved and released one at a time. -/
inductive Reach1 (n : Nat) : Simple → Prop
  | new : Reach1 n (.new n)
  | reserve {s : Simple} (h : Reach1 n s) (t : Nat) : Reach1 n (s.reserve 1 t)
  | release {s s' : Simple} (h : Reach1 n s) (t : Nat) (hr : s.release 1 t = some s') : Reach1 n s'
  | resume {s : Simple} (h : Reach1 n s) (p : Nat × Nat) (hp : p ∈ s.woken) : Reach1 n ({ s with woken := s.woken.erase p }.reserve p.1 p.2)

theorem Reach1.reach {n : Nat} {s : Simple} (h : Reach1 n s) : Simple.Reach n s := by
  induction h with
  | new => exact .new
  | reserve h t ih => exact .step ih (.reserve _ 1 t)
  | release h t hr ih => exact .step ih (.release _ _ 1 t hr)
  | resume h p hp ih => exact .step ih (.resume _ p hp)

/-- For each free core a woken thread is on its way, as long as threads wait. -/
structure WInv (s : Simple) : Prop where
  ones : ∀ p ∈ s.pending ++ s.woken, p.1 = 1
  free : s.pending ≠ [] → s.ncores ≤ s.active + s.woken.length

theorem firstFit_mem {free : Nat} {l : List (Nat × Nat)} {p : Nat × Nat} (h : firstFit free l = some p) : p ∈ l := by
  induction l with
  | nil => cases h
  | cons q l ih =>
    simp only [firstFit] at h
    split at h
    · cases h; exact List.mem_cons_self ..
    · exact List.mem_cons_of_mem _ (ih h)

theorem firstFit_none {free : Nat} {l : List (Nat × Nat)} (h : firstFit free l = none) : ∀ p ∈ l, free < p.1 := by
  induction l with
  | nil => intro p hp; cases hp
  | cons q l ih =>
    simp only [firstFit] at h
    split at h
    · cases h
    · next hq =>
      intro p hp
      rcases List.mem_cons.mp hp with rfl | hp
      · omega
      · exact ih h p hp

theorem reserve1_inv {s : Simple} {t : Nat} (h1 : ∀ p ∈ s.pending ++ s.woken, p.1 = 1)
    (h2 : s.pending ≠ [] → s.ncores ≤ s.active + s.woken.length + 1) (k : Nat) (hk : k = 1) : WInv (s.reserve k t) := by
  subst hk
  unfold Simple.reserve
  split
  · next hgt =>
    refine ⟨?_, fun _ => ?_⟩
    · intro p hp
      simp only [List.mem_append, List.mem_singleton] at hp
      rcases hp with (hp | rfl) | hp
      · exact h1 p (List.mem_append_left _ hp)
      · rfl
      · exact h1 p (List.mem_append_right _ hp)
    · show s.ncores ≤ s.active + s.woken.length
      omega
  · refine ⟨h1, fun hne => ?_⟩
    show s.ncores ≤ s.active + 1 + s.woken.length
    have := h2 hne
    omega

theorem reach1_inv {n : Nat} {s : Simple} (h : Reach1 n s) : WInv s := by
  induction h with
  | new => exact ⟨(fun p hp => by cases hp), fun h => (h rfl).elim⟩
  | @reserve s h t ih =>
    exact reserve1_inv ih.ones (fun h => by have := ih.free h; omega) 1 rfl
  | @release s s' h t hr ih =>
    have hinv := simple_inv h.reach
    unfold Simple.release at hr
    split at hr
    · cases hr
    · next hlt =>
      have ha : 0 < s.active := by
        have := hinv.cov [t] (by simp)
        rw [total_cons, total_nil] at this
        omega
      simp only at hr
      split at hr <;> cases hr
      · next hff =>
        refine ⟨ih.ones, fun hne => ?_⟩
        obtain ⟨p, ps, hp⟩ := List.exists_cons_of_ne_nil hne
        have hm : p ∈ s.pending := by
          have hp : s.pending = p :: ps := hp
          rw [hp]; exact List.mem_cons_self ..
        have h1 := firstFit_none hff p hm
        have h2 := ih.ones p (List.mem_append_left _ hm)
        show s.ncores ≤ s.active - 1 + s.woken.length
        omega
      · next p hff =>
        have hm : p ∈ s.pending := firstFit_mem hff
        refine ⟨?_, fun _ => ?_⟩
        · intro q hq
          simp only [List.mem_append, List.mem_singleton] at hq
          rcases hq with hq | hq | rfl
          · exact ih.ones q (List.mem_append_left _ (List.mem_of_mem_erase hq))
          · exact ih.ones q (List.mem_append_right _ hq)
          · exact ih.ones q (List.mem_append_left _ hm)
        · show s.ncores ≤ s.active - 1 + (s.woken ++ [p]).length
          have := ih.free (List.ne_nil_of_mem hm)
          rw [List.length_append, List.length_singleton]
          omega
  | @resume s h p hp ih =>
    have hl := List.length_erase_of_mem hp
    have hpos := List.length_pos_of_mem hp
    refine reserve1_inv (s := { s with woken := s.woken.erase p }) ?_ ?_ p.1 (ih.ones p (List.mem_append_right _ hp))
    · intro q hq
      rcases List.mem_append.mp hq with hq | hq
      · exact ih.ones q (List.mem_append_left _ hq)
      · exact ih.ones q (List.mem_append_right _ (List.mem_of_mem_erase hq))
    · intro hne
      have := ih.free hne
      show s.ncores ≤ s.active + (s.woken.erase p).length + 1
      omega

/-- **C83** (partial). When cores are reserved and released one at a time, a thread waits only while all
cores are taken or a woken thread is about to run. What is missing: releases of several cores
(`C83_simple_refuted`). -/
theorem C83_simple_partial {n : Nat} {s : Simple} (h : Reach1 n s) (hp : s.pending ≠ []) (hw : s.woken = []) : s.active = n := by
  have h1 := (reach1_inv h).free hp
  have h2 := simple_inv h.reach
  rw [hw, h2.nc] at h1
  have := h2.le
  simp only [List.length_nil] at h1
  omega

example : ∃ s, Reach1 1 s ∧ s.pending ≠ [] ∧ s.woken = [] ∧ s.active = 1 :=
  ⟨_, .resume (.release (.reserve (.reserve (.reserve .new 1) 2) 3) 1 rfl) (1, 2) (by decide), by decide, by decide, by decide⟩

/-! ### The cpuset scheduler -/

theorem getLsbD_bit : ∀ i : Fin 32, ∀ j : Fin 64, (bit i.val).getLsbD j.val = decide (min j.val 31 = i.val) := by decide +kernel

theorem bit_get {i j : Nat} (hi : i < 32) (hj : j < 64) : (bit i).getLsbD j = decide (min j 31 = i) := getLsbD_bit ⟨i, hi⟩ ⟨j, hj⟩

theorem or_bits (cs : List Nat) (hc : ∀ c ∈ cs, c < 32) (m : BitVec 64) (j : Nat) (hj : j < 64) :
    (cs.foldl (fun m i => m ||| bit i) m).getLsbD j = (m.getLsbD j || decide (min j 31 ∈ cs)) := by
  induction cs generalizing m with
  | nil => simp
  | cons c cs ih =>
    rw [List.foldl_cons, ih (fun x hx => hc x (List.mem_cons_of_mem _ hx)), BitVec.getLsbD_or, bit_get (hc c (List.mem_cons_self ..)) hj]
    by_cases h1 : min j 31 = c <;> by_cases h2 : min j 31 ∈ cs <;> simp [h1, h2]

/-- A mask meets a core's bit only where it has a bit of that core. -/
theorem meets {m : BitVec 64} {i : Nat} (hi : i < 32) (h : m &&& bit i ≠ 0#64) : ∃ j, j < 64 ∧ m.getLsbD j = true ∧ min j 31 = i := by
  refine Classical.byContradiction fun hn => h ?_
  apply BitVec.eq_of_getLsbD_eq
  intro j hj
  rw [BitVec.getLsbD_and, BitVec.getLsbD_zero, bit_get hi hj]
  by_cases h1 : min j 31 = i
  · have : m.getLsbD j = false := by
      cases hm : m.getLsbD j with
      | false => rfl
      | true => exact absurd ⟨j, hj, hm, h1⟩ hn
    rw [this]; rfl
  · rw [decide_eq_false h1, Bool.and_false]

theorem find_sublist (v : BitVec 64) (is : List Nat) (k : Nat) : (findCores v is k).Sublist is := by
  induction is generalizing k with
  | nil => exact List.Sublist.refl _
  | cons i is ih =>
    cases k with
    | zero => exact List.nil_sublist _
    | succ k =>
      simp only [findCores]
      split
      · exact (ih k).cons_cons i
      · exact (ih (k + 1)).cons i

theorem find_meets (v : BitVec 64) (is : List Nat) (k : Nat) : ∀ c ∈ findCores v is k, v &&& bit c ≠ 0#64 := by
  induction is generalizing k with
  | nil => intro c hc; cases hc
  | cons i is ih =>
    cases k with
    | zero => intro c hc; cases hc
    | succ k =>
      simp only [findCores]
      split
      · next hv =>
        intro c hc
        rcases List.mem_cons.mp hc with rfl | hc
        · exact hv
        · exact ih k c hc
      · exact ih (k + 1)

theorem find_length_le (v : BitVec 64) (is : List Nat) (k : Nat) : (findCores v is k).length ≤ k := by
  induction is generalizing k with
  | nil => exact Nat.zero_le _
  | cons i is ih =>
    cases k with
    | zero => exact Nat.le_refl _
    | succ k =>
      simp only [findCores]
      split
      · exact Nat.succ_le_succ (ih k)
      · exact ih (k + 1)

/-- Who holds what: cores in range, each held once, masks and the available set in step with the lists. -/
structure CInv (n : Nat) (s : Cpus) : Prop where
  nc : s.ncores = n
  lt : ∀ t, ∀ c ∈ s.held t, c < n
  nodup : ∀ t, (s.held t).Nodup
  disj : ∀ (t u c : Nat), c ∈ s.held t → c ∈ s.held u → t = u
  mask : ∀ (t j : Nat), j < 64 → ((s.mask t).getLsbD j = true ↔ min j 31 ∈ s.held t)
  avail : ∀ j : Nat, j < 64 → (s.avail.getLsbD j = true ↔ min j 31 < n ∧ ∀ t, min j 31 ∉ s.held t)

theorem new_cinv {n : Nat} (hn : n ≤ 32) : CInv n (.new n) := by
  refine ⟨rfl, (fun t c hc => by cases hc), (fun t => List.nodup_nil), (fun t u c hc => by cases hc), (fun t j hj => ?_), fun j hj => ?_⟩
  · show (0#64).getLsbD j = true ↔ _
    rw [BitVec.getLsbD_zero]
    exact ⟨(fun h => by cases h), fun h => by cases h⟩
  · show ((List.range n).foldl (fun m i => m ||| bit i) 0#64).getLsbD j = true ↔ _
    rw [or_bits _ (fun c hc => by rw [List.mem_range] at hc; omega) _ _ hj, BitVec.getLsbD_zero, Bool.false_or, decide_eq_true_iff, List.mem_range]
    exact ⟨fun h => ⟨h, fun t ht => by cases ht⟩, fun h => h.1⟩

/-- The cores found are in range and held by nobody. -/
theorem find_free {n : Nat} (hn : n ≤ 32) {s : Cpus} (hi : CInv n s) (v : BitVec 64) (k : Nat) :
    ∀ c ∈ findCores (v &&& s.avail) (List.range s.ncores) k, c < n ∧ ∀ u, c ∉ s.held u := by
  intro c hc
  have h1 : c < n := by
    have := (find_sublist _ _ _).subset hc
    rw [hi.nc] at this
    exact List.mem_range.mp this
  obtain ⟨j, hj, hv, hm⟩ := meets (by omega) (find_meets _ _ _ c hc)
  rw [BitVec.getLsbD_and, Bool.and_eq_true] at hv
  have := ((hi.avail j hj).mp hv.2).2
  rw [hm] at this
  exact ⟨h1, this⟩

theorem allocate_cinv {n : Nat} (hn : n ≤ 32) {s s' : Cpus} (hi : CInv n s) {k t : Nat} (h : s.allocate k t = some s') : CInv n s' := by
  unfold Cpus.allocate at h
  have hfree := find_free hn hi (s.cpumask t) k
  have hnd : (findCores (s.cpumask t &&& s.avail) (List.range s.ncores) k).Nodup := (find_sublist _ _ _).nodup List.nodup_range
  generalize findCores (s.cpumask t &&& s.avail) (List.range s.ncores) k = cs at h hfree hnd
  simp only at h
  split at h
  · cases h
  · cases h
    have hmem : ∀ (u c : Nat), c ∈ upd s.held t (s.held t ++ cs) u ↔ c ∈ s.held u ∨ (u = t ∧ c ∈ cs) := by
      intro u c
      by_cases hu : u = t
      · subst hu; rw [upd_same, List.mem_append]; exact ⟨fun h => h.imp id (fun h => ⟨rfl, h⟩), fun h => h.imp id (·.2)⟩
      · rw [upd_other _ _ hu]; exact ⟨.inl, fun h => h.elim id (fun h => absurd h.1 hu)⟩
    have hbits : ∀ j, j < 64 → ((cs.foldl (fun m i => m ||| bit i) (s.mask t)).getLsbD j = true ↔ min j 31 ∈ s.held t ∨ min j 31 ∈ cs) := by
      intro j hj
      rw [or_bits cs (fun c hc => by have := (hfree c hc).1; omega) _ _ hj, Bool.or_eq_true, hi.mask t j hj, decide_eq_true_iff]
    refine ⟨hi.nc, (fun u c hc => ?_), (fun u => ?_), (fun u w c hu hw => ?_), (fun u j hj => ?_), fun j hj => ?_⟩
    · rcases (hmem u c).mp hc with h | ⟨_, h⟩
      · exact hi.lt u c h
      · exact (hfree c h).1
    · show (upd s.held t (s.held t ++ cs) u).Nodup
      by_cases hu : u = t
      · subst hu
        rw [upd_same, List.nodup_append]
        refine ⟨hi.nodup u, hnd, fun a ha b hb hab => ?_⟩
        subst hab
        exact (hfree a hb).2 u ha
      · rw [upd_other _ _ hu]; exact hi.nodup u
    · rcases (hmem u c).mp hu with h1 | ⟨e1, h1⟩ <;> rcases (hmem w c).mp hw with h2 | ⟨e2, h2⟩
      · exact hi.disj u w c h1 h2
      · exact absurd h1 ((hfree c h2).2 u)
      · exact absurd h2 ((hfree c h1).2 w)
      · rw [e1, e2]
    · show (upd s.mask t _ u).getLsbD j = true ↔ min j 31 ∈ upd s.held t (s.held t ++ cs) u
      rw [hmem]
      by_cases hu : u = t
      · subst hu
        rw [upd_same, hbits j hj]
        exact ⟨fun h => h.imp id (fun h => ⟨rfl, h⟩), fun h => h.imp id (·.2)⟩
      · rw [upd_other _ _ hu, hi.mask u j hj]
        exact ⟨.inl, fun h => h.elim id (fun h => absurd h.1 hu)⟩
    · show (s.avail &&& ~~~ _).getLsbD j = true ↔ min j 31 < n ∧ ∀ u, min j 31 ∉ upd s.held t (s.held t ++ cs) u
      rw [BitVec.getLsbD_and, Bool.and_eq_true, hi.avail j hj, BitVec.getLsbD_not, decide_eq_true hj, Bool.true_and, Bool.not_eq_true', ← Bool.not_eq_true, hbits j hj]
      constructor
      · rintro ⟨⟨h1, h2⟩, h3⟩
        refine ⟨h1, fun u hu => ?_⟩
        rcases (hmem u _).mp hu with h | ⟨_, h⟩
        · exact h2 u h
        · exact h3 (.inr h)
      · rintro ⟨h1, h2⟩
        refine ⟨⟨h1, fun u hu => h2 u ((hmem u _).mpr (.inl hu))⟩, fun h => h2 t ((hmem t _).mpr (h.imp id fun h => ⟨rfl, h⟩))⟩

theorem pending_cinv {n : Nat} {s : Cpus} (hi : CInv n s) (l : List (Nat × Nat)) : CInv n { s with pending := l } :=
  ⟨hi.nc, hi.lt, hi.nodup, hi.disj, hi.mask, hi.avail⟩

theorem retry_cinv {n : Nat} (hn : n ≤ 32) (ps : List (Nat × Nat)) {s : Cpus} (hi : CInv n s) : CInv n (s.retry ps) := by
  induction ps generalizing s with
  | nil => exact hi
  | cons p ps ih =>
    simp only [Cpus.retry]
    cases ha : s.allocate p.1 p.2 with
    | none => exact ih hi
    | some s' => exact ih (pending_cinv (allocate_cinv hn hi ha) _)

theorem giveBack_cinv {n : Nat} (hn : n ≤ 32) {s s' : Cpus} (hi : CInv n s) {t : Nat} (h : s.giveBack t = some s') : CInv n s' := by
  unfold Cpus.giveBack at h
  cases hl : (s.held t).getLast? with
  | none => rw [hl] at h; cases h
  | some c =>
    rw [hl] at h
    cases h
    have heq : s.held t = (s.held t).dropLast ++ [c] := by
      obtain ⟨l, hl2⟩ := List.getLast?_eq_some_iff.mp hl
      rw [hl2, List.dropLast_concat]
    have hc : c ∈ s.held t := by rw [heq]; exact List.mem_append_right _ (List.mem_singleton.mpr rfl)
    have hc32 : c < 32 := Nat.lt_of_lt_of_le (hi.lt t c hc) hn
    have hnd := hi.nodup t
    rw [heq, List.nodup_append] at hnd
    have hnot : c ∉ (s.held t).dropLast := fun h => hnd.2.2 c h c (List.mem_singleton.mpr rfl) rfl
    have hmem : ∀ (u x : Nat), x ∈ upd s.held t (s.held t).dropLast u ↔ x ∈ s.held u ∧ x ≠ c := by
      intro u x
      by_cases hu : u = t
      · subst hu
        rw [upd_same]
        constructor
        · exact fun h => ⟨by rw [heq]; exact List.mem_append_left _ h, fun e => hnot (e ▸ h)⟩
        · rintro ⟨h1, h2⟩
          rw [heq] at h1
          rcases List.mem_append.mp h1 with h | h
          · exact h
          · exact absurd (List.mem_singleton.mp h) h2
      · rw [upd_other _ _ hu]
        exact ⟨fun h => ⟨h, fun e => hu (hi.disj u t c (e ▸ h) hc)⟩, (·.1)⟩
    refine ⟨hi.nc, (fun u x hx => hi.lt u x ((hmem u x).mp hx).1), (fun u => ?_), (fun u w x hu hw => hi.disj u w x ((hmem u x).mp hu).1 ((hmem w x).mp hw).1), (fun u j hj => ?_), fun j hj => ?_⟩
    · show (upd s.held t (s.held t).dropLast u).Nodup
      by_cases hu : u = t
      · subst hu; rw [upd_same]; exact hnd.1
      · rw [upd_other _ _ hu]; exact hi.nodup u
    · show (upd s.mask t _ u).getLsbD j = true ↔ min j 31 ∈ upd s.held t _ u
      rw [hmem]
      by_cases hu : u = t
      · subst hu
        rw [upd_same, BitVec.getLsbD_and, Bool.and_eq_true, hi.mask u j hj, BitVec.getLsbD_not, decide_eq_true hj, Bool.true_and, bit_get hc32 hj]
        simp
      · rw [upd_other _ _ hu, hi.mask u j hj]
        exact ⟨fun h => ⟨h, fun e => hu (hi.disj u t c (e ▸ h) hc)⟩, (·.1)⟩
    · show (s.avail ||| bit c).getLsbD j = true ↔ min j 31 < n ∧ ∀ u, min j 31 ∉ upd s.held t _ u
      rw [BitVec.getLsbD_or, Bool.or_eq_true, hi.avail j hj, bit_get hc32 hj, decide_eq_true_iff]
      constructor
      · rintro (⟨h1, h2⟩ | h)
        · exact ⟨h1, fun u hu => h2 u ((hmem u _).mp hu).1⟩
        · rw [h]
          exact ⟨hi.lt t c hc, fun u hu => ((hmem u _).mp hu).2 rfl⟩
      · rintro ⟨h1, h2⟩
        by_cases h : min j 31 = c
        · exact .inr h
        · exact .inl ⟨h1, fun u hu => h2 u ((hmem u _).mpr ⟨hu, h⟩)⟩

theorem giveBackN_cinv {n : Nat} (hn : n ≤ 32) (k : Nat) {s s' : Cpus} (hi : CInv n s) {t : Nat} (h : s.giveBackN t k = some s') : CInv n s' := by
  induction k generalizing s with
  | zero => cases h; exact hi
  | succ k ih =>
    simp only [Cpus.giveBackN] at h
    cases hg : s.giveBack t with
    | none => rw [hg] at h; cases h
    | some s1 => rw [hg] at h; exact ih (giveBack_cinv hn hi hg) h

theorem cpus_inv {n : Nat} (hn : n ≤ 32) {s : Cpus} (h : Cpus.Reach n s) : CInv n s := by
  induction h with
  | new => exact new_cinv hn
  | @step s s' h hs ih =>
    cases hs with
    | reserve k t hb =>
      unfold Cpus.reserve
      cases ha : s.allocate k t with
      | none => exact pending_cinv ih _
      | some s1 => exact allocate_cinv hn ih ha
    | release _ k t hr =>
      unfold Cpus.release at hr
      cases hg : s.giveBackN t k with
      | none => rw [hg] at hr; cases hr
      | some s1 => rw [hg] at hr; cases hr; exact retry_cinv hn _ (giveBackN_cinv hn k ih hg)
    | setMask t m hb => exact ⟨ih.nc, ih.lt, ih.nodup, ih.disj, ih.mask, ih.avail⟩

theorem length_le_of_lt (n : Nat) (l : List Nat) (hl : l.Nodup) (hn : ∀ x ∈ l, x < n) : l.length ≤ n := by
  induction n generalizing l with
  | zero =>
    cases l with
    | nil => exact Nat.le_refl _
    | cons x l => exact absurd (hn x (List.mem_cons_self ..)) (Nat.not_lt_zero _)
  | succ n ih =>
    have h := ih (l.erase n) (hl.erase n) fun x hx => by
      have h1 := hn x (List.mem_of_mem_erase hx)
      have h2 := ((hl.mem_erase_iff).mp hx).1
      omega
    by_cases hm : n ∈ l
    · rw [List.length_erase_of_mem hm] at h; omega
    · rw [List.erase_of_not_mem hm] at h; omega

/-- **C57**. With the cpuset scheduler, on nodes of at most 32 cores and in every history, every core held
is a core of the node, no thread holds a core twice and no two threads hold the same core. -/
theorem C57_cpuset {n : Nat} (hn : n ≤ 32) {s : Cpus} (h : Cpus.Reach n s) :
    (∀ t, ∀ c ∈ s.held t, c < n) ∧ (∀ t, (s.held t).Nodup) ∧ ∀ (t u c : Nat), c ∈ s.held t → c ∈ s.held u → t = u :=
  ⟨(cpus_inv hn h).lt, (cpus_inv hn h).nodup, (cpus_inv hn h).disj⟩

theorem flat_nodup {f : Nat → List Nat} (h1 : ∀ t, (f t).Nodup) (h2 : ∀ (t u c : Nat), c ∈ f t → c ∈ f u → t = u) (W : List Nat) (hW : W.Nodup) :
    (W.flatMap f).Nodup := by
  induction W with
  | nil => exact List.nodup_nil
  | cons t W ih =>
    rw [List.nodup_cons] at hW
    rw [List.flatMap_cons, List.nodup_append]
    refine ⟨h1 t, ih hW.2, fun a ha b hb hab => ?_⟩
    subst hab
    obtain ⟨u, hu, hb⟩ := List.mem_flatMap.mp hb
    exact hW.1 (h2 t u a ha hb ▸ hu)

/-- **C57**. With the cpuset scheduler, on nodes of at most 32 cores, different threads together hold at
most as many cores as the node has. -/
theorem C57_cpuset_count {n : Nat} (hn : n ≤ 32) {s : Cpus} (h : Cpus.Reach n s) (W : List Nat) (hW : W.Nodup) : total s.held W ≤ n := by
  obtain ⟨h1, h2, h3⟩ := C57_cpuset hn h
  have he : total s.held W = (W.flatMap s.held).length := by rw [List.length_flatMap]; rfl
  rw [he]
  exact length_le_of_lt n _ (flat_nodup h2 h3 W hW) fun x hx => by
    obtain ⟨t, _, ht⟩ := List.mem_flatMap.mp hx
    exact h1 t x ht

/-- Two threads, one bound to core 2, and a third that waits for core 2 and gets it. -/
example : ∃ s, Cpus.Reach 4 s ∧ s.held 1 = [0, 1] ∧ s.held 2 = [] ∧ s.held 3 = [2] ∧ s.pending = [] :=
  ⟨_, .step (.step (.step (.step (.step (.step .new (.setMask _ 2 4#64 (by decide))) (.setMask _ 3 4#64 (by decide)))
      (.reserve _ 2 1 (by decide))) (.reserve _ 1 2 (by decide))) (.reserve _ 1 3 (by decide))) (.release _ _ 1 2 rfl),
    by decide +kernel, by decide +kernel, by decide +kernel, by decide +kernel⟩

/-! ### No thread waits for cores that are free -/

theorem find_succ (v : BitVec 64) (is : List Nat) (k : Nat) : (findCores v is (k + 1)).length ≤ (findCores v is k).length + 1 := by
  induction is generalizing k with
  | nil => exact Nat.zero_le _
  | cons i is ih =>
    cases k with
    | zero => 
      have := find_length_le v (i :: is) 1
      show _ ≤ 0 + 1
      exact this
    | succ k =>
      rw [findCores, findCores]
      split
      · exact Nat.succ_le_succ (ih k)
      · exact ih (k + 1)

theorem find_mono (v v' : BitVec 64) (h : ∀ j, v'.getLsbD j = true → v.getLsbD j = true) (is : List Nat) (k k' : Nat) (hk : k' ≤ k) :
    (findCores v' is k').length ≤ (findCores v is k).length := by
  induction is generalizing k k' with
  | nil => exact Nat.le_refl _
  | cons i is ih =>
    cases k' with
    | zero => exact Nat.zero_le _
    | succ k' =>
      cases k with
      | zero => omega
      | succ k =>
        simp only [findCores]
        by_cases h1 : v' &&& bit i ≠ 0#64
        · have h2 : v &&& bit i ≠ 0#64 := by
            intro h0
            apply h1
            apply BitVec.eq_of_getLsbD_eq
            intro j hj
            have h0j := congrArg (·.getLsbD j) h0
            simp only [BitVec.getLsbD_and, BitVec.getLsbD_zero] at h0j ⊢
            cases hv : v'.getLsbD j with
            | false => rfl
            | true => rw [h j hv] at h0j; exact h0j
          rw [if_pos h1, if_pos h2]
          exact Nat.succ_le_succ (ih k k' (by omega))
        · rw [if_neg h1]
          split
          · have h3 := ih (k + 1) (k' + 1) (by omega)
            have h4 := find_succ v is k
            exact Nat.le_trans h3 h4
          · exact ih (k + 1) (k' + 1) hk

/-- The thread of a request cannot be given its cores now. -/
def Cpus.Fails (s : Cpus) (p : Nat × Nat) : Prop :=
  (findCores (s.cpumask p.2 &&& s.avail) (List.range s.ncores) p.1).length < p.1

theorem allocate_none {s : Cpus} {k t : Nat} : s.allocate k t = none ↔ s.Fails (k, t) := by
  unfold Cpus.allocate Cpus.Fails
  simp only
  split
  · next h => exact ⟨fun _ => h, fun _ => rfl⟩
  · next h => exact ⟨(fun h => by cases h), fun h' => absurd h' h⟩

/-- What an allocation leaves alone; the available set shrinks. -/
theorem allocate_frame {s s' : Cpus} {k t : Nat} (h : s.allocate k t = some s') :
    s'.ncores = s.ncores ∧ s'.cpumask = s.cpumask ∧ s'.pending = s.pending ∧ ∀ j, s'.avail.getLsbD j = true → s.avail.getLsbD j = true := by
  unfold Cpus.allocate at h
  simp only at h
  split at h
  · cases h
  · cases h
    refine ⟨rfl, rfl, rfl, fun j hj => ?_⟩
    rw [BitVec.getLsbD_and, Bool.and_eq_true] at hj
    exact hj.1

theorem fails_mono {s s' : Cpus} (h1 : s'.ncores = s.ncores) {p : Nat × Nat} (h2 : s'.cpumask p.2 = s.cpumask p.2) (h3 : ∀ j, s'.avail.getLsbD j = true → s.avail.getLsbD j = true)
    (h : s.Fails p) : s'.Fails p := by
  unfold Cpus.Fails at h ⊢
  refine Nat.lt_of_le_of_lt ?_ h
  rw [h1, h2]
  refine find_mono _ _ (fun j hj => ?_) _ _ _ (Nat.le_refl _)
  rw [BitVec.getLsbD_and, Bool.and_eq_true] at hj ⊢
  exact ⟨hj.1, h3 j hj.2⟩

/-- Each thread waits once, and in vain so far. -/
structure PInv (s : Cpus) : Prop where
  nodup : (s.pending.map (·.2)).Nodup
  fails : ∀ p ∈ s.pending, s.Fails p

theorem nodup_of_map {l : List (Nat × Nat)} (h : (l.map (·.2)).Nodup) : l.Nodup := by
  induction l with
  | nil => exact List.nodup_nil
  | cons x l ih =>
    rw [List.map_cons, List.nodup_cons] at h
    exact List.nodup_cons.mpr ⟨fun hx => h.1 (List.mem_map.mpr ⟨x, hx, rfl⟩), ih h.2⟩

theorem retry_pinv (ps : List (Nat × Nat)) {s : Cpus} (hn : (s.pending.map (·.2)).Nodup) (hf : ∀ p ∈ s.pending, p ∈ ps ∨ s.Fails p) : PInv (s.retry ps) := by
  induction ps generalizing s with
  | nil => exact ⟨hn, fun p hp => (hf p hp).resolve_left (by intro h; cases h)⟩
  | cons p ps ih =>
    simp only [Cpus.retry]
    cases ha : s.allocate p.1 p.2 with
    | none =>
      refine ih hn fun q hq => ?_
      rcases hf q hq with h | h
      · rcases List.mem_cons.mp h with rfl | h
        · exact .inr (allocate_none.mp ha)
        · exact .inl h
      · exact .inr h
    | some s' =>
      obtain ⟨f1, f2, f3, f4⟩ := allocate_frame ha
      refine ih (s := { s' with pending := s'.pending.erase p }) ?_ ?_
      · show ((s'.pending.erase p).map (·.2)).Nodup
        rw [f3]
        exact (List.Sublist.map _ List.erase_sublist).nodup hn
      · intro q hq
        replace hq : q ∈ s'.pending.erase p := hq
        rw [f3] at hq
        have hne := ((nodup_of_map hn).mem_erase_iff.mp hq).1
        rcases hf q (List.mem_of_mem_erase hq) with h | h
        · rcases List.mem_cons.mp h with e | h
          · exact absurd e hne
          · exact .inl h
        · exact .inr (fails_mono (s := s) (s' := { s' with pending := s'.pending.erase p }) f1 (congrFun f2 _) f4 h)

theorem giveBackN_frame (k : Nat) {s s' : Cpus} {t : Nat} (h : s.giveBackN t k = some s') : s'.pending = s.pending := by
  induction k generalizing s with
  | zero => cases h; rfl
  | succ k ih =>
    simp only [Cpus.giveBackN] at h
    cases hg : s.giveBack t with
    | none => rw [hg] at h; cases h
    | some s1 =>
      rw [hg] at h
      rw [ih h]
      unfold Cpus.giveBack at hg
      cases hl : (s.held t).getLast? with
      | none => rw [hl] at hg; cases hg
      | some c => rw [hl] at hg; cases hg; rfl

theorem cpus_pinv {n : Nat} {s : Cpus} (h : Cpus.Reach n s) : PInv s := by
  induction h with
  | new => exact ⟨List.nodup_nil, (fun p hp => by cases hp)⟩
  | @step s s' h hs ih =>
    cases hs with
    | reserve k t hb =>
      unfold Cpus.reserve
      cases ha : s.allocate k t with
      | none =>
        refine ⟨?_, fun p hp => ?_⟩
        · show ((s.pending ++ [(k, t)]).map (·.2)).Nodup
          rw [List.map_append, List.nodup_append]
          refine ⟨ih.nodup, by simp, fun a h1 b h2 hab => ?_⟩
          obtain ⟨p, hp, rfl⟩ := List.mem_map.mp h1
          simp only [List.map_cons, List.map_nil, List.mem_singleton] at h2
          exact hb p hp (hab.trans h2)
        · rcases List.mem_append.mp hp with hp | hp
          · exact ih.fails p hp
          · rw [List.mem_singleton.mp hp]; exact (allocate_none (s := s)).mp ha
      | some s1 =>
        obtain ⟨f1, f2, f3, f4⟩ := allocate_frame ha
        refine ⟨by simp only [f3]; exact ih.nodup, fun p hp => ?_⟩
        simp only [f3] at hp
        exact fails_mono f1 (congrFun f2 _) f4 (ih.fails p hp)
    | release _ k t hr =>
      unfold Cpus.release at hr
      cases hg : s.giveBackN t k with
      | none => rw [hg] at hr; cases hr
      | some s1 =>
        rw [hg] at hr; cases hr
        exact retry_pinv _ (by rw [giveBackN_frame k hg]; exact ih.nodup) fun p hp => .inl hp
    | setMask t m hb =>
      exact ⟨ih.nodup, fun p hp => fails_mono (s := s) (s' := { s with cpumask := upd s.cpumask t m }) rfl (upd_other _ _ (hb p hp)) (fun _ h => h) (ih.fails p hp)⟩

theorem find_all (v : BitVec 64) (is : List Nat) (k : Nat) (F : List Nat) (hs : F.Sublist is) (hF : ∀ c ∈ F, v &&& bit c ≠ 0#64) (hk : k ≤ F.length) :
    (findCores v is k).length = k := by
  induction hs generalizing k with
  | slnil => cases k with
    | zero => rfl
    | succ k => exact absurd hk (by simp)
  | @cons F is i hs ih =>
    cases k with
    | zero => rfl
    | succ k =>
      simp only [findCores]
      split
      · rw [List.length_cons, ih k hF (by omega)]
      · exact ih _ hF hk
  | @cons_cons F is i hs ih =>
    cases k with
    | zero => rfl
    | succ k =>
      simp only [findCores]
      rw [if_pos (hF i (List.mem_cons_self ..)), List.length_cons, ih k (fun c hc => hF c (List.mem_cons_of_mem _ hc)) (by rw [List.length_cons] at hk; omega)]

/-- **C83**. With the cpuset scheduler, on nodes of at most 31 cores: if a thread waits for `k` cores, then
fewer than `k` of the cores in its cpu mask are free. `F` is any set of free cores in the mask. -/
theorem C83_cpuset {n : Nat} (hn : n ≤ 31) {s : Cpus} (h : Cpus.Reach n s) {k t : Nat} (hp : (k, t) ∈ s.pending)
    (F : List Nat) (hF : F.Sublist (List.range n)) (hf : ∀ c ∈ F, (s.cpumask t).getLsbD c = true ∧ ∀ u, c ∉ s.held u) : F.length < k := by
  have hi := cpus_inv (by omega) h
  have hfail := (cpus_pinv h).fails _ hp
  unfold Cpus.Fails at hfail
  refine Classical.byContradiction fun hge => ?_
  have := find_all (s.cpumask t &&& s.avail) (List.range s.ncores) k F (by rw [hi.nc]; exact hF) (fun c hc h0 => by
    have hlt := List.mem_range.mp (hF.subset hc)
    have hget := congrArg (·.getLsbD c) h0
    have hb := bit_get (i := c) (j := c) (by omega) (by omega)
    simp only [BitVec.getLsbD_and, BitVec.getLsbD_zero, hb, (hf c hc).1, Bool.true_and] at hget
    have ha := (hi.avail c (by omega)).mpr ⟨by omega, fun u hu => (hf c hc).2 u (by rwa [Nat.min_eq_left (by omega)] at hu)⟩
    rw [ha, decide_eq_true (Nat.min_eq_left (by omega))] at hget
    cases hget) (by omega)
  simp only at hfail
  omega

/-- A thread waits for two cores while one is free. -/
example : ∃ s, Cpus.Reach 2 s ∧ (2, 2) ∈ s.pending ∧ s.held 1 = [0] ∧ s.held 2 = [] :=
  ⟨_, .step (.step .new (.reserve _ 1 1 (by decide))) (.reserve _ 2 2 (by decide)), by decide +kernel, by decide +kernel, by decide +kernel⟩

/-! ### Affinity -/

/-- **C84**. On nodes of at most 31 cores, a reservation that succeeds adds exactly the requested number of
cores to those of the thread, all of them in the thread's cpu mask. -/
theorem C84_partial {n : Nat} (hn : n ≤ 31) {s s' : Cpus} (h : Cpus.Reach n s) {k t : Nat} (ha : s.allocate k t = some s') :
    ∃ cs, s'.held t = s.held t ++ cs ∧ cs.length = k ∧ ∀ c ∈ cs, (s.cpumask t).getLsbD c = true := by
  have hi := cpus_inv (by omega) h
  have hfree := find_free (by omega) hi (s.cpumask t) k
  unfold Cpus.allocate at ha
  simp only at ha
  split at ha
  · cases ha
  · next hl =>
    cases ha
    refine ⟨_, upd_same _ _ _, ?_, fun c hc => ?_⟩
    · have := find_length_le (s.cpumask t &&& s.avail) (List.range s.ncores) k
      omega
    · have hlt := (hfree c hc).1
      obtain ⟨j, hj, hv, hm⟩ := meets (by omega) (find_meets _ _ _ c hc)
      rw [BitVec.getLsbD_and, Bool.and_eq_true] at hv
      have : j = c := by omega
      rw [← this]; exact hv.1

/-- **C84** (refuted). On a node of 32 cores a thread whose mask does not contain core 31, but only a core
number above, is put on core 31: `1 << 31` is negative and stands for the cores 31 to 63. -/
theorem C84_refuted : ∃ s s', Cpus.Reach 32 s ∧ s.cpumask 1 = bit 31 &&& ~~~0x80000000#64 ∧ (s.cpumask 1).getLsbD 31 = false ∧
    s.allocate 1 1 = some s' ∧ s'.held 1 = [31] :=
  ⟨_, _, .step .new (.setMask _ 1 (bit 31 &&& ~~~0x80000000#64) (by decide)), rfl, by decide +kernel, rfl, by decide +kernel⟩

end SST.Os
