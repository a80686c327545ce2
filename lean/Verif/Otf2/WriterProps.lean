import Verif.Otf2.Writer
set_option autoImplicit false
/-!
# C125: identifiers and times in OTF2 traces that are written
-/

namespace Verif.Otf2.Writer

/-- The communicators of the world: those that some rank was in. -/
def comms (w : List (List Entry)) : List Nat := w.flatten.map Entry.comm

/-- Communicators as they are: each has a rank 0, and only one. -/
def Proper (w : List (List Entry)) : Prop :=
  (∀ c ∈ comms w, ⟨c, true⟩ ∈ w.flatten) ∧ ((w.flatten.filter Entry.root).map Entry.comm).Nodup

theorem give_fst (l : List Entry) : ∀ n, (give n l).map (·.1) = (l.filter Entry.root).map Entry.comm := by
  induction l with
  | nil => intro n; rfl
  | cons e l ih =>
    intro n
    simp only [give, List.filter_cons]
    split <;> simp [ih]

theorem give_snd (l : List Entry) : ∀ n, (give n l).map (·.2) = List.range' n (owned l) := by
  induction l with
  | nil => intro n; rfl
  | cons e l ih =>
    intro n
    simp only [give, owned, List.countP_cons]
    split
    · simp only [List.map_cons, ih, owned, List.range'_succ]
    · simp only [ih, owned]; rfl

/-- Sums of what is before. -/
def before (acc : Nat) : List Nat → List Nat
  | [] => []
  | n :: l => acc :: before (acc + n) l

theorem scan_before (l : List Nat) : ∀ acc, List.zipWith (fun s n => s - n) (scan acc l) l = before acc l := by
  induction l with
  | nil => intro acc; rfl
  | cons n l ih =>
    intro acc
    simp only [scan, before, List.zipWith_cons_cons, ih]
    congr 1
    omega

theorem given_gen (w : List (List Entry)) : ∀ acc,
    ((List.zipWith give (before acc (w.map owned)) w).flatten.map (·.1)) = (w.flatten.filter Entry.root).map Entry.comm ∧
    ((List.zipWith give (before acc (w.map owned)) w).flatten.map (·.2)) = List.range' acc (w.map owned).sum := by
  induction w with
  | nil => intro acc; exact ⟨rfl, rfl⟩
  | cons l w ih =>
    intro acc
    obtain ⟨h1, h2⟩ := ih (acc + owned l)
    simp only [List.map_cons, before, List.zipWith_cons_cons, List.flatten_cons, List.map_append, List.filter_append,
      List.sum_cons, h1, h2, give_fst, give_snd, true_and]
    rw [← List.range'_append_1]

theorem given_fst (w : List (List Entry)) : (given w).map (·.1) = (w.flatten.filter Entry.root).map Entry.comm := by
  unfold given offsets
  rw [scan_before]
  exact (given_gen w 0).1

theorem given_snd (w : List (List Entry)) : (given w).map (·.2) = List.range' 0 (w.map owned).sum := by
  unfold given offsets
  rw [scan_before]
  exact (given_gen w 0).2

theorem bcast_mem {g : List (Nat × Nat)} {c : Nat} (h : c ∈ g.map (·.1)) : (c, bcast g c) ∈ g := by
  unfold bcast
  cases hf : g.find? (fun x => x.1 = c) with
  | none =>
    exfalso
    obtain ⟨x, hx, rfl⟩ := List.mem_map.mp h
    have := List.find?_eq_none.mp hf x hx
    simp at this
  | some x =>
    have h1 := List.mem_of_find?_eq_some hf
    have h2 := List.find?_some hf
    simp only [decide_eq_true_eq] at h2
    obtain ⟨a, b⟩ := x
    simp only at h2 ⊢
    subst h2
    exact h1

theorem eq_of_snd {g : List (Nat × Nat)} (h : (g.map (·.2)).Nodup) {a b n : Nat} (ha : (a, n) ∈ g) (hb : (b, n) ∈ g) : a = b := by
  induction g with
  | nil => cases ha
  | cons x g ih =>
    simp only [List.map_cons, List.nodup_cons] at h
    rcases List.mem_cons.mp ha with ha | ha <;> rcases List.mem_cons.mp hb with hb | hb
    · rw [← ha] at hb; cases hb; rfl
    · exact absurd (List.mem_map.mpr ⟨_, hb, by rw [← ha]⟩) h.1
    · exact absurd (List.mem_map.mpr ⟨_, ha, by rw [← hb]⟩) h.1
    · exact ih h.2 ha hb

theorem eq_of_fst {g : List (Nat × Nat)} (h : (g.map (·.1)).Nodup) {a b n : Nat} (ha : (n, a) ∈ g) (hb : (n, b) ∈ g) : a = b := by
  induction g with
  | nil => cases ha
  | cons x g ih =>
    simp only [List.map_cons, List.nodup_cons] at h
    rcases List.mem_cons.mp ha with ha | ha <;> rcases List.mem_cons.mp hb with hb | hb
    · rw [← ha] at hb; cases hb; rfl
    · exact absurd (List.mem_map.mpr ⟨_, hb, by rw [← ha]⟩) h.1
    · exact absurd (List.mem_map.mpr ⟨_, ha, by rw [← hb]⟩) h.1
    · exact ih h.2 ha hb

theorem root_key {w : List (List Entry)} (hw : Proper w) {c : Nat} (hc : c ∈ comms w) : c ∈ (given w).map (·.1) := by
  rw [given_fst]
  exact List.mem_map.mpr ⟨⟨c, true⟩, List.mem_filter.mpr ⟨hw.1 c hc, rfl⟩, rfl⟩

/-- C125.  All ranks of a communicator write the same identifier for it, different communicators have different
ones, and they are the numbers from 0 on; every rank writes an identifier for each communicator that
it was in. -/
theorem C125_comm_ids (w : List (List Entry)) (hw : Proper w) : ∃ id : Nat → Nat,
    (∀ (r : Nat) (l : List Entry), w[r]? = some l →
      ∃ l', (assign w)[r]? = some l' ∧ l'.map Named.comm = l.map Entry.comm ∧ ∀ x ∈ l', x.id = id x.comm) ∧
    (∀ c ∈ comms w, ∀ c' ∈ comms w, id c = id c' → c = c') ∧
    (∀ n, n < (w.flatten.filter Entry.root).length ↔ ∃ c ∈ comms w, id c = n) := by
  have hsnd : ((given w).map (·.2)).Nodup := by rw [given_snd]; exact List.nodup_range'
  have hlen : (w.map owned).sum = (w.flatten.filter Entry.root).length := by
    have h1 := congrArg List.length (given_fst w)
    have h2 := congrArg List.length (given_snd w)
    simp only [List.length_map, List.length_range'] at h1 h2
    omega
  refine ⟨bcast (given w), ?_, ?_, ?_⟩
  · intro r l hl
    refine ⟨l.map (name (given w)), by simp [assign, hl], ?_, ?_⟩
    · rw [List.map_map]; rfl
    · intro x hx
      obtain ⟨e, _, rfl⟩ := List.mem_map.mp hx
      rfl
  · intro c hc c' hc' he
    have h1 := bcast_mem (root_key hw hc)
    have h2 := bcast_mem (root_key hw hc')
    rw [he] at h1
    exact eq_of_snd hsnd h1 h2
  · intro n
    constructor
    · intro hn
      have : n ∈ (given w).map (·.2) := by
        rw [given_snd, List.mem_range'_1]; omega
      obtain ⟨x, hx, rfl⟩ := List.mem_map.mp this
      have hk : x.1 ∈ (given w).map (·.1) := List.mem_map.mpr ⟨x, hx, rfl⟩
      have hc : x.1 ∈ comms w := by
        rw [given_fst] at hk
        obtain ⟨e, he, h⟩ := List.mem_map.mp hk
        rw [← h]
        exact List.mem_map.mpr ⟨e, (List.mem_filter.mp he).1, rfl⟩
      refine ⟨x.1, hc, ?_⟩
      have hn1 : ((given w).map (·.1)).Nodup := by rw [given_fst]; exact hw.2
      exact eq_of_fst hn1 (bcast_mem hk) hx
    · rintro ⟨c, hc, rfl⟩
      have h1 : bcast (given w) c ∈ (given w).map (·.2) := List.mem_map.mpr ⟨_, bcast_mem (root_key hw hc), rfl⟩
      rw [given_snd, List.mem_range'_1] at h1
      omega

/-- Three ranks: the world, two communicators of one split, and one of each rank alone. -/
def demo : List (List Entry) :=
  [[⟨0, true⟩, ⟨1, true⟩, ⟨3, true⟩], [⟨0, false⟩, ⟨2, true⟩, ⟨4, true⟩], [⟨0, false⟩, ⟨1, false⟩, ⟨5, true⟩]]

example : Proper demo ∧ assign demo =
    [[⟨0, true, 0, 1⟩, ⟨1, true, 1, 2⟩, ⟨3, true, 2, 3⟩], [⟨0, false, 0, 0⟩, ⟨2, true, 3, 4⟩, ⟨4, true, 4, 5⟩],
     [⟨0, false, 0, 0⟩, ⟨1, false, 1, 1⟩, ⟨5, true, 5, 6⟩]] := by
  unfold Proper
  decide

/-- C125.  The ranks of a communicator do not agree on the identifier of its group: rank 0 of every communicator
writes another one than all its other ranks. -/
theorem C125_group_refuted (w : List (List Entry)) (x y : Named) (hx : x ∈ (assign w).flatten) (hy : y ∈ (assign w).flatten)
    (hc : x.comm = y.comm) (h1 : x.root = true) (h2 : y.root = false) : x.group ≠ y.group := by
  have key : ∀ z ∈ (assign w).flatten, z = name (given w) ⟨z.comm, z.root⟩ := by
    intro z hz
    simp only [assign, List.mem_flatten, List.mem_map] at hz
    obtain ⟨_, ⟨l, _, rfl⟩, hz⟩ := hz
    obtain ⟨e, _, rfl⟩ := List.mem_map.mp hz
    rfl
  rw [key x hx, key y hy]
  simp only [name, h1, h2, hc, if_true, Bool.false_eq_true, if_false]
  omega

example : ∃ x ∈ (assign demo).flatten, ∃ y ∈ (assign demo).flatten, x.comm = y.comm ∧ x.root = true ∧ y.root = false := by
  refine ⟨⟨0, true, 0, 1⟩, by decide, ⟨0, false, 0, 0⟩, by decide, rfl, rfl, rfl⟩

/-- C125.  Groups of different communicators have one identifier: that of the world on rank 0 is that of
the split's first communicator on rank 2. -/
theorem C125_group_collision_refuted : ∃ w, Proper w ∧ ∃ x ∈ (assign w).flatten, ∃ y ∈ (assign w).flatten,
    x.comm ≠ y.comm ∧ x.group = y.group := by
  refine ⟨demo, by unfold Proper; decide, ⟨0, true, 0, 1⟩, by decide, ⟨1, false, 1, 1⟩, by decide, by decide, rfl⟩

/-! ## Times and counts of events -/

theorem reduce_fold (l : List Stat) : ∀ s : Sum,
    (l.foldl reduce s).min ≤ s.min ∧ (∀ x ∈ l, (l.foldl reduce s).min ≤ x.start) ∧
    ((l.foldl reduce s).min = s.min ∨ ∃ x ∈ l, (l.foldl reduce s).min = x.start) ∧
    (l.foldl reduce s).max ≤ s.max := by
  induction l with
  | nil => intro s; exact ⟨Nat.le_refl _, by simp, .inl rfl, Nat.le_refl _⟩
  | cons x l ih =>
    intro s
    obtain ⟨a, b, c, d⟩ := ih (reduce s x)
    have hm : (reduce s x).min ≤ s.min ∧ (reduce s x).min ≤ x.start :=
      ⟨Nat.min_le_left _ _, Nat.min_le_right _ _⟩
    have hx : (reduce s x).max ≤ s.max := Nat.min_le_left _ _
    simp only [List.foldl_cons]
    refine ⟨by omega, ?_, ?_, by omega⟩
    · intro y hy
      rcases List.mem_cons.mp hy with h | h
      · subst h; omega
      · exact b y h
    · rcases c with c | ⟨y, hy, c⟩
      · have : (reduce s x).min = s.min ∨ (reduce s x).min = x.start := by
          simp only [reduce]
          by_cases h : s.min ≤ x.start
          · exact .inl (Nat.min_eq_left h)
          · exact .inr (Nat.min_eq_right (by omega))
        rcases this with h | h
        · exact .inl (by rw [c, h])
        · exact .inr ⟨x, List.mem_cons_self .., by rw [c, h]⟩
      · exact .inr ⟨y, List.mem_cons_of_mem _ hy, c⟩

/-- C125.  The start of the trace is the earliest time of the ranks. -/
theorem C125_start (size : Nat) (l : List Stat) (hne : l ≠ []) (hb : ∀ x ∈ l, x.start ≤ maxTime) :
    (∃ x ∈ l, (reduceAll size l).min = x.start) ∧ ∀ x ∈ l, (reduceAll size l).min ≤ x.start := by
  obtain ⟨_, b, c, _⟩ := reduce_fold l (Sum.init size)
  refine ⟨?_, b⟩
  rcases c with c | c
  · obtain ⟨x, l', rfl⟩ := List.exists_cons_of_ne_nil hne
    have h1 := b x (List.mem_cons_self ..)
    have h2 := hb x (List.mem_cons_self ..)
    exact ⟨x, List.mem_cons_self .., by
      show (List.foldl reduce (Sum.init size) (x :: l')).min = x.start
      rw [c] at h1 ⊢
      simp only [Sum.init] at h1 ⊢
      omega⟩
  · exact c

/-- C125.  The end of the trace that is written is always 0, whatever the times of the ranks. -/
theorem C125_end_refuted (size : Nat) (l : List Stat) : (reduceAll size l).max = 0 := by
  obtain ⟨_, _, _, d⟩ := reduce_fold l (Sum.init size)
  have : (Sum.init size).max = 0 := rfl
  unfold reduceAll
  omega

theorem events_fold (l : List Stat) : ∀ s : Sum, (l.map Stat.rank).Nodup → (∀ x ∈ l, x.rank < s.events.length) →
    (l.foldl reduce s).events.length = s.events.length ∧
    (∀ x ∈ l, (l.foldl reduce s).events[x.rank]? = some x.events) ∧
    (∀ r, r ∉ l.map Stat.rank → (l.foldl reduce s).events[r]? = s.events[r]?) := by
  induction l with
  | nil => intro s _ _; exact ⟨rfl, by simp, fun _ _ => rfl⟩
  | cons x l ih =>
    intro s hn hb
    simp only [List.map_cons, List.nodup_cons] at hn
    have hlen : (reduce s x).events.length = s.events.length := by simp [reduce]
    obtain ⟨a, b, c⟩ := ih (reduce s x) hn.2 (fun y hy => by rw [hlen]; exact hb y (List.mem_cons_of_mem _ hy))
    simp only [List.foldl_cons]
    refine ⟨by omega, ?_, ?_⟩
    · intro y hy
      rcases List.mem_cons.mp hy with h | h
      · subst h
        rw [c _ hn.1]
        have := hb y (List.mem_cons_self ..)
        simp [reduce, this]
      · exact b y h
    · intro r hr
      simp only [List.map_cons, List.mem_cons, not_or] at hr
      rw [c r hr.2]
      simp [reduce, Ne.symm hr.1]

/-- C125.  The count of events that is written for each rank is its own, in whatever order the ranks are
reduced. -/
theorem C125_events (size : Nat) (l : List Stat) (hn : (l.map Stat.rank).Nodup) (hb : ∀ x ∈ l, x.rank < size) :
    ∀ x ∈ l, (reduceAll size l).events[x.rank]? = some x.events := by
  have h0 : (Sum.init size).events.length = size := by simp [Sum.init]
  exact (events_fold l (Sum.init size) hn (fun x hx => by rw [h0]; exact hb x hx)).2.1

/-- C125.  The definitions are written if rank 0 comes first. -/
theorem C125_written_partial (size : Nat) (x : Stat) (l : List Stat) (h : x.rank = 0) :
    dumpGlobal size (x :: l) = some (reduceAll size (x :: l)) := by simp [dumpGlobal, h]

/-- C125.  The simulation aborts at its end if another rank comes first, as when rank 0 is not on the first node. -/
theorem C125_first_refuted (size : Nat) (x : Stat) (l : List Stat) (h : x.rank ≠ 0) : dumpGlobal size (x :: l) = none := by
  simp [dumpGlobal, h]

example : reduceAll 3 [⟨2, 7, 40, 90⟩, ⟨0, 5, 30, 80⟩, ⟨1, 6, 35, 99⟩] = ⟨[5, 6, 7], 30, 0⟩ := by decide

end Verif.Otf2.Writer
