import Verif.Launch.Alloc
import Verif.Util.ShuffleProps
/-
C61.
-/
set_option autoImplicit false
namespace SST.Launch

theorem mem_ins (x y : Nat) (l : List Nat) : y ∈ ins x l ↔ y = x ∨ y ∈ l := by
  induction l with
  | nil => simp [ins]
  | cons z l ih =>
    simp only [ins]
    split
    · rw [List.mem_cons]
    · split
      · next h => subst h; simp
      · rw [List.mem_cons, List.mem_cons, ih]; exact or_left_comm

theorem ins_nodup_length (x : Nat) (l : List Nat) (hl : l.Nodup) (hx : x ∉ l) : (ins x l).Nodup ∧ (ins x l).length = l.length + 1 := by
  induction l with
  | nil => exact ⟨by simp [ins], rfl⟩
  | cons z l ih =>
    rw [List.nodup_cons] at hl
    rw [List.mem_cons, not_or] at hx
    obtain ⟨h1, h2⟩ := ih hl.2 hx.2
    simp only [ins]
    split
    · exact ⟨List.nodup_cons.mpr ⟨by rw [List.mem_cons, not_or]; exact hx, List.nodup_cons.mpr hl⟩, rfl⟩
    · rw [if_neg hx.1]
      refine ⟨List.nodup_cons.mpr ⟨fun h => ?_, h1⟩, by rw [List.length_cons, h2, List.length_cons]⟩
      rcases (mem_ins x z l).mp h with h | h
      · exact hx.1 h.symm
      · exact hl.1 h

theorem insAll_spec (xs s : List Nat) (hx : xs.Nodup) (hs : s.Nodup) (hd : ∀ x ∈ xs, x ∉ s) :
    (insAll xs s).Nodup ∧ (insAll xs s).length = s.length + xs.length ∧ ∀ y, y ∈ insAll xs s ↔ y ∈ xs ∨ y ∈ s := by
  induction xs generalizing s with
  | nil => exact ⟨hs, rfl, fun y => by simp [insAll]⟩
  | cons x xs ih =>
    rw [List.nodup_cons] at hx
    obtain ⟨h1, h2⟩ := ins_nodup_length x s hs (hd x (List.mem_cons_self ..))
    obtain ⟨h3, h4, h5⟩ := ih (ins x s) hx.2 h1 (fun y hy h => by
      rcases (mem_ins x y s).mp h with h | h
      · exact hx.1 (h ▸ hy)
      · exact hd y (List.mem_cons_of_mem _ hy) h)
    refine ⟨h3, ?_, fun y => ?_⟩
    · show (insAll xs (ins x s)).length = _
      rw [h4, h2, List.length_cons]; omega
    · show y ∈ insAll xs (ins x s) ↔ _
      rw [h5, mem_ins, List.mem_cons]
      exact ⟨fun h => h.elim (fun h => .inl (.inr h)) (fun h => h.elim (fun h => .inl (.inl h)) .inr), fun h => h.elim (fun h => h.elim (fun h => .inr (.inl h)) .inl) (fun h => .inr (.inr h))⟩

/-- Specification. `nodes` are `requested` different nodes, all available. -/
structure Good (requested : Nat) (available nodes : List Nat) : Prop where
  nodup : nodes.Nodup
  length : nodes.length = requested
  free : ∀ x ∈ nodes, x ∈ available

/-! ### First available -/

theorem firstLoop_eq (available : List Nat) (requested : Nat) (nids : List Nat) (num : Nat) (alloc : List Nat)
    (h : requested - num ≤ (nids.filter (· ∈ available)).length) :
    firstLoop available requested nids num alloc = some (insAll ((nids.filter (· ∈ available)).take (requested - num)) alloc) := by
  induction nids generalizing num alloc with
  | nil =>
    unfold firstLoop
    simp only [List.filter_nil, List.length_nil] at h
    rw [if_pos (by omega), List.filter_nil, List.take_nil]
    rfl
  | cons nid nids ih =>
    unfold firstLoop
    by_cases hge : num ≥ requested
    · rw [if_pos hge, show requested - num = 0 by omega]; rfl
    · rw [if_neg hge]
      simp only
      by_cases hm : nid ∈ available
      · have hf : (nid :: nids).filter (· ∈ available) = nid :: nids.filter (· ∈ available) := by rw [List.filter_cons, if_pos (by simpa using hm)]
        rw [hf, List.length_cons] at h
        rw [if_pos hm, ih _ _ (by omega), hf, show requested - num = (requested - (num + 1)) + 1 by omega, List.take_succ_cons]
        rfl
      · have hf : (nid :: nids).filter (· ∈ available) = nids.filter (· ∈ available) := by rw [List.filter_cons, if_neg (by simpa using hm)]
        rw [hf] at h
        rw [if_neg hm, ih _ _ h, hf]

theorem le_foldr_max (l : List Nat) (x : Nat) (h : x ∈ l) : x ≤ l.foldr max 0 := by
  induction l with
  | nil => cases h
  | cons y l ih =>
    rw [List.foldr_cons]
    rcases List.mem_cons.mp h with rfl | h
    · exact Nat.le_max_left _ _
    · exact Nat.le_trans (ih h) (Nat.le_max_right _ _)

theorem filter_range_length (l : List Nat) (hl : l.Nodup) (N : Nat) (hN : ∀ x ∈ l, x < N) : ((List.range N).filter (· ∈ l)).length = l.length := by
  have hp : ((List.range N).filter (· ∈ l)).Perm l := by
    rw [List.perm_iff_count]
    intro a
    have h1 : ((List.range N).filter (· ∈ l)).Nodup := List.filter_sublist.nodup List.nodup_range
    by_cases ha : a ∈ l
    · have h2 : a ∈ (List.range N).filter (· ∈ l) := by rw [List.mem_filter]; exact ⟨List.mem_range.mpr (hN a ha), by simpa using ha⟩
      have := List.nodup_iff_count.mp h1 a
      have := List.nodup_iff_count.mp hl a
      have := List.count_pos_iff.mpr h2
      have := List.count_pos_iff.mpr ha
      omega
    · have h2 : a ∉ (List.range N).filter (· ∈ l) := by rw [List.mem_filter]; exact fun h => ha (by simpa using h.2)
      rw [List.count_eq_zero.mpr h2, List.count_eq_zero.mpr ha]
  exact hp.length_eq

theorem firstAvailable_ok (requested : Nat) (available : List Nat) (ha : available.Nodup) (h : requested ≤ available.length) :
    firstAvailable requested available = .ok (insAll (((List.range (available.foldr max 0 + 1)).filter (· ∈ available)).take requested) []) := by
  unfold firstAvailable
  rw [if_neg (by omega), firstLoop_eq available requested _ 0 [] (by
    rw [filter_range_length available ha _ fun x hx => Nat.lt_succ_of_le (le_foldr_max _ _ hx)]; omega)]
  rfl

/-- **C61**. First-available allocation succeeds exactly if enough nodes are available, and then returns the
requested number of different available nodes. -/
theorem C61_first_available (requested : Nat) (available : List Nat) (ha : available.Nodup) :
    (available.length < requested ∧ firstAvailable requested available = .fail) ∨
    (requested ≤ available.length ∧ ∃ nodes, firstAvailable requested available = .ok nodes ∧ Good requested available nodes) := by
  by_cases h : available.length < requested
  · exact .inl ⟨h, by unfold firstAvailable; rw [if_pos h]⟩
  · refine .inr ⟨by omega, _, firstAvailable_ok requested available ha (by omega), ?_⟩
    have hn : (((List.range (available.foldr max 0 + 1)).filter (· ∈ available)).take requested).Nodup :=
      ((List.take_sublist _ _).trans List.filter_sublist).nodup List.nodup_range
    obtain ⟨h1, h2, h3⟩ := insAll_spec _ [] hn List.nodup_nil (fun _ _ h => by cases h)
    refine ⟨h1, ?_, fun x hx => ?_⟩
    · rw [h2, List.length_take, filter_range_length available ha _ fun x hx => Nat.lt_succ_of_le (le_foldr_max _ _ hx)]
      simp only [List.length_nil]
      omega
    · rcases (h3 x).mp hx with h | h
      · simpa using (List.mem_filter.mp (List.mem_of_mem_take h)).2
      · cases h

example : firstAvailable 3 [1, 2, 5, 9] = .ok [1, 2, 5] := by decide

/-! ### Random -/

/-- **C61**. Random allocation does the same, whatever the random numbers are. -/
theorem C61_random (v : Nat → Nat) (requested : Nat) (available : List Nat) (ha : available.Nodup) (hs : available.length < 2^32) :
    (available.length < requested ∧ random v requested available = some .fail) ∨
    (requested ≤ available.length ∧ ∃ nodes, random v requested available = some (.ok nodes) ∧ Good requested available nodes) := by
  by_cases h : available.length < requested
  · exact .inl ⟨h, by unfold random; rw [if_pos h]⟩
  · obtain ⟨av, h1, hp⟩ := Util.C64_shuffle v available hs
    refine .inr ⟨by omega, insAll (av.take requested) [], by unfold random; rw [if_neg h, h1], ?_⟩
    have hn : (av.take requested).Nodup := (List.take_sublist _ _).nodup (hp.nodup_iff.mpr ha)
    obtain ⟨h2, h3, h4⟩ := insAll_spec _ [] hn List.nodup_nil (fun _ _ h => by cases h)
    refine ⟨h2, ?_, fun x hx => ?_⟩
    · rw [h3, List.length_take, hp.length_eq]
      simp only [List.length_nil]
      omega
    · rcases (h4 x).mp hx with h | h
      · exact hp.subset (List.mem_of_mem_take h)
      · cases h

example : random (fun i => 5 * i) 2 [1, 2, 5, 9] = some (.ok [1, 5]) := by decide

/-! ### Stride -/

theorem strideLoop_spec (stride requested : Nat) (xs : List Nat) (idx : Nat) (alloc : List Nat) (hx : xs.Nodup) (ha : alloc.Nodup) (hd : ∀ x ∈ xs, x ∉ alloc) :
    (strideLoop stride requested xs idx alloc).Nodup ∧ ∀ y ∈ strideLoop stride requested xs idx alloc, y ∈ xs ∨ y ∈ alloc := by
  induction xs generalizing idx alloc with
  | nil => exact ⟨ha, fun y hy => .inr hy⟩
  | cons x xs ih =>
    rw [List.nodup_cons] at hx
    simp only [strideLoop]
    by_cases hl : alloc.length < requested
    · rw [if_pos hl]
      by_cases hs : idx % stride = 0
      · rw [if_pos hs]
        obtain ⟨h1, h2⟩ := ih (idx + 1) (ins x alloc) hx.2 (ins_nodup_length x alloc ha (hd x (List.mem_cons_self ..))).1 (fun y hy h => by
          rcases (mem_ins x y alloc).mp h with h | h
          · exact hx.1 (h ▸ hy)
          · exact hd y (List.mem_cons_of_mem _ hy) h)
        refine ⟨h1, fun y hy => ?_⟩
        rcases h2 y hy with h | h
        · exact .inl (List.mem_cons_of_mem _ h)
        · rcases (mem_ins x y alloc).mp h with h | h
          · exact .inl (h ▸ List.mem_cons_self ..)
          · exact .inr h
      · rw [if_neg hs]
        obtain ⟨h1, h2⟩ := ih (idx + 1) alloc hx.2 ha (fun y hy => hd y (List.mem_cons_of_mem _ hy))
        exact ⟨h1, fun y hy => (h2 y hy).imp (List.mem_cons_of_mem _) id⟩
    · rw [if_neg hl]
      exact ⟨ha, fun y hy => .inr hy⟩

/-- **C61**. Strided allocation fails or returns the requested number of different available nodes. -/
theorem C61_stride (stride requested : Nat) (available : List Nat) (ha : available.Nodup) :
    strideAlloc stride requested available = .fail ∨ ∃ nodes, strideAlloc stride requested available = .ok nodes ∧ Good requested available nodes := by
  obtain ⟨h1, h2⟩ := strideLoop_spec stride requested available 0 [] ha List.nodup_nil (fun _ _ h => by cases h)
  unfold strideAlloc
  simp only
  split
  · exact .inl rfl
  · next hl =>
    refine .inr ⟨_, rfl, h1, Decidable.of_not_not hl, fun x hx => (h2 x hx).resolve_right (by intro h; cases h)⟩

theorem strideLoop_enough (stride : Nat) (hs : 0 < stride) (requested : Nat) (xs : List Nat) (idx : Nat) (alloc : List Nat) (hx : xs.Nodup) (ha : alloc.Nodup)
    (hd : ∀ x ∈ xs, x ∉ alloc) (hle : alloc.length ≤ requested) :
    (strideLoop stride requested xs idx alloc).length = min requested (alloc.length + ((List.range' idx xs.length).filter (· % stride == 0)).length) := by
  induction xs generalizing idx alloc with
  | nil => simp [strideLoop]; omega
  | cons x xs ih =>
    rw [List.nodup_cons] at hx
    simp only [strideLoop]
    rw [List.length_cons, List.range'_succ, List.filter_cons]
    by_cases hl : alloc.length < requested
    · rw [if_pos hl]
      by_cases hm : idx % stride = 0
      · have hi := ins_nodup_length x alloc ha (hd x (List.mem_cons_self ..))
        rw [if_pos hm, if_pos (by simpa using hm), ih (idx + 1) (ins x alloc) hx.2 hi.1 (fun y hy h => by
          rcases (mem_ins x y alloc).mp h with h | h
          · exact hx.1 (h ▸ hy)
          · exact hd y (List.mem_cons_of_mem _ hy) h) (by rw [hi.2]; omega), hi.2, List.length_cons]
        omega
      · rw [if_neg hm, if_neg (by simpa using hm), ih (idx + 1) alloc hx.2 ha (fun y hy => hd y (List.mem_cons_of_mem _ hy)) hle]
    · rw [if_neg hl]; omega

/-- **C61**. Strided allocation succeeds exactly if enough of the available nodes are at multiples of the
stride. -/
theorem C61_stride_iff (stride : Nat) (hs : 0 < stride) (requested : Nat) (available : List Nat) (ha : available.Nodup) :
    strideAlloc stride requested available ≠ .fail ↔ requested ≤ ((List.range available.length).filter (· % stride == 0)).length := by
  have h := strideLoop_enough stride hs requested available 0 [] ha List.nodup_nil (fun _ _ h => by cases h) (Nat.zero_le _)
  rw [← List.range_eq_range', List.length_nil, Nat.zero_add] at h
  unfold strideAlloc
  simp only
  split
  · next hne => exact ⟨fun h' => absurd rfl h', fun hle => absurd (h.trans (Nat.min_eq_left hle)) hne⟩
  · next heq =>
    have heq := Decidable.of_not_not heq
    exact ⟨fun _ => by omega, fun _ h' => by cases h'⟩

example : strideAlloc 2 2 [1, 2, 5, 9] = .ok [1, 5] ∧ strideAlloc 2 3 [1, 2, 5, 9] = .fail := by decide

/-! ### Greedy dragonfly -/

theorem groupLoop_spec (available : List Nat) (nids : List Nat) (left : Int) (s : List Nat) (hn : nids.Nodup) (hs : s.Nodup) (hd : ∀ x ∈ nids, x ∉ s) :
    (groupLoop available nids left s).2.Nodup ∧ ((groupLoop available nids left s).2.length : Int) + (groupLoop available nids left s).1 = s.length + left ∧
    ∀ y ∈ (groupLoop available nids left s).2, (y ∈ nids ∧ y ∈ available) ∨ y ∈ s := by
  induction nids generalizing left s with
  | nil => exact ⟨hs, rfl, fun y hy => .inr hy⟩
  | cons x nids ih =>
    rw [List.nodup_cons] at hn
    simp only [groupLoop]
    by_cases hm : x ∈ available
    · have hi := ins_nodup_length x s hs (hd x (List.mem_cons_self ..))
      rw [if_pos hm]
      split
      · refine ⟨hi.1, ?_, fun y hy => ?_⟩
        · show ((ins x s).length : Int) + (left - 1) = _
          rw [hi.2]; omega
        · rcases (mem_ins x y s).mp hy with h | h
          · exact .inl ⟨h ▸ List.mem_cons_self .., h ▸ hm⟩
          · exact .inr h
      · obtain ⟨h1, h2, h3⟩ := ih (left - 1) (ins x s) hn.2 hi.1 (fun y hy h => by
          rcases (mem_ins x y s).mp h with h | h
          · exact hn.1 (h ▸ hy)
          · exact hd y (List.mem_cons_of_mem _ hy) h)
        refine ⟨h1, by rw [h2, hi.2]; omega, fun y hy => ?_⟩
        rcases h3 y hy with h | h
        · exact .inl ⟨List.mem_cons_of_mem _ h.1, h.2⟩
        · rcases (mem_ins x y s).mp h with h | h
          · exact .inl ⟨h ▸ List.mem_cons_self .., h ▸ hm⟩
          · exact .inr h
    · rw [if_neg hm]
      obtain ⟨h1, h2, h3⟩ := ih left s hn.2 hs (fun y hy => hd y (List.mem_cons_of_mem _ hy))
      exact ⟨h1, h2, fun y hy => (h3 y hy).imp (fun h => ⟨List.mem_cons_of_mem _ h.1, h.2⟩) id⟩

theorem greedyLoop_spec (available : List Nat) (perGroup : Nat) (grps : List (List Nat)) (remaining : Nat) (alloc : List Nat)
    (hn : grps.flatten.Nodup) (ha : alloc.Nodup) (hd : ∀ x ∈ grps.flatten, x ∉ alloc) (hf : ∀ x ∈ alloc, x ∈ available) :
    (greedyLoop available perGroup grps remaining alloc).2.Nodup ∧
    (greedyLoop available perGroup grps remaining alloc).2.length + (greedyLoop available perGroup grps remaining alloc).1 = alloc.length + remaining ∧
    ∀ y ∈ (greedyLoop available perGroup grps remaining alloc).2, y ∈ available := by
  induction grps generalizing remaining alloc with
  | nil => exact ⟨ha, rfl, hf⟩
  | cons g grps ih =>
    rw [List.flatten_cons, List.nodup_append] at hn
    rw [List.flatten_cons] at hd
    obtain ⟨h1, h2, h3⟩ := groupLoop_spec available g (min remaining perGroup : Nat) [] hn.1 List.nodup_nil (fun _ _ h => by cases h)
    simp only [greedyLoop]
    split
    · next h0 =>
      have hmem : ∀ y ∈ (groupLoop available g (min remaining perGroup : Nat) []).2, y ∈ g ∧ y ∈ available := fun y hy => (h3 y hy).resolve_right (by intro h; cases h)
      obtain ⟨h4, h5, h6⟩ := insAll_spec _ alloc h1 ha (fun y hy => hd y (List.mem_append_left _ (hmem y hy).1))
      rw [h0, List.length_nil] at h2
      obtain ⟨h7, h8, h9⟩ := ih (remaining - min remaining perGroup) _ hn.2.1 h4 (fun x hx h => by
        rcases (h6 x).mp h with h | h
        · exact hn.2.2 x (hmem x h).1 x hx rfl
        · exact hd x (List.mem_append_right _ hx) h) (fun x hx => by
        rcases (h6 x).mp hx with h | h
        · exact (hmem x h).2
        · exact hf x h)
      refine ⟨h7, ?_, h9⟩
      rw [h8, h5]
      omega
    · exact ih remaining alloc hn.2.1 ha (fun x hx => hd x (List.mem_append_right _ hx)) hf

theorem range'_map_add (n s k : Nat) : (List.range' s n).map (k + ·) = List.range' (k + s) n := by
  induction n generalizing s with
  | zero => rfl
  | succ n ih => rw [List.range'_succ, List.map_cons, ih, List.range'_succ]; rfl

theorem blocks_range (n c s : Nat) : ((List.range n).flatMap fun a => (List.range c).map fun x => s + a * c + x) = List.range' s (n * c) := by
  induction n with
  | zero => rw [Nat.zero_mul]; rfl
  | succ n ih =>
    rw [List.range_succ, List.flatMap_append, ih, List.flatMap_cons, List.flatMap_nil, List.append_nil, Nat.succ_mul, ← List.range'_append_1, List.range_eq_range', range'_map_add, Nat.add_zero]

theorem groupNids_eq (na conc g : Nat) : groupNids na conc g = List.range' (g * (na * conc)) (na * conc) := by
  rw [← blocks_range]
  unfold groupNids
  congr 1
  funext a
  congr 1
  funext c
  rw [Nat.add_mul, Nat.mul_assoc]

theorem groups_nodup (ng na conc : Nat) : ((List.range ng).map (groupNids na conc)).flatten.Nodup := by
  have h : ((List.range ng).map (groupNids na conc)).flatten = List.range' 0 (ng * (na * conc)) := by
    rw [← blocks_range ng (na * conc) 0, List.flatMap_def]
    congr 1
    apply List.map_congr_left
    intro g _
    rw [groupNids_eq, List.range_eq_range', range'_map_add, Nat.add_zero, Nat.zero_add]
  rw [h]
  exact List.nodup_range'

/-- **C61**. Greedy dragonfly allocation fails or returns the requested number of different available nodes. -/
theorem C61_greedy_dfly (numGroups ng na conc nnode : Nat) (available : List Nat) :
    greedyDfly numGroups ng na conc nnode available = .fail ∨ ∃ nodes, greedyDfly numGroups ng na conc nnode available = .ok nodes ∧ Good nnode available nodes := by
  unfold greedyDfly
  generalize (if nnode % numGroups = 0 then nnode / numGroups else nnode / numGroups + 1) = pg
  simp only
  obtain ⟨h1, h2, h3⟩ := greedyLoop_spec available pg ((List.range ng).map (groupNids na conc)) nnode []
    (groups_nodup ng na conc) List.nodup_nil (fun _ _ h => by cases h) (fun _ h => by cases h)
  split
  · exact .inl rfl
  · next hr =>
    rw [List.length_nil] at h2
    exact .inr ⟨_, rfl, h1, by omega, h3⟩

example : greedyDfly 2 3 2 2 4 [1, 4, 5, 6, 7, 8, 11] = .ok [4, 5, 8, 11] := by decide

/-! ### Allocators that break the rule -/

/-- **C61** (refuted). Allocation from a file with a repeated node number reports success with too few nodes. -/
theorem C61_node_id_refuted : nodeIdAlloc [4, 4] 2 [1, 2, 4] = .ok [4] := by decide

/-- **C61** (refuted). Automatic Cartesian allocation of eight nodes as a 2x2x2 grid names only two
different nodes. -/
theorem C61_cart_refuted : ∃ cs, cartLoop 2 2 2 = some cs ∧ cs.length = 8 ∧ cs.eraseDups.length = 2 :=
  ⟨_, rfl, by decide, by decide⟩

/-- **C61** (refuted). With four nodes along a line the automatic Cartesian allocation writes outside its
vector of coordinates. -/
theorem C61_cart_bounds_refuted : cartLoop 1 4 1 = none := by decide

end SST.Launch
