import Verif.Stats.Ftq
/-
C65.
-/
set_option autoImplicit false
namespace SST.Stats

/-- Specification. The part of an event that lies in an epoch. -/
def overlap (tpe : Nat) (e : Ev) (epoch : Nat) : Nat := min (e.start + e.length) ((epoch + 1) * tpe) - max e.start (epoch * tpe)

/-- What a list of amounts gives to position `k`. -/
def given (k : Nat) (cs : List (Nat × Nat)) : Nat := ((cs.filter (·.1 == k)).map (·.2)).sum

theorem given_nil (k : Nat) : given k [] = 0 := rfl

theorem given_cons (k : Nat) (c : Nat × Nat) (cs : List (Nat × Nat)) : given k (c :: cs) = (if c.1 = k then c.2 else 0) + given k cs := by
  unfold given
  rw [List.filter_cons]
  by_cases h : c.1 = k
  · rw [if_pos (by simpa using h), if_pos h, List.map_cons, List.sum_cons]
  · rw [if_neg (by simpa using h), if_neg h, Nat.zero_add]

theorem given_append (k : Nat) (cs ds : List (Nat × Nat)) : given k (cs ++ ds) = given k cs + given k ds := by
  induction cs with
  | nil => rw [List.nil_append, given_nil, Nat.zero_add]
  | cons c cs ih => rw [List.cons_append, given_cons, given_cons, ih, Nat.add_assoc]

theorem given_range (k p n v : Nat) : given k ((List.range' p n).map fun ep => (ep, v)) = if p ≤ k ∧ k < p + n then v else 0 := by
  induction n generalizing p with
  | zero => rw [if_neg (by omega)]; rfl
  | succ n ih =>
    rw [List.range'_succ, List.map_cons, given_cons, ih]
    simp only
    by_cases h : p = k
    · rw [if_pos h, if_neg (by omega), if_pos (by omega)]
      rfl
    · rw [if_neg h, Nat.zero_add]
      by_cases h' : p + 1 ≤ k ∧ k < p + 1 + n
      · rw [if_pos h', if_pos (by omega)]
      · rw [if_neg h', if_neg (by omega)]

/-- **C65**. An event gives every epoch exactly the time it spends in it. -/
theorem C65_credit (tpe : Nat) (ht : 0 < tpe) (e : Ev) (epoch : Nat) : given epoch (credits tpe 1 e) = overlap tpe e epoch := by
  unfold credits overlap
  simp only
  generalize hstop : e.start + e.length = stop
  have e1 := Nat.div_add_mod e.start tpe
  have e2 := Nat.div_add_mod stop tpe
  have m1 := Nat.mod_lt e.start ht
  have m2 := Nat.mod_lt stop ht
  have hmono : e.start / tpe ≤ stop / tpe := Nat.div_le_div_right (by omega)
  rw [Nat.mul_comm] at e1 e2
  generalize e.start / tpe = s at *
  generalize stop / tpe = t at *
  have mul_lt : ∀ a b : Nat, a < b → a * tpe + tpe ≤ b * tpe := fun a b h => by
    have := Nat.mul_le_mul_right tpe (show a + 1 ≤ b from h)
    rw [Nat.succ_mul] at this
    exact this
  rw [Nat.succ_mul, Nat.succ_mul]
  by_cases hst : s = t
  · rw [if_pos hst, given_cons, given_nil]
    subst hst
    simp only
    rcases Nat.lt_trichotomy epoch s with h | h | h
    · have := mul_lt _ _ h
      rw [if_neg (by omega)]; omega
    · subst h
      rw [if_pos rfl]; omega
    · have := mul_lt _ _ h
      rw [if_neg (by omega)]; omega
  · rw [if_neg hst, given_cons, given_cons, given_range]
    simp only [Nat.mul_one]
    have hlt : s < t := by omega
    have hb := mul_lt _ _ hlt
    rcases Nat.lt_trichotomy epoch s with h | h | h
    · have := mul_lt _ _ h
      rw [if_neg (by omega), if_neg (by omega), if_neg (by omega)]; omega
    · subst h
      rw [if_pos rfl, if_neg (by omega), if_neg (by omega)]; omega
    · have h1 := mul_lt _ _ h
      rcases Nat.lt_trichotomy epoch t with h' | h' | h'
      · have h2 := mul_lt _ _ h'
        rw [if_neg (by omega), if_neg (by omega), if_pos (by omega)]; omega
      · subst h'
        rw [if_neg (by omega), if_pos rfl, if_neg (by omega)]; omega
      · have h2 := mul_lt _ _ h'
        rw [if_neg (by omega), if_neg (by omega), if_neg (by omega)]; omega

example : credits 10 1 ⟨0, 7, 26⟩ = [(0, 3), (3, 3), (1, 10), (2, 10)] := by decide

/-- **C65**. No epoch gets more than its length, and over enough epochs all of the event is accounted for. -/
theorem C65_total (tpe : Nat) (e : Ev) (n : Nat) (hn : e.start + e.length ≤ n * tpe) :
    (∀ epoch, overlap tpe e epoch ≤ tpe) ∧ ((List.range n).map (overlap tpe e)).sum = e.length := by
  refine ⟨fun epoch => by unfold overlap; rw [Nat.succ_mul]; omega, ?_⟩
  have key : ∀ m : Nat, ((List.range m).map (overlap tpe e)).sum = min (e.start + e.length) (m * tpe) - e.start := by
    intro m
    induction m with
    | zero => simp
    | succ m ih =>
      rw [List.range_succ, List.map_append, List.sum_append_nat, ih]
      simp only [List.map_cons, List.map_nil, List.sum_cons, List.sum_nil]
      unfold overlap
      rw [Nat.succ_mul]
      omega
  rw [key]
  omega

/-! ### The whole table -/

theorem addAll_spec (cs : List (Nat × Nat)) (t : List Nat) (h : ∀ c ∈ cs, c.1 < t.length) :
    ∃ t', addAll t cs = some t' ∧ t'.length = t.length ∧ ∀ (k x : Nat), t[k]? = some x → t'[k]? = some (x + given k cs) := by
  induction cs generalizing t with
  | nil => exact ⟨t, rfl, rfl, fun k x hx => hx⟩
  | cons c cs ih =>
    obtain ⟨i, a⟩ := c
    have hi : i < t.length := h (i, a) (List.mem_cons_self ..)
    obtain ⟨t', h1, h2, h3⟩ := ih (t.set i (t[i] + a)) (fun c hc => by rw [List.length_set]; exact h c (List.mem_cons_of_mem _ hc))
    refine ⟨t', ?_, by rw [h2, List.length_set], fun k x hx => ?_⟩
    · simp only [addAll, addTo]
      rw [List.getElem?_eq_getElem hi]
      exact h1
    · rw [given_cons]
      simp only
      by_cases hk : i = k
      · subst hk
        rw [List.getElem?_eq_getElem hi] at hx
        have hx := Option.some.inj hx
        rw [h3 i (t[i] + a) (by rw [List.getElem?_set, if_pos rfl, if_pos hi]), if_pos rfl, hx, Nat.add_assoc]
      · rw [h3 k x (by rw [List.getElem?_set, if_neg hk]; exact hx), if_neg hk, Nat.zero_add]

theorem given_column (cols c e col : Nat) (hc : c < cols) (hcol : col < cols) (cs : List (Nat × Nat)) :
    given (e * cols + c) (cs.map fun p => (p.1 * cols + col, p.2)) = if col = c then given e cs else 0 := by
  induction cs with
  | nil => rw [List.map_nil, given_nil, given_nil]; split <;> rfl
  | cons p cs ih =>
    rw [List.map_cons, given_cons, given_cons, ih]
    simp only
    have hiff : p.1 * cols + col = e * cols + c ↔ p.1 = e ∧ col = c := by
      constructor
      · intro h
        have h1 := congrArg (· / cols) h
        have h2 := congrArg (· % cols) h
        simp only [Nat.add_comm _ col, Nat.add_comm _ c, Nat.add_mul_mod_self_right, Nat.mod_eq_of_lt hc, Nat.mod_eq_of_lt hcol] at h2
        simp only [Nat.add_comm _ col, Nat.add_comm _ c, Nat.add_mul_div_right _ _ (show 0 < cols by omega), Nat.div_eq_of_lt hc, Nat.div_eq_of_lt hcol] at h1
        exact ⟨by omega, h2⟩
      · rintro ⟨rfl, rfl⟩; rfl
    by_cases hcc : col = c
    · rw [if_pos hcc, if_pos hcc]
      by_cases he : p.1 = e
      · rw [if_pos (hiff.mpr ⟨he, hcc⟩), if_pos he]
      · rw [if_neg (fun h => he (hiff.mp h).1), if_neg he]
    · rw [if_neg hcc, if_neg hcc, if_neg (fun h => hcc (hiff.mp h).2)]

theorem credits_epoch (tpe : Nat) (e : Ev) (c : Nat × Nat) (h : c ∈ credits tpe 1 e) : c.1 ≤ (e.start + e.length) / tpe := by
  unfold credits at h
  simp only at h
  have hmono : e.start / tpe ≤ (e.start + e.length) / tpe := Nat.div_le_div_right (by omega)
  split at h
  · rw [List.mem_singleton] at h; rw [h]; exact hmono
  · rcases List.mem_cons.mp h with rfl | h
    · exact hmono
    · rcases List.mem_cons.mp h with rfl | h
      · exact Nat.le_refl _
      · obtain ⟨k, hk, rfl⟩ := List.mem_map.mp h
        rw [List.mem_range'_1] at hk
        show k ≤ _
        omega

theorem given_flat (k : Nat) (events : List Ev) (f : Ev → List (Nat × Nat)) : given k (events.flatMap f) = (events.map fun e => given k (f e)).sum := by
  induction events with
  | nil => rfl
  | cons e es ih => rw [List.flatMap_cons, given_append, ih, List.map_cons, List.sum_cons]

theorem le_foldl_max (l : List Nat) (x a : Nat) : x ≤ a ∨ x ∈ l → x ≤ l.foldl Nat.max a := by
  induction l generalizing a with
  | nil => intro h; exact h.elim id (fun h => nomatch h)
  | cons y l ih =>
    intro h
    rw [List.foldl_cons]
    apply ih
    rcases h with h | h
    · exact .inl (Nat.le_trans h (Nat.le_max_left _ _))
    · rcases List.mem_cons.mp h with rfl | h
      · exact .inl (Nat.le_max_right _ _)
      · exact .inr h

/-- Specification. The calendars padded up to the last tick of all. -/
def padded (inactive : Nat) (cals : List (List Ev)) : List Ev := (cals.map (pad inactive ((cals.map maxTick).foldl Nat.max 0))).flatten

/-- **C65** (partial). If the last tick is not at the end of an epoch, and no event ends after the last one of
its calendar: the entry of an epoch and an event type is the time the events of that type spend in that epoch,
and every epoch with a part of an event is in the table. What is missing: the last tick at the end of an epoch
(`C65_bounds_refuted`), the computation of means (`C65_mean_refuted`). -/
theorem C65_dump_partial (tpe inactive : Nat) (ht : 0 < tpe) (cals : List (List Ev)) (hord : ∀ cal ∈ cals, ∀ e ∈ cal, e.start + e.length ≤ maxTick cal)
    (htype : ∀ e ∈ padded inactive cals, e.type < 31) (hrem : (cals.map maxTick).foldl Nat.max 0 % tpe ≠ 0) :
    ∃ t, dump false tpe inactive cals = some t ∧
      (∀ e ∈ padded inactive cals, e.type ∈ t.types ∧ e.start + e.length ≤ t.numEpochs * tpe) ∧
      ∀ (epoch : Nat) (c ty : Nat), epoch < t.numEpochs → t.types[c]? = some ty →
        t.counts[epoch * t.types.length + c]? = some (((padded inactive cals).map fun e => if e.type = ty then overlap tpe e epoch else 0).sum) := by
  unfold dump padded at *
  simp only at *
  generalize hM : (cals.map maxTick).foldl Nat.max 0 = M at *
  have hstop : ∀ e ∈ (cals.map (pad inactive M)).flatten, e.start + e.length ≤ M := by
    intro e he
    obtain ⟨l, hl, he⟩ := List.mem_flatten.mp he
    obtain ⟨cal, hcal, rfl⟩ := List.mem_map.mp hl
    have hle : maxTick cal ≤ M := by
      rw [← hM]
      exact le_foldl_max _ _ _ (.inr (List.mem_map.mpr ⟨cal, hcal, rfl⟩))
    have hin : e ∈ cal → e.start + e.length ≤ M := fun h => Nat.le_trans (hord cal hcal e h) hle
    unfold pad at he
    split at he
    · rcases List.mem_append.mp he with h | h
      · exact hin h
      · rw [List.mem_singleton.mp h]
        show maxTick cal + (M - maxTick cal) ≤ M
        omega
    · exact hin he
  generalize (cals.map (pad inactive M)).flatten = events at *
  rw [if_pos hrem]
  have hmt : ∀ e ∈ events, e.type ∈ (List.range 64).filter fun i => events.any (·.type == i) := by
    intro e he
    rw [List.mem_filter]
    exact ⟨List.mem_range.mpr (by have := htype e he; omega), List.any_eq_true.mpr ⟨e, he, by simp⟩⟩
  have hnd : ((List.range 64).filter fun i => events.any (·.type == i)).Nodup := List.filter_sublist.nodup List.nodup_range
  generalize (List.range 64).filter (fun i => events.any (·.type == i)) = types at *
  have hE : ∀ x, x ≤ M → x / tpe < M / tpe + 1 := fun x hx => Nat.lt_succ_of_le (Nat.div_le_div_right hx)
  have hmul : M ≤ (M / tpe + 1) * tpe := by
    have := Nat.div_add_mod M tpe
    have := Nat.mod_lt M ht
    rw [Nat.succ_mul, Nat.mul_comm]
    omega
  generalize M / tpe + 1 = E at *
  simp only [Bool.false_eq_true, if_false]
  have hcol : ∀ e ∈ events, types.idxOf e.type < types.length := fun e he => List.idxOf_lt_length_of_mem (hmt e he)
  obtain ⟨t, h1, h2, h3⟩ := addAll_spec (events.flatMap fun e => (credits tpe 1 e).map fun c => (c.1 * types.length + types.idxOf e.type, c.2))
    (List.replicate (types.length * E) 0) (fun c hc => by
      obtain ⟨e, he, hc⟩ := List.mem_flatMap.mp hc
      obtain ⟨c', hc', rfl⟩ := List.mem_map.mp hc
      rw [List.length_replicate]
      have hk := Nat.lt_of_le_of_lt (credits_epoch tpe e c' hc') (hE _ (hstop e he))
      have h4 : (c'.1 + 1) * types.length ≤ E * types.length := Nat.mul_le_mul_right _ hk
      rw [Nat.succ_mul, Nat.mul_comm E] at h4
      have := hcol e he
      show c'.1 * types.length + types.idxOf e.type < _
      omega)
  rw [h1]
  refine ⟨_, rfl, fun e he => ⟨hmt e he, Nat.le_trans (hstop e he) hmul⟩, fun epoch c ty hep hc => ?_⟩
  simp only at hep hc ⊢
  obtain ⟨hcl, hct⟩ := List.getElem?_eq_some_iff.mp hc
  have hlt : epoch * types.length + c < types.length * E := by
    have h4 : (epoch + 1) * types.length ≤ E * types.length := Nat.mul_le_mul_right _ hep
    rw [Nat.succ_mul, Nat.mul_comm E] at h4
    omega
  rw [h3 _ 0 (by rw [List.getElem?_replicate, if_pos hlt]), Nat.zero_add, given_flat]
  congr 2
  apply List.map_congr_left
  intro e he
  rw [given_column _ _ _ _ hcl (hcol e he), C65_credit tpe ht]
  have hiff : types.idxOf e.type = c ↔ e.type = ty := by
    constructor
    · intro h
      have := List.getElem_idxOf (hcol e he)
      rw [← hct, ← this]
      congr 1
    · intro h
      rw [h, ← hct]
      exact hnd.idxOf_getElem c hcl
  by_cases h : e.type = ty
  · rw [if_pos (hiff.mpr h), if_pos h]
  · rw [if_neg (fun h' => h (hiff.mp h')), if_neg h]

example : dump false 10 1 [[⟨2, 0, 7⟩, ⟨3, 7, 26⟩], [⟨2, 5, 10⟩]] = some ⟨[1, 2, 3], 4, [0, 12, 3, 5, 5, 10, 10, 0, 10, 3, 0, 3]⟩ := by decide

/-- **C65** (refuted). If the last tick is at the end of an epoch, the table is written outside its bounds. -/
theorem C65_bounds_refuted : dump false 10 1 [[⟨2, 0, 10⟩]] = none := by decide

/-- **C65** (refuted). When means are computed, an event within one epoch is not weighted with its value while
one that spans two is: the same activity of 8 ticks at value 5 counts 8 or 40. -/
theorem C65_mean_refuted : dump true 10 0 [[⟨5, 0, 8⟩]] = some ⟨[5], 1, [8]⟩ ∧ dump true 10 0 [[⟨5, 6, 8⟩]] = some ⟨[5], 2, [20, 20]⟩ := by decide

end SST.Stats
