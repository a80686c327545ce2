import Verif.Coll.Bcast
import Verif.Coll.ActsNodup
import Verif.Coll.AllgatherProps
/-!
C31: a broadcast gives every rank the root's data with one message per non-root rank.
-/
set_option autoImplicit false
namespace SST.Coll.Bcast
open SST.Coll

variable {V : Type}

/-! ### The search loop -/

/-- In a window `[start, start + 2^(k+1))` that contains `o` inside, the search ends at the
point where `o` is the middle. -/
theorem search_spec (o : Nat) : ∀ fuel k start, k < fuel → start < o → o < start + 2 ^ (k + 1) →
    2 ^ (k + 1) ∣ start →
    ∃ j, j ≤ k ∧ (search o fuel start (2 ^ k)).2 = 2 ^ j ∧ o = (search o fuel start (2 ^ k)).1 + 2 ^ j ∧
      2 ^ (j + 1) ∣ (search o fuel start (2 ^ k)).1 := by
  intro fuel
  induction fuel with
  | zero => intro k start h; omega
  | succ fuel ih =>
    intro k start hf h1 h2 h3
    have hpos := Nat.two_pow_pos k
    rw [Nat.pow_succ] at h2
    unfold search
    by_cases he : o = start + 2 ^ k
    · rw [if_neg (by omega)]
      exact ⟨k, Nat.le_refl _, rfl, he, h3⟩
    · rw [if_pos ⟨hpos, he⟩]
      cases k with
      | zero => simp at he h2; omega
      | succ k =>
        have hdiv : 2 ^ (k + 1) / 2 = 2 ^ k := by rw [Nat.pow_succ]; omega
        rw [hdiv]
        split
        · obtain ⟨j, hj, r⟩ := ih k (start + 2 ^ (k + 1)) (by omega) (by omega) (by omega)
            (Nat.dvd_add (Nat.dvd_trans (Nat.pow_dvd_pow 2 (by omega)) h3) (Nat.dvd_refl _))
          exact ⟨j, by omega, r⟩
        · obtain ⟨j, hj, r⟩ := ih k start (by omega) h1 (by omega)
            (Nat.dvd_trans (Nat.pow_dvd_pow 2 (by omega)) h3)
          exact ⟨j, by omega, r⟩

theorem pow_gt (k : Nat) : k < 2 ^ k := Nat.lt_two_pow_self

/-- The parent of offset `o` is `o` without its lowest set bit. -/
theorem window_spec (n o : Nat) (h0 : 0 < o) (h1 : o < n) :
    ∃ j, (window n o).2 = 2 ^ j ∧ o = (window n o).1 + 2 ^ j ∧ 2 ^ (j + 1) ∣ (window n o).1 := by
  obtain ⟨K, _, hK, _, hK2, hK3⟩ := computeTree_spec n
  cases K with
  | zero => simp at hK2; omega
  | succ K =>
    have hdiv : 2 ^ (K + 1) / 2 = 2 ^ K := by rw [Nat.pow_succ]; omega
    have hK3' : 2 ^ K < n := by simpa using hK3
    unfold window roundNproc
    rw [hK, hdiv]
    obtain ⟨j, _, h⟩ := search_spec o n K 0 (by have := pow_gt K; omega) h0 (by omega) (Nat.dvd_zero _)
    exact ⟨j, h⟩

/-- A decomposition `o = s + 2^j` with `2^(j+1) ∣ s` is unique. -/
theorem lowbit_unique {s j s' j' : Nat} (h : s + 2 ^ j = s' + 2 ^ j') (hs : 2 ^ (j + 1) ∣ s)
    (hs' : 2 ^ (j' + 1) ∣ s') : s = s' ∧ j = j' := by
  have key : ∀ {s j s' j' : Nat}, s + 2 ^ j = s' + 2 ^ j' → 2 ^ (j + 1) ∣ s → 2 ^ (j' + 1) ∣ s' → ¬ j < j' := by
    intro s j s' j' h hs hs' hlt
    have d1 : 2 ^ (j + 1) ∣ s' + 2 ^ j' := Nat.dvd_add (Nat.dvd_trans (Nat.pow_dvd_pow 2 (by omega)) hs')
      (Nat.pow_dvd_pow 2 (by omega))
    rw [← h] at d1
    have d2 : 2 ^ (j + 1) ∣ 2 ^ j := (Nat.dvd_add_right hs).mp d1
    have := Nat.le_of_dvd (Nat.two_pow_pos j) d2
    rw [Nat.pow_succ] at this
    have := Nat.two_pow_pos j
    omega
  have hj : j = j' := by
    have a := key h hs hs'
    have b := key h.symm hs' hs
    omega
  subst hj
  exact ⟨by omega, rfl⟩

theorem window_eq (n o s j : Nat) (h1 : o < n) (ho : o = s + 2 ^ j) (hs : 2 ^ (j + 1) ∣ s) :
    window n o = (s, 2 ^ j) := by
  have hpos := Nat.two_pow_pos j
  obtain ⟨j', h2, h3, h4⟩ := window_spec n o (by omega) h1
  rw [h3] at ho
  obtain ⟨e1, e2⟩ := lowbit_unique ho h4 hs
  rw [← e1, ← e2, ← h2]

theorem mem_strides : ∀ fuel k x, k < fuel → (x ∈ strides fuel (2 ^ k) ↔ ∃ j, j ≤ k ∧ x = 2 ^ j) := by
  intro fuel
  induction fuel with
  | zero => intro k x h; omega
  | succ fuel ih =>
    intro k x hf
    have hpos := Nat.two_pow_pos k
    unfold strides
    rw [if_pos hpos, List.mem_cons]
    cases k with
    | zero =>
      have : strides fuel (2 ^ 0 / 2) = [] := by
        cases fuel with
        | zero => rfl
        | succ f => simp [strides]
      rw [this]
      constructor
      · rintro (h | h)
        · exact ⟨0, Nat.le_refl _, h⟩
        · simp at h
      · rintro ⟨j, hj, h⟩
        have : j = 0 := by omega
        subst this
        exact Or.inl h
    | succ k =>
      have hdiv : 2 ^ (k + 1) / 2 = 2 ^ k := by rw [Nat.pow_succ]; omega
      rw [hdiv, ih k x (by omega)]
      constructor
      · rintro (h | ⟨j, hj, h⟩)
        · exact ⟨k + 1, Nat.le_refl _, h⟩
        · exact ⟨j, by omega, h⟩
      · rintro ⟨j, hj, h⟩
        by_cases hjk : j = k + 1
        · subst hjk; exact Or.inl h
        · exact Or.inr ⟨j, by omega, h⟩

/-! ### Offsets -/

theorem offset_lt (n root me : Nat) (hn : 0 < n) : offset n root me < n := Nat.mod_lt _ hn

theorem offset_rank (n root o : Nat) (hr : root < n) (ho : o < n) : offset n root ((o + root) % n) = o := by
  unfold offset
  exact Allgather.mod_shift' ho (by omega)

theorem rank_offset (n root me : Nat) (hr : root < n) (hm : me < n) : (offset n root me + root) % n = me := by
  unfold offset
  exact Allgather.mod_shift hm (by omega)

theorem offset_zero (n root me : Nat) (hr : root < n) (hm : me < n) : offset n root me = 0 ↔ me = root := by
  constructor
  · intro h
    have := rank_offset n root me hr hm
    rw [h, Nat.zero_add, Nat.mod_eq_of_lt hr] at this
    exact this.symm
  · intro h
    subst h
    have := offset_rank n me 0 hr (by omega)
    rw [Nat.zero_add, Nat.mod_eq_of_lt hr] at this
    exact this

/-- Sending to `q` and receiving from `p` are the same relation. -/
theorem target_iff (n root p q : Nat) (hr : root < n) (hp : p < n) (hq : q < n) :
    q ∈ targets n root p ↔ q ≠ root ∧ p = parent n root q := by
  have hop := offset_lt n root p (by omega)
  have hoq := offset_lt n root q (by omega)
  -- in terms of offsets
  have goalQ : (q ≠ root ∧ p = parent n root q) ↔
      (offset n root q ≠ 0 ∧ (window n (offset n root q)).1 = offset n root p) := by
    constructor
    · rintro ⟨h1, h2⟩
      have h0 : offset n root q ≠ 0 := fun h => h1 ((offset_zero n root q hr hq).mp h)
      refine ⟨h0, ?_⟩
      obtain ⟨j, _, h3, _⟩ := window_spec n _ (by omega) hoq
      have := Nat.two_pow_pos j
      rw [h2]
      unfold parent
      rw [offset_rank n root _ hr (by omega)]
    · rintro ⟨h1, h2⟩
      refine ⟨fun h => h1 ((offset_zero n root q hr hq).mpr h), ?_⟩
      unfold parent
      rw [h2, rank_offset n root p hr hp]
  rw [goalQ]
  obtain ⟨K, _, hK, _, hK2, hK3⟩ := computeTree_spec n
  have hKn : K < n ∨ n = 1 ∧ K = 0 ∨ K < n := by
    rcases hK3 with h | h
    · omega
    · cases K with
      | zero => omega
      | succ K => simp at h; have := pow_gt K; omega
  unfold targets
  by_cases hpr : p = root
  · -- the root
    rw [if_pos hpr]
    have hop0 : offset n root p = 0 := (offset_zero n root p hr hp).mpr hpr
    rw [hop0]
    simp only [List.mem_map, List.mem_filter, decide_eq_true_eq]
    cases K with
    | zero =>
      have hn1 : n = 1 := by simp at hK2; omega
      subst hn1
      constructor
      · rintro ⟨gap, ⟨hg, _⟩, _⟩
        simp [roundNproc, hK, strides] at hg
      · rintro ⟨h1, _⟩
        omega
    | succ K =>
      have hK3' : 2 ^ K < n := by simpa using hK3
      have hdiv : roundNproc n / 2 = 2 ^ K := by unfold roundNproc; rw [hK, Nat.pow_succ]; omega
      rw [hdiv]
      constructor
      · rintro ⟨gap, ⟨hg, hgn⟩, hgq⟩
        obtain ⟨j, hj, rfl⟩ := (mem_strides n K gap (by have := pow_gt K; omega)).mp hg
        have hpos := Nat.two_pow_pos j
        have : offset n root q = 2 ^ j := by
          rw [← hgq, Nat.add_comm, offset_rank n root _ hr hgn]
        rw [this, window_eq n (2 ^ j) 0 j (by omega) (by omega) (Nat.dvd_zero _)]
        exact ⟨by omega, rfl⟩
      · rintro ⟨h1, h2⟩
        obtain ⟨j, _, h4, _⟩ := window_spec n _ (by omega) hoq
        rw [h2, Nat.zero_add] at h4
        refine ⟨2 ^ j, ⟨?_, by omega⟩, ?_⟩
        · rw [mem_strides n K _ (by have := pow_gt K; omega)]
          refine ⟨j, ?_, rfl⟩
          refine Nat.le_of_not_lt fun hlt => ?_
          have : 2 ^ (K + 1) ≤ 2 ^ j := Nat.pow_le_pow_right (by omega) hlt
          omega
        · rw [← h4, Nat.add_comm, rank_offset n root q hr hq]
  · rw [if_neg hpr]
    have hop0 : offset n root p ≠ 0 := fun h => hpr ((offset_zero n root p hr hp).mp h)
    obtain ⟨a, ha1, ha2, ha3⟩ := window_spec n _ (Nat.pos_of_ne_zero hop0) hop
    have hwin : window n (offset n root p) = ((window n (offset n root p)).1, 2 ^ a) := by rw [← ha1]
    generalize hs : (window n (offset n root p)).1 = s at *
    have hposa := Nat.two_pow_pos a
    have ha_lt : a < n := by have := pow_gt a; omega
    by_cases hodd : offset n root p % 2 = 0
    · simp only [hodd, if_true, hwin]
      simp only [List.mem_map, List.mem_filter, decide_eq_true_eq]
      constructor
      · rintro ⟨partner, ⟨⟨st, hst, rfl⟩, hlt⟩, hq'⟩
        obtain ⟨j, hj, rfl⟩ := (mem_strides n a st ha_lt).mp hst
        have hposj := Nat.two_pow_pos j
        have hja : j < a := by
          refine Nat.lt_of_not_le fun h => ?_
          have : j = a := by omega
          subst this
          omega
        have hoq' : offset n root q = offset n root p + 2 ^ j := by
          rw [← hq', offset_rank n root _ hr (by omega)]
        refine ⟨by omega, ?_⟩
        rw [hoq', window_eq n _ (offset n root p) j (by omega) rfl]
        rw [ha2]
        exact Nat.dvd_add (Nat.dvd_trans (Nat.pow_dvd_pow 2 (by omega)) ha3) (Nat.pow_dvd_pow 2 (by omega))
      · rintro ⟨h1, h2⟩
        obtain ⟨j, _, h4, h5⟩ := window_spec n _ (Nat.pos_of_ne_zero h1) hoq
        rw [h2] at h4 h5
        have hja : j < a := by
          refine Nat.lt_of_not_le fun h => ?_
          rw [ha2] at h5
          have d1 : 2 ^ (a + 1) ∣ s + 2 ^ a := Nat.dvd_trans (Nat.pow_dvd_pow 2 (by omega)) h5
          have d2 := (Nat.dvd_add_right ha3).mp d1
          have := Nat.le_of_dvd hposa d2
          rw [Nat.pow_succ] at this
          omega
        have hlt2 : 2 ^ j < 2 ^ a := Nat.pow_lt_pow_right (by omega) hja
        refine ⟨offset n root p + 2 ^ j, ⟨⟨2 ^ j, ?_, rfl⟩, by omega⟩, ?_⟩
        · rw [mem_strides n a _ ha_lt]
          exact ⟨j, by omega, rfl⟩
        · rw [← h4, rank_offset n root q hr hq]
    · rw [if_neg hodd]
      simp only [List.not_mem_nil, false_iff]
      rintro ⟨h1, h2⟩
      obtain ⟨j, _, _, h5⟩ := window_spec n _ (Nat.pos_of_ne_zero h1) hoq
      rw [h2] at h5
      have : 2 ∣ offset n root p := Nat.dvd_trans (Nat.dvd_of_mod_eq_zero (by rw [Nat.pow_succ]; omega)) h5
      omega

/-! ### Depth -/

theorem depth_fuel (n : Nat) : ∀ o, o < n → ∀ f f', o ≤ f → o ≤ f' → depth n f o = depth n f' o := by
  intro o
  induction o using Nat.strongRecOn with
  | ind o ih =>
    intro ho f f' hf hf'
    by_cases h0 : o = 0
    · subst h0
      cases f <;> cases f' <;> simp [depth]
    · obtain ⟨g, rfl⟩ : ∃ g, f = g + 1 := ⟨f - 1, by omega⟩
      obtain ⟨g', rfl⟩ : ∃ g', f' = g' + 1 := ⟨f' - 1, by omega⟩
      obtain ⟨j, _, h3, _⟩ := window_spec n o (by omega) ho
      have := Nat.two_pow_pos j
      simp only [depth, if_neg h0]
      rw [ih _ (by omega) (by omega) g g' (by omega) (by omega)]

theorem depth_succ (n o : Nat) (h0 : o ≠ 0) (ho : o < n) : depth n n o = depth n n (window n o).1 + 1 := by
  obtain ⟨m, rfl⟩ : ∃ m, n = m + 1 := ⟨n - 1, by omega⟩
  obtain ⟨j, _, h3, _⟩ := window_spec (m + 1) o (by omega) ho
  have := Nat.two_pow_pos j
  conv => lhs; unfold depth
  rw [if_neg h0, depth_fuel (m + 1) _ (by omega) m (m + 1) (by omega) (by omega)]

theorem depth_le (n o : Nat) (ho : o < n) : depth n n o ≤ o := by
  induction o using Nat.strongRecOn with
  | ind o ih =>
    by_cases h0 : o = 0
    · subst h0
      cases n <;> simp [depth]
    · obtain ⟨j, _, h3, _⟩ := window_spec n o (by omega) ho
      have := Nat.two_pow_pos j
      rw [depth_succ n o h0 ho]
      have := ih (window n o).1 (by omega) (by omega)
      omega

theorem parent_lt (n root q : Nat) (hn : 0 < n) : parent n root q < n := Nat.mod_lt _ hn

theorem depth_parent (n root q : Nat) (hr : root < n) (hq : q < n) (hne : q ≠ root) :
    depth n n (offset n root q) = depth n n (offset n root (parent n root q)) + 1 := by
  have hoq := offset_lt n root q (by omega)
  have h0 : offset n root q ≠ 0 := fun h => hne ((offset_zero n root q hr hq).mp h)
  obtain ⟨j, _, h3, _⟩ := window_spec n _ (by omega) hoq
  have := Nat.two_pow_pos j
  rw [depth_succ n _ h0 hoq]
  unfold parent
  rw [offset_rank n root _ hr (by omega)]

theorem bcast_ok (n root e : Nat) (hr : root < n) : (bcast (V := V) n root e).Ok := by
  have hsend : ∀ p i q x, p < n → q < n → (bcast (V := V) n root e).send p i q = some x →
      i = depth n n (offset n root p) ∧ q ≠ root ∧ p = parent n root q ∧ x = { buf := 0, off := 0, len := e } := by
    intro p i q x hp hq h
    simp only [bcast] at h
    split at h
    · rename_i hc
      have := (target_iff n root p q hr hp hq).mp hc.2
      simp only [Option.some.injEq] at h
      exact ⟨hc.1, this.1, this.2, h.symm⟩
    · simp at h
  have hrecv : ∀ p i q x, (bcast (V := V) n root e).recv p i q = some x →
      p ≠ root ∧ i + 1 = depth n n (offset n root p) ∧ q = parent n root p ∧ x = { buf := 0, off := 0, len := e } := by
    intro p i q x h
    simp only [bcast] at h
    split at h
    · rename_i hc
      simp only [Option.some.injEq] at h
      exact ⟨hc.1, hc.2.1, hc.2.2, h.symm⟩
    · simp at h
  refine ⟨?_, ?_, ?_, ?_, ?_, ?_, ?_⟩
  · intro p i q x hp hi hq h
    obtain ⟨h1, h2, h3, h4⟩ := hsend p i q x hp hq h
    refine ⟨{ buf := 0, off := 0, len := e }, ?_, by rw [h4]⟩
    simp only [bcast]
    rw [if_pos]
    refine ⟨h2, ?_, h3⟩
    rw [depth_parent n root q hr hq h2, ← h3, h1]
  · intro p i q y hp hi hq h
    obtain ⟨h1, h2, h3, _⟩ := hrecv q i p y h
    refine ⟨{ buf := 0, off := 0, len := e }, ?_⟩
    simp only [bcast]
    rw [if_pos]
    refine ⟨?_, (target_iff n root p q hr hp hq).mpr ⟨h1, h3⟩⟩
    rw [depth_parent n root q hr hq h1, ← h3] at h2
    omega
  · intro p i q x _ _ _ _; rfl
  · intro p i q p' i' q' x x' hp hi hq hp' hi' hq' h h' h1 h2 _
    simp only [bcast, id_eq] at h1 h2
    subst h1
    subst h2
    obtain ⟨_, e1, _, _⟩ := hrecv p i q x h
    obtain ⟨_, e2, _, _⟩ := hrecv p i' q x' h'
    exact ⟨rfl, by omega, rfl⟩
  · apply Rounds.sep_of_inj
    intro p q _ _ h
    exact h
  · intro a b l ha hb hab hp hi hw hu
    obtain ⟨hap, _, haq, _⟩ := Rounds.mem_acts.mp ha
    obtain ⟨_, _, hbq, _⟩ := Rounds.mem_acts.mp hb
    obtain ⟨p, i, k, q⟩ := a
    obtain ⟨p', i', k', q'⟩ := b
    simp only at hp hi
    subst hp
    subst hi
    cases k with
    | send => simp [Rounds.writesB] at hw
    | loc => simp [Rounds.writesB, bcast] at hw
    | recv =>
      simp only [Rounds.writesB] at hw
      cases hy : (bcast (V := V) n root e).recv p i q with
      | none => rw [hy] at hw; simp at hw
      | some y =>
        obtain ⟨_, e1, e2, _⟩ := hrecv p i q y hy
        cases k' with
        | loc => simp [Rounds.writesB, Rounds.touchB, bcast] at hu
        | recv =>
          simp only [Rounds.writesB, Rounds.touchB, or_self] at hu
          cases hy' : (bcast (V := V) n root e).recv p i q' with
          | none => rw [hy'] at hu; simp at hu
          | some y' =>
            obtain ⟨_, _, e3, _⟩ := hrecv p i q' y' hy'
            apply hab
            rw [e2, e3]
        | send =>
          simp only [Rounds.writesB, Rounds.touchB, Bool.false_eq_true, false_or] at hu
          cases hx : (bcast (V := V) n root e).send p i q' with
          | none => rw [hx] at hu; simp at hu
          | some x =>
            obtain ⟨f1, _, _, _⟩ := hsend p i q' x hap hbq hx
            omega
  · intro p i o M M' b x h
    simp [bcast] at h

theorem bcast_sync (n root e : Nat) (hr : root < n) (buf : Nat → Nat → V) (i : Nat) (hi : i ≤ n) :
    ∀ p x, p < n → x < e → depth n n (offset n root p) ≤ i →
      (bcast n root e).sync (bcastInit buf) i (p, 0, x) = buf root x := by
  induction i with
  | zero =>
    intro p x hp hx hd
    have : p = root := by
      refine Classical.byContradiction fun hne => ?_
      have := depth_parent n root p hr hp hne
      omega
    subst this
    rfl
  | succ i ih =>
    intro p x hp hx hd
    have ih' := ih (by omega)
    by_cases hdi : depth n n (offset n root p) ≤ i
    · rw [Rounds.sync_keep', ih' p x hp hx hdi]
      · intro q _ h; exact h
      · intro q y _ hy
        simp only [bcast] at hy
        split at hy
        · rename_i hc; omega
        · simp at hy
      · intro o ho; simp [bcast] at ho
    · have hne : p ≠ root := by
        intro e
        subst e
        have := (offset_zero n p p hr hr).mpr rfl
        rw [this] at hdi
        have := depth_le n 0 (by omega)
        omega
      have hpar := depth_parent n root p hr hp hne
      have hql := parent_lt n root p (by omega)
      have hsend : (bcast (V := V) n root e).send (parent n root p) i p = some { buf := 0, off := 0, len := e } := by
        simp only [bcast]
        rw [if_pos]
        exact ⟨by omega, (target_iff n root _ p hr hql hp).mpr ⟨hne, rfl⟩⟩
      have hrecv : (bcast (V := V) n root e).recv p i (parent n root p) = some { buf := 0, off := 0, len := e } := by
        simp only [bcast]
        rw [if_pos]
        exact ⟨hne, by omega, trivial⟩
      have := Rounds.sync_recv (bcast_ok n root e hr) (bcastInit buf) (p := p) (i := i) (q := parent n root p)
        hp (by simp only [bcast]; omega) hql hsend hrecv x hx
      simp only [Nat.zero_add, Bool.false_eq_true, if_false] at this
      refine Eq.trans this ?_
      exact ih' (parent n root p) x hql hx (by omega)

/-- C31: whatever the order and delay of messages, the broadcast ends on all ranks, all
messages are consumed, and every rank's buffer holds the root's data. -/
theorem C31_bcast (n root e : Nat) (hr : root < n) (buf : Nat → Nat → V) :
    Yields (bcast n root e).sys (bcastInit buf)
      (fun mem => ∀ p x, p < n → x < e → mem (p, 0, x) = buf root x) := by
  apply Rounds.ends (bcast_ok n root e hr)
  intro p x hp hx
  refine bcast_sync n root e hr buf n (Nat.le_refl _) p x hp hx ?_
  have h1 := offset_lt n root p (by omega)
  have := depth_le n _ h1
  omega

/-- C31: a rank other than the root is sent exactly one message, from a different rank; the
root is sent none. -/
theorem C31_one_message (n root e : Nat) (hr : root < n) (q : Nat) (hq : q < n) :
    (q ≠ root → ∃ a ∈ (bcast (V := V) n root e).acts, a.k = .send ∧ a.q = q ∧ a.p ≠ q ∧
      ∀ b ∈ (bcast (V := V) n root e).acts, b.k = .send → b.q = q → b = a) ∧
    (q = root → ∀ a ∈ (bcast (V := V) n root e).acts, a.k = .send → a.q ≠ q) := by
  have hs : ∀ a ∈ (bcast (V := V) n root e).acts, a.k = .send →
      a.i = depth n n (offset n root a.p) ∧ a.q ≠ root ∧ a.p = parent n root a.q := by
    intro a ha hk
    obtain ⟨hp, _, hq', hh⟩ := Rounds.mem_acts.mp ha
    simp only [Rounds.has, hk, bcast] at hh
    split at hh
    · rename_i hc
      have := (target_iff n root a.p a.q hr hp hq').mp hc.2
      exact ⟨hc.1, this.1, this.2⟩
    · simp at hh
  constructor
  · intro hne
    have hpl := parent_lt n root q (by omega)
    have hd := depth_parent n root q hr hq hne
    have hol := offset_lt n root (parent n root q) (by omega)
    have hdl := depth_le n _ hol
    refine ⟨⟨parent n root q, depth n n (offset n root (parent n root q)), .send, q⟩, ?_, rfl, rfl, ?_, ?_⟩
    · rw [Rounds.mem_acts]
      refine ⟨hpl, ?_, hq, ?_⟩
      · show _ < n
        simp only
        omega
      · simp only [Rounds.has, bcast]
        rw [if_pos]
        · rfl
        · exact ⟨trivial, (target_iff n root _ q hr hpl hq).mpr ⟨hne, rfl⟩⟩
    · intro h
      simp only at h
      rw [h] at hd
      omega
    · intro b hb hbk hbq
      obtain ⟨h1, h2, h3⟩ := hs b hb hbk
      obtain ⟨p, i, k, q'⟩ := b
      simp only at hbk hbq h1 h3
      subst hbk
      subst hbq
      subst h3
      rw [h1]
  · intro he a ha hk haq
    exact (hs a ha hk).2.1 (haq.trans he)

/-- The destinations of the messages are the ranks other than the root, each once: there are
`n - 1` messages. -/
theorem C31_message_count (n root e : Nat) (hr : root < n) :
    (((bcast (V := V) n root e).acts.filter (fun a => a.k == .send)).length = n - 1) := by
  have hnd : (bcast (V := V) n root e).acts.Nodup := Rounds.acts_nodup _
  have hnd2 : (((bcast (V := V) n root e).acts.filter (fun a => a.k == .send)).map Act.q).Nodup := by
    rw [List.nodup_map_iff_inj_on (hnd.filter _)]
    intro a ha b hb hab
    simp only [List.mem_filter, beq_iff_eq] at ha hb
    have hq := (Rounds.mem_acts.mp ha.1).2.2.1
    obtain ⟨h1, h2⟩ := C31_one_message (V := V) n root e hr a.q hq
    by_cases hne : a.q = root
    · exact absurd rfl (h2 hne a ha.1 ha.2)
    · obtain ⟨c, _, _, _, _, huniq⟩ := h1 hne
      rw [huniq a ha.1 ha.2 rfl, huniq b hb.1 hb.2 hab.symm]
  have hperm : (((bcast (V := V) n root e).acts.filter (fun a => a.k == .send)).map Act.q).Perm
      ((List.range n).erase root) := by
    rw [List.perm_ext_iff_of_nodup hnd2 ((List.nodup_range).erase _)]
    intro q
    rw [List.mem_map, List.Nodup.mem_erase_iff List.nodup_range, List.mem_range]
    constructor
    · rintro ⟨a, ha, rfl⟩
      simp only [List.mem_filter, beq_iff_eq] at ha
      have hq := (Rounds.mem_acts.mp ha.1).2.2.1
      exact ⟨fun h => (C31_one_message (V := V) n root e hr a.q hq).2 h a ha.1 ha.2 rfl, hq⟩
    · rintro ⟨hne, hq⟩
      obtain ⟨a, ha, hk, haq, _⟩ := (C31_one_message (V := V) n root e hr q hq).1 hne
      exact ⟨a, by simp [ha, hk], haq⟩
  have := hperm.length_eq
  rw [List.length_map] at this
  rw [this, List.length_erase_of_mem (List.mem_range.mpr hr), List.length_range]

/-- Six ranks, root 2. -/
example : (List.range 6).map (targets 6 2) = [[1], [], [0, 4, 3], [], [5], []] ∧
    ((bcast (V := Nat) 6 2 3).acts.filter (fun a => a.k == .send)).length = 5 ∧
    (let mem := (bcast 6 2 3).sync (bcastInit (fun p x => 10 * p + x)) 6
     (List.range 6).map (fun p => (List.range 3).map (fun x => mem (p, 0, x)))) =
    List.replicate 6 [20, 21, 22] := by
  decide +kernel

end SST.Coll.Bcast
