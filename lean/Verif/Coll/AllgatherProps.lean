import Verif.Coll.Allgather
/-!
C29: after an allgather every rank holds every contribution, in rank order.
-/
set_option autoImplicit false
namespace SST.Coll.Allgather
open SST.Coll

variable {V : Type}

/-- Specification: element `x` of block `b` of the result is element `x` of rank `b`'s
contribution, on every rank. -/
def AllGathered (n m : Nat) (contrib : Nat → Nat → V) (result : Nat → Nat → V) : Prop :=
  ∀ p b x, p < n → b < n → x < m → result p (b * m + x) = contrib b x

/-! ### Bruck -/

theorem bruckTree_spec (n : Nat) (hn : 1 ≤ n) :
    (∀ i, i < (bruckTree n).1 → 2 ^ (i + 1) ≤ n) ∧
    ((bruckTree n).2 = 0 ∧ n = 2 ^ (bruckTree n).1 ∨
      (bruckTree n).2 ≠ 0 ∧ 2 ^ (bruckTree n).1 + (bruckTree n).2 = n ∧ (bruckTree n).2 < 2 ^ (bruckTree n).1) := by
  obtain ⟨k, h1, h2, h3, h4, h5⟩ := computeTree_spec n
  unfold bruckTree
  simp only [h1, h2, h3]
  split
  · rename_i hne
    cases k with
    | zero => simp at h4 hne; omega
    | succ k =>
      have h5' : 2 ^ k < n := by simpa using h5
      rw [Nat.pow_succ] at h4 hne
      have hmid : 2 ^ (k + 1) / 2 = 2 ^ k := by rw [Nat.pow_succ]; omega
      simp only [Nat.add_sub_cancel, hmid]
      refine ⟨?_, Or.inr (by omega)⟩
      intro i hi
      have : 2 ^ (i + 1) ≤ 2 ^ k := Nat.pow_le_pow_right (by omega) (by omega)
      omega
  · rename_i he
    have he' : n = 2 ^ k := Classical.byContradiction fun h => he h
    refine ⟨?_, Or.inl ⟨rfl, he'⟩⟩
    intro i hi
    have : 2 ^ (i + 1) ≤ 2 ^ k := Nat.pow_le_pow_right (by omega) (by omega)
    simp only at hi
    omega

/-- Number of blocks exchanged in round `i`. -/
def cnt (n i : Nat) : Nat := if i < (bruckTree n).1 then 2 ^ i else (bruckTree n).2

theorem bruck_round (n i m : Nat) (hn : 1 ≤ n) (hi : i < (bruck (V := V) n m).T) :
    2 ^ i < n ∧ cnt n i ≤ 2 ^ i ∧ 2 ^ i + cnt n i ≤ n ∧ 1 ≤ cnt n i ∧
    (i + 1 < (bruck (V := V) n m).T → 2 ^ i + cnt n i = 2 ^ (i + 1)) ∧
    (i + 1 = (bruck (V := V) n m).T → 2 ^ i + cnt n i = n) := by
  obtain ⟨h1, h2⟩ := bruckTree_spec n hn
  have hpos := Nat.two_pow_pos i
  simp only [bruck] at hi ⊢
  unfold cnt
  split at hi
  · rename_i hne
    have h2' : 2 ^ (bruckTree n).1 + (bruckTree n).2 = n ∧ (bruckTree n).2 < 2 ^ (bruckTree n).1 := by
      rcases h2 with h2 | h2
      · exact absurd h2.1 hne
      · exact h2.2
    rw [if_pos hne]
    by_cases hlt : i < (bruckTree n).1
    · have := h1 i hlt
      rw [Nat.pow_succ] at this ⊢
      rw [if_pos hlt]
      omega
    · have hi' : i = (bruckTree n).1 := by omega
      rw [if_neg hlt]
      subst hi'
      omega
  · rename_i he
    have he' : (bruckTree n).2 = 0 := Classical.byContradiction fun h => he h
    have h2' : n = 2 ^ (bruckTree n).1 := by
      rcases h2 with h2 | h2
      · exact h2.2
      · exact absurd he' h2.1
    rw [if_neg he]
    have hlt : i < (bruckTree n).1 := by omega
    have := h1 i hlt
    rw [if_pos hlt]
    have hlast : i + 1 = (bruckTree n).1 + 0 → 2 ^ (i + 1) = n := by
      intro h; rw [h2', h, Nat.add_zero]
    rw [Nat.pow_succ] at this hlast ⊢
    omega

theorem bruck_len (n i m : Nat) :
    (if i < (bruckTree n).1 then 2 ^ i * m else (bruckTree n).2 * m) = cnt n i * m := by
  unfold cnt; split <;> rfl

theorem mod_shift {n p d : Nat} (hp : p < n) (hd : d ≤ n) : ((p + n - d) % n + d) % n = p := by
  have : p + n - d + d = p + n := by omega
  rw [Nat.mod_add_mod, this, Nat.add_mod_right, Nat.mod_eq_of_lt hp]

theorem mod_shift' {n p d : Nat} (hp : p < n) (hd : d ≤ n) : ((p + d) % n + n - d) % n = p := by
  have h := Nat.mod_lt (p + d) (show 0 < n by omega)
  rcases Nat.lt_or_ge (p + d) n with h1 | h1
  · rw [Nat.mod_eq_of_lt h1]
    have : p + d + n - d = p + n := by omega
    rw [this, Nat.add_mod_right, Nat.mod_eq_of_lt hp]
  · have h2 : (p + d) % n = p + d - n := by
      rw [Nat.mod_eq_sub_mod h1]
      rcases Nat.lt_or_ge (p + d - n) n with h3 | h3
      · exact Nat.mod_eq_of_lt h3
      · omega
    rw [h2]
    have : p + d - n + n - d = p := by omega
    rw [this, Nat.mod_eq_of_lt hp]

theorem bruck_ok (n m : Nat) (hn : 1 ≤ n) : (bruck (V := V) n m).Ok := by
  apply Rounds.ok_simple
  · rfl
  · intro p i; rfl
  · intro p q i; rfl
  · intro p i j hi hj h
    simp only [bruck] at hi hj h
    split at h <;> split at h <;> split at hi <;> split at hj <;> omega
  · intro p i q x hp hi hq h
    have hb := bruck_round (V := V) n i m hn hi
    simp only [bruck] at h hp hq ⊢
    split at h
    · rename_i hqe
      simp only [Option.some.injEq] at h
      subst h
      rw [if_pos]
      · exact ⟨_, rfl, rfl⟩
      · rw [hqe, mod_shift hp (by omega)]
    · simp at h
  · intro p i q y hp hi hq h
    have hb := bruck_round (V := V) n i m hn hi
    simp only [bruck] at h hp hq ⊢
    split at h
    · rename_i hpe
      rw [if_pos]
      · exact ⟨_, rfl⟩
      · rw [hpe, mod_shift' hq (by omega)]
    · simp at h
  · intro p i q q' x x' hp hi hq hq' h h' hne _
    simp only [bruck] at h h'
    split at h
    · split at h'
      · omega
      · simp at h'
    · simp at h
  · intro p i q q' x y hp hi hq hq' h h' _
    have hb := bruck_round (V := V) n i m hn hi
    simp only [bruck] at h h'
    split at h
    · split at h'
      · simp only [Option.some.injEq] at h h'
        subst h
        subst h'
        left
        simp only [bruck_len]
        have := Nat.mul_le_mul_right m hb.2.1
        omega
      · simp at h'
    · simp at h

theorem blk_lt {a b m x : Nat} (h : a < b) (hx : x < m) : a * m + x < b * m := by
  have := Nat.mul_le_mul_right m (show a + 1 ≤ b from h)
  rw [Nat.add_mul] at this
  omega

theorem bruck_sync (n m : Nat) (hn : 1 ≤ n) (contrib : Nat → Nat → V) (M0 : Loc → V)
    (h0 : ∀ p x, p < n → x < m → M0 (p, 0, x) = contrib p x) (i : Nat) (hi : i ≤ (bruck (V := V) n m).T) :
    ∀ p b x, p < n → b < (if i = (bruck (V := V) n m).T then n else 2 ^ i) → x < m →
      (bruck n m).sync M0 i (p, 0, b * m + x) = contrib ((p + b) % n) x := by
  have hinit : ∀ p b x, p < n → b < 1 → x < m → (bruck n m).sync M0 0 (p, 0, b * m + x) = contrib ((p + b) % n) x := by
    intro p b x hp hb hx
    have : b = 0 := by omega
    subst this
    show M0 _ = _
    rw [Nat.zero_mul, Nat.zero_add, Nat.add_zero, Nat.mod_eq_of_lt hp]
    exact h0 p x hp hx
  have hT0 : (bruck (V := V) n m).T = 0 → n = 1 := by
    intro h
    have hs := bruckTree_spec n hn
    simp only [bruck] at h
    have hx : (bruckTree n).2 = 0 := by
      refine Classical.byContradiction fun hc => ?_
      rw [if_pos hc] at h
      omega
    have hy : (bruckTree n).1 = 0 := by omega
    rcases hs.2 with h1 | h1
    · rw [hy] at h1; simpa using h1.2
    · exact absurd hx h1.1
  induction i with
  | zero =>
    intro p b x hp hb hx
    apply hinit p b x hp _ hx
    split at hb
    · rename_i h; have := hT0 h.symm; omega
    · simpa using hb
  | succ i ih =>
    intro p b x hp hb hx
    have hiT : i < (bruck (V := V) n m).T := by omega
    have hr := bruck_round (V := V) n i m hn hiT
    have ih' := ih (by omega)
    rw [if_neg (by omega)] at ih'
    have hbs : b < 2 ^ i + cnt n i := by
      split at hb
      · rename_i h; have := hr.2.2.2.2.2 h; omega
      · have := hr.2.2.2.2.1 (by omega); omega
    by_cases hlow : b < 2 ^ i
    · rw [Rounds.sync_keep', ih' p b x hp hlow hx]
      · intro q _ h; exact h
      · intro q y _ hy
        simp only [bruck] at hy
        split at hy
        · simp only [Option.some.injEq] at hy
          subst hy
          simp only
          have := blk_lt (m := m) hlow hx
          omega
        · simp at hy
      · intro o ho; simp [bruck] at ho
    · have hq : (p + 2 ^ i) % n < n := Nat.mod_lt _ (by omega)
      have hsend : (bruck (V := V) n m).send ((p + 2 ^ i) % n) i p = some { buf := 0, off := 0, len := cnt n i * m } := by
        simp only [bruck, bruck_len]
        rw [if_pos]
        rw [mod_shift' hp (by omega)]
      have hrecv : (bruck (V := V) n m).recv p i ((p + 2 ^ i) % n) = some { buf := 0, off := 2 ^ i * m, len := cnt n i * m } := by
        simp only [bruck, bruck_len]
        rw [if_pos trivial]
      obtain ⟨c, rfl⟩ : ∃ c, b = 2 ^ i + c := ⟨b - 2 ^ i, by omega⟩
      have hc : c < cnt n i := by omega
      have := Rounds.sync_recv (bruck_ok n m hn) M0 (p := p) (i := i) hp hiT hq hsend hrecv (c * m + x) (blk_lt hc hx)
      have e : (2 ^ i + c) * m + x = 2 ^ i * m + (c * m + x) := by rw [Nat.add_mul]; omega
      rw [e]
      refine Eq.trans this ?_
      simp only [Bool.false_eq_true, if_false, Nat.zero_add]
      have h2 := ih' ((p + 2 ^ i) % n) c x hq (by omega) hx
      refine Eq.trans h2 ?_
      rw [Nat.mod_add_mod, Nat.add_assoc]

theorem bruck_final (n m : Nat) (contrib : Nat → Nat → V) (mem : Loc → V)
    (hs : ∀ p b x, p < n → b < n → x < m → mem (p, 0, b * m + x) = contrib ((p + b) % n) x) :
    AllGathered n m contrib (bruckFinalize n m mem) := by
  intro p b x hp hb hx
  unfold bruckFinalize
  by_cases hp0 : p = 0
  · rw [if_pos hp0, hs p b x hp hb hx, hp0, Nat.zero_add, Nat.mod_eq_of_lt hb]
  · rw [if_neg hp0]
    by_cases hlt : b * m + x < m * p
    · rw [if_pos hlt]
      have hbp : b < p := by
        refine Nat.lt_of_not_le fun h => ?_
        have := Nat.mul_le_mul_right m h
        rw [Nat.mul_comm p m] at this
        omega
      have e : m * n - m * p + (b * m + x) = (n - p + b) * m + x := by
        have e1 : (n - p + b) * m = (n - p) * m + b * m := Nat.add_mul _ _ _
        have e2 : (n - p) * m = m * n - m * p := by rw [Nat.mul_comm, Nat.mul_sub]
        rw [e1, e2]
        omega
      rw [e, hs p (n - p + b) x hp (by omega) hx]
      have : p + (n - p + b) = b + n := by omega
      rw [this, Nat.add_mod_right, Nat.mod_eq_of_lt hb]
    · rw [if_neg hlt]
      have hbp : p ≤ b := by
        refine Nat.le_of_not_lt fun h => hlt ?_
        rw [Nat.mul_comm m p]
        exact blk_lt h hx
      have e : b * m + x - m * p = (b - p) * m + x := by
        have e2 : (b - p) * m = b * m - m * p := by rw [Nat.mul_comm, Nat.mul_sub, Nat.mul_comm m b]
        have := Nat.mul_le_mul_left m hbp
        have e3 : m * b = b * m := Nat.mul_comm _ _
        rw [e2]
        omega
      rw [e, hs p (b - p) x hp (by omega) hx]
      have : p + (b - p) = b := by omega
      rw [this, Nat.mod_eq_of_lt hb]

/-- C29, default algorithm: whatever the order and delay of messages, the allgather ends on
all ranks, all messages are consumed, and every rank's result buffer holds all contributions
in rank order. -/
theorem C29_bruck (n m : Nat) (hn : 1 ≤ n) (contrib old : Nat → Nat → V) :
    Yields (bruck n m).sys (bruckInit m contrib old)
      (fun mem => AllGathered n m contrib (bruckFinalize n m mem)) := by
  apply Rounds.ends (bruck_ok n m hn)
  apply bruck_final
  have hs := bruck_sync n m hn contrib (bruckInit m contrib old)
    (by intro p x _ hx; simp [bruckInit, hx]) _ (Nat.le_refl _)
  rw [if_pos rfl] at hs
  exact hs

/-- C29, default algorithm, in place (the contribution is in the result buffer at the rank's
own offset). -/
theorem C29_bruck_in_place (n m : Nat) (hn : 1 ≤ n) (contrib old : Nat → Nat → V)
    (hold : ∀ p x, p < n → x < m → old p (p * m + x) = contrib p x) :
    Yields (bruck n m).sys (bruckInitInPlace m old)
      (fun mem => AllGathered n m contrib (bruckFinalize n m mem)) := by
  have e : ∀ p x, p < n → x < m → bruckInitInPlace m old (p, 0, x) = contrib p x := by
    intro p x hp hx
    unfold bruckInitInPlace
    by_cases h0 : p = 0
    · subst h0
      have := hold 0 x hp hx
      simpa using this
    · simp [hx, h0, hold p x hp hx]
  apply Rounds.ends (bruck_ok n m hn)
  apply bruck_final
  have hs := bruck_sync n m hn contrib (bruckInitInPlace m old) e _ (Nat.le_refl _)
  rw [if_pos rfl] at hs
  exact hs

/-- A communicator of five ranks with blocks of two elements: three rounds (the third is the
extra one), and the result on every rank. -/
example : (bruck (V := Nat) 5 2).T = 3 ∧ (bruck (V := Nat) 5 2).acts.length = 30 ∧
    (let mem := (bruck 5 2).sync (bruckInit 2 (fun p x => 10 * p + x) (fun _ _ => 99)) 3
     (List.range 10).map (bruckFinalize 5 2 mem 3)) = [0, 1, 10, 11, 20, 21, 30, 31, 40, 41] := by
  decide +kernel

/-! ### Ring -/

theorem chunk_eq (n p i : Nat) (hp : p < n) (hi : i < n) : chunk n p i = if i ≤ p then p - i else p + n - i := by
  induction i with
  | zero => simp [chunk]
  | succ i ih =>
    have ih' := ih (by omega)
    show (chunk n p i + n - 1) % n = _
    rw [ih']
    split
    · split
      · have : p - i + n - 1 = (p - (i + 1)) + n := by omega
        rw [this, Nat.add_mod_right, Nat.mod_eq_of_lt (by omega)]
      · rw [Nat.mod_eq_of_lt (by omega)]; omega
    · rw [if_neg (by omega)]
      have : p + n - i + n - 1 = (p + n - (i + 1)) + n := by omega
      rw [this, Nat.add_mod_right, Nat.mod_eq_of_lt (by omega)]

theorem blk_disj {a b m : Nat} (h : a ≠ b) : a * m + m ≤ b * m ∨ b * m + m ≤ a * m := by
  rcases Nat.lt_or_ge a b with h1 | h1
  · left
    have := Nat.mul_le_mul_right m (show a + 1 ≤ b from h1)
    rw [Nat.add_mul] at this
    omega
  · right
    have := Nat.mul_le_mul_right m (show b + 1 ≤ a by omega)
    rw [Nat.add_mul] at this
    omega

theorem succ_pred_mod {n p : Nat} (hp : p < n) : ((p + 1) % n + n - 1) % n = p := mod_shift' hp (by omega)

theorem pred_succ_mod {n p : Nat} (hp : p < n) : ((p + n - 1) % n + 1) % n = p := mod_shift hp (by omega)

theorem ring_ok (n m : Nat) : (ring (V := V) n m).Ok := by
  apply Rounds.ok_simple
  · rfl
  · intro p i; rfl
  · intro p q i; rfl
  · intro p i j _ _ h
    simp only [ring] at h
    omega
  · intro p i q x hp hi hq h
    simp only [ring] at h hp hq ⊢
    split at h
    · rename_i hqe
      simp only [Option.some.injEq] at h
      subst h
      rw [if_pos]
      · exact ⟨_, rfl, rfl⟩
      · rw [hqe, succ_pred_mod hp]
    · simp at h
  · intro p i q y hp hi hq h
    simp only [ring] at h hp hq ⊢
    split at h
    · rename_i hpe
      rw [if_pos]
      · exact ⟨_, rfl⟩
      · rw [hpe, pred_succ_mod hq]
    · simp at h
  · intro p i q q' x x' hp hi hq hq' h h' hne _
    simp only [ring] at h h'
    split at h
    · split at h'
      · omega
      · simp at h'
    · simp at h
  · intro p i q q' x y hp hi hq hq' h h' _
    simp only [ring] at h h' hp hi
    split at h
    · split at h'
      · simp only [Option.some.injEq] at h h'
        subst h
        subst h'
        apply blk_disj
        rw [chunk_eq n p i hp (by omega), chunk_eq n p (i + 1) hp (by omega)]
        split <;> split <;> omega
      · simp at h'
    · simp at h

theorem ring_sync (n m : Nat) (contrib : Nat → Nat → V) (M0 : Loc → V)
    (h0 : ∀ p x, p < n → x < m → M0 (p, 0, p * m + x) = contrib p x) (i : Nat) (hi : i < n) :
    ∀ p j x, p < n → j ≤ i → x < m →
      (ring n m).sync M0 i (p, 0, chunk n p j * m + x) = contrib (chunk n p j) x := by
  induction i with
  | zero =>
    intro p j x hp hj hx
    have : j = 0 := by omega
    subst this
    exact h0 p x hp hx
  | succ i ih =>
    intro p j x hp hj hx
    have ih' := ih (by omega)
    by_cases hji : j = i + 1
    · subst hji
      have hq : (p + n - 1) % n < n := Nat.mod_lt _ (by omega)
      have hsend : (ring (V := V) n m).send ((p + n - 1) % n) i p =
          some { buf := 0, off := chunk n ((p + n - 1) % n) i * m, len := m } := by
        simp only [ring]
        rw [if_pos]
        rw [pred_succ_mod hp]
      have hrecv : (ring (V := V) n m).recv p i ((p + n - 1) % n) =
          some { buf := 0, off := chunk n p (i + 1) * m, len := m } := by
        simp only [ring]
        rw [if_pos trivial]
      have hc : chunk n ((p + n - 1) % n) i = chunk n p (i + 1) := by
        rw [chunk_eq n p (i + 1) hp hi, chunk_eq n _ i hq (by omega)]
        rcases Nat.eq_zero_or_pos p with h | h
        · subst h
          have : (0 + n - 1) % n = n - 1 := by rw [Nat.mod_eq_of_lt (by omega)]; omega
          rw [this]
          split <;> split <;> omega
        · have : (p + n - 1) % n = p - 1 := by
            have e : p + n - 1 = (p - 1) + n := by omega
            rw [e, Nat.add_mod_right, Nat.mod_eq_of_lt (by omega)]
          rw [this]
          split <;> split <;> omega
      have := Rounds.sync_recv (ring_ok n m) M0 (p := p) (i := i) hp (by simp only [ring]; omega) hq hsend hrecv x hx
      refine Eq.trans this ?_
      simp only [Bool.false_eq_true, if_false]
      have h2 := ih' ((p + n - 1) % n) i x hq (Nat.le_refl _) hx
      refine Eq.trans h2 ?_
      rw [hc]
    · rw [Rounds.sync_keep', ih' p j x hp (by omega) hx]
      · intro q _ h; exact h
      · intro q y _ hy
        simp only [ring] at hy
        split at hy
        · simp only [Option.some.injEq] at hy
          subst hy
          simp only
          have hne : chunk n p j ≠ chunk n p (i + 1) := by
            rw [chunk_eq n p j hp (by omega), chunk_eq n p (i + 1) hp hi]
            split <;> split <;> omega
          have := blk_disj (m := m) hne
          omega
        · simp at hy
      · intro o ho; simp [ring] at ho

/-- C29, ring algorithm (contribution already in place in the result buffer): the allgather
ends on all ranks, all messages are consumed, and every rank's result buffer holds all
contributions in rank order. -/
theorem C29_ring_in_place (n m : Nat) (contrib old : Nat → Nat → V)
    (hold : ∀ p x, p < n → x < m → old p (p * m + x) = contrib p x) :
    Yields (ring n m).sys (ringInit old)
      (fun mem => AllGathered n m contrib (fun p x => mem (p, 0, x))) := by
  apply Rounds.ends (ring_ok n m)
  intro p b x hp hb hx
  have hs := ring_sync n m contrib (ringInit old) (by intro p x hp hx; exact hold p x hp hx) (n - 1) (by omega)
    p (if b ≤ p then p - b else p + n - b) x hp (by split <;> omega) hx
  have hc : chunk n p (if b ≤ p then p - b else p + n - b) = b := by
    rw [chunk_eq n p _ hp (by split <;> omega)]
    split <;> split <;> omega
  rw [hc] at hs
  exact hs

example : (ring (V := Nat) 4 2).T = 3 ∧
    (let mem := (ring 4 2).sync (ringInit (fun p x => if x / 2 = p then 10 * p + x % 2 else 99)) 3
     (List.range 8).map (fun x => mem (2, 0, x))) = [0, 1, 10, 11, 20, 21, 30, 31] := by
  decide +kernel

/-- The ring algorithm never copies the caller's send buffer into the result buffer: with a
separate send buffer nothing that is sent or stored depends on the contributions, so the
result is wrong (here: two ranks, one element each, the initial contents of the result
buffers come back). -/
theorem C29_ring_separate_buffers_refuted :
    ¬ ∀ (n m : Nat) (contrib old : Nat → Nat → Nat),
      Yields (ring n m).sys (ringInit old)
        (fun mem => AllGathered n m contrib (fun p x => mem (p, 0, x))) := by
  intro h
  have h1 := h 2 1 (fun _ _ => 1) (fun _ _ => 0)
  have h2 := Rounds.ends (ring_ok 2 1) (ringInit (fun _ _ => (0 : Nat))) (fun mem => mem (0, 0, 0) = 0) (by decide)
  obtain ⟨mem, e1, e2⟩ := Yields.both h1 h2
  have e3 := e1 0 0 0 (by omega) (by omega) (by omega)
  simp only [Nat.zero_mul, Nat.add_zero] at e3
  rw [e2] at e3
  simp at e3

end SST.Coll.Allgather
