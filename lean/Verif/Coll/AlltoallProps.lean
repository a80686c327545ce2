import Verif.Coll.Alltoall
import Verif.Coll.AllgatherProps
/-!
C34: the Bruck alltoall transposes the matrix of blocks.
-/
set_option autoImplicit false
namespace SST.Coll.Alltoall
open SST.Coll

variable {V : Type}

/-- Block `j` of rank `i`'s send buffer is block `i` of rank `j`'s result. -/
def Transposed (n m : Nat) (sendbuf result : Nat → Nat → V) : Prop :=
  ∀ i j y, i < n → j < n → y < m → result j (i * m + y) = sendbuf i (j * m + y)

theorem rounds_spec (n : Nat) (hn : 1 ≤ n) : (∀ r, r < rounds n → 2 ^ r < n) ∧ n ≤ 2 ^ rounds n := by
  constructor
  · intro r hr
    exact (Allgather.bruck_round (V := Nat) n r 1 hn hr).1
  · obtain ⟨_, h2⟩ := Allgather.bruckTree_spec n hn
    unfold rounds
    rcases h2 with ⟨h, h'⟩ | ⟨h, h', h''⟩
    · rw [if_neg (by omega)]
      simp only [Nat.add_zero]
      omega
    · rw [if_pos h, Nat.pow_succ]
      omega

theorem blk_div {m y : Nat} (j : Nat) (hy : y < m) : (j * m + y) / m = j ∧ (j * m + y) % m = y := by
  have hm : 0 < m := by omega
  rw [Nat.mul_comm]
  exact ⟨by rw [Nat.mul_add_div hm, Nat.div_eq_of_lt hy, Nat.add_zero],
    by rw [Nat.mul_add_mod, Nat.mod_eq_of_lt hy]⟩

/-- The blocks that move in a round with gap `g`: those whose index has the bit `g`. -/
theorem tmpBlock_spec {n g j : Nat} (hg : 0 < g) (hj : j < n) (h1 : g ≤ j) (h2 : (j - g) % (g * 2) < g) :
    mainBlock g (tmpBlock g j) = j ∧ tmpBlock g j < numSend n g ∧
    j % (g * 2) = j % g + g := by
  obtain ⟨s, hs⟩ : ∃ s, (j - g) / (g * 2) = s := ⟨_, rfl⟩
  obtain ⟨t, ht⟩ : ∃ t, (j - g) % (g * 2) = t := ⟨_, rfl⟩
  have hdm := Nat.div_add_mod (j - g) (g * 2)
  rw [hs, ht] at hdm
  rw [ht] at h2
  have hj' : j = g * 2 * s + (g + t) := by omega
  have ht' : tmpBlock g j = g * s + t := by
    unfold tmpBlock
    rw [hs, ht, Nat.mul_comm s g]
  refine ⟨?_, ?_, ?_⟩
  · unfold mainBlock
    rw [ht', Nat.mul_add_div hg, Nat.div_eq_of_lt h2, Nat.mul_add_mod, Nat.mod_eq_of_lt h2, Nat.add_zero,
      Nat.mul_comm s]
    omega
  · rw [ht']
    unfold numSend
    obtain ⟨a, ha⟩ : ∃ a, (n - g) / (g * 2) = a := ⟨_, rfl⟩
    obtain ⟨b, hb⟩ : ∃ b, (n - g) % (g * 2) = b := ⟨_, rfl⟩
    have hdn := Nat.div_add_mod (n - g) (g * 2)
    have hbl : b < g * 2 := by rw [← hb]; exact Nat.mod_lt _ (by omega)
    rw [ha, hb] at hdn
    rw [ha, hb]
    rw [Nat.mul_comm a g]
    rcases Nat.lt_trichotomy s a with h | h | h
    · have h1 := Nat.mul_le_mul_left g (show s + 1 ≤ a from h)
      rw [Nat.mul_add, Nat.mul_one] at h1
      omega
    · subst h
      omega
    · have h1 := Nat.mul_le_mul_left (g * 2) (show a + 1 ≤ s from h)
      rw [Nat.mul_add, Nat.mul_one] at h1
      omega
  · have e1 : j % (g * 2) = g + t := by
      rw [hj', Nat.mul_add_mod, Nat.mod_eq_of_lt (by omega)]
    have e2 : j % g = t := by
      rw [← Nat.mod_mul_right_mod j g 2, e1, Nat.add_mod_left, Nat.mod_eq_of_lt h2]
    omega

/-- The other blocks stay. -/
theorem stay_spec {g j : Nat} (hg : 0 < g) (h : ¬ (g ≤ j ∧ (j - g) % (g * 2) < g)) : j % (g * 2) = j % g := by
  by_cases h1 : g ≤ j
  · have h2 : g ≤ (j - g) % (g * 2) := by omega
    have h3 := Nat.mod_lt (j - g) (show 0 < g * 2 by omega)
    have hdm := Nat.div_add_mod (j - g) (g * 2)
    obtain ⟨t, ht⟩ : ∃ t, (j - g) % (g * 2) = g + t := ⟨(j - g) % (g * 2) - g, by omega⟩
    obtain ⟨s, hs⟩ : ∃ s, (j - g) / (g * 2) = s := ⟨_, rfl⟩
    rw [hs, ht] at hdm
    have hj' : j = g * 2 * (s + 1) + t := by rw [Nat.mul_add, Nat.mul_one]; omega
    have e1 : j % (g * 2) = t := by
      rw [hj', Nat.mul_add_mod, Nat.mod_eq_of_lt (by omega)]
    rw [← Nat.mod_mul_right_mod j g 2, e1, Nat.mod_eq_of_lt (by omega)]
  · rw [Nat.mod_eq_of_lt (by omega), Nat.mod_eq_of_lt (by omega)]

theorem sub_mod {n p c : Nat} (hp : p < n) (hc : c ≤ n) : (p + n - c) % n = if c ≤ p then p - c else p + n - c := by
  split
  · rw [show p + n - c = (p - c) + n by omega, Nat.add_mod_right, Nat.mod_eq_of_lt (by omega)]
  · rw [Nat.mod_eq_of_lt (by omega)]

theorem send_some {n m p i q : Nat} {x : Xfer} (h : (bruck (V := V) n m).send p i q = some x) :
    i % 3 = 1 ∧ q = (p + 2 ^ (i / 3)) % n ∧ x = { buf := 1, off := 0, len := numSend n (2 ^ (i / 3)) * m } := by
  simp only [bruck] at h
  split at h
  · rename_i hc
    simp only [Option.some.injEq] at h
    exact ⟨hc.1, hc.2, h.symm⟩
  · simp at h

theorem recv_some {n m p i q : Nat} {x : Xfer} (h : (bruck (V := V) n m).recv p i q = some x) :
    i % 3 = 1 ∧ q = (p + n - 2 ^ (i / 3)) % n ∧ x = { buf := 2, off := 0, len := numSend n (2 ^ (i / 3)) * m } := by
  simp only [bruck] at h
  split at h
  · rename_i hc
    simp only [Option.some.injEq] at h
    exact ⟨hc.1, hc.2, h.symm⟩
  · simp at h

theorem loc_some {n m p i : Nat} {o : LocalOp V} (h : (bruck (V := V) n m).loc p i = some o) :
    (i % 3 = 0 ∧ o = sendShuffle n (2 ^ (i / 3)) m) ∨ (i % 3 = 2 ∧ o = recvShuffle n (2 ^ (i / 3)) m) := by
  simp only [bruck] at h
  split at h
  · rename_i hc
    simp only [Option.some.injEq] at h
    exact Or.inl ⟨hc, h.symm⟩
  · split at h
    · rename_i hc
      simp only [Option.some.injEq] at h
      exact Or.inr ⟨hc, h.symm⟩
    · simp at h

theorem gap_lt {n m i : Nat} (hn : 1 ≤ n) (hi : i < (bruck (V := V) n m).T) : 2 ^ (i / 3) < n := by
  apply (rounds_spec n hn).1
  have : i < 3 * rounds n := hi
  omega

theorem bruck_ok (n m : Nat) (hn : 1 ≤ n) : (bruck (V := V) n m).Ok := by
  refine ⟨?_, ?_, ?_, ?_, ?_, ?_, ?_⟩
  · intro p i q x hp hi hq h
    obtain ⟨h1, h2, h3⟩ := send_some h
    have hg := gap_lt hn hi
    refine ⟨{ buf := 2, off := 0, len := numSend n (2 ^ (i / 3)) * m }, ?_, by rw [h3]⟩
    simp only [bruck]
    rw [if_pos ⟨h1, by rw [h2]; exact (Allgather.mod_shift' (n := n) hp (by omega)).symm⟩]
  · intro p i q x hp hi hq h
    obtain ⟨h1, h2, h3⟩ := recv_some h
    have hg := gap_lt hn hi
    refine ⟨{ buf := 1, off := 0, len := numSend n (2 ^ (i / 3)) * m }, ?_⟩
    simp only [bruck]
    rw [if_pos ⟨h1, by rw [h2]; exact (Allgather.mod_shift (n := n) hq (by omega)).symm⟩]
  · intro p i q x _ _ _ _; rfl
  · intro p i q p' i' q' x x' hp hi hq hp' hi' hq' h h' h1 h2 h3
    simp only [bruck, id_eq] at h1 h2 h3
    have := (recv_some h).1
    have := (recv_some h').1
    exact ⟨h1, by omega, h2⟩
  · apply Rounds.sep_of_inj
    intro p q _ _ h
    exact h
  · intro a b l ha hb hab hp hi hw hu
    obtain ⟨_, _, _, hah⟩ := Rounds.mem_acts.mp ha
    obtain ⟨_, _, _, hbh⟩ := Rounds.mem_acts.mp hb
    obtain ⟨p, i, k, q⟩ := a
    obtain ⟨p', i', k', q'⟩ := b
    simp only at hp hi
    subst hp
    subst hi
    cases k with
    | send => simp [Rounds.writesB] at hw
    | loc =>
      simp only [Rounds.has, Bool.and_eq_true, beq_iff_eq] at hah
      obtain ⟨o, ho⟩ := Option.isSome_iff_exists.mp hah.1
      have e1 : i % 3 ≠ 1 := by
        rcases loc_some ho with ⟨h, _⟩ | ⟨h, _⟩ <;> omega
      cases k' with
      | loc =>
        simp only [Rounds.has, Bool.and_eq_true, beq_iff_eq] at hbh
        apply hab
        rw [hah.2, hbh.2]
      | send =>
        obtain ⟨x, hx⟩ := Option.isSome_iff_exists.mp hbh
        exact e1 (send_some hx).1
      | recv =>
        obtain ⟨x, hx⟩ := Option.isSome_iff_exists.mp hbh
        exact e1 (recv_some hx).1
    | recv =>
      obtain ⟨y, hy⟩ := Option.isSome_iff_exists.mp hah
      simp only at hy
      obtain ⟨e1, e2, e3⟩ := recv_some hy
      simp only [Rounds.writesB, hy, Rounds.inX, Bool.and_eq_true, beq_iff_eq] at hw
      cases k' with
      | loc =>
        simp only [Rounds.has, Bool.and_eq_true, beq_iff_eq] at hbh
        obtain ⟨o, ho⟩ := Option.isSome_iff_exists.mp hbh.1
        rcases loc_some ho with ⟨h, _⟩ | ⟨h, _⟩ <;> omega
      | recv =>
        obtain ⟨y', hy'⟩ := Option.isSome_iff_exists.mp hbh
        apply hab
        have : q = q' := e2.trans (recv_some hy').2.1.symm
        rw [this]
      | send =>
        obtain ⟨x, hx⟩ := Option.isSome_iff_exists.mp hbh
        simp only at hx
        obtain ⟨_, _, e4⟩ := send_some hx
        simp only [Rounds.writesB, Rounds.touchB, hx, Rounds.inX, Bool.and_eq_true, beq_iff_eq,
          Bool.false_eq_true, false_or] at hu
        have h1 := hw.1.1.2
        have h2 := hu.1.1.2
        rw [e3] at h1
        rw [e4] at h2
        simp only at h1 h2
        omega
  · intro p i o M M' b x h hw hM
    rcases loc_some h with ⟨_, rfl⟩ | ⟨_, rfl⟩
    · simp only [sendShuffle]
      exact hM 0 _ (by simp [sendShuffle])
    · simp only [recvShuffle]
      exact hM 2 _ (by simp [recvShuffle])

/-- The effect of a local action. -/
theorem sync_loc (n m : Nat) (hn : 1 ≤ n) (M0 : Loc → V) (p i b x : Nat) (hp : p < n)
    (hi : i < 3 * rounds n) (o : LocalOp V) (ho : (bruck n m).loc p i = some o) (hw : o.wr b x = true) :
    (bruck n m).sync M0 (i + 1) (p, b, x) = o.f (fun b x => (bruck n m).sync M0 i (p, b, x)) b x := by
  have ha : (⟨p, i, .loc, p⟩ : Act) ∈ (bruck (V := V) n m).acts := by
    rw [Rounds.mem_acts]
    exact ⟨hp, hi, hp, by simp [Rounds.has, ho]⟩
  have hwb : (bruck (V := V) n m).writesB ⟨p, i, .loc, p⟩ (p, b, x) = true := by
    simp only [Rounds.writesB, ho]
    simp [hw, bruck]
  have := Rounds.sync_write (bruck_ok n m hn) M0 ha hwb
  refine Eq.trans this ?_
  simp only [Rounds.effF, ho]
  rw [if_pos (by simp [hw, bruck])]
  rfl

theorem sync_stay (n m : Nat) (M0 : Loc → V) (p i b x : Nat)
    (hr : i % 3 = 1 → b ≠ 2)
    (hl : ∀ o, (bruck (V := V) n m).loc p i = some o → o.wr b x = false) :
    (bruck n m).sync M0 (i + 1) (p, b, x) = (bruck n m).sync M0 i (p, b, x) := by
  apply Rounds.sync_keep'
  · intro q _ h; exact h
  · intro q y _ h hc
    obtain ⟨h1, _, h3⟩ := recv_some h
    rw [h3] at hc
    exact hr h1 hc.1.symm
  · exact hl

/-- After `r` rounds block `j` of rank `p` holds what rank `p - (j mod 2^r)` had there at the
start. -/
theorem bruck_sync (n m : Nat) (hn : 1 ≤ n) (M0 : Loc → V) (r : Nat) (hr : r ≤ rounds n) :
    ∀ p j y, p < n → j < n → y < m →
      (bruck n m).sync M0 (3 * r) (p, 0, j * m + y) = M0 ((p + n - j % 2 ^ r) % n, 0, j * m + y) := by
  induction r with
  | zero =>
    intro p j y hp hj hy
    simp only [Nat.pow_zero, Nat.mod_one, Nat.sub_zero, Nat.add_mod_right, Nat.mod_eq_of_lt hp]
    rfl
  | succ r ih =>
    intro p j y hp hj hy
    have ih' := ih (by omega)
    have hg := (rounds_spec n hn).1 r (by omega)
    obtain ⟨g, hgd⟩ : ∃ g, g = 2 ^ r := ⟨_, rfl⟩
    have hgpos : 0 < g := by rw [hgd]; exact Nat.two_pow_pos r
    have d0 : (3 * r) / 3 = r := by omega
    have d1 : (3 * r + 1) / 3 = r := by omega
    have d2 : (3 * r + 2) / 3 = r := by omega
    have l0 : (bruck (V := V) n m).loc p (3 * r) = some (sendShuffle n g m) := by
      simp only [bruck]
      rw [if_pos (by omega), d0, hgd]
    have l2 : (bruck (V := V) n m).loc p (3 * r + 2) = some (recvShuffle n g m) := by
      simp only [bruck]
      rw [if_neg (by omega), if_pos (by omega), d2, hgd]
    have l1 : (bruck (V := V) n m).loc p (3 * r + 1) = none := by
      simp only [bruck]
      rw [if_neg (by omega), if_neg (by omega)]
    obtain ⟨hdiv, hmod⟩ := blk_div j hy
    rw [Nat.pow_succ, ← hgd]
    rw [← hgd] at ih' hg
    show (bruck n m).sync M0 (3 * r + 2 + 1) (p, 0, j * m + y) = _
    by_cases hc : g ≤ j ∧ (j - g) % (g * 2) < g
    · obtain ⟨t1, t2, t3⟩ := tmpBlock_spec hgpos hj hc.1 hc.2
      rw [sync_loc n m hn M0 p (3 * r + 2) 0 (j * m + y) hp (by omega) _ l2
        (by simp [recvShuffle, hdiv, hj, hc.1, hc.2])]
      simp only [recvShuffle, hdiv, hmod]
      have hq : (p + n - g) % n < n := Nat.mod_lt _ (by omega)
      have hs : (bruck (V := V) n m).send ((p + n - g) % n) (3 * r + 1) p =
          some { buf := 1, off := 0, len := numSend n g * m } := by
        simp only [bruck]
        rw [d1, ← hgd, if_pos ⟨by omega, (Allgather.mod_shift hp (by omega)).symm⟩]
      have hrc : (bruck (V := V) n m).recv p (3 * r + 1) ((p + n - g) % n) =
          some { buf := 2, off := 0, len := numSend n g * m } := by
        simp only [bruck]
        rw [d1, ← hgd, if_pos ⟨by omega, rfl⟩]
      have := Rounds.sync_recv (bruck_ok n m hn) M0 (p := p) (i := 3 * r + 1) (q := (p + n - g) % n)
        hp (by show 3 * r + 1 < 3 * rounds n; omega) hq hs hrc (tmpBlock g j * m + y)
        (Allgather.blk_lt t2 hy)
      simp only [Bool.false_eq_true, if_false, Nat.zero_add] at this
      refine Eq.trans this ?_
      show (bruck n m).sync M0 (3 * r + 1) ((p + n - g) % n, 1, tmpBlock g j * m + y) = _
      obtain ⟨hdiv', hmod'⟩ := blk_div (tmpBlock g j) hy
      have l0' : (bruck (V := V) n m).loc ((p + n - g) % n) (3 * r) = some (sendShuffle n g m) := by
        simp only [bruck]
        rw [if_pos (by omega), d0, hgd]
      rw [sync_loc n m hn M0 _ (3 * r) 1 _ hq (by omega) _ l0'
        (by simp [sendShuffle, hdiv', t1, hj])]
      simp only [sendShuffle, hdiv', hmod', t1]
      rw [ih' _ j y hq hj hy]
      congr 2
      have hle : j % g + g ≤ j := by rw [← t3]; exact Nat.mod_le _ _
      rw [t3]
      have e1 := sub_mod hp (show g ≤ n by omega)
      have e2 := sub_mod hq (show j % g ≤ n by omega)
      have e3 := sub_mod hp (show j % g + g ≤ n by omega)
      rw [e2, e3]
      split at e1 <;> split <;> split <;> omega
    · rw [sync_stay n m M0 p (3 * r + 2) 0 _ (by omega), sync_stay n m M0 p (3 * r + 1) 0 _ (by omega),
        sync_stay n m M0 p (3 * r) 0 _ (by omega), ih' p j y hp hj hy, stay_spec hgpos hc]
      · intro o ho
        rw [l0] at ho
        simp only [Option.some.injEq] at ho
        subst ho
        simp [sendShuffle]
      · intro o ho
        rw [l1] at ho
        simp at ho
      · intro o ho
        rw [l2] at ho
        simp only [Option.some.injEq] at ho
        subst ho
        simp only [recvShuffle, hdiv, Bool.and_eq_false_iff, decide_eq_false_iff_not]
        by_cases h1 : g ≤ j
        · right; exact fun h2 => hc ⟨h1, h2⟩
        · left; right; exact h1

/-- `finalize` reverses and rotates the blocks. -/
theorem finalize_eq (n m : Nat) (mem : Loc → V) (p i y : Nat) (hp : p < n) (hi : i < n) (hy : y < m) :
    finalize n m mem p (i * m + y) = mem (p, 0, (p + n - i) % n * m + y) := by
  obtain ⟨hdiv, hmod⟩ := blk_div i hy
  have hq : (p + n - i) % n < n := Nat.mod_lt _ (by omega)
  have hinv : ∀ k, k < n → (i = (p + n - k) % n ↔ k = (p + n - i) % n) := by
    intro k hk
    have e1 := sub_mod hp (show k ≤ n by omega)
    have e2 := sub_mod hp (show i ≤ n by omega)
    rw [e1, e2]
    split <;> split <;> omega
  have key : ∀ k, k ≤ n →
      (List.range k).foldl
        (fun tmp i => fun x => if x / m = (p + n - i) % n then mem (p, 0, i * m + x % m) else tmp x)
        (fun x => mem (p, 0, x)) (i * m + y) =
      if (p + n - i) % n < k then mem (p, 0, (p + n - i) % n * m + y) else mem (p, 0, i * m + y) := by
    intro k
    induction k with
    | zero => intro _; simp
    | succ k ih =>
      intro hk
      rw [List.range_succ, List.foldl_append]
      simp only [List.foldl_cons, List.foldl_nil, hdiv, hmod]
      have h := hinv k (by omega)
      by_cases hc : i = (p + n - k) % n
      · rw [if_pos hc, if_pos (by have := h.mp hc; omega), ← h.mp hc]
      · rw [if_neg hc, ih (by omega)]
        have h' : k ≠ (p + n - i) % n := fun e => hc (h.mpr e)
        by_cases hlt : (p + n - i) % n < k
        · rw [if_pos hlt, if_pos (by omega)]
        · rw [if_neg hlt, if_neg (by omega)]
  unfold finalize
  rw [key n (Nat.le_refl _), if_pos hq]

theorem init_eq (n m : Nat) (sendbuf : Nat → Nat → V) (old : Loc → V) (p j y : Nat) (hp : p < n) (hj : j < n)
    (hy : y < m) : init n m sendbuf old (p, 0, j * m + y) = sendbuf p ((p + j) % n * m + y) := by
  have h1 : n * m - p * m = (n - p) * m := by rw [Nat.sub_mul]
  unfold init
  simp only [h1, true_and]
  by_cases hc : p + j < n
  · have := Allgather.blk_lt (show j < n - p by omega) hy
    rw [if_pos this, Nat.mod_eq_of_lt hc, Nat.add_mul]
    congr 1
    omega
  · have h2 : ¬ (j * m + y < (n - p) * m) := by
      have := Nat.mul_le_mul_right m (show n - p ≤ j by omega)
      omega
    rw [if_neg h2, if_pos (Allgather.blk_lt hj hy)]
    congr 1
    rw [show p + j = (j - (n - p)) + n by omega, Nat.add_mod_right, Nat.mod_eq_of_lt (by omega)]
    have h3 := Nat.mul_le_mul_right m (show n - p ≤ j by omega)
    have h4 := Nat.sub_mul j (n - p) m
    rw [h4]
    omega

/-- C34: whatever the order and delay of messages, the Bruck alltoall ends on all ranks, all
messages are consumed, and the blocks are transposed. -/
theorem C34_bruck (n m : Nat) (hn : 1 ≤ n) (sendbuf : Nat → Nat → V) (old : Loc → V) :
    Yields (bruck n m).sys (init n m sendbuf old)
      (fun mem => Transposed n m sendbuf (fun p => finalize n m mem p)) := by
  apply Rounds.ends (bruck_ok n m hn)
  intro i j y hi hj hy
  show finalize n m _ j (i * m + y) = _
  rw [finalize_eq n m _ j i y hj hi hy]
  have hq : (j + n - i) % n < n := Nat.mod_lt _ (by omega)
  have := bruck_sync n m hn (init n m sendbuf old) (rounds n) (Nat.le_refl _) j ((j + n - i) % n) y hj hq hy
  refine Eq.trans this ?_
  have hlog := (rounds_spec n hn).2
  rw [Nat.mod_eq_of_lt (show (j + n - i) % n < 2 ^ rounds n by omega)]
  have e1 := sub_mod hj (show i ≤ n by omega)
  have e2 := sub_mod hj (show (j + n - i) % n ≤ n by omega)
  have hsrc : (j + n - (j + n - i) % n) % n = i := by
    rw [e2]
    split at e1 <;> split <;> omega
  rw [hsrc, init_eq n m sendbuf old i _ y hi hq hy]
  congr 2
  have : i + (j + n - i) % n = j ∨ i + (j + n - i) % n = j + n := by
    split at e1 <;> omega
  congr 1
  rcases this with h | h
  · rw [h, Nat.mod_eq_of_lt hj]
  · rw [h, Nat.add_mod_right, Nat.mod_eq_of_lt hj]

/-- C34: the temporary buffers of `midpoint` blocks (alltoall.cc:83-86) are large enough for
every round. -/
theorem C34_workspace (n r : Nat) (hn : 1 ≤ n) (hr : r < rounds n) :
    numSend n (2 ^ r) ≤ (computeTree n).midpoint := by
  have hg := (rounds_spec n hn).1 r hr
  obtain ⟨k, h1, h2, h3, h4, h5⟩ := computeTree_spec n
  rw [h3]
  have hrk : r < k := by
    rcases Nat.lt_or_ge r k with h | h
    · exact h
    · have := Nat.pow_le_pow_right (show 0 < 2 by omega) h
      omega
  obtain ⟨d, rfl⟩ : ∃ d, k = d + r + 1 := ⟨k - r - 1, by omega⟩
  have hmid : 2 ^ (d + r + 1) / 2 = 2 ^ r * 2 ^ d := by
    rw [Nat.pow_succ, Nat.mul_div_cancel _ (by omega), Nat.pow_add, Nat.mul_comm]
  have hfull : 2 ^ (d + r + 1) = 2 ^ r * 2 * 2 ^ d := by
    rw [Nat.pow_succ, Nat.pow_add, Nat.mul_comm (2 ^ d), Nat.mul_right_comm]
  rw [hmid]
  rw [hfull] at h4
  obtain ⟨g, hgd⟩ : ∃ g, g = 2 ^ r := ⟨_, rfl⟩
  obtain ⟨c, hcd⟩ : ∃ c, c = 2 ^ d := ⟨_, rfl⟩
  have hgpos : 0 < g := by rw [hgd]; exact Nat.two_pow_pos r
  rw [← hgd, ← hcd] at h4 ⊢
  rw [← hgd] at hg
  unfold numSend
  obtain ⟨a, ha⟩ : ∃ a, (n - g) / (g * 2) = a := ⟨_, rfl⟩
  obtain ⟨b, hb⟩ : ∃ b, (n - g) % (g * 2) = b := ⟨_, rfl⟩
  have hdn := Nat.div_add_mod (n - g) (g * 2)
  rw [ha, hb] at hdn
  rw [ha, hb, Nat.mul_comm a g]
  have hac : a + 1 ≤ c := by
    rcases Nat.lt_or_ge a c with h | h
    · exact h
    · have := Nat.mul_le_mul_left (g * 2) h
      omega
  have := Nat.mul_le_mul_left g hac
  rw [Nat.mul_add, Nat.mul_one] at this
  omega

/-- Five ranks, blocks of two elements. -/
example : (let mem := (bruck 5 2).sync (init 5 2 (fun p x => 100 * p + x) (fun _ => 0)) 9
     (List.range 5).map (fun p => (List.range 10).map (fun x => finalize 5 2 mem p x))) =
    (List.range 5).map (fun p => (List.range 10).map (fun x => 100 * (x / 2) + (p * 2 + x % 2))) := by
  decide +kernel

example : rounds 5 = 3 := by decide

end SST.Coll.Alltoall
