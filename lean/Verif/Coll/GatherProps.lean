import Verif.Coll.Gather
import Verif.Coll.AllgatherProps
/-!
C32, gather: the root ends with every rank's block at that rank's offset.
-/
set_option autoImplicit false
set_option linter.unusedSectionVars false
namespace SST.Coll.Gather
open SST.Coll

variable {V : Type}

theorem mod_succ (me i : Nat) : me % 2 ^ (i + 1) = 0 → me % 2 ^ i = 0 := by
  intro h
  have : 2 ^ i ∣ me := Nat.dvd_trans (Nat.pow_dvd_pow 2 (by omega)) (Nat.dvd_of_mod_eq_zero h)
  exact Nat.mod_eq_zero_of_dvd this

theorem reached_iff (me i : Nat) : reached me i = true ↔ me % 2 ^ i = 0 := by
  induction i with
  | zero => simp [reached, Nat.mod_one]
  | succ i ih =>
    simp only [reached, Bool.and_eq_true, beq_iff_eq, ih]
    exact ⟨fun h => h.2, fun h => ⟨mod_succ me i h, h⟩⟩

/-- A multiple of `2^i` that is not one of `2^(i+1)` is `2^i` above one. -/
theorem sender_partner (me i : Nat) (h1 : me % 2 ^ i = 0) (h2 : me % 2 ^ (i + 1) ≠ 0) :
    2 ^ i ≤ me ∧ (me - 2 ^ i) % 2 ^ (i + 1) = 0 := by
  obtain ⟨c, rfl⟩ := Nat.dvd_of_mod_eq_zero h1
  have hp := Nat.two_pow_pos i
  have hodd : c % 2 = 1 := by
    refine Classical.byContradiction fun h => h2 ?_
    obtain ⟨d, rfl⟩ : ∃ d, c = 2 * d := ⟨c / 2, by omega⟩
    rw [← Nat.mul_assoc, ← Nat.pow_succ]
    exact Nat.mul_mod_right _ _
  obtain ⟨d, rfl⟩ : ∃ d, c = 2 * d + 1 := ⟨c / 2, by omega⟩
  have e1 : 2 ^ i * (2 * d + 1) = 2 ^ (i + 1) * d + 2 ^ i := by
    rw [Nat.mul_add, Nat.mul_one, ← Nat.mul_assoc, ← Nat.pow_succ]
  rw [e1]
  refine ⟨by omega, ?_⟩
  rw [Nat.add_sub_cancel]
  exact Nat.mul_mod_right _ _

theorem recver_partner (me i : Nat) (h : me % 2 ^ (i + 1) = 0) :
    (me + 2 ^ i) % 2 ^ i = 0 ∧ (me + 2 ^ i) % 2 ^ (i + 1) ≠ 0 := by
  have h' := mod_succ me i h
  refine ⟨by rw [Nat.add_mod_right]; exact h', ?_⟩
  obtain ⟨c, rfl⟩ := Nat.dvd_of_mod_eq_zero h
  have hp := Nat.two_pow_pos i
  rw [Nat.mul_add_mod, Nat.mod_eq_of_lt (by rw [Nat.pow_succ]; omega)]
  omega

section
variable (n root e : Nat)

theorem treeSend_some {p i q : Nat} {x : Xfer} (h : treeSend n root e p i q = some x) :
    2 ^ i ≤ maxGap n root ∧ p % 2 ^ i = 0 ∧ p % 2 ^ (i + 1) ≠ 0 ∧ q = p - 2 ^ i ∧
    x = { buf := 0, off := 0, len := (min (p + 2 ^ i) n - p) * e } := by
  unfold treeSend at h
  split at h
  · rename_i hc
    simp only [Option.some.injEq] at h
    exact ⟨hc.1, (reached_iff p i).mp hc.2.1, hc.2.2.1, hc.2.2.2, h.symm⟩
  · simp at h

theorem treeRecv_some {p i q : Nat} {x : Xfer} (h : treeRecv n root e p i q = some x) :
    2 ^ i ≤ maxGap n root ∧ p % 2 ^ (i + 1) = 0 ∧ q = p + 2 ^ i ∧ q < n ∧
    x = { buf := 0, off := 2 ^ i * e, len := (min (p + 2 ^ i + 2 ^ i) n - (p + 2 ^ i)) * e } := by
  unfold treeRecv at h
  split at h
  · rename_i hc
    simp only [Option.some.injEq] at h
    exact ⟨hc.1, hc.2.2.1, hc.2.2.2.1, hc.2.2.2.2, h.symm⟩
  · simp at h

theorem treeSend_eq {p i : Nat} (h1 : 2 ^ i ≤ maxGap n root) (h2 : p % 2 ^ (i + 1) = 0) :
    treeSend n root e (p + 2 ^ i) i p =
      some { buf := 0, off := 0, len := (min (p + 2 ^ i + 2 ^ i) n - (p + 2 ^ i)) * e } := by
  obtain ⟨g1, g2⟩ := recver_partner p i h2
  unfold treeSend
  rw [if_pos ⟨h1, (reached_iff _ _).mpr g1, g2, by omega⟩]

theorem treeRecv_eq {p i : Nat} (h1 : 2 ^ i ≤ maxGap n root) (h2 : p % 2 ^ (i + 1) = 0) (h3 : p + 2 ^ i < n) :
    treeRecv n root e p i (p + 2 ^ i) =
      some { buf := 0, off := 2 ^ i * e, len := (min (p + 2 ^ i + 2 ^ i) n - (p + 2 ^ i)) * e } := by
  unfold treeRecv
  rw [if_pos ⟨h1, (reached_iff _ _).mpr (mod_succ p i h2), h2, rfl, h3⟩]

theorem lastStep_some {p : Nat} {t : Nat × Nat × Nat} (h : lastStep n root e p = some t) :
    root ≠ 0 ∧ ((p = 0 ∧ t = (0, 0, mid n * e)) ∨
      (p ≠ 0 ∧ p = mid n ∧ mid n ≠ root ∧ t = (0, mid n * e, (n - mid n) * e))) := by
  unfold lastStep at h
  split at h
  · simp at h
  · rename_i h0
    refine ⟨h0, ?_⟩
    split at h
    · rename_i hp
      simp only [Option.some.injEq] at h
      exact Or.inl ⟨hp, h.symm⟩
    · rename_i hp
      split at h
      · rename_i hm
        simp only [Option.some.injEq] at h
        exact Or.inr ⟨hp, hm.1, hm.2, h.symm⟩
      · simp at h

theorem send_tree (p i q : Nat) (hi : i < (computeTree n).log2nproc) :
    (gather (V := V) n root e).send p i q = treeSend n root e p i q := by
  simp only [gather, hi, if_true]

theorem recv_tree (p i q : Nat) (hi : i < (computeTree n).log2nproc) :
    (gather (V := V) n root e).recv p i q = treeRecv n root e p i q := by
  simp only [gather, hi, if_true]

theorem send_late {p i q : Nat} {x : Xfer} (hi : ¬ i < (computeTree n).log2nproc)
    (h : (gather (V := V) n root e).send p i q = some x) :
    i = (computeTree n).log2nproc + 1 ∧ q = root ∧
    ∃ t, lastStep n root e p = some t ∧ x = { buf := 0, off := t.1, len := t.2.2 } := by
  simp only [gather, hi, if_false] at h
  split at h
  · rename_i hc
    cases ht : lastStep n root e p with
    | none => rw [ht] at h; simp at h
    | some t =>
      rw [ht] at h
      simp only [Option.map_some, Option.some.injEq] at h
      exact ⟨hc.1, hc.2, t, rfl, h.symm⟩
  · simp at h

theorem recv_late {p i q : Nat} {x : Xfer} (hi : ¬ i < (computeTree n).log2nproc)
    (h : (gather (V := V) n root e).recv p i q = some x) :
    i = (computeTree n).log2nproc + 1 ∧ p = root ∧
    ∃ t, lastStep n root e q = some t ∧ x = { buf := 0, off := t.2.1, len := t.2.2 } := by
  simp only [gather, hi, if_false] at h
  split at h
  · rename_i hc
    cases ht : lastStep n root e q with
    | none => rw [ht] at h; simp at h
    | some t =>
      rw [ht] at h
      simp only [Option.map_some, Option.some.injEq] at h
      exact ⟨hc.1, hc.2, t, rfl, h.symm⟩
  · simp at h

theorem loc_some {p i : Nat} {o : LocalOp V} (h : (gather (V := V) n root e).loc p i = some o) :
    i = (computeTree n).log2nproc ∧ p = root ∧ root ≠ 0 ∧ root = mid n ∧ o = shuffle n e := by
  simp only [gather] at h
  split at h
  · rename_i hc
    simp only [Option.some.injEq] at h
    exact ⟨hc.1, hc.2.1, hc.2.2.1, hc.2.2.2, h.symm⟩
  · simp at h

variable (hn : 2 ≤ n) (hr : root < n)
include hn

/-- The midpoint is the largest power of two below `n`. -/
theorem mid_spec : ∃ K, (computeTree n).log2nproc = K + 1 ∧ mid n = 2 ^ K ∧ 2 ^ K < n ∧ n ≤ 2 ^ K + 2 ^ K := by
  obtain ⟨K, h1, _, h3, h4, h5⟩ := computeTree_spec n
  cases K with
  | zero => simp at h4; omega
  | succ K =>
    refine ⟨K, h1, ?_, by simpa using h5, by rw [Nat.pow_succ] at h4; omega⟩
    unfold mid
    rw [h3, Nat.pow_succ]
    omega

include hr

theorem gather_ok : (gather (V := V) n root e).Ok := by
  obtain ⟨K, hK, hm, hlt, hle⟩ := mid_spec n hn
  have hmpos : 0 < mid n := by rw [hm]; exact Nat.two_pow_pos K
  refine ⟨?_, ?_, ?_, ?_, ?_, ?_, ?_⟩
  · -- matched
    intro p i q x hp hi hq h
    by_cases hik : i < (computeTree n).log2nproc
    · rw [send_tree n root e p i q hik] at h
      obtain ⟨h1, h2, h3, h4, h5⟩ := treeSend_some n root e h
      obtain ⟨g1, g2⟩ := sender_partner p i h2 h3
      have hpq : p = q + 2 ^ i := by omega
      rw [← h4] at g2
      have hpn : p < n := hp
      refine ⟨{ buf := 0, off := 2 ^ i * e, len := (min (q + 2 ^ i + 2 ^ i) n - (q + 2 ^ i)) * e }, ?_, ?_⟩
      · rw [recv_tree n root e q i p hik, hpq]
        exact treeRecv_eq n root e h1 g2 (by omega)
      · rw [h5]
        simp only
        rw [hpq]
    · obtain ⟨h1, h2, t, h3, h4⟩ := send_late n root e hik h
      refine ⟨{ buf := 0, off := t.2.1, len := t.2.2 }, ?_, by rw [h4]⟩
      simp only [gather, hik, if_false]
      rw [if_pos ⟨h1, h2⟩, h3]
      rfl
  · -- matched'
    intro p i q y hp hi hq h
    by_cases hik : i < (computeTree n).log2nproc
    · rw [recv_tree n root e q i p hik] at h
      obtain ⟨h1, h2, h3, h4, h5⟩ := treeRecv_some n root e h
      rw [send_tree n root e p i q hik, h3]
      exact ⟨_, treeSend_eq n root e h1 h2⟩
    · obtain ⟨h1, h2, t, h3, h4⟩ := recv_late n root e hik h
      refine ⟨{ buf := 0, off := t.1, len := t.2.2 }, ?_⟩
      simp only [gather, hik, if_false]
      rw [if_pos ⟨h1, h2⟩, h3]
      rfl
  · intro p i q x _ _ _ _; rfl
  · -- keys
    intro p i q p' i' q' x x' hp hi hq hp' hi' hq' h h' h1 h2 h3
    simp only [gather, id_eq] at h1 h2 h3
    subst h1
    subst h2
    refine ⟨rfl, ?_, rfl⟩
    by_cases hik : i < (computeTree n).log2nproc <;> by_cases hik' : i' < (computeTree n).log2nproc
    · rw [if_pos (by omega), if_pos (by omega)] at h3; exact h3
    · have := (recv_late n root e hik' h').1
      rw [if_pos (by omega), if_neg (by omega)] at h3
      omega
    · have := (recv_late n root e hik h).1
      rw [if_neg (by omega), if_pos (by omega)] at h3
      omega
    · have := (recv_late n root e hik h).1
      have := (recv_late n root e hik' h').1
      omega
  · apply Rounds.sep_of_inj
    intro p q _ _ h
    exact h
  · -- round
    intro a b l ha hb hab hp hi hw hu
    obtain ⟨_, _, _, hah⟩ := Rounds.mem_acts.mp ha
    obtain ⟨_, _, _, hbh⟩ := Rounds.mem_acts.mp hb
    obtain ⟨p, i, k, q⟩ := a
    obtain ⟨p', i', k', q'⟩ := b
    simp only at hp hi
    subst hp
    subst hi
    cases k with
    | send => simp [Rounds.writesB] at hw
    | loc =>
      simp only [Rounds.has, Bool.and_eq_true, beq_iff_eq] at hah
      obtain ⟨o, ho⟩ := Option.isSome_iff_exists.mp hah.1
      replace ho : (gather (V := V) n root e).loc p i = some o := ho
      obtain ⟨e1, _⟩ := loc_some n root e ho
      cases k' with
      | loc =>
        simp only [Rounds.has, Bool.and_eq_true, beq_iff_eq] at hbh
        apply hab
        rw [hah.2, hbh.2]
      | send =>
        obtain ⟨x, hx⟩ := Option.isSome_iff_exists.mp hbh
        replace hx : _ = some x := hx
        simp only at hx
        have := (send_late n root e (by omega) hx).1
        omega
      | recv =>
        obtain ⟨x, hx⟩ := Option.isSome_iff_exists.mp hbh
        replace hx : _ = some x := hx
        simp only at hx
        have := (recv_late n root e (by omega) hx).1
        omega
    | recv =>
      obtain ⟨y, hy⟩ := Option.isSome_iff_exists.mp hah
      simp only at hy
      simp only [Rounds.writesB, hy, Rounds.inX, Bool.and_eq_true, beq_iff_eq, decide_eq_true_eq] at hw
      by_cases hik : i < (computeTree n).log2nproc
      · rw [recv_tree n root e p i q hik] at hy
        obtain ⟨h1, h2, h3, h4, h5⟩ := treeRecv_some n root e hy
        cases k' with
        | loc =>
          simp only [Rounds.has, Bool.and_eq_true, beq_iff_eq] at hbh
          obtain ⟨o, ho⟩ := Option.isSome_iff_exists.mp hbh.1
          replace ho : (gather (V := V) n root e).loc p i = some o := ho
          have := (loc_some n root e ho).1
          omega
        | recv =>
          obtain ⟨y', hy'⟩ := Option.isSome_iff_exists.mp hbh
          rw [recv_tree n root e p i q' hik] at hy'
          have := (treeRecv_some n root e hy').2.2.1
          apply hab
          rw [h3, this]
        | send =>
          obtain ⟨x, hx⟩ := Option.isSome_iff_exists.mp hbh
          replace hx : _ = some x := hx
          simp only at hx
          rw [send_tree n root e p i q' hik] at hx
          exact (treeSend_some n root e hx).2.2.1 h2
      · obtain ⟨h1, h2, t, h3, h4⟩ := recv_late n root e hik hy
        obtain ⟨h0, c⟩ := lastStep_some n root e h3
        cases k' with
        | loc =>
          simp only [Rounds.has, Bool.and_eq_true, beq_iff_eq] at hbh
          obtain ⟨o, ho⟩ := Option.isSome_iff_exists.mp hbh.1
          replace ho : (gather (V := V) n root e).loc p i = some o := ho
          have := (loc_some n root e ho).1
          omega
        | recv =>
          obtain ⟨y', hy'⟩ := Option.isSome_iff_exists.mp hbh
          simp only at hy'
          simp only [Rounds.writesB, Rounds.touchB, hy', Rounds.inX, Bool.and_eq_true, beq_iff_eq,
            decide_eq_true_eq, or_self] at hu
          obtain ⟨_, _, t', h3', h4'⟩ := recv_late n root e hik hy'
          obtain ⟨_, c'⟩ := lastStep_some n root e h3'
          rcases c with ⟨c1, c2⟩ | ⟨_, c1, _, c2⟩ <;> rcases c' with ⟨d1, d2⟩ | ⟨_, d1, _, d2⟩
          · apply hab; rw [c1, d1]
          · rw [h4, c2] at hw
            rw [h4', d2] at hu
            simp only at hw hu
            omega
          · rw [h4, c2] at hw
            rw [h4', d2] at hu
            simp only at hw hu
            omega
          · apply hab; rw [c1, d1]
        | send =>
          obtain ⟨x, hx⟩ := Option.isSome_iff_exists.mp hbh
          replace hx : _ = some x := hx
          simp only at hx
          obtain ⟨_, _, t', h3', _⟩ := send_late n root e hik hx
          obtain ⟨_, c'⟩ := lastStep_some n root e h3'
          rcases c' with ⟨d1, _⟩ | ⟨_, d1, d2, _⟩
          · omega
          · omega
  · -- localOk
    intro p i o M M' b x h hw hM
    obtain ⟨_, _, _, _, rfl⟩ := loc_some n root e h
    simp only [shuffle, Bool.and_eq_true, beq_iff_eq, decide_eq_true_eq] at hw hM ⊢
    exact hM 0 _ ⟨rfl, by omega⟩

/-- After round `r` of the loop, a rank that is still receiving holds the blocks of the
`2^r` ranks from itself on. -/
theorem tree_sync (contrib old : Nat → Nat → V) (r : Nat) (hrK : r ≤ (computeTree n).log2nproc)
    (hgap : 2 ^ r ≤ 2 * maxGap n root ∨ r = 0) :
    ∀ p j y, p < n → p % 2 ^ r = 0 → j < 2 ^ r → p + j < n → y < e →
      (gather n root e).sync (gatherInit e contrib old) r (p, 0, j * e + y) = contrib (p + j) y := by
  induction r with
  | zero =>
    intro p j y _ _ hj _ hy
    have : j = 0 := by simpa using hj
    subst this
    show gatherInit e contrib old (p, 0, 0 * e + y) = _
    simp only [gatherInit, Nat.zero_mul, Nat.zero_add, if_pos hy, Nat.add_zero]
  | succ r ih =>
    intro p j y hp hpm hj hpj hy
    have hpow : 2 ^ (r + 1) = 2 ^ r + 2 ^ r := by rw [Nat.pow_succ]; omega
    have hg : 2 ^ r ≤ maxGap n root := by
      rcases hgap with h | h
      · omega
      · omega
    have ih' := ih (by omega) (Or.inl (by omega))
    have hik : r < (computeTree n).log2nproc := by omega
    by_cases hj' : j < 2 ^ r
    · rw [Rounds.sync_keep', ih' p j y hp (mod_succ p r hpm) hj' hpj hy]
      · intro q _ h; exact h
      · intro q z _ hz
        rw [recv_tree n root e p r q hik] at hz
        obtain ⟨_, _, _, _, rfl⟩ := treeRecv_some n root e hz
        rintro ⟨_, h1, _⟩
        simp only at h1
        have := Allgather.blk_lt hj' hy
        omega
      · intro o ho
        have := (loc_some n root e ho).1
        omega
    · obtain ⟨d, rfl⟩ : ∃ d, j = 2 ^ r + d := ⟨j - 2 ^ r, by omega⟩
      have hs := treeSend_eq n root e hg hpm
      have hrc := treeRecv_eq n root e hg hpm (by omega)
      rw [← send_tree (V := V) n root e _ r _ hik] at hs
      rw [← recv_tree (V := V) n root e _ r _ hik] at hrc
      have := Rounds.sync_recv (gather_ok n root e hn hr) (gatherInit e contrib old) (p := p) (i := r)
        (q := p + 2 ^ r) hp (by simp only [gather]; omega) (show p + 2 ^ r < n by omega) hs hrc (d * e + y)
        (by
          have hd : d < min (p + 2 ^ r + 2 ^ r) n - (p + 2 ^ r) := by omega
          exact Allgather.blk_lt hd hy)
      simp only [Bool.false_eq_true, if_false, Nat.zero_add] at this
      have hidx : (2 ^ r + d) * e + y = 2 ^ r * e + (d * e + y) := by rw [Nat.add_mul]; omega
      rw [hidx]
      refine Eq.trans this ?_
      have := ih' (p + 2 ^ r) d y (by omega) (recver_partner p r hpm).1 (by omega) (by omega) hy
      refine Eq.trans this ?_
      rw [show p + 2 ^ r + d = p + (2 ^ r + d) by omega]

/-- Rounds of the loop beyond `maxGap` do nothing. -/
theorem idle (M0 : Loc → V) (i : Nat) (hi : i < (computeTree n).log2nproc) (hg : ¬ 2 ^ i ≤ maxGap n root) (l : Loc) :
    (gather n root e).sync M0 (i + 1) l = (gather n root e).sync M0 i l := by
  obtain ⟨p, b, x⟩ := l
  apply Rounds.sync_keep'
  · intro q _ h; exact h
  · intro q z _ hz
    rw [recv_tree n root e p i q hi] at hz
    exact absurd (treeRecv_some n root e hz).1 hg
  · intro o ho
    have := (loc_some n root e ho).1
    omega

end

/-- C32, gather: whatever the order and delay of messages, for every number of ranks, root
and block size, the gather ends on all ranks, all messages are consumed, and the root holds
every rank's block at that rank's offset. -/
theorem C32_gather (n root e : Nat) (hn : 2 ≤ n) (hr : root < n) (contrib old : Nat → Nat → V) :
    Yields (gather n root e).sys (gatherInit e contrib old)
      (fun mem => ∀ r y, r < n → y < e → mem (root, 0, r * e + y) = contrib r y) := by
  have ok := gather_ok (V := V) n root e hn hr
  apply Rounds.ends ok
  intro r y hrn hy
  obtain ⟨K, hK, hm, hlt, hle⟩ := mid_spec n hn
  have hpow : 2 ^ (K + 1) = 2 ^ K + 2 ^ K := by rw [Nat.pow_succ]; omega
  have hpos := Nat.two_pow_pos K
  show (gather n root e).sync _ ((computeTree n).log2nproc + 2) _ = _
  rw [hK]
  by_cases h0 : root = 0
  · subst h0
    have hmax : maxGap n 0 = 2 ^ K := by unfold maxGap; rw [if_pos rfl, hm]
    have ht := tree_sync n 0 e hn hr contrib old (K + 1) (by omega) (Or.inl (by omega)) 0 r y hr
      (Nat.zero_mod _) (by omega) (by omega) hy
    rw [Nat.zero_add] at ht
    have nokeep : ∀ i, ¬ i < K + 1 → (gather n 0 e).sync (gatherInit e contrib old) (i + 1) (0, 0, r * e + y) =
        (gather n 0 e).sync (gatherInit e contrib old) i (0, 0, r * e + y) := by
      intro i hi
      apply Rounds.sync_keep'
      · intro q _ h; exact h
      · intro q z _ hz
        obtain ⟨_, _, t, h3, _⟩ := recv_late n 0 e (by rw [hK]; exact hi) hz
        exact absurd rfl (lastStep_some n 0 e h3).1
      · intro o ho
        exact absurd rfl (loc_some n 0 e ho).2.2.1
    rw [nokeep (K + 2) (by omega), nokeep (K + 1) (by omega)]
    exact ht
  · have hmax : maxGap n root = 2 ^ K / 2 := by unfold maxGap; rw [if_neg h0, hm]
    have hcap : 2 ^ K ≤ 2 * maxGap n root ∨ K = 0 := by
      rw [hmax]
      cases K with
      | zero => exact Or.inr rfl
      | succ K => left; rw [Nat.pow_succ]; omega
    have ht := tree_sync n root e hn hr contrib old K (by omega) hcap
    have hidle := idle n root e hn hr (gatherInit e contrib old) K (by omega) (by omega)
    -- the senders of the last step hold their halves after the shuffle round
    have hkeepS : ∀ p x, p ≠ root ∨ root ≠ mid n ∨ x < mid n * e →
        (gather n root e).sync (gatherInit e contrib old) (K + 2) (p, 0, x) =
        (gather n root e).sync (gatherInit e contrib old) (K + 1) (p, 0, x) := by
      intro p x hc
      apply Rounds.sync_keep'
      · intro q _ h; exact h
      · intro q z _ hz
        have := (recv_late n root e (by omega) hz).1
        omega
      · intro o ho
        obtain ⟨_, g1, _, g2, rfl⟩ := loc_some n root e ho
        simp only [shuffle]
        rcases hc with h | h | h
        · exact absurd g1 h
        · exact absurd g2 h
        · simp only [beq_self_eq_true, Bool.true_and, Bool.and_eq_false_iff, decide_eq_false_iff_not]
          left; omega
    by_cases hrm : r < 2 ^ K
    · -- the first half comes from rank 0
      have hs : (gather (V := V) n root e).send 0 (K + 2) root = some { buf := 0, off := 0, len := mid n * e } := by
        simp only [gather]
        rw [if_neg (by omega), if_pos ⟨by omega, trivial⟩]
        simp only [lastStep, if_neg h0, if_true, Option.map_some]
      have hrc : (gather (V := V) n root e).recv root (K + 2) 0 = some { buf := 0, off := 0, len := mid n * e } := by
        simp only [gather]
        rw [if_neg (by omega), if_pos ⟨by omega, trivial⟩]
        simp only [lastStep, if_neg h0, if_true, Option.map_some]
      have := Rounds.sync_recv ok (gatherInit e contrib old) (p := root) (i := K + 2) (q := 0) hr
        (by simp only [gather]; omega) (show 0 < n by omega) hs hrc (r * e + y) (Allgather.blk_lt (by rw [hm]; exact hrm) hy)
      simp only [Bool.false_eq_true, if_false, Nat.zero_add] at this
      refine Eq.trans this ?_
      show (gather n root e).sync _ (K + 2) (0, 0, _) = _
      rw [hkeepS 0 _ (Or.inl (by omega)), hidle]
      have := ht 0 r y (by omega) (Nat.zero_mod _) hrm (by omega) hy
      rw [Nat.zero_add] at this
      exact this
    · obtain ⟨d, rfl⟩ : ∃ d, r = 2 ^ K + d := ⟨r - 2 ^ K, by omega⟩
      have hd : d < n - mid n := by omega
      have hidx : (2 ^ K + d) * e + y = mid n * e + (d * e + y) := by rw [hm, Nat.add_mul]; omega
      have hmidblk := ht (2 ^ K) d y hlt (Nat.mod_self _) (by omega) (by omega) hy
      by_cases hrootm : root = mid n
      · -- the root is the midpoint: the shuffle moved the second half into place
        rw [hidx]
        have hkeep : (gather n root e).sync (gatherInit e contrib old) (K + 2 + 1) (root, 0, mid n * e + (d * e + y)) =
            (gather n root e).sync (gatherInit e contrib old) (K + 2) (root, 0, mid n * e + (d * e + y)) := by
          apply Rounds.sync_keep'
          · intro q _ h; exact h
          · intro q z _ hz
            obtain ⟨_, _, t, h3, rfl⟩ := recv_late n root e (by omega) hz
            rcases (lastStep_some n root e h3).2 with ⟨_, rfl⟩ | ⟨_, _, g, _⟩
            · rintro ⟨_, _, h⟩
              simp only at h
              omega
            · exact absurd hrootm.symm g
          · intro o ho
            have := (loc_some n root e ho).1
            omega
        refine Eq.trans hkeep ?_
        have hloc : (gather (V := V) n root e).loc root (K + 1) = some (shuffle n e) := by
          simp only [gather]
          rw [if_pos ⟨by omega, trivial, h0, hrootm⟩]
        have ha : (⟨root, K + 1, .loc, root⟩ : Act) ∈ (gather (V := V) n root e).acts := by
          rw [Rounds.mem_acts]
          refine ⟨hr, ?_, hr, by simp [Rounds.has, hloc]⟩
          simp only [gather]; omega
        have hwr : (shuffle (V := V) n e).wr 0 (mid n * e + (d * e + y)) = true := by
          have h1 := Allgather.blk_lt hd hy
          simp only [shuffle, beq_self_eq_true, Bool.true_and, Bool.and_eq_true, decide_eq_true_eq]
          omega
        have hw : (gather (V := V) n root e).writesB ⟨root, K + 1, .loc, root⟩ (root, 0, mid n * e + (d * e + y)) = true := by
          simp only [Rounds.writesB, hloc, Bool.and_eq_true]
          exact ⟨by simp [gather], hwr⟩
        have := Rounds.sync_write ok (gatherInit e contrib old) ha hw
        refine Eq.trans this ?_
        simp only [Rounds.effF, hloc]
        rw [if_pos (by simp only [Bool.and_eq_true]; exact ⟨by simp [gather], hwr⟩)]
        show (gather n root e).sync _ (K + 1) (root, 0, mid n * e + (d * e + y) - mid n * e) = _
        rw [Nat.add_sub_cancel_left, hidle, hrootm, hm]
        rw [hrootm, hm] at hmidblk
        exact hmidblk
      · have hmid0 : mid n ≠ 0 := by omega
        have hs : (gather (V := V) n root e).send (mid n) (K + 2) root =
            some { buf := 0, off := 0, len := (n - mid n) * e } := by
          simp only [gather]
          rw [if_neg (by omega), if_pos ⟨by omega, trivial⟩]
          simp only [lastStep, if_neg h0, if_neg hmid0]
          rw [if_pos ⟨trivial, fun h => hrootm h.symm⟩]
          rfl
        have hrc : (gather (V := V) n root e).recv root (K + 2) (mid n) =
            some { buf := 0, off := mid n * e, len := (n - mid n) * e } := by
          simp only [gather]
          rw [if_neg (by omega), if_pos ⟨by omega, trivial⟩]
          simp only [lastStep, if_neg h0, if_neg hmid0]
          rw [if_pos ⟨trivial, fun h => hrootm h.symm⟩]
          rfl
        have := Rounds.sync_recv ok (gatherInit e contrib old) (p := root) (i := K + 2) (q := mid n) hr
          (by simp only [gather]; omega) (show mid n < n by omega) hs hrc (d * e + y) (Allgather.blk_lt hd hy)
        simp only [Bool.false_eq_true, if_false, Nat.zero_add] at this
        rw [hidx]
        refine Eq.trans this ?_
        show (gather n root e).sync _ (K + 2) (mid n, 0, _) = _
        rw [hkeepS _ _ (Or.inl (fun h => hrootm h.symm)), hidle, hm]
        exact hmidblk

/-- Six ranks, blocks of two elements, roots 3 and 4 (the midpoint). -/
example : (let mem := (gather 6 3 2).sync (gatherInit 2 (fun r y => 10 * r + y) (fun _ _ => 99)) 5
     (List.range 12).map (fun x => mem (3, 0, x))) = [0, 1, 10, 11, 20, 21, 30, 31, 40, 41, 50, 51] ∧
    (let mem := (gather 6 4 2).sync (gatherInit 2 (fun r y => 10 * r + y) (fun _ _ => 99)) 5
     (List.range 12).map (fun x => mem (4, 0, x))) = [0, 1, 10, 11, 20, 21, 30, 31, 40, 41, 50, 51] := by
  decide +kernel

end SST.Coll.Gather
