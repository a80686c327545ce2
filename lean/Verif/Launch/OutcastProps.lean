import Verif.Launch.Outcast
/-
C60.
-/
set_option autoImplicit false
namespace SST.Launch

theorem power2_spec (n fuel k : Nat) (h : n ≤ 2 ^ (k + fuel)) : n ≤ 2 ^ power2 n fuel k := by
  induction fuel generalizing k with
  | zero => exact h
  | succ f ih =>
    simp only [power2]
    split
    · exact ih (k + 1) (by rw [show k + 1 + f = k + (f + 1) by omega]; exact h)
    · omega

/-- No smaller power would do. -/
theorem power2_min (n fuel k m : Nat) (hm : n ≤ 2 ^ m) (hk : k ≤ m) : power2 n fuel k ≤ m := by
  induction fuel generalizing k with
  | zero => exact hk
  | succ f ih =>
    simp only [power2]
    split
    · next hlt =>
      refine ih (k + 1) ?_
      rcases Nat.lt_or_ge k m with h | h
      · exact h
      · have : k = m := by omega
        subst this
        omega
    · exact hk

theorem n_le_power2 (n : Nat) : n ≤ 2 ^ power2 n n 0 := power2_spec n n 0 (by rw [Nat.zero_add]; exact Nat.le_of_lt Nat.lt_two_pow_self)

theorem forwardIn_length (rank n k offset : Nat) : (forwardIn rank n k offset).length ≤ k := by
  induction k generalizing offset with
  | zero => exact Nat.le_refl _
  | succ k ih =>
    simp only [forwardIn]
    rw [List.length_append]
    have h1 : (if rank % 2 ^ (k + 1) = 0 then (if offset + 2 ^ k < n then [offset + 2 ^ k] else []) else []).length ≤ 1 := by
      split
      · split <;> simp
      · simp
    have h2 : (if rank ≥ offset + 2 ^ k then forwardIn rank n k (offset + 2 ^ k) else forwardIn rank n k offset).length ≤ k := by
      split
      · exact ih _
      · exact ih _
    omega

/-- **C60**. No rank sends more than `ceil(log2 n)` messages: at most `k` whenever `n <= 2^k`. -/
theorem C60_sends (rank n k : Nat) (h : n ≤ 2 ^ k) : (forwardTo rank n).length ≤ k :=
  Nat.le_trans (forwardIn_length _ _ _ _) (power2_min n n 0 k h (Nat.zero_le _))

/-- The destinations in a block of ranks. -/
def dests (n k offset : Nat) : List Nat := (List.range' offset (2 ^ k)).flatMap fun r => forwardIn r n k offset

theorem flatMap_congr' {α β : Type} {l : List α} {f g : α → List β} (h : ∀ x ∈ l, f x = g x) : l.flatMap f = l.flatMap g := by
  induction l with
  | nil => rfl
  | cons x l ih => rw [List.flatMap_cons, List.flatMap_cons, h x (List.mem_cons_self ..), ih fun y hy => h y (List.mem_cons_of_mem _ hy)]

theorem dests_succ (n k offset : Nat) (hd : 2 ^ (k + 1) ∣ offset) :
    dests n (k + 1) offset = (if offset + 2 ^ k < n then [offset + 2 ^ k] else []) ++ dests n k offset ++ dests n k (offset + 2 ^ k) := by
  have hp : 0 < 2 ^ k := Nat.two_pow_pos k
  have hpow : 2 ^ (k + 1) = 2 ^ k + 2 ^ k := by rw [Nat.pow_succ]; omega
  obtain ⟨q, hq⟩ := hd
  have hrole : ∀ r, offset < r → r < offset + 2 ^ (k + 1) → r % 2 ^ (k + 1) ≠ 0 := by
    intro r h1 h2 h0
    have h3 : (r - offset) % 2 ^ (k + 1) = 0 := by
      have : r = (r - offset) + 2 ^ (k + 1) * q := by omega
      rw [this, Nat.add_mul_mod_self_left] at h0
      exact h0
    rw [Nat.mod_eq_of_lt (by omega)] at h3
    omega
  have hr0 : offset % 2 ^ (k + 1) = 0 := by rw [hq]; exact Nat.mul_mod_right _ _
  have hsplit : List.range' offset (2 ^ (k + 1)) = List.range' offset (2 ^ k) ++ List.range' (offset + 2 ^ k) (2 ^ k) := by
    rw [hpow, ← List.range'_append_1]
  unfold dests
  rw [hsplit, List.flatMap_append]
  congr 1
  · obtain ⟨m, hm⟩ : ∃ m, 2 ^ k = m + 1 := ⟨2 ^ k - 1, by omega⟩
    have hcons : List.range' offset (2 ^ k) = offset :: List.range' (offset + 1) m := by rw [hm, List.range'_succ]
    rw [hcons, List.flatMap_cons, List.flatMap_cons]
    have h1 : forwardIn offset n (k + 1) offset = (if offset + 2 ^ k < n then [offset + 2 ^ k] else []) ++ forwardIn offset n k offset := by
      simp only [forwardIn]
      rw [if_pos hr0, if_neg (show ¬ offset ≥ offset + 2 ^ k by omega)]
    have h2 : (List.range' (offset + 1) m).flatMap (fun r => forwardIn r n (k + 1) offset) = (List.range' (offset + 1) m).flatMap (fun r => forwardIn r n k offset) := by
      apply flatMap_congr'
      intro r hr
      rw [List.mem_range'_1] at hr
      simp only [forwardIn]
      rw [if_neg (hrole r (by omega) (by omega)), if_neg (show ¬ r ≥ offset + 2 ^ k by omega)]
      rfl
    rw [h1, h2, List.append_assoc]
  · apply flatMap_congr'
    intro r hr
    rw [List.mem_range'_1] at hr
    simp only [forwardIn]
    rw [if_neg (hrole r (by omega) (by omega)), if_pos (show r ≥ offset + 2 ^ k by omega)]
    rfl

/-- In a block every rank but the first is a destination once, if it exists. -/
theorem dests_perm (n k offset : Nat) (hd : 2 ^ k ∣ offset) :
    (dests n k offset).Perm ((List.range' (offset + 1) (2 ^ k - 1)).filter (· < n)) := by
  induction k generalizing offset with
  | zero => exact .refl _
  | succ k ih =>
    have hp : 0 < 2 ^ k := Nat.two_pow_pos k
    have hpow : 2 ^ (k + 1) = 2 ^ k + 2 ^ k := by rw [Nat.pow_succ]; omega
    have hd1 : 2 ^ k ∣ offset := Nat.dvd_trans (Nat.pow_dvd_pow 2 (Nat.le_succ k)) hd
    have hd2 : 2 ^ k ∣ offset + 2 ^ k := Nat.dvd_add hd1 (Nat.dvd_refl _)
    rw [dests_succ n k offset hd]
    have hsplit : List.range' (offset + 1) (2 ^ (k + 1) - 1) = List.range' (offset + 1) (2 ^ k - 1) ++ ([offset + 2 ^ k] ++ List.range' (offset + 2 ^ k + 1) (2 ^ k - 1)) := by
      have h1 : [offset + 2 ^ k] ++ List.range' (offset + 2 ^ k + 1) (2 ^ k - 1) = List.range' (offset + 2 ^ k) (2 ^ k) := by
        obtain ⟨m, hm⟩ : ∃ m, 2 ^ k = m + 1 := ⟨2 ^ k - 1, by omega⟩
        rw [show List.range' (offset + 2 ^ k) (2 ^ k) = List.range' (offset + 2 ^ k) (m + 1) by rw [← hm], List.range'_succ, hm]
        rfl
      rw [h1, show offset + 2 ^ k = offset + 1 + (2 ^ k - 1) by omega, List.range'_append_1]
      congr 1
      omega
    rw [hsplit, List.filter_append, List.filter_append]
    have h0 : [offset + 2 ^ k].filter (· < n) = if offset + 2 ^ k < n then [offset + 2 ^ k] else [] := by
      by_cases h : offset + 2 ^ k < n <;> simp [h]
    rw [h0]
    have h1 := ih offset hd1
    have h2 := ih (offset + 2 ^ k) hd2
    refine (((List.Perm.refl _).append h1).append h2).trans ?_
    rw [← List.append_assoc]
    exact List.perm_append_comm.append (.refl _)

/-- Ranks that do not exist would forward to nobody. -/
theorem forwardIn_ge (rank n k offset : Nat) (hr : n ≤ rank) (hd : 2 ^ k ∣ offset) (h1 : offset ≤ rank) (h2 : rank < offset + 2 ^ k) : forwardIn rank n k offset = [] := by
  induction k generalizing offset with
  | zero => rfl
  | succ k ih =>
    have hp : 0 < 2 ^ k := Nat.two_pow_pos k
    have hpow : 2 ^ (k + 1) = 2 ^ k + 2 ^ k := by rw [Nat.pow_succ]; omega
    have hd1 : 2 ^ k ∣ offset := Nat.dvd_trans (Nat.pow_dvd_pow 2 (Nat.le_succ k)) hd
    have hd2 : 2 ^ k ∣ offset + 2 ^ k := Nat.dvd_add hd1 (Nat.dvd_refl _)
    simp only [forwardIn]
    have hfirst : (if rank % 2 ^ (k + 1) = 0 then (if offset + 2 ^ k < n then [offset + 2 ^ k] else []) else []) = [] := by
      split
      · next h0 =>
        rw [if_neg]
        obtain ⟨q, hq⟩ := hd
        have h3 : (rank - offset) % 2 ^ (k + 1) = 0 := by
          have : rank = (rank - offset) + 2 ^ (k + 1) * q := by omega
          rw [this, Nat.add_mul_mod_self_left] at h0
          exact h0
        rw [Nat.mod_eq_of_lt (by omega)] at h3
        omega
      · rfl
    rw [hfirst, List.nil_append]
    split
    · exact ih _ hd2 (by omega) (by omega)
    · exact ih _ hd1 h1 (by omega)

/-- **C60**. Over all ranks together the message is forwarded to each rank but rank 0 exactly once, and to
nothing else. -/
theorem C60_once (n : Nat) : ((List.range n).flatMap fun r => forwardTo r n).Perm (List.range' 1 (n - 1)) := by
  have hn := n_le_power2 n
  have h := dests_perm n (power2 n n 0) 0 (Nat.dvd_zero _)
  have hall : dests n (power2 n n 0) 0 = (List.range n).flatMap fun r => forwardTo r n := by
    unfold dests
    have : List.range' 0 (2 ^ power2 n n 0) = List.range' 0 n ++ List.range' n (2 ^ power2 n n 0 - n) := by
      have h := List.range'_append_1 (s := 0) (m := n) (n := 2 ^ power2 n n 0 - n)
      rw [Nat.zero_add, show n + (2 ^ power2 n n 0 - n) = 2 ^ power2 n n 0 by omega] at h
      exact h.symm
    rw [this, List.flatMap_append, List.range_eq_range']
    have h2 : (List.range' n (2 ^ power2 n n 0 - n)).flatMap (fun r => forwardIn r n (power2 n n 0) 0) = [] := by
      rw [List.flatMap_eq_nil_iff]
      intro r hr
      rw [List.mem_range'_1] at hr
      exact forwardIn_ge r n _ 0 (by omega) (Nat.dvd_zero _) (Nat.zero_le _) (by omega)
    rw [h2, List.append_nil]
    rfl
  rw [← hall]
  refine h.trans (.of_eq ?_)
  rw [Nat.zero_add]
  rcases Nat.eq_zero_or_pos n with rfl | hpos
  · rfl
  · have hs : List.range' 1 (2 ^ power2 n n 0 - 1) = List.range' 1 (n - 1) ++ List.range' n (2 ^ power2 n n 0 - n) := by
      have h := List.range'_append_1 (s := 1) (m := n - 1) (n := 2 ^ power2 n n 0 - n)
      rw [show 1 + (n - 1) = n by omega, show n - 1 + (2 ^ power2 n n 0 - n) = 2 ^ power2 n n 0 - 1 by omega] at h
      exact h.symm
    rw [hs, List.filter_append, List.filter_eq_self.mpr, List.filter_eq_nil_iff.mpr, List.append_nil]
    · intro x hx; rw [List.mem_range'_1] at hx; simp; omega
    · intro x hx; rw [List.mem_range'_1] at hx; simp; omega

/-- Forwarding goes to higher ranks. -/
theorem forwardIn_gt (rank n k offset d : Nat) (hd : 2 ^ k ∣ offset) (h1 : offset ≤ rank) (h2 : rank < offset + 2 ^ k) (h : d ∈ forwardIn rank n k offset) : rank < d := by
  induction k generalizing offset with
  | zero => cases h
  | succ k ih =>
    have hp : 0 < 2 ^ k := Nat.two_pow_pos k
    have hpow : 2 ^ (k + 1) = 2 ^ k + 2 ^ k := by rw [Nat.pow_succ]; omega
    have hd1 : 2 ^ k ∣ offset := Nat.dvd_trans (Nat.pow_dvd_pow 2 (Nat.le_succ k)) hd
    have hd2 : 2 ^ k ∣ offset + 2 ^ k := Nat.dvd_add hd1 (Nat.dvd_refl _)
    simp only [forwardIn] at h
    rcases List.mem_append.mp h with h | h
    · split at h
      · next h0 =>
        obtain ⟨q, hq⟩ := hd
        have h3 : (rank - offset) % 2 ^ (k + 1) = 0 := by
          have : rank = (rank - offset) + 2 ^ (k + 1) * q := by omega
          rw [this, Nat.add_mul_mod_self_left] at h0
          exact h0
        rw [Nat.mod_eq_of_lt (by omega)] at h3
        split at h
        · rw [List.mem_singleton.mp h]; omega
        · cases h
      · cases h
    · split at h
      · exact ih _ hd2 (by omega) (by omega) h
      · exact ih _ hd1 h1 (by omega) h

/-- **C60**. Starting at rank 0, the message reaches every rank. -/
theorem C60_reaches (n d : Nat) (hd : d < n) : Gets n d := by
  induction d using Nat.strongRecOn with
  | _ d ih =>
    rcases Nat.eq_zero_or_pos d with rfl | hpos
    · exact .root
    · have hm : d ∈ (List.range n).flatMap fun r => forwardTo r n :=
        (C60_once n).mem_iff.mpr (by rw [List.mem_range'_1]; omega)
      obtain ⟨r, hr, hf⟩ := List.mem_flatMap.mp hm
      rw [List.mem_range] at hr
      have hlt : r < d := forwardIn_gt r n _ 0 d (Nat.dvd_zero _) (Nat.zero_le _) (by have := n_le_power2 n; omega) hf
      exact .forward (ih r hlt hr) hf

/-- **C60**. Only existing ranks get the message. -/
theorem C60_only (n d : Nat) (hn : 0 < n) (h : Gets n d) : d < n := by
  induction h with
  | root => exact hn
  | @forward r d hr hd ih =>
    have hm : d ∈ (List.range n).flatMap fun r => forwardTo r n := List.mem_flatMap.mpr ⟨r, List.mem_range.mpr ih, hd⟩
    have := (C60_once n).mem_iff.mp hm
    rw [List.mem_range'_1] at this
    omega

example : (List.range 6).map (forwardTo · 6) = [[4, 2, 1], [], [3], [], [5], []] := by decide

end SST.Launch
