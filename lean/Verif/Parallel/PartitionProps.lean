import Verif.Parallel.Partition
/-
C62.
-/
set_option autoImplicit false
namespace SST.Parallel

theorem fill_get (per nthread count : Nat) (t : PartTable) (i : Nat) :
    (fillBlock per nthread count t)[i]? = if i < count ∧ i < t.length then some (some (i / per / nthread, i / per % nthread)) else t[i]? := by
  unfold fillBlock
  induction count generalizing t with
  | zero => simp
  | succ c ih =>
    have hlen : ∀ (l : List Nat) (t : PartTable), (l.foldl (fun t i => t.set i (some (i / per / nthread, i / per % nthread))) t).length = t.length := by
      intro l
      induction l with
      | nil => intro t; rfl
      | cons x l ihl => intro t; rw [List.foldl_cons, ihl, List.length_set]
    rw [List.range_succ, List.foldl_append, List.foldl_cons, List.foldl_nil, List.getElem?_set, hlen, ih]
    by_cases hc : c = i
    · subst hc
      rw [if_pos rfl]
      by_cases hl : c < t.length
      · rw [if_pos hl, if_pos ⟨Nat.lt_succ_self c, hl⟩]
      · rw [if_neg hl, if_neg (fun h => hl h.2), List.getElem?_eq_none (by omega)]
    · rw [if_neg hc]
      by_cases h : i < c ∧ i < t.length
      · rw [if_pos h, if_pos ⟨by omega, h.2⟩]
      · rw [if_neg h, if_neg (fun h' => h ⟨by omega, h'.2⟩)]

theorem ceil_mul (n w : Nat) (hw : 0 < w) : n ≤ (if n % w ≠ 0 then n / w + 1 else n / w) * w := by
  have h1 := Nat.div_add_mod n w
  have h2 := Nat.mod_lt n hw
  split
  · rw [Nat.succ_mul, Nat.mul_comm]; omega
  · rw [Nat.mul_comm]; omega

/-- The worker, counted over all processes and threads, that has switch `i`. -/
def worker (nthread : Nat) (t : PartTable) (i : Nat) : Option Nat :=
  match t[i]? with
  | some (some p) => some (p.1 * nthread + p.2)
  | _ => none

/-- **C62**. Block partitioning gives every switch to one existing process and thread, gives consecutive
switches to the same or consecutive workers, and gives no worker more than the number of switches divided by
the number of workers, rounded up. -/
theorem C62_block (nproc nthread n : Nat) (hp : 0 < nproc) (ht : 0 < nthread) :
    ∃ t, blockPartition nproc nthread n = some t ∧ t.length = n ∧
      (∀ i, i < n → ∃ p th, t[i]? = some (some (p, th)) ∧ p < nproc ∧ th < nthread) ∧
      (∀ i j w v, i ≤ j → worker nthread t i = some w → worker nthread t j = some v → w ≤ v) ∧
      (∀ i j w, i ≤ j → worker nthread t i = some w → worker nthread t j = some w → (j - i) * (nproc * nthread) < n + nproc * nthread - 1) := by
  have hw : 0 < nproc * nthread := Nat.mul_pos hp ht
  unfold blockPartition
  simp only
  rw [if_neg (by omega)]
  by_cases hn : n = 0
  · subst hn
    rw [if_pos rfl]
    refine ⟨[], rfl, rfl, fun i hi => absurd hi (Nat.not_lt_zero _), ?_, ?_⟩
    · intro i j w v _ h; cases h
    · intro i j w _ h; cases h
  rw [if_neg hn]
  have hceil := ceil_mul n (nproc * nthread) hw
  have hper2 : ∀ per, per = (if n % (nproc * nthread) ≠ 0 then n / (nproc * nthread) + 1 else n / (nproc * nthread)) → per * (nproc * nthread) < n + nproc * nthread := by
    rintro per rfl
    have h1 := Nat.div_add_mod n (nproc * nthread)
    split
    · rw [Nat.succ_mul, Nat.mul_comm (n / _)]; omega
    · rw [Nat.mul_comm (n / _)]; omega
  have hper2 := hper2 _ rfl
  generalize (if n % (nproc * nthread) ≠ 0 then n / (nproc * nthread) + 1 else n / (nproc * nthread)) = per at *
  have hperpos : 0 < per := by
    rcases Nat.eq_zero_or_pos per with h | h
    · rw [h, Nat.zero_mul] at hceil; omega
    · exact h
  have hget : ∀ i, (fillBlock per nthread n (List.replicate n none))[i]? = if i < n then some (some (i / per / nthread, i / per % nthread)) else none := by
    intro i
    rw [fill_get, List.length_replicate]
    by_cases h : i < n
    · rw [if_pos ⟨h, h⟩, if_pos h]
    · rw [if_neg (fun h' => h h'.1), if_neg h, List.getElem?_eq_none (by rw [List.length_replicate]; omega)]
  have hwk : ∀ i w, worker nthread (fillBlock per nthread n (List.replicate n none)) i = some w → i < n ∧ w = i / per := by
    intro i w h
    unfold worker at h
    rw [hget] at h
    by_cases hi : i < n
    · rw [if_pos hi] at h
      refine ⟨hi, ?_⟩
      have h := Option.some.inj h
      rw [← h]
      have := Nat.div_add_mod (i / per) nthread
      rw [Nat.mul_comm] at this
      exact this
    · rw [if_neg hi] at h; cases h
  refine ⟨_, rfl, ?_, fun i hi => ⟨_, _, by rw [hget, if_pos hi], ?_, Nat.mod_lt _ ht⟩, ?_, ?_⟩
  · have hlen : ∀ (l : List Nat) (t : PartTable), (l.foldl (fun t i => t.set i (some (i / per / nthread, i / per % nthread))) t).length = t.length := by
      intro l
      induction l with
      | nil => intro t; rfl
      | cons x l ihl => intro t; rw [List.foldl_cons, ihl, List.length_set]
    unfold fillBlock
    rw [hlen, List.length_replicate]
  · rw [Nat.div_lt_iff_lt_mul ht, Nat.div_lt_iff_lt_mul hperpos]
    rw [Nat.mul_comm per] at hceil
    omega
  · intro i j w v hij h1 h2
    rw [(hwk i w h1).2, (hwk j v h2).2]
    exact Nat.div_le_div_right hij
  · intro i j w hij h1 h2
    obtain ⟨h3, h4⟩ := hwk i w h1
    obtain ⟨h5, h6⟩ := hwk j w h2
    have e1 := Nat.div_add_mod i per
    have e2 := Nat.div_add_mod j per
    rw [← h4] at e1
    rw [← h6] at e2
    have := Nat.mod_lt j hperpos
    have h7 : j - i + 1 ≤ per := by omega
    have h8 : (j - i + 1) * (nproc * nthread) ≤ per * (nproc * nthread) := Nat.mul_le_mul_right _ h7
    rw [Nat.succ_mul] at h8
    omega

example : blockPartition 2 2 6 = some [some (0, 0), some (0, 0), some (0, 1), some (0, 1), some (1, 0), some (1, 0)] := by decide

/-- **C62** (refuted). The parts can differ by more than one switch: of four workers for five switches two
get two and one gets none. -/
theorem C62_balance_refuted : blockPartition 4 1 5 = some [some (0, 0), some (0, 0), some (1, 0), some (1, 0), some (2, 0)] := by decide

/-- **C62** (refuted). The partition by occupied switches leaves switches without a worker: with four
switches, two of them occupied, the last two get none. -/
theorem C62_occupied_refuted : occupiedPartition 2 1 4 2 = some [some (0, 0), some (1, 0), none, none] := by decide

/-- **C62** (refuted). It names a process that does not exist: with two processes, nine switches, four
occupied, switch 4 goes to process 2. -/
theorem C62_occupied_range_refuted : ∃ t, occupiedPartition 2 1 9 4 = some t ∧ t[4]? = some (some (2, 0)) := ⟨_, rfl, by decide⟩

/-- **C62** (refuted). It divides by zero if there are fewer unoccupied switches than workers. -/
theorem C62_occupied_zero_refuted : occupiedPartition 2 1 3 2 = none := by decide

end SST.Parallel
