import Verif.Util.Shuffle
/-
C64.
-/
set_option autoImplicit false
namespace SST.Util

theorem swapAt_perm {α : Type} (l : List α) {i j : Nat} (hi : i < l.length) (hj : j < l.length) :
    ∃ l', swapAt l i j = some l' ∧ l'.Perm l := by
  unfold swapAt
  rw [List.getElem?_eq_getElem hi, List.getElem?_eq_getElem hj]
  refine ⟨_, rfl, ?_⟩
  have h := (Array.swap_perm (xs := l.toArray) (i := i) (j := j) (by simpa using hi) (by simpa using hj)).toList
  rw [Array.toList_swap] at h
  simpa using h

theorem shuffleFrom_perm {α : Type} (v : Nat → Nat) (i : Nat) (l : List α) (hi : i < l.length ∨ i = 0) (hl : l.length < 2^32) :
    ∃ l', shuffleFrom v i l = some l' ∧ l'.Perm l := by
  induction i generalizing l with
  | zero => exact ⟨l, rfl, .refl _⟩
  | succ i ih =>
    have hi : i + 1 < l.length := by omega
    have hr : inRange (v (i + 1)) (i + 2) = some (v (i + 1) % (i + 2)) := by
      unfold inRange
      rw [Nat.mod_eq_of_lt (by omega), if_neg (by omega)]
    have hj : v (i + 1) % (i + 2) < l.length := Nat.lt_of_lt_of_le (Nat.mod_lt _ (by omega)) (by omega)
    obtain ⟨l1, h1, h2⟩ := swapAt_perm l hi hj
    obtain ⟨l2, h3, h4⟩ := ih l1 (.inl (by rw [h2.length_eq]; omega)) (by rw [h2.length_eq]; exact hl)
    refine ⟨l2, ?_, h4.trans h2⟩
    simp only [shuffleFrom, hr, h1]
    exact h3

/-- **C64**. Whatever the random numbers are, a shuffle of fewer than `2^32` elements touches no element
outside the sequence and yields a permutation of it. -/
theorem C64_shuffle {α : Type} (v : Nat → Nat) (l : List α) (hl : l.length < 2^32) : ∃ l', shuffle v l = some l' ∧ l'.Perm l :=
  shuffleFrom_perm v _ l (by omega) hl

example : shuffle (fun i => 7 * i + 3) ["a", "b", "c", "d", "e"] = some ["e", "d", "c", "a", "b"] := by decide

theorem shuffleFrom_huge {α : Type} (v : Nat → Nat) (i : Nat) (l : List α) (hi : 2^32 - 1 ≤ i) : shuffleFrom v i l = none := by
  induction i generalizing l with
  | zero => omega
  | succ i ih =>
    simp only [shuffleFrom]
    by_cases he : i + 2 = 2^32
    · have : inRange (v (i + 1)) (i + 2) = none := by
        unfold inRange
        rw [he]; rfl
      rw [this]
    · cases inRange (v (i + 1)) (i + 2) with
      | none => rfl
      | some j =>
        simp only
        cases swapAt l (i + 1) j with
        | none => rfl
        | some l' => exact ih l' (by omega)

/-- **C64** (refuted). A shuffle of `2^32` or more elements divides by zero or leaves the sequence: the range
of the random index is narrowed to 32 bits. -/
theorem C64_huge_refuted {α : Type} (v : Nat → Nat) (l : List α) (hl : 2^32 ≤ l.length) : shuffle v l = none :=
  shuffleFrom_huge v _ l (by omega)

example : shuffle (fun _ => 0) (List.replicate (2^32) 0) = none := C64_huge_refuted _ _ (by rw [List.length_replicate]; exact Nat.le_refl _)

/-- Some draw takes any element to the last place. -/
theorem exists_last {α : Type} (l l' : List α) (x : α) (h : (l' ++ [x]).Perm l) : ∃ j, j < l.length ∧ ∃ m, swapAt l (l.length - 1) j = some (m ++ [x]) ∧ m.Perm l' := by
  have hx : x ∈ l := h.subset (List.mem_append_right _ (List.mem_singleton.mpr rfl))
  obtain ⟨j, hj, hjx⟩ := List.getElem_of_mem hx
  have hpos : 0 < l.length := by omega
  refine ⟨j, hj, ?_⟩
  obtain ⟨m, h1, h2⟩ := swapAt_perm l (i := l.length - 1) (j := j) (by omega) hj
  have hlen := h2.length_eq
  have hlast : m[l.length - 1]? = some x := by
    unfold swapAt at h1
    rw [List.getElem?_eq_getElem (show l.length - 1 < l.length by omega), List.getElem?_eq_getElem hj] at h1
    have h1 := Option.some.inj h1
    rw [← h1]
    by_cases hjl : j = l.length - 1
    · subst hjl
      rw [List.getElem?_set_self (by rw [List.length_set]; omega), hjx]
    · rw [List.getElem?_set_ne hjl, List.getElem?_set_self (by omega), hjx]
  have hm : m = m.dropLast ++ [x] := by
    have : m.getLast? = some x := by rw [List.getLast?_eq_getElem?, hlen]; exact hlast
    obtain ⟨q, hq⟩ := List.getLast?_eq_some_iff.mp this
    rw [hq, List.dropLast_concat]
  refine ⟨m.dropLast, by rw [← hm]; exact h1, ?_⟩
  have h3 : (m.dropLast ++ [x]).Perm (l' ++ [x]) := by rw [← hm]; exact h2.trans h.symm
  exact (List.perm_append_right_iff _).mp h3

theorem swapAt_append {α : Type} (m rest : List α) {i j : Nat} (hi : i < m.length) (hj : j < m.length) :
    swapAt (m ++ rest) i j = (swapAt m i j).map (· ++ rest) := by
  unfold swapAt
  rw [List.getElem?_append_left hi, List.getElem?_append_left hj, List.getElem?_eq_getElem hi, List.getElem?_eq_getElem hj]
  simp only [Option.map_some]
  rw [List.set_append_left _ _ hi, List.set_append_left _ _ (by rw [List.length_set]; exact hj)]

theorem shuffleFrom_append {α : Type} (v : Nat → Nat) (i : Nat) (m rest : List α) (hi : i < m.length) (hs : i + 1 < 2^32) :
    shuffleFrom v i (m ++ rest) = (shuffleFrom v i m).map (· ++ rest) := by
  induction i generalizing m with
  | zero => rfl
  | succ i ih =>
    have hr : inRange (v (i + 1)) (i + 2) = some (v (i + 1) % (i + 2)) := by
      unfold inRange
      rw [Nat.mod_eq_of_lt (by omega), if_neg (by omega)]
    have hj : v (i + 1) % (i + 2) < m.length := Nat.lt_of_lt_of_le (Nat.mod_lt _ (by omega)) (by omega)
    simp only [shuffleFrom, hr]
    rw [swapAt_append m rest hi hj]
    obtain ⟨l1, h1, h2⟩ := swapAt_perm m hi hj
    rw [h1]
    exact ih l1 (by rw [h2.length_eq]; omega) (by omega)

theorem shuffleFrom_congr {α : Type} (v v' : Nat → Nat) (i : Nat) (l : List α) (h : ∀ k, k ≤ i → v k = v' k) : shuffleFrom v i l = shuffleFrom v' i l := by
  induction i generalizing l with
  | zero => rfl
  | succ i ih =>
    simp only [shuffleFrom, h (i + 1) (Nat.le_refl _)]
    cases inRange (v' (i + 1)) (i + 2) with
    | none => rfl
    | some j =>
      simp only
      cases swapAt l (i + 1) j with
      | none => rfl
      | some l1 => exact ih l1 (fun k hk => h k (by omega))

theorem reach_perm {α : Type} (n : Nat) (l l' : List α) (hn : l.length = n + 1) (hl : n + 1 < 2^32) (h : l'.Perm l) : ∃ v, shuffleFrom v n l = some l' := by
  induction n generalizing l l' with
  | zero =>
    obtain ⟨x, rfl⟩ := List.length_eq_one_iff.mp hn
    rw [List.perm_singleton.mp h]
    exact ⟨fun _ => 0, rfl⟩
  | succ n ih =>
    have hne : l' ≠ [] := by
      intro e
      have := h.length_eq
      rw [e] at this
      simp at this
      omega
    obtain ⟨q, x, rfl⟩ : ∃ q x, l' = q ++ [x] := ⟨l'.dropLast, l'.getLast hne, (List.dropLast_concat_getLast hne).symm⟩
    obtain ⟨j, hj, m, h1, h2⟩ := exists_last l q x h
    have hql : m.length = n + 1 := by
      have := h.length_eq
      rw [List.length_append, List.length_singleton] at this
      have := h2.length_eq
      omega
    obtain ⟨v, hv⟩ := ih m q hql (by omega) h2.symm
    refine ⟨fun k => if k = n + 1 then j else v k, ?_⟩
    have hr : inRange j (n + 2) = some j := by
      unfold inRange
      rw [Nat.mod_eq_of_lt (show n + 2 < 2^32 by omega), if_neg (by omega), Nat.mod_eq_of_lt (by omega)]
    rw [hn] at h1
    simp only [shuffleFrom, if_true, hr]
    have h1 : swapAt l (n + 1) j = some (m ++ [x]) := h1
    rw [h1]
    simp only
    rw [shuffleFrom_append _ n m [x] (by omega) (by omega), shuffleFrom_congr _ v n m (fun k hk => if_neg (by omega)), hv]
    rfl

/-- **C64**. Every arrangement can come out: for each permutation some random numbers produce it. -/
theorem C64_every {α : Type} (l l' : List α) (hl : l.length < 2^32) (h : l'.Perm l) : ∃ v, shuffle v l = some l' := by
  unfold shuffle
  cases l with
  | nil => exact ⟨fun _ => 0, by rw [h.eq_nil]; rfl⟩
  | cons x l => exact reach_perm _ _ l' rfl (by simpa using hl) h

example : ∃ v, shuffle v [1, 2, 3] = some [3, 2, 1] := C64_every _ _ (by decide) (by decide)

end SST.Util
