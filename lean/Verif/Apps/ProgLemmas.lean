import Verif.Apps.Prog
set_option autoImplicit false

/-!
# Programs made of blocks

Lemmas for Apps/HaloProps.lean, Apps/SweepProps.lean and Apps/FftProps.lean: a rank in a program that
is a sequence of blocks (iterations of loops), and ranks that are ahead of others by blocks.
-/

namespace Verif.Apps

/-- A measure has a least place on a range of ranks. -/
theorem argmin {N : Int} (p : Int → Prop) (f : Int → Nat) (h : ∃ r, 0 ≤ r ∧ r < N ∧ p r) :
    ∃ r, 0 ≤ r ∧ r < N ∧ p r ∧ ∀ q, 0 ≤ q → q < N → p q → f r ≤ f q := by
  have aux : ∀ (n : Nat) (r : Int), f r ≤ n → 0 ≤ r → r < N → p r → ∃ r, 0 ≤ r ∧ r < N ∧ p r ∧ ∀ q, 0 ≤ q → q < N → p q → f r ≤ f q := by
    intro n
    induction n with
    | zero => intro r hf h0 h1 hp; exact ⟨r, h0, h1, hp, fun q _ _ _ => by omega⟩
    | succ n ih =>
      intro r hf h0 h1 hp
      by_cases hc : ∃ q, 0 ≤ q ∧ q < N ∧ p q ∧ f q < f r
      · obtain ⟨q, q0, q1, qp, qf⟩ := hc
        exact ih q (by omega) q0 q1 qp
      · refine ⟨r, h0, h1, hp, fun q q0 q1 qp => ?_⟩
        cases Nat.lt_or_ge (f q) (f r) with
        | inl h => exact absurd ⟨q, q0, q1, qp, h⟩ hc
        | inr h => exact h
  obtain ⟨r, h0, h1, hp⟩ := h
  exact aux (f r) r (Nat.le_refl _) h0 h1 hp

/-- A place in a sequence of blocks: call `k` is call `o` of block `i`, or all blocks are done. -/
structure At (Bs : List (List Instr)) (k i o : Nat) : Prop where
  le : i ≤ Bs.length
  lt : i < Bs.length → o < (Bs[i]?.getD []).length
  done : i = Bs.length → Bs.flatten.length ≤ k
  call : Bs.flatten[k]? = (Bs[i]?.getD [])[o]?
  upto : Bs.flatten.take k = (Bs.take i).flatten ++ (Bs[i]?.getD []).take o
  take : Bs.flatten.take (k + 1) = (Bs.take i).flatten ++ (Bs[i]?.getD []).take (o + 1)

/-- Every index of the calls is at a place. -/
theorem exists_at (Bs : List (List Instr)) : ∀ k, ∃ i o, At Bs k i o := by
  induction Bs with
  | nil => intro k; exact ⟨0, 0, ⟨by simp, by simp, by simp, by simp, by simp, by simp⟩⟩
  | cons b Bs ih =>
    intro k
    by_cases h : k < b.length
    · refine ⟨0, k, ⟨by simp, (fun _ => by simpa using h), by simp, ?_, ?_, ?_⟩⟩
      · simp [List.getElem?_append_left h]
      · simp [List.take_append_of_le_length (Nat.le_of_lt h)]
      · simp [List.take_append_of_le_length (show k + 1 ≤ b.length from h)]
    · obtain ⟨i, o, ha⟩ := ih (k - b.length)
      have h' : b.length ≤ k := by omega
      refine ⟨i + 1, o, ⟨?_, ?_, ?_, ?_, ?_, ?_⟩⟩
      · have := ha.le; simp; omega
      · intro hi
        have := ha.lt (by simpa using hi)
        simpa using this
      · intro hi
        have := ha.done (by simpa using hi)
        rw [List.flatten_cons, List.length_append]; omega
      · have := ha.call
        simp [List.getElem?_append_right h', this]
      · have := ha.upto
        simp [List.take_append, List.take_of_length_le h', this]
      · have := ha.take
        have e : k + 1 - b.length = k - b.length + 1 := by omega
        simp [List.take_append, List.take_of_length_le (show b.length ≤ k + 1 by omega), e, this]

/-- Equal counts in equal places of two sequences of blocks. -/
theorem flat_len {β γ : Type} {f : Instr → Option β} {g : Instr → Option γ} : ∀ (As Bs : List (List Instr)), As.length = Bs.length →
    (∀ (i : Nat) a b, As[i]? = some a → Bs[i]? = some b → (a.filterMap f).length = (b.filterMap g).length) →
    ∀ m, ((As.take m).flatten.filterMap f).length = ((Bs.take m).flatten.filterMap g).length := by
  intro As
  induction As with
  | nil =>
    intro Bs hl _ m
    cases Bs with
    | nil => simp
    | cons b Bs => simp at hl
  | cons a As ih =>
    intro Bs hl h m
    cases Bs with
    | nil => simp at hl
    | cons b Bs =>
      cases m with
      | zero => simp
      | succ m =>
        have h0 := h 0 a b rfl rfl
        have := ih Bs (by simpa using hl) (fun i a b ha hb => h (i + 1) a b (by simpa using ha) (by simpa using hb)) m
        simp only [List.take_succ_cons, List.flatten_cons, List.filterMap_append, List.length_append, h0, this]

/-- Equal lists in equal places. -/
theorem flat_eq {β : Type} {f g : Instr → Option β} : ∀ (As Bs : List (List Instr)), As.length = Bs.length →
    (∀ (i : Nat) a b, As[i]? = some a → Bs[i]? = some b → a.filterMap f = b.filterMap g) →
    As.flatten.filterMap f = Bs.flatten.filterMap g := by
  intro As
  induction As with
  | nil =>
    intro Bs hl _
    cases Bs with
    | nil => simp
    | cons b Bs => simp at hl
  | cons a As ih =>
    intro Bs hl h
    cases Bs with
    | nil => simp at hl
    | cons b Bs =>
      have h0 := h 0 a b rfl rfl
      have := ih Bs (by simpa using hl) (fun i a b ha hb => h (i + 1) a b (by simpa using ha) (by simpa using hb))
      simp only [List.flatten_cons, List.filterMap_append, h0, this]

/-- Fewer blocks have fewer calls of a kind. -/
theorem flat_mono {β : Type} (f : Instr → Option β) (As : List (List Instr)) {m n : Nat} (h : m ≤ n) :
    ((As.take m).flatten.filterMap f).length ≤ ((As.take n).flatten.filterMap f).length := by
  obtain ⟨c, rfl⟩ := Nat.exists_eq_add_of_le h
  rw [List.take_add, List.flatten_append, List.filterMap_append, List.length_append]
  omega

/-- What is made inside block `i` is at most the blocks up to `i`. -/
theorem at_le {β : Type} (f : Instr → Option β) {Bs : List (List Instr)} {k i o : Nat} (ha : At Bs k i o) :
    ((Bs.flatten.take (k + 1)).filterMap f).length ≤ ((Bs.take (i + 1)).flatten.filterMap f).length := by
  have e : Bs.take (i + 1) = Bs.take i ++ Bs[i]?.toList := List.take_add_one
  rw [ha.take, e, List.flatten_append, List.filterMap_append, List.filterMap_append, List.length_append, List.length_append]
  apply Nat.add_le_add_left
  cases Bs[i]? with
  | none => simp
  | some b =>
    simp only [Option.getD_some, Option.toList_some, List.flatten_cons, List.flatten_nil, List.append_nil]
    exact ((List.take_sublist _ _).filterMap f).length_le

/-- What is made in block `i` is at least the blocks before `i`. -/
theorem at_ge {β : Type} (f : Instr → Option β) {Bs : List (List Instr)} {k i o : Nat} (ha : At Bs k i o) :
    ((Bs.take i).flatten.filterMap f).length ≤ ((Bs.flatten.take (k + 1)).filterMap f).length := by
  rw [ha.take, List.filterMap_append, List.length_append]
  omega

/-- A rank in a later block has made as many calls as match those of a rank in an earlier block. -/
theorem ahead {β γ : Type} {f : Instr → Option β} {g : Instr → Option γ} {As Bs : List (List Instr)} (hl : As.length = Bs.length)
    (h : ∀ (i : Nat) a b, As[i]? = some a → Bs[i]? = some b → (a.filterMap f).length = (b.filterMap g).length)
    {k i o k' i' o' : Nat} (ha : At As k i o) (hb : At Bs k' i' o') (hi : i < i') :
    ((As.flatten.take (k + 1)).filterMap f).length ≤ ((Bs.flatten.take (k' + 1)).filterMap g).length :=
  Nat.le_trans (at_le f ha) (Nat.le_trans (Nat.le_trans (Nat.le_of_eq (flat_len As Bs hl h (i + 1))) (flat_mono g Bs hi)) (at_ge g hb))

/-- Two ranks in the same block: only the calls in this block count. -/
theorem level {β γ : Type} {f : Instr → Option β} {g : Instr → Option γ} {As Bs : List (List Instr)} (hl : As.length = Bs.length)
    (h : ∀ (i : Nat) a b, As[i]? = some a → Bs[i]? = some b → (a.filterMap f).length = (b.filterMap g).length)
    {k i o k' o' : Nat} (ha : At As k i o) (hb : At Bs k' i o')
    (hh : (((As[i]?.getD []).take (o + 1)).filterMap f).length ≤ (((Bs[i]?.getD []).take (o' + 1)).filterMap g).length) :
    ((As.flatten.take (k + 1)).filterMap f).length ≤ ((Bs.flatten.take (k' + 1)).filterMap g).length := by
  rw [ha.take, hb.take, List.filterMap_append, List.filterMap_append, List.length_append, List.length_append, flat_len As Bs hl h i]
  omega

/-- No run has more steps than there are calls. -/
theorem runs_bound {W : World} {eager : Int → Prop} {pc : Int → Nat} {n : Nat} (h : Runs W eager pc n) : n ≤ total W W.size.toNat := by
  have key : ∀ {pc : Int → Nat} {n : Nat}, Runs W eager pc n → (∀ r, pc r ≤ (W.prog r).length) ∧ n = (List.range W.size.toNat).foldl (fun a (i : Nat) => a + pc i) 0 := by
    intro pc n h
    induction h with
    | start =>
      refine ⟨fun r => Nat.zero_le _, ?_⟩
      have : ∀ (l : List Nat), l.foldl (fun a (i : Nat) => a + 0) 0 = 0 := by
        intro l; induction l with
        | nil => rfl
        | cons x l ih => simpa using ih
      exact (this _).symm
    | @step pc n r _ hr hrd ih =>
      obtain ⟨h1, h2⟩ := ih
      refine ⟨fun q => ?_, ?_⟩
      · show (if q = r then pc q + 1 else pc q) ≤ _
        split
        · next e =>
          subst e
          have : pc q < (W.prog q).length := by
            cases hg : (W.prog q)[pc q]? with
            | none => unfold Ready at hrd; rw [hg] at hrd; exact hrd.elim
            | some x => exact (List.getElem?_eq_some_iff.mp hg).1
          omega
        · exact h1 q
      · obtain ⟨r0, r1⟩ := hr
        have hm : r.toNat ∈ List.range W.size.toNat := List.mem_range.mpr (by omega)
        have hnd : (List.range W.size.toNat).Nodup := List.nodup_range
        have gen : ∀ (l : List Nat) (a : Nat), l.Nodup →
            l.foldl (fun a (i : Nat) => a + (if (i : Int) = r then pc i + 1 else pc i)) a = l.foldl (fun a (i : Nat) => a + pc i) a + (if r.toNat ∈ l then 1 else 0) := by
          have shift : ∀ (l : List Nat) (a b : Nat), l.foldl (fun a (i : Nat) => a + pc i) (a + b) = l.foldl (fun a (i : Nat) => a + pc i) a + b := by
            intro l
            induction l with
            | nil => intro a b; rfl
            | cons x l ih => intro a b; simp only [List.foldl_cons]; rw [← ih]; congr 1; omega
          intro l
          induction l with
          | nil => intro a _; simp
          | cons x l ih =>
            intro a hnd
            have hnd' := List.nodup_cons.mp hnd
            simp only [List.foldl_cons]
            rw [ih _ hnd'.2]
            by_cases e : (x : Int) = r
            · have ex : r.toNat = x := by omega
              rw [if_pos e, if_neg (by rw [ex]; exact hnd'.1), if_pos (by rw [ex]; simp), ← Nat.add_assoc, shift]
            · have ex : r.toNat ≠ x := by omega
              rw [if_neg e]
              by_cases hm : r.toNat ∈ l
              · rw [if_pos hm, if_pos (by simp [hm])]
              · rw [if_neg hm, if_neg (by simp [hm, ex])]
        rw [gen _ _ hnd, if_pos hm, ← h2]
  obtain ⟨h1, h2⟩ := key h
  rw [h2]
  have : ∀ m, (List.range m).foldl (fun a (i : Nat) => a + pc i) 0 ≤ total W m := by
    intro m
    induction m with
    | zero => simp [total]
    | succ m ih =>
      rw [List.range_succ, List.foldl_append]
      simp only [List.foldl_cons, List.foldl_nil, total]
      have := h1 (m : Int)
      omega
  exact this _

/-- Deadlock freedom in every state, reachable or not, is enough for completion. -/
theorem completes_of {W : World} {eager : Int → Prop}
    (h : ∀ pc, (∃ r, W.Has r ∧ pc r < (W.prog r).length) → ∃ r, W.Has r ∧ Ready W eager pc r) : Completes W eager := by
  intro pc n hr
  refine ⟨runs_bound hr, ?_⟩
  by_cases hc : ∃ r, W.Has r ∧ pc r < (W.prog r).length
  · exact Or.inr (h pc hc)
  · refine Or.inl fun r h => ?_
    unfold Ended
    cases Nat.lt_or_ge (pc r) (W.prog r).length with
    | inl hlt => exact absurd ⟨r, h, hlt⟩ hc
    | inr hge => exact hge

end Verif.Apps
