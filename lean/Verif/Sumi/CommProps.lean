import Verif.Sumi.Comm
/-
C88: rank translation is a bijection between communicator ranks and the members of the communicator.
-/
set_option autoImplicit false
namespace SST.Sumi

/-! ### Specification -/

/-- `r` is a rank of the communicator. -/
def Comm.IsRank (c : Comm) (r : Int) : Prop := 0 ≤ r ∧ r < c.nproc

/-- Every rank has a global rank, no two the same, and translation back gives the rank. -/
def Comm.Bijective (c : Comm) : Prop :=
  (∀ r, c.IsRank r → ∃ g, c.toGlobal r = some g ∧ c.toComm g = some r) ∧
  ∀ r r' g, c.IsRank r → c.IsRank r' → c.toGlobal r = some g → c.toGlobal r' = some g → r = r'

/-- The arguments a communicator is meant to be constructed with: lists without repetitions, and shifts from
0 to the number of ranks. -/
def Comm.Legal : Comm → Prop
  | .global _ => True
  | .map l => l.Nodup
  | .shifted c s => c.Legal ∧ 0 ≤ s ∧ s ≤ c.nproc
  | .index n l => l.Nodup ∧ n = l.length
  | .rotate n s => 0 ≤ s ∧ s ≤ n
  | .subrange _ _ => True

/-- No `IndexCommunicator` inside. -/
def Comm.NoIndex : Comm → Prop
  | .shifted c _ => c.NoIndex
  | .index _ _ => False
  | _ => True

/-! ### Lemmas -/

theorem keys_of_nodup {l : List Int} (h : l.Nodup) : keys l = l := by
  induction l with
  | nil => rfl
  | cons x xs ih =>
    rw [List.nodup_cons] at h
    rw [keys, if_neg h.1, ih h.2]

theorem lookup_go (l : List Int) (g : Int) : ∀ (k : Nat) (o : Option Int), l.Nodup →
    (l.zipIdx k).foldl (fun (o : Option Int) (p : Int × Nat) => if p.1 = g then some (p.2 : Int) else o) o =
      if g ∈ l then some ((k + l.idxOf g : Nat) : Int) else o := by
  induction l with
  | nil => intro k o _; simp
  | cons x xs ih =>
    intro k o h
    rw [List.nodup_cons] at h
    rw [List.zipIdx_cons, List.foldl_cons, ih (k + 1) _ h.2]
    by_cases hx : x = g
    · subst hx
      rw [if_neg h.1, if_pos (by rfl), if_pos (List.mem_cons_self ..), List.idxOf_cons_self]
      rfl
    · rw [if_neg hx]
      have : g ∈ x :: xs ↔ g ∈ xs := by
        simp only [List.mem_cons]
        constructor
        · rintro (e | h)
          · exact absurd e.symm hx
          · exact h
        · exact Or.inr
      simp only [this]
      by_cases hg : g ∈ xs
      · have hb : (x == g) = false := by simp [hx]
        rw [if_pos hg, if_pos hg, List.idxOf_cons, hb]
        simp only [cond_false, Option.some.injEq]
        omega
      · rw [if_neg hg, if_neg hg]

theorem at_some {l : List Int} {r g : Int} (h : at? l r = some g) : 0 ≤ r ∧ l[r.toNat]? = some g := by
  unfold at? at h
  split at h
  · exact ⟨by assumption, h⟩
  · cases h

theorem at_of_rank {l : List Int} {r : Int} (h0 : 0 ≤ r) (h : r < l.length) : ∃ g, at? l r = some g := by
  unfold at?
  rw [if_pos h0]
  exact ⟨_, List.getElem?_eq_getElem (by omega)⟩

theorem nodup_at {l : List Int} (hn : l.Nodup) {r r' g : Int} (h : at? l r = some g) (h' : at? l r' = some g) : r = r' := by
  obtain ⟨h0, h1⟩ := at_some h
  obtain ⟨h0', h1'⟩ := at_some h'
  obtain ⟨hl, e⟩ := List.getElem?_eq_some_iff.1 h1
  obtain ⟨hl', e'⟩ := List.getElem?_eq_some_iff.1 h1'
  have := (List.getElem?_inj hl hn).1 (h1.trans h1'.symm)
  omega

theorem cmod_of {a b : Int} (hb : 0 < b) (ha : 0 ≤ a) : cmod a b = some (a % b) := by
  unfold cmod
  rw [if_neg (by omega), Int.tmod_eq_emod_of_nonneg ha]

/-- Shifting forth and back modulo `n`. -/
theorem shift_back {n r s : Int} (hr : 0 ≤ r) (hrn : r < n) (hs : 0 ≤ s) (hsn : s ≤ n) :
    (0 ≤ (r + s) % n ∧ (r + s) % n < n) ∧ ((r + s) % n - s + n) % n = r := by
  have h1 := Int.emod_nonneg (r + s) (show n ≠ 0 by omega)
  have h2 := Int.emod_lt_of_pos (r + s) (show 0 < n by omega)
  refine ⟨⟨h1, h2⟩, ?_⟩
  by_cases h : r + s < n
  · rw [Int.emod_eq_of_lt (by omega) h]
    rw [show r + s - s + n = r + n by omega, Int.add_emod_right, Int.emod_eq_of_lt hr hrn]
  · have e : (r + s) % n = r + s - n := by
      rw [← Int.sub_emod_right, Int.emod_eq_of_lt (by omega) (by omega)]
    rw [e, show r + s - n - s + n = r by omega, Int.emod_eq_of_lt hr hrn]

/-! ### C88 -/

/-- **C88**: with legal arguments, translation to global ranks and back is the identity, also through any number
of shifts (index communicators only translate one way). -/
theorem C88_bijective (c : Comm) (h : c.Legal) (hi : c.NoIndex) : c.Bijective := by
  induction c with
  | global n =>
    refine ⟨fun r _ => ⟨r, rfl, rfl⟩, ?_⟩
    intro r r' g _ _ h1 h2
    simp only [Comm.toGlobal, Option.some.injEq] at h1 h2
    omega
  | map l =>
    simp only [Comm.Legal] at h
    refine ⟨?_, ?_⟩
    · intro r hr
      unfold Comm.IsRank at hr
      simp only [Comm.nproc, keys_of_nodup h] at hr
      obtain ⟨g, hg⟩ := at_of_rank hr.1 hr.2
      refine ⟨g, hg, ?_⟩
      obtain ⟨_, h1⟩ := at_some hg
      obtain ⟨hl, e⟩ := List.getElem?_eq_some_iff.1 h1
      show lookup l g = _
      unfold lookup
      rw [lookup_go l g 0 none h, if_pos (e ▸ List.getElem_mem hl)]
      subst e
      rw [List.Nodup.idxOf_getElem h]
      congr 1
      omega
    · intro r r' g _ _ h1 h2
      exact nodup_at h h1 h2
  | shifted c s ih =>
    obtain ⟨hc, hs0, hs1⟩ := h
    obtain ⟨i1, i2⟩ := ih hc hi
    have key : ∀ r, (Comm.shifted c s).IsRank r →
        c.IsRank ((r + s) % c.nproc) ∧ (Comm.shifted c s).toGlobal r = c.toGlobal ((r + s) % c.nproc) ∧ ((r + s) % c.nproc - s + c.nproc) % c.nproc = r := by
      intro r hr
      unfold Comm.IsRank at hr
      simp only [Comm.nproc] at hr
      obtain ⟨h1, h2⟩ := shift_back hr.1 hr.2 hs0 hs1
      refine ⟨h1, ?_, h2⟩
      simp only [Comm.toGlobal]
      rw [cmod_of (by omega) (by omega)]
      rfl
    refine ⟨?_, ?_⟩
    · intro r hr
      obtain ⟨k1, k2, k3⟩ := key r hr
      obtain ⟨g, hg, hb⟩ := i1 _ k1
      refine ⟨g, k2.trans hg, ?_⟩
      simp only [Comm.toComm, hb, Option.bind_some]
      have := k1.1
      rw [cmod_of (by have := k1.2; omega) (by omega), k3]
    · intro r r' g hr hr' h1 h2
      obtain ⟨k1, k2, k3⟩ := key r hr
      obtain ⟨k1', k2', k3'⟩ := key r' hr'
      rw [k2] at h1
      rw [k2'] at h2
      have := i2 _ _ g k1 k1' h1 h2
      rw [← k3, ← k3', this]
  | index n l => exact absurd hi (by simp [Comm.NoIndex])
  | rotate n s =>
    obtain ⟨hs0, hs1⟩ := h
    have key : ∀ r, (Comm.rotate n s).IsRank r → (Comm.rotate n s).toGlobal r = some ((r + s) % n) ∧ ((r + s) % n + n - s) % n = r ∧ 0 ≤ (r + s) % n := by
      intro r hr
      obtain ⟨h1, h2⟩ := shift_back (n := n) hr.1 hr.2 hs0 hs1
      refine ⟨?_, ?_, h1.1⟩
      · simp only [Comm.toGlobal]
        rw [cmod_of (by have := hr.2; simp only [Comm.nproc] at this; have := hr.1; omega) (by have := hr.1; omega)]
      · rw [show (r + s) % (n : Int) + n - s = (r + s) % n - s + n by omega]
        exact h2
    refine ⟨?_, ?_⟩
    · intro r hr
      obtain ⟨k1, k2, k3⟩ := key r hr
      refine ⟨_, k1, ?_⟩
      simp only [Comm.toComm]
      rw [cmod_of (by have := hr.2; simp only [Comm.nproc] at this; have := hr.1; omega) (by omega), k2]
    · intro r r' g hr hr' h1 h2
      obtain ⟨k1, k2, k3⟩ := key r hr
      obtain ⟨k1', k2', k3'⟩ := key r' hr'
      rw [k1, Option.some.injEq] at h1
      rw [k1', Option.some.injEq] at h2
      rw [← k2, ← k2', h1, h2]
  | subrange start n =>
    refine ⟨?_, ?_⟩
    · intro r _
      refine ⟨r + start, rfl, ?_⟩
      simp only [Comm.toComm, Option.some.injEq]
      omega
    · intro r r' g _ _ h1 h2
      simp only [Comm.toGlobal, Option.some.injEq] at h1 h2
      omega

/-- **C88**, partial for index communicators: every rank has a global rank of its own; translation back aborts. -/
theorem C88_index_partial (n : Nat) (l : List Int) (h : (Comm.index n l).Legal) :
    (∀ r, (Comm.index n l).IsRank r → ∃ g, (Comm.index n l).toGlobal r = some g) ∧
    (∀ r r' g, (Comm.index n l).toGlobal r = some g → (Comm.index n l).toGlobal r' = some g → r = r') ∧
    ∀ g, (Comm.index n l).toComm g = none := by
  obtain ⟨h1, rfl⟩ := h
  exact ⟨fun r hr => at_of_rank hr.1 hr.2, fun r r' g a b => nodup_at h1 a b, fun _ => rfl⟩

/-- **C88**: the own rank of a shifted communicator is the one that translates to the own global rank. -/
theorem C88_shifted_me (c : Comm) (s : Int) (hs : 0 ≤ s ∧ s ≤ c.nproc) (me g : Int) (hme : c.IsRank me)
    (hg : c.toGlobal me = some g) : ∃ r, shiftedMyRank c s me = some r ∧ (Comm.shifted c s).IsRank r ∧ (Comm.shifted c s).toGlobal r = some g := by
  have h0 := hme.1
  have h1 := hme.2
  have hn : 0 < (c.nproc : Int) := by omega
  refine ⟨(me - s + c.nproc) % c.nproc, cmod_of hn (by omega), ⟨Int.emod_nonneg _ (by omega), Int.emod_lt_of_pos _ hn⟩, ?_⟩
  have e : ((me - s + c.nproc) % c.nproc + s) % c.nproc = me := by
    rw [Int.emod_add_emod, show me - s + (c.nproc : Int) + s = me + c.nproc by omega, Int.add_emod_right, Int.emod_eq_of_lt h0 h1]
  simp only [Comm.toGlobal]
  have := Int.emod_nonneg (me - s + c.nproc) (show (c.nproc : Int) ≠ 0 by omega)
  rw [cmod_of hn (by omega), e]
  exact hg

theorem mem_keys {l : List Int} {x : Int} : x ∈ keys l ↔ x ∈ l := by
  induction l with
  | nil => simp [keys]
  | cons y ys ih =>
    rw [keys]
    split
    · rename_i hy
      rw [ih, List.mem_cons]
      constructor
      · exact Or.inr
      · rintro (rfl | h)
        · exact hy
        · exact h
    · simp [ih]

theorem mem_at {l : List Int} {g : Int} : g ∈ l ↔ ∃ r : Int, 0 ≤ r ∧ r < l.length ∧ at? l r = some g := by
  constructor
  · intro h
    obtain ⟨k, hk, rfl⟩ := List.mem_iff_getElem.1 h
    refine ⟨k, by omega, by omega, ?_⟩
    unfold at?
    rw [if_pos (by omega)]
    exact List.getElem?_eq_getElem hk
  · rintro ⟨r, _, _, h⟩
    exact List.mem_of_getElem? (at_some h).2

/-- **C88**: the ranks of a set that are in the communicator, for the communicators that can tell, are those that
are the global rank of one of its ranks. -/
theorem C88_intersect (c : Comm) (h : c.Legal) (nbrs out : List Int) (hn : ∀ g ∈ nbrs, ∀ n, c = .global n → 0 ≤ g ∧ g < n)
    (ho : c.intersect nbrs = some out) (g : Int) : g ∈ out ↔ g ∈ nbrs ∧ ∃ r, c.IsRank r ∧ c.toGlobal r = some g := by
  cases c with
  | global n =>
    simp only [Comm.intersect, Option.some.injEq] at ho
    subst ho
    constructor
    · intro hg
      exact ⟨hg, g, hn g hg n rfl, rfl⟩
    · exact And.left
  | map l =>
    simp only [Comm.Legal] at h
    simp only [Comm.intersect, Option.some.injEq] at ho
    subst ho
    rw [List.mem_filter, mem_keys, decide_eq_true_eq, and_comm, mem_at (l := l)]
    unfold Comm.IsRank
    simp only [Comm.nproc, keys_of_nodup h, Comm.toGlobal, and_assoc]
  | shifted c s => cases ho
  | index n l =>
    obtain ⟨h1, h2⟩ := h
    simp only [Comm.intersect, Option.some.injEq] at ho
    subst ho
    rw [List.mem_filter, decide_eq_true_eq, and_comm, mem_at (l := l)]
    unfold Comm.IsRank
    simp only [Comm.nproc, h2, Comm.toGlobal, and_assoc]
  | rotate n s => cases ho
  | subrange start n =>
    simp only [Comm.intersect, Option.some.injEq] at ho
    subst ho
    rw [List.mem_filter, Bool.and_eq_true, decide_eq_true_eq, decide_eq_true_eq]
    refine and_congr_right fun _ => ?_
    unfold Comm.IsRank
    simp only [Comm.nproc, Comm.toGlobal, Option.some.injEq]
    constructor
    · intro ⟨a, b⟩
      exact ⟨g - start, ⟨by omega, by omega⟩, by omega⟩
    · rintro ⟨r, ⟨a, b⟩, e⟩
      omega

/-- **C88**, refuted: the own rank of a rotated or subrange communicator is computed from members that have no
value yet. With what happens to be in memory, rank 3 of 8 rotated by 3, which is rank 0, gets rank 4, or the
program divides by zero; rank 5 of the subrange from 4 on, which is rank 1, gets rank 5. -/
theorem C88_my_rank_refuted :
    (Comm.rotate 8 3).toComm 3 = some 0 ∧ rotateMyRank 8 7 3 = some 4 ∧ rotateMyRank 0 0 3 = none ∧
    (Comm.subrange 4 3).toComm 5 = some 1 ∧ subrangeMyRank 0 5 = 5 := by decide

/-- **C88**, refuted: subrange and global communicators answer for ranks that are not members. -/
theorem C88_nonmember_refuted : (Comm.subrange 4 3).toComm 2 = some (-2) ∧ (∀ r, (Comm.subrange 4 3).IsRank r → (Comm.subrange 4 3).toGlobal r ≠ some 2) := by
  refine ⟨by decide, ?_⟩
  intro r hr h
  have := hr.1
  simp only [Comm.toGlobal, Option.some.injEq] at h
  omega

/-- A shift that is not between 0 and the number of ranks gives a negative rank: the condition on shifts is needed. -/
theorem C88_shift_refuted : (Comm.shifted (.global 4) 9).toComm 0 = some (-1) := by decide

/-- The hypotheses are met by nested communicators. -/
example : (Comm.shifted (.shifted (.map [7, 3, 9, 4]) 1) 3).Legal ∧ (Comm.shifted (.shifted (.map [7, 3, 9, 4]) 1) 3).NoIndex ∧
    (Comm.shifted (.shifted (.map [7, 3, 9, 4]) 1) 2).toGlobal 0 = some 4 ∧ (Comm.shifted (.shifted (.map [7, 3, 9, 4]) 1) 2).toComm 4 = some 0 := by
  refine ⟨⟨⟨by simp [Comm.Legal], by decide, by decide⟩, by decide, by decide⟩, trivial, by decide, by decide⟩

example : (Comm.rotate 8 3).Legal ∧ (Comm.subrange 4 3).Legal ∧ (Comm.index 2 [5, 1]).Legal := by
  refine ⟨⟨by decide, by decide⟩, trivial, ⟨by decide, by decide⟩⟩

example : (Comm.subrange 4 3).intersect [1, 4, 6, 7] = some [4, 6] ∧ (Comm.map [9, 2, 5]).intersect [5, 6, 9] = some [9, 5] := by decide

end SST.Sumi
