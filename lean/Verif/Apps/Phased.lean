import Verif.Apps.ProgLemmas
set_option autoImplicit false
/-
Programs in phases: in each phase a rank posts receives and sends and waits for all of them,
or all ranks call one collective.  Ranks may post different numbers of messages.
-/
namespace Verif.Apps

/-- A call that returns at once. -/
def Instr.Free : Instr → Prop
  | .comp => True
  | .isend _ _ _ => True
  | .irecv _ _ _ => True
  | _ => False

/-- A phase: calls that return at once and then `MPI_Waitall`, or a collective alone. -/
inductive Phase : List Instr → Prop
  | exchange (pre : List Instr) : (∀ c, c ∈ pre → c.Free) → Phase (pre ++ [.waitall])
  | coll (ms : List Int) (k : Nat) (n : Int) : Phase [.coll ms k n]

theorem Phase.ne_nil {b : List Instr} (h : Phase b) : b ≠ [] := by
  cases h <;> simp

/-- Before its last call, all calls of a phase return at once. -/
theorem Phase.free {b : List Instr} (h : Phase b) {o : Nat} {c : Instr} (hc : b[o]? = some c) (ho : o + 1 < b.length) : c.Free := by
  cases h with
  | exchange pre hp =>
    simp only [List.length_append, List.length_cons, List.length_nil] at ho
    rw [List.getElem?_append_left (by omega)] at hc
    exact hp c (List.mem_of_getElem? hc)
  | coll ms k n => simp at ho

/-- The last call of a phase. -/
theorem Phase.last {b : List Instr} (h : Phase b) {o : Nat} {c : Instr} (hc : b[o]? = some c) (ho : o + 1 = b.length) :
    c = .waitall ∨ ∃ ms k n, c = .coll ms k n := by
  cases h with
  | exchange pre hp =>
    simp only [List.length_append, List.length_cons, List.length_nil] at ho
    have : o = pre.length := by omega
    subst this
    simp at hc
    exact .inl hc.symm
  | coll ms k n =>
    simp at ho
    subst ho
    simp at hc
    exact .inr ⟨ms, k, n, hc.symm⟩

theorem prefix_le {β : Type} (f : Instr → Option β) (l : List Instr) {m n : Nat} (h : m ≤ n) :
    ((l.take m).filterMap f).length ≤ ((l.take n).filterMap f).length := by
  obtain ⟨c, rfl⟩ := Nat.exists_eq_add_of_le h
  rw [List.take_add, List.filterMap_append, List.length_append]
  omega

/-- At its last call of block `i`, or in a later block, a rank has made all calls of the blocks
up to `i`. -/
theorem through {β : Type} (f : Instr → Option β) {Bs : List (List Instr)} {k j o i : Nat} (ha : At Bs k j o)
    (h : i < j ∨ (i = j ∧ o + 1 = (Bs[i]?.getD []).length)) :
    ((Bs.take (i + 1)).flatten.filterMap f).length ≤ ((Bs.flatten.take (k + 1)).filterMap f).length := by
  rcases h with h | ⟨rfl, h⟩
  · exact Nat.le_trans (flat_mono f Bs h) (at_ge f ha)
  · have e : Bs.take (i + 1) = Bs.take i ++ Bs[i]?.toList := List.take_add_one
    rw [ha.take, e, h, List.take_length]
    cases Bs[i]? <;> simp

/-- Programs whose phases match end, whatever sends are eager and in whatever order the ranks
run. -/
theorem phased_completes {W : World} (Bs : Int → List (List Instr))
    (hp : ∀ r, W.Has r → W.prog r = (Bs r).flatten)
    (hlen : ∀ r s, W.Has r → W.Has s → (Bs r).length = (Bs s).length)
    (hph : ∀ r, W.Has r → ∀ b, b ∈ Bs r → Phase b)
    (hin : Inside W)
    (hmatch : ∀ r s t, W.Has r → W.Has s → ∀ (i : Nat) a b, (Bs r)[i]? = some a → (Bs s)[i]? = some b →
      (recvs a s t).length = (sends b r t).length)
    (hcoll : ∀ r s ms, W.Has r → W.Has s → ∀ (i : Nat) a b, (Bs r)[i]? = some a → (Bs s)[i]? = some b →
      (colls a ms).length = (colls b ms).length)
    (hmem : ∀ r, W.Has r → ∀ ms k n, .coll ms k n ∈ W.prog r → ∀ q, q ∈ ms → W.Has q)
    (eager : Int → Prop) : Completes W eager := by
  apply completes_of
  rintro pc ⟨u, hu, hlt⟩
  rw [hp u hu] at hlt
  -- the place of every rank
  have hat : ∀ r, ∃ i o, At (Bs r) (pc r) i o := fun r => exists_at (Bs r) (pc r)
  let blk : Int → Nat := fun r => Classical.choose (hat r)
  have hblk : ∀ r, ∃ o, At (Bs r) (pc r) (blk r) o := fun r => Classical.choose_spec (hat r)
  obtain ⟨r, r0, r1, _, hmin⟩ := argmin (N := W.size) (fun _ => True) blk ⟨u, hu.1, hu.2, trivial⟩
  have hr : W.Has r := ⟨r0, r1⟩
  have hle : ∀ q, W.Has q → blk r ≤ blk q := fun q hq => hmin q hq.1 hq.2 trivial
  have hi : blk r < (Bs r).length := by
    obtain ⟨o, ha⟩ := hblk u
    have h1 : blk u < (Bs u).length := by
      rcases Nat.lt_or_eq_of_le ha.le with h | h
      · exact h
      · have := ha.done h; omega
    have := hle u hu
    rw [hlen r u hr hu]
    omega
  by_cases hall : ∀ q, W.Has q → blk q = blk r → ∀ o, At (Bs q) (pc q) (blk q) o → o + 1 = ((Bs q)[blk r]?.getD []).length
  · -- all ranks of this phase are at its end
    refine ⟨r, hr, ?_⟩
    obtain ⟨o, ha⟩ := hblk r
    have ho := hall r hr rfl o ha
    have reached : ∀ {β : Type} (f : Instr → Option β) (q : Int), W.Has q →
        (((Bs q).take (blk r + 1)).flatten.filterMap f).length ≤ (((Bs q).flatten.take (pc q + 1)).filterMap f).length := by
      intro β f q hq
      obtain ⟨o', ha'⟩ := hblk q
      apply through f ha'
      rcases Nat.lt_or_eq_of_le (hle q hq) with h | h
      · exact .inl h
      · exact .inr ⟨h, hall q hq h.symm o' ha'⟩
    have upto : ∀ {β : Type} (f : Instr → Option β), (((Bs r).flatten.take (pc r + 1)).filterMap f).length ≤
        (((Bs r).take (blk r + 1)).flatten.filterMap f).length := fun f => at_le f ha
    have hb : (Bs r)[blk r]? = some (Bs r)[blk r] := List.getElem?_eq_getElem hi
    have hbm := hph r hr _ (List.getElem_mem hi)
    have hcall := ha.call
    rw [hb] at hcall ho
    simp only [Option.getD_some] at hcall ho
    have hlt' : o < ((Bs r)[blk r]).length := by omega
    rw [List.getElem?_eq_getElem hlt'] at hcall
    unfold Ready
    rw [hp r hr, hcall]
    have hlast := hbm.last (List.getElem?_eq_getElem hlt') ho
    rcases hlast with hw | ⟨ms, k, n, hw⟩
    · rw [hw]
      dsimp only
      intro j hj
      refine ⟨?_, ?_⟩
      · intro s t n hs
        have hs' : W.Has s := (hin r hr _ (by rw [hp r hr]; exact List.mem_of_getElem? hs)).2 s t n (.inl rfl)
        unfold Arrived made
        rw [hp r hr, hp s hs']
        refine Nat.le_trans (prefix_le _ _ (show j + 1 ≤ pc r + 1 by omega)) (Nat.le_trans (upto _) (Nat.le_trans (Nat.le_of_eq ?_) (reached _ s hs')))
        exact flat_len (Bs r) (Bs s) (hlen r s hr hs') (fun i a b ha hb => hmatch r s t hr hs' i a b ha hb) _
      · intro d t n hs
        have hs' : W.Has d := (hin r hr _ (by rw [hp r hr]; exact List.mem_of_getElem? hs)).1 d t n (.inl rfl)
        right
        unfold Taken made
        rw [hp r hr, hp d hs']
        refine Nat.le_trans (prefix_le _ _ (show j + 1 ≤ pc r + 1 by omega)) (Nat.le_trans (upto _) (Nat.le_trans (Nat.le_of_eq ?_) (reached _ d hs')))
        exact flat_len (Bs r) (Bs d) (hlen r d hr hs') (fun i a b ha hb => (hmatch d r t hs' hr i b a hb ha).symm) _
    · rw [hw]
      dsimp only
      intro q hq
      have hq' : W.Has q := hmem r hr ms k n (by
        rw [hp r hr]
        have : (Bs r).flatten[pc r]? = some (.coll ms k n) := by rw [hcall, hw]
        exact List.mem_of_getElem? this) q hq
      unfold made
      rw [hp r hr, hp q hq']
      refine Nat.le_trans (upto _) (Nat.le_trans (Nat.le_of_eq ?_) (reached _ q hq'))
      exact flat_len (Bs r) (Bs q) (hlen r q hr hq') (fun i a b ha hb => hcoll r q ms hr hq' i a b ha hb) _
  · -- some rank of this phase has a call that returns at once
    simp only [Classical.not_forall] at hall
    obtain ⟨q, hq, he, o, ha, hne⟩ := hall
    refine ⟨q, hq, ?_⟩
    have hiq : blk q < (Bs q).length := by rw [he, hlen q r hq hr]; exact hi
    have hb : (Bs q)[blk q]? = some (Bs q)[blk q] := List.getElem?_eq_getElem hiq
    have hlt := ha.lt hiq
    rw [← he] at hne
    have hcall := ha.call
    rw [hb] at hne hlt hcall
    simp only [Option.getD_some] at hne hlt hcall
    rw [List.getElem?_eq_getElem hlt] at hcall
    have hf := (hph q hq _ (List.getElem_mem hiq)).free (List.getElem?_eq_getElem hlt) (by omega)
    unfold Ready
    rw [hp q hq, hcall]
    generalize ((Bs q)[blk q])[o] = c at hf
    cases c <;> first | trivial | exact hf.elim

end Verif.Apps
