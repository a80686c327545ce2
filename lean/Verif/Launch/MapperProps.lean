import Verif.Launch.Mapper
import Verif.Util.ShuffleProps
/-
C59 and C86.
-/
set_option autoImplicit false
namespace SST.Launch

/-- Specification. `result` gives each of `nproc` ranks a node of `nodes`, and no node more than `ppn` ranks. -/
structure Mapped (nodes : List Nat) (ppn nproc : Nat) (result : List Nat) : Prop where
  ranks : result.length = nproc
  nodes : ∀ x ∈ result, x ∈ nodes
  limit : ∀ x : Nat, result.count x ≤ ppn

theorem Mapped.perm {nodes : List Nat} {ppn nproc : Nat} {r r' : List Nat} (h : Mapped nodes ppn nproc r) (hp : r'.Perm r) : Mapped nodes ppn nproc r' :=
  ⟨hp.length_eq.trans h.ranks, fun x hx => h.nodes x (hp.subset hx), fun x => by rw [hp.count_eq]; exact h.limit x⟩

theorem Mapped.nodes_perm {nodes nodes' : List Nat} {ppn nproc : Nat} {r : List Nat} (h : Mapped nodes ppn nproc r) (hp : nodes.Perm nodes') : Mapped nodes' ppn nproc r :=
  ⟨h.ranks, fun x hx => hp.subset (h.nodes x hx), h.limit⟩

/-- `ppn` copies of each node, cut at `nproc`. -/
def blocks (nodes : List Nat) (ppn nproc : Nat) : List Nat := (nodes.flatMap (List.replicate ppn ·)).take nproc

theorem flat_length (nodes : List Nat) (ppn : Nat) : (nodes.flatMap (List.replicate ppn ·)).length = ppn * nodes.length := by
  induction nodes with
  | nil => rfl
  | cons x nodes ih => rw [List.flatMap_cons, List.length_append, List.length_replicate, ih, List.length_cons, Nat.mul_succ]; omega

theorem flat_count (nodes : List Nat) (ppn x : Nat) : (nodes.flatMap (List.replicate ppn ·)).count x = ppn * nodes.count x := by
  induction nodes with
  | nil => rfl
  | cons y nodes ih =>
    rw [List.flatMap_cons, List.count_append, ih, List.count_replicate, List.count_cons, Nat.mul_add]
    by_cases h : y == x
    · rw [if_pos h, if_pos h]; omega
    · rw [if_neg h, if_neg h]; omega

theorem blocks_mapped {nodes : List Nat} (hn : nodes.Nodup) {ppn nproc : Nat} (h : nproc ≤ ppn * nodes.length) : Mapped nodes ppn nproc (blocks nodes ppn nproc) := by
  refine ⟨?_, fun x hx => ?_, fun x => ?_⟩
  · unfold blocks; rw [List.length_take, flat_length]; omega
  · obtain ⟨y, hy, hx⟩ := List.mem_flatMap.mp (List.mem_of_mem_take hx)
    rw [List.eq_of_mem_replicate hx]; exact hy
  · have h1 : (blocks nodes ppn nproc).count x ≤ (nodes.flatMap (List.replicate ppn ·)).count x := (List.take_sublist _ _).count_le _
    rw [flat_count] at h1
    have h2 : nodes.count x ≤ 1 := List.nodup_iff_count.mp hn x
    exact Nat.le_trans h1 (Nat.le_trans (Nat.mul_le_mul_left _ h2) (by omega))

theorem validate_some {ppn n nproc k : Nat} (h : validateNproc ppn n nproc = some k) : k = nproc ∧ 0 < ppn ∧ nproc ≤ ppn * n := by
  unfold validateNproc at h
  split at h
  · cases h
  · split at h
    · cases h
    · split at h
      · cases h
      · cases h; exact ⟨rfl, by omega, by omega⟩

theorem blockLoop_eq (ppn nproc : Nat) (hp : 0 < ppn) (nodes done : List Nat) :
    blockLoop ppn nproc nodes (blocks done ppn nproc) = blocks (done ++ nodes) ppn nproc := by
  induction nodes generalizing done with
  | nil => rw [List.append_nil]; rfl
  | cons a nodes ih =>
    have hstep : blocks done ppn nproc ++ List.replicate (if (blocks done ppn nproc).length + ppn > nproc then nproc - (blocks done ppn nproc).length else ppn) a =
        blocks (done ++ [a]) ppn nproc := by
      unfold blocks
      rw [List.flatMap_append, List.flatMap_cons, List.flatMap_nil, List.append_nil, List.take_append, List.take_replicate, List.length_take]
      congr 2
      split <;> omega
    simp only [blockLoop]
    rw [hstep, ih (done ++ [a]), List.append_assoc]
    rfl

theorem blockMap_eq {nodes : List Nat} {ppn nproc : Nat} {r : List Nat} (h : blockMap nodes ppn nproc = some r) :
    r = blocks nodes ppn nproc ∧ 0 < ppn ∧ nproc ≤ ppn * nodes.length := by
  unfold blockMap at h
  cases hv : validateNproc ppn nodes.length nproc with
  | none => rw [hv] at h; cases h
  | some k =>
    rw [hv] at h
    obtain ⟨rfl, h1, h2⟩ := validate_some hv
    have he := blockLoop_eq ppn k h1 nodes []
    cases h
    have hb : blocks [] ppn k = [] := List.take_nil
    rw [hb] at he
    exact ⟨he, h1, h2⟩

/-- **C59**. The block mapper maps every rank, to nodes of the allocation, within the limit. -/
theorem C59_block {nodes : List Nat} (hn : nodes.Nodup) {ppn nproc : Nat} {r : List Nat} (h : blockMap nodes ppn nproc = some r) : Mapped nodes ppn nproc r := by
  obtain ⟨rfl, h1, h2⟩ := blockMap_eq h
  exact blocks_mapped hn h2

example : blockMap [3, 5, 8] 2 5 = some [3, 3, 5, 5, 8] := by decide

theorem write_block (x : Nat) (k : Nat) (A B : List Nat) (hk : k ≤ B.length) :
    (List.range' A.length k).foldl (fun r i => r.set i x) (A ++ B) = A ++ List.replicate k x ++ B.drop k := by
  induction k generalizing A B with
  | zero => simp
  | succ k ih =>
    cases B with
    | nil => exact absurd hk (by simp)
    | cons b B =>
      rw [List.range'_succ, List.foldl_cons, List.set_append_right _ _ (Nat.le_refl _), Nat.sub_self, List.set_cons_zero]
      have := ih (A ++ [x]) B (by simpa using hk)
      rw [List.length_append, List.length_singleton, List.append_assoc, List.singleton_append] at this
      rw [this, List.replicate_succ, List.drop_succ_cons]
      simp

theorem fillLoop_eq (ppn nproc : Nat) (nodes done : List Nat) :
    fillLoop ppn nproc done.length nodes (blocks done ppn nproc ++ List.replicate (nproc - ppn * done.length) 0) =
      blocks (done ++ nodes) ppn nproc ++ List.replicate (nproc - ppn * (done ++ nodes).length) 0 := by
  induction nodes generalizing done with
  | nil => rw [List.append_nil]; rfl
  | cons a nodes ih =>
    have hstep : writeRange (blocks done ppn nproc ++ List.replicate (nproc - ppn * done.length) 0) a (done.length * ppn) (min (done.length * ppn + ppn) nproc) =
        blocks (done ++ [a]) ppn nproc ++ List.replicate (nproc - ppn * (done ++ [a]).length) 0 := by
      have hb : blocks (done ++ [a]) ppn nproc = blocks done ppn nproc ++ List.replicate (min (nproc - ppn * done.length) ppn) a := by
        unfold blocks
        rw [List.flatMap_append, List.flatMap_cons, List.flatMap_nil, List.append_nil, List.take_append, List.take_replicate, flat_length]
      have hl : (done ++ [a]).length = done.length + 1 := by simp
      rw [hb, hl, Nat.mul_succ]
      have hc : done.length * ppn = ppn * done.length := Nat.mul_comm _ _
      unfold writeRange
      rw [hc]
      generalize hM : ppn * done.length = M
      by_cases hlt : M ≤ nproc
      · have hlen : (blocks done ppn nproc).length = M := by
          unfold blocks; rw [List.length_take, flat_length, hM]; omega
        have := write_block a (min (M + ppn) nproc - M) (blocks done ppn nproc) (List.replicate (nproc - M) 0) (by rw [List.length_replicate]; omega)
        rw [hlen] at this
        rw [this, List.drop_replicate, show min (M + ppn) nproc - M = min (nproc - M) ppn by omega, show nproc - M - min (nproc - M) ppn = nproc - (M + ppn) by omega]
      · rw [show min (M + ppn) nproc - M = 0 by omega, show nproc - M = 0 by omega, show nproc - (M + ppn) = 0 by omega]
        simp
    have hl : (done ++ [a]).length = done.length + 1 := by simp
    simp only [fillLoop]
    rw [hstep, ← hl, ih (done ++ [a]), List.append_assoc]
    rfl

theorem fill_blocks (ppn nproc : Nat) (nodes : List Nat) (h : nproc ≤ ppn * nodes.length) :
    fillLoop ppn nproc 0 nodes (List.replicate nproc 0) = blocks nodes ppn nproc := by
  have := fillLoop_eq ppn nproc nodes []
  rw [List.nil_append, show nproc - ppn * nodes.length = 0 by omega] at this
  simpa [blocks] using this

/-- **C59**. The random mapper, in both of its modes and whatever the random numbers are, succeeds and maps
every rank, to nodes of the allocation, within the limit. -/
theorem C59_random {nodes : List Nat} (hn : nodes.Nodup) (hl : nodes.length < 2^32) {ppn nproc : Nat} (hp : nproc < 2^32) (smp : Bool) (v : Nat → Nat)
    (hv : validateNproc ppn nodes.length nproc = some nproc) : ∃ r, randomMap smp v nodes ppn nproc = some r ∧ Mapped nodes ppn nproc r := by
  obtain ⟨-, h1, h2⟩ := validate_some hv
  unfold randomMap
  rw [hv]
  simp only
  cases smp with
  | true =>
    obtain ⟨ns, hs, hperm⟩ := Util.C64_shuffle v nodes hl
    have hlen := hperm.length_eq
    rw [if_pos rfl, hs]
    refine ⟨_, rfl, ?_⟩
    rw [fill_blocks ppn nproc ns (by rw [hlen]; exact h2)]
    exact (blocks_mapped (hperm.nodup_iff.mpr hn) (by rw [hlen]; exact h2)).nodes_perm hperm
  | false =>
    rw [if_neg (by decide), fill_blocks ppn nproc nodes h2]
    have hm := blocks_mapped hn h2
    obtain ⟨r, hs, hperm⟩ := Util.C64_shuffle v (blocks nodes ppn nproc) (by rw [hm.ranks]; exact hp)
    exact ⟨r, hs, hm.perm hperm⟩

example : validateNproc 2 [3, 5, 8].length 5 = some 5 ∧ randomMap false (fun i => i + 2) [3, 5, 8] 2 5 = some [3, 5, 5, 8, 3] := by decide

theorem rr_length (nodes : List Nat) (m ppn : Nat) (h : m ≤ nodes.length) : ((List.range ppn).flatMap fun _ => nodes.take m).length = ppn * m := by
  rw [List.length_flatMap, List.map_const', List.sum_replicate_nat, List.length_range, List.length_take]
  rw [Nat.min_eq_left h]

/-- **C59** (partial). The round robin mapper maps every rank, to nodes of the allocation, within the limit,
if the number of ranks is a multiple of the number per node. What is missing: the other numbers
(`C59_round_robin_refuted`). -/
theorem C59_round_robin_partial {nodes : List Nat} (hn : nodes.Nodup) {ppn nproc : Nat} {r : List Nat} (h : roundRobinMap nodes ppn nproc = some r)
    (hd : nproc % ppn = 0) : Mapped nodes ppn nproc r := by
  unfold roundRobinMap at h
  cases hv : validateNproc ppn nodes.length nproc with
  | none => rw [hv] at h; cases h
  | some k =>
    rw [hv] at h
    obtain ⟨rfl, h1, h2⟩ := validate_some hv
    cases h
    have hdiv : ppn * (k / ppn) = k := by have := Nat.div_add_mod k ppn; omega
    have hle : k / ppn ≤ nodes.length := Nat.le_of_mul_le_mul_left (by rw [hdiv]; exact h2) h1
    refine ⟨by rw [rr_length _ _ _ hle, hdiv], fun x hx => ?_, fun x => ?_⟩
    · obtain ⟨_, _, hx⟩ := List.mem_flatMap.mp hx
      exact List.mem_of_mem_take hx
    · rw [List.count_flatMap]
      have hc : (nodes.take (k / ppn)).count x ≤ 1 := List.nodup_iff_count.mp ((List.take_sublist _ _).nodup hn) x
      have : ((List.range ppn).map (List.count x ∘ fun _ => nodes.take (k / ppn))).sum = ppn * (nodes.take (k / ppn)).count x := by
        show ((List.range ppn).map fun _ => (nodes.take (k / ppn)).count x).sum = _
        rw [List.map_const', List.sum_replicate_nat, List.length_range]
      rw [this]
      exact Nat.le_trans (Nat.mul_le_mul_left _ hc) (by omega)

example : roundRobinMap [3, 5] 2 4 = some [3, 5, 3, 5] := by decide

/-- **C59** (refuted). With the round robin mapper a job of three ranks, two per node, gets only two ranks,
both on the same node. -/
theorem C59_round_robin_refuted : roundRobinMap [3, 5] 2 3 = some [3, 3] := by decide

/-! ### The inverse table -/

theorem table_fold (numNodes : Nat) (l : List Nat) (hl : ∀ x ∈ l, x < numNodes) (k : Nat) (t : List (List Nat)) (ht : t.length = numNodes) :
    ∃ t', (l.zipIdx k).foldl (fun t p => match t with
      | none => none
      | some t => match t[p.1]? with
        | none => none
        | some rs => some (t.set p.1 (rs ++ [p.2]))) (some t) = some t' ∧ t'.length = numNodes ∧
      ∀ (n : Nat) (rs : List Nat), t[n]? = some rs → t'[n]? = some (rs ++ ((l.zipIdx k).filter (fun p => p.1 == n)).map (·.2)) := by
  induction l generalizing k t with
  | nil => exact ⟨t, rfl, ht, fun n rs h => by simpa using h⟩
  | cons x l ih =>
    have hx : x < t.length := by rw [ht]; exact hl x (List.mem_cons_self ..)
    rw [List.zipIdx_cons, List.foldl_cons]
    simp only [List.getElem?_eq_getElem hx]
    obtain ⟨t', h1, h2, h3⟩ := ih (fun y hy => hl y (List.mem_cons_of_mem _ hy)) (k + 1) (t.set x (t[x] ++ [k])) (by rw [List.length_set]; exact ht)
    refine ⟨t', h1, h2, fun n rs hn => ?_⟩
    by_cases he : x = n
    · subst he
      have hrs : t[x] = rs := by rw [List.getElem?_eq_getElem hx] at hn; exact Option.some.inj hn
      rw [h3 x (rs ++ [k]) (by rw [List.getElem?_set_self hx, hrs])]
      simp
    · rw [h3 n rs (by rw [List.getElem?_set_ne he]; exact hn)]
      simp [he]

/-- The ranks on node `n` in ascending order. -/
def ranksOn (rankToNode : List Nat) (n : Nat) : List Nat := (List.range rankToNode.length).filter fun r => rankToNode[r]? == some n

theorem zip_ranks (l : List Nat) (n k : Nat) : ((l.zipIdx k).filter (fun p => p.1 == n)).map (·.2) = (List.range' k l.length).filter fun r => l[r - k]? == some n := by
  induction l generalizing k with
  | nil => rfl
  | cons x l ih =>
    rw [List.zipIdx_cons, List.length_cons, List.range'_succ, List.filter_cons, List.filter_cons]
    have hrest : (List.range' (k + 1) l.length).filter (fun r => (x :: l)[r - k]? == some n) = (List.range' (k + 1) l.length).filter (fun r => l[r - (k + 1)]? == some n) := by
      apply List.filter_congr
      intro r hr
      rw [List.mem_range'_1] at hr
      rw [show r - k = (r - (k + 1)) + 1 by omega, List.getElem?_cons_succ]
    rw [hrest, ← ih (k + 1)]
    simp only [Nat.sub_self, List.getElem?_cons_zero]
    by_cases he : x = n
    · subst he; simp
    · simp [he]

/-- **C86**. For every mapping to existing nodes the table of the ranks on each node is built, has an entry
for every node, and lists exactly the ranks mapped to the node, in ascending order. -/
theorem C86_inverse (numNodes : Nat) (rankToNode : List Nat) (h : ∀ x ∈ rankToNode, x < numNodes) :
    ∃ t, nodeToRank numNodes rankToNode = some t ∧ t.length = numNodes ∧ ∀ n, n < numNodes → t[n]? = some (ranksOn rankToNode n) := by
  obtain ⟨t, h1, h2, h3⟩ := table_fold numNodes rankToNode h 0 (List.replicate numNodes []) List.length_replicate
  refine ⟨t, h1, h2, fun n hn => ?_⟩
  have := h3 n [] (by rw [List.getElem?_replicate, if_pos hn])
  rw [List.nil_append, zip_ranks] at this
  rw [this]
  unfold ranksOn
  rw [List.range_eq_range']
  simp

example : nodeToRank 4 [3, 1, 3] = some [[], [1], [], [0, 2]] := by decide

end SST.Launch
