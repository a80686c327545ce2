import Verif.Coll.Smp
/-!
C118: collectives that know the nodes (`smp_optimize`) return what the plain ones return.
-/
set_option autoImplicit false
namespace SST.Coll.Smp

variable {V : Type}

/-! ### Specification -/

/-- The ranks of the communicator are distinct ranks of the job. -/
def Placed (J : Job) : Prop := J.members.Nodup ∧ ∀ g ∈ J.members, g < J.world

/-- The members on the node of `g`. -/
def peers (J : Job) (g : Nat) : List Nat := J.members.filter (fun h => J.node h == J.node g)

/-- Every node with members has `k` of them. -/
def Even (J : Job) (k : Nat) : Prop := ∀ g ∈ J.members, (peers J g).length = k

/-- The members lie on two nodes or more. -/
def Spread (J : Job) : Prop := ∃ g ∈ J.members, ∃ h ∈ J.members, J.node g ≠ J.node h

/-- The ranks of the communicator go through the nodes one after the other: block by block,
one block for each node, ascending in each. -/
def ByNode (J : Job) (blocks : List (List Nat)) : Prop :=
  J.members = blocks.flatten ∧ (∀ b ∈ blocks, b.Pairwise (· < ·)) ∧
  (∀ b ∈ blocks, ∀ x ∈ b, ∀ y ∈ b, J.node x = J.node y) ∧
  blocks.Pairwise (fun b c => ∀ x ∈ b, ∀ y ∈ c, J.node x ≠ J.node y)

/-- The result of an allgather: all contributions in the order of the communicator. -/
def gathered (J : Job) (mem : Nat → Buf → List V) : List V := J.members.flatMap (fun g => mem g .src)

/-! ### Groups -/

theorem length_le_of_inj {α β : Type} [DecidableEq β] (f : α → β) :
    ∀ (l : List α) (l' : List β), (l.map f).Nodup → (∀ x ∈ l, f x ∈ l') → l.length ≤ l'.length
  | [], _, _, _ => Nat.zero_le _
  | x :: l, l', hn, hm => by
    rw [List.map_cons, List.nodup_cons] at hn
    have hx := hm x (by simp)
    have := length_le_of_inj f l (l'.erase (f x)) hn.2 (fun y hy => by
      have h1 := hm y (by simp [hy])
      have h2 : f y ≠ f x := fun h => hn.1 (by rw [← h]; exact List.mem_map_of_mem hy)
      exact (List.mem_erase_of_ne h2).mpr h1)
    rw [List.length_erase_of_mem hx] at this
    have := List.length_pos_of_mem hx
    simp only [List.length_cons]
    omega

theorem nodup_map {α β : Type} (f : α → β) : ∀ (l : List α), l.Nodup →
    (∀ x ∈ l, ∀ y ∈ l, f x = f y → x = y) → (l.map f).Nodup
  | [], _, _ => by simp
  | x :: l, hn, hi => by
    rw [List.nodup_cons] at hn
    rw [List.map_cons, List.nodup_cons]
    refine ⟨fun h => ?_, nodup_map f l hn.2 (fun a ha b hb => hi a (by simp [ha]) b (by simp [hb]))⟩
    obtain ⟨y, hy, he⟩ := List.mem_map.mp h
    exact hn.1 (by rw [← hi y (by simp [hy]) x (by simp) he]; exact hy)

theorem group_eq {J : Job} (hp : Placed J) {g : Nat} (h2 : 2 ≤ (peers J g).length) :
    smpGroup J g = (List.range J.world).filter (fun h => J.node h == J.node g && J.members.contains h) := by
  have hle : (peers J g).length ≤ ((List.range J.world).filter (fun h => J.node h == J.node g)).length := by
    refine length_le_of_inj id _ _ (by rw [List.map_id]; exact hp.1.filter _) (fun x hx => ?_)
    rw [peers, List.mem_filter] at hx
    rw [id, List.mem_filter, List.mem_range]
    exact ⟨hp.2 x hx.1, hx.2⟩
  unfold smpGroup neighbors
  simp only
  rw [if_pos (by omega), List.filter_filter]
  congr 1
  funext h
  exact Bool.and_comm _ _

theorem mem_group {J : Job} (hp : Placed J) {g : Nat} (h2 : 2 ≤ (peers J g).length) (h : Nat) :
    h ∈ smpGroup J g ↔ h ∈ J.members ∧ J.node h = J.node g := by
  rw [group_eq hp h2, List.mem_filter, List.mem_range, Bool.and_eq_true, beq_iff_eq, List.contains_iff_mem]
  constructor
  · rintro ⟨_, h1, h2⟩; exact ⟨h2, h1⟩
  · rintro ⟨h1, h2⟩; exact ⟨hp.2 h h1, h2, h1⟩

theorem sub_of_group {J : Job} {g h : Nat} (hm : h ∈ smpGroup J g) : h ∈ J.members ∧ J.node h = J.node g := by
  unfold smpGroup neighbors at hm
  rw [List.mem_filter] at hm
  refine ⟨List.contains_iff_mem.mp hm.2, ?_⟩
  have := hm.1
  simp only at this
  split at this
  · exact (beq_iff_eq.mp (List.mem_filter.mp this).2)
  · simp at this

theorem group_sorted (J : Job) (g : Nat) : (smpGroup J g).Pairwise (· < ·) := by
  unfold smpGroup neighbors
  apply List.Pairwise.filter
  simp only
  split
  · exact List.Pairwise.filter _ List.pairwise_lt_range
  · exact List.Pairwise.nil

theorem group_nodup (J : Job) (g : Nat) : (smpGroup J g).Nodup :=
  (group_sorted J g).imp (fun h => Nat.ne_of_lt h)

theorem group_congr {J : Job} {g h : Nat} (he : J.node g = J.node h) : smpGroup J g = smpGroup J h := by
  unfold smpGroup neighbors
  rw [he]

theorem group_length {J : Job} (hp : Placed J) {g : Nat} (h2 : 2 ≤ (peers J g).length) :
    (smpGroup J g).length = (peers J g).length := by
  refine List.Perm.length_eq ((List.perm_ext_iff_of_nodup (group_nodup J g) (hp.1.filter _)).mpr (fun h => ?_))
  rw [mem_group hp h2, List.mem_filter, beq_iff_eq]

/-- A member alone on its node has no node communicator. -/
theorem lone_group {J : Job} (hp : Placed J) {g : Nat} (h1 : (peers J g).length ≤ 1) : hasSmp J g = false := by
  unfold hasSmp
  have : (smpGroup J g).length ≤ (peers J g).length := by
    refine length_le_of_inj id _ _ (by simpa using group_nodup J g) (fun x hx => ?_)
    obtain ⟨a, b⟩ := sub_of_group hx
    exact List.mem_filter.mpr ⟨a, by simpa using b⟩
  simp only [decide_eq_false_iff_not]
  omega

section
variable {J : Job} (hp : Placed J)
include hp

theorem has_smp {g : Nat} (h2 : 2 ≤ (peers J g).length) : hasSmp J g = true := by
  unfold hasSmp
  rw [group_length hp h2]
  exact decide_eq_true h2

theorem self_mem {g : Nat} (hg : g ∈ J.members) (h2 : 2 ≤ (peers J g).length) : g ∈ smpGroup J g :=
  (mem_group hp h2 g).mpr ⟨hg, rfl⟩

/-- The first of a node. -/
theorem owner_of {g : Nat} (hg : g ∈ J.members) (h2 : 2 ≤ (peers J g).length) :
    ∃ o, o ∈ J.members ∧ J.node o = J.node g ∧ smpRank J o = 0 ∧ (smpGroup J g).take 1 = [o] := by
  cases hs : smpGroup J g with
  | nil => have := self_mem hp hg h2; rw [hs] at this; simp at this
  | cons o l =>
    have hm : o ∈ smpGroup J g := by rw [hs]; simp
    obtain ⟨a, b⟩ := (mem_group hp h2 o).mp hm
    refine ⟨o, a, b, ?_, by simp⟩
    unfold smpRank
    rw [group_congr b, hs]
    simp

theorem owner_head {g : Nat} (hg : g ∈ J.members) (h2 : 2 ≤ (peers J g).length) (h0 : smpRank J g = 0) :
    (smpGroup J g).take 1 = [g] := by
  have hm := self_mem hp hg h2
  unfold smpRank at h0
  cases hs : smpGroup J g with
  | nil => rw [hs] at hm; simp at hm
  | cons o l =>
    rw [hs] at h0
    by_cases he : o = g
    · simp [he]
    · rw [List.idxOf_cons, beq_false_of_ne he, cond_false] at h0; omega

end

theorem mem_owners {J : Job} {g : Nat} : g ∈ owners J ↔ g ∈ J.members ∧ smpRank J g = 0 := by
  unfold owners; rw [List.mem_filter, beq_iff_eq]

theorem two_owners {J : Job} {k : Nat} (hp : Placed J) (hk : 2 ≤ k) (he : Even J k) (hs : Spread J) :
    2 ≤ (owners J).length := by
  obtain ⟨g, hg, h, hh, hne⟩ := hs
  obtain ⟨o1, a1, b1, c1, _⟩ := owner_of hp hg (by rw [he g hg]; exact hk)
  obtain ⟨o2, a2, b2, c2, _⟩ := owner_of hp hh (by rw [he h hh]; exact hk)
  have : o1 ≠ o2 := fun e => hne (by rw [← b1, ← b2, e])
  refine length_le_of_inj id [o1, o2] _ (by simp [this]) (fun x hx => ?_)
  simp only [List.mem_cons, List.not_mem_nil, or_false] at hx
  rcases hx with rfl | rfl
  · exact mem_owners.mpr ⟨a1, c1⟩
  · exact mem_owners.mpr ⟨a2, c2⟩

theorem rank_lt {J : Job} (hp : Placed J) {g : Nat} (hg : g ∈ J.members) (h2 : 2 ≤ (peers J g).length) :
    smpRank J g < (peers J g).length := by
  rw [← group_length hp h2]
  exact List.idxOf_lt_length_of_mem (self_mem hp hg h2)

/-- Members with rank `j` on their node are no more than the nodes. -/
theorem eq_of_rank {J : Job} (hp : Placed J) {g h : Nat} (hg : g ∈ J.members) (hh : h ∈ J.members)
    (h2 : 2 ≤ (peers J g).length) (hn : J.node g = J.node h) (hr : smpRank J g = smpRank J h) : g = h := by
  have h2' : 2 ≤ (peers J h).length := by unfold peers at h2 ⊢; rw [← hn]; exact h2
  have m1 := self_mem hp hg h2
  have m2 := self_mem hp hh h2'
  unfold smpRank at hr
  rw [group_congr hn] at hr m1
  have e1 := List.getElem_idxOf (List.idxOf_lt_length_of_mem m1)
  have e2 := List.getElem_idxOf (List.idxOf_lt_length_of_mem m2)
  refine e1.symm.trans (Eq.trans ?_ e2)
  congr 1

theorem rankCount_le {J : Job} (hp : Placed J) (h2 : ∀ g ∈ J.members, 2 ≤ (peers J g).length) (j : Nat) :
    rankCount J j ≤ rankCount J 0 := by
  unfold rankCount
  refine length_le_of_inj (fun g => ((smpGroup J g).take 1).headD 0) _ _ (nodup_map _ _ (hp.1.filter _) ?_) ?_
  · intro x hx y hy hxy
    rw [List.mem_filter, beq_iff_eq] at hx hy
    obtain ⟨o1, a1, b1, c1, d1⟩ := owner_of hp hx.1 (h2 x hx.1)
    obtain ⟨o2, a2, b2, c2, d2⟩ := owner_of hp hy.1 (h2 y hy.1)
    simp only [d1, d2, List.headD_cons] at hxy
    exact eq_of_rank hp hx.1 hy.1 (h2 x hx.1) (by rw [← b1, ← b2, hxy]) (by rw [hx.2, hy.2])
  · intro x hx
    rw [List.mem_filter] at hx
    obtain ⟨o1, a1, b1, c1, d1⟩ := owner_of hp hx.1 (h2 x hx.1)
    simp only [d1, List.headD_cons, List.mem_filter, beq_iff_eq]
    exact ⟨a1, c1⟩

theorem rank_at {J : Job} (hp : Placed J) {g j : Nat} (h2 : 2 ≤ (peers J g).length)
    (hj : j < (peers J g).length) :
    ∃ x, (smpGroup J g)[j]? = some x ∧ x ∈ J.members ∧ J.node x = J.node g ∧ smpRank J x = j := by
  rw [← group_length hp h2] at hj
  refine ⟨(smpGroup J g)[j], List.getElem?_eq_getElem hj, ?_⟩
  obtain ⟨a, b⟩ := (mem_group hp h2 _).mp (List.getElem_mem hj)
  refine ⟨a, b, ?_⟩
  unfold smpRank
  rw [group_congr b]
  exact List.Nodup.idxOf_getElem (group_nodup J g) j hj

theorem balanced_of_even {J : Job} {k : Nat} (hp : Placed J) (hk : 2 ≤ k) (he : Even J k) (g : Nat) :
    balanced J g = true := by
  have h2 : ∀ g ∈ J.members, 2 ≤ (peers J g).length := fun g hg => by rw [he g hg]; exact hk
  unfold balanced
  split
  · rw [List.all_eq_true]
    intro x hx
    rw [beq_iff_eq]
    refine Nat.le_antisymm (rankCount_le hp h2 _) ?_
    have hj := rank_lt hp hx (h2 x hx)
    rw [he x hx] at hj
    unfold rankCount
    refine length_le_of_inj (fun g => ((smpGroup J g)[smpRank J x]?).getD 0) _ _ (nodup_map _ _ (hp.1.filter _) ?_) ?_
    · intro y hy z hz hyz
      rw [List.mem_filter, beq_iff_eq] at hy hz
      obtain ⟨a, a1, a2, a3, a4⟩ := rank_at hp (h2 y hy.1) (by rw [he y hy.1]; exact hj)
      obtain ⟨b, b1, b2, b3, b4⟩ := rank_at hp (h2 z hz.1) (by rw [he z hz.1]; exact hj)
      simp only [a1, b1, Option.getD_some] at hyz
      exact eq_of_rank hp hy.1 hz.1 (h2 y hy.1) (by rw [← a3, ← b3, hyz]) (by rw [hy.2, hz.2])
    · intro y hy
      rw [List.mem_filter] at hy
      obtain ⟨a, a1, a2, a3, a4⟩ := rank_at hp (h2 y hy.1) (by rw [he y hy.1]; exact hj)
      simp only [a1, Option.getD_some, List.mem_filter, beq_iff_eq]
      exact ⟨a2, a4⟩
  · rfl

/-- With nodes of different sizes the owners know it. -/
theorem unbalanced {J : Job} (hp : Placed J) (h2 : ∀ g ∈ J.members, 2 ≤ (peers J g).length) {a b : Nat}
    (ha : a ∈ J.members) (hb : b ∈ J.members) (hlt : (peers J a).length < (peers J b).length) (g : Nat)
    (h0 : smpRank J g = 0) : balanced J g = false := by
  unfold balanced
  rw [if_pos h0, Bool.eq_false_iff]
  intro hall
  obtain ⟨x, _, hx, hxn, hxr⟩ := rank_at hp (h2 b hb) hlt
  have := List.all_eq_true.mp hall x hx
  rw [beq_iff_eq, hxr] at this
  obtain ⟨o, ho, hon, hor, _⟩ := owner_of hp ha (h2 a ha)
  have hmem : o ∈ J.members.filter (fun g => smpRank J g == 0) := List.mem_filter.mpr ⟨ho, by simp [hor]⟩
  have hle : rankCount J (peers J a).length ≤ ((J.members.filter (fun g => smpRank J g == 0)).erase o).length := by
    unfold rankCount
    refine length_le_of_inj (fun g => ((smpGroup J g).take 1).headD 0) _ _ (nodup_map _ _ (hp.1.filter _) ?_) ?_
    · intro x hx y hy hxy
      rw [List.mem_filter, beq_iff_eq] at hx hy
      obtain ⟨o1, a1, b1, c1, d1⟩ := owner_of hp hx.1 (h2 x hx.1)
      obtain ⟨o2, a2, b2, c2, d2⟩ := owner_of hp hy.1 (h2 y hy.1)
      simp only [d1, d2, List.headD_cons] at hxy
      exact eq_of_rank hp hx.1 hy.1 (h2 x hx.1) (by rw [← b1, ← b2, hxy]) (by rw [hx.2, hy.2])
    · intro y hy
      rw [List.mem_filter, beq_iff_eq] at hy
      obtain ⟨o1, a1, b1, c1, d1⟩ := owner_of hp hy.1 (h2 y hy.1)
      simp only [d1, List.headD_cons]
      have hne : o1 ≠ o := by
        intro e
        have hlt := rank_lt hp hy.1 (h2 y hy.1)
        have : (peers J y).length = (peers J a).length := by
          unfold peers; rw [← b1, e, hon]
        omega
      exact (List.mem_erase_of_ne hne).mpr (List.mem_filter.mpr ⟨a1, by simp [c1]⟩)
  rw [List.length_erase_of_mem hmem] at hle
  have := List.length_pos_of_mem hmem
  unfold rankCount at *
  omega


/-! ### Executions -/

/-- Steps left to a rank. -/
def left (prog : Nat → List Stage) (s : St V) (p : Nat) : Nat :=
  (if s.entered p then 0 else 1) + ((prog p).length - s.pc p)

theorem launch_entered (prog : Nat → List Stage) (s : St V) (p : Nat) : (launch prog s p).entered = s.entered := by
  unfold launch; split <;> rfl

theorem launch_pc (prog : Nat → List Stage) (s : St V) (p q : Nat) :
    s.pc q ≤ (launch prog s p).pc q ∧ (q ≠ p → (launch prog s p).pc q = s.pc q) := by
  unfold launch
  split <;> (try exact ⟨Nat.le_refl _, fun _ => rfl⟩)
  simp only
  by_cases h : q = p
  · subst h; simp
  · simp [h]

theorem effect_entered (s : St V) (p : Nat) (st : Stage) : (effect s p st).entered = s.entered := by
  cases st <;> simp only [effect, write] <;> split <;> rfl

theorem step_left {procs : List Nat} {prog : Nat → List Stage} {needs : Nat → List Nat} {s s' : St V}
    (h : Step procs prog needs s s') :
    ∃ p ∈ procs, left prog s' p + 1 ≤ left prog s p ∧ ∀ q, q ≠ p → left prog s' q = left prog s q := by
  cases h with
  | enter p hp he =>
    refine ⟨p, hp, ?_, fun q hq => ?_⟩
    · unfold left enter
      rw [launch_entered]
      have := (launch_pc prog { s with entered := fun q => if q = p then true else s.entered q } p p).1
      simp only at this
      simp only [he, if_true, Bool.false_eq_true, if_false]
      omega
    · unfold left enter
      rw [launch_entered, (launch_pc prog _ p q).2 hq]
      simp [hq]
  | finish p st hp he hst hr =>
    have hlt : s.pc p < (prog p).length := by
      rw [List.getElem?_eq_some_iff] at hst; exact hst.1
    refine ⟨p, hp, ?_, fun q hq => ?_⟩
    · unfold left finish
      rw [launch_entered]
      have := (launch_pc prog { effect s p st with pc := fun q => if q = p then s.pc p + 1 else s.pc q } p p).1
      simp only [if_true] at this
      simp only [effect_entered, he, if_true]
      simp only [effect_entered] at this
      omega
    · unfold left finish
      rw [launch_entered, (launch_pc prog _ p q).2 hq]
      simp [hq, effect_entered]

theorem sum_lt (f g : Nat → Nat) (p : Nat) : ∀ (l : List Nat), l.Nodup → p ∈ l → f p + 1 ≤ g p →
    (∀ q, q ≠ p → f q = g q) → (l.map f).sum + 1 ≤ (l.map g).sum
  | [], _, h, _, _ => by simp at h
  | x :: l, hn, h, h1, h2 => by
    rw [List.nodup_cons] at hn
    simp only [List.map_cons, List.sum_cons]
    by_cases hx : x = p
    · subst hx
      have : l.map f = l.map g := List.map_congr_left (fun q hq => h2 q (fun e => hn.1 (e ▸ hq)))
      rw [this]
      omega
    · have := sum_lt f g p l hn.2 (by simpa [Ne.symm hx] using h) h1 h2
      rw [h2 x hx]
      omega

theorem steps_bound {procs : List Nat} (hn : procs.Nodup) {prog : Nat → List Stage} {needs : Nat → List Nat}
    {mem : Nat → Buf → List V} {n : Nat} {s : St V} (h : Reach procs prog needs mem n s) :
    n + (procs.map (left prog s)).sum ≤ (procs.map (fun p => (prog p).length + 1)).sum := by
  induction h with
  | start =>
    rw [Nat.zero_add]
    apply Nat.le_of_eq
    congr 1
    apply List.map_congr_left
    intro p _
    simp [left, init, Nat.add_comm]
  | step _ hs ih =>
    obtain ⟨p, hp, h1, h2⟩ := step_left hs
    have := sum_lt _ _ p procs hn hp h1 h2
    omega

/-! ### Tags -/

theorem subTag_eq {i t : Nat} (ht : t < 2 ^ 28) : subTag i t = i * 2 ^ 28 + t := by
  unfold subTag
  rw [Nat.shiftLeft_eq, Nat.mul_comm, ← Nat.two_pow_add_eq_or_of_lt ht]

/-! ### The allgather -/

/-- What the chain of an allgather gathers: node by node. -/
def byOwner (J : Job) (mem : Nat → Buf → List V) : List V :=
  (owners J).flatMap (fun o => (smpGroup J o).flatMap (fun g => mem g .src))

section
variable {J : Job} {k tag : Nat} (hp : Placed J) (hk : 2 ≤ k) (he : Even J k)

theorem prog_owner (hp : Placed J) (hk : 2 ≤ k) (he : Even J k) {g : Nat} (hg : g ∈ J.members)
    (h0 : smpRank J g = 0) :
    allgatherProg J tag g = [.allgather (subTag 1 tag) (smpGroup J g) .src .tmp,
      .allgather (subTag 2 tag) (owners J) .tmp .dst, .bcast (subTag 3 tag) (smpGroup J g), .nothing] := by
  unfold allgatherProg
  rw [has_smp hp (by rw [he g hg]; exact hk), balanced_of_even hp hk he g, if_pos h0]
  rfl

theorem prog_other (hp : Placed J) (hk : 2 ≤ k) (he : Even J k) {g : Nat} (hg : g ∈ J.members)
    (h0 : smpRank J g ≠ 0) :
    allgatherProg J tag g = [.allgather (subTag 1 tag) (smpGroup J g) .src .tmp,
      .bcast (subTag 3 tag) (smpGroup J g), .nothing] := by
  unfold allgatherProg
  rw [has_smp hp (by rw [he g hg]; exact hk), balanced_of_even hp hk he g, if_neg h0]
  rfl

/-- What holds between steps. -/
structure Inv (J : Job) (tag : Nat) (mem : Nat → Buf → List V) (s : St V) : Prop where
  pend : ∀ g, s.entered g = false → s.pc g = 0
  src : ∀ g, s.mem g .src = mem g .src
  own : ∀ g ∈ J.members, smpRank J g = 0 → s.pc g = 0 ∨ s.pc g = 1 ∨ s.pc g = 2 ∨ s.pc g = 4
  oth : ∀ g ∈ J.members, smpRank J g ≠ 0 → s.pc g = 0 ∨ s.pc g = 1 ∨ s.pc g = 3
  p1 : ∀ g ∈ J.members, s.posted g (.allgather, subTag 1 tag) = if s.entered g then some (mem g .src) else none
  p2 : ∀ g ∈ J.members, smpRank J g = 0 → s.posted g (.allgather, subTag 2 tag) =
    if 1 ≤ s.pc g then some ((smpGroup J g).flatMap (fun h => mem h .src)) else none
  p3 : ∀ g ∈ J.members, smpRank J g = 0 → s.posted g (.bcast, subTag 3 tag) =
    if 2 ≤ s.pc g then some (byOwner J mem) else none
  p3' : ∀ g ∈ J.members, smpRank J g ≠ 0 → (s.posted g (.bcast, subTag 3 tag)).isSome = decide (1 ≤ s.pc g)
  d : ∀ g ∈ J.members, smpRank J g = 0 → 2 ≤ s.pc g → s.mem g .dst = byOwner J mem
  d' : ∀ g ∈ J.members, smpRank J g ≠ 0 → 2 ≤ s.pc g → s.mem g .dst = byOwner J mem

end

theorem flatMap_congr' {α β : Type} (f g : α → List β) : ∀ (l : List α), (∀ x ∈ l, f x = g x) →
    l.flatMap f = l.flatMap g
  | [], _ => rfl
  | x :: l, h => by
    rw [List.flatMap_cons, List.flatMap_cons, h x (by simp), flatMap_congr' f g l (fun y hy => h y (by simp [hy]))]

theorem inv_init (J : Job) (tag : Nat) (mem : Nat → Buf → List V) : Inv J tag mem (init mem) := by
  constructor <;> simp [init]

theorem inv_step {J : Job} {k tag : Nat} (hp : Placed J) (hk : 2 ≤ k) (he : Even J k) (ht : tag < 2 ^ 28)
    {needs : Nat → List Nat} {mem : Nat → Buf → List V} {s s' : St V} (iv : Inv J tag mem s)
    (hs : Step J.members (allgatherProg J tag) needs s s') : Inv J tag mem s' := by
  have t12 : subTag 1 tag ≠ subTag 2 tag := by rw [subTag_eq ht, subTag_eq ht]; omega
  have t21 := Ne.symm t12
  have h2 : ∀ g ∈ J.members, 2 ≤ (peers J g).length := fun g hg => by rw [he g hg]; exact hk
  have hroot : ∀ g ∈ J.members, ∃ o, o ∈ J.members ∧ smpRank J o = 0 ∧ (smpGroup J g).take 1 = [o] := by
    intro g hg
    obtain ⟨o, a, _, b, c⟩ := owner_of hp hg (h2 g hg)
    exact ⟨o, a, b, c⟩
  cases hs with
  | enter p hpm hen =>
    have h0 := iv.pend p hen
    have e : enter (allgatherProg J tag) s p =
        post { s with entered := fun q => if q = p then true else s.entered q } p (.allgather, subTag 1 tag) (mem p .src) := by
      unfold enter launch
      simp only [h0]
      by_cases hr : smpRank J p = 0
      · rw [prog_owner hp hk he hpm hr]; simp [iv.src p]
      · rw [prog_other hp hk he hpm hr]; simp [iv.src p]
    rw [e]
    constructor
    · intro g hg
      simp only [post] at hg ⊢
      split at hg
      · simp at hg
      · exact iv.pend g hg
    · exact iv.src
    · exact iv.own
    · exact iv.oth
    · intro g hg
      simp only [post]
      by_cases hgp : g = p
      · simp [hgp]
      · simp [hgp, iv.p1 g hg]
    · intro g hg h
      simp only [post]
      simp [t21, iv.p2 g hg h]
    · intro g hg h
      simp only [post]
      simp [iv.p3 g hg h]
    · intro g hg h
      simp only [post]
      simp [iv.p3' g hg h]
    · exact iv.d
    · exact iv.d'
  | finish p st hpm hen hst hr =>
    by_cases h0 : smpRank J p = 0
    · -- the first of its node
      rcases iv.own p hpm h0 with hpc | hpc | hpc | hpc
      · have hst0 := hst
        rw [hpc, prog_owner hp hk he hpm h0] at hst
        simp only [List.getElem?_cons_zero, Option.some.injEq] at hst
        subst hst
        simp only [ready, Bool.and_eq_true, List.all_eq_true, decide_eq_true_eq] at hr
        have hv : (smpGroup J p).flatMap (got s (.allgather, subTag 1 tag)) =
            (smpGroup J p).flatMap (fun h => mem h .src) := by
          apply flatMap_congr'
          intro x hx
          have hxm := ((mem_group hp (h2 p hpm) x).mp hx).1
          have := hr.2 x hx
          unfold got
          rw [iv.p1 x hxm] at this ⊢
          split at this
          · rename_i hc; rw [if_pos hc]; rfl
          · simp at this
        have e : finish (allgatherProg J tag) s p (.allgather (subTag 1 tag) (smpGroup J p) .src .tmp) =
            post { write s p .tmp ((smpGroup J p).flatMap (fun h => mem h .src)) with
              pc := fun q => if q = p then 1 else s.pc q } p (.allgather, subTag 2 tag)
              ((smpGroup J p).flatMap (fun h => mem h .src)) := by
          unfold finish
          simp only [effect, hv, hpc]
          unfold launch
          simp only [if_true]
          rw [prog_owner hp hk he hpm h0]
          simp [write]
        rw [e]
        constructor
        · intro g hg
          simp only [post, write] at hg ⊢
          have hgp : g ≠ p := fun e => by rw [e, hen] at hg; simp at hg
          simp [hgp, iv.pend g hg]
        · intro g; simp [post, write, iv.src g]
        · intro g hg h
          simp only [post]
          by_cases hgp : g = p
          · simp [hgp]
          · simp [hgp, iv.own g hg h]
        · intro g hg h
          simp only [post]
          have hgp : g ≠ p := fun e => h (e ▸ h0)
          simp [hgp, iv.oth g hg h]
        · intro g hg
          simp only [post]
          simp [t12, write, iv.p1 g hg] <;> rfl
        · intro g hg h
          simp only [post]
          by_cases hgp : g = p
          · simp [hgp]
          · simp [hgp, write, iv.p2 g hg h]
        · intro g hg h
          simp only [post]
          by_cases hgp : g = p
          · subst hgp; simp [write, iv.p3 g hg h, hpc]
          · simp [hgp, write, iv.p3 g hg h]
        · intro g hg h
          simp only [post]
          have hgp : g ≠ p := fun e => h (e ▸ h0)
          simp [hgp, write, iv.p3' g hg h]
        · intro g hg h hpg
          simp only [post] at hpg ⊢
          by_cases hgp : g = p
          · simp [hgp] at hpg
          · simp only [hgp, if_false] at hpg; simp [write, iv.d g hg h hpg]
        · intro g hg h hpg
          simp only [post] at hpg ⊢
          have hgp : g ≠ p := fun e => h (e ▸ h0)
          simp only [hgp, if_false] at hpg
          simp [write, iv.d' g hg h hpg]
      · rw [hpc, prog_owner hp hk he hpm h0] at hst
        simp only [List.getElem?_cons_succ, List.getElem?_cons_zero, Option.some.injEq] at hst
        subst hst
        simp only [ready, Bool.and_eq_true, List.all_eq_true, decide_eq_true_eq] at hr
        have hv : (owners J).flatMap (got s (.allgather, subTag 2 tag)) = byOwner J mem := by
          apply flatMap_congr'
          intro x hx
          obtain ⟨hxm, hx0⟩ := mem_owners.mp hx
          have := hr.2 x hx
          unfold got
          rw [iv.p2 x hxm hx0] at this ⊢
          split at this
          · rename_i hc; rw [if_pos hc]; rfl
          · simp at this
        have e : finish (allgatherProg J tag) s p (.allgather (subTag 2 tag) (owners J) .tmp .dst) =
            post { write s p .dst (byOwner J mem) with
              pc := fun q => if q = p then 2 else s.pc q } p (.bcast, subTag 3 tag) (byOwner J mem) := by
          unfold finish
          simp only [effect, hv, hpc]
          unfold launch
          simp only [if_true]
          rw [prog_owner hp hk he hpm h0]
          simp [write]
        rw [e]
        constructor
        · intro g hg
          simp only [post, write] at hg ⊢
          have hgp : g ≠ p := fun e => by rw [e, hen] at hg; simp at hg
          simp [hgp, iv.pend g hg]
        · intro g; simp [post, write, iv.src g]
        · intro g hg h
          simp only [post]
          by_cases hgp : g = p
          · simp [hgp]
          · simp [hgp, iv.own g hg h]
        · intro g hg h
          simp only [post]
          have hgp : g ≠ p := fun e => h (e ▸ h0)
          simp [hgp, iv.oth g hg h]
        · intro g hg
          simp only [post]
          simp [write, iv.p1 g hg] <;> rfl
        · intro g hg h
          simp only [post]
          by_cases hgp : g = p
          · subst hgp; simp [write, iv.p2 g hg h, hpc]
          · simp [hgp, write, iv.p2 g hg h]
        · intro g hg h
          simp only [post]
          by_cases hgp : g = p
          · simp [hgp]
          · simp [hgp, write, iv.p3 g hg h]
        · intro g hg h
          simp only [post]
          have hgp : g ≠ p := fun e => h (e ▸ h0)
          simp [hgp, write, iv.p3' g hg h]
        · intro g hg h hpg
          simp only [post] at hpg ⊢
          by_cases hgp : g = p
          · simp [write, hgp]
          · simp only [hgp, if_false] at hpg; simp [hgp, write, iv.d g hg h hpg]
        · intro g hg h hpg
          simp only [post] at hpg ⊢
          have hgp : g ≠ p := fun e => h (e ▸ h0)
          simp only [hgp, if_false] at hpg
          simp [hgp, write, iv.d' g hg h hpg]
      · rw [hpc, prog_owner hp hk he hpm h0] at hst
        simp only [List.getElem?_cons_succ, List.getElem?_cons_zero, Option.some.injEq] at hst
        subst hst
        have hv : ((smpGroup J p).take 1).flatMap (got s (.bcast, subTag 3 tag)) = byOwner J mem := by
          rw [owner_head hp hpm (h2 p hpm) h0]
          simp [got, iv.p3 p hpm h0, hpc]
        have e : finish (allgatherProg J tag) s p (.bcast (subTag 3 tag) (smpGroup J p)) =
            { write s p .dst (byOwner J mem) with pc := fun q => if q = p then 4 else s.pc q } := by
          unfold finish
          simp only [effect, hv, hpc]
          unfold launch
          simp only [if_true]
          rw [prog_owner hp hk he hpm h0]
          simp only [write, if_true, List.getElem?_cons_succ, List.getElem?_cons_zero]
          congr 1
          funext q
          by_cases hq : q = p <;> simp [hq]
        rw [e]
        constructor
        · intro g hg
          simp only [write] at hg ⊢
          have hgp : g ≠ p := fun e => by rw [e, hen] at hg; simp at hg
          simp [hgp, iv.pend g hg]
        · intro g; simp [write, iv.src g]
        · intro g hg h
          by_cases hgp : g = p
          · simp [hgp]
          · simp [hgp, iv.own g hg h]
        · intro g hg h
          have hgp : g ≠ p := fun e => h (e ▸ h0)
          simp [hgp, iv.oth g hg h]
        · intro g hg; simp [write, iv.p1 g hg] <;> rfl
        · intro g hg h
          by_cases hgp : g = p
          · subst hgp; simp [write, iv.p2 g hg h, hpc]
          · simp [hgp, write, iv.p2 g hg h]
        · intro g hg h
          by_cases hgp : g = p
          · subst hgp; simp [write, iv.p3 g hg h, hpc]
          · simp [hgp, write, iv.p3 g hg h]
        · intro g hg h
          have hgp : g ≠ p := fun e => h (e ▸ h0)
          simp [hgp, write, iv.p3' g hg h]
        · intro g hg h hpg
          by_cases hgp : g = p
          · simp [write, hgp]
          · simp only [hgp, if_false] at hpg; simp [hgp, write, iv.d g hg h hpg]
        · intro g hg h hpg
          have hgp : g ≠ p := fun e => h (e ▸ h0)
          simp only [hgp, if_false] at hpg
          simp [hgp, write, iv.d' g hg h hpg]
      · rw [hpc, prog_owner hp hk he hpm h0] at hst
        simp at hst
    · -- another rank
      rcases iv.oth p hpm h0 with hpc | hpc | hpc
      · rw [hpc, prog_other hp hk he hpm h0] at hst
        simp only [List.getElem?_cons_zero, Option.some.injEq] at hst
        subst hst
        obtain ⟨v, hv⟩ : ∃ v, finish (allgatherProg J tag) s p (.allgather (subTag 1 tag) (smpGroup J p) .src .tmp) =
            post { write s p .tmp v with
              pc := fun q => if q = p then 1 else s.pc q } p (.bcast, subTag 3 tag) (s.mem p .dst) := by
          refine ⟨(smpGroup J p).flatMap (got s (.allgather, subTag 1 tag)), ?_⟩
          unfold finish
          simp only [effect, hpc]
          unfold launch
          simp only [if_true]
          rw [prog_other hp hk he hpm h0]
          simp [write]
        rw [hv]
        constructor
        · intro g hg
          simp only [post, write] at hg ⊢
          have hgp : g ≠ p := fun e => by rw [e, hen] at hg; simp at hg
          simp [hgp, iv.pend g hg]
        · intro g; simp [post, write, iv.src g]
        · intro g hg h
          simp only [post]
          have hgp : g ≠ p := fun e => h0 (e ▸ h)
          simp [hgp, iv.own g hg h]
        · intro g hg h
          simp only [post]
          by_cases hgp : g = p
          · simp [hgp]
          · simp [hgp, iv.oth g hg h]
        · intro g hg
          simp only [post]
          simp [write, iv.p1 g hg] <;> rfl
        · intro g hg h
          simp only [post]
          have hgp : g ≠ p := fun e => h0 (e ▸ h)
          simp [hgp, write, iv.p2 g hg h]
        · intro g hg h
          simp only [post]
          have hgp : g ≠ p := fun e => h0 (e ▸ h)
          simp [hgp, write, iv.p3 g hg h]
        · intro g hg h
          simp only [post]
          by_cases hgp : g = p
          · simp [hgp]
          · simp [hgp, write, iv.p3' g hg h]
        · intro g hg h hpg
          simp only [post] at hpg ⊢
          have hgp : g ≠ p := fun e => h0 (e ▸ h)
          simp only [hgp, if_false] at hpg
          simp [write, iv.d g hg h hpg]
        · intro g hg h hpg
          simp only [post] at hpg ⊢
          by_cases hgp : g = p
          · simp [hgp] at hpg
          · simp only [hgp, if_false] at hpg; simp [write, iv.d' g hg h hpg]
      · rw [hpc, prog_other hp hk he hpm h0] at hst
        simp only [List.getElem?_cons_succ, List.getElem?_cons_zero, Option.some.injEq] at hst
        subst hst
        obtain ⟨o, ho, ho0, hot⟩ := hroot p hpm
        simp only [ready, Bool.and_eq_true, List.all_eq_true, decide_eq_true_eq, hot] at hr
        have hv : ((smpGroup J p).take 1).flatMap (got s (.bcast, subTag 3 tag)) = byOwner J mem := by
          rw [hot]
          have := hr.2 o (by simp)
          simp only [List.flatMap_cons, List.flatMap_nil, List.append_nil, got]
          rw [iv.p3 o ho ho0] at this ⊢
          split at this
          · rename_i hc; rw [if_pos hc]; rfl
          · simp at this
        have e : finish (allgatherProg J tag) s p (.bcast (subTag 3 tag) (smpGroup J p)) =
            { write s p .dst (byOwner J mem) with pc := fun q => if q = p then 3 else s.pc q } := by
          unfold finish
          simp only [effect, hv, hpc]
          unfold launch
          simp only [if_true]
          rw [prog_other hp hk he hpm h0]
          simp only [write, if_true, List.getElem?_cons_succ, List.getElem?_cons_zero]
          congr 1
          funext q
          by_cases hq : q = p <;> simp [hq]
        rw [e]
        constructor
        · intro g hg
          simp only [write] at hg ⊢
          have hgp : g ≠ p := fun e => by rw [e, hen] at hg; simp at hg
          simp [hgp, iv.pend g hg]
        · intro g; simp [write, iv.src g]
        · intro g hg h
          have hgp : g ≠ p := fun e => h0 (e ▸ h)
          simp [hgp, iv.own g hg h]
        · intro g hg h
          by_cases hgp : g = p
          · simp [hgp]
          · simp [hgp, iv.oth g hg h]
        · intro g hg; simp [write, iv.p1 g hg] <;> rfl
        · intro g hg h
          have hgp : g ≠ p := fun e => h0 (e ▸ h)
          simp [hgp, write, iv.p2 g hg h]
        · intro g hg h
          have hgp : g ≠ p := fun e => h0 (e ▸ h)
          simp [hgp, write, iv.p3 g hg h]
        · intro g hg h
          by_cases hgp : g = p
          · subst hgp; simp [write, iv.p3' g hg h, hpc]
          · simp [hgp, write, iv.p3' g hg h]
        · intro g hg h hpg
          have hgp : g ≠ p := fun e => h0 (e ▸ h)
          simp only [hgp, if_false] at hpg
          simp [hgp, write, iv.d g hg h hpg]
        · intro g hg h hpg
          by_cases hgp : g = p
          · simp [write, hgp]
          · simp only [hgp, if_false] at hpg; simp [hgp, write, iv.d' g hg h hpg]
      · rw [hpc, prog_other hp hk he hpm h0] at hst
        simp at hst

theorem inv_reach {J : Job} {k tag : Nat} (hp : Placed J) (hk : 2 ≤ k) (he : Even J k) (ht : tag < 2 ^ 28)
    {needs : Nat → List Nat} {mem : Nat → Buf → List V} {n : Nat} {s : St V}
    (h : Reach J.members (allgatherProg J tag) needs mem n s) : Inv J tag mem s := by
  induction h with
  | start => exact inv_init J tag mem
  | step _ hs ih => exact inv_step hp hk he ht ih hs

theorem returned_pc {J : Job} {k tag : Nat} (hp : Placed J) (hk : 2 ≤ k) (he : Even J k) {mem : Nat → Buf → List V}
    {s : St V} (iv : Inv J tag mem s) {p : Nat} (hpm : p ∈ J.members)
    (hr : returned (allgatherProg J tag) s p = true) : s.mem p .dst = byOwner J mem := by
  unfold returned at hr
  rw [Bool.and_eq_true, beq_iff_eq] at hr
  by_cases h0 : smpRank J p = 0
  · rw [prog_owner hp hk he hpm h0] at hr
    exact iv.d p hpm h0 (by rw [hr.2]; simp)
  · rw [prog_other hp hk he hpm h0] at hr
    exact iv.d' p hpm h0 (by rw [hr.2]; simp)

theorem progress {J : Job} {k tag : Nat} (hp : Placed J) (hk : 2 ≤ k) (he : Even J k) (hsp : Spread J)
    {needs : Nat → List Nat} (hneeds : ∀ g ∈ J.members, ∀ h ∈ needs g, h ∈ J.members ∧ J.node h = J.node g)
    {mem : Nat → Buf → List V} {s : St V} (iv : Inv J tag mem s)
    (hno : ¬ ∃ s', Step J.members (allgatherProg J tag) needs s s') :
    ∀ p ∈ J.members, returned (allgatherProg J tag) s p = true := by
  have h2 : ∀ g ∈ J.members, 2 ≤ (peers J g).length := fun g hg => by rw [he g hg]; exact hk
  have hen : ∀ p ∈ J.members, s.entered p = true := by
    intro p hpm
    cases h : s.entered p with
    | true => rfl
    | false => exact absurd ⟨_, Step.enter s p hpm h⟩ hno
  have hblock : ∀ p ∈ J.members, ∀ st, (allgatherProg J tag p)[s.pc p]? = some st → ready needs s p st = false := by
    intro p hpm st hst
    cases h : ready needs s p st with
    | false => rfl
    | true => exact absurd ⟨_, Step.finish s p st hpm (hen p hpm) hst h⟩ hno
  have hlen : ∀ p ∈ J.members, 2 ≤ (smpGroup J p).length := fun p hpm => by
    rw [group_length hp (h2 p hpm)]; exact h2 p hpm
  have hr1 : ∀ p ∈ J.members, ready needs s p (.allgather (subTag 1 tag) (smpGroup J p) .src .tmp) = true := by
    intro p hpm
    simp only [ready, Bool.and_eq_true, List.all_eq_true, decide_eq_true_eq]
    refine ⟨hlen p hpm, fun q hq => ?_⟩
    have hqm := (sub_of_group hq).1
    rw [iv.p1 q hqm, hen q hqm]
    rfl
  have hpc1 : ∀ p ∈ J.members, 1 ≤ s.pc p := by
    intro p hpm
    refine Classical.byContradiction fun hc => ?_
    have h0 : s.pc p = 0 := by omega
    have : (allgatherProg J tag p)[s.pc p]? = some (.allgather (subTag 1 tag) (smpGroup J p) .src .tmp) := by
      rw [h0]
      by_cases hr : smpRank J p = 0
      · rw [prog_owner hp hk he hpm hr]; rfl
      · rw [prog_other hp hk he hpm hr]; rfl
    have := hblock p hpm _ this
    rw [hr1 p hpm] at this
    simp at this
  have hr2 : ∀ p, ready needs s p (.allgather (subTag 2 tag) (owners J) .tmp .dst) = true := by
    intro p
    simp only [ready, Bool.and_eq_true, List.all_eq_true, decide_eq_true_eq]
    refine ⟨two_owners hp hk he hsp, fun q hq => ?_⟩
    obtain ⟨hqm, hq0⟩ := mem_owners.mp hq
    rw [iv.p2 q hqm hq0, if_pos (hpc1 q hqm)]
    rfl
  have hpc2 : ∀ p ∈ J.members, smpRank J p = 0 → 2 ≤ s.pc p := by
    intro p hpm h0
    refine Classical.byContradiction fun hc => ?_
    have h1 : s.pc p = 1 := by have := hpc1 p hpm; omega
    have := hblock p hpm (.allgather (subTag 2 tag) (owners J) .tmp .dst) (by
      rw [h1, prog_owner hp hk he hpm h0]; rfl)
    rw [hr2 p] at this
    simp at this
  have hposted : ∀ q ∈ J.members, (s.posted q (.bcast, subTag 3 tag)).isSome = true := by
    intro q hqm
    by_cases h0 : smpRank J q = 0
    · rw [iv.p3 q hqm h0, if_pos (hpc2 q hqm h0)]; rfl
    · rw [iv.p3' q hqm h0]; exact decide_eq_true (hpc1 q hqm)
  have hr3 : ∀ p ∈ J.members, ready needs s p (.bcast (subTag 3 tag) (smpGroup J p)) = true := by
    intro p hpm
    simp only [ready, Bool.and_eq_true, List.all_eq_true, decide_eq_true_eq]
    refine ⟨hlen p hpm, fun q hq => ?_⟩
    rcases List.mem_append.mp hq with h | h
    · exact hposted q (sub_of_group (List.mem_of_mem_take h)).1
    · exact hposted q (hneeds p hpm q h).1
  intro p hpm
  unfold returned
  rw [hen p hpm, Bool.true_and, beq_iff_eq]
  by_cases h0 : smpRank J p = 0
  · have hb := hblock p hpm (.bcast (subTag 3 tag) (smpGroup J p))
    rw [hr3 p hpm, prog_owner hp hk he hpm h0] at hb
    rw [prog_owner hp hk he hpm h0]
    have := hpc2 p hpm h0
    rcases iv.own p hpm h0 with h | h | h | h
    · omega
    · omega
    · rw [h] at hb; simp at hb
    · rw [h]; rfl
  · have hb := hblock p hpm (.bcast (subTag 3 tag) (smpGroup J p))
    rw [hr3 p hpm, prog_other hp hk he hpm h0] at hb
    rw [prog_other hp hk he hpm h0]
    have := hpc1 p hpm
    rcases iv.oth p hpm h0 with h | h | h
    · omega
    · rw [h] at hb; simp at hb
    · rw [h]; rfl

/-! ### Blocks -/

theorem same_block {J : Job} : ∀ (blocks : List (List Nat)),
    blocks.Pairwise (fun b c => ∀ x ∈ b, ∀ y ∈ c, J.node x ≠ J.node y) →
    ∀ b ∈ blocks, ∀ c ∈ blocks, ∀ x ∈ b, ∀ y ∈ c, J.node x = J.node y → b = c
  | [], _, b, hb, _, _, _, _, _, _, _ => by simp at hb
  | a :: bs, hpw, b, hb, c, hc, x, hx, y, hy, he => by
    rw [List.pairwise_cons] at hpw
    rcases List.mem_cons.mp hb with e1 | hb' <;> rcases List.mem_cons.mp hc with e2 | hc'
    · rw [e1, e2]
    · subst e1; exact absurd he (hpw.1 c hc' x hx y hy)
    · subst e2; exact absurd he.symm (hpw.1 b hb' y hy x hx)
    · exact same_block bs hpw.2 b hb' c hc' x hx y hy he

theorem sorted_ext : ∀ (a b : List Nat), a.Pairwise (· < ·) → b.Pairwise (· < ·) → (∀ x, x ∈ a ↔ x ∈ b) → a = b
  | [], [], _, _, _ => rfl
  | [], y :: b, _, _, h => by have := (h y).mpr (by simp); simp at this
  | x :: a, [], _, _, h => by have := (h x).mp (by simp); simp at this
  | x :: a, y :: b, ha, hb, h => by
    rw [List.pairwise_cons] at ha hb
    have hxy : x = y := by
      have h1 := (h x).mp (by simp)
      have h2 := (h y).mpr (by simp)
      rcases List.mem_cons.mp h1 with h1 | h1
      · exact h1
      · rcases List.mem_cons.mp h2 with h2 | h2
        · exact h2.symm
        · have := hb.1 x h1; have := ha.1 y h2; omega
    subst hxy
    rw [sorted_ext a b ha.2 hb.2 (fun z => ?_)]
    constructor
    · intro hz
      have := ha.1 z hz
      rcases List.mem_cons.mp ((h z).mp (by simp [hz])) with e | e
      · omega
      · exact e
    · intro hz
      have := hb.1 z hz
      rcases List.mem_cons.mp ((h z).mpr (by simp [hz])) with e | e
      · omega
      · exact e

theorem block_group {J : Job} (hp : Placed J) {blocks : List (List Nat)} (hb : ByNode J blocks)
    (h2 : ∀ g ∈ J.members, 2 ≤ (peers J g).length) {b : List Nat} (hbm : b ∈ blocks) {g : Nat} (hg : g ∈ b) :
    smpGroup J g = b := by
  obtain ⟨e, h1, h3, h4⟩ := hb
  have hin : ∀ c ∈ blocks, ∀ x ∈ c, x ∈ J.members := fun c hc x hx => by
    rw [e]; exact List.mem_flatten.mpr ⟨c, hc, hx⟩
  refine sorted_ext _ _ (group_sorted J g) (h1 b hbm) (fun x => ?_)
  rw [mem_group hp (h2 g (hin b hbm g hg))]
  constructor
  · rintro ⟨hx, hn⟩
    rw [e] at hx
    obtain ⟨c, hc, hxc⟩ := List.mem_flatten.mp hx
    rw [← same_block blocks h4 c hc b hbm x hxc g hg hn]
    exact hxc
  · intro hx
    exact ⟨hin b hbm x hx, h3 b hbm x hx g hg⟩

theorem block_first (f : Nat → Nat) (b : List Nat) (hn : b.Nodup) (h : ∀ x ∈ b, f x = b.idxOf x) :
    b.filter (fun x => f x == 0) = b.take 1 := by
  cases b with
  | nil => rfl
  | cons g l =>
    rw [List.nodup_cons] at hn
    have h1 : f g = 0 := by rw [h g (by simp)]; simp
    rw [List.filter_cons_of_pos (by simp [h1]), List.take_succ_cons, List.take_zero]
    congr 1
    rw [List.filter_eq_nil_iff]
    intro x hx
    have hne : g ≠ x := fun e => hn.1 (e ▸ hx)
    rw [h x (by simp [hx]), List.idxOf_cons, beq_false_of_ne hne, cond_false]
    simp

theorem owners_blocks {J : Job} (hp : Placed J) {blocks : List (List Nat)} (hb : ByNode J blocks)
    (h2 : ∀ g ∈ J.members, 2 ≤ (peers J g).length) : (owners J).flatMap (smpGroup J) = J.members := by
  have hg : ∀ b ∈ blocks, ∀ g ∈ b, smpGroup J g = b := fun b hbm g hgb => block_group hp hb h2 hbm hgb
  obtain ⟨e, h1, -, -⟩ := hb
  unfold owners
  rw [e]
  clear e
  induction blocks with
  | nil => rfl
  | cons b bs ih =>
    rw [List.flatten_cons, List.filter_append, List.flatMap_append,
      ih (fun c hc => hg c (by simp [hc])) (fun c hc => h1 c (by simp [hc]))]
    congr 1
    rw [block_first (smpRank J) b ((h1 b (by simp)).imp (fun h => Nat.ne_of_lt h)) (fun x hx => by
      unfold smpRank; rw [hg b (by simp) x hx])]
    cases b with
    | nil => rfl
    | cons g l =>
      simp only [List.take_succ_cons, List.take_zero, List.flatMap_cons, List.flatMap_nil, List.append_nil]
      exact hg (g :: l) (by simp) g (by simp)

theorem byOwner_eq (J : Job) (mem : Nat → Buf → List V) :
    byOwner J mem = ((owners J).flatMap (smpGroup J)).flatMap (fun g => mem g .src) := by
  unfold byOwner
  rw [List.flatMap_assoc]

theorem prog_length {J : Job} (tag g : Nat) : (allgatherProg J tag g).length ≤ 4 := by
  unfold allgatherProg
  split
  · split <;> simp
  · simp

theorem sum_le_const (f : Nat → Nat) (c : Nat) : ∀ (l : List Nat), (∀ x ∈ l, f x ≤ c) → (l.map f).sum ≤ c * l.length
  | [], _ => by simp
  | x :: l, h => by
    have := sum_le_const f c l (fun y hy => h y (by simp [hy]))
    have := h x (by simp)
    simp only [List.map_cons, List.sum_cons, List.length_cons, Nat.mul_add, Nat.mul_one]
    omega

/-! ### C118 -/

/-- C118, allgather on nodes with the same number of ranks each, the communicator going
through two nodes or more one after the other: in every schedule a rank whose call returns
holds all contributions in the order of the communicator, the calls of all ranks return, and
they take a bounded number of steps.

Missing: see the refuted theorems. -/
theorem C118_allgather_partial (J : Job) (k tag : Nat) (blocks : List (List Nat)) (hp : Placed J) (hk : 2 ≤ k)
    (he : Even J k) (hsp : Spread J) (hb : ByNode J blocks) (ht : tag < 2 ^ 28) (needs : Nat → List Nat)
    (hneeds : ∀ g ∈ J.members, ∀ h ∈ needs g, h ∈ J.members ∧ J.node h = J.node g)
    (mem : Nat → Buf → List V) (n : Nat) (s : St V) (h : Reach J.members (allgatherProg J tag) needs mem n s) :
    (∀ p ∈ J.members, returned (allgatherProg J tag) s p = true → s.mem p .dst = gathered J mem) ∧
    ((¬ ∃ s', Step J.members (allgatherProg J tag) needs s s') →
      ∀ p ∈ J.members, returned (allgatherProg J tag) s p = true) ∧
    n ≤ 5 * J.members.length := by
  have iv := inv_reach hp hk he ht h
  have h2 : ∀ g ∈ J.members, 2 ≤ (peers J g).length := fun g hg => by rw [he g hg]; exact hk
  refine ⟨fun p hpm hr => ?_, progress hp hk he hsp hneeds iv, ?_⟩
  · rw [returned_pc hp hk he iv hpm hr, byOwner_eq, owners_blocks hp hb h2]
    rfl
  · have h1 := steps_bound hp.1 h
    have h2 := sum_le_const (fun p => (allgatherProg J tag p).length + 1) 5 J.members
      (fun p _ => by have := prog_length (J := J) tag p; omega)
    omega

/-- C118, any placement of the ranks on nodes with the same number of ranks: the result is
the same on all ranks and in all schedules, but it goes through the nodes one after the
other, whatever the order of the communicator. -/
theorem C118_allgather_by_node (J : Job) (k tag : Nat) (hp : Placed J) (hk : 2 ≤ k) (he : Even J k)
    (ht : tag < 2 ^ 28) :
    ∃ blocks, blocks.flatten.Perm J.members ∧ ByNode { J with members := blocks.flatten } blocks ∧
      ∀ (V : Type) (needs : Nat → List Nat) (mem : Nat → Buf → List V) (n : Nat) (s : St V),
        Reach J.members (allgatherProg J tag) needs mem n s → ∀ p ∈ J.members,
        returned (allgatherProg J tag) s p = true → s.mem p .dst = blocks.flatten.flatMap (fun g => mem g .src) := by
  have h2 : ∀ g ∈ J.members, 2 ≤ (peers J g).length := fun g hg => by rw [he g hg]; exact hk
  have hpw : ((owners J).map (smpGroup J)).Pairwise (fun b c => ∀ x ∈ b, ∀ y ∈ c, J.node x ≠ J.node y) := by
    rw [List.pairwise_map]
    have : (owners J).Nodup := hp.1.filter _
    refine List.Pairwise.imp_of_mem ?_ this
    intro a b ha hb hne x hx y hy hxy
    obtain ⟨a1, a2⟩ := mem_owners.mp ha
    obtain ⟨b1, b2⟩ := mem_owners.mp hb
    have e1 := (sub_of_group hx).2
    have e2 := (sub_of_group hy).2
    exact hne (eq_of_rank hp a1 b1 (h2 a a1) (by rw [← e1, ← e2, hxy]) (by rw [a2, b2]))
  have hfl : ((owners J).map (smpGroup J)).flatten = (owners J).flatMap (smpGroup J) := List.flatMap_def.symm
  refine ⟨(owners J).map (smpGroup J), ?_, ⟨rfl, ?_, ?_, hpw⟩, ?_⟩
  · refine (List.perm_ext_iff_of_nodup ?_ hp.1).mpr (fun x => ?_)
    · refine List.pairwise_flatten.mpr ⟨?_, hpw.imp (fun h x h1 y h2 e => h x h1 y h2 (by rw [e]))⟩
      intro b hb
      obtain ⟨o, _, rfl⟩ := List.mem_map.mp hb
      exact group_nodup J o
    · rw [hfl, List.mem_flatMap]
      constructor
      · rintro ⟨o, _, hx⟩; exact (sub_of_group hx).1
      · intro hx
        obtain ⟨o, a, b, c, _⟩ := owner_of hp hx (h2 x hx)
        exact ⟨o, mem_owners.mpr ⟨a, c⟩, (mem_group hp (h2 o a) x).mpr ⟨hx, b.symm⟩⟩
  · intro b hb
    obtain ⟨o, _, rfl⟩ := List.mem_map.mp hb
    exact group_sorted J o
  · intro b hb x hx y hy
    obtain ⟨o, _, rfl⟩ := List.mem_map.mp hb
    rw [(sub_of_group hx).2, (sub_of_group hy).2]
  · intro V needs mem n s h p hpm hr
    rw [returned_pc hp hk he (inv_reach hp hk he ht h) hpm hr, byOwner_eq, hfl]

/-! ### A run, for the examples -/

/-- Lets the ranks of the list make a step each, in turn; `none` when one cannot. -/
def drive (procs : List Nat) (prog : Nat → List Stage) : List Nat → St V → Option (St V)
  | [], s => some s
  | p :: ps, s =>
    if procs.contains p then
      if s.entered p then
        match (prog p)[s.pc p]? with
        | some st => if ready (fun _ => []) s p st then drive procs prog ps (finish prog s p st) else none
        | none => none
      else drive procs prog ps (enter prog s p)
    else none

theorem drive_reach {procs : List Nat} {prog : Nat → List Stage} {mem : Nat → Buf → List V} :
    ∀ (ps : List Nat) (n : Nat) (s s' : St V), Reach procs prog (fun _ => []) mem n s →
    drive procs prog ps s = some s' → ∃ n', Reach procs prog (fun _ => []) mem n' s'
  | [], n, s, s', h, hd => by
    simp only [drive, Option.some.injEq] at hd
    exact ⟨n, hd ▸ h⟩
  | p :: ps, n, s, s', h, hd => by
    unfold drive at hd
    split at hd
    · rename_i hp
      have hp := List.contains_iff_mem.mp hp
      split at hd
      · rename_i he
        split at hd
        · rename_i st hst
          split at hd
          · rename_i hr
            exact drive_reach ps _ _ _ (Reach.step h (Step.finish s p st hp he hst hr)) hd
          · simp at hd
        · simp at hd
      · rename_i he
        exact drive_reach ps _ _ _ (Reach.step h (Step.enter s p hp (by simpa using he))) hd
    · simp at hd

/-- Four ranks on two nodes, the first two on the first. -/
def duo : Job := ⟨4, fun g => g / 2, [0, 1, 2, 3]⟩

/-- Contributions to tell ranks apart. -/
def demoMem : Nat → Buf → List Nat := fun g b => if b = .src then [10 * g, 10 * g + 1] else []

example : Placed duo ∧ Even duo 2 ∧ Spread duo ∧ ByNode duo [[0, 1], [2, 3]] := by
  refine ⟨by unfold Placed duo; decide, by unfold Even duo; decide,
    ⟨0, by decide, 2, by decide, by decide⟩, by unfold ByNode duo; decide⟩

example : (drive duo.members (allgatherProg duo 7) [0, 2, 1, 0, 3, 1, 2, 0, 2, 3, 1, 0, 3, 2] (init demoMem)).all
    (fun s => (List.range 4).all (fun p => returned (allgatherProg duo 7) s p &&
      s.mem p .dst == [0, 1, 10, 11, 20, 21, 30, 31])) = true := by
  decide +kernel

/-- Four ranks on two nodes, one to each in turn (`round_robin`). -/
def dealt : Job := ⟨4, fun g => g % 2, [0, 1, 2, 3]⟩

/-- C118 fails when ranks are dealt to the nodes in turn: every rank gets the contributions of
ranks 0, 2, 1, 3 in this order. -/
theorem C118_round_robin_refuted :
    Placed dealt ∧ Even dealt 2 ∧ Spread dealt ∧
    ∃ n s, Reach dealt.members (allgatherProg dealt 7) (fun _ => []) demoMem n s ∧
      ∀ p ∈ dealt.members, returned (allgatherProg dealt 7) s p = true ∧
        s.mem p .dst = [0, 1, 20, 21, 10, 11, 30, 31] ∧ s.mem p .dst ≠ gathered dealt demoMem := by
  refine ⟨by unfold Placed dealt; decide, by unfold Even dealt; decide,
    ⟨0, by decide, 1, by decide, by decide⟩, ?_⟩
  have h : (drive dealt.members (allgatherProg dealt 7) [0, 1, 2, 3, 0, 1, 2, 3, 0, 1, 2, 3, 0, 1] (init demoMem)).any
      (fun s => dealt.members.all (fun p => returned (allgatherProg dealt 7) s p &&
        (s.mem p .dst == [0, 1, 20, 21, 10, 11, 30, 31] && s.mem p .dst != gathered dealt demoMem))) = true := by
    decide +kernel
  rw [Option.any_eq_true] at h
  obtain ⟨s, hs, hall⟩ := h
  obtain ⟨n, hr⟩ := drive_reach _ 0 _ _ Reach.start hs
  refine ⟨n, s, hr, fun p hp => ?_⟩
  have := List.all_eq_true.mp hall p hp
  simp only [Bool.and_eq_true, beq_iff_eq, bne_iff_ne] at this
  exact this

/-! ### Refuted -/

/-- C118 fails on one node: when all members share a node no call ever returns, in any
schedule.  The first rank of the node starts a collective among owners, of which it is the
only one, and a collective of one rank never completes. -/
theorem C118_one_node_refuted (J : Job) (tag : Nat) (hp : Placed J) (hn : 2 ≤ J.members.length)
    (hone : ∀ g ∈ J.members, ∀ h ∈ J.members, J.node g = J.node h) (ht : tag < 2 ^ 28) (needs : Nat → List Nat)
    (mem : Nat → Buf → List V) (n : Nat) (s : St V) (h : Reach J.members (allgatherProg J tag) needs mem n s) :
    ∀ p ∈ J.members, returned (allgatherProg J tag) s p = false := by
  have he : Even J J.members.length := by
    intro g hg
    unfold peers
    rw [List.filter_eq_self.mpr (fun h hh => by simp [hone h hh g hg])]
  have h2 : ∀ g ∈ J.members, 2 ≤ (peers J g).length := fun g hg => by rw [he g hg]; exact hn
  have hown : (owners J).length ≤ 1 := by
    refine length_le_of_inj (fun _ => 0) (owners J) [0] ?_ (by simp)
    refine nodup_map _ _ (hp.1.filter _) (fun x hx y hy _ => ?_)
    obtain ⟨a1, a2⟩ := mem_owners.mp hx
    obtain ⟨b1, b2⟩ := mem_owners.mp hy
    exact eq_of_rank hp a1 b1 (h2 x a1) (hone x a1 y b1) (by rw [a2, b2])
  have key : ∀ p ∈ J.members, s.pc p ≤ 1 := by
    induction h with
    | start => intro p _; exact Nat.zero_le _
    | @step m a b hr hs ih =>
      have iv := inv_reach hp hn he ht hr
      intro p hpm
      cases hs with
      | enter q hq hen =>
        by_cases hpq : p = q
        · subst hpq
          have h0 := iv.pend p hen
          have : (enter (allgatherProg J tag) a p).pc p = 0 := by
            unfold enter launch
            simp only [h0]
            by_cases h0' : smpRank J p = 0
            · rw [prog_owner hp hn he hq h0']; simp [post, h0]
            · rw [prog_other hp hn he hq h0']; simp [post, h0]
          omega
        · unfold enter
          rw [(launch_pc _ _ _ _).2 hpq]
          exact ih p hpm
      | finish q st hq hen hst hrd =>
        by_cases hpq : p = q
        · subst hpq
          have hle := ih p hpm
          by_cases h0 : smpRank J p = 0
          · rcases iv.own p hpm h0 with h | h | h | h
            · unfold finish launch
              simp only [h, if_true]
              rw [prog_owner hp hn he hpm h0]
              simp [post]
            · rw [h, prog_owner hp hn he hpm h0] at hst
              simp only [List.getElem?_cons_succ, List.getElem?_cons_zero, Option.some.injEq] at hst
              subst hst
              simp only [ready, Bool.and_eq_true, decide_eq_true_eq] at hrd
              omega
            · omega
            · omega
          · rcases iv.oth p hpm h0 with h | h | h
            · unfold finish launch
              simp only [h, if_true]
              rw [prog_other hp hn he hpm h0]
              simp [post]
            · rw [h, prog_other hp hn he hpm h0] at hst
              simp only [List.getElem?_cons_succ, List.getElem?_cons_zero, Option.some.injEq] at hst
              subst hst
              obtain ⟨o, ho, _, ho0, hot⟩ := owner_of hp hpm (h2 p hpm)
              simp only [ready, Bool.and_eq_true, List.all_eq_true, decide_eq_true_eq, hot] at hrd
              have := hrd.2 o (by simp)
              rw [iv.p3 o ho ho0] at this
              have := ih o ho
              rw [if_neg (by omega)] at *
              simp at *
            · omega
        · unfold finish
          rw [(launch_pc _ _ _ _).2 hpq]
          simp only [hpq, if_false]
          exact ih p hpm
  intro p hpm
  have := key p hpm
  unfold returned
  rw [Bool.and_eq_false_iff]
  refine Or.inr ?_
  rw [beq_eq_false_iff_ne]
  by_cases h0 : smpRank J p = 0
  · rw [prog_owner hp hn he hpm h0]; simp only [List.length_cons, List.length_nil]; omega
  · rw [prog_other hp hn he hpm h0]; simp only [List.length_cons, List.length_nil]; omega

example : Placed ⟨3, fun _ => 0, [0, 1, 2]⟩ := by unfold Placed; decide

/-- C118 fails on nodes with different numbers of ranks: no call ever returns, in any
schedule.  Only the first rank of a node counts, so it runs the plain algorithm while its
neighbours run the other. -/
theorem C118_uneven_refuted (J : Job) (tag a b : Nat) (hp : Placed J)
    (h2 : ∀ g ∈ J.members, 2 ≤ (peers J g).length) (ha : a ∈ J.members) (hb : b ∈ J.members)
    (hlt : (peers J a).length < (peers J b).length) (ht : tag < 2 ^ 28) (needs : Nat → List Nat)
    (mem : Nat → Buf → List V) (n : Nat) (s : St V) (h : Reach J.members (allgatherProg J tag) needs mem n s) :
    ∀ p ∈ J.members, returned (allgatherProg J tag) s p = false := by
  have t1 : subTag 1 tag ≠ tag := by rw [subTag_eq ht]; omega
  have po : ∀ g ∈ J.members, smpRank J g = 0 → allgatherProg J tag g = [.allgather tag J.members .src .dst] := by
    intro g hg h0
    unfold allgatherProg
    rw [unbalanced hp h2 ha hb hlt g h0, Bool.and_false]
    rfl
  have pn : ∀ g ∈ J.members, smpRank J g ≠ 0 → allgatherProg J tag g = [.allgather (subTag 1 tag) (smpGroup J g) .src .tmp,
      .bcast (subTag 3 tag) (smpGroup J g), .nothing] := by
    intro g hg h0
    unfold allgatherProg balanced
    rw [has_smp hp (h2 g hg), if_neg h0, if_neg h0]
    rfl
  have key : (∀ p ∈ J.members, s.pc p = 0) ∧
      (∀ p ∈ J.members, smpRank J p = 0 → s.posted p (.allgather, subTag 1 tag) = none) ∧
      (∀ p ∈ J.members, smpRank J p ≠ 0 → s.posted p (.allgather, tag) = none) := by
    induction h with
    | start => exact ⟨fun _ _ => rfl, fun _ _ _ => rfl, fun _ _ _ => rfl⟩
    | @step m x y hr hs ih =>
      obtain ⟨i1, i2, i3⟩ := ih
      cases hs with
      | enter q hq hen =>
        have e : ∃ v, enter (allgatherProg J tag) x q =
            post { x with entered := fun z => if z = q then true else x.entered z } q
              (.allgather, if smpRank J q = 0 then tag else subTag 1 tag) v := by
          refine ⟨x.mem q .src, ?_⟩
          unfold enter launch
          simp only [i1 q hq]
          by_cases h0 : smpRank J q = 0
          · rw [po q hq h0, if_pos h0]; simp
          · rw [pn q hq h0, if_neg h0]; simp
        obtain ⟨v, e⟩ := e
        rw [e]
        refine ⟨fun p hpm => i1 p hpm, fun p hpm h0 => ?_, fun p hpm h0 => ?_⟩
        · simp only [post]
          by_cases hpq : p = q
          · subst hpq; rw [if_pos h0, if_neg (by simp [t1])]; exact i2 p hpm h0
          · simp [hpq, i2 p hpm h0]
        · simp only [post]
          by_cases hpq : p = q
          · subst hpq; rw [if_neg h0, if_neg (by simp [Ne.symm t1])]; exact i3 p hpm h0
          · simp [hpq, i3 p hpm h0]
      | finish q st hq hen hst hrd =>
        exfalso
        by_cases h0 : smpRank J q = 0
        · rw [i1 q hq, po q hq h0] at hst
          simp only [List.getElem?_cons_zero, Option.some.injEq] at hst
          subst hst
          simp only [ready, Bool.and_eq_true, List.all_eq_true] at hrd
          obtain ⟨z, _, hz, _, hzr⟩ := rank_at hp (j := 1) (h2 a ha) (h2 a ha)
          have := hrd.2 z hz
          rw [i3 z hz (by omega)] at this
          simp at this
        · rw [i1 q hq, pn q hq h0] at hst
          simp only [List.getElem?_cons_zero, Option.some.injEq] at hst
          subst hst
          simp only [ready, Bool.and_eq_true, List.all_eq_true] at hrd
          obtain ⟨o, ho, _, ho0, hot⟩ := owner_of hp hq (h2 q hq)
          have hom : o ∈ smpGroup J q := List.mem_of_mem_take (i := 1) (by rw [hot]; simp)
          have := hrd.2 o hom
          rw [i2 o ho ho0] at this
          simp at this
  intro p hpm
  unfold returned
  rw [key.1 p hpm, Bool.and_eq_false_iff]
  refine Or.inr ?_
  by_cases h0 : smpRank J p = 0
  · rw [po p hpm h0]; rfl
  · rw [pn p hpm h0]; rfl

example : Placed ⟨5, fun g => g / 3, [0, 1, 2, 3, 4]⟩ ∧
    (∀ g ∈ [0, 1, 2, 3, 4], 2 ≤ (peers ⟨5, fun g => g / 3, [0, 1, 2, 3, 4]⟩ g).length) ∧
    (peers ⟨5, fun g => g / 3, [0, 1, 2, 3, 4]⟩ 3).length < (peers ⟨5, fun g => g / 3, [0, 1, 2, 3, 4]⟩ 0).length := by
  refine ⟨by unfold Placed; decide, by decide, by decide⟩

/-- C118 fails when a member is alone on its node and others are not: in the creation of the
node communicators (MPI_Init, MPI_Comm_split) those with neighbours gather over all members,
the one without does not take part, and they never return. -/
theorem C118_lone_rank_refuted (J : Job) (tag c : Nat) (hp : Placed J) (hc : c ∈ J.members)
    (h1 : (peers J c).length ≤ 1) (needs : Nat → List Nat) (mem : Nat → Buf → List V) (n : Nat) (s : St V)
    (h : Reach J.members (createProg J tag) needs mem n s) (p : Nat) (hpm : p ∈ J.members)
    (h2 : 2 ≤ (peers J p).length) : returned (createProg J tag) s p = false := by
  have pl : createProg J tag c = [] := by unfold createProg; rw [lone_group hp h1]; rfl
  have pp : createProg J tag p = [.allgather tag J.members .src .dst] := by
    unfold createProg; rw [has_smp hp h2]; rfl
  have key : s.pc p = 0 ∧ s.posted c (.allgather, tag) = none := by
    induction h with
    | start => exact ⟨rfl, rfl⟩
    | @step m x y hr hs ih =>
      obtain ⟨i1, i2⟩ := ih
      have hposted : ∀ (z : St V) (q : Nat), z.posted c (.allgather, tag) = none →
          (launch (createProg J tag) z q).posted c (.allgather, tag) = none := by
        intro z q hz
        by_cases hqc : c = q
        · subst hqc
          unfold launch
          rw [pl]
          simpa using hz
        · unfold launch
          split <;> simp [post, hqc, hz]
      cases hs with
      | enter q hq hen =>
        unfold enter
        refine ⟨?_, hposted _ q i2⟩
        by_cases hpq : p = q
        · subst hpq
          unfold launch
          simp only [i1]
          rw [pp]
          simp [post, i1]
        · rw [(launch_pc _ _ _ _).2 hpq]; exact i1
      | finish q st hq hen hst hrd =>
        by_cases hpq : p = q
        · exfalso
          subst hpq
          rw [i1, pp] at hst
          simp only [List.getElem?_cons_zero, Option.some.injEq] at hst
          subst hst
          simp only [ready, Bool.and_eq_true, List.all_eq_true] at hrd
          have := hrd.2 c hc
          rw [i2] at this
          simp at this
        · unfold finish
          refine ⟨?_, hposted _ q ?_⟩
          · rw [(launch_pc _ _ _ _).2 hpq]; simp [hpq, i1]
          · have : (effect x q st).posted = x.posted := by
              cases st <;> simp only [effect, write] <;> split <;> rfl
            simp only [this]
            exact i2
  unfold returned
  rw [key.1, pp]
  simp

example : Placed ⟨3, fun g => g / 2, [0, 1, 2]⟩ ∧ (peers ⟨3, fun g => g / 2, [0, 1, 2]⟩ 2).length ≤ 1 ∧
    2 ≤ (peers ⟨3, fun g => g / 2, [0, 1, 2]⟩ 0).length := by
  refine ⟨by unfold Placed; decide, by decide, by decide⟩

/-- C118 fails for allreduce: on a communicator with node communicators every call returns at
once, without any other rank having to make it, no data is sent and no result is written. -/
theorem C118_allreduce_refuted (J : Job) (needs : Nat → List Nat) (mem : Nat → Buf → List V) (n : Nat) (s : St V)
    (h : Reach J.members (fun _ => allreduceProg) needs mem n s) :
    (∀ p, s.entered p = true → returned (fun _ => allreduceProg) s p = true) ∧
    s.mem = mem ∧ ∀ p k, s.posted p k = none := by
  have key : (∀ p, s.entered p = true → s.pc p = 1) ∧ (∀ p, s.entered p = false → s.pc p = 0) ∧
      s.mem = mem ∧ ∀ p k, s.posted p k = none := by
    induction h with
    | start => exact ⟨fun p h => by simp [init] at h, fun _ _ => rfl, rfl, fun _ _ => rfl⟩
    | @step m x y hr hs ih =>
      obtain ⟨i1, i2, i3, i4⟩ := ih
      cases hs with
      | enter q hq hen =>
        have e : enter (fun _ => allreduceProg) x q =
            { x with entered := fun z => if z = q then true else x.entered z
                     pc := fun z => if z = q then 1 else x.pc z } := by
          unfold enter launch allreduceProg
          simp [i2 q hen]
        rw [e]
        refine ⟨fun p hpe => ?_, fun p hpe => ?_, i3, i4⟩
        · simp only at hpe ⊢
          by_cases hpq : p = q
          · simp [hpq]
          · simp only [hpq, if_false] at hpe ⊢; exact i1 p hpe
        · simp only at hpe ⊢
          by_cases hpq : p = q
          · simp [hpq] at hpe
          · simp only [hpq, if_false] at hpe ⊢; exact i2 p hpe
      | finish q st hq hen hst hrd =>
        rw [i1 q hen] at hst
        simp [allreduceProg] at hst
  refine ⟨fun p hpe => ?_, key.2.2⟩
  unfold returned
  rw [hpe, key.1 p hpe]
  rfl

example : ∃ s, Reach duo.members (fun _ => allreduceProg) (fun _ => []) demoMem 1 s ∧ s.entered 3 = true :=
  ⟨_, Reach.step Reach.start (Step.enter (init demoMem) 3 (by decide) rfl), by decide⟩

/-! ### Tags -/

/-- C118, tags: with communicator identifiers below 4096 the tags of the inner collectives
differ from each other and from those of plain collectives. -/
theorem C118_tags_partial (i j id id' c c' : Nat) (hid : id < 4096) (hid' : id' < 4096) (hc : c < 65536)
    (hc' : c' < 65536) (h : subTag i (mpiTag id c) = subTag j (mpiTag id' c')) : i = j ∧ id = id' ∧ c = c' := by
  have e : ∀ a b, a < 4096 → b < 65536 → mpiTag a b = a * 65536 + b := by
    intro a b ha hb
    unfold mpiTag
    rw [Nat.mod_eq_of_lt (by omega), Nat.mod_eq_of_lt hb, Nat.shiftLeft_eq, Nat.mul_comm,
      ← Nat.two_pow_add_eq_or_of_lt (i := 16) hb]
  rw [e id c hid hc, e id' c' hid' hc', subTag_eq (by omega), subTag_eq (by omega)] at h
  omega

/-- C118 fails for tags beyond: a plain collective of communicator 4096 has the tag of the
inner collective of communicator 0 (the world). -/
theorem C118_tags_refuted (c : Nat) (hc : c < 65536) : subTag 1 (mpiTag 0 c) = subTag 0 (mpiTag 4096 c) := by
  have e : ∀ a, a < 65536 → mpiTag a c = a * 65536 + c := by
    intro a ha
    unfold mpiTag
    rw [Nat.mod_eq_of_lt ha, Nat.mod_eq_of_lt hc, Nat.shiftLeft_eq, Nat.mul_comm,
      ← Nat.two_pow_add_eq_or_of_lt (i := 16) hc]
  rw [e 0 (by omega), e 4096 (by omega), subTag_eq (by omega)]
  unfold subTag
  simp

/-! ### The alltoall -/

/-- What an alltoall owes to rank `p`: from every member, in order, the block meant for it. -/
def owed (J : Job) (nelems : Nat) (mem : Nat → Buf → List V) (p : Nat) : List V :=
  J.members.flatMap (fun q => ((mem q .src).drop (J.members.idxOf p * nelems)).take nelems)

theorem aprog_owner {J : Job} {k tag nel : Nat} (hp : Placed J) (hk : 2 ≤ k) (he : Even J k) {g : Nat}
    (hg : g ∈ J.members) (h0 : smpRank J g = 0) :
    alltoallProg J tag nel g = [.gather (subTag 1 tag) (smpGroup J g) ((smpGroup J g).length * nel) (nel * (smpGroup J g).length),
      .alltoall (subTag 2 tag) (owners J) ((smpGroup J g).length * nel) .tmp, .bcast (subTag 3 tag) (smpGroup J g), .nothing] := by
  unfold alltoallProg
  rw [has_smp hp (by rw [he g hg]; exact hk), balanced_of_even hp hk he g, if_pos h0]
  rfl

theorem aprog_other {J : Job} {k tag nel : Nat} (hp : Placed J) (hk : 2 ≤ k) (he : Even J k) {g : Nat}
    (hg : g ∈ J.members) (h0 : smpRank J g ≠ 0) :
    alltoallProg J tag nel g = [.gather (subTag 1 tag) (smpGroup J g) ((smpGroup J g).length * nel) (nel * (smpGroup J g).length),
      .bcast (subTag 3 tag) (smpGroup J g), .nothing] := by
  unfold alltoallProg
  rw [has_smp hp (by rw [he g hg]; exact hk), balanced_of_even hp hk he g, if_neg h0]
  rfl

/-- What holds between steps of an alltoall. -/
structure InvA (J : Job) (tag nel : Nat) (mem : Nat → Buf → List V) (s : St V) : Prop where
  pend : ∀ g, s.entered g = false → s.pc g = 0
  src : ∀ g, s.mem g .src = mem g .src
  own : ∀ g ∈ J.members, smpRank J g = 0 → s.pc g = 0 ∨ s.pc g = 1 ∨ s.pc g = 2 ∨ s.pc g = 4
  oth : ∀ g ∈ J.members, smpRank J g ≠ 0 → s.pc g = 0 ∨ s.pc g = 1 ∨ s.pc g = 3
  g1 : ∀ g ∈ J.members, ∀ v, s.posted g (.gather, subTag 1 tag) = some v →
    v = (mem g .src).take ((smpGroup J g).length * nel)
  b3 : ∀ g ∈ J.members, smpRank J g = 0 → (s.posted g (.bcast, subTag 3 tag)).isSome = decide (2 ≤ s.pc g)
  ov : ∀ g ∈ J.members, smpRank J g = 0 → 1 ≤ s.pc g → s.overrun = true
  ov' : ∀ g ∈ J.members, smpRank J g ≠ 0 → 2 ≤ s.pc g → s.overrun = true
  d : ∀ g ∈ J.members, smpRank J g = 0 → s.pc g = 4 → s.posted g (.bcast, subTag 3 tag) = some (s.mem g .dst)
  d' : ∀ g ∈ J.members, smpRank J g ≠ 0 → 2 ≤ s.pc g → ∀ o ∈ J.members, smpRank J o = 0 →
    (smpGroup J g).take 1 = [o] → s.posted o (.bcast, subTag 3 tag) = some (s.mem g .dst)

theorem flatMap_length_const {α β : Type} (f : α → List β) (c : Nat) : ∀ (l : List α), (∀ x ∈ l, (f x).length = c) →
    (l.flatMap f).length = l.length * c
  | [], _ => by simp
  | x :: l, h => by
    rw [List.flatMap_cons, List.length_append, h x (by simp),
      flatMap_length_const f c l (fun y hy => h y (by simp [hy])), List.length_cons, Nat.succ_mul]
    omega

theorem mul_lt {k n : Nat} (hk : 2 ≤ k) (hn : 1 ≤ n) : n * k < k * (k * n) := by
  have h1 : n * k = 1 * (k * n) := by rw [Nat.one_mul, Nat.mul_comm]
  rw [h1]
  have : 0 < k * n := Nat.mul_pos (by omega) hn
  exact Nat.mul_lt_mul_of_pos_right (by omega) this

theorem invA_step {J : Job} {k tag nel : Nat} (hp : Placed J) (hk : 2 ≤ k) (he : Even J k) (hnel : 1 ≤ nel)
    {needs : Nat → List Nat} {mem : Nat → Buf → List V}
    (hlen : ∀ g ∈ J.members, J.members.length * nel ≤ (mem g .src).length) {s s' : St V}
    (iv : InvA J tag nel mem s) (hs : Step J.members (alltoallProg J tag nel) needs s s') : InvA J tag nel mem s' := by
  have h2 : ∀ g ∈ J.members, 2 ≤ (peers J g).length := fun g hg => by rw [he g hg]; exact hk
  cases hs with
  | enter p hpm hen =>
    have h0 := iv.pend p hen
    have e : enter (alltoallProg J tag nel) s p =
        post { s with entered := fun q => if q = p then true else s.entered q } p (.gather, subTag 1 tag)
          ((mem p .src).take ((smpGroup J p).length * nel)) := by
      unfold enter launch
      simp only [h0]
      by_cases hr : smpRank J p = 0
      · rw [aprog_owner hp hk he hpm hr]; simp [iv.src p]
      · rw [aprog_other hp hk he hpm hr]; simp [iv.src p]
    rw [e]
    constructor
    · intro g hg
      simp only [post] at hg ⊢
      split at hg
      · simp at hg
      · exact iv.pend g hg
    · exact iv.src
    · exact iv.own
    · exact iv.oth
    · intro g hg v hv
      simp only [post] at hv
      by_cases hgp : g = p
      · subst hgp; simp at hv; exact hv.symm
      · simp only [hgp, false_and, if_false] at hv; exact iv.g1 g hg v hv
    · intro g hg h
      simp only [post]
      simp [iv.b3 g hg h]
    · exact iv.ov
    · exact iv.ov'
    · intro g hg h hpg
      simp only [post]
      simp [iv.d g hg h hpg]
    · intro g hg h hpg o ho ho0 hot
      simp only [post]
      simp [iv.d' g hg h hpg o ho ho0 hot]
  | finish p st hpm hen hst hr =>
    by_cases h0 : smpRank J p = 0
    · have hhead := owner_head hp hpm (h2 p hpm) h0
      have hfirst : (smpGroup J p)[0]? = some p := by
        cases hs : smpGroup J p with
        | nil => rw [hs] at hhead; simp at hhead
        | cons a l => rw [hs] at hhead; simp at hhead; simp [hhead]
      rcases iv.own p hpm h0 with hpc | hpc | hpc | hpc
      · rw [hpc, aprog_owner hp hk he hpm h0] at hst
        simp only [List.getElem?_cons_zero, Option.some.injEq] at hst
        subst hst
        simp only [ready, Bool.and_eq_true, Bool.or_eq_true, decide_eq_true_eq, hfirst, bne_self_eq_false,
          Bool.false_eq_true, false_or, List.all_eq_true] at hr
        have hover : (decide (nel * (smpGroup J p).length < ((smpGroup J p).flatMap (got s (.gather, subTag 1 tag))).length)) = true := by
          rw [flatMap_length_const _ ((smpGroup J p).length * nel)]
          · rw [group_length hp (h2 p hpm)]
            exact decide_eq_true (mul_lt (h2 p hpm) hnel)
          · intro x hx
            have hxm := (sub_of_group hx).1
            obtain ⟨v, hv⟩ := Option.isSome_iff_exists.mp (hr.2 x hx)
            unfold got
            rw [hv, Option.getD_some, iv.g1 x hxm v hv, List.length_take]
            have h1 := hlen x hxm
            have h3 : (smpGroup J x).length ≤ J.members.length := by
              refine length_le_of_inj id _ _ (by simpa using group_nodup J x) (fun y hy => (sub_of_group hy).1)
            have h4 := Nat.mul_le_mul_right nel h3
            rw [group_congr (sub_of_group hx).2] at h4 ⊢
            omega
        have e : ∃ v w, finish (alltoallProg J tag nel) s p (.gather (subTag 1 tag) (smpGroup J p) ((smpGroup J p).length * nel) (nel * (smpGroup J p).length)) =
            post { write s p .tmp v with pc := fun q => if q = p then 1 else s.pc q, overrun := true } p (.alltoall, subTag 2 tag) w := by
          refine ⟨(smpGroup J p).flatMap (got s (.gather, subTag 1 tag)), (smpGroup J p).flatMap (got s (.gather, subTag 1 tag)), ?_⟩
          unfold finish
          simp only [effect, hfirst, if_true, hover, Bool.or_true, hpc]
          unfold launch
          simp only [if_true]
          rw [aprog_owner hp hk he hpm h0]
          simp [write]
        obtain ⟨v, w, e⟩ := e
        rw [e]
        constructor
        · intro g hg
          simp only [post, write] at hg ⊢
          have hgp : g ≠ p := fun e => by rw [e, hen] at hg; simp at hg
          simp [hgp, iv.pend g hg]
        · intro g; simp [post, write, iv.src g]
        · intro g hg h
          simp only [post]
          by_cases hgp : g = p
          · simp [hgp]
          · simp [hgp, iv.own g hg h]
        · intro g hg h
          simp only [post]
          have hgp : g ≠ p := fun e => h (e ▸ h0)
          simp [hgp, iv.oth g hg h]
        · intro g hg v hv
          simp only [post, write] at hv
          simp at hv
          exact iv.g1 g hg v hv
        · intro g hg h
          simp only [post]
          by_cases hgp : g = p
          · subst hgp; simp [write, iv.b3 g hg h, hpc]
          · simp [hgp, write, iv.b3 g hg h]
        · intro g hg h hpg; simp [post]
        · intro g hg h hpg; simp [post]
        · intro g hg h hpg
          simp only [post] at hpg ⊢
          by_cases hgp : g = p
          · simp [hgp] at hpg
          · simp only [hgp, if_false] at hpg; simp [write, iv.d g hg h hpg]
        · intro g hg h hpg o ho ho0 hot
          simp only [post] at hpg ⊢
          have hgp : g ≠ p := fun e => h (e ▸ h0)
          simp only [hgp, if_false] at hpg
          simp [write, iv.d' g hg h hpg o ho ho0 hot]
      · have hovr := iv.ov p hpm h0 (by omega)
        rw [hpc, aprog_owner hp hk he hpm h0] at hst
        simp only [List.getElem?_cons_succ, List.getElem?_cons_zero, Option.some.injEq] at hst
        subst hst
        have e : ∃ v, finish (alltoallProg J tag nel) s p (.alltoall (subTag 2 tag) (owners J) ((smpGroup J p).length * nel) .tmp) =
            post { write s p .dst v with pc := fun q => if q = p then 2 else s.pc q } p (.bcast, subTag 3 tag) v := by
          refine ⟨(owners J).flatMap (fun q => ((got s (.alltoall, subTag 2 tag) q).drop
            ((owners J).idxOf p * ((smpGroup J p).length * nel))).take ((smpGroup J p).length * nel)), ?_⟩
          unfold finish
          simp only [effect, hpc]
          unfold launch
          simp only [if_true]
          rw [aprog_owner hp hk he hpm h0]
          simp [write]
        obtain ⟨v, e⟩ := e
        rw [e]
        constructor
        · intro g hg
          simp only [post, write] at hg ⊢
          have hgp : g ≠ p := fun e => by rw [e, hen] at hg; simp at hg
          simp [hgp, iv.pend g hg]
        · intro g; simp [post, write, iv.src g]
        · intro g hg h
          simp only [post]
          by_cases hgp : g = p
          · simp [hgp]
          · simp [hgp, iv.own g hg h]
        · intro g hg h
          simp only [post]
          have hgp : g ≠ p := fun e => h (e ▸ h0)
          simp [hgp, iv.oth g hg h]
        · intro g hg v hv
          simp only [post, write] at hv
          simp at hv
          exact iv.g1 g hg v hv
        · intro g hg h
          simp only [post]
          by_cases hgp : g = p
          · simp [hgp]
          · simp [hgp, write, iv.b3 g hg h]
        · intro g hg h hpg; simp [post, write, hovr]
        · intro g hg h hpg; simp [post, write, hovr]
        · intro g hg h hpg
          simp only [post] at hpg ⊢
          by_cases hgp : g = p
          · simp [hgp] at hpg
          · simp only [hgp, if_false] at hpg; simp [hgp, write, iv.d g hg h hpg]
        · intro g hg h hpg o ho ho0 hot
          simp only [post] at hpg ⊢
          have hgp : g ≠ p := fun e => h (e ▸ h0)
          simp only [hgp, if_false] at hpg
          have hd := iv.d' g hg h hpg o ho ho0 hot
          have hop : o ≠ p := by
            intro e
            have := iv.b3 o ho ho0
            rw [hd, e, hpc] at this
            simp at this
          simp [write, hop, hgp, hd]
      · have hovr := iv.ov p hpm h0 (by omega)
        rw [hpc, aprog_owner hp hk he hpm h0] at hst
        simp only [List.getElem?_cons_succ, List.getElem?_cons_zero, Option.some.injEq] at hst
        subst hst
        obtain ⟨v, hv⟩ := Option.isSome_iff_exists.mp (show (s.posted p (.bcast, subTag 3 tag)).isSome = true by
          rw [iv.b3 p hpm h0, hpc]; rfl)
        have e : finish (alltoallProg J tag nel) s p (.bcast (subTag 3 tag) (smpGroup J p)) =
            { write s p .dst v with pc := fun q => if q = p then 4 else s.pc q } := by
          unfold finish
          simp only [effect, hpc, hhead, got, hv, Option.getD_some, List.flatMap_cons, List.flatMap_nil, List.append_nil]
          unfold launch
          simp only [if_true]
          rw [aprog_owner hp hk he hpm h0]
          simp only [write, List.getElem?_cons_succ, List.getElem?_cons_zero]
          congr 1
          funext q
          by_cases hq : q = p <;> simp [hq]
        rw [e]
        constructor
        · intro g hg
          simp only [write] at hg ⊢
          have hgp : g ≠ p := fun e => by rw [e, hen] at hg; simp at hg
          simp [hgp, iv.pend g hg]
        · intro g; simp [write, iv.src g]
        · intro g hg h
          by_cases hgp : g = p
          · simp [hgp]
          · simp [hgp, iv.own g hg h]
        · intro g hg h
          have hgp : g ≠ p := fun e => h (e ▸ h0)
          simp [hgp, iv.oth g hg h]
        · intro g hg v hv
          simp only [write] at hv
          exact iv.g1 g hg v hv
        · intro g hg h
          by_cases hgp : g = p
          · subst hgp; simp [write, iv.b3 g hg h, hpc]
          · simp [hgp, write, iv.b3 g hg h]
        · intro g hg h hpg; simp [write, hovr]
        · intro g hg h hpg; simp [write, hovr]
        · intro g hg h hpg
          by_cases hgp : g = p
          · subst hgp; simp [write, hv]
          · simp only [hgp, if_false] at hpg; simp [hgp, write, iv.d g hg h hpg]
        · intro g hg h hpg o ho ho0 hot
          have hgp : g ≠ p := fun e => h (e ▸ h0)
          simp only [hgp, if_false] at hpg
          simp [write, hgp, iv.d' g hg h hpg o ho ho0 hot]
      · rw [hpc, aprog_owner hp hk he hpm h0] at hst
        simp at hst
    · have hnot : (smpGroup J p)[0]? ≠ some p := by
        intro hs
        obtain ⟨o, _, _, ho0, hot⟩ := owner_of hp hpm (h2 p hpm)
        cases hg : smpGroup J p with
        | nil => rw [hg] at hs; simp at hs
        | cons a l =>
          rw [hg] at hs hot
          simp at hs hot
          exact h0 (by rw [← hs, hot]; exact ho0)
      rcases iv.oth p hpm h0 with hpc | hpc | hpc
      · rw [hpc, aprog_other hp hk he hpm h0] at hst
        simp only [List.getElem?_cons_zero, Option.some.injEq] at hst
        subst hst
        have e : finish (alltoallProg J tag nel) s p (.gather (subTag 1 tag) (smpGroup J p) ((smpGroup J p).length * nel) (nel * (smpGroup J p).length)) =
            post { s with pc := fun q => if q = p then 1 else s.pc q } p (.bcast, subTag 3 tag) (s.mem p .dst) := by
          unfold finish
          simp only [effect, hnot, if_false, hpc]
          unfold launch
          simp only [if_true]
          rw [aprog_other hp hk he hpm h0]
          simp
        rw [e]
        constructor
        · intro g hg
          simp only [post] at hg ⊢
          have hgp : g ≠ p := fun e => by rw [e, hen] at hg; simp at hg
          simp [hgp, iv.pend g hg]
        · intro g; simp [post, iv.src g]
        · intro g hg h
          simp only [post]
          have hgp : g ≠ p := fun e => h0 (e ▸ h)
          simp [hgp, iv.own g hg h]
        · intro g hg h
          simp only [post]
          by_cases hgp : g = p
          · simp [hgp]
          · simp [hgp, iv.oth g hg h]
        · intro g hg v hv
          simp only [post] at hv
          simp at hv
          exact iv.g1 g hg v hv
        · intro g hg h
          simp only [post]
          have hgp : g ≠ p := fun e => h0 (e ▸ h)
          simp [hgp, iv.b3 g hg h]
        · intro g hg h hpg
          simp only [post] at hpg ⊢
          have hgp : g ≠ p := fun e => h0 (e ▸ h)
          simp only [hgp, if_false] at hpg
          exact iv.ov g hg h hpg
        · intro g hg h hpg
          simp only [post] at hpg ⊢
          by_cases hgp : g = p
          · simp [hgp] at hpg
          · simp only [hgp, if_false] at hpg; exact iv.ov' g hg h hpg
        · intro g hg h hpg
          simp only [post] at hpg ⊢
          have hgp : g ≠ p := fun e => h0 (e ▸ h)
          simp only [hgp, if_false] at hpg
          simp [hgp, iv.d g hg h hpg]
        · intro g hg h hpg o ho ho0 hot
          simp only [post] at hpg ⊢
          have hop : o ≠ p := fun e => h0 (e ▸ ho0)
          by_cases hgp : g = p
          · simp [hgp] at hpg
          · simp only [hgp, if_false] at hpg
            simp [hop, iv.d' g hg h hpg o ho ho0 hot]
      · rw [hpc, aprog_other hp hk he hpm h0] at hst
        simp only [List.getElem?_cons_succ, List.getElem?_cons_zero, Option.some.injEq] at hst
        subst hst
        obtain ⟨o, ho, _, ho0, hot⟩ := owner_of hp hpm (h2 p hpm)
        simp only [ready, Bool.and_eq_true, List.all_eq_true, decide_eq_true_eq, hot] at hr
        have hsome := hr.2 o (by simp)
        obtain ⟨v, hv⟩ := Option.isSome_iff_exists.mp hsome
        rw [iv.b3 o ho ho0, decide_eq_true_eq] at hsome
        have hovr := iv.ov o ho ho0 (by omega)
        have e : finish (alltoallProg J tag nel) s p (.bcast (subTag 3 tag) (smpGroup J p)) =
            { write s p .dst v with pc := fun q => if q = p then 3 else s.pc q } := by
          unfold finish
          simp only [effect, hpc, hot, got, hv, Option.getD_some, List.flatMap_cons, List.flatMap_nil, List.append_nil]
          unfold launch
          simp only [if_true]
          rw [aprog_other hp hk he hpm h0]
          simp only [write, List.getElem?_cons_succ, List.getElem?_cons_zero]
          congr 1
          funext q
          by_cases hq : q = p <;> simp [hq]
        rw [e]
        constructor
        · intro g hg
          simp only [write] at hg ⊢
          have hgp : g ≠ p := fun e => by rw [e, hen] at hg; simp at hg
          simp [hgp, iv.pend g hg]
        · intro g; simp [write, iv.src g]
        · intro g hg h
          have hgp : g ≠ p := fun e => h0 (e ▸ h)
          simp [hgp, iv.own g hg h]
        · intro g hg h
          by_cases hgp : g = p
          · simp [hgp]
          · simp [hgp, iv.oth g hg h]
        · intro g hg v hv
          simp only [write] at hv
          exact iv.g1 g hg v hv
        · intro g hg h
          have hgp : g ≠ p := fun e => h0 (e ▸ h)
          simp [hgp, write, iv.b3 g hg h]
        · intro g hg h hpg; simp [write, hovr]
        · intro g hg h hpg; simp [write, hovr]
        · intro g hg h hpg
          have hgp : g ≠ p := fun e => h0 (e ▸ h)
          simp only [hgp, if_false] at hpg
          simp [hgp, write, iv.d g hg h hpg]
        · intro g hg h hpg o' ho' ho0' hot'
          by_cases hgp : g = p
          · subst hgp
            rw [hot] at hot'
            simp at hot'
            subst hot'
            simp [write, hv]
          · simp only [hgp, if_false] at hpg
            simp [write, hgp, iv.d' g hg h hpg o' ho' ho0' hot']
      · rw [hpc, aprog_other hp hk he hpm h0] at hst
        simp at hst

/-- C118 fails for alltoall: whenever the call returns on a rank, a buffer has been overrun;
and two ranks of a node are given the same result, though they are owed different ones. -/
theorem C118_alltoall_refuted (J : Job) (k tag nel : Nat) (hp : Placed J) (hk : 2 ≤ k) (he : Even J k)
    (hnel : 1 ≤ nel) (needs : Nat → List Nat) (mem : Nat → Buf → List V)
    (hlen : ∀ g ∈ J.members, J.members.length * nel ≤ (mem g .src).length) (n : Nat) (s : St V)
    (h : Reach J.members (alltoallProg J tag nel) needs mem n s) (p : Nat) (hpm : p ∈ J.members)
    (hpr : returned (alltoallProg J tag nel) s p = true) :
    s.overrun = true ∧ ∀ q ∈ J.members, returned (alltoallProg J tag nel) s q = true → J.node q = J.node p →
      owed J nel mem p ≠ owed J nel mem q →
      ¬ (s.mem p .dst = owed J nel mem p ∧ s.mem q .dst = owed J nel mem q) := by
  have iv : InvA J tag nel mem s := by
    clear hpr
    induction h with
    | start => constructor <;> simp [init]
    | step _ hs ih => exact invA_step hp hk he hnel hlen ih hs
  have h2 : ∀ g ∈ J.members, 2 ≤ (peers J g).length := fun g hg => by rw [he g hg]; exact hk
  have key : ∀ g ∈ J.members, returned (alltoallProg J tag nel) s g = true → s.overrun = true ∧
      ∀ o ∈ J.members, smpRank J o = 0 → (smpGroup J g).take 1 = [o] →
        s.posted o (.bcast, subTag 3 tag) = some (s.mem g .dst) := by
    intro g hg hr
    unfold returned at hr
    rw [Bool.and_eq_true, beq_iff_eq] at hr
    by_cases h0 : smpRank J g = 0
    · rw [aprog_owner hp hk he hg h0] at hr
      simp only [List.length_cons, List.length_nil] at hr
      refine ⟨iv.ov g hg h0 (by omega), fun o ho ho0 hot => ?_⟩
      rw [owner_head hp hg (h2 g hg) h0] at hot
      simp at hot
      subst hot
      exact iv.d g hg h0 hr.2
    · rw [aprog_other hp hk he hg h0] at hr
      simp only [List.length_cons, List.length_nil] at hr
      exact ⟨iv.ov' g hg h0 (by omega), iv.d' g hg h0 (by omega)⟩
  obtain ⟨k1, k2⟩ := key p hpm hpr
  refine ⟨k1, fun q hq hqr hn hne hc => ?_⟩
  obtain ⟨o, ho, _, ho0, hot⟩ := owner_of hp hpm (h2 p hpm)
  have e1 := k2 o ho ho0 hot
  have e2 := (key q hq hqr).2 o ho ho0 (by rw [group_congr hn]; exact hot)
  rw [e1] at e2
  simp only [Option.some.injEq] at e2
  exact hne (by rw [← hc.1, ← hc.2, e2])

example : (drive duo.members (alltoallProg duo 7 1) [0, 1, 2, 3, 0, 2, 0, 2, 1, 3, 1, 3, 0, 2]
    (init (fun g b => if b = .src then [10 * g, 10 * g + 1, 10 * g + 2, 10 * g + 3] else []))).any
    (fun s => (List.range 4).all (fun p => returned (alltoallProg duo 7 1) s p) && s.overrun &&
      s.mem 0 .dst == s.mem 1 .dst) = true ∧
    owed duo 1 (fun g b => if b = .src then [10 * g, 10 * g + 1, 10 * g + 2, 10 * g + 3] else []) 0 = [0, 10, 20, 30] ∧
    owed duo 1 (fun g b => if b = .src then [10 * g, 10 * g + 1, 10 * g + 2, 10 * g + 3] else []) 1 = [1, 11, 21, 31] := by
  refine ⟨by decide +kernel, by decide, by decide⟩

end SST.Coll.Smp
