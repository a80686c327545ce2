import Verif.Launch.Jobs
import Verif.Launch.MapperProps
import Verif.Launch.AllocProps
/-
C58, C85.
-/
set_option autoImplicit false
namespace SST.Launch

/-! ### Every allocated node is used -/

theorem blocks_all {nodes : List Nat} {ppn nproc : Nat} (hp : 0 < ppn) (h : (nodes.length - 1) * ppn < nproc) (x : Nat) (hx : x ∈ nodes) : x ∈ blocks nodes ppn nproc := by
  obtain ⟨A, B, rfl⟩ := List.append_of_mem hx
  unfold blocks
  rw [List.flatMap_append, List.flatMap_cons, List.take_append]
  apply List.mem_append_right
  rw [flat_length, List.take_append]
  apply List.mem_append_left
  rw [List.length_append, List.length_cons] at h
  have hA : ppn * A.length < nproc := by
    have : A.length * ppn ≤ (A.length + (B.length + 1) - 1) * ppn := Nat.mul_le_mul_right _ (by omega)
    rw [Nat.mul_comm]
    omega
  rw [List.take_replicate, List.mem_replicate]
  exact ⟨by omega, rfl⟩

theorem numNodesFor_lt {nproc ppn : Nat} (hp : 0 < ppn) (hn : 0 < nproc) : (numNodesFor nproc ppn - 1) * ppn < nproc := by
  have h1 := Nat.div_add_mod nproc ppn
  have h2 := Nat.mod_lt nproc hp
  unfold numNodesFor
  split
  · rw [Nat.add_sub_cancel, Nat.mul_comm]; omega
  · have h0 : nproc % ppn = 0 := by omega
    have : 0 < nproc / ppn := by
      rcases Nat.eq_zero_or_pos (nproc / ppn) with h | h
      · rw [h, Nat.mul_zero] at h1; omega
      · exact h
    rw [Nat.sub_mul, Nat.mul_comm]
    omega

/-- The allocators that only give available nodes. -/
def Allocator.Sound : Allocator → Prop
  | .file _ => False
  | _ => True

/-- The mappers that use every node. -/
def Mapper.Full : Mapper → Prop
  | .block => True
  | .random _ _ => True
  | _ => False

theorem Allocator.run_good {a : Allocator} (hs : a.Sound) {n : Nat} {av nodes : List Nat} (ha : av.Nodup) (hl : av.length < 2^32)
    (h : a.run n av = some (.ok nodes)) : Good n av nodes := by
  cases a with
  | first =>
    have h := Option.some.inj h
    rcases C61_first_available n av ha with ⟨-, h1⟩ | ⟨-, ns, h1, h2⟩
    · rw [h1] at h; cases h
    · rw [h1] at h; cases h; exact h2
  | random v =>
    rcases C61_random v n av ha hl with ⟨-, h1⟩ | ⟨-, ns, h1, h2⟩
    · replace h : Launch.random v n av = _ := h
      rw [h1] at h; cases h
    · replace h : Launch.random v n av = _ := h
      rw [h1] at h; cases h; exact h2
  | stride s =>
    have h := Option.some.inj h
    rcases C61_stride s n av ha with h1 | ⟨ns, h1, h2⟩
    · rw [h1] at h; cases h
    · rw [h1] at h; cases h; exact h2
  | greedy g ng na conc =>
    have h := Option.some.inj h
    rcases C61_greedy_dfly g ng na conc n av with h1 | ⟨ns, h1, h2⟩
    · rw [h1] at h; cases h
    · rw [h1] at h; cases h; exact h2
  | file ns => exact hs.elim

theorem shuffle_mem {v : Nat → Nat} {l r : List Nat} (hl : l.length < 2^32) (h : Util.shuffle v l = some r) : r.Perm l := by
  obtain ⟨r', h1, h2⟩ := Util.C64_shuffle v l hl
  rw [h1] at h
  cases h
  exact h2

theorem Mapper.run_full {m : Mapper} (hm : m.Full) {nodes r : List Nat} {ppn nproc : Nat} (hl : nodes.length < 2^32) (hq : nproc < 2^32)
    (hn : nodes.length = numNodesFor nproc ppn) (h : m.run nodes ppn nproc = some r) : (∀ x, x ∈ r ↔ x ∈ nodes) := by
  have key : ∀ ns : List Nat, 0 < ppn → nproc ≤ ppn * ns.length → ns.length = nodes.length → ∀ x, x ∈ blocks ns ppn nproc ↔ x ∈ ns := by
    intro ns hp hle hlen x
    refine ⟨fun hx => ?_, fun hx => ?_⟩
    · obtain ⟨y, hy, hx⟩ := List.mem_flatMap.mp (List.mem_of_mem_take hx)
      rw [List.eq_of_mem_replicate hx]; exact hy
    · have hpos : 0 < nproc := by
        rcases Nat.eq_zero_or_pos nproc with h0 | h0
        · have := List.length_pos_of_mem hx
          rw [hlen, hn, h0] at this
          unfold numNodesFor at this
          simp at this
        · exact h0
      exact blocks_all hp (by rw [hlen, hn]; exact numNodesFor_lt hp hpos) x hx
  cases m with
  | block =>
    obtain ⟨rfl, h1, h2⟩ := blockMap_eq h
    exact key nodes h1 h2 rfl
  | random smp v =>
    replace h : randomMap smp v nodes ppn nproc = some r := h
    unfold randomMap at h
    cases hv : validateNproc ppn nodes.length nproc with
    | none => rw [hv] at h; cases h
    | some k =>
      obtain ⟨rfl, h1, h2⟩ := validate_some hv
      rw [hv] at h
      simp only at h
      cases smp with
      | true =>
        rw [if_pos rfl] at h
        cases hsh : Util.shuffle v nodes with
        | none => rw [hsh] at h; cases h
        | some ns =>
          rw [hsh] at h
          simp only at h
          have hp := shuffle_mem hl hsh
          have h := Option.some.inj h
          rw [fill_blocks ppn k ns (by rw [hp.length_eq]; exact h2)] at h
          intro x
          rw [← h, key ns h1 (by rw [hp.length_eq]; exact h2) hp.length_eq]
          exact hp.mem_iff
      | false =>
        rw [if_neg (by decide), fill_blocks ppn k nodes h2] at h
        have hlen : (blocks nodes ppn k).length = k := by unfold blocks; rw [List.length_take, flat_length]; omega
        have hp := shuffle_mem (by rw [hlen]; exact hq) h
        intro x
        rw [hp.mem_iff, key nodes h1 h2 rfl]
  | roundRobin => exact hm.elim
  | nodeId f => exact hm.elim

theorem Mapper.nonempty {m : Mapper} (hm : m.Full) {nodes r : List Nat} {ppn nproc : Nat} (h : m.run nodes ppn nproc = some r) : nodes ≠ [] := by
  rintro rfl
  cases m with
  | block => cases h
  | random smp v => cases h
  | roundRobin => exact hm
  | nodeId f => exact hm

/-! ### The invariant -/

theorem takeNodes_spec {nodes av av' : List Nat} (ha : av.Nodup) (hn : nodes.Nodup) (h : takeNodes nodes av = some av') :
    av'.Nodup ∧ (∀ x ∈ nodes, x ∈ av) ∧ ∀ x, x ∈ av' ↔ x ∈ av ∧ x ∉ nodes := by
  induction nodes generalizing av with
  | nil => cases h; exact ⟨ha, (fun _ h => nomatch h), fun x => ⟨fun h => ⟨h, List.not_mem_nil⟩, And.left⟩⟩
  | cons y nodes ih =>
    rw [List.nodup_cons] at hn
    simp only [takeNodes] at h
    split at h
    · next hy =>
      obtain ⟨h1, h2, h3⟩ := ih (ha.erase y) hn.2 h
      refine ⟨h1, fun x hx => ?_, fun x => ?_⟩
      · rcases List.mem_cons.mp hx with rfl | hx
        · exact hy
        · exact List.mem_of_mem_erase (h2 x hx)
      · rw [h3, ha.mem_erase_iff, List.mem_cons, not_or]
        exact ⟨fun h => ⟨h.1.2, h.1.1, h.2⟩, fun h => ⟨⟨h.2.1, h.1⟩, h.2.2⟩⟩
    · cases h

theorem takeNodes_ok {nodes av : List Nat} (ha : av.Nodup) (hn : nodes.Nodup) (hs : ∀ x ∈ nodes, x ∈ av) : ∃ av', takeNodes nodes av = some av' := by
  induction nodes generalizing av with
  | nil => exact ⟨av, rfl⟩
  | cons y nodes ih =>
    rw [List.nodup_cons] at hn
    simp only [takeNodes]
    rw [if_pos (hs y (List.mem_cons_self ..))]
    exact ih (ha.erase y) hn.2 (fun x hx => ha.mem_erase_iff.mpr ⟨fun e => hn.1 (e ▸ hx), hs x (List.mem_cons_of_mem _ hx)⟩)

theorem ins_nodup (x : Nat) (l : List Nat) (hl : l.Pairwise (· < ·)) : (ins x l).Pairwise (· < ·) := by
  induction l with
  | nil => simp [ins]
  | cons z l ih =>
    rw [List.pairwise_cons] at hl
    simp only [ins]
    split
    · next h =>
      rw [List.pairwise_cons, List.pairwise_cons]
      refine ⟨fun y hy => ?_, hl⟩
      rcases List.mem_cons.mp hy with rfl | hy
      · exact h
      · exact Nat.lt_trans h (hl.1 y hy)
    · split
      · rw [List.pairwise_cons]; exact hl
      · next h1 h2 =>
        rw [List.pairwise_cons]
        refine ⟨fun y hy => ?_, ih hl.2⟩
        rcases (mem_ins x y l).mp hy with rfl | hy
        · omega
        · exact hl.1 y hy

theorem insAll_sorted (xs s : List Nat) (hs : s.Pairwise (· < ·)) : (insAll xs s).Pairwise (· < ·) ∧ ∀ y, y ∈ insAll xs s ↔ y ∈ xs ∨ y ∈ s := by
  induction xs generalizing s with
  | nil => exact ⟨hs, fun y => by simp [insAll]⟩
  | cons x xs ih =>
    obtain ⟨h1, h2⟩ := ih (ins x s) (ins_nodup x s hs)
    refine ⟨h1, fun y => ?_⟩
    show y ∈ insAll xs (ins x s) ↔ _
    rw [h2, mem_ins, List.mem_cons]
    exact ⟨fun h => h.elim (fun h => .inl (.inr h)) (fun h => h.elim (fun h => .inl (.inl h)) .inr), fun h => h.elim (fun h => h.elim (fun h => .inr (.inl h)) .inl) (fun h => .inr (.inr h))⟩

theorem sorted_nodup {l : List Nat} (h : l.Pairwise (· < ·)) : l.Nodup := h.imp (fun h => Nat.ne_of_lt h)

theorem takeNodes_sublist {nodes av av' : List Nat} (h : takeNodes nodes av = some av') : av'.Sublist av := by
  induction nodes generalizing av with
  | nil => cases h; exact List.Sublist.refl _
  | cons y nodes ih =>
    simp only [takeNodes] at h
    split at h
    · exact (ih h).trans List.erase_sublist
    · cases h

/-- The jobs that hold nodes: those that run, and those that have ended and whose stop notice is under way. -/
def Sys.holders (s : Sys) : List Job := s.jobs ++ s.stops

/-- Two jobs have no node in common. -/
def Apart (a b : Job) : Prop := ∀ x ∈ a.nodes, x ∉ b.nodes

theorem Apart.symm {a b : Job} (h : Apart a b) : Apart b a := fun x hx h' => h x h' hx

/-- The invariant. -/
structure Inv (numNodes : Nat) (s : Sys) : Prop where
  sorted : s.available.Pairwise (· < ·)
  used : ∀ j ∈ s.holders, ∀ x, x ∈ j.rankToNode ↔ x ∈ j.nodes
  bound : ∀ j ∈ s.holders, ∀ x ∈ j.nodes, x < numNodes
  apart : s.holders.Pairwise Apart
  free : ∀ x, x ∈ s.available ↔ x < numNodes ∧ ∀ j ∈ s.holders, x ∉ j.nodes
  zero : ∀ j ∈ s.jobs, 0 ∈ j.live

theorem Inv.init (numNodes : Nat) : Inv numNodes (Sys.init numNodes) where
  sorted := List.pairwise_lt_range
  used := fun _ h => by cases h
  bound := fun _ h => by cases h
  apart := List.Pairwise.nil
  free := fun x => by
    show x ∈ List.range numNodes ↔ _
    rw [List.mem_range]
    exact ⟨fun h => ⟨h, fun _ h => by cases h⟩, And.left⟩
  zero := fun _ h => by cases h

/-- Specification. The executions considered: the requests use a sound allocator and a mapper that uses
every node, and rank 0 of a job ends last ("assume that the application has finished with a barrier",
app.cc:553). -/
inductive Fair : Sys → Sys → Prop
  | launch {s s' : Sys} (r : Request) (h : s.launch r = some s') (ha : r.alloc.Sound) (hm : r.mapper.Full) (hp : r.nproc < 2^32) : Fair s s'
  | finish {s : Sys} (j : Job) (rank : Nat) (hj : j ∈ s.jobs) (hr : rank ∈ j.live) (hb : rank = 0 → j.live = [0]) : Fair s (s.finish j rank)
  | cleanup {s : Sys} (j : Job) (hj : j ∈ s.stops) : Fair s (s.cleanup j)

/-- Every step considered is a step of the system. -/
theorem Fair.step {s s' : Sys} (h : Fair s s') : Step s s' := by
  cases h with
  | launch r h => exact .launch r h
  | finish j rank hj hr hb => exact .finish j rank hj hr
  | cleanup j hj => exact .cleanup j hj

/-- The states such executions reach. -/
inductive Reach (numNodes : Nat) : Sys → Prop
  | init : Reach numNodes (Sys.init numNodes)
  | step {s s' : Sys} (h : Reach numNodes s) (hs : Fair s s') : Reach numNodes s'

theorem apart_perm {l l' : List Job} (hp : l.Perm l') (h : l.Pairwise Apart) : l'.Pairwise Apart :=
  hp.pairwise h Apart.symm

theorem Inv.of_perm {numNodes : Nat} {s s' : Sys} (hi : Inv numNodes s) (ha : s'.available = s.available) (hp : s'.holders.Perm s.holders) (hz : ∀ j ∈ s'.jobs, j ∈ s.jobs) : Inv numNodes s' where
  zero := fun j hj => hi.zero j (hz j hj)
  sorted := ha ▸ hi.sorted
  used := fun j hj => hi.used j (hp.mem_iff.mp hj)
  bound := fun j hj => hi.bound j (hp.mem_iff.mp hj)
  apart := apart_perm hp.symm hi.apart
  free := fun x => by
    rw [ha, hi.free]
    exact ⟨fun h => ⟨h.1, fun j hj => h.2 j (hp.mem_iff.mp hj)⟩, fun h => ⟨h.1, fun j hj => h.2 j (hp.mem_iff.mpr hj)⟩⟩

/-- What a job holds does not depend on which of its ranks run. -/
theorem replace_nodes (l : List Job) (j : Job) (lv : List Nat) (hj : j ∈ l) :
    ∃ l1 l2, l = l1 ++ j :: l2 ∧ l.replace j { j with live := lv } = l1 ++ { j with live := lv } :: l2 := by
  induction l with
  | nil => cases hj
  | cons a l ih =>
    by_cases h : a = j
    · subst h
      exact ⟨[], l, rfl, by rw [List.replace_cons_self]; rfl⟩
    · have hj : j ∈ l := (List.mem_cons.mp hj).resolve_left (fun e => h e.symm)
      obtain ⟨l1, l2, h1, h2⟩ := ih hj
      refine ⟨a :: l1, l2, by rw [h1]; rfl, ?_⟩
      rw [List.replace_cons]
      have : (j == a) = false := by simpa using fun e : j = a => h e.symm
      rw [this, h2]
      rfl

theorem Inv.relive {numNodes : Nat} {s : Sys} (hi : Inv numNodes s) (j : Job) (hj : j ∈ s.jobs) (lv : List Nat) (hz : 0 ∈ lv) :
    Inv numNodes { s with jobs := s.jobs.replace j { j with live := lv } } := by
  obtain ⟨l1, l2, h1, h2⟩ := replace_nodes s.jobs j lv hj
  have hh : s.holders = l1 ++ j :: l2 ++ s.stops := by unfold Sys.holders; rw [h1]
  have hh' : Sys.holders { s with jobs := s.jobs.replace j { j with live := lv } } = l1 ++ { j with live := lv } :: l2 ++ s.stops := by
    unfold Sys.holders; simp only; rw [h2]
  have hmem : ∀ j' ∈ Sys.holders { s with jobs := s.jobs.replace j { j with live := lv } }, ∃ j'' ∈ s.holders, j''.nodes = j'.nodes ∧ j''.rankToNode = j'.rankToNode := by
    intro j' hj'
    rw [hh'] at hj'
    rw [hh]
    simp only [List.mem_append, List.mem_cons] at hj' ⊢
    rcases hj' with (h | h | h) | h
    · exact ⟨j', .inl (.inl h), rfl, rfl⟩
    · exact ⟨j, .inl (.inr (.inl rfl)), by rw [h], by rw [h]⟩
    · exact ⟨j', .inl (.inr (.inr h)), rfl, rfl⟩
    · exact ⟨j', .inr h, rfl, rfl⟩
  have hmem' : ∀ j' ∈ s.holders, ∃ j'' ∈ Sys.holders { s with jobs := s.jobs.replace j { j with live := lv } }, j''.nodes = j'.nodes := by
    intro j' hj'
    rw [hh] at hj'
    rw [hh']
    simp only [List.mem_append, List.mem_cons] at hj' ⊢
    rcases hj' with (h | h | h) | h
    · exact ⟨j', .inl (.inl h), rfl⟩
    · exact ⟨{ j with live := lv }, .inl (.inr (.inl rfl)), by rw [h]⟩
    · exact ⟨j', .inl (.inr (.inr h)), rfl⟩
    · exact ⟨j', .inr h, rfl⟩
  refine ⟨hi.sorted, fun j' hj' x => ?_, fun j' hj' x hx => ?_, ?_, fun x => ?_, fun j' hj' => ?_⟩
  · obtain ⟨j'', h, e1, e2⟩ := hmem j' hj'
    rw [← e1, ← e2]; exact hi.used j'' h x
  · obtain ⟨j'', h, e1, e2⟩ := hmem j' hj'
    exact hi.bound j'' h x (e1 ▸ hx)
  · have ha := hi.apart
    rw [hh] at ha
    rw [hh']
    rw [List.append_assoc, List.cons_append] at ha ⊢
    rw [List.pairwise_append, List.pairwise_cons] at ha ⊢
    refine ⟨ha.1, ⟨fun b hb => ha.2.1.1 b hb, ha.2.1.2⟩, fun a h b hb => ?_⟩
    rcases List.mem_cons.mp hb with rfl | hb
    · exact ha.2.2 a h j (List.mem_cons_self ..)
    · exact ha.2.2 a h b (List.mem_cons_of_mem _ hb)
  · show x ∈ s.available ↔ _
    rw [hi.free]
    refine and_congr_right fun _ => ⟨fun h j' hj' => ?_, fun h j' hj' => ?_⟩
    · obtain ⟨j'', h', e1, -⟩ := hmem j' hj'
      rw [← e1]; exact h j'' h'
    · obtain ⟨j'', h', e1⟩ := hmem' j' hj'
      rw [← e1]; exact h j'' h'
  · replace hj' : j' ∈ s.jobs.replace j { j with live := lv } := hj'
    rw [h2] at hj'
    rcases List.mem_append.mp hj' with h | h
    · exact hi.zero j' (h1 ▸ List.mem_append_left _ h)
    · rcases List.mem_cons.mp h with rfl | h
      · exact hz
      · exact hi.zero j' (h1 ▸ List.mem_append_right _ (List.mem_cons_of_mem _ h))

theorem Inv.step {numNodes : Nat} (hN : numNodes < 2^32) {s s' : Sys} (hi : Inv numNodes s) (hs : Fair s s') : Inv numNodes s' := by
  have hlen : s.available.length ≤ numNodes := by
    have hsub : ∀ x ∈ s.available, x ∈ List.range numNodes := fun x hx => List.mem_range.mpr ((hi.free x).mp hx).1
    have := (filter_range_length s.available (sorted_nodup hi.sorted) numNodes fun x hx => ((hi.free x).mp hx).1)
    rw [← this]
    exact Nat.le_trans (List.length_filter_le _ _) (by rw [List.length_range]; exact Nat.le_refl _)
  cases hs with
  | launch r h ha hm hp =>
    unfold Sys.launch at h
    split at h
    · next nodes hal =>
      have hg := Allocator.run_good ha (sorted_nodup hi.sorted) (by omega) hal
      split at h
      · cases h
      · next av htk =>
        obtain ⟨h1, h2, h3⟩ := takeNodes_spec (sorted_nodup hi.sorted) hg.nodup htk
        split at h
        · cases h
        · next r2n hmp =>
          have hnl : nodes.length ≤ numNodes := by
            have := (filter_range_length nodes hg.nodup numNodes fun x hx => ((hi.free x).mp (hg.free x hx)).1)
            rw [← this]
            exact Nat.le_trans (List.length_filter_le _ _) (by rw [List.length_range]; exact Nat.le_refl _)
          have hfull := Mapper.run_full hm (by omega) hp hg.length hmp
          have h := Option.some.inj h
          rw [← h]
          generalize hJ : (⟨r.aid, nodes, r2n, List.range r2n.length⟩ : Job) = J
          have hJn : J.nodes = nodes := by rw [← hJ]
          have hJr : J.rankToNode = r2n := by rw [← hJ]
          have hperm : (s.jobs ++ [J] ++ s.stops).Perm (J :: s.holders) := by
            unfold Sys.holders
            rw [List.append_assoc]
            exact List.perm_middle
          have hap : (J :: s.holders).Pairwise Apart := by
            rw [List.pairwise_cons]
            refine ⟨fun b hb x hx => ?_, hi.apart⟩
            rw [hJn] at hx
            exact ((hi.free x).mp (hg.free x hx)).2 b hb
          refine ⟨List.Pairwise.sublist (takeNodes_sublist htk) hi.sorted, fun j hj x => ?_, fun j hj x hx => ?_, apart_perm hperm.symm hap, fun x => ?_, fun j hj => ?_⟩
          · rcases List.mem_cons.mp (hperm.mem_iff.mp hj) with rfl | hj
            · rw [hJn, hJr]; exact hfull x
            · exact hi.used j hj x
          · rcases List.mem_cons.mp (hperm.mem_iff.mp hj) with rfl | hj
            · rw [hJn] at hx; exact ((hi.free x).mp (hg.free x hx)).1
            · exact hi.bound j hj x hx
          · show x ∈ av ↔ x < numNodes ∧ ∀ j ∈ s.jobs ++ [J] ++ s.stops, x ∉ j.nodes
            rw [h3, hi.free]
            refine ⟨fun h => ⟨h.1.1, fun j hj => ?_⟩, fun h => ⟨⟨h.1, fun j hj => h.2 j (hperm.mem_iff.mpr (List.mem_cons_of_mem _ hj))⟩, ?_⟩⟩
            · rcases List.mem_cons.mp (hperm.mem_iff.mp hj) with rfl | hj
              · rw [hJn]; exact h.2
              · exact h.1.2 j hj
            · have := h.2 J (hperm.mem_iff.mpr (List.mem_cons_self ..))
              rw [hJn] at this
              exact this
          · rcases List.mem_append.mp hj with h | h
            · exact hi.zero j h
            · rw [List.mem_singleton.mp h, ← hJ]
              show 0 ∈ List.range r2n.length
              obtain ⟨x, hx⟩ := List.exists_mem_of_ne_nil _ (Mapper.nonempty hm hmp)
              exact List.mem_range.mpr (List.length_pos_of_mem ((hfull x).mpr hx))
    · cases h
  | finish j rank hj hr hb =>
    by_cases h0 : rank = 0
    · have hlv := hb h0
      have he : s.finish j rank = { s with jobs := s.jobs.erase j, stops := s.stops ++ [j] } := by
        unfold Sys.finish
        simp only
        rw [if_pos (by rw [hlv, h0]; rfl), if_pos h0]
      rw [he]
      refine Inv.of_perm hi rfl ?_ (fun k hk => List.mem_of_mem_erase hk)
      show (s.jobs.erase j ++ (s.stops ++ [j])).Perm (s.jobs ++ s.stops)
      have h1 : (s.jobs.erase j ++ (s.stops ++ [j])).Perm (j :: (s.jobs.erase j ++ s.stops)) := by
        rw [← List.append_assoc]
        exact List.perm_append_comm
      exact h1.trans (List.Perm.append_right _ (List.perm_cons_erase hj).symm)
    · have hz : 0 ∈ j.live.erase rank := (List.mem_erase_of_ne (fun e => h0 e.symm)).mpr (hi.zero j hj)
      unfold Sys.finish
      simp only
      rw [if_neg h0]
      split
      · next hemp => rw [hemp] at hz; cases hz
      · exact hi.relive j hj _ hz
  | cleanup j hj =>
    have hjh : j ∈ s.holders := List.mem_append_right _ hj
    have hperm : s.holders.Perm (j :: (s.jobs ++ s.stops.erase j)) := by
      have h1 : (s.jobs ++ s.stops).Perm (s.jobs ++ j :: s.stops.erase j) := List.Perm.append_left _ (List.perm_cons_erase hj)
      exact h1.trans List.perm_middle
    have hap := apart_perm hperm hi.apart
    rw [List.pairwise_cons] at hap
    obtain ⟨h1, h2⟩ := insAll_sorted j.rankToNode s.available hi.sorted
    refine ⟨h1, fun k hk => hi.used k (hperm.mem_iff.mpr (List.mem_cons_of_mem _ hk)), fun k hk => hi.bound k (hperm.mem_iff.mpr (List.mem_cons_of_mem _ hk)), hap.2, fun x => ?_, hi.zero⟩
    show x ∈ insAll j.rankToNode s.available ↔ x < numNodes ∧ ∀ k ∈ s.jobs ++ s.stops.erase j, x ∉ k.nodes
    rw [h2, hi.used j hjh, hi.free]
    constructor
    · intro h
      rcases h with h | h
      · exact ⟨hi.bound j hjh x h, fun k hk => hap.1 k hk x h⟩
      · exact ⟨h.1, fun k hk => h.2 k (hperm.mem_iff.mpr (List.mem_cons_of_mem _ hk))⟩
    · intro h
      by_cases hx : x ∈ j.nodes
      · exact .inl hx
      · refine .inr ⟨h.1, fun k hk => ?_⟩
        rcases List.mem_cons.mp (hperm.mem_iff.mp hk) with rfl | hk
        · exact hx
        · exact h.2 k hk

theorem Reach.inv {numNodes : Nat} (hN : numNodes < 2^32) {s : Sys} (h : Reach numNodes s) : Inv numNodes s := by
  induction h with
  | init => exact Inv.init numNodes
  | step _ hs ih => exact ih.step hN hs

/-- **C58** (partial). In every execution in which the requests use one of the four sound allocators with
the block or random mapper and rank 0 of every job ends last: two jobs that run have no node in common, and
every rank of a job is on a node that was given to that job. What is missing: jobs whose rank 0 ends early
(`C58_early_refuted`), the mappers that ignore the allocation (`C58_mapper_refuted`). -/
theorem C58_exclusive_partial {numNodes : Nat} (hN : numNodes < 2^32) {s : Sys} (h : Reach numNodes s) :
    (∀ (i k : Nat) (a b : Job), s.jobs[i]? = some a → s.jobs[k]? = some b → i ≠ k → ∀ x ∈ a.nodes, x ∉ b.nodes) ∧
    ∀ a ∈ s.jobs, ∀ x ∈ a.rankToNode, x ∈ a.nodes := by
  have hi := h.inv hN
  refine ⟨fun i k a b ha hb hne => ?_, fun a ha x hx => (hi.used a (List.mem_append_left _ ha) x).mp hx⟩
  have hp := (List.pairwise_append.mp hi.apart).1
  have hil := (List.getElem?_eq_some_iff.mp ha)
  have hkl := (List.getElem?_eq_some_iff.mp hb)
  obtain ⟨hil, rfl⟩ := hil
  obtain ⟨hkl, rfl⟩ := hkl
  rcases Nat.lt_or_gt_of_ne hne with hlt | hlt
  · exact List.pairwise_iff_getElem.mp hp i k hil hkl hlt
  · exact (List.pairwise_iff_getElem.mp hp k i hkl hil hlt : Apart _ _).symm

/-- **C58** (partial). In the same executions a node is available to later jobs exactly if no job that runs
or whose stop notice is under way holds it: nothing leaks. -/
theorem C58_returned_partial {numNodes : Nat} (hN : numNodes < 2^32) {s : Sys} (h : Reach numNodes s) (x : Nat) (hx : x < numNodes) :
    x ∈ s.available ↔ ∀ j ∈ s.jobs ++ s.stops, x ∉ j.nodes := by
  rw [(h.inv hN).free]
  exact ⟨And.right, fun h => ⟨hx, h⟩⟩

/-- **C58** (partial). Once no job runs and no stop notice is under way, every node is available again. -/
theorem C58_all_returned_partial {numNodes : Nat} (hN : numNodes < 2^32) {s : Sys} (h : Reach numNodes s) (hj : s.jobs = []) (hs : s.stops = []) :
    s.available = List.range numNodes := by
  have hi := h.inv hN
  have hmem : ∀ x, x ∈ s.available ↔ x ∈ List.range numNodes := fun x => by
    rw [hi.free, List.mem_range]
    exact ⟨And.left, fun h => ⟨h, fun j hj' => by unfold Sys.holders at hj'; rw [hj, hs] at hj'; cases hj'⟩⟩
  have hp : s.available.Perm (List.range numNodes) := by
    rw [List.perm_iff_count]
    intro a
    have h1 := List.nodup_iff_count.mp (sorted_nodup hi.sorted) a
    have h2 := List.nodup_iff_count.mp (List.nodup_range (n := numNodes)) a
    by_cases ha : a ∈ s.available
    · have := List.count_pos_iff.mpr ha
      have := List.count_pos_iff.mpr ((hmem a).mp ha)
      omega
    · rw [List.count_eq_zero.mpr ha, List.count_eq_zero.mpr (fun h => ha ((hmem a).mpr h))]
  exact hp.eq_of_pairwise (fun a b _ _ h1 h2 => absurd h1 (Nat.lt_asymm h2)) hi.sorted List.pairwise_lt_range

/-- A job of `n` ranks, one per node, on the first nodes available. -/
def simpleReq (aid n : Nat) : Request := ⟨aid, n, 1, .first, .block⟩

/-- A job of two ranks starts on a machine of four nodes, a second of one rank starts beside it, the first
ends and a third takes its nodes. -/
example : Reach 4 ⟨[3], [⟨2, [2], [2], [0]⟩, ⟨3, [0, 1], [0, 1], [0, 1]⟩], []⟩ := by
  have h1 : (Sys.init 4).launch (simpleReq 1 2) = some ⟨[2, 3], [⟨1, [0, 1], [0, 1], [0, 1]⟩], []⟩ := by decide
  have h2 : Sys.launch ⟨[2, 3], [⟨1, [0, 1], [0, 1], [0, 1]⟩], []⟩ (simpleReq 2 1) = some ⟨[3], [⟨1, [0, 1], [0, 1], [0, 1]⟩, ⟨2, [2], [2], [0]⟩], []⟩ := by decide
  have r2 := ((Reach.init (numNodes := 4)).step (.launch _ h1 trivial trivial (by decide))).step (.launch _ h2 trivial trivial (by decide))
  have r3 := r2.step (.finish ⟨1, [0, 1], [0, 1], [0, 1]⟩ 1 (by decide) (by decide) (fun h => by cases h))
  have r4 := r3.step (.finish ⟨1, [0, 1], [0, 1], [0]⟩ 0 (by decide) (by decide) (fun _ => rfl))
  have r5 := r4.step (.cleanup ⟨1, [0, 1], [0, 1], [0]⟩ (by decide))
  exact r5.step (.launch (simpleReq 3 2) (by decide) trivial trivial (by decide))

/-- **C58** (refuted). When rank 0 of a job ends before its other ranks, the nodes of the others are given
to the next job although they still run there. -/
theorem C58_early_refuted : ∃ s1 s2 s3 s4 : Sys, Step (Sys.init 2) s1 ∧ Step s1 s2 ∧ Step s2 s3 ∧ Step s3 s4 ∧
    s4.jobs = [⟨1, [0, 1], [0, 1], [1]⟩, ⟨2, [0, 1], [0, 1], [0, 1]⟩] := by
  have h1 : (Sys.init 2).launch (simpleReq 1 2) = some ⟨[], [⟨1, [0, 1], [0, 1], [0, 1]⟩], []⟩ := by decide
  refine ⟨_, _, _, _, .launch (simpleReq 1 2) h1, .finish ⟨1, [0, 1], [0, 1], [0, 1]⟩ 0 (by decide) (by decide),
    .cleanup ⟨1, [0, 1], [0, 1], [0, 1]⟩ (by decide), .launch (simpleReq 2 2) (s' := ⟨[], [⟨1, [0, 1], [0, 1], [1]⟩, ⟨2, [0, 1], [0, 1], [0, 1]⟩], []⟩) (by decide), rfl⟩

/-- **C58** (refuted). With the round robin mapper a node of the allocation stays lost after the job ended. -/
theorem C58_leak_refuted : ∃ s1 s2 s3 s4 : Sys, Step (Sys.init 2) s1 ∧ Step s1 s2 ∧ Step s2 s3 ∧ Step s3 s4 ∧
    s4 = ⟨[0], [], []⟩ := by
  have h1 : (Sys.init 2).launch ⟨1, 3, 2, .first, .roundRobin⟩ = some ⟨[], [⟨1, [0, 1], [0, 0], [0, 1]⟩], []⟩ := by decide
  exact ⟨_, _, _, _, .launch _ h1, .finish ⟨1, [0, 1], [0, 0], [0, 1]⟩ 1 (by decide) (by decide),
    .finish ⟨1, [0, 1], [0, 0], [0]⟩ 0 (by decide) (by decide), .cleanup ⟨1, [0, 1], [0, 0], [0]⟩ (by decide), by decide⟩

/-- **C58** (refuted). With a mapper that reads the nodes from a file, two jobs can run on the same node. -/
theorem C58_mapper_refuted : ∃ s1 s2 : Sys, Step (Sys.init 2) s1 ∧ Step s1 s2 ∧
    s2.jobs = [⟨1, [0], [0], [0]⟩, ⟨2, [1], [0], [0]⟩] := by
  have h1 : (Sys.init 2).launch ⟨1, 1, 1, .first, .nodeId [0]⟩ = some ⟨[1], [⟨1, [0], [0], [0]⟩], []⟩ := by decide
  exact ⟨_, ⟨[], [⟨1, [0], [0], [0]⟩, ⟨2, [1], [0], [0]⟩], []⟩, .launch _ h1, .launch ⟨2, 1, 1, .first, .nodeId [0]⟩ (by decide), rfl⟩

/-! ### The exclusive launcher -/

theorem ExclRun.inv {reqs : List Nat} {s : Excl} (h : ExclRun reqs s) :
    s.started ++ s.pending = reqs ∧ s.started.length = s.stopped + (if s.active then 1 else 0) ∧ (s.active = false → s.pending = []) := by
  induction h with
  | init => exact ⟨rfl, rfl, fun _ => rfl⟩
  | @launch reqs s h aid ih =>
    obtain ⟨h1, h2, h3⟩ := ih
    unfold Excl.launch
    by_cases ha : s.active = true
    · rw [if_pos ha]
      refine ⟨by show s.started ++ (s.pending ++ [aid]) = _; rw [← List.append_assoc, h1], h2, fun h => ?_⟩
      replace h : s.active = false := h
      rw [ha] at h; cases h
    · rw [if_neg ha]
      have hp := h3 (by simpa using ha)
      rw [if_neg ha] at h2
      refine ⟨?_, ?_, fun h => by cases h⟩
      · show s.started ++ [aid] ++ s.pending = _
        rw [hp, List.append_nil] at h1
        rw [hp, List.append_nil, h1]
      · show (s.started ++ [aid]).length = s.stopped + 1
        rw [List.length_append, h2]; rfl
  | @stop reqs s h hr ih =>
    obtain ⟨h1, h2, h3⟩ := ih
    have ha : s.active = true := by
      cases ha : s.active with
      | true => rfl
      | false => rw [ha] at h2; simp at h2; omega
    rw [if_pos ha] at h2
    unfold Excl.stop
    cases hp : s.pending with
    | nil =>
      simp only [hp]
      exact ⟨by rw [← h1, hp], by rw [h2]; rfl, fun _ => trivial⟩
    | cons next rest =>
      simp only [hp, Excl.launch]
      refine ⟨?_, ?_, fun h => by cases h⟩
      · show s.started ++ [next] ++ rest = _
        rw [← h1, hp, List.append_assoc]; rfl
      · show (s.started ++ [next]).length = s.stopped + 1 + 1
        rw [List.length_append, h2]; rfl

/-- **C85**. The exclusive launcher starts the jobs in the order of the requests, runs at most one at a time,
and lets none wait while none runs. -/
theorem C85_exclusive {reqs : List Nat} {s : Excl} (h : ExclRun reqs s) :
    s.started <+: reqs ∧ s.started.length ≤ s.stopped + 1 ∧ (s.started.length = s.stopped → s.started = reqs) := by
  obtain ⟨h1, h2, h3⟩ := h.inv
  refine ⟨⟨_, h1⟩, ?_, fun he => ?_⟩
  · split at h2 <;> omega
  · have ha : s.active = false := by
      cases ha : s.active with
      | false => rfl
      | true => rw [ha] at h2; simp at h2; omega
    rw [← h1, h3 ha, List.append_nil]

example : ExclRun [1, 2, 3] (Excl.launch (Excl.stop (Excl.launch (Excl.launch ⟨false, [], [], 0⟩ 1) 2)) 3) :=
  .launch (.stop (.launch (.launch .init 1) 2) (by decide)) 3

end SST.Launch
