import Verif.Apps.BoxmlInv
set_option autoImplicit false
/-
C157: every run of the `boxml` skeleton executes every event of a sound graph once, on its
own rank and after its dependencies, whatever the order in which ranks and messages make
progress; the loops end, and they end when nothing is left to do.
-/
namespace SST.Apps.Boxml

theorem countP_le_one {α : Type} (p : α → Bool) : ∀ (l : List α), l.Nodup →
    (∀ a b, a ∈ l → b ∈ l → p a = true → p b = true → a = b) → l.countP p ≤ 1
  | [], _, _ => by simp
  | x :: l, hn, h => by
      rw [List.nodup_cons] at hn
      rw [List.countP_cons]
      by_cases hx : p x = true
      · have : l.countP p = 0 := by
          rw [List.countP_eq_zero]
          intro a ha hp
          have := h x a (by simp) (by simp [ha]) hx hp
          subst this
          exact hn.1 ha
        simp [hx, this]
      · have := countP_le_one p l hn.2 fun a b ha hb => h a b (by simp [ha]) (by simp [hb])
        simpa [hx] using this

/-- Two entries for the same event that both start it are the same. -/
theorem begins_inj {G : Graph} {e f : Entry} {i : Nat} (he : Proper G e) (hf : Proper G f)
    (h1 : e.begins = some i) (h2 : f.begins = some i) : e = f := by
  cases e <;> cases f <;> simp only [Entry.begins, Option.some.injEq, reduceCtorEq] at h1 h2 <;>
    subst h1 <;> subst h2 <;> simp only [Proper] at he hf <;>
    obtain ⟨_, he⟩ := he <;> obtain ⟨_, hf⟩ := hf <;> grind

theorem ends_inj {G : Graph} {e f : Entry} {i : Nat} (he : Proper G e) (hf : Proper G f)
    (h1 : e.ends = some i) (h2 : f.ends = some i) : e = f := by
  cases e <;> cases f <;> simp only [Entry.ends, Option.some.injEq, reduceCtorEq] at h1 h2 <;>
    subst h1 <;> subst h2 <;> simp only [Proper] at he hf <;>
    obtain ⟨_, he⟩ := he <;> obtain ⟨_, hf⟩ := hf <;> grind

/-- Every event starts at most once and ends at most once, in every run. -/
theorem C157_once {G : Graph} (hg : Sound G) {s : St} (h : Reach G s) (i : Nat) :
    s.log.countP (fun e => e.begins == some i) ≤ 1 ∧ s.log.countP (fun e => e.ends == some i) ≤ 1 := by
  have hi := reach_inv hg h
  refine ⟨countP_le_one _ _ hi.once ?_, countP_le_one _ _ hi.once ?_⟩
  · intro a b ha hb h1 h2
    exact begins_inj (hi.proper a ha) (hi.proper b hb) (by simpa using h1) (by simpa using h2)
  · intro a b ha hb h1 h2
    exact ends_inj (hi.proper a ha) (hi.proper b hb) (by simpa using h1) (by simpa using h2)

/-- An event starts after all that it depends on has ended, and a message is received after
it was sent (the record has the newest first). -/
theorem C157_order {G : Graph} (hg : Sound G) {s : St} (h : Reach G s) {later earlier : List Entry} {e : Entry}
    (hl : s.log = later ++ e :: earlier) :
    (∀ i, e.begins = some i → ∀ d, d ∈ G.deps i → ∃ x, x ∈ earlier ∧ x.ends = some d) ∧
    (∀ r i, e = .recv r i → ∃ q, q ≠ r ∧ .send q i ∈ earlier) := by
  have hi := reach_inv hg h
  have ho := hi.order later e earlier hl
  refine ⟨ho.1, ?_⟩
  rintro r i rfl
  obtain ⟨x, hx, hb⟩ := ho.2 r i rfl
  have hp := hi.proper (.recv r i) (by rw [hl]; simp)
  have hq := hi.proper x (by rw [hl]; simp [hx])
  obtain ⟨_, a, b, hev, h1, h2⟩ := hp
  cases x with
  | comp q j =>
    simp only [Entry.begins, Option.some.injEq] at hb
    subst hb
    obtain ⟨_, b', e, _⟩ := hq
    rw [hev] at e; cases e
  | send q j =>
    simp only [Entry.begins, Option.some.injEq] at hb
    subst hb
    obtain ⟨_, a', b', e, e1, e2⟩ := hq
    rw [hev] at e; cases e
    exact ⟨q, fun e => h1 (e1.trans e), hx⟩
  | pass q j =>
    simp only [Entry.begins, Option.some.injEq] at hb
    subst hb
    obtain ⟨_, a', b', e, e1, e2⟩ := hq
    rw [hev] at e; cases e
    exact absurd (e1.trans (e2.symm.trans h2)) h1
  | recv q j => cases hb

/-- Computations run on the rank of their box, messages leave from the rank of their first
box and arrive at the rank of their second. -/
theorem C157_where {G : Graph} (hg : Sound G) {s : St} (h : Reach G s) {e : Entry} (he : e ∈ s.log) : Proper G e :=
  (reach_inv hg h).proper e he

theorem mem_comps {G : Graph} {r i : Nat} : i ∈ comps G r ↔ i < G.n ∧ ∃ b, G.ev i = .comp b ∧ G.rankOf b = r := by
  simp only [comps, List.mem_filter, List.mem_range]
  cases h : G.ev i <;> simp

theorem mem_sends {G : Graph} {r i : Nat} : i ∈ sends G r ↔
    i < G.n ∧ ∃ a b, G.ev i = .comm a b ∧ G.rankOf a = r ∧ G.rankOf b ≠ r := by
  simp only [sends, List.mem_filter, List.mem_range]
  cases h : G.ev i <;> simp <;> grind

theorem mem_recvs {G : Graph} {r i : Nat} : i ∈ recvs G r ↔
    i < G.n ∧ ∃ a b, G.ev i = .comm a b ∧ G.rankOf a ≠ r ∧ G.rankOf b = r := by
  simp only [recvs, List.mem_filter, List.mem_range]
  cases h : G.ev i <;> simp <;> grind

theorem items_nodup (G : Graph) (r : Nat) : (items G r).Nodup := by
  have n1 : ((comps G r).map (Entry.comp r)).Nodup :=
    List.pairwise_map.2 ((List.nodup_range.filter _).imp (by intro a b h; simpa using h))
  have n2 : ((sends G r).map (Entry.send r)).Nodup :=
    List.pairwise_map.2 ((List.nodup_range.filter _).imp (by intro a b h; simpa using h))
  have n3 : ((recvs G r).map (Entry.recv r)).Nodup :=
    List.pairwise_map.2 ((List.nodup_range.filter _).imp (by intro a b h; simpa using h))
  unfold items
  rw [List.nodup_append, List.nodup_append]
  refine ⟨⟨n1, n2, ?_⟩, n3, ?_⟩
  · intro a ha b hb
    simp only [List.mem_map] at ha hb
    obtain ⟨_, _, rfl⟩ := ha
    obtain ⟨_, _, rfl⟩ := hb
    simp
  · intro a ha b hb
    simp only [List.mem_append, List.mem_map] at ha hb
    obtain ⟨_, _, rfl⟩ := hb
    rcases ha with ⟨_, _, rfl⟩ | ⟨_, _, rfl⟩ <;> simp

theorem counted_items {G : Graph} {r : Nat} {e : Entry} (hp : Proper G e) (hc : counted r e = true) : e ∈ items G r := by
  unfold items
  simp only [List.mem_append, List.mem_map]
  cases e <;> simp only [counted, beq_iff_eq, Bool.false_eq_true] at hc <;> subst hc
  · exact .inl (.inl ⟨_, mem_comps.2 hp, rfl⟩)
  · exact .inl (.inr ⟨_, mem_sends.2 hp, rfl⟩)
  · exact .inr ⟨_, mem_recvs.2 hp, rfl⟩

theorem items_counted {G : Graph} {r : Nat} {e : Entry} (he : e ∈ items G r) : Proper G e ∧ counted r e = true := by
  unfold items at he
  simp only [List.mem_append, List.mem_map] at he
  rcases he with (⟨i, h, rfl⟩ | ⟨i, h, rfl⟩) | ⟨i, h, rfl⟩
  · exact ⟨mem_comps.1 h, by simp [counted]⟩
  · exact ⟨mem_sends.1 h, by simp [counted]⟩
  · exact ⟨mem_recvs.1 h, by simp [counted]⟩

theorem done_sub {G : Graph} {s : St} (hi : Inv G s) (r : Nat) : (s.log.filter (counted r)).Subperm (items G r) :=
  List.subperm_of_subset (hi.once.filter _) fun e he => by
    rw [List.mem_filter] at he
    exact counted_items (hi.proper e he.1) he.2

/-- The counter of a rank is never negative, and it is zero exactly when every computation,
every send to another rank and every receive of that rank has been done. -/
theorem C157_left {G : Graph} (hg : Sound G) {s : St} (h : Reach G s) (r : Nat) :
    0 ≤ s.left r ∧ (s.left r = 0 ↔
      ∀ i, i < G.n →
        (∀ b, G.ev i = .comp b → G.rankOf b = r → .comp r i ∈ s.log) ∧
        (∀ a b, G.ev i = .comm a b → G.rankOf a ≠ G.rankOf b →
          (G.rankOf a = r → .send r i ∈ s.log) ∧ (G.rankOf b = r → .recv r i ∈ s.log))) := by
  have hi := reach_inv hg h
  have hs := done_sub hi r
  have hle := hs.length_le
  have hl := hi.left r
  rw [List.countP_eq_length_filter] at hl
  refine ⟨by omega, ?_⟩
  constructor
  · intro h0
    have hp := hs.perm_of_length_le (by omega)
    have hin : ∀ e, e ∈ items G r → e ∈ s.log := fun e he => (List.mem_filter.1 (hp.symm.subset he)).1
    intro i hn
    refine ⟨?_, ?_⟩
    · intro b hev hb
      exact hin _ (counted_items (r := r) (e := .comp r i) ⟨hn, b, hev, hb⟩ (by simp [counted]))
    · intro a b hev hne
      refine ⟨?_, ?_⟩
      · intro ha
        exact hin _ (counted_items (r := r) (e := .send r i) ⟨hn, a, b, hev, ha, fun e => hne (ha.trans e.symm)⟩ (by simp [counted]))
      · intro hb
        exact hin _ (counted_items (r := r) (e := .recv r i) ⟨hn, a, b, hev, fun e => hne (e.trans hb.symm), hb⟩ (by simp [counted]))
  · intro hall
    have hsub : (items G r).Subperm (s.log.filter (counted r)) :=
      List.subperm_of_subset (items_nodup G r) fun e he => by
        obtain ⟨hp, hc⟩ := items_counted he
        rw [List.mem_filter]
        refine ⟨?_, hc⟩
        cases e <;> simp only [counted, beq_iff_eq, Bool.false_eq_true] at hc <;> subst hc
        · obtain ⟨hn, b, hev, hb⟩ := hp
          exact (hall _ hn).1 b hev hb
        · obtain ⟨hn, a, b, hev, ha, hb⟩ := hp
          exact ((hall _ hn).2 a b hev (fun e => hb (e.symm.trans ha))).1 ha
        · obtain ⟨hn, a, b, hev, ha, hb⟩ := hp
          exact ((hall _ hn).2 a b hev (fun e => ha (e.trans hb))).2 hb
    have := hsub.length_le
    omega

/-- An item of a rank that has not been done keeps the counter of that rank above zero. -/
theorem left_pos {G : Graph} (hg : Sound G) {s : St} (h : Reach G s) {r : Nat} {e : Entry} (hp : Proper G e)
    (hc : counted r e = true) (hn : e ∉ s.log) : 0 < s.left r := by
  obtain ⟨h0, h1⟩ := C157_left hg h r
  rcases Int.lt_or_eq_of_le h0 with hlt | heq
  · exact hlt
  · exfalso
    have hall := h1.1 heq.symm
    cases e <;> simp only [counted, beq_iff_eq, Bool.false_eq_true] at hc <;> subst hc
    · obtain ⟨hn', b, hev, hb⟩ := hp
      exact hn ((hall _ hn').1 b hev hb)
    · obtain ⟨hn', a, b, hev, ha, hb⟩ := hp
      exact hn (((hall _ hn').2 a b hev (fun e => hb (e.symm.trans ha))).1 ha)
    · obtain ⟨hn', a, b, hev, ha, hb⟩ := hp
      exact hn (((hall _ hn').2 a b hev (fun e => ha (e.trans hb))).2 hb)

/-- Nothing that a rank counts is left to it once its counter is zero: the condition of the
loop, `n_events > 0`, cuts nothing off. -/
theorem C157_guard {G : Graph} (hg : Sound G) {s t : St} {r : Nat} (h : Reach G s) (hs : Step G r s t)
    (hc : t.left r ≠ s.left r) : t.left r + 1 = s.left r ∧ 0 < s.left r := by
  have ht := (C157_left hg (.step h hs) r).1
  have hi := reach_inv hg h
  have hi' := reach_inv hg (.step h hs)
  have h1 := hi.left r
  have h2 := hi'.left r
  have hlog : ∃ e, t.log = e :: s.log := by
    cases hs with
    | comp hm =>
      rename_i i
      have hne : ¬ Ended s.log i := fun e => ((hi.vC r i).1 hm).2.2 (hi.ended_begun e)
      have e3 := (eventDone_rest (G := G) (r := r) (x := i) (s := { s with validC := upd s.validC r ((s.validC r).erase i) })
        (by dsimp only; rw [hi.lis i hne]; exact listeners_nodup G i)).2.2
      exact ⟨.comp r i, by simp [doComp, e3]⟩
    | send hm =>
      rename_i i
      have hne : ¬ Ended s.log i := fun e => ((hi.vS r i).1 hm).2.2 (hi.ended_begun e)
      have e3 := (eventDone_rest (G := G) (r := r) (x := i) (s := s)
        (by rw [hi.lis i hne]; exact listeners_nodup G i)).2.2
      simp only [doSend]
      split
      · split
        · exact ⟨_, rfl⟩
        · exact ⟨_, by rw [e3]⟩
      · split
        · exact ⟨_, rfl⟩
        · exact ⟨_, by rw [e3]⟩
    | recv hm =>
      rename_i i
      have hne : ¬ Ended s.log i := ((hi.fl r i).1 hm).2.2
      have e3 := (eventDone_rest (G := G) (r := r) (x := i) (s := { s with flight := s.flight.erase (r, i) })
        (by dsimp only; rw [hi.lis i hne]; exact listeners_nodup G i)).2.2
      exact ⟨.recv r i, by simp [doRecv, e3]⟩
  obtain ⟨e, hlog⟩ := hlog
  rw [hlog, List.countP_cons] at h2
  split at h2 <;> omega

/-- While some rank has events left, some rank with events left has something to do. -/
theorem C157_progress {G : Graph} (hg : Sound G) {s : St} (h : Reach G s) {r : Nat} (hr : 0 < s.left r) :
    ∃ q t, 0 < s.left q ∧ Step G q s t := by
  have hi := reach_inv hg h
  obtain ⟨lvl, hlvl⟩ := hg.acyclic
  -- an event that has not ended and whose rank still runs
  have key : ∀ k i, lvl i ≤ k → i < G.n → ¬ Ended s.log i →
      (∀ a b, G.ev i = .comm a b → G.rankOf a = G.rankOf b → 0 < s.left (home G i)) →
      ∃ q t, 0 < s.left q ∧ Step G q s t := by
    intro k
    induction k using Nat.strongRecOn with
    | ind k ih =>
      intro i hk hn hne hloc
      by_cases hb : Begun s.log i
      · -- sent, and on its way
        obtain ⟨e, he, hbe⟩ := hb
        have hp := hi.proper e he
        cases e with
        | comp q j => exact absurd ⟨_, he, hbe⟩ hne
        | pass q j => exact absurd ⟨_, he, hbe⟩ hne
        | recv q j => cases hbe
        | send q j =>
          simp only [Entry.begins, Option.some.injEq] at hbe
          subst hbe
          obtain ⟨_, a, b, hev, h1, h2⟩ := hp
          have hpr : Proper G (.recv (G.rankOf b) j) := ⟨hn, a, b, hev, fun e => h2 (e.symm.trans h1), rfl⟩
          have hni : Entry.recv (G.rankOf b) j ∉ s.log := fun e => hne ⟨_, e, rfl⟩
          exact ⟨G.rankOf b, _, left_pos hg h hpr (by simp [counted]) hni,
            .recv ((hi.fl _ _).2 ⟨hpr, ⟨_, he, rfl⟩, hne⟩)⟩
      · -- the rank that starts it still runs
        have hleft : 0 < s.left (home G i) := by
          cases hev : G.ev i with
          | comp b =>
            refine left_pos hg h (e := .comp (G.rankOf b) i) ⟨hn, b, hev, rfl⟩ ?_ fun e => hne ⟨_, e, rfl⟩
            simp [counted, home, hev]
          | comm a b =>
            by_cases hab : G.rankOf a = G.rankOf b
            · exact hloc a b hev hab
            · refine left_pos hg h (e := .send (G.rankOf a) i) ⟨hn, a, b, hev, rfl, fun e => hab e.symm⟩ ?_ fun e => hb ⟨_, e, rfl⟩
              simp [counted, home, hev]
        by_cases hall : ∀ d, d ∈ G.deps i → Ended s.log d
        · cases hev : G.ev i with
          | comp b =>
            refine ⟨home G i, _, hleft, .comp ((hi.vC _ i).2 ⟨⟨hn, b, hev, ?_⟩, hall, hb⟩)⟩
            simp [home, hev]
          | comm a b =>
            refine ⟨home G i, _, hleft, .send ((hi.vS _ i).2 ⟨⟨hn, a, b, hev, ?_⟩, hall, hb⟩)⟩
            simp [home, hev]
        · simp only [Classical.not_forall] at hall
          obtain ⟨d, hd, hnd⟩ := hall
          have hlt := hlvl i d hn hd
          refine ih (lvl d) (by omega) d (Nat.le_refl _) (hg.lt i d hn hd) hnd ?_
          intro a b hev hab
          have hh := hg.here i d hn hd
          have : home G d = place G d := by simp [home, place, hev, hab]
          rw [this, hh]
          exact hleft
  obtain ⟨h0, h1⟩ := C157_left hg h r
  -- some item of the rank has not been done
  by_cases hex : ∃ i, i < G.n ∧ ¬ Ended s.log i ∧ ∀ a b, G.ev i = .comm a b → G.rankOf a ≠ G.rankOf b
  · obtain ⟨i, hn, hne, hnl⟩ := hex
    exact key (lvl i) i (Nat.le_refl _) hn hne fun a b hev hab => absurd hab (hnl a b hev)
  · exfalso
    have hend : ∀ i, i < G.n → (∀ a b, G.ev i = .comm a b → G.rankOf a ≠ G.rankOf b) → Ended s.log i := by
      intro i hn hnl
      by_cases he : Ended s.log i
      · exact he
      · exact absurd ⟨i, hn, he, hnl⟩ hex
    have : s.left r = 0 := by
      rw [h1]
      intro i hn
      refine ⟨?_, ?_⟩
      · intro b hev hb
        obtain ⟨e, he, hee⟩ := hend i hn (by intro a b' hev'; rw [hev] at hev'; cases hev')
        have := ends_inj (f := .comp r i) (hi.proper e he) ⟨hn, b, hev, hb⟩ hee rfl
        exact this ▸ he
      · intro a b hev hab
        have hE := hend i hn (by intro a' b' hev'; rw [hev] at hev'; cases hev'; exact hab)
        refine ⟨?_, ?_⟩
        · intro ha
          obtain ⟨e, he, hee⟩ := hi.ended_begun hE
          have := begins_inj (f := .send r i) (hi.proper e he) ⟨hn, a, b, hev, ha, fun e => hab (ha.trans e.symm)⟩ hee rfl
          exact this ▸ he
        · intro hb
          obtain ⟨e, he, hee⟩ := hE
          have := ends_inj (f := .recv r i) (hi.proper e he) ⟨hn, a, b, hev, fun e => hab (e.trans hb.symm), hb⟩ hee rfl
          exact this ▸ he
    omega

/-- When no rank with events left has anything to do, every computation has been run and
every message between ranks has been sent and received. -/
theorem C157_finish {G : Graph} (hg : Sound G) {s : St} (h : Reach G s)
    (hstop : ∀ q t, 0 < s.left q → ¬ Step G q s t) {i : Nat} (hn : i < G.n) :
    (∀ b, G.ev i = .comp b → .comp (G.rankOf b) i ∈ s.log) ∧
    (∀ a b, G.ev i = .comm a b → G.rankOf a ≠ G.rankOf b →
      .send (G.rankOf a) i ∈ s.log ∧ .recv (G.rankOf b) i ∈ s.log) := by
  have hz : ∀ r, s.left r = 0 := by
    intro r
    have h0 := (C157_left hg h r).1
    by_cases hr : 0 < s.left r
    · obtain ⟨q, t, hq, ht⟩ := C157_progress hg h hr
      exact absurd ht (hstop q t hq)
    · omega
  refine ⟨?_, ?_⟩
  · intro b hev
    exact ((C157_left hg h _).2.1 (hz _) i hn).1 b hev rfl
  · intro a b hev hab
    exact ⟨(((C157_left hg h _).2.1 (hz _) i hn).2 a b hev hab).1 rfl,
      (((C157_left hg h _).2.1 (hz _) i hn).2 a b hev hab).2 rfl⟩

/-- No run has more than two steps for each event. -/
theorem C157_bound {G : Graph} (hg : Sound G) {s : St} (h : Reach G s) : s.log.length ≤ 2 * G.n := by
  have hi := reach_inv hg h
  have hsub : s.log.Subperm ((List.range G.n).flatMap fun i =>
      match G.ev i with
      | .comp b => [.comp (G.rankOf b) i, .comp (G.rankOf b) i]
      | .comm a b => if G.rankOf a = G.rankOf b then [.pass (G.rankOf a) i, .pass (G.rankOf a) i]
        else [.send (G.rankOf a) i, .recv (G.rankOf b) i]) := by
    refine List.subperm_of_subset hi.once fun e he => ?_
    have hp := hi.proper e he
    rw [List.mem_flatMap]
    cases e with
    | comp r i =>
      obtain ⟨hn, b, hev, rfl⟩ := hp
      exact ⟨i, List.mem_range.2 hn, by simp [hev]⟩
    | send r i =>
      obtain ⟨hn, a, b, hev, rfl, hb⟩ := hp
      exact ⟨i, List.mem_range.2 hn, by simp [hev, Ne.symm hb]⟩
    | pass r i =>
      obtain ⟨hn, a, b, hev, rfl, hb⟩ := hp
      exact ⟨i, List.mem_range.2 hn, by simp [hev, hb]⟩
    | recv r i =>
      obtain ⟨hn, a, b, hev, ha, rfl⟩ := hp
      exact ⟨i, List.mem_range.2 hn, by simp [hev, ha]⟩
  have hlen := hsub.length_le
  rw [List.length_flatMap] at hlen
  have hsum : ∀ (l : List Nat), (l.map fun i => (match G.ev i with
      | .comp b => ([.comp (G.rankOf b) i, .comp (G.rankOf b) i] : List Entry)
      | .comm a b => if G.rankOf a = G.rankOf b then [.pass (G.rankOf a) i, .pass (G.rankOf a) i]
        else [.send (G.rankOf a) i, .recv (G.rankOf b) i]).length).sum = 2 * l.length := by
    intro l
    induction l with
    | nil => rfl
    | cons x l ih =>
      rw [List.map_cons, List.sum_cons, ih, List.length_cons]
      cases G.ev x with
      | comp b => simp; omega
      | comm a b => dsimp only; split <;> simp <;> omega
  rw [hsum, List.length_range] at hlen
  exact hlen

/-! A graph with a computation, a message within the rank, a message to another rank and a
computation there. -/

/-- A graph used as an example. -/
def exG : Graph where
  n := 4
  ev := fun i => match i with | 0 => .comp 0 | 1 => .comm 0 1 | 2 => .comm 1 2 | _ => .comp 2
  rankOf := fun b => b / 2
  deps := fun i => match i with | 0 => [] | 1 => [0] | 2 => [1] | 3 => [2] | _ => []

theorem exG_sound : Sound exG := by
  have four : ∀ i, i < exG.n → i = 0 ∨ i = 1 ∨ i = 2 ∨ i = 3 := by intro i h; simp only [exG] at h; omega
  refine ⟨?_, ?_, ⟨id, ?_⟩, ?_, ?_⟩
  · intro i d hi hd
    rcases four i hi with rfl | rfl | rfl | rfl <;> simp [exG] at hd ⊢ <;> omega
  · intro i hi
    rcases four i hi with rfl | rfl | rfl | rfl <;> simp [exG]
  · intro i d hi hd
    rcases four i hi with rfl | rfl | rfl | rfl <;> simp [exG] at hd ⊢ <;> omega
  · intro i d hi hd
    rcases four i hi with rfl | rfl | rfl | rfl <;> simp [exG] at hd <;> subst hd <;> decide
  · intro i a b hi hev hab
    rcases four i hi with rfl | rfl | rfl | rfl <;> simp [exG] at hev ⊢

def exEnd : St := doComp exG 1 3 (doRecv exG 1 2 (doSend exG 0 2 (doSend exG 0 1 (doComp exG 0 0 (init exG)))))

theorem exEnd_reach : Reach exG exEnd :=
  .step (.step (.step (.step (.step .init
    (.comp (r := 0) (i := 0) (by decide))) (.send (r := 0) (i := 1) (by decide)))
    (.send (r := 0) (i := 2) (by decide))) (.recv (r := 1) (i := 2) (by decide)))
    (.comp (r := 1) (i := 3) (by decide))

example : exEnd.log = [.comp 1 3, .recv 1 2, .send 0 2, .pass 0 1, .comp 0 0] := by decide
example : exEnd.left 0 = 0 ∧ exEnd.left 1 = 0 := by decide
example := (C157_once exG_sound exEnd_reach 2).1
example := C157_order exG_sound exEnd_reach (later := [.comp 1 3]) (e := .recv 1 2) (earlier := [.send 0 2, .pass 0 1, .comp 0 0]) (by decide)
example : Proper exG (.send 0 2) := C157_where exG_sound exEnd_reach (by decide)
example := C157_guard exG_sound .init (.comp (r := 0) (i := 0) (s := init exG) (by decide)) (by decide)
example := C157_progress exG_sound .init (r := 1) (by decide)
example : exEnd.log.length ≤ 8 := C157_bound exG_sound exEnd_reach
example : Entry.recv 1 2 ∈ exEnd.log :=
  ((C157_finish exG_sound exEnd_reach (by
    intro q t hq hs
    have h0 : exEnd.left 0 = 0 := by decide
    have h1 : exEnd.left 1 = 0 := by decide
    have : ∀ q, 2 ≤ q → exEnd.left q = 0 := by
      intro q hq
      obtain ⟨_, h⟩ := C157_left exG_sound exEnd_reach q
      rw [h]
      intro i hi
      simp only [exG] at hi
      refine ⟨?_, ?_⟩
      · intro b hev hb
        have hi' : i = 0 ∨ i = 1 ∨ i = 2 ∨ i = 3 := by omega
        rcases hi' with rfl | rfl | rfl | rfl <;> simp [exG] at hev hb <;> omega
      · intro a b hev hab
        have hi' : i = 0 ∨ i = 1 ∨ i = 2 ∨ i = 3 := by omega
        rcases hi' with rfl | rfl | rfl | rfl <;> simp [exG] at hev hab ⊢ <;> omega
    have hq' : q = 0 ∨ q = 1 ∨ 2 ≤ q := by omega
    rcases hq' with rfl | rfl | h2
    · omega
    · omega
    · rw [this q h2] at hq; omega) (i := 2) (by decide)).2 1 2 rfl (by decide)).2

/-! What is needed of the graph. -/

/-- A message within a rank that depends on nothing is never passed on: what waits for it
never runs, and the rank waits for ever. -/
theorem C157_free_local_refuted : ∃ G : Graph,
    (∀ i d, i < G.n → d ∈ G.deps i → d < i ∧ place G d = home G i) ∧
    0 < (init G).left 0 ∧ ∀ q t, ¬ Step G q (init G) t := by
  refine ⟨⟨2, fun i => match i with | 0 => .comm 0 0 | _ => .comp 0, fun _ => 0, fun i => match i with | 1 => [0] | _ => []⟩, ?_, by decide, ?_⟩
  · intro i d hi hd
    have : i = 0 ∨ i = 1 := by simp only at hi; omega
    rcases this with rfl | rfl <;> simp at hd
    subst hd
    exact ⟨by omega, rfl⟩
  · intro q t hs
    cases hs with
    | comp hm =>
      simp only [init, comps, List.mem_filter, List.mem_range] at hm
      obtain ⟨⟨h1, h2⟩, h3⟩ := hm
      rename_i i
      have : i = 0 ∨ i = 1 := by omega
      rcases this with rfl | rfl <;> simp at h2 h3
    | send hm =>
      simp only [init, sends, List.mem_filter, List.mem_range] at hm
      obtain ⟨⟨h1, h2⟩, h3⟩ := hm
      rename_i i
      have : i = 0 ∨ i = 1 := by omega
      rcases this with rfl | rfl <;> simp at h2 h3
    | recv hm => simp [init] at hm

/-- A computation that depends on a computation of another rank is made valid on that other
rank; the rank of its own box waits for ever. -/
theorem C157_remote_refuted : ∃ (G : Graph) (s : St),
    (∀ i d, i < G.n → d ∈ G.deps i → d < i) ∧ Reach G s ∧ 0 < s.left 1 ∧
    (∀ q t, 0 < s.left q → ¬ Step G q s t) ∧
    ∃ t, Step G 0 s t ∧ Entry.comp 0 1 ∈ t.log ∧ G.ev 1 = .comp 1 ∧ G.rankOf 1 = 1 ∧ t.left 0 < 0 := by
  let G : Graph := ⟨2, fun i => .comp i, fun b => b, fun i => match i with | 1 => [0] | _ => []⟩
  have hst : Reach G (doComp G 0 0 (init G)) := .step .init (.comp (by decide))
  refine ⟨G, doComp G 0 0 (init G), ?_, hst, by decide, ?_, doComp G 0 1 (doComp G 0 0 (init G)), .comp (by decide), by decide, rfl, rfl, by decide⟩
  · intro i d hi hd
    have : i = 0 ∨ i = 1 := by simp only [G] at hi; omega
    rcases this with rfl | rfl <;> simp [G] at hd
    omega
  · intro q t hq hs
    have hl : ∀ q, 2 ≤ q → (doComp G 0 0 (init G)).left q = 0 := by
      intro q hq
      have : (doComp G 0 0 (init G)).left q = (init G).left q := by
        show upd _ 0 _ q = _
        rw [upd_other _ _ (by omega)]
        rfl
      rw [this]
      simp only [init, comps, sends, recvs, G, List.range_succ, List.range_zero]
      have h0 : (0 == q) = false := by simp; omega
      have h1 : (1 == q) = false := by simp; omega
      simp [List.filter_cons, h0, h1]
    have hq' : q = 0 ∨ q = 1 ∨ 2 ≤ q := by omega
    rcases hq' with rfl | rfl | h2
    · revert hq; decide
    · have hC : (doComp G 0 0 (init G)).validC 1 = [] := by decide
      have hS : (doComp G 0 0 (init G)).validS 1 = [] := by decide
      have hF : (doComp G 0 0 (init G)).flight = [] := by decide
      cases hs with
      | comp hm => rw [hC] at hm; cases hm
      | send hm => rw [hS] at hm; cases hm
      | recv hm => rw [hF] at hm; cases hm
    · rw [hl q h2] at hq; omega

/-- Passing a message on within a rank can extend the list of valid sends that the loop is
walking, in a sound graph: the iterator it then uses to erase the message is invalid. -/
theorem C157_iterator_refuted : ∃ (G : Graph) (s : St), Sound G ∧ Reach G s ∧ ∃ i, i ∈ s.validS 0 ∧ staleIterator G 0 i s = true :=
  ⟨exG, doComp exG 0 0 (init exG), exG_sound, .step .init (.comp (by decide)), 1, by decide, by decide⟩

end SST.Apps.Boxml
