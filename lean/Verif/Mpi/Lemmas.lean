import Verif.Mpi.Model

/-! Invariants of the matching model. -/
set_option autoImplicit false
namespace SST.Mpi

/-- The messages sent, by the log. -/
def sents (L : List Ev) : List Msg := L.filterMap fun | .sent m => some m | _ => none
/-- The messages handled, by the log. -/
def handleds (L : List Ev) : List Msg := L.filterMap fun | .handled m => some m | _ => none
/-- The pairs matched, by the log. -/
def matches_ (L : List Ev) : List (Req × Msg) := L.filterMap fun | .matched r m => some (r, m) | _ => none
/-- The receives posted, by the log. -/
def posteds (L : List Ev) : List Req := L.filterMap fun | .posted r => some r | _ => none

theorem mem_sents {L : List Ev} {m : Msg} : m ∈ sents L ↔ Ev.sent m ∈ L := by
  unfold sents
  rw [List.mem_filterMap]
  constructor
  · rintro ⟨e, he, h⟩
    cases e <;> simp at h
    subst h; exact he
  · intro h; exact ⟨_, h, rfl⟩

theorem mem_handleds {L : List Ev} {m : Msg} : m ∈ handleds L ↔ Ev.handled m ∈ L := by
  unfold handleds
  rw [List.mem_filterMap]
  constructor
  · rintro ⟨e, he, h⟩
    cases e <;> simp at h
    subst h; exact he
  · intro h; exact ⟨_, h, rfl⟩

theorem mem_posteds {L : List Ev} {r : Req} : r ∈ posteds L ↔ Ev.posted r ∈ L := by
  unfold posteds
  rw [List.mem_filterMap]
  constructor
  · rintro ⟨e, he, h⟩
    cases e <;> simp at h
    subst h; exact he
  · intro h; exact ⟨_, h, rfl⟩

theorem mem_matches {L : List Ev} {r : Req} {m : Msg} : (r, m) ∈ matches_ L ↔ Ev.matched r m ∈ L := by
  unfold matches_
  rw [List.mem_filterMap]
  constructor
  · rintro ⟨e, he, h⟩
    cases e <;> simp at h
    obtain ⟨rfl, rfl⟩ := h; exact he
  · intro h; exact ⟨_, h, rfl⟩

theorem sents_append (L K : List Ev) : sents (L ++ K) = sents L ++ sents K := List.filterMap_append
theorem handleds_append (L K : List Ev) : handleds (L ++ K) = handleds L ++ handleds K := List.filterMap_append
theorem matches_append (L K : List Ev) : matches_ (L ++ K) = matches_ L ++ matches_ K := List.filterMap_append
theorem posteds_append (L K : List Ev) : posteds (L ++ K) = posteds L ++ posteds K := List.filterMap_append

/-- `P` holds of every event together with everything before it. -/
def AllAt (P : List Ev → Ev → Prop) (L : List Ev) : Prop :=
  ∀ pre e post, L = pre ++ e :: post → P pre e

theorem AllAt.nil (P : List Ev → Ev → Prop) : AllAt P [] := by
  intro pre e post h
  simp at h

theorem AllAt.snoc {P : List Ev → Ev → Prop} {L : List Ev} {e : Ev} (h : AllAt P L) (he : P L e) :
    AllAt P (L ++ [e]) := by
  intro pre x post hx
  rcases List.eq_nil_or_concat post with rfl | ⟨post', y, rfl⟩
  · have := List.append_inj' hx rfl
    obtain ⟨h1, h2⟩ := this
    simp at h2
    subst h1 h2
    exact he
  · have hx' : L ++ [e] = (pre ++ x :: post') ++ [y] := by simpa using hx
    have := List.append_inj' hx' rfl
    exact h pre x post' this.1

/-! ### The two searches -/

theorem searchPosted_none {c : List Nat} {m : Msg} {l rs : List Req}
    (h : searchPosted c m l = .ok (none, rs)) :
    rs = l.filter (fun r => r.id ∉ c) ∧ ∀ r ∈ l, r.id ∉ c → r.eligible m = false := by
  induction l generalizing rs with
  | nil => simp only [searchPosted, Except.ok.injEq, Prod.mk.injEq] at h; simp [← h.2]
  | cons r l ih =>
    simp only [searchPosted] at h
    split at h
    · rename_i hc
      obtain ⟨h1, h2⟩ := ih h
      refine ⟨by simp [hc, h1], ?_⟩
      intro x hx hxc
      rcases List.mem_cons.1 hx with rfl | hx
      · exact absurd hc hxc
      · exact h2 x hx hxc
    · rename_i hc
      split at h
      · split at h <;> simp at h
      · rename_i he
        cases hs : searchPosted c m l with
        | error a => rw [hs] at h; simp at h
        | ok p =>
          obtain ⟨x, rs'⟩ := p
          rw [hs] at h
          simp only [Except.ok.injEq, Prod.mk.injEq] at h
          obtain ⟨rfl, rfl⟩ := h
          obtain ⟨h1, h2⟩ := ih hs
          refine ⟨by simp [hc, h1], ?_⟩
          intro x hx hxc
          rcases List.mem_cons.1 hx with rfl | hx
          · simpa using he
          · exact h2 x hx hxc

theorem searchPosted_some {c : List Nat} {m : Msg} {l rs : List Req} {r : Req}
    (h : searchPosted c m l = .ok (some r, rs)) :
    ∃ a b, l = a ++ r :: b ∧ rs = a.filter (fun r => r.id ∉ c) ++ b ∧ r.id ∉ c ∧ r.eligible m = true ∧
      tooBig m r = false ∧ ∀ x ∈ a, x.id ∉ c → x.eligible m = false := by
  induction l generalizing rs with
  | nil => simp [searchPosted] at h
  | cons y l ih =>
    simp only [searchPosted] at h
    split at h
    · rename_i hc
      obtain ⟨a, b, h1, h2, h3, h4, h5, h6⟩ := ih h
      refine ⟨y :: a, b, by simp [h1], by simp [hc, h2], h3, h4, h5, ?_⟩
      intro x hx hxc
      rcases List.mem_cons.1 hx with rfl | hx
      · exact absurd hc hxc
      · exact h6 x hx hxc
    · rename_i hc
      split at h
      · rename_i he
        split at h
        · simp at h
        · rename_i hb
          simp only [Except.ok.injEq, Prod.mk.injEq, Option.some.injEq] at h
          obtain ⟨rfl, rfl⟩ := h
          exact ⟨[], l, rfl, rfl, hc, he, by simpa using hb, by simp⟩
      · rename_i he
        cases hs : searchPosted c m l with
        | error a => rw [hs] at h; simp at h
        | ok p =>
          obtain ⟨x, rs'⟩ := p
          rw [hs] at h
          simp only [Except.ok.injEq, Prod.mk.injEq] at h
          obtain ⟨rfl, rfl⟩ := h
          obtain ⟨a, b, h1, h2, h3, h4, h5, h6⟩ := ih hs
          refine ⟨y :: a, b, by simp [h1], by simp [hc, h2], h3, h4, h5, ?_⟩
          intro x hx hxc
          rcases List.mem_cons.1 hx with rfl | hx
          · simpa using he
          · exact h6 x hx hxc

theorem searchPosted_error {c : List Nat} {m : Msg} {l : List Req} {a : Abort}
    (h : searchPosted c m l = .error a) :
    a = .tooSmall ∧ ∃ r ∈ l, r.id ∉ c ∧ r.eligible m = true ∧ tooBig m r = true := by
  induction l with
  | nil => simp [searchPosted] at h
  | cons y l ih =>
    simp only [searchPosted] at h
    split at h
    · obtain ⟨h1, r, hr, h2⟩ := ih h
      exact ⟨h1, r, List.mem_cons_of_mem _ hr, h2⟩
    · rename_i hc
      split at h
      · rename_i he
        split at h
        · rename_i hb
          simp only [Except.error.injEq] at h
          exact ⟨h.symm, y, List.mem_cons_self .., hc, he, hb⟩
        · simp at h
      · cases hs : searchPosted c m l with
        | error a' =>
          rw [hs] at h
          simp only [Except.error.injEq] at h
          subst h
          obtain ⟨h1, r, hr, h2⟩ := ih hs
          exact ⟨h1, r, List.mem_cons_of_mem _ hr, h2⟩
        | ok p => rw [hs] at h; simp at h

theorem searchUnexpected_none {r : Req} {l ms : List Msg} (h : searchUnexpected r l = .ok (none, ms)) :
    ∀ m ∈ l, r.eligible m = false := by
  induction l generalizing ms with
  | nil => simp
  | cons y l ih =>
    simp only [searchUnexpected] at h
    split at h
    · split at h <;> simp at h
    · rename_i he
      cases hs : searchUnexpected r l with
      | error a => rw [hs] at h; simp at h
      | ok p =>
        obtain ⟨x, ms'⟩ := p
        rw [hs] at h
        simp only [Except.ok.injEq, Prod.mk.injEq] at h
        obtain ⟨rfl, rfl⟩ := h
        intro m hm
        rcases List.mem_cons.1 hm with rfl | hm
        · simpa using he
        · exact ih hs m hm

theorem searchUnexpected_some {r : Req} {l ms : List Msg} {m : Msg}
    (h : searchUnexpected r l = .ok (some m, ms)) :
    ∃ a b, l = a ++ m :: b ∧ ms = a ++ b ∧ r.eligible m = true ∧ tooBig m r = false ∧
      ∀ x ∈ a, r.eligible x = false := by
  induction l generalizing ms with
  | nil => simp [searchUnexpected] at h
  | cons y l ih =>
    simp only [searchUnexpected] at h
    split at h
    · rename_i he
      split at h
      · simp at h
      · rename_i hb
        simp only [Except.ok.injEq, Prod.mk.injEq, Option.some.injEq] at h
        obtain ⟨rfl, rfl⟩ := h
        exact ⟨[], l, rfl, rfl, he, by simpa using hb, by simp⟩
    · rename_i he
      cases hs : searchUnexpected r l with
      | error a => rw [hs] at h; simp at h
      | ok p =>
        obtain ⟨x, ms'⟩ := p
        rw [hs] at h
        simp only [Except.ok.injEq, Prod.mk.injEq] at h
        obtain ⟨rfl, rfl⟩ := h
        obtain ⟨a, b, h1, h2, h3, h4, h5⟩ := ih hs
        refine ⟨y :: a, b, by simp [h1], by simp [h2], h3, h4, ?_⟩
        intro x hx
        rcases List.mem_cons.1 hx with rfl | hx
        · simpa using he
        · exact h5 x hx

theorem searchUnexpected_error {r : Req} {l : List Msg} {a : Abort} (h : searchUnexpected r l = .error a) :
    a = .tooSmall ∧ ∃ m ∈ l, r.eligible m = true ∧ tooBig m r = true := by
  induction l with
  | nil => simp [searchUnexpected] at h
  | cons y l ih =>
    simp only [searchUnexpected] at h
    split at h
    · rename_i he
      split at h
      · rename_i hb
        simp only [Except.error.injEq] at h
        exact ⟨h.symm, y, List.mem_cons_self .., he, hb⟩
      · simp at h
    · cases hs : searchUnexpected r l with
      | error a' =>
        rw [hs] at h
        simp only [Except.error.injEq] at h
        subst h
        obtain ⟨h1, x, hx, h2⟩ := ih hs
        exact ⟨h1, x, List.mem_cons_of_mem _ hx, h2⟩
      | ok p => rw [hs] at h; simp at h

/-! ### The matching invariant -/

/-- What every match in the log satisfies, given everything before it. -/
def Good (pre : List Ev) : Ev → Prop
  | .matched r m =>
    r.eligible m = true ∧ tooBig m r = false ∧ Ev.handled m ∈ pre ∧ Ev.posted r ∈ pre ∧
    Ev.cancelled r.id ∉ pre ∧ (∀ r', Ev.matched r' m ∉ pre) ∧ (∀ m', Ev.matched r m' ∉ pre) ∧
    (∀ m1, Ev.handled m1 ∈ pre → m1.sender = m.sender → m1.seq < m.seq → m1.prot ≠ .eager1 →
      r.eligible m1 = true → ∃ r1, Ev.matched r1 m1 ∈ pre) ∧
    (∀ r1, Ev.posted r1 ∈ pre → r1.id < r.id → r1.eligible m = true →
      (∃ m1, Ev.matched r1 m1 ∈ pre) ∨ Ev.cancelled r1.id ∈ pre)
  | _ => True

/-- Invariant of matching. -/
structure MInv (s : St) : Prop where
  good : AllAt Good s.log
  hnd : (handleds s.log).Nodup
  cons : ∀ m, (handleds s.log).count m = s.fetching.count m + s.unexpected.count m +
    ((matches_ s.log).map Prod.snd).count m
  ord : s.unexpected.Pairwise (fun a b => ¬ (b.prot ≠ .eager1 ∧ b.sender = a.sender ∧ b.seq < a.seq))
  dead : ∀ m ∈ s.unexpected, ∀ r ∈ s.posted, r.id ∉ s.cancelled → r.eligible m = false
  ids : (posteds s.log).map Req.id = List.range s.nextReq
  psort : s.posted.Pairwise (fun a b => a.id < b.id)
  pin : ∀ r ∈ s.posted, Ev.posted r ∈ s.log ∧ ∀ m, Ev.matched r m ∉ s.log
  pall : ∀ r, Ev.posted r ∈ s.log → r ∈ s.posted ∨ (∃ m, Ev.matched r m ∈ s.log) ∨ r.id ∈ s.cancelled
  canc : ∀ i, i ∈ s.cancelled ↔ Ev.cancelled i ∈ s.log
  clt : ∀ i ∈ s.cancelled, i < s.nextReq

theorem count_le_one {l : List Msg} (h : l.Nodup) (m : Msg) : l.count m ≤ 1 := List.nodup_iff_count.1 h m

theorem mem_matched_snd {L : List Ev} {m : Msg} : m ∈ (matches_ L).map Prod.snd ↔ ∃ r, Ev.matched r m ∈ L := by
  rw [List.mem_map]
  constructor
  · rintro ⟨⟨r, m'⟩, h, rfl⟩; exact ⟨r, mem_matches.1 h⟩
  · rintro ⟨r, h⟩; exact ⟨(r, m), mem_matches.2 h, rfl⟩

/-- A message in flight inside the queue has not been matched and has been handled. -/
theorem MInv.pending {s : St} (h : MInv s) {m : Msg} (hm : m ∈ s.fetching ∨ m ∈ s.unexpected) :
    Ev.handled m ∈ s.log ∧ ∀ r, Ev.matched r m ∉ s.log := by
  have hc := h.cons m
  have h1 := count_le_one h.hnd m
  have : 0 < s.fetching.count m + s.unexpected.count m := by
    rcases hm with hm | hm
    · have := List.count_pos_iff.2 hm; omega
    · have := List.count_pos_iff.2 hm; omega
  constructor
  · exact mem_handleds.1 (List.count_pos_iff.1 (by omega))
  · intro r hr
    have := List.count_pos_iff.2 (mem_matched_snd.2 ⟨r, hr⟩)
    omega

theorem MInv.handled_cases {s : St} (h : MInv s) {m : Msg} (hm : Ev.handled m ∈ s.log) :
    m ∈ s.fetching ∨ m ∈ s.unexpected ∨ ∃ r, Ev.matched r m ∈ s.log := by
  have hc := h.cons m
  have := List.count_pos_iff.2 (mem_handleds.2 hm)
  by_cases h1 : 0 < s.fetching.count m
  · exact .inl (List.count_pos_iff.1 h1)
  · by_cases h2 : 0 < s.unexpected.count m
    · exact .inr (.inl (List.count_pos_iff.1 h2))
    · exact .inr (.inr (mem_matched_snd.1 (List.count_pos_iff.1 (by omega))))

/-- Matching an arriving message.  In the state before, `m` counts as being fetched. -/
theorem MInv.matchMsg {s s' : St} {m : Msg}
    (h : MInv { s with fetching := m :: s.fetching })
    (hF : ∀ x ∈ s.fetching, x.prot = .eager1)
    (hO : ∀ a ∈ s.unexpected, ¬ (m.prot ≠ .eager1 ∧ m.sender = a.sender ∧ m.seq < a.seq))
    (hs : matchMsg s m = .ok s') : MInv s' := by
  have hpend := h.pending (m := m) (.inl (List.mem_cons_self ..))
  unfold Mpi.matchMsg at hs
  cases hp : searchPosted s.cancelled m s.posted with
  | error a => rw [hp] at hs; simp at hs
  | ok p =>
    obtain ⟨x, rs⟩ := p
    rw [hp] at hs
    cases x with
    | none =>
      simp only [Except.ok.injEq] at hs
      subst hs
      obtain ⟨hrs, hno⟩ := searchPosted_none hp
      have hsub : ∀ r ∈ rs, r ∈ s.posted := by intro r hr; rw [hrs] at hr; exact (List.mem_filter.1 hr).1
      refine ⟨h.good, h.hnd, ?_, ?_, ?_, h.ids, ?_, ?_, ?_, h.canc, h.clt⟩
      · intro y
        have := h.cons y
        simp only [List.count_cons, List.count_append, List.count_nil] at this ⊢
        omega
      · simp only [List.pairwise_append, List.pairwise_cons]
        refine ⟨h.ord, ⟨by simp, List.Pairwise.nil⟩, ?_⟩
        intro a ha b hb
        simp only [List.mem_singleton] at hb
        subst hb
        exact hO a ha
      · intro y hy r hr hc
        rcases List.mem_append.1 hy with hy | hy
        · exact h.dead y hy r (hsub r hr) hc
        · simp only [List.mem_singleton] at hy
          subst hy
          exact hno r (hsub r hr) hc
      · rw [hrs]; exact h.psort.sublist List.filter_sublist
      · intro r hr; exact h.pin r (hsub r hr)
      · intro r hr
        rcases h.pall r hr with h1 | h1 | h1
        · by_cases hc : r.id ∈ s.cancelled
          · exact .inr (.inr hc)
          · left
            show r ∈ rs
            rw [hrs]; exact List.mem_filter.2 ⟨h1, by simpa using hc⟩
        · exact .inr (.inl h1)
        · exact .inr (.inr h1)
    | some r =>
      simp only [Except.ok.injEq] at hs
      subst hs
      obtain ⟨a, b, hl, hrs, hrc, hre, hrb, hbef⟩ := searchPosted_some hp
      have hrin : r ∈ s.posted := by rw [hl]; simp
      have hsub : ∀ x ∈ rs, x ∈ s.posted := by
        intro x hx
        rw [hrs] at hx
        rw [hl]
        rcases List.mem_append.1 hx with hx | hx
        · exact List.mem_append_left _ (List.mem_filter.1 hx).1
        · exact List.mem_append_right _ (List.mem_cons_of_mem _ hx)
      have hsubl : rs.Sublist (a ++ b) := by rw [hrs]; exact List.Sublist.append List.filter_sublist (List.Sublist.refl b)
      have hps := h.psort
      simp only at hps
      rw [hl] at hps
      have hrn : r ∉ rs := by
        intro hx
        have hx := hsubl.subset hx
        rw [List.pairwise_append] at hps
        obtain ⟨_, p2, p3⟩ := hps
        rcases List.mem_append.1 hx with hx | hx
        · exact Nat.lt_irrefl _ (p3 r hx r (List.mem_cons_self ..))
        · exact Nat.lt_irrefl _ ((List.pairwise_cons.1 p2).1 r hx)
      refine ⟨?_, ?_, ?_, h.ord, ?_, ?_, ?_, ?_, ?_, ?_, h.clt⟩
      · refine h.good.snoc ⟨hre, hrb, hpend.1, (h.pin r hrin).1, ?_, hpend.2, (h.pin r hrin).2, ?_, ?_⟩
        · intro hc; exact hrc ((h.canc r.id).2 hc)
        · intro m1 hm1 hsd hsq hpr hel
          rcases h.handled_cases hm1 with h1 | h1 | h1
          · rcases List.mem_cons.1 h1 with rfl | h1
            · omega
            · exact absurd (hF m1 h1) hpr
          · have := h.dead m1 h1 r hrin hrc
            rw [this] at hel; cases hel
          · exact h1
        · intro r1 hr1 hid hel
          rcases h.pall r1 hr1 with h1 | h1 | h1
          · simp only at h1
            rw [hl] at h1
            by_cases hc : r1.id ∈ s.cancelled
            · exact .inr ((h.canc _).1 hc)
            · rcases List.mem_append.1 h1 with h1 | h1
              · have := hbef r1 h1 hc
                rw [this] at hel; cases hel
              · rcases List.mem_cons.1 h1 with rfl | h1
                · omega
                · rw [List.pairwise_append] at hps
                  have := (List.pairwise_cons.1 hps.2.1).1 r1 h1
                  omega
          · exact .inl h1
          · exact .inr ((h.canc _).1 h1)
      · rw [handleds_append]; simpa [handleds] using h.hnd
      · intro y
        have := h.cons y
        simp only [handleds_append, matches_append, List.map_append, List.count_append, List.count_cons] at this ⊢
        have e1 : (handleds [Ev.matched r m]).count y = 0 := by simp [handleds]
        have e2 : ((matches_ [Ev.matched r m]).map Prod.snd).count y = if m == y then 1 else 0 := by
          simp [matches_, List.count_cons]
        rw [e1, e2]
        omega
      · intro y hy x hx hc; exact h.dead y hy x (hsub x hx) hc
      · rw [posteds_append]; simpa [posteds] using h.ids
      · refine List.Pairwise.sublist hsubl ?_
        refine hps.sublist (List.Sublist.append (List.Sublist.refl a) (List.sublist_cons_self r b))
      · intro x hx
        obtain ⟨h1, h2⟩ := h.pin x (hsub x hx)
        refine ⟨List.mem_append_left _ h1, ?_⟩
        intro y hy
        rcases List.mem_append.1 hy with hy | hy
        · exact h2 y hy
        · simp only [List.mem_singleton, Ev.matched.injEq] at hy
          exact hrn (hy.1 ▸ hx)
      · intro x hx
        have hx : Ev.posted x ∈ s.log := by
          rcases List.mem_append.1 hx with hx | hx
          · exact hx
          · simp at hx
        rcases h.pall x hx with h1 | ⟨y, h1⟩ | h1
        · simp only at h1
          rw [hl] at h1
          by_cases hc : x.id ∈ s.cancelled
          · exact .inr (.inr hc)
          · rcases List.mem_append.1 h1 with h1 | h1
            · left
              show x ∈ rs
              rw [hrs]; exact List.mem_append_left _ (List.mem_filter.2 ⟨h1, by simpa using hc⟩)
            · rcases List.mem_cons.1 h1 with rfl | h1
              · exact .inr (.inl ⟨m, List.mem_append_right _ (List.mem_singleton.2 rfl)⟩)
              · left
                show x ∈ rs
                rw [hrs]; exact List.mem_append_right _ h1
        · exact .inr (.inl ⟨y, List.mem_append_left _ h1⟩)
        · exact .inr (.inr h1)
      · intro i
        rw [show (i ∈ s.cancelled ↔ _) from h.canc i]
        simp
  
/-- Posting a receive. -/
theorem MInv.post {s s' : St} {source tag : Int} {comm cap : Nat} (h : MInv s)
    (hF : ∀ x ∈ s.fetching, x.prot = .eager1)
    (hs : Mpi.post s ⟨s.nextReq, source, tag, comm, cap⟩ = .ok s') : MInv s' := by
  generalize hr : (⟨s.nextReq, source, tag, comm, cap⟩ : Req) = r at hs
  have hrid : r.id = s.nextReq := by rw [← hr]
  have hidlt : ∀ x, Ev.posted x ∈ s.log → x.id < s.nextReq := by
    intro x hx
    have := List.mem_map_of_mem (f := Req.id) (mem_posteds.2 hx)
    rw [h.ids] at this
    exact List.mem_range.1 this
  have hnomatch : ∀ m, Ev.matched r m ∉ s.log := by
    intro m hm
    obtain ⟨pre, post, hsp⟩ := List.append_of_mem hm
    have hg := h.good _ _ _ hsp
    have : Ev.posted r ∈ s.log := by rw [hsp]; exact List.mem_append_left _ hg.2.2.2.1
    have := hidlt r this
    omega
  have hnocanc : r.id ∉ s.cancelled := by
    intro hc
    have := h.clt _ hc
    omega
  have hids : (posteds (s.log ++ [Ev.posted r])).map Req.id = List.range (s.nextReq + 1) := by
    rw [posteds_append, List.map_append, h.ids, List.range_succ]
    simp [posteds, hrid]
  unfold Mpi.post at hs
  simp only at hs
  cases hp : searchUnexpected r s.unexpected with
  | error a => rw [hp] at hs; simp at hs
  | ok p =>
    obtain ⟨x, ms⟩ := p
    rw [hp] at hs
    cases x with
    | none =>
      simp only [Except.ok.injEq] at hs
      subst hs
      have hno := searchUnexpected_none hp
      refine ⟨h.good.snoc trivial, ?_, ?_, h.ord, ?_, hids, ?_, ?_, ?_, ?_, ?_⟩
      · rw [handleds_append]; simpa [handleds] using h.hnd
      · intro y
        have := h.cons y
        simpa [handleds_append, matches_append, handleds, matches_] using this
      · intro y hy x hx hc
        rcases List.mem_append.1 hx with hx | hx
        · exact h.dead y hy x hx hc
        · simp only [List.mem_singleton] at hx
          subst hx
          exact hno y hy
      · simp only [List.pairwise_append, List.pairwise_cons]
        refine ⟨h.psort, ⟨by simp, List.Pairwise.nil⟩, ?_⟩
        intro a ha b hb
        simp only [List.mem_singleton] at hb
        subst hb
        have := hidlt a (h.pin a ha).1
        omega
      · intro x hx
        rcases List.mem_append.1 hx with hx | hx
        · obtain ⟨h1, h2⟩ := h.pin x hx
          exact ⟨List.mem_append_left _ h1, by intro m hm; exact h2 m (by simpa using hm)⟩
        · simp only [List.mem_singleton] at hx
          subst hx
          exact ⟨by simp, by intro m hm; exact hnomatch m (by simpa using hm)⟩
      · intro x hx
        rcases List.mem_append.1 hx with hx | hx
        · rcases h.pall x hx with h1 | ⟨y, h1⟩ | h1
          · exact .inl (List.mem_append_left _ h1)
          · exact .inr (.inl ⟨y, List.mem_append_left _ h1⟩)
          · exact .inr (.inr h1)
        · simp only [List.mem_singleton, Ev.posted.injEq] at hx
          subst hx
          exact .inl (by simp)
      · intro i
        rw [show (i ∈ s.cancelled ↔ _) from h.canc i]
        simp
      · intro i hi
        have := h.clt i hi
        show i < s.nextReq + 1
        omega
    | some m =>
      simp only [Except.ok.injEq] at hs
      subst hs
      obtain ⟨a, b, hl, hms, hre, hrb, hbef⟩ := searchUnexpected_some hp
      have hmin : m ∈ s.unexpected := by rw [hl]; simp
      have hpend := h.pending (.inr hmin)
      have hsub : ∀ x ∈ ms, x ∈ s.unexpected := by
        intro x hx
        rw [hms] at hx
        rw [hl]
        rcases List.mem_append.1 hx with hx | hx
        · exact List.mem_append_left _ hx
        · exact List.mem_append_right _ (List.mem_cons_of_mem _ hx)
      have hord := h.ord
      rw [hl] at hord
      refine ⟨?_, ?_, ?_, ?_, ?_, ?_, h.psort, ?_, ?_, ?_, ?_⟩
      · refine (h.good.snoc (e := Ev.posted r) trivial).snoc ⟨hre, hrb, List.mem_append_left _ hpend.1, by simp, ?_, ?_, ?_, ?_, ?_⟩
        · intro hc
          exact hnocanc ((h.canc _).2 (by simpa using hc))
        · intro r' hr'; exact hpend.2 r' (by simpa using hr')
        · intro m' hm'; exact hnomatch m' (by simpa using hm')
        · intro m1 hm1 hsd hsq hpr hel
          have hm1 : Ev.handled m1 ∈ s.log := by simpa using hm1
          rcases h.handled_cases hm1 with h1 | h1 | ⟨y, h1⟩
          · exact absurd (hF m1 h1) hpr
          · rw [hl] at h1
            rcases List.mem_append.1 h1 with h1 | h1
            · have := hbef m1 h1
              rw [this] at hel; cases hel
            · rcases List.mem_cons.1 h1 with rfl | h1
              · omega
              · rw [List.pairwise_append] at hord
                exact absurd ⟨hpr, hsd, hsq⟩ ((List.pairwise_cons.1 hord.2.1).1 m1 h1)
          · exact ⟨y, List.mem_append_left _ h1⟩
        · intro r1 hr1 hid hel
          have hr1 : Ev.posted r1 ∈ s.log := by
            rcases List.mem_append.1 hr1 with h1 | h1
            · exact h1
            · simp only [List.mem_singleton, Ev.posted.injEq] at h1
              subst h1; omega
          rcases h.pall r1 hr1 with h1 | ⟨y, h1⟩ | h1
          · by_cases hc : r1.id ∈ s.cancelled
            · exact .inr (List.mem_append_left _ ((h.canc _).1 hc))
            · have := h.dead m hmin r1 h1 hc
              rw [this] at hel; cases hel
          · exact .inl ⟨y, List.mem_append_left _ h1⟩
          · exact .inr (List.mem_append_left _ ((h.canc _).1 h1))
      · rw [handleds_append, handleds_append]; simpa [handleds] using h.hnd
      · intro y
        have := h.cons y
        simp only [handleds_append, matches_append, List.map_append, List.count_append] at this ⊢
        rw [hl] at this
        rw [hms]
        have e1 : (handleds [Ev.matched r m]).count y = 0 := by simp [handleds]
        have e1' : (handleds [Ev.posted r]).count y = 0 := by simp [handleds]
        have e2 : ((matches_ [Ev.matched r m]).map Prod.snd).count y = if m == y then 1 else 0 := by
          simp [matches_, List.count_cons]
        have e3 : ((matches_ [Ev.posted r]).map Prod.snd).count y = 0 := by simp [matches_]
        rw [e1, e1', e2, e3]
        simp only [List.count_append, List.count_cons] at this ⊢
        omega
      · show List.Pairwise _ ms
        rw [hms]
        exact hord.sublist (List.Sublist.append (List.Sublist.refl a) (List.sublist_cons_self m b))
      · intro y hy x hx hc; exact h.dead y (hsub y hy) x hx hc
      · rw [posteds_append, List.map_append, hids]; simp [posteds]
      · intro x hx
        obtain ⟨h1, h2⟩ := h.pin x hx
        refine ⟨List.mem_append_left _ (List.mem_append_left _ h1), ?_⟩
        intro y hy
        rcases List.mem_append.1 hy with hy | hy
        · exact h2 y (by simpa using hy)
        · simp only [List.mem_singleton, Ev.matched.injEq] at hy
          have := hidlt x h1
          rw [hy.1] at this
          omega
      · intro x hx
        have hx : Ev.posted x ∈ s.log ∨ x = r := by simpa using hx
        rcases hx with hx | rfl
        · rcases h.pall x hx with h1 | ⟨y, h1⟩ | h1
          · exact .inl h1
          · exact .inr (.inl ⟨y, by simp [h1]⟩)
          · exact .inr (.inr h1)
        · exact .inr (.inl ⟨m, by simp⟩)
      · intro i
        rw [show (i ∈ s.cancelled ↔ _) from h.canc i]
        simp
      · intro i hi
        have := h.clt i hi
        show i < s.nextReq + 1
        omega

theorem MInv.cancel {s : St} (h : MInv s) {i : Nat} (hi : i < s.nextReq) :
    MInv { s with cancelled := i :: s.cancelled, log := s.log ++ [.cancelled i] } := by
  refine ⟨h.good.snoc trivial, ?_, ?_, h.ord, ?_, ?_, h.psort, ?_, ?_, ?_, ?_⟩
  · rw [handleds_append]; simpa [handleds] using h.hnd
  · intro y
    have := h.cons y
    simpa [handleds_append, matches_append, handleds, matches_] using this
  · intro y hy x hx hc
    exact h.dead y hy x hx (fun h' => hc (List.mem_cons_of_mem _ h'))
  · rw [posteds_append]; simpa [posteds] using h.ids
  · intro x hx
    obtain ⟨h1, h2⟩ := h.pin x hx
    exact ⟨List.mem_append_left _ h1, by intro m hm; exact h2 m (by simpa using hm)⟩
  · intro x hx
    rcases h.pall x (by simpa using hx) with h1 | ⟨y, h1⟩ | h1
    · exact .inl h1
    · exact .inr (.inl ⟨y, by simp [h1]⟩)
    · exact .inr (.inr (List.mem_cons_of_mem _ h1))
  · intro j
    have := h.canc j
    simp only [List.mem_cons, List.mem_append, List.not_mem_nil, or_false, Ev.cancelled.injEq]
    rw [this]
    constructor
    · rintro (h1 | h1)
      · exact .inr h1
      · exact .inl h1
    · rintro (h1 | h1)
      · exact .inr h1
      · exact .inl h1
  · intro j hj
    rcases List.mem_cons.1 hj with rfl | hj
    · exact hi
    · exact h.clt j hj

end SST.Mpi
