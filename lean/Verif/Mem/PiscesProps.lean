import Verif.Mem.Pisces
set_option autoImplicit false
/-
Memory of the packet-flow machine: flows are started in order and their callbacks run exactly once,
after all bytes; flows of 2^32 bytes and a packet or more never end; single requests keep their
channel for ever.
-/
namespace SST.Mem.Pisces

/-- The access an event works for. -/
def holder (chan : Nat → Chan) : Ev → Option Nat
  | .call id => some id
  | .arrived ch _ => some (chan ch).id
  | .free _ => none

/-- The channel an event occupies. -/
def token : Ev → Option Nat
  | .free ch => some ch
  | .arrived ch _ => some ch
  | .call _ => none

/-- What holds of a flow in transfer. -/
def Moving (c : Cfg) (s : St) (ch b : Nat) : Prop :=
  ((s.chan ch).id, (s.chan ch).total) ∈ s.calls ∧ s.moved (s.chan ch).id = (s.chan ch).arrived + b ∧
  if (s.chan ch).total < c.packet + 2 ^ 32 then
    (s.chan ch).arrived + b ≤ (s.chan ch).total ∧ (s.chan ch).total < (s.chan ch).arrived + b + 2 ^ 32
  else (s.chan ch).arrived + b + 2 ^ 32 ≤ (s.chan ch).total

/-- What holds of an access that has moved all its bytes. -/
def Complete (c : Cfg) (s : St) (id : Nat) : Prop := ∃ b, (id, b) ∈ s.calls ∧ s.moved id = b ∧ b < c.packet + 2 ^ 32

/-- What always holds; `chs` are channels and `ws` accesses in hand. -/
structure InvX (c : Cfg) (s : St) (chs : List Nat) (ws : List Wait) : Prop where
  ids : s.calls.map (·.1) = (List.range s.nextId).reverse
  acc : (List.range s.nextId).Perm (s.done ++ ((ws ++ s.stalled).map Wait.id ++ s.evs.filterMap (holder s.chan)))
  toks : (List.range c.channels).Perm (s.avail ++ (chs ++ s.evs.filterMap token))
  waits : ∀ w ∈ ws ++ s.stalled, ∃ b id, w = .flow b id ∧ (id, b) ∈ s.calls ∧ s.moved id = 0
  order : s.started.reverse ++ (ws ++ s.stalled).map Wait.id = List.range s.nextId
  pend : ∀ id, .call id ∈ s.evs → Complete c s id
  arr : ∀ ch b, .arrived ch b ∈ s.evs → Moving c s ch b
  don : ∀ id ∈ s.done, Complete c s id
  fresh : ∀ id, s.nextId ≤ id → s.moved id = 0
  idle : s.avail ≠ [] → s.stalled = []

theorem fm_perm {α β : Type} (f : α → Option β) (pre : List α) (e : α) (post : List α) :
    ((pre ++ e :: post).filterMap f).Perm ((f e).toList ++ (pre ++ post).filterMap f) := by
  have h := (List.perm_middle (a := e) (l₁ := pre) (l₂ := post)).filterMap f
  refine h.trans ?_
  rw [List.filterMap_cons]
  cases f e with
  | none => exact .refl _
  | some b => exact .refl _

theorem put_same {α : Type} (f : Nat → α) (i : Nat) (x : α) : put f i x i = x := if_pos rfl

theorem put_other {α : Type} (f : Nat → α) (i j : Nat) (x : α) (h : j ≠ i) : put f i x j = f j := if_neg h

theorem holder_put (chan : Nat → Chan) (ch : Nat) (x : Chan) (l : List Ev) (h : ch ∉ l.filterMap token) :
    l.filterMap (holder (put chan ch x)) = l.filterMap (holder chan) := by
  induction l with
  | nil => rfl
  | cons e l ih =>
    have h1 : ch ∉ l.filterMap token := by
      intro hm
      apply h
      rw [List.filterMap_cons]
      cases token e with
      | none => exact hm
      | some t => exact List.mem_cons_of_mem _ hm
    rw [List.filterMap_cons, List.filterMap_cons, ih h1]
    cases e with
    | call id => rfl
    | free ch' => rfl
    | arrived ch' b =>
      have : ch' ≠ ch := by
        intro e
        apply h
        rw [List.filterMap_cons]
        simp [token, e]
      simp only [holder, put_other _ _ _ _ this]

theorem InvX.toksNodup {c : Cfg} {s : St} {chs : List Nat} {ws : List Wait} (h : InvX c s chs ws) :
    (s.avail ++ (chs ++ s.evs.filterMap token)).Nodup := h.toks.nodup_iff.1 List.nodup_range

theorem InvX.accNodup {c : Cfg} {s : St} {chs : List Nat} {ws : List Wait} (h : InvX c s chs ws) :
    (s.done ++ ((ws ++ s.stalled).map Wait.id ++ s.evs.filterMap (holder s.chan))).Nodup := h.acc.nodup_iff.1 List.nodup_range

theorem Complete.put {c : Cfg} {s s' : St} {id i x : Nat} (h : Complete c s id) (hne : id ≠ i) (hc : ∀ p ∈ s.calls, p ∈ s'.calls)
    (hm : s'.moved = put s.moved i x) : Complete c s' id := by
  obtain ⟨b, h1, h2, h3⟩ := h
  exact ⟨b, hc _ h1, by rw [hm, put_other _ _ _ _ hne]; exact h2, h3⟩

theorem start_spec {c : Cfg} {s : St} {ch bytes id : Nat} (h : InvX c s [ch] [.flow bytes id]) :
    InvX c (start c ch bytes id s) [] [] := by
  have htk := h.toksNodup
  have hac := h.accNodup
  obtain ⟨b', id', e, hcall, hmv⟩ := h.waits (.flow bytes id) (by simp)
  injection e with e1 e2
  subst e1; subst e2
  have hlt : id < s.nextId := by
    have : id ∈ s.calls.map (·.1) := List.mem_map_of_mem (f := (·.1)) hcall
    rw [h.ids] at this
    simpa using this
  have hch : ch ∉ s.evs.filterMap token := by
    have := (List.nodup_append.1 htk).2.1
    rw [List.singleton_append, List.nodup_cons] at this
    exact this.1
  have hdone : id ∉ s.done := by
    intro hm
    exact (List.nodup_append.1 hac).2.2 id hm id (by simp [Wait.id]) rfl
  have hac2 := (List.nodup_append.1 hac).2.1
  simp only [List.map_append, List.map_cons, List.map_nil, List.singleton_append, List.cons_append, List.nodup_cons, Wait.id, List.mem_append, not_or] at hac2
  have hst : ∀ w ∈ s.stalled, w.id ≠ id := by
    intro w hw e
    exact hac2.1.1.2 (by rw [← e]; exact List.mem_map_of_mem hw)
  have hho : id ∉ s.evs.filterMap (holder s.chan) := hac2.1.2
  have hpend : ∀ i, Ev.call i ∈ s.evs → i ≠ id := by
    intro i hi e
    subst e
    exact hho (List.mem_filterMap.2 ⟨_, hi, rfl⟩)
  have harr : ∀ k b, Ev.arrived k b ∈ s.evs → (s.chan k).id ≠ id := by
    intro k b hk e
    exact hho (List.mem_filterMap.2 ⟨_, hk, by simp [holder, e]⟩)
  have hkch : ∀ k b, Ev.arrived k b ∈ s.evs → k ≠ ch := by
    intro k b hk e
    subst e
    exact hch (List.mem_filterMap.2 ⟨_, hk, rfl⟩)
  unfold start
  split
  · rename_i hle
    refine ⟨h.ids, ?_, ?_, ?_, ?_, ?_, ?_, ?_, ?_, h.idle⟩
    · refine h.acc.trans (List.Perm.append_left _ ?_)
      simp only [List.map_append, List.map_cons, List.map_nil, List.filterMap_append, List.filterMap_cons, List.filterMap_nil, holder, Wait.id, List.nil_append, List.cons_append]
      rw [← List.append_assoc]
      exact (List.perm_append_comm (l₁ := [id]))
    · refine h.toks.trans (List.Perm.append_left _ ?_)
      simp only [List.filterMap_append, List.filterMap_cons, List.filterMap_nil, token, List.nil_append]
      exact List.perm_append_comm
    · intro w hw
      obtain ⟨b, i, e, hi, hm⟩ := h.waits w (List.mem_append_right _ hw)
      refine ⟨b, i, e, hi, ?_⟩
      have : i ≠ id := by have := hst w hw; rw [e] at this; exact this
      show put s.moved id _ i = 0
      rw [put_other _ _ _ _ this]; exact hm
    · rw [← h.order]; simp [Wait.id]
    · intro i hi
      rcases List.mem_append.1 hi with hi | hi
      · exact (h.pend i hi).put (hpend i hi) (fun _ hp => hp) rfl
      · simp only [List.mem_cons, Ev.call.injEq, List.not_mem_nil, or_false, reduceCtorEq] at hi
        subst hi
        refine ⟨bytes, hcall, ?_, by omega⟩
        show put s.moved i _ i = bytes
        rw [put_same]; omega
    · intro k b hk
      have hk : Ev.arrived k b ∈ s.evs := by
        rcases List.mem_append.1 hk with hk | hk
        · exact hk
        · simp at hk
      obtain ⟨m1, m2, m3⟩ := h.arr k b hk
      refine ⟨m1, ?_, m3⟩
      show put s.moved id _ (s.chan k).id = _
      rw [put_other _ _ _ _ (harr k b hk)]; exact m2
    · intro i hi
      exact (h.don i hi).put (fun e => hdone (by rw [← e]; exact hi)) (fun _ hp => hp) rfl
    · intro i hi
      have hi : s.nextId ≤ i := hi
      show put s.moved id _ i = 0
      rw [put_other _ _ _ _ (by omega)]; exact h.fresh i hi
  · rename_i hle
    refine ⟨h.ids, ?_, ?_, ?_, ?_, ?_, ?_, ?_, ?_, h.idle⟩
    · refine h.acc.trans (List.Perm.append_left _ ?_)
      simp only [List.map_append, List.map_cons, List.map_nil, List.filterMap_append, List.filterMap_cons, List.filterMap_nil, holder, Wait.id, List.nil_append, List.cons_append,
        holder_put _ _ _ _ hch, put_same]
      rw [← List.append_assoc]
      exact (List.perm_append_comm (l₁ := [id]))
    · refine h.toks.trans (List.Perm.append_left _ ?_)
      simp only [List.filterMap_append, List.filterMap_cons, List.filterMap_nil, token, List.nil_append]
      exact List.perm_append_comm
    · intro w hw
      obtain ⟨b, i, e, hi, hm⟩ := h.waits w (List.mem_append_right _ hw)
      refine ⟨b, i, e, hi, ?_⟩
      have : i ≠ id := by have := hst w hw; rw [e] at this; exact this
      show put s.moved id _ i = 0
      rw [put_other _ _ _ _ this]; exact hm
    · rw [← h.order]; simp [Wait.id]
    · intro i hi
      rcases List.mem_append.1 hi with hi | hi
      · exact (h.pend i hi).put (hpend i hi) (fun _ hp => hp) rfl
      · simp at hi
    · intro k b hk
      rcases List.mem_append.1 hk with hk | hk
      · obtain ⟨m1, m2, m3⟩ := h.arr k b hk
        have hne := hkch k b hk
        simp only [Moving, put_other _ _ _ _ hne]
        refine ⟨m1, ?_, m3⟩
        rw [put_other _ _ _ _ (harr k b hk)]; exact m2
      · simp only [List.mem_cons, Ev.arrived.injEq, List.not_mem_nil, or_false] at hk
        obtain ⟨rfl, rfl⟩ := hk
        simp only [Moving, put_same]
        refine ⟨hcall, by omega, ?_⟩
        split <;> omega
    · intro i hi
      exact (h.don i hi).put (fun e => hdone (by rw [← e]; exact hi)) (fun _ hp => hp) rfl
    · intro i hi
      have hi : s.nextId ≤ i := hi
      show put s.moved id _ i = 0
      rw [put_other _ _ _ _ (by omega)]; exact h.fresh i hi

theorem free_spec {c : Cfg} {s : St} {ch : Nat} (h : InvX c s [ch] []) :
    ∃ s', channelFree c ch s = some s' ∧ InvX c s' [] [] := by
  unfold channelFree
  cases hs : s.stalled with
  | nil =>
    have h1 := h.acc
    have h2 := h.waits
    have h3 := h.order
    rw [hs] at h1 h2 h3
    refine ⟨_, rfl, h.ids, h1, ?_, h2, h3, h.pend, h.arr, h.don, h.fresh, fun _ => rfl⟩
    refine h.toks.trans ?_
    exact List.perm_middle
  | cons w rest =>
    obtain ⟨b, id, e, _⟩ := h.waits w (by rw [hs]; simp)
    subst e
    refine ⟨_, rfl, start_spec ?_⟩
    have hno : s.avail = [] := by
      cases ha : s.avail with
      | nil => rfl
      | cons a l => have := h.idle (by rw [ha]; simp); rw [hs] at this; simp at this
    refine ⟨h.ids, ?_, h.toks, ?_, ?_, h.pend, h.arr, h.don, h.fresh, fun hne => absurd hno hne⟩
    · have := h.acc; rw [hs] at this; exact this
    · have := h.waits; rw [hs] at this; exact this
    · have := h.order; rw [hs] at this; exact this

theorem flow_spec {c : Cfg} {s : St} (h : InvX c s [] []) (bytes : Nat) : InvX c (accessFlow c bytes s) [] [] := by
  have hcomp : ∀ (s' : St) (id : Nat), s'.calls = (s.nextId, bytes) :: s.calls → s'.moved = s.moved → Complete c s id → Complete c s' id := by
    rintro s' id e1 e2 ⟨b, h1, h2, h3⟩
    exact ⟨b, by rw [e1]; exact List.mem_cons_of_mem _ h1, by rw [e2]; exact h2, h3⟩
  unfold accessFlow
  cases ha : s.avail with
  | nil =>
    have htk := h.toks
    rw [ha] at htk
    refine ⟨?_, ?_, htk, ?_, ?_, fun id hi => hcomp _ _ rfl rfl (h.pend id hi), ?_, fun id hi => hcomp _ _ rfl rfl (h.don id hi), ?_, fun hne => absurd rfl hne⟩
    · simp [List.range_succ, h.ids]
    · show (List.range (s.nextId + 1)).Perm _
      rw [List.range_succ]
      refine (h.acc.append_right _).trans ?_
      simp only [List.append_assoc, List.nil_append, List.map_append, List.map_cons, List.map_nil, Wait.id]
      exact (List.Perm.append_left _ (List.Perm.append_left _ List.perm_append_comm))
    · intro w hw
      rcases List.mem_append.1 (show w ∈ s.stalled ++ [Wait.flow bytes s.nextId] from hw) with hw | hw
      · obtain ⟨b, id, e, hi, hm⟩ := h.waits w hw
        exact ⟨b, id, e, List.mem_cons_of_mem _ hi, hm⟩
      · exact ⟨bytes, s.nextId, List.mem_singleton.1 hw, List.mem_cons_self, h.fresh _ (Nat.le_refl _)⟩
    · show s.started.reverse ++ (s.stalled ++ [Wait.flow bytes s.nextId]).map Wait.id = List.range (s.nextId + 1)
      rw [List.map_append, ← List.append_assoc, List.range_succ]
      have := h.order
      simp only [List.nil_append] at this
      rw [this]; rfl
    · intro ch b hb
      obtain ⟨m1, m2, m3⟩ := h.arr ch b hb
      exact ⟨List.mem_cons_of_mem _ m1, m2, m3⟩
    · intro id hi
      exact h.fresh id (Nat.le_of_succ_le hi)
  | cons ch avail =>
    have hst := h.idle (by rw [ha]; simp)
    apply start_spec
    refine ⟨?_, ?_, ?_, ?_, ?_, fun id hi => hcomp _ _ rfl rfl (h.pend id hi), ?_, fun id hi => hcomp _ _ rfl rfl (h.don id hi), ?_, fun _ => hst⟩
    · simp [List.range_succ, h.ids]
    · show (List.range (s.nextId + 1)).Perm _
      rw [List.range_succ]
      refine (h.acc.append_right _).trans ?_
      simp only [hst, List.append_assoc, List.nil_append, List.append_nil, List.map_cons, List.map_nil, Wait.id]
      exact (List.Perm.append_left _ List.perm_append_comm)
    · have := h.toks
      rw [ha] at this
      exact this.trans (List.perm_middle (l₁ := avail)).symm
    · intro w hw
      have hw : w ∈ [Wait.flow bytes s.nextId] ++ s.stalled := hw
      rw [hst, List.append_nil] at hw
      exact ⟨bytes, s.nextId, List.mem_singleton.1 hw, List.mem_cons_self, h.fresh _ (Nat.le_refl _)⟩
    · show s.started.reverse ++ ([Wait.flow bytes s.nextId] ++ s.stalled).map Wait.id = List.range (s.nextId + 1)
      have := h.order
      simp only [hst, List.nil_append, List.append_nil, List.map_nil] at this
      rw [hst, List.range_succ, this]; rfl
    · intro ch b hb
      obtain ⟨m1, m2, m3⟩ := h.arr ch b hb
      exact ⟨List.mem_cons_of_mem _ m1, m2, m3⟩
    · intro id hi
      exact h.fresh id (Nat.le_of_succ_le hi)

theorem exec_spec {c : Cfg} {s : St} (h : InvX c s [] []) (pre post : List Ev) (e : Ev) (hs : s.evs = pre ++ e :: post) :
    ∃ s', exec c { s with evs := pre ++ post } e = some s' ∧ InvX c s' [] [] := by
  have hmem : e ∈ s.evs := by rw [hs]; simp
  have hsub : ∀ x, x ∈ pre ++ post → x ∈ s.evs := by
    intro x hx
    rw [hs]
    rcases List.mem_append.1 hx with hx | hx
    · exact List.mem_append_left _ hx
    · exact List.mem_append_right _ (List.mem_cons_of_mem _ hx)
  have hacc := h.acc
  have htok := h.toks
  rw [hs] at hacc htok
  have hacc := hacc.trans (List.Perm.append_left _ (List.Perm.append_left _ (fm_perm (holder s.chan) pre e post)))
  have htok := htok.trans (List.Perm.append_left _ (List.Perm.append_left _ (fm_perm token pre e post)))
  cases e with
  | call id =>
    refine ⟨_, rfl, h.ids, ?_, htok, h.waits, h.order, fun i hi => h.pend i (hsub _ hi), fun ch b hb => h.arr ch b (hsub _ hb), ?_, h.fresh, h.idle⟩
    · refine hacc.trans ?_
      simp only [holder, Option.toList_some]
      refine (List.Perm.append_left _ List.perm_middle).trans ?_
      exact List.perm_middle
    · intro i hi
      rcases List.mem_cons.1 hi with rfl | hi
      · exact h.pend i hmem
      · exact h.don i hi
  | free ch =>
    exact free_spec ⟨h.ids, hacc, htok, h.waits, h.order, fun i hi => h.pend i (hsub _ hi), fun ch b hb => h.arr ch b (hsub _ hb), h.don, h.fresh, h.idle⟩
  | arrived ch b =>
    obtain ⟨m1, m2, m3⟩ := h.arr ch b hmem
    simp only [holder, token, Option.toList_some, List.nil_append, List.singleton_append] at hacc htok
    have hch : ch ∉ (pre ++ post).filterMap token := by
      have := htok.nodup_iff.1 List.nodup_range
      exact (List.nodup_cons.1 (List.nodup_append.1 this).2.1).1
    have hnd := hacc.nodup_iff.1 List.nodup_range
    have hnd2 := (List.nodup_append.1 hnd).2.1
    have hdone : (s.chan ch).id ∉ s.done := by
      intro hm
      exact (List.nodup_append.1 hnd).2.2 _ hm (s.chan ch).id (by simp) rfl
    have hst : ∀ w ∈ s.stalled, w.id ≠ (s.chan ch).id := by
      intro w hw e
      exact (List.nodup_append.1 hnd2).2.2 _ (List.mem_map_of_mem hw) (s.chan ch).id (by simp) e
    have hho : (s.chan ch).id ∉ (pre ++ post).filterMap (holder s.chan) :=
      (List.nodup_cons.1 (List.nodup_append.1 hnd2).2.1).1
    have hlt : (s.chan ch).id < s.nextId := by
      have : (s.chan ch).id ∈ s.calls.map (·.1) := List.mem_map_of_mem (f := (·.1)) m1
      rw [h.ids] at this
      simpa using this
    have hpend : ∀ i, Ev.call i ∈ pre ++ post → i ≠ (s.chan ch).id := by
      intro i hi e
      exact hho (List.mem_filterMap.2 ⟨_, hi, by rw [e]; rfl⟩)
    have harr : ∀ k d, Ev.arrived k d ∈ pre ++ post → (s.chan k).id ≠ (s.chan ch).id := by
      intro k d hk e
      exact hho (List.mem_filterMap.2 ⟨_, hk, by simp [holder, e]⟩)
    have hkch : ∀ k d, Ev.arrived k d ∈ pre ++ post → k ≠ ch := by
      intro k d hk e
      subst e
      exact hch (List.mem_filterMap.2 ⟨_, hk, rfl⟩)
    simp only [exec, dataArrived]
    split
    · rename_i hfin
      apply free_spec
      refine ⟨h.ids, ?_, htok, h.waits, h.order, fun i hi => h.pend i (hsub _ hi), ?_, ?_, h.fresh, h.idle⟩
      · refine hacc.trans ?_
        simp only [holder_put _ _ _ _ hch]
        refine (List.Perm.append_left _ List.perm_middle).trans ?_
        exact List.perm_middle
      · intro k d hk
        have hne := hkch k d hk
        have := h.arr k d (hsub _ hk)
        simp only [Moving, put_other _ _ _ _ hne]
        exact this
      · intro i hi
        rcases List.mem_cons.1 hi with rfl | hi
        · refine ⟨(s.chan ch).total, m1, by show s.moved (s.chan ch).id = _; omega, ?_⟩
          split at m3 <;> omega
        · exact h.don i hi
    · rename_i hfin
      refine ⟨_, rfl, ?_⟩
      have hR : (s.chan ch).arrived + b ≤ (s.chan ch).total := by split at m3 <;> omega
      refine ⟨h.ids, ?_, ?_, ?_, h.order, ?_, ?_, ?_, ?_, h.idle⟩
      · refine hacc.trans (List.Perm.append_left _ (List.Perm.append_left _ ?_))
        rw [List.filterMap_append (l := pre ++ post), holder_put _ _ _ _ hch]
        simp only [List.filterMap_cons, List.filterMap_nil, holder, put_same]
        exact List.perm_append_comm (l₁ := [(s.chan ch).id])
      · refine htok.trans (List.Perm.append_left _ ?_)
        simp only [List.nil_append]
        rw [List.filterMap_append (l := pre ++ post)]
        simp only [List.filterMap_cons, List.filterMap_nil, token]
        exact List.perm_append_comm (l₁ := [ch])
      · intro w hw
        obtain ⟨d, i, e, hi, hm⟩ := h.waits w hw
        refine ⟨d, i, e, hi, ?_⟩
        have : i ≠ (s.chan ch).id := by have := hst w hw; rw [e] at this; exact this
        show put s.moved (s.chan ch).id _ i = 0
        rw [put_other _ _ _ _ this]; exact hm
      · intro i hi
        rcases List.mem_append.1 hi with hi | hi
        · exact (h.pend i (hsub _ hi)).put (hpend i hi) (fun _ hp => hp) rfl
        · simp at hi
      · intro k d hk
        rcases List.mem_append.1 hk with hk | hk
        · obtain ⟨n1, n2, n3⟩ := h.arr k d (hsub _ hk)
          have hne := hkch k d hk
          simp only [Moving, put_other _ _ _ _ hne]
          refine ⟨n1, ?_, n3⟩
          rw [put_other _ _ _ _ (harr k d hk)]; exact n2
        · simp only [List.mem_cons, Ev.arrived.injEq, List.not_mem_nil, or_false] at hk
          obtain ⟨rfl, rfl⟩ := hk
          simp only [Moving, put_same]
          refine ⟨m1, by omega, ?_⟩
          have hmod := Nat.mod_le ((s.chan k).total - ((s.chan k).arrived + b)) (2 ^ 32)
          have hdm := Nat.div_add_mod ((s.chan k).total - ((s.chan k).arrived + b)) (2 ^ 32)
          split
          · rename_i hsm
            rw [if_pos hsm] at m3
            have : ((s.chan k).total - ((s.chan k).arrived + b)) % 2 ^ 32 = (s.chan k).total - ((s.chan k).arrived + b) :=
              Nat.mod_eq_of_lt (by omega)
            omega
          · rename_i hsm
            rw [if_neg hsm] at m3
            have : 1 ≤ ((s.chan k).total - ((s.chan k).arrived + b)) / 2 ^ 32 := by omega
            omega
      · intro i hi
        exact (h.don i hi).put (fun e => hdone (by rw [← e]; exact hi)) (fun _ hp => hp) rfl
      · intro i hi
        have hi : s.nextId ≤ i := hi
        show put s.moved (s.chan ch).id _ i = 0
        rw [put_other _ _ _ _ (by omega)]; exact h.fresh i hi

theorem init_spec (c : Cfg) : InvX c (St.init c) [] [] := by
  refine ⟨rfl, .refl _, ?_, by simp [St.init], rfl, by simp [St.init], by simp [St.init], by simp [St.init], fun _ _ => rfl, fun _ => rfl⟩
  simp only [St.init, List.nil_append, List.filterMap_nil, List.append_nil]
  exact (List.reverse_perm _).symm

theorem reach_inv {c : Cfg} {s : St} (h : Reach c s) : InvX c s [] [] := by
  induction h with
  | init => exact init_spec c
  | flow bytes _ ih => exact flow_spec ih bytes
  | exec _ hx ih =>
    cases hx with
    | run pre post e hs hx =>
      obtain ⟨s', e1, e2⟩ := exec_spec ih pre post e hs
      rw [hx] at e1
      injection e1 with e1
      rw [e1]; exact e2

/-- A piece of a flow in transfer. -/
def isData : Ev → Bool
  | .arrived _ _ => true
  | _ => false

/-- With flows only: they get channels in the order of the calls; the callback of a flow runs at
most once; when it runs, exactly the bytes of the flow have been moved; and never more pieces are
in transfer than there are channels. -/
theorem C114_pisces_once (c : Cfg) (s : St) (h : Reach c s) :
    s.started.reverse <+: List.range s.nextId ∧ s.done.Nodup ∧
    (∀ id ∈ s.done, ∃ bytes, (id, bytes) ∈ s.calls ∧ s.moved id = bytes) ∧
    (s.evs.filter isData).length ≤ c.channels := by
  have hi := reach_inv h
  refine ⟨⟨_, hi.order⟩, (List.nodup_append.1 hi.accNodup).1, ?_, ?_⟩
  · intro id hid
    obtain ⟨b, h1, h2, _⟩ := hi.don id hid
    exact ⟨b, h1, h2⟩
  · have hl := hi.toks.length_eq
    simp only [List.length_range, List.nil_append, List.length_append] at hl
    have : ∀ l : List Ev, (l.filter isData).length ≤ (l.filterMap token).length := by
      intro l
      induction l with
      | nil => simp
      | cons e l ih =>
        cases e <;> simp only [List.filterMap_cons, token, List.filter_cons, isData, if_true, List.length_cons, Bool.false_eq_true, if_false] <;> omega
    have := this s.evs
    omega

/-- How many events can follow from one. -/
def wt (chan : Nat → Chan) : Ev → Nat
  | .call _ => 1
  | .free _ => 1
  | .arrived ch b => 1 + ((chan ch).total - (chan ch).arrived - b)

/-- How many events can follow from an access that waits. -/
def wtW : Wait → Nat
  | .flow b _ => b + 3
  | .request _ => 0

/-- How many events can still follow. -/
def weight (s : St) : Nat := (s.evs.map (wt s.chan)).sum + (s.stalled.map wtW).sum

theorem wt_put (chan : Nat → Chan) (ch : Nat) (x : Chan) (l : List Ev) (h : ch ∉ l.filterMap token) :
    l.map (wt (put chan ch x)) = l.map (wt chan) := by
  apply List.map_congr_left
  intro e he
  cases e with
  | call id => rfl
  | free k => rfl
  | arrived k b =>
    have : k ≠ ch := by
      intro e
      subst e
      exact h (List.mem_filterMap.2 ⟨_, he, rfl⟩)
    simp only [wt, put_other _ _ _ _ this]

theorem start_weight (c : Cfg) (ch bytes id : Nat) (s : St) (h : ch ∉ s.evs.filterMap token) :
    weight (start c ch bytes id s) ≤ weight s + bytes + 2 := by
  unfold start
  split
  · simp only [weight, List.map_append, List.map_cons, List.map_nil, List.sum_append, List.sum_cons, List.sum_nil, wt]
    omega
  · simp only [weight, List.map_append, List.map_cons, List.map_nil, List.sum_append, List.sum_cons, List.sum_nil, wt_put _ _ _ _ h]
    simp only [wt, put_same]
    omega

theorem free_weight (c : Cfg) (ch : Nat) (s s' : St) (h : ch ∉ s.evs.filterMap token) (hx : channelFree c ch s = some s') :
    weight s' ≤ weight s := by
  unfold channelFree at hx
  split at hx
  · injection hx with hx
    subst hx
    exact Nat.le_refl _
  · rename_i b id rest hs
    injection hx with hx
    subst hx
    have := start_weight c ch b id { s with stalled := rest } h
    have h2 : weight s = weight { s with stalled := rest } + (b + 3) := by
      simp only [weight, hs, List.map_cons, List.sum_cons, wtW]; omega
    omega
  · cases hx

theorem exec_weight {c : Cfg} (hp : 0 < c.packet) {s s' : St} (h : InvX c s [] []) (hsm : ∀ p ∈ s.calls, p.2 < c.packet + 2 ^ 32)
    (hx : Exec c s s') : weight s' < weight s := by
  cases hx with
  | run pre post e hs hx =>
    have hw : weight s = weight { s with evs := pre ++ post } + wt s.chan e := by
      simp only [weight, hs, List.map_append, List.map_cons, List.sum_append, List.sum_cons]; omega
    have htok := h.toks
    rw [hs] at htok
    have htok := htok.trans (List.Perm.append_left _ (List.Perm.append_left _ (fm_perm token pre e post)))
    have hnd := htok.nodup_iff.1 List.nodup_range
    cases e with
    | call id =>
      simp only [exec] at hx
      injection hx with hx
      subst hx
      rw [hw]
      simp only [weight, wt]; omega
    | free ch =>
      simp only [token, Option.toList_some, List.nil_append, List.singleton_append] at hnd
      have hch : ch ∉ (pre ++ post).filterMap token := (List.nodup_cons.1 (List.nodup_append.1 hnd).2.1).1
      have := free_weight c ch _ _ hch hx
      rw [hw]
      simp only [wt]; omega
    | arrived ch b =>
      simp only [token, Option.toList_some, List.nil_append, List.singleton_append] at hnd
      have hch : ch ∉ (pre ++ post).filterMap token := (List.nodup_cons.1 (List.nodup_append.1 hnd).2.1).1
      obtain ⟨m1, m2, m3⟩ := h.arr ch b (by rw [hs]; simp)
      have hsm := hsm _ m1
      rw [if_pos hsm] at m3
      simp only [exec, dataArrived] at hx
      split at hx
      · have := free_weight c ch _ _ hch hx
        have h2 : weight { s with evs := pre ++ post, chan := put s.chan ch { s.chan ch with arrived := (s.chan ch).arrived + b }, done := (s.chan ch).id :: s.done } =
            weight { s with evs := pre ++ post } := by
          simp only [weight, wt_put _ _ _ _ hch]
        have := Nat.le_trans this (Nat.le_of_eq h2)
        rw [hw]
        simp only [wt]
        omega
      · rename_i hfin
        injection hx with hx
        subst hx
        rw [hw]
        have hmod : ((s.chan ch).total - ((s.chan ch).arrived + b)) % 2 ^ 32 = (s.chan ch).total - ((s.chan ch).arrived + b) :=
          Nat.mod_eq_of_lt (by omega)
        simp only [weight]
        rw [List.map_append (l₁ := pre ++ post), List.sum_append, wt_put _ _ _ _ hch]
        simp only [List.map_cons, List.map_nil, List.sum_cons, List.sum_nil, wt, put_same]
        omega

/-- A number of events run one after the other. -/
inductive Runs (c : Cfg) : Nat → St → St → Prop where
  | nil (s : St) : Runs c 0 s s
  | snoc {n : Nat} {s s' s'' : St} : Runs c n s s' → Exec c s' s'' → Runs c (n + 1) s s''

theorem exec_calls {c : Cfg} {s s' : St} (h : Exec c s s') : s'.calls = s.calls := by
  have hstart : ∀ (ch b id : Nat) (s : St), (start c ch b id s).calls = s.calls := by
    intro ch b id s; unfold start; split <;> rfl
  have hfree : ∀ (ch : Nat) (s s' : St), channelFree c ch s = some s' → s'.calls = s.calls := by
    intro ch s s' hx
    unfold channelFree at hx
    split at hx
    · injection hx with hx; subst hx; rfl
    · injection hx with hx; subst hx; rw [hstart]
    · cases hx
  cases h with
  | run pre post e hs hx =>
    cases e with
    | call id => simp only [exec] at hx; injection hx with hx; subst hx; rfl
    | free ch => exact hfree ch { s with evs := pre ++ post } s' hx
    | arrived ch b =>
      simp only [exec, dataArrived] at hx
      split at hx
      · exact hfree _ { s with evs := pre ++ post, chan := put s.chan ch { s.chan ch with arrived := (s.chan ch).arrived + b }, done := (s.chan ch).id :: s.done } _ hx
      · injection hx with hx; subst hx; rfl

/-- With flows only, all of fewer than `packet + 2^32` bytes: unless more is asked only a bounded
number of events can run; a scheduled event can run; and when none is left every callback has run.
Full property: for all sizes, and also with single requests. -/
theorem C114_pisces_completes_partial (c : Cfg) (hp : 0 < c.packet) (hn : 0 < c.channels) (s : St) (h : Reach c s)
    (hsm : ∀ p ∈ s.calls, p.2 < c.packet + 2 ^ 32) :
    (∃ bound, ∀ n s', Runs c n s s' → n ≤ bound) ∧
    (∀ e ∈ s.evs, ∃ s', Exec c s s') ∧
    (s.evs = [] → ∀ p ∈ s.calls, p.1 ∈ s.done) := by
  have hi := reach_inv h
  refine ⟨⟨weight s, ?_⟩, ?_, ?_⟩
  · have : ∀ n s', Runs c n s s' → InvX c s' [] [] ∧ s'.calls = s.calls ∧ n + weight s' ≤ weight s := by
      intro n s' hr
      induction hr with
      | nil => exact ⟨hi, rfl, by omega⟩
      | snoc _ hx ih =>
        obtain ⟨i1, i2, i3⟩ := ih h hsm hi
        have hw := exec_weight hp i1 (by rw [i2]; exact hsm) hx
        refine ⟨?_, (exec_calls hx).trans i2, by omega⟩
        cases hx with
        | run pre post e he hx =>
          obtain ⟨s', e1, e2⟩ := exec_spec i1 pre post e he
          rw [hx] at e1
          injection e1 with e1
          rw [e1]; exact e2
    intro n s' hr
    have := (this n s' hr).2.2
    omega
  · intro e he
    obtain ⟨pre, post, hs⟩ := List.append_of_mem he
    obtain ⟨s', e1, _⟩ := exec_spec hi pre post e hs
    exact ⟨s', .run pre post e hs e1⟩
  · intro hev p hpc
    have htok := hi.toks
    have hacc := hi.acc
    rw [hev] at htok hacc
    simp only [List.nil_append, List.filterMap_nil, List.append_nil] at htok hacc
    have hst : s.stalled = [] := by
      apply hi.idle
      intro ha
      rw [ha] at htok
      have := htok.length_eq
      simp at this; omega
    rw [hst] at hacc
    simp only [List.map_nil, List.append_nil] at hacc
    have : p.1 ∈ s.calls.map (·.1) := List.mem_map_of_mem (f := (·.1)) hpc
    rw [hi.ids, List.mem_reverse] at this
    exact hacc.mem_iff.1 this

/-- A flow of `packet + 2^32` bytes or more never ends, whatever else happens: its callback never
runs. -/
theorem C114_pisces_large_refuted (c : Cfg) (s : St) (h : Reach c s) (id bytes : Nat) (hc : (id, bytes) ∈ s.calls)
    (hb : c.packet + 2 ^ 32 ≤ bytes) : id ∉ s.done := by
  have hi := reach_inv h
  intro hd
  obtain ⟨b, h1, _, h3⟩ := hi.don id hd
  have hnd : (s.calls.map (·.1)).Nodup := by
    rw [hi.ids, List.Nodup, List.pairwise_reverse]
    exact List.nodup_range.imp fun a => Ne.symm a
  have : ∀ (l : List (Nat × Nat)), (l.map (·.1)).Nodup → (id, bytes) ∈ l → (id, b) ∈ l → bytes = b := by
    intro l
    induction l with
    | nil => intro _ h; simp at h
    | cons q l ih =>
      intro hn h1 h2
      rw [List.map_cons, List.nodup_cons] at hn
      rcases List.mem_cons.1 h1 with h1 | h1
      · rcases List.mem_cons.1 h2 with h2 | h2
        · rw [← h1] at h2; injection h2 with _ h2; exact h2.symm
        · exact absurd (by rw [← h1]; exact List.mem_map_of_mem (f := (·.1)) h2) hn.1
      · rcases List.mem_cons.1 h2 with h2 | h2
        · exact absurd (by rw [← h2]; exact List.mem_map_of_mem (f := (·.1)) h1) hn.1
        · exact ih hn.2 h1 h2
  have := this s.calls hnd hc h1
  omega

/-- Single requests one after the other. -/
def requests (c : Cfg) (bytes : Nat) : Nat → St → Option St
  | 0, s => some s
  | n + 1, s => (accessRequest c bytes s).bind (requests c bytes n)

theorem requests_spec (c : Cfg) (bytes : Nat) (hb : bytes ≤ c.packet) (n : Nat) : ∀ (s : St), s.avail.length = n →
    (∀ e ∈ s.evs, ∃ id, e = .call id ∧ id < s.nextId) → (∀ id ∈ s.done, id < s.nextId) →
    ∃ s', requests c bytes n s = some s' ∧ s'.avail = [] ∧ s'.nextId = s.nextId + n ∧
      (∀ e ∈ s'.evs, ∃ id, e = .call id ∧ id < s'.nextId) ∧ ∀ id ∈ s'.done, id < s'.nextId := by
  induction n with
  | zero => intro s hl he hd; exact ⟨s, rfl, by simpa using hl, rfl, he, hd⟩
  | succ n ih =>
    intro s hl he hd
    cases ha : s.avail with
    | nil => rw [ha] at hl; simp at hl
    | cons ch avail =>
      have hreq : accessRequest c bytes s = some { s with nextId := s.nextId + 1, calls := (s.nextId, bytes) :: s.calls, avail := avail, evs := s.evs ++ [.call s.nextId], started := s.nextId :: s.started, moved := put s.moved s.nextId (s.moved s.nextId + bytes) } := by
        unfold accessRequest
        rw [if_neg (by omega), ha]
      obtain ⟨s', e1, e2, e3, e4, e5⟩ := ih { s with nextId := s.nextId + 1, calls := (s.nextId, bytes) :: s.calls, avail := avail, evs := s.evs ++ [.call s.nextId], started := s.nextId :: s.started, moved := put s.moved s.nextId (s.moved s.nextId + bytes) }
        (by rw [ha] at hl; simpa using hl)
        (by
          intro e hem
          rcases List.mem_append.1 hem with hem | hem
          · obtain ⟨id, h1, h2⟩ := he e hem
            exact ⟨id, h1, Nat.lt_succ_of_lt h2⟩
          · exact ⟨s.nextId, List.mem_singleton.1 hem, Nat.lt_succ_self _⟩)
        (fun id hid => Nat.lt_succ_of_lt (hd id hid))
      refine ⟨s', ?_, e2, ?_, e4, e5⟩
      · rw [requests, hreq]; exact e1
      · rw [e3]
        show s.nextId + 1 + n = s.nextId + (n + 1)
        omega

/-- As many single requests as there are channels stop the memory for good: no later access, flow or
request, ever ends, whatever happens. -/
theorem C114_pisces_requests_refuted (c : Cfg) (bytes : Nat) (hb : bytes ≤ c.packet) :
    ∃ s0, requests c bytes c.channels (St.init c) = some s0 ∧ s0.nextId = c.channels ∧
      ∀ s, After c s0 s → ∀ id, c.channels ≤ id → id ∉ s.done := by
  obtain ⟨s0, e1, e2, e3, e4, e5⟩ := requests_spec c bytes hb c.channels (St.init c) (by simp [St.init]) (by simp [St.init]) (by simp [St.init])
  have e3 : s0.nextId = c.channels := by rw [e3]; simp [St.init]
  refine ⟨s0, e1, e3, ?_⟩
  rw [e3] at e4 e5
  have key : ∀ s, After c s0 s → s.avail = [] ∧ (∀ e ∈ s.evs, ∃ id, e = .call id ∧ id < c.channels) ∧ ∀ id ∈ s.done, id < c.channels := by
    intro s hs
    induction hs with
    | refl => exact ⟨e2, e4, e5⟩
    | flow b _ ih =>
      obtain ⟨i1, i2, i3⟩ := ih
      unfold accessFlow
      rw [i1]
      exact ⟨rfl, i2, i3⟩
    | request b _ hx ih =>
      obtain ⟨i1, i2, i3⟩ := ih
      unfold accessRequest at hx
      rw [i1] at hx
      dsimp only at hx
      split at hx
      · cases hx
      · injection hx with hx
        subst hx
        exact ⟨rfl, i2, i3⟩
    | exec _ hx ih =>
      obtain ⟨i1, i2, i3⟩ := ih
      cases hx with
      | run pre post e hs hx =>
        obtain ⟨id, he, hlt⟩ := i2 e (by rw [hs]; simp)
        subst he
        simp only [exec] at hx
        injection hx with hx
        subst hx
        refine ⟨i1, ?_, ?_⟩
        · intro e he
          apply i2
          rw [hs]
          rcases List.mem_append.1 he with he | he
          · exact List.mem_append_left _ he
          · exact List.mem_append_right _ (List.mem_cons_of_mem _ he)
        · intro i hi
          rcases List.mem_cons.1 hi with rfl | hi
          · exact hlt
          · exact i3 i hi
  intro s hs id hid hd
  have := (key s hs).2.2 id hd
  omega

/-! ### Runs -/

/-- One channel, packets of four bytes. -/
def cfg0 : Cfg := ⟨1, 4⟩

/-- A flow of ten bytes, and one of three that waits: pieces of 4, 4 and 2 bytes, then the second
flow gets the channel. -/
example : ∃ s, Reach cfg0 s ∧ s.done = [0] ∧ s.started = [1, 0] ∧ s.evs = [.call 1, .free 0] ∧ s.calls = [(1, 3), (0, 10)] ∧ s.moved 0 = 10 := by
  refine ⟨_, .exec (.exec (.exec (.flow 3 (.flow 10 .init))
    (.run [] [] (.arrived 0 4) rfl rfl))
    (.run [] [] (.arrived 0 4) rfl rfl))
    (.run [] [] (.arrived 0 2) rfl rfl), rfl, rfl, rfl, rfl, rfl⟩

/-- The same to the end. -/
example : ∃ s, Reach cfg0 s ∧ s.evs = [] ∧ s.calls = [(1, 3), (0, 10)] ∧ s.done = [1, 0] := by
  refine ⟨_, .exec (.exec (.exec (.exec (.exec (.flow 3 (.flow 10 .init))
    (.run [] [] (.arrived 0 4) rfl rfl))
    (.run [] [] (.arrived 0 4) rfl rfl))
    (.run [] [] (.arrived 0 2) rfl rfl))
    (.run [] [.free 0] (.call 1) rfl rfl))
    (.run [] [] (.free 0) rfl rfl), rfl, rfl, rfl⟩

/-- A flow of 2^32 + 4 bytes: after the first packet, pieces of no bytes. -/
example : ∃ s, Reach cfg0 s ∧ s.evs = [.arrived 0 0] ∧ s.calls = [(0, 4294967300)] ∧ (s.chan 0).arrived = 4 := by
  exact ⟨_, .exec (.exec (.flow 4294967300 .init) (.run [] [] (.arrived 0 4) rfl rfl)) (.run [] [] (.arrived 0 0) rfl rfl), rfl, rfl, rfl⟩

end SST.Mem.Pisces
