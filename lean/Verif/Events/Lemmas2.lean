import Verif.Events.Lemmas
/-! Insertion-order independence and per-link order. -/
namespace SST.Events
variable {S P : Type}

/-- same position in the order -/
def SameKey (a b : Event P) : Prop := a.time = b.time ∧ a.link = b.link ∧ a.seq = b.seq

theorem sameKey_iff (a b : Event P) : SameKey a b ↔ (a.lt b = false ∧ b.lt a = false) := by
  constructor
  · rintro ⟨h1, h2, h3⟩
    constructor
    · cases h : a.lt b
      · rfl
      · rw [lt_iff] at h; omega
    · cases h : b.lt a
      · rfl
      · rw [lt_iff] at h; omega
  · rintro ⟨h1, h2⟩
    exact key_eq (by simp [h1]) (by simp [h2])

theorem insert_dup {e : Event P} {q : List (Event P)} (hq : Sorted q)
    (h : ∃ x ∈ q, SameKey e x) : insert e q = q := by
  obtain ⟨x, hx, hk⟩ := h
  induction q with
  | nil => simp at hx
  | cons y ys ih =>
    rw [Sorted, List.pairwise_cons] at hq
    simp only [insert]
    rcases List.mem_cons.1 hx with rfl | hx
    · rw [sameKey_iff] at hk; simp [hk]
    · have h1 := hq.1 x hx
      have h2 : y.lt e = true := by
        rw [lt_iff] at *; obtain ⟨a, b, c⟩ := hk; omega
      have h3 : ¬ e.lt y = true := fun h => lt_asymm h h2
      simp [h2, h3, ih hq.2 hx]

theorem insert_fresh {e : Event P} {q : List (Event P)}
    (h : ∀ x ∈ q, ¬ SameKey e x) : (insert e q).Perm (e :: q) := by
  rcases insert_cases e q with ⟨_, x, hx, h1, h2⟩ | h1
  · exact absurd ((sameKey_iff e x).2 ⟨h2, h1⟩) (h x hx)
  · exact h1

theorem schedule_true_iff {m m' : Mgr P} {e : Event P} (hq : Sorted m.queue) :
    schedule true m e = some m' ↔
      m.now ≤ e.time ∧ (∀ x ∈ m.queue, ¬ SameKey e x) ∧ m' = { m with queue := insert e m.queue } := by
  constructor
  · intro h
    obtain ⟨h1, h2, h3⟩ := schedule_true h
    refine ⟨h1, ?_, h2⟩
    intro x hx hk
    have := insert_dup hq ⟨x, hx, hk⟩
    rw [this] at h3
    have := h3.length_eq
    simp at this
  · rintro ⟨h1, h2, h3⟩
    have h4 := (insert_fresh h2).length_eq
    simp only [List.length_cons] at h4
    unfold schedule
    have : ¬ e.time < m.now := by omega
    simp [this, h4, h3]

theorem insert_comm {a b : Event P} {q : List (Event P)} (hq : Sorted q) (hab : ¬ SameKey a b)
    (ha : ∀ x ∈ q, ¬ SameKey a x) (hb : ∀ x ∈ q, ¬ SameKey b x) :
    insert a (insert b q) = insert b (insert a q) := by
  apply sorted_ext (insert_sorted (insert_sorted hq)) (insert_sorted (insert_sorted hq))
  have p1 : (insert a (insert b q)).Perm (a :: b :: q) := by
    refine (insert_fresh ?_).trans ((insert_fresh hb).cons _)
    intro x hx
    rcases mem_of_mem_insert hx with rfl | hx
    · exact hab
    · exact ha x hx
  have p2 : (insert b (insert a q)).Perm (b :: a :: q) := by
    refine (insert_fresh ?_).trans ((insert_fresh ha).cons _)
    intro x hx
    rcases mem_of_mem_insert hx with rfl | hx
    · intro h; exact hab ⟨h.1.symm, h.2.1.symm, h.2.2.symm⟩
    · exact hb x hx
  intro x
  rw [p1.mem_iff, p2.mem_iff]
  simp only [List.mem_cons]
  constructor <;> (intro h; rcases h with h | h | h <;> simp [h])

/-- schedule a list of events in order -/
def fill (sanity : Bool) (m : Mgr P) : List (Event P) → Option (Mgr P)
  | [] => some m
  | e :: es =>
    match schedule sanity m e with
    | none => none
    | some m' => fill sanity m' es

theorem fill_true_perm {l1 l2 : List (Event P)} (hp : l1.Perm l2) {m y : Mgr P} (hq : Sorted m.queue)
    (h : fill true m l1 = some y) : fill true m l2 = some y := by
  induction hp generalizing m with
  | nil => exact h
  | cons x _ ih =>
    simp only [fill] at h ⊢
    split at h
    · cases h
    · rename_i m' hm
      exact ih (by rw [(schedule_true hm).2.1]; exact insert_sorted hq) h
  | swap a b l =>
    simp only [fill] at h ⊢
    split at h
    · cases h
    · rename_i m1 hm1
      split at h
      · cases h
      · rename_i m2 hm2
        rw [schedule_true_iff hq] at hm1
        obtain ⟨hb1, hb2, rfl⟩ := hm1
        rw [schedule_true_iff (insert_sorted hq)] at hm2
        obtain ⟨ha1, ha2, rfl⟩ := hm2
        simp only at ha2
        have hba : ¬ SameKey a b := ha2 b ((insert_fresh hb2).mem_iff.2 (List.mem_cons_self ..))
        have haq : ∀ x ∈ m.queue, ¬ SameKey a x := fun x hx => ha2 x (mem_insert_of_mem hx)
        have e1 : schedule true m a = some { m with queue := insert a m.queue } :=
          (schedule_true_iff hq).2 ⟨ha1, haq, rfl⟩
        rw [e1]
        have e2 : schedule true { m with queue := insert a m.queue } b =
            some { m with queue := insert b (insert a m.queue) } := by
          refine (schedule_true_iff (insert_sorted hq)).2 ⟨hb1, ?_, rfl⟩
          intro x hx
          rcases mem_of_mem_insert hx with rfl | hx
          · intro h; exact hba ⟨h.1.symm, h.2.1.symm, h.2.2.symm⟩
          · exact hb2 x hx
        simp only [e2]
        rw [insert_comm hq hba haq hb2] at h
        exact h
  | trans _ _ ih1 ih2 => exact ih2 hq (ih1 hq h)

/-- a fold of `sched` operations is `fill` on the manager -/
theorem ops_fill {h : Handler S P} {s : Bool} {l : List (Event P)} {x y : Exec S P} :
    doOps s h x (l.map Op.sched) = some y →
      fill s x.mgr l = some y.mgr ∧ y.user = x.user ∧ y.trace = x.trace := by
  induction l generalizing x with
  | nil => simp [doOps, fill]; rintro rfl; simp
  | cons e es ih =>
    intro hr
    simp only [List.map_cons, doOps, doOp, doAct] at hr
    split at hr
    · cases hr
    · rename_i z hz
      split at hz
      · cases hz
      · rename_i m hm
        cases hz
        have := ih hr
        simp only [fill, hm]
        exact this

theorem fill_ops {h : Handler S P} {s : Bool} {l : List (Event P)} {x : Exec S P} {m : Mgr P}
    (hf : fill s x.mgr l = some m) :
    ∃ y, doOps s h x (l.map Op.sched) = some y ∧ y.mgr = m ∧ y.user = x.user ∧ y.trace = x.trace := by
  induction l generalizing x with
  | nil => simp [fill] at hf; exact ⟨x, rfl, hf, rfl, rfl⟩
  | cons e es ih =>
    simp only [fill] at hf
    split at hf
    · cases hf
    · rename_i m1 hm1
      obtain ⟨y, h1, h2, h3, h4⟩ :=
        ih (x := { x with mgr := m1, calls := x.calls ++ [(x.mgr.now, e)] }) hf
      refine ⟨y, ?_, h2, h3, h4⟩
      simp only [List.map_cons, doOps, doOp, doAct, hm1]
      exact h1

/-- equal up to the ghost log of calls -/
def Same (x y : Exec S P) : Prop := x.mgr = y.mgr ∧ x.user = y.user ∧ x.trace = y.trace

theorem same_act {s : Bool} {x y x' : Exec S P} {a : Act P} (hs : Same x y)
    (h : doAct s x a = some x') : ∃ y', doAct s y a = some y' ∧ Same x' y' := by
  obtain ⟨h1, h2, h3⟩ := hs
  cases a with
  | schedule e =>
    simp only [doAct] at h ⊢
    rw [← h1]
    split at h
    · cases h
    · cases h
      exact ⟨_, rfl, rfl, h2, h3⟩
  | remote e => simp only [doAct] at h ⊢; cases h; rw [← h1]; exact ⟨_, rfl, rfl, h2, h3⟩
  | stop => simp only [doAct] at h ⊢; cases h; rw [← h1]; exact ⟨_, rfl, rfl, h2, h3⟩

theorem same_acts {s : Bool} {as : List (Act P)} {x y x' : Exec S P} (hs : Same x y)
    (h : doActs s x as = some x') : ∃ y', doActs s y as = some y' ∧ Same x' y' := by
  induction as generalizing x y with
  | nil => simp [doActs] at h ⊢; exact h ▸ hs
  | cons a as ih =>
    simp only [doActs] at h
    split at h
    · cases h
    · rename_i z hz
      obtain ⟨w, hw, hs'⟩ := same_act hs hz
      obtain ⟨y', h1, h2⟩ := ih hs' h
      exact ⟨y', by simp [doActs, hw, h1], h2⟩

theorem same_op {s : Bool} {h : Handler S P} {o : Op P} {x y x' : Exec S P} (hs : Same x y)
    (hr : doOp s h x o = some x') : ∃ y', doOp s h y o = some y' ∧ Same x' y' := by
  cases o with
  | sched e => exact same_act (a := .schedule e) hs hr
  | enter =>
    simp [doOp] at hr ⊢; subst hr
    exact ⟨by simp [hs.1], hs.2.1, hs.2.2⟩
  | tick hz =>
    simp only [doOp, step] at hr ⊢
    rw [← hs.1]
    split at hr
    · rename_i h1
      cases hr
      refine ⟨y, ?_, hs⟩
      split at h1
      · rfl
      · split at h1
        · cases h1
        · split at h1
          · rename_i h2 h3; simp [h2, h3]
          · split at h1 <;> cases h1
    · cases hr
    · rename_i z h1
      cases hr
      split at h1
      · cases h1
      · rename_i e q hq
        split at h1
        · cases h1
        · rename_i h2
          split at h1
          · cases h1
          · rename_i h3
            split at h1
            · cases h1
            · rename_i w hw
              cases h1
              rw [← hs.2.1, ← hs.2.2]
              obtain ⟨y', hy, hsy⟩ := same_acts (y := ⟨{ x.mgr with now := e.time, queue := q },
                (h x.user e).1, x.trace ++ [e], y.calls⟩) (x := ⟨{ x.mgr with now := e.time, queue := q },
                (h x.user e).1, x.trace ++ [e], x.calls⟩) ⟨rfl, rfl, rfl⟩ hw
              refine ⟨y', ?_, hsy⟩
              simp only [if_neg h2, if_neg h3, hy]

theorem same_ops {s : Bool} {h : Handler S P} {ops : List (Op P)} {x y x' : Exec S P} (hs : Same x y)
    (hr : doOps s h x ops = some x') : ∃ y', doOps s h y ops = some y' ∧ Same x' y' := by
  induction ops generalizing x y with
  | nil => simp [doOps] at hr ⊢; exact hr ▸ hs
  | cons o os ih =>
    simp only [doOps] at hr
    split at hr
    · cases hr
    · rename_i z hz
      obtain ⟨w, hw, hs'⟩ := same_op hs hz
      obtain ⟨y', h1, h2⟩ := ih hs' hr
      exact ⟨y', by simp [doOps, hw, h1], h2⟩

/-! ### order on one link -/

/-- the events of link `l` -/
abbrev onLink (l : Nat) (q : List (Event P)) : List (Event P) := q.filter (fun e => e.link == l)

theorem onLink_insert_other {l : Nat} {e : Event P} (h : e.link ≠ l) (q : List (Event P)) :
    onLink l (insert e q) = onLink l q := by
  induction q with
  | nil => simp [insert, onLink, h]
  | cons y ys ih =>
    simp only [insert]
    split
    · simp [onLink, h]
    · split
      · simp only [onLink, List.filter_cons] at ih ⊢; rw [ih]
      · rfl

theorem onLink_insert_last {l : Nat} {e : Event P} {q : List (Event P)} (h : e.link = l)
    (hq : Sorted q) (hlast : ∀ x ∈ onLink l q, x.lt e = true) :
    onLink l (insert e q) = onLink l q ++ [e] := by
  induction q with
  | nil => simp [insert, onLink, h]
  | cons y ys ih =>
    rw [Sorted, List.pairwise_cons] at hq
    have hsub : ∀ x ∈ onLink l ys, x.lt e = true := by
      intro x hx
      apply hlast
      simp only [onLink, List.filter_cons]
      split
      · exact List.mem_cons_of_mem _ hx
      · exact hx
    simp only [insert]
    split
    · rename_i hlt
      have hnone : onLink l (y :: ys) = [] := by
        apply List.filter_eq_nil_iff.2
        intro x hx hxl
        have hxe : x.lt e = true := hlast x (List.mem_filter.2 ⟨hx, hxl⟩)
        rcases List.mem_cons.1 hx with rfl | hx
        · exact lt_asymm hlt hxe
        · exact lt_asymm (lt_trans hlt (hq.1 x hx)) hxe
      have : onLink l (e :: y :: ys) = e :: onLink l (y :: ys) := by
        simp [onLink, List.filter_cons, h]
      rw [this, hnone]; rfl
    · split
      · simp only [onLink, List.filter_cons] at ih ⊢
        rw [ih hq.2 hsub]
        split <;> simp
      · rename_i h1 h2
        have hk := key_eq (a := e) (b := y) (by simpa using h1) (by simpa using h2)
        have : y ∈ onLink l (y :: ys) := List.mem_filter.2 ⟨List.mem_cons_self .., by simp [← hk.2.1, h]⟩
        exact absurd (hlast y this) h2

/-- a per-link invariant: `n` sends so far on the link with port `i`, whose 32-bit id is `l` -/
structure LinkInv (i l : Nat) (x : Exec (S × (Nat → Link)) P) : Prop where
  sorted : Sorted x.mgr.queue
  id : (x.user.2 i).id % 2^32 = l
  other : ∀ j, j ≠ i → (x.user.2 j).id % 2^32 ≠ l
  counter : (x.user.2 i).seq = (onLink l (x.calls.map (·.2))).length % 2^32
  numbered : (onLink l (x.calls.map (·.2))).length ≤ 2^32 →
    ∀ (k : Nat) (e : Event P), (onLink l (x.calls.map (·.2)))[k]? = some e → e.seq = k
  split : (onLink l (x.calls.map (·.2))).length ≤ 2^32 →
    (onLink l (x.calls.map (·.2))).Pairwise (fun a b => a.time ≤ b.time) →
    onLink l (x.calls.map (·.2)) = onLink l x.trace ++ onLink l x.mgr.queue

theorem linkInv_send {s : Bool} {i l : Nat} {x y : Exec (S × (Nat → Link)) P} {u : S}
    {now : Nat} {snd : Send P} (hx : LinkInv i l x)
    (h : doAct s { x with user := (u, fun j => if j = snd.port
            then ((x.user.2 snd.port).send now snd.delay snd.payload).2 else x.user.2 j) }
          (.schedule ((x.user.2 snd.port).send now snd.delay snd.payload).1) = some y) :
    LinkInv i l y := by
  simp only [doAct] at h
  split at h
  · cases h
  · rename_i m hm
    have hm := schedule_some hm
    cases h
    subst hm
    by_cases hp : snd.port = i
    · -- on our link
      subst hp
      have he : ((x.user.2 snd.port).send now snd.delay snd.payload).1.link = l := by
        simpa [Link.send] using hx.id
      have hcalls : onLink l ((x.calls ++ [(x.mgr.now, ((x.user.2 snd.port).send now snd.delay snd.payload).1)]).map (·.2))
          = onLink l (x.calls.map (·.2)) ++ [((x.user.2 snd.port).send now snd.delay snd.payload).1] := by
        simp [onLink, List.filter_append, he]
      have hseq : ((x.user.2 snd.port).send now snd.delay snd.payload).1.seq
          = (onLink l (x.calls.map (·.2))).length % 2^32 := by
        rw [← hx.counter]; rfl
      constructor
      · exact insert_sorted hx.sorted
      · simpa [Link.send] using hx.id
      · intro j hj; simpa [hj] using hx.other j hj
      · rw [hcalls]
        simp only [if_true, List.length_append, List.length_singleton]
        simp only [Link.send, hx.counter]
        omega
      · rw [hcalls]
        intro hlen k e hk
        simp only [List.length_append, List.length_singleton] at hlen
        rw [List.getElem?_append] at hk
        split at hk
        · exact hx.numbered (by omega) k e hk
        · rw [List.getElem?_singleton] at hk
          split at hk
          · cases hk
            rw [hseq, Nat.mod_eq_of_lt (by omega)]; omega
          · cases hk
      · rw [hcalls]
        intro hlen hpw
        simp only [List.length_append, List.length_singleton] at hlen
        rw [List.pairwise_append] at hpw
        have hsp := hx.split (by omega) hpw.1
        rw [onLink_insert_last he hx.sorted, hsp, List.append_assoc]
        intro z hz
        have hz' : z ∈ onLink l (x.calls.map (·.2)) := by
          rw [hsp]; exact List.mem_append_right _ hz
        obtain ⟨k, hk, hkz⟩ := List.mem_iff_getElem.1 hz'
        have h1 := hx.numbered (by omega) k z (by rw [List.getElem?_eq_getElem hk, hkz])
        have h2 := hpw.2.2 z hz' _ (List.mem_singleton.2 rfl)
        have h3 : z.link = l := by simpa using (List.mem_filter.1 hz').2
        rw [lt_iff]
        rw [hseq, he, Nat.mod_eq_of_lt (by omega)]
        omega
    · have he : ((x.user.2 snd.port).send now snd.delay snd.payload).1.link ≠ l := by
        simpa [Link.send] using hx.other snd.port hp
      have hcalls : onLink l ((x.calls ++ [(x.mgr.now, ((x.user.2 snd.port).send now snd.delay snd.payload).1)]).map (·.2))
          = onLink l (x.calls.map (·.2)) := by
        simp [onLink, List.filter_append, he]
      have hip : i ≠ snd.port := fun h => hp h.symm
      constructor
      · exact insert_sorted hx.sorted
      · simpa [hip] using hx.id
      · intro j hj
        by_cases hj2 : j = snd.port
        · subst hj2; simpa [Link.send] using hx.other _ hj
        · simpa [hj2] using hx.other j hj
      · rw [hcalls]; simpa [hip] using hx.counter
      · rw [hcalls]; exact hx.numbered
      · rw [hcalls, onLink_insert_other he]; exact hx.split

theorem linkInv_user {i l : Nat} {x : Exec (S × (Nat → Link)) P} (u : S) (hx : LinkInv i l x) :
    LinkInv i l { x with user := (u, x.user.2) } :=
  ⟨hx.1, hx.2, hx.3, hx.4, hx.5, hx.6⟩

theorem linkInv_sends {s : Bool} {i l : Nat} {ss : List (Send P)} {now : Nat}
    {x y : Exec (S × (Nat → Link)) P} {u : S} (hx : LinkInv i l x)
    (h : doActs s { x with user := (u, (sendAll now x.user.2 ss).1) } (sendAll now x.user.2 ss).2 = some y) :
    LinkInv i l y := by
  induction ss generalizing x with
  | nil => simp [sendAll, doActs] at h; subst h; exact linkInv_user u hx
  | cons a ss ih =>
    simp only [sendAll, doActs] at h
    split at h
    · cases h
    · rename_i z hz
      -- the state with the links advanced only by this send
      have hz2 : ∃ z', doAct s { x with user := (u, fun j => if j = a.port
            then ((x.user.2 a.port).send now a.delay a.payload).2 else x.user.2 j) }
          (.schedule ((x.user.2 a.port).send now a.delay a.payload).1) = some z' ∧
          z'.mgr = z.mgr ∧ z'.trace = z.trace ∧ z'.calls = z.calls ∧
          z'.user = (u, fun j => if j = a.port
            then ((x.user.2 a.port).send now a.delay a.payload).2 else x.user.2 j) := by
        simp only [doAct] at hz ⊢
        split at hz
        · cases hz
        · rename_i m hm
          cases hz
          simp only
          exact ⟨_, rfl, rfl, rfl, rfl, rfl⟩
      obtain ⟨z', hz', h1, h2, h3, h4⟩ := hz2
      have hinv := linkInv_send hx hz'
      apply ih hinv
      rw [h1, h2, h3]
      have hzu : z.user = (u, (sendAll now (fun j => if j = a.port
            then ((x.user.2 a.port).send now a.delay a.payload).2 else x.user.2 j) ss).1) := by
        simp only [doAct] at hz
        split at hz
        · cases hz
        · cases hz; rfl
      have : (⟨z.mgr, (u, (sendAll now z'.user.2 ss).1), z.trace, z.calls⟩ : Exec (S × (Nat → Link)) P) = z := by
        rw [h4, ← hzu]
      rw [this, h4]
      exact h

theorem linkInv_ops {s : Bool} {prog : LinkProgram S P} {i l : Nat} {ops : List (LOp P)}
    {x y : Exec (S × (Nat → Link)) P} (hx : LinkInv i l x)
    (h : doLOps s prog x ops = some y) : LinkInv i l y := by
  induction ops generalizing x with
  | nil => simp [doLOps] at h; exact h ▸ hx
  | cons o os ih =>
    simp only [doLOps] at h
    split at h
    · cases h
    · rename_i z hz
      refine ih ?_ h
      cases o with
      | send sn => simp only [doLOp] at hz; exact linkInv_sends hx hz
      | enter => simp [doLOp, doOp] at hz; subst hz; exact ⟨hx.1, hx.2, hx.3, hx.4, hx.5, hx.6⟩
      | tick t =>
        simp only [doLOp, doOp, step] at hz
        split at hz
        · cases hz; exact hx
        · cases hz
        · rename_i w hw
          cases hz
          split at hw
          · cases hw
          · rename_i e q hq
            split at hw
            · cases hw
            · split at hw
              · cases hw
              · split at hw
                · cases hw
                · rename_i v hv
                  cases hw
                  simp only [linkHandler] at hv
                  have hsorted := hx.sorted
                  rw [hq, Sorted, List.pairwise_cons] at hsorted
                  refine linkInv_sends (x := ⟨{ x.mgr with now := e.time, queue := q }, x.user,
                    x.trace ++ [e], x.calls⟩) ?_ hv
                  refine ⟨hsorted.2, hx.2, hx.3, hx.4, hx.5, ?_⟩
                  intro h1 h2
                  rw [hx.split h1 h2, hq]
                  simp only [onLink, List.filter_append, List.filter_cons, List.filter_nil]
                  split <;> simp

end SST.Events
