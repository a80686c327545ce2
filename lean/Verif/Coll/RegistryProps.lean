import Verif.Coll.Registry
/-
C144: a call of a collective completes exactly when it was made and its messages arrived, in any
order.
-/
set_option autoImplicit false
namespace SST.Coll.Registry

/-! ### Specification -/

/-- The calls of a history. -/
def calls : List Op → List (Nat × List Phase)
  | [] => []
  | .call id ch :: ops => (id, ch) :: calls ops
  | .arrive _ _ :: ops => calls ops

/-- The messages that arrived with a type and tag, in order. -/
def arrived (k : Key) : List Op → List Msg
  | [] => []
  | .call _ _ :: ops => arrived k ops
  | .arrive k' m :: ops => if k' = k then m :: arrived k ops else arrived k ops

/-- The types and tags of a call. -/
def keys (c : Nat × List Phase) : List Key := c.2.map (·.key)

/-- The messages that were delivered with a type and tag, in order. -/
def delivered (k : Key) (log : List (Nat × Key × Nat)) : List Nat :=
  log.filterMap (fun e => if e.2.1 = k then some e.2.2 else none)

/-- How the interface is to be used: no two collectives have the same type and tag, every
collective needs a message, more messages do not undo completion, and messages name the rank
of the caller. -/
structure Proper (ops : List Op) : Prop where
  keys : ((calls ops).flatMap keys).Nodup
  ids : ((calls ops).map (·.1)).Nodup
  some : ∀ c ∈ calls ops, ∀ p ∈ c.2, p.need [] = false
  mono : ∀ c ∈ calls ops, ∀ p ∈ c.2, ∀ l m, p.need l = true → p.need (l ++ [m]) = true
  rank : ∀ c ∈ calls ops, ∀ p ∈ c.2, ∀ m ∈ arrived p.key ops, m.1 = p.rank

/-! ### A collective with one actor -/

/-- A collective with one actor that got `g`. -/
def single (id : Nat) (p : Phase) (g : List Nat) (subs : List Phase) : Coll :=
  ⟨[⟨id, p.rank, p.need, g⟩], [], if p.need g then [] else [p.rank], subs⟩

theorem recv_single (id : Nat) (p : Phase) (g : List Nat) (subs : List Phase) (m : Msg) (hr : m.1 = p.rank)
    (hm : ∀ l m, p.need l = true → p.need (l ++ [m]) = true) :
    (single id p g subs).recv m
      = ⟨single id p (g ++ [m.2]) subs, if p.need (g ++ [m.2]) then some id else none, some id⟩ := by
  unfold Coll.recv single
  have h1 : decide (p.rank = m.1) = true := by simp [hr]
  simp only [List.find?_cons, h1, List.map_cons, List.map_nil, if_pos hr.symm]
  cases h : p.need (g ++ [m.2]) with
  | true =>
    cases h' : p.need g with
    | true => simp
    | false => simp [Coll.actorDone, hr]
  | false =>
    cases h' : p.need g with
    | true => rw [hm g m.2 h'] at h; cases h
    | false => simp

theorem need_append {need : List Nat → Bool} (hm : ∀ l m, need l = true → need (l ++ [m]) = true) (l : List Nat) :
    ∀ r, need l = true → need (l ++ r) = true := by
  intro r
  induction r generalizing l with
  | nil => intro h; simpa using h
  | cons x r ih =>
    intro h
    have := ih (l ++ [x]) (hm l x h)
    simpa using this

theorem feed_single (k : Key) (id : Nat) (p : Phase) (subs : List Phase)
    (hm : ∀ l m, p.need l = true → p.need (l ++ [m]) = true) (ms : List Msg) :
    ∀ (g : List Nat) (d : Option Nat) (l : List (Nat × Key × Nat)), (∀ m ∈ ms, m.1 = p.rank) →
      feed k ms (single id p g subs) d l
        = (single id p (g ++ ms.map (·.2)) subs,
           if ms = [] then d else if p.need (g ++ ms.map (·.2)) then some id else none,
           l ++ ms.map (fun m => (id, k, m.2))) := by
  induction ms with
  | nil => intro g d l _; simp [feed]
  | cons m ms ih =>
    intro g d l hr
    simp only [feed]
    rw [recv_single id p g subs m (hr m List.mem_cons_self) hm]
    simp only
    rw [ih _ _ _ (fun m' h' => hr m' (List.mem_cons_of_mem _ h'))]
    by_cases h : ms = []
    · subst h; simp
    · simp [h]

theorem fresh_single (id : Nat) (p : Phase) (subs : List Phase) (h0 : p.need [] = false) :
    fresh id p subs = single id p [] subs := by
  simp [fresh, single, h0]

/-! ### Starting a list of collectives -/

/-- Where a call is: a first part that is complete, a collective that runs, and others to come. -/
def Stage (A : Key → List Msg) (w : World) (id : Nat) (ch : List Phase) (fin : Prop) : Prop :=
  ∃ a b, ch = a ++ b
    ∧ (∀ p ∈ a, p.need ((A p.key).map (·.2)) = true ∧ w.active p.key = none)
    ∧ match b with
      | [] => fin
      | p :: tl => ¬ fin ∧ w.active p.key = some (single id p ((A p.key).map (·.2)) tl)
          ∧ p.need ((A p.key).map (·.2)) = false ∧ w.pend p.key = []
          ∧ ∀ q ∈ tl, w.active q.key = none ∧ w.pend q.key = A q.key

theorem set_same {β : Type} (f : Key → β) (k : Key) (v : β) : set f k v k = v := by simp [set]

theorem set_ne {β : Type} (f : Key → β) (k k' : Key) (v : β) (h : k' ≠ k) : set f k v k' = f k' := by simp [set, h]

theorem delivered_append (k : Key) (a b : List (Nat × Key × Nat)) :
    delivered k (a ++ b) = delivered k a ++ delivered k b := by simp [delivered]

theorem delivered_same (k : Key) (id : Nat) (ms : List Msg) :
    delivered k (ms.map (fun m => (id, k, m.2))) = ms.map (·.2) := by
  induction ms with
  | nil => rfl
  | cons m ms ih => simp only [delivered] at ih; simp [delivered, ih]

theorem delivered_other (k k' : Key) (id : Nat) (ms : List Msg) (h : k' ≠ k) :
    delivered k (ms.map (fun m => (id, k', m.2))) = [] := by
  induction ms with
  | nil => rfl
  | cons m ms ih => simp only [delivered] at ih; simp [delivered, ih, h]

/-- The result of starting a list of collectives none of which runs. -/
structure Started (A : Key → List Msg) (w : World) (id : Nat) (ch : List Phase) (r : World × Option Nat) : Prop where
  stage : Stage A r.1 id ch (r.2 = some id)
  answer : r.2 = none ∨ r.2 = some id
  reports : r.1.reports = w.reports
  active : ∀ k, k ∉ ch.map (·.key) → r.1.active k = w.active k
  pend : ∀ k, k ∉ ch.map (·.key) → r.1.pend k = w.pend k
  log : ∃ L, r.1.log = w.log ++ L ∧ ∀ e ∈ L, e.1 = id ∧ e.2.1 ∈ ch.map (·.key)
  all : ∀ k, delivered k r.1.log ++ (r.1.pend k).map (·.2) = delivered k w.log ++ (w.pend k).map (·.2)

theorem started (A : Key → List Msg) (id : Nat) (ch : List Phase) :
    ∀ (n : Nat) (w : World), ch.length < n → (ch.map (·.key)).Nodup →
      (∀ p ∈ ch, p.need [] = false) → (∀ p ∈ ch, ∀ l m, p.need l = true → p.need (l ++ [m]) = true) →
      (∀ p ∈ ch, ∀ m ∈ A p.key, m.1 = p.rank) →
      (∀ p ∈ ch, w.active p.key = none ∧ w.pend p.key = A p.key) →
      Started A w id ch (start id n ch w) := by
  induction ch with
  | nil =>
    intro n w hn _ _ _ _ _
    cases n with
    | zero => cases hn
    | succ n =>
      simp only [start]
      exact ⟨⟨[], [], rfl, by simp, rfl⟩, Or.inr rfl, rfl, fun _ _ => rfl, fun _ _ => rfl, ⟨[], by simp, by simp⟩, fun _ => rfl⟩
  | cons p subs ih =>
    intro n w hn hd h0 hm hr hw
    cases n with
    | zero => cases hn
    | succ n =>
      have hp := hw p List.mem_cons_self
      have hp0 := h0 p List.mem_cons_self
      have hpm := hm p List.mem_cons_self
      have hpr := hr p List.mem_cons_self
      simp only [List.map_cons, List.nodup_cons] at hd
      simp only [start, hp.1, hp.2, hp0, fresh_single id p subs hp0, Bool.false_eq_true, if_false]
      rw [feed_single p.key id p subs hpm (A p.key) [] none w.log hpr]
      simp only [List.nil_append]
      have hne : ∀ q ∈ subs, q.key ≠ p.key := fun q hq e => hd.1 (e ▸ List.mem_map_of_mem hq)
      have hlog : ∀ k, delivered k (w.log ++ (A p.key).map (fun m => (id, p.key, m.2))) ++ (set w.pend p.key [] k).map (·.2)
          = delivered k w.log ++ (w.pend k).map (·.2) := by
        intro k
        by_cases hk : k = p.key
        · rw [hk, set_same, delivered_append, delivered_same, hp.2]; simp
        · rw [set_ne _ _ _ _ hk, delivered_append, delivered_other _ _ _ _ (fun e => hk e.symm)]; simp
      rcases Bool.eq_false_or_eq_true (p.need ((A p.key).map (·.2))) with hnd | hnd
      case inr =>
        have hans : (if A p.key = [] then none else if p.need ((A p.key).map (·.2)) = true then some id else none) = (none : Option Nat) := by
          rw [hnd]; split <;> simp
        rw [hans]
        simp only
        refine ⟨⟨[], p :: subs, rfl, by simp, by simp, ?_, hnd, ?_, ?_⟩, Or.inl rfl, rfl, ?_, ?_, ⟨_, rfl, ?_⟩, hlog⟩
        · simp only; rw [set_same]; simp [kept, single, hnd]
        · simp only; rw [set_same]
        · intro q hq
          simp only
          rw [set_ne _ _ _ _ (hne q hq), set_ne _ _ _ _ (hne q hq)]
          exact hw q (List.mem_cons_of_mem _ hq)
        · intro k hk
          simp only [List.map_cons, List.mem_cons, not_or] at hk
          exact set_ne _ _ _ _ hk.1
        · intro k hk
          simp only [List.map_cons, List.mem_cons, not_or] at hk
          exact set_ne _ _ _ _ hk.1
        · intro e he
          obtain ⟨m, _, rfl⟩ := List.mem_map.mp he
          simp
      case inl =>
        have hA : A p.key ≠ [] := by intro e; rw [e] at hnd; simp only [List.map_nil] at hnd; rw [hp0] at hnd; cases hnd
        simp only [hA, hnd, if_false, if_true]
        have hk : kept (single id p ((A p.key).map (·.2)) subs) (some id) = none := by simp [kept, single, hnd]
        have hs : (single id p ((A p.key).map (·.2)) subs).subs = subs := rfl
        rw [hk, hs]
        have := ih n { w with active := set w.active p.key none, pend := set w.pend p.key [], log := w.log ++ (A p.key).map (fun m => (id, p.key, m.2)) }
          (by simp only [List.length_cons] at hn; omega) hd.2 (fun q hq => h0 q (List.mem_cons_of_mem _ hq))
          (fun q hq => hm q (List.mem_cons_of_mem _ hq)) (fun q hq => hr q (List.mem_cons_of_mem _ hq))
          (fun q hq => by
            simp only
            rw [set_ne _ _ _ _ (hne q hq), set_ne _ _ _ _ (hne q hq)]
            exact hw q (List.mem_cons_of_mem _ hq))
        obtain ⟨⟨a, b, e, ha, hb⟩, hans, hrep, hact, hpend, ⟨L, hL, hLe⟩, hall⟩ := this
        refine ⟨⟨p :: a, b, by simp [e], ?_, hb⟩, hans, hrep, ?_, ?_, ?_, ?_⟩
        · intro q hq
          rcases List.mem_cons.mp hq with rfl | hq
          · exact ⟨hnd, (hact _ hd.1).trans (set_same _ _ _)⟩
          · exact ha q hq
        · intro k hk
          simp only [List.map_cons, List.mem_cons, not_or] at hk
          exact (hact k hk.2).trans (set_ne _ _ _ _ hk.1)
        · intro k hk
          simp only [List.map_cons, List.mem_cons, not_or] at hk
          exact (hpend k hk.2).trans (set_ne _ _ _ _ hk.1)
        · refine ⟨(A p.key).map (fun m => (id, p.key, m.2)) ++ L, by rw [hL]; simp, ?_⟩
          intro x hx
          rcases List.mem_append.mp hx with hx | hx
          · obtain ⟨m, _, rfl⟩ := List.mem_map.mp hx
            simp
          · exact ⟨(hLe x hx).1, List.mem_cons_of_mem _ (hLe x hx).2⟩
        · intro k
          rw [hall k]
          exact hlog k

/-! ### Histories -/

theorem calls_append (a b : List Op) : calls (a ++ b) = calls a ++ calls b := by
  induction a with
  | nil => rfl
  | cons o a ih => cases o <;> simp [calls, ih]

theorem arrived_append (k : Key) (a b : List Op) : arrived k (a ++ b) = arrived k a ++ arrived k b := by
  induction a with
  | nil => rfl
  | cons o a ih =>
    cases o with
    | call id ch => simp [arrived, ih]
    | arrive k' m => simp only [List.cons_append, arrived, ih]; split <;> simp

theorem Proper.init {a b : List Op} (h : Proper (a ++ b)) : Proper a := by
  have hc : ∀ c ∈ calls a, c ∈ calls (a ++ b) := fun c hc => by rw [calls_append]; exact List.mem_append_left _ hc
  refine ⟨?_, ?_, fun c h' => h.some c (hc c h'), fun c h' => h.mono c (hc c h'), fun c h' p hp m hm => h.rank c (hc c h') p hp m ?_⟩
  · have := h.keys
    rw [calls_append, List.flatMap_append] at this
    exact (List.nodup_append.mp this).1
  · have := h.ids
    rw [calls_append, List.map_append] at this
    exact (List.nodup_append.mp this).1
  · rw [arrived_append]; exact List.mem_append_left _ hm

theorem keys_unique (l : List (Nat × List Phase)) (h : (l.flatMap keys).Nodup) :
    ∀ c ∈ l, ∀ c' ∈ l, ∀ k, k ∈ keys c → k ∈ keys c' → c = c' := by
  induction l with
  | nil => intro c hc; cases hc
  | cons x l ih =>
    rw [List.flatMap_cons, List.nodup_append] at h
    intro c hc c' hc' k hk hk'
    rcases List.mem_cons.mp hc with h1 | h1 <;> rcases List.mem_cons.mp hc' with h2 | h2
    · rw [h1, h2]
    · exact absurd rfl (h.2.2 k (h1 ▸ hk) k (List.mem_flatMap.mpr ⟨c', h2, hk'⟩))
    · exact absurd rfl (h.2.2 k (h2 ▸ hk') k (List.mem_flatMap.mpr ⟨c, h1, hk⟩))
    · exact ih h.2.1 c h1 c' h2 k hk hk'

theorem keys_nodup (l : List (Nat × List Phase)) (h : (l.flatMap keys).Nodup) : ∀ c ∈ l, (keys c).Nodup := by
  induction l with
  | nil => intro c hc; cases hc
  | cons x l ih =>
    rw [List.flatMap_cons, List.nodup_append] at h
    intro c hc
    rcases List.mem_cons.mp hc with rfl | hc
    · exact h.1
    · exact ih h.2.1 c hc

/-- What holds after every history. -/
structure Inv (ops : List Op) (w : World) : Prop where
  call : ∀ c ∈ calls ops, Stage (fun k => arrived k ops) w c.1 c.2 (c.1 ∈ w.reports)
  idle : ∀ k, k ∉ (calls ops).flatMap keys → w.active k = none ∧ w.pend k = arrived k ops
  once : w.reports.Nodup
  ids : ∀ d ∈ w.reports, d ∈ (calls ops).map (·.1)
  log : ∀ e ∈ w.log, ∃ c ∈ calls ops, c.1 = e.1 ∧ e.2.1 ∈ keys c
  all : ∀ k, delivered k w.log ++ (w.pend k).map (·.2) = (arrived k ops).map (·.2)

theorem Stage.congr {A A' : Key → List Msg} {w w' : World} {id : Nat} {ch : List Phase} {f f' : Prop}
    (h : Stage A w id ch f) (hf : f' ↔ f)
    (hk : ∀ k ∈ ch.map (·.key), A' k = A k ∧ w'.active k = w.active k ∧ w'.pend k = w.pend k) :
    Stage A' w' id ch f' := by
  obtain ⟨a, b, rfl, ha, hb⟩ := h
  have hka : ∀ p ∈ a, A' p.key = A p.key ∧ w'.active p.key = w.active p.key ∧ w'.pend p.key = w.pend p.key :=
    fun p hp => hk _ (List.mem_map_of_mem (List.mem_append_left _ hp))
  have hkb : ∀ p ∈ b, A' p.key = A p.key ∧ w'.active p.key = w.active p.key ∧ w'.pend p.key = w.pend p.key :=
    fun p hp => hk _ (List.mem_map_of_mem (List.mem_append_right _ hp))
  refine ⟨a, b, rfl, fun p hp => ?_, ?_⟩
  · rw [(hka p hp).1, (hka p hp).2.1]; exact ha p hp
  · cases b with
    | nil => exact hf.mpr hb
    | cons p tl =>
      have e := hkb p List.mem_cons_self
      simp only at hb ⊢
      rw [e.1, e.2.1, e.2.2]
      refine ⟨fun x => hb.1 (hf.mp x), hb.2.1, hb.2.2.1, hb.2.2.2.1, fun q hq => ?_⟩
      have e' := hkb q (List.mem_cons_of_mem _ hq)
      rw [e'.1, e'.2.1, e'.2.2]
      exact hb.2.2.2.2 q hq

/-- A call preserves the invariant. -/
theorem Inv.step_call {ops : List Op} {w : World} {n id : Nat} {ch : List Phase} (h : Inv ops w)
    (hp : Proper (ops ++ [.call id ch])) (hn : ch.length < n) :
    Inv (ops ++ [.call id ch]) (exec n w (.call id ch)) := by
  have hc : calls (ops ++ [.call id ch]) = calls ops ++ [(id, ch)] := by rw [calls_append]; rfl
  have harr : ∀ k, arrived k (ops ++ [.call id ch]) = arrived k ops := fun k => by rw [arrived_append]; simp [arrived]
  have hmem : (id, ch) ∈ calls (ops ++ [.call id ch]) := by rw [hc]; simp
  have hk := hp.keys
  rw [hc, List.flatMap_append, List.nodup_append] at hk
  have hid := hp.ids
  rw [hc, List.map_append, List.nodup_append] at hid
  have hnew : ∀ k ∈ ch.map (·.key), k ∉ (calls ops).flatMap keys := fun k hk1 hk2 =>
    hk.2.2 k hk2 k (by simpa [keys] using hk1) rfl
  have hchd : (ch.map (·.key)).Nodup := keys_nodup _ hp.keys _ hmem
  have hs := started (fun k => arrived k ops) id ch n w hn hchd (hp.some _ hmem) (hp.mono _ hmem)
    (fun p h1 m h2 => hp.rank _ hmem p h1 m (by rw [harr]; exact h2))
    (fun p h1 => h.idle _ (hnew _ (List.mem_map_of_mem h1)))
  have hnr : id ∉ w.reports := fun hx => hid.2.2 id (h.ids id hx) id (by simp) rfl
  have hkeep : ∀ c ∈ calls ops, ∀ k ∈ c.2.map (·.key), k ∉ ch.map (·.key) := fun c hc' k hk1 hk2 =>
    hnew k hk2 (List.mem_flatMap.mpr ⟨c, hc', hk1⟩)
  obtain ⟨L, hL, hLe⟩ := hs.log
  have key : ∀ rep : List Nat, (rep = w.reports ∧ (start id n ch w).2 = none ∨ rep = w.reports ++ [id] ∧ (start id n ch w).2 = some id) →
      Inv (ops ++ [.call id ch]) { (start id n ch w).1 with reports := rep } := by
    intro rep hrep
    refine ⟨?_, ?_, ?_, ?_, ?_, ?_⟩
    · intro c hc'
      rw [hc, List.mem_append] at hc'
      rcases hc' with hc' | hc'
      · refine (h.call c hc').congr ?_ (fun k hk' => ⟨harr k, hs.active k (hkeep c hc' k hk'), hs.pend k (hkeep c hc' k hk')⟩)
        have hne : c.1 ≠ id := fun e => hid.2.2 c.1 (List.mem_map_of_mem hc') id (by simp) e
        rcases hrep with ⟨rfl, _⟩ | ⟨rfl, _⟩
        · exact Iff.rfl
        · simp [hne]
      · rw [List.mem_singleton] at hc'
        subst hc'
        refine hs.stage.congr ?_ (fun k _ => ⟨harr k, rfl, rfl⟩)
        rcases hrep with ⟨rfl, e⟩ | ⟨rfl, e⟩
        · simp [e, hnr]
        · simp [e]
    · intro k hk'
      rw [hc, List.flatMap_append, List.mem_append, not_or] at hk'
      have h2 : k ∉ ch.map (·.key) := by simpa [keys] using hk'.2
      rw [harr]
      exact ⟨(hs.active k h2).trans (h.idle k hk'.1).1, (hs.pend k h2).trans (h.idle k hk'.1).2⟩
    · rcases hrep with ⟨rfl, _⟩ | ⟨rfl, _⟩
      · exact h.once
      · exact List.nodup_append.mpr ⟨h.once, by simp, fun a ha b hb e => hnr (by rw [List.mem_singleton] at hb; rw [← hb, ← e]; exact ha)⟩
    · intro d hd
      rw [hc, List.map_append, List.mem_append]
      rcases hrep with ⟨rfl, _⟩ | ⟨rfl, _⟩
      · exact Or.inl (h.ids d hd)
      · rcases List.mem_append.mp hd with hd | hd
        · exact Or.inl (h.ids d hd)
        · rw [List.mem_singleton] at hd; subst hd; right; simp
    · intro e he
      simp only [hL] at he
      rcases List.mem_append.mp he with he | he
      · obtain ⟨c, hc', hh⟩ := h.log e he
        exact ⟨c, by rw [hc]; exact List.mem_append_left _ hc', hh⟩
      · exact ⟨(id, ch), hmem, (hLe e he).1.symm, (hLe e he).2⟩
    · intro k
      rw [harr]
      exact (hs.all k).trans (h.all k)
  simp only [exec]
  rcases hs.answer with e | e
  · rw [e]
    have := key w.reports (Or.inl ⟨rfl, e⟩)
    rw [← hs.reports] at this
    exact this
  · rw [e]
    have := key (w.reports ++ [id]) (Or.inr ⟨rfl, e⟩)
    rw [← hs.reports] at this
    exact this

/-- A message preserves the invariant. -/
theorem Inv.step_arrive {ops : List Op} {w : World} {n : Nat} {k : Key} {m : Msg} (h : Inv ops w)
    (hp : Proper (ops ++ [.arrive k m])) (hn : ∀ c ∈ calls ops, c.2.length < n) :
    Inv (ops ++ [.arrive k m]) (exec n w (.arrive k m)) := by
  have hc : calls (ops ++ [.arrive k m]) = calls ops := by rw [calls_append]; simp [calls]
  have harr : ∀ k', arrived k' (ops ++ [.arrive k m]) = if k = k' then arrived k' ops ++ [m] else arrived k' ops := fun k' => by
    rw [arrived_append]; simp only [arrived]; split <;> simp
  have harrk : arrived k (ops ++ [.arrive k m]) = arrived k ops ++ [m] := by rw [harr, if_pos rfl]
  have harrne : ∀ k', k' ≠ k → arrived k' (ops ++ [.arrive k m]) = arrived k' ops := fun k' hk' => by
    rw [harr, if_neg (fun e => hk' e.symm)]
  have hneed : ∀ c ∈ calls ops, ∀ p ∈ c.2, p.need ((arrived p.key ops).map (·.2)) = true →
      p.need ((arrived p.key (ops ++ [.arrive k m])).map (·.2)) = true := by
    intro c hc' p hp' hx
    by_cases e : p.key = k
    · rw [e, harrk, ← e, List.map_append]
      exact hp.mono c (by rw [hc]; exact hc') p hp' _ _ hx
    · rw [harrne _ e]; exact hx
  cases hact : w.active k with
  | none =>
    have hexec : exec n w (.arrive k m) = { w with pend := set w.pend k (w.pend k ++ [m]) } := by
      simp only [exec, incoming, hact]
    rw [hexec]
    refine ⟨?_, ?_, h.once, by rw [hc]; exact h.ids, by rw [hc]; exact h.log, ?_⟩
    · intro c hc'
      rw [hc] at hc'
      obtain ⟨a, b, e, ha, hb⟩ := h.call c hc'
      refine ⟨a, b, e, fun p hp' => ⟨hneed c hc' p (by rw [e]; exact List.mem_append_left _ hp') (ha p hp').1, (ha p hp').2⟩, ?_⟩
      cases b with
      | nil => exact hb
      | cons p tl =>
        simp only at hb ⊢
        have hpk : p.key ≠ k := fun e' => by rw [e', hact] at hb; cases hb.2.1
        rw [harrne _ hpk, set_ne _ _ _ _ hpk]
        refine ⟨hb.1, hb.2.1, hb.2.2.1, hb.2.2.2.1, fun q hq => ?_⟩
        have hq' := hb.2.2.2.2 q hq
        by_cases e' : q.key = k
        · rw [e', harrk, set_same]
          rw [e'] at hq'
          exact ⟨hq'.1, by rw [hq'.2]⟩
        · rw [harrne _ e', set_ne _ _ _ _ e']; exact hq'
    · intro k' hk'
      rw [hc] at hk'
      have hi := h.idle k' hk'
      simp only
      by_cases e' : k' = k
      · rw [e', harrk, set_same]
        rw [e'] at hi
        exact ⟨hi.1, by rw [hi.2]⟩
      · rw [harrne _ e', set_ne _ _ _ _ e']; exact hi
    · intro k'
      simp only
      have ha := h.all k'
      by_cases e' : k' = k
      · subst e'
        rw [harrk, set_same, List.map_append, List.map_append, ← List.append_assoc, ha]
      · rw [harrne _ e', set_ne _ _ _ _ e']; exact ha
  | some c0 =>
    have hkm : k ∈ (calls ops).flatMap keys := by
      apply Classical.byContradiction
      intro hx
      rw [(h.idle k hx).1] at hact; cases hact
    obtain ⟨⟨id, ch⟩, hcm, hkc⟩ := List.mem_flatMap.mp hkm
    obtain ⟨a, b, e, ha, hb⟩ := h.call _ hcm
    simp only at e
    have hkeysch : k ∈ ch.map (·.key) := hkc
    rw [e] at hkeysch
    have hna : ∀ p ∈ a, p.key ≠ k := fun p hp' e' => by
      have := (ha p hp').2; rw [e', hact] at this; cases this
    cases b with
    | nil =>
      rw [List.append_nil] at hkeysch
      obtain ⟨p, hp', e'⟩ := List.mem_map.mp hkeysch
      exact absurd e' (hna p hp')
    | cons p tl =>
      simp only at hb
      obtain ⟨hnr, hpa, hpn, hpp, htl⟩ := hb
      have hntl : ∀ q ∈ tl, q.key ≠ k := fun q hq e' => by
        have := (htl q hq).1; rw [e', hact] at this; cases this
      have hpk : p.key = k := by
        obtain ⟨q, hq, e'⟩ := List.mem_map.mp hkeysch
        rcases List.mem_append.mp hq with hq | hq
        · exact absurd e' (hna q hq)
        · rcases List.mem_cons.mp hq with rfl | hq
          · exact e'
          · exact absurd e' (hntl q hq)
      subst hpk
      have hcm' : (id, ch) ∈ calls (ops ++ [.arrive p.key m]) := by rw [hc]; exact hcm
      have hpch : p ∈ ch := by rw [e]; simp
      have hac : ∀ q ∈ a, q ∈ ch := fun q hq => by rw [e]; simp [hq]
      have htc : ∀ q ∈ tl, q ∈ ch := fun q hq => by rw [e]; simp [hq]
      have hmono := hp.mono _ hcm' p hpch
      have hrank : m.1 = p.rank := hp.rank _ hcm' p hpch m (by rw [harrk]; simp)
      have hother : ∀ c ∈ calls ops, c ≠ (id, ch) → ∀ k' ∈ c.2.map (·.key), k' ∉ ch.map (·.key) := fun c hc' hne k' h1 h2 =>
        hne (keys_unique _ (hp.init).keys c hc' (id, ch) hcm k' h1 h2)
      have hidne : ∀ c ∈ calls ops, c ≠ (id, ch) → c.1 ≠ id := by
        intro c hc' hne he
        have hd := (hp.init).ids
        apply hne
        clear hneed hn h hp harr hcm' hother hkm ha hc
        generalize calls ops = l at *
        induction l with
        | nil => cases hc'
        | cons x l ih =>
          rw [List.map_cons, List.nodup_cons] at hd
          rcases List.mem_cons.mp hc' with h1 | h1 <;> rcases List.mem_cons.mp hcm with h2 | h2
          · rw [h1, h2]
          · exact absurd (List.mem_map.mpr ⟨_, h2, by rw [← h1, he]⟩) hd.1
          · exact absurd (List.mem_map.mpr ⟨_, h1, by rw [he, ← h2]⟩) hd.1
          · exact ih h2 h1 hd.2
      have hg : (arrived p.key ops).map (·.2) ++ [m.2] = (arrived p.key (ops ++ [.arrive p.key m])).map (·.2) := by
        rw [harrk]; simp
      have hfeed := feed_single p.key id p tl hmono [m] ((arrived p.key ops).map (·.2)) none w.log (by simpa using hrank)
      simp only [List.map_cons, List.map_nil, hg, reduceCtorEq, if_false] at hfeed
      have hin : incoming n p.key m w = (match (if p.need ((arrived p.key (ops ++ [.arrive p.key m])).map (·.2)) = true then some id else none) with
          | none => ({ w with active := set w.active p.key (kept (single id p ((arrived p.key (ops ++ [.arrive p.key m])).map (·.2)) tl) (if p.need ((arrived p.key (ops ++ [.arrive p.key m])).map (·.2)) = true then some id else none)), log := w.log ++ [(id, p.key, m.2)] }, none)
          | some d => start d n tl { w with active := set w.active p.key (kept (single id p ((arrived p.key (ops ++ [.arrive p.key m])).map (·.2)) tl) (if p.need ((arrived p.key (ops ++ [.arrive p.key m])).map (·.2)) = true then some id else none)), log := w.log ++ [(id, p.key, m.2)] }) := by
        unfold incoming
        rw [hpa]
        simp only
        rw [hfeed]
        rfl
      have hchd : (ch.map (·.key)).Nodup := keys_nodup _ (hp.init).keys _ hcm
      have hall' : ∀ k', delivered k' (w.log ++ [(id, p.key, m.2)]) ++ (w.pend k').map (·.2) = (arrived k' (ops ++ [.arrive p.key m])).map (·.2) := by
        intro k'
        have hak := h.all k'
        rw [delivered_append]
        by_cases e' : k' = p.key
        · subst e'
          rw [hpp] at hak ⊢
          rw [← hg, ← hak]; simp [delivered]
        · rw [harrne _ e', ← hak]
          have : delivered k' [(id, p.key, m.2)] = [] := by
            have e2 : ¬ p.key = k' := fun x => e' x.symm
            simp [delivered, e2]
          rw [this]; simp
      rcases Bool.eq_false_or_eq_true (p.need ((arrived p.key (ops ++ [.arrive p.key m])).map (·.2))) with hnd | hnd
      case inr =>
        have hexec : exec n w (.arrive p.key m) = { w with active := set w.active p.key (some (single id p ((arrived p.key (ops ++ [.arrive p.key m])).map (·.2)) tl)), log := w.log ++ [(id, p.key, m.2)] } := by
          simp only [exec, hin, hnd]
          simp [kept, single, hnd]
        rw [hexec]
        refine ⟨?_, ?_, h.once, by rw [hc]; exact h.ids, ?_, ?_⟩
        · intro c hc'
          rw [hc] at hc'
          by_cases hce : c = (id, ch)
          · subst hce
            refine ⟨a, p :: tl, e, fun q hq => ?_, hnr, ?_, hnd, hpp, fun q hq => ?_⟩
            · simp only
              rw [set_ne _ _ _ _ (hna q hq)]
              exact ⟨hneed _ hcm q (hac q hq) (ha q hq).1, (ha q hq).2⟩
            · simp only; rw [set_same]
            · simp only
              rw [set_ne _ _ _ _ (hntl q hq), harrne _ (hntl q hq)]
              exact htl q hq
          · refine (h.call c hc').congr Iff.rfl (fun k' hk' => ?_)
            have hk2 : k' ≠ p.key := fun e' => hother c hc' hce k' hk' (by rw [e']; exact List.mem_map_of_mem hpch)
            simp only
            exact ⟨harrne _ hk2, set_ne _ _ _ _ hk2, trivial⟩
        · intro k' hk'
          rw [hc] at hk'
          have hk2 : k' ≠ p.key := fun e' => hk' (by rw [e']; exact hkm)
          simp only
          rw [harrne _ hk2, set_ne _ _ _ _ hk2]
          exact h.idle k' hk'
        · intro x hx
          rw [hc]
          rcases List.mem_append.mp hx with hx | hx
          · exact h.log x hx
          · rw [List.mem_singleton] at hx; subst hx; exact ⟨(id, ch), hcm, rfl, hkc⟩
        · exact hall'
      case inl =>
        have hk0 : kept (single id p ((arrived p.key (ops ++ [.arrive p.key m])).map (·.2)) tl) (some id) = none := by simp [kept, single, hnd]
        rw [hnd, if_pos rfl] at hin
        simp only [hk0] at hin
        have hs := started (fun k' => arrived k' (ops ++ [.arrive p.key m])) id tl n
          { w with active := set w.active p.key none, log := w.log ++ [(id, p.key, m.2)] }
          (by have := hn _ hcm; simp only [e, List.length_append, List.length_cons] at this; omega)
          (by rw [e, List.map_append, List.nodup_append] at hchd; rw [List.map_cons, List.nodup_cons] at hchd; exact hchd.2.1.2)
          (fun q hq => hp.some _ hcm' q (htc q hq)) (fun q hq => hp.mono _ hcm' q (htc q hq))
          (fun q hq => hp.rank _ hcm' q (htc q hq))
          (fun q hq => by
            simp only
            rw [set_ne _ _ _ _ (hntl q hq), harrne _ (hntl q hq)]
            exact htl q hq)
        rw [← hin] at hs
        have hsub : ∀ k', k' ∉ ch.map (·.key) → k' ∉ tl.map (·.key) := fun k' h1 h2 => h1 (by rw [e]; simp [h2])
        have hptl : p.key ∉ tl.map (·.key) := fun hx => by
          obtain ⟨q, hq, e'⟩ := List.mem_map.mp hx; exact hntl q hq e'
        obtain ⟨L, hL, hLe⟩ := hs.log
        have key : ∀ rep : List Nat, (rep = w.reports ∧ (incoming n p.key m w).2 = none ∨ rep = w.reports ++ [id] ∧ (incoming n p.key m w).2 = some id) →
            Inv (ops ++ [.arrive p.key m]) { (incoming n p.key m w).1 with reports := rep } := by
          intro rep hrep
          refine ⟨?_, ?_, ?_, ?_, ?_, ?_⟩
          · intro c hc'
            rw [hc] at hc'
            by_cases hce : c = (id, ch)
            · subst hce
              have hst := Stage.congr (A' := fun k' => arrived k' (ops ++ [.arrive p.key m])) (w' := { (incoming n p.key m w).1 with reports := rep })
                (f' := id ∈ rep) hs.stage (by
                  rcases hrep with ⟨rfl, e'⟩ | ⟨rfl, e'⟩
                  · simp only [e', reduceCtorEq, iff_false]; exact hnr
                  · simp [e']) (fun k' _ => ⟨rfl, rfl, rfl⟩)
              obtain ⟨a', b', e2, ha', hb'⟩ := hst
              refine ⟨a ++ p :: a', b', by simp only; rw [e, e2]; simp, fun q hq => ?_, hb'⟩
              rcases List.mem_append.mp hq with hq | hq
              · have hq2 : q.key ∉ tl.map (·.key) := fun hx => by
                  rw [e, List.map_append, List.map_cons, List.nodup_append] at hchd
                  exact hchd.2.2 _ (List.mem_map_of_mem hq) _ (List.mem_cons_of_mem _ hx) rfl
                refine ⟨hneed _ hcm q (hac q hq) (ha q hq).1, (hs.active _ hq2).trans ?_⟩
                simp only
                rw [set_ne _ _ _ _ (hna q hq)]
                exact (ha q hq).2
              · rcases List.mem_cons.mp hq with rfl | hq
                · exact ⟨hnd, (hs.active _ hptl).trans (set_same _ _ _)⟩
                · exact ha' q hq
            · refine (h.call c hc').congr ?_ (fun k' hk' => ?_)
              · have := hidne c hc' hce
                rcases hrep with ⟨rfl, _⟩ | ⟨rfl, _⟩
                · exact Iff.rfl
                · simp [this]
              · have hk1 := hother c hc' hce k' hk'
                have hk2 : k' ≠ p.key := fun e' => hk1 (by rw [e']; exact List.mem_map_of_mem hpch)
                exact ⟨harrne _ hk2, (hs.active k' (hsub k' hk1)).trans (set_ne _ _ _ _ hk2), hs.pend k' (hsub k' hk1)⟩
          · intro k' hk'
            rw [hc] at hk'
            have hk1 : k' ∉ ch.map (·.key) := fun hx => hk' (List.mem_flatMap.mpr ⟨(id, ch), hcm, hx⟩)
            have hk2 : k' ≠ p.key := fun e' => hk' (by rw [e']; exact hkm)
            rw [harrne _ hk2]
            exact ⟨((hs.active k' (hsub k' hk1)).trans (set_ne _ _ _ _ hk2)).trans (h.idle k' hk').1, (hs.pend k' (hsub k' hk1)).trans (h.idle k' hk').2⟩
          · rcases hrep with ⟨rfl, _⟩ | ⟨rfl, _⟩
            · exact h.once
            · exact List.nodup_append.mpr ⟨h.once, by simp, fun x hx y hy e' => hnr (by rw [List.mem_singleton] at hy; rw [hy] at e'; exact e' ▸ hx)⟩
          · intro d hd
            rw [hc]
            rcases hrep with ⟨rfl, _⟩ | ⟨rfl, _⟩
            · exact h.ids d hd
            · rcases List.mem_append.mp hd with hd | hd
              · exact h.ids d hd
              · rw [List.mem_singleton] at hd; subst hd; exact List.mem_map.mpr ⟨_, hcm, rfl⟩
          · intro x hx
            rw [hc]
            simp only [hL] at hx
            rcases List.mem_append.mp hx with hx | hx
            · rcases List.mem_append.mp hx with hx | hx
              · exact h.log x hx
              · rw [List.mem_singleton] at hx; subst hx; exact ⟨(id, ch), hcm, rfl, hkc⟩
            · exact ⟨(id, ch), hcm, (hLe x hx).1.symm, by
                have := (hLe x hx).2
                simp only [keys]; rw [e, List.map_append, List.map_cons]; simp only [List.mem_append, List.mem_cons]; exact Or.inr (Or.inr this)⟩
          · intro k'
            exact (hs.all k').trans (hall' k')
        have hrepw : (incoming n p.key m w).1.reports = w.reports := hs.reports
        simp only [exec]
        rcases hs.answer with e' | e'
        · rw [e']
          have := key w.reports (Or.inl ⟨rfl, e'⟩)
          rw [← hrepw] at this
          exact this
        · rw [e']
          have := key (w.reports ++ [id]) (Or.inr ⟨rfl, e'⟩)
          rw [← hrepw] at this
          exact this

theorem inv (n : Nat) : ∀ r : List Op, Proper r.reverse → (∀ c ∈ calls r.reverse, c.2.length < n) →
    Inv r.reverse (r.reverse.foldl (exec n) {}) := by
  intro r
  induction r with
  | nil =>
    intro _ _
    exact ⟨by simp [calls], by simp [arrived], by simp, by simp, by simp, by simp [arrived, delivered]⟩
  | cons o r ih =>
    intro hp hn
    rw [List.reverse_cons] at hp hn ⊢
    rw [List.foldl_append]
    have hn' : ∀ c ∈ calls r.reverse, c.2.length < n := fun c hc => hn c (by rw [calls_append]; exact List.mem_append_left _ hc)
    have hi := ih hp.init hn'
    cases o with
    | call id ch => exact hi.step_call hp (hn (id, ch) (by rw [calls_append]; simp [calls]))
    | arrive k m => exact hi.step_arrive hp hn'

theorem phases_bound (ops : List Op) : ∀ c ∈ calls ops, c.2.length < phases ops + 1 := by
  induction ops with
  | nil => intro c hc; cases hc
  | cons o ops ih =>
    intro c hc
    cases o with
    | call id ch =>
      simp only [calls, List.mem_cons] at hc
      simp only [phases]
      rcases hc with rfl | hc
      · simp only; omega
      · have := ih c hc; omega
    | arrive k m => exact ih c hc

theorem run_inv (ops : List Op) (h : Proper ops) : Inv ops (run ops) := by
  have := inv (phases ops + 1) ops.reverse (by rw [List.reverse_reverse]; exact h) (by rw [List.reverse_reverse]; exact phases_bound ops)
  rw [List.reverse_reverse] at this
  exact this

/-! ### C144 -/

/-- C144 (partial: used as intended).  If no two collectives have the same type and tag, then after
every history of calls and messages, in any order, a call was reported complete exactly if the
messages that arrived complete each of its collectives, and it was reported at most once;
nothing else was reported. -/
theorem C144_complete_partial (ops : List Op) (h : Proper ops) :
    (∀ c ∈ calls ops, c.1 ∈ (run ops).reports ↔ ∀ p ∈ c.2, p.need ((arrived p.key ops).map (·.2)) = true)
    ∧ (run ops).reports.Nodup ∧ ∀ d ∈ (run ops).reports, d ∈ (calls ops).map (·.1) := by
  have hi := run_inv ops h
  refine ⟨fun c hc => ?_, hi.once, hi.ids⟩
  obtain ⟨a, b, e, ha, hb⟩ := hi.call c hc
  cases b with
  | nil =>
    rw [List.append_nil] at e
    rw [e]
    exact ⟨fun _ p hp => (ha p hp).1, fun _ => hb⟩
  | cons p tl =>
    simp only at hb
    refine ⟨fun hx => absurd hx hb.1, fun hx => ?_⟩
    have := hx p (by rw [e]; simp)
    rw [this] at hb
    cases hb.2.2.1

/-- C144 (partial: used as intended).  What is delivered with a type and tag are the messages that
arrived with it, in the order of arrival, each once, and all go to the call with this type and
tag; a call that waits for them has them all as soon as the collectives before are complete. -/
theorem C144_delivered_partial (ops : List Op) (h : Proper ops) :
    (∀ k, delivered k (run ops).log <+: (arrived k ops).map (·.2))
    ∧ (∀ e ∈ (run ops).log, ∃ c ∈ calls ops, c.1 = e.1 ∧ e.2.1 ∈ keys c)
    ∧ ∀ c ∈ calls ops, ∀ a p b, c.2 = a ++ p :: b → (∀ q ∈ a, q.need ((arrived q.key ops).map (·.2)) = true) →
        p.need ((arrived p.key ops).map (·.2)) = false → delivered p.key (run ops).log = (arrived p.key ops).map (·.2) := by
  have hi := run_inv ops h
  refine ⟨fun k => ⟨_, hi.all k⟩, hi.log, ?_⟩
  intro c hc a p b e ha hp
  obtain ⟨a', b', e', ha', hb'⟩ := hi.call c hc
  have hall := hi.all p.key
  cases b' with
  | nil =>
    rw [List.append_nil] at e'
    have := (ha' p (by rw [← e', e]; simp)).1
    rw [hp] at this; cases this
  | cons q tl =>
    simp only at hb'
    have hpa' : p ∉ a' := fun hx => by rw [(ha' p hx).1] at hp; cases hp
    have hqa : q ∉ a := fun hx => by rw [ha q hx] at hb'; cases hb'.2.2.1
    have hpq : p = q := by
      rw [e] at e'
      clear hall hb' ha' ha hc hi e
      induction a generalizing a' with
      | nil =>
        cases a' with
        | nil => simpa using (List.cons.inj e').1
        | cons x a' => exact absurd (List.mem_cons.mpr (Or.inl (List.cons.inj e').1)) hpa'
      | cons y a ih =>
        cases a' with
        | nil => exact absurd (List.mem_cons.mpr (Or.inl (List.cons.inj e').1.symm)) hqa
        | cons x a' =>
          exact ih a' (List.cons.inj e').2 (fun hx => hpa' (List.mem_cons_of_mem _ hx)) (fun hx => hqa (List.mem_cons_of_mem _ hx))
    subst hpq
    rw [hb'.2.2.2.1] at hall
    simpa using hall

/-- C144 (partial: used as intended).  Which calls complete does not depend on how calls and
messages are interleaved: only on the calls and on the messages of each type and tag. -/
theorem C144_any_order_partial (ops ops' : List Op) (h : Proper ops) (h' : Proper ops')
    (hc : ∀ c, c ∈ calls ops ↔ c ∈ calls ops') (ha : ∀ k, arrived k ops = arrived k ops') :
    ∀ d, d ∈ (run ops).reports ↔ d ∈ (run ops').reports := by
  intro d
  have e := C144_complete_partial ops h
  have e' := C144_complete_partial ops' h'
  constructor
  · intro hd
    obtain ⟨c, hm, rfl⟩ := List.mem_map.mp (e.2.2 d hd)
    exact (e'.1 c ((hc c).mp hm)).mpr (fun p hp => by rw [← ha]; exact (e.1 c hm).mp hd p hp)
  · intro hd
    obtain ⟨c, hm, rfl⟩ := List.mem_map.mp (e'.2.2 d hd)
    exact (e.1 c ((hc c).mpr hm)).mpr (fun p hp => by rw [ha]; exact (e'.1 c hm).mp hd p hp)

/-- A collective that is complete after `n` messages. -/
def after (ty tag rank n : Nat) : Phase := ⟨(ty, tag), rank, fun l => decide (n ≤ l.length)⟩

/-- A node-aware call of three collectives and a barrier, with messages that arrive before their
collectives are called and in between. -/
def sample : List Op :=
  [.arrive (6, 2) (0, 40), .arrive (2, 102) (1, 10), .call 7 [after 2 101 0 2, after 2 102 1 1, after 5 100 0 1],
   .arrive (2, 101) (0, 20), .call 8 [after 6 2 0 2], .arrive (2, 101) (0, 21), .arrive (6, 2) (0, 41), .arrive (5, 100) (0, 30)]

theorem sample_proper : Proper sample := by
  refine ⟨by decide, by decide, ?_, ?_, ?_⟩
  · intro c hc p hp
    simp only [sample, calls, List.mem_cons, List.not_mem_nil, or_false] at hc
    rcases hc with rfl | rfl <;> simp only [List.mem_cons, List.not_mem_nil, or_false] at hp <;> (try rcases hp with rfl | rfl | rfl) <;>
      (try subst hp) <;> rfl
  · intro c hc p hp l m
    simp only [sample, calls, List.mem_cons, List.not_mem_nil, or_false] at hc
    rcases hc with rfl | rfl <;> simp only [List.mem_cons, List.not_mem_nil, or_false] at hp <;> (try rcases hp with rfl | rfl | rfl) <;>
      (try subst hp) <;> simp only [after, decide_eq_true_eq, List.length_append, List.length_cons, List.length_nil] <;> omega
  · intro c hc p hp m hm
    simp only [sample, calls, List.mem_cons, List.not_mem_nil, or_false] at hc
    rcases hc with rfl | rfl <;> simp only [List.mem_cons, List.not_mem_nil, or_false] at hp <;> (try rcases hp with rfl | rfl | rfl) <;>
      (try subst hp) <;> simp [after, sample, arrived] at hm ⊢ <;> grind

/-- The hypotheses of the theorems are met: the barrier completes before the call made earlier. -/
example : Proper sample ∧ (run sample).reports = [8, 7] ∧ delivered (6, 2) (run sample).log = [40, 41] :=
  ⟨sample_proper, by decide, by decide⟩

/-- C144 refuted for a type and tag used in two communicators: the caller is rank 0 of one and rank 1
of the other.  All messages of both calls arrive, but the message for rank 1 is kept by the
collective of the first call and deleted with it: the second call never completes. -/
theorem C144_two_communicators_refuted :
    ∃ ops, calls ops = [(1, [after 6 5 0 1]), (2, [after 6 5 1 1])] ∧ arrived (6, 5) ops = [(1, 70), (0, 71)]
      ∧ (run ops).reports = [1] :=
  ⟨[.call 1 [after 6 5 0 1], .arrive (6, 5) (1, 70), .arrive (6, 5) (0, 71), .call 2 [after 6 5 1 1]], rfl, rfl, by decide⟩

/-- When the second call is made in time, both complete: the messages are told apart by the rank. -/
theorem C144_two_communicators :
    ∃ ops, calls ops = [(1, [after 6 5 0 1]), (2, [after 6 5 1 1])] ∧ arrived (6, 5) ops = [(1, 70), (0, 71)]
      ∧ (run ops).reports = [2, 1] :=
  ⟨[.call 1 [after 6 5 0 1], .arrive (6, 5) (1, 70), .call 2 [after 6 5 1 1], .arrive (6, 5) (0, 71)], rfl, rfl, by decide⟩

/-- C144 refuted for two overlapping calls with one type and tag in one communicator: the actor of
the first call is replaced, the first call never completes however many messages arrive. -/
theorem C144_overlap_refuted (n : Nat) :
    (run ([.call 1 [after 6 5 0 1], .call 2 [after 6 5 0 1]] ++ List.replicate n (.arrive (6, 5) (0, 70)))).reports
      = if n = 0 then [] else [2] := by
  cases n with
  | zero => decide
  | succ n =>
    have h3 : ∀ (k : Nat) (w : World), w.active (6, 5) = none → ((List.replicate k (.arrive (6, 5) (0, 70))).foldl (exec 3) w).reports = w.reports := by
      intro k
      induction k with
      | zero => intro w _; rfl
      | succ k ih =>
        intro w hw
        rw [List.replicate_succ, List.foldl_cons]
        have : exec 3 w (.arrive (6, 5) (0, 70)) = { w with pend := set w.pend (6, 5) (w.pend (6, 5) ++ [(0, 70)]) } := by
          simp only [exec, incoming, hw]
        rw [this]
        exact ih _ hw
    have hph : ∀ k, phases (List.replicate k (.arrive (6, 5) (0, 70))) = 0 := by
      intro k
      induction k with
      | zero => rfl
      | succ k ih => rw [List.replicate_succ]; exact ih
    simp only [run, List.cons_append, List.nil_append, phases, hph, List.foldl_cons, List.replicate_succ]
    exact (h3 n (exec 3 (exec 3 (exec 3 {} (.call 1 [after 6 5 0 1])) (.call 2 [after 6 5 0 1])) (.arrive (6, 5) (0, 70))) (by decide)).trans (by rw [if_neg (Nat.succ_ne_zero n)]; decide)

/-- C144 refuted for two calls with one type and tag one after the other: the messages of both arrive
before the first call, as when another rank runs ahead; the first call takes them all and the
second never completes. -/
theorem C144_ahead_refuted :
    (run [.arrive (5, 3) (0, 70), .arrive (5, 3) (0, 71), .call 1 [after 5 3 0 1], .call 2 [after 5 3 0 1]]).reports = [1] := by
  decide

/-- C144 refuted for a collective that needs no message: nobody reports that it is complete, and what
waits for it is deleted. -/
theorem C144_no_message_refuted (ms : List Msg) :
    (run (ms.map (.arrive (5, 3) ·) ++ [.call 1 [after 5 3 0 0]])).reports = [] := by
  have hph : phases (ms.map (.arrive (5, 3) ·) ++ [.call 1 [after 5 3 0 0]]) = 1 := by
    induction ms with
    | nil => rfl
    | cons m ms ih => exact ih
  have h : ∀ w : World, w.active (5, 3) = none → w.reports = [] →
      ((ms.map (.arrive (5, 3) ·)).foldl (exec 2) w).active (5, 3) = none ∧ ((ms.map (.arrive (5, 3) ·)).foldl (exec 2) w).reports = [] := by
    induction ms with
    | nil => intro w h1 h2; exact ⟨h1, h2⟩
    | cons m ms ih =>
      intro w h1 h2
      rw [List.map_cons, List.foldl_cons]
      have : exec 2 w (.arrive (5, 3) m) = { w with pend := set w.pend (5, 3) (w.pend (5, 3) ++ [m]) } := by
        simp only [exec, incoming, h1]
      rw [this]
      exact ih (by rw [show phases (ms.map (.arrive (5, 3) ·) ++ [.call 1 [after 5 3 0 0]]) = phases ((m :: ms).map (.arrive (5, 3) ·) ++ [.call 1 [after 5 3 0 0]]) from rfl]; exact hph) _ h1 h2
  have h0 := h {} rfl rfl
  simp only [run, hph, List.foldl_append, List.foldl_cons, List.foldl_nil]
  simp only [exec, start, after, h0.1]
  exact h0.2

end SST.Coll.Registry
