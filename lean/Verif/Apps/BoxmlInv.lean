import Verif.Apps.BoxmlSpec
import Mathlib.Data.List.Perm.Subperm
set_option autoImplicit false
/-
The invariant of the runs of the `boxml` skeleton, for C157.
-/
namespace SST.Apps.Boxml

@[simp] theorem upd_same {α : Type} (f : Nat → α) (i : Nat) (v : α) : upd f i v i = v := by simp [upd]
theorem upd_other {α : Type} (f : Nat → α) {i j : Nat} (v : α) (h : j ≠ i) : upd f i v j = f j := by simp [upd, h]

/-- The event is a computation. -/
def isComp (G : Graph) (f : Nat) : Bool := match G.ev f with | .comp _ => true | .comm _ _ => false

/-- What `simple_event_done` leaves alone and what it changes. -/
structure Woken (G : Graph) (r index : Nat) (L : List Nat) (s t : St) : Prop where
  dep : ∀ i, t.dep i = if i ∈ L then (s.dep i).filter (· ≠ index) else s.dep i
  lis : t.lis = s.lis
  vC : ∀ q, t.validC q = if q = r then s.validC q ++ L.filter (fun f => isComp G f && ((s.dep f).filter (· ≠ index)).isEmpty) else s.validC q
  vS : ∀ q, t.validS q = if q = r then s.validS q ++ L.filter (fun f => !isComp G f && ((s.dep f).filter (· ≠ index)).isEmpty) else s.validS q
  flight : t.flight = s.flight
  left : t.left = s.left
  log : t.log = s.log

theorem woken_foldl (G : Graph) (r index : Nat) : ∀ (L : List Nat) (s : St), L.Nodup →
    Woken G r index L s (L.foldl (wake G r index) s)
  | [], s, _ => by constructor <;> simp
  | f :: L, s, hn => by
      rw [List.nodup_cons] at hn
      have ih := woken_foldl G r index L (wake G r index s f) hn.2
      rw [List.foldl_cons]
      have hd : ∀ i, (wake G r index s f).dep i = if i = f then (s.dep f).filter (· ≠ index) else s.dep i := by
        intro i
        unfold wake upd
        cases G.ev f <;> dsimp only <;> split <;> rfl
      have hdL : ∀ i, i ∈ L → (wake G r index s f).dep i = s.dep i := by
        intro i hi
        rw [hd, if_neg]
        rintro rfl
        exact hn.1 hi
      have hl : (wake G r index s f).lis = s.lis := by
        unfold wake; cases G.ev f <;> dsimp only <;> split <;> rfl
      have hfl : (wake G r index s f).flight = s.flight := by
        unfold wake; cases G.ev f <;> dsimp only <;> split <;> rfl
      have hle : (wake G r index s f).left = s.left := by
        unfold wake; cases G.ev f <;> dsimp only <;> split <;> rfl
      have hlo : (wake G r index s f).log = s.log := by
        unfold wake; cases G.ev f <;> dsimp only <;> split <;> rfl
      have hC : ∀ q, (wake G r index s f).validC q = if q = r then s.validC q ++ [f].filter (fun f => isComp G f && ((s.dep f).filter (· ≠ index)).isEmpty) else s.validC q := by
        intro q
        unfold wake upd isComp
        dsimp only
        simp only [List.filter_cons, List.filter_nil]
        generalize (s.dep f).filter (· ≠ index) = ds
        cases h : G.ev f <;> dsimp only <;> split <;> rename_i he <;> simp only [h]
        · by_cases e : q = r <;> simp [e, he]
        · by_cases e : q = r <;> simp [e, he]
        · simp
        · simp
      have hS : ∀ q, (wake G r index s f).validS q = if q = r then s.validS q ++ [f].filter (fun f => !isComp G f && ((s.dep f).filter (· ≠ index)).isEmpty) else s.validS q := by
        intro q
        unfold wake upd isComp
        dsimp only
        simp only [List.filter_cons, List.filter_nil]
        generalize (s.dep f).filter (· ≠ index) = ds
        cases h : G.ev f <;> dsimp only <;> split <;> rename_i he <;> simp only [h]
        · simp
        · simp
        · by_cases e : q = r <;> simp [e, he]
        · by_cases e : q = r <;> simp [e, he]
      have hfC : L.filter (fun f' => isComp G f' && (((wake G r index s f).dep f').filter (· ≠ index)).isEmpty) =
          L.filter (fun f' => isComp G f' && ((s.dep f').filter (· ≠ index)).isEmpty) :=
        List.filter_congr fun x hx => by rw [hdL x hx]
      have hfS : L.filter (fun f' => !isComp G f' && (((wake G r index s f).dep f').filter (· ≠ index)).isEmpty) =
          L.filter (fun f' => !isComp G f' && ((s.dep f').filter (· ≠ index)).isEmpty) :=
        List.filter_congr fun x hx => by rw [hdL x hx]
      constructor
      · intro i
        rw [ih.dep i, hd i]
        by_cases e : i = f
        · subst e; simp [hn.1]
        · simp [e]
      · rw [ih.lis, hl]
      · intro q
        rw [ih.vC q, hC q, hfC]
        by_cases e : q = r
        · simp only [e, if_true, List.append_assoc, ← List.filter_append, List.singleton_append]
        · simp only [e, if_false]
      · intro q
        rw [ih.vS q, hS q, hfS]
        by_cases e : q = r
        · simp only [e, if_true, List.append_assoc, ← List.filter_append, List.singleton_append]
        · simp only [e, if_false]
      · rw [ih.flight, hfl]
      · rw [ih.left, hle]
      · rw [ih.log, hlo]

theorem mem_listeners {G : Graph} {d i : Nat} : i ∈ listeners G d ↔ i < G.n ∧ d ∈ G.deps i := by
  simp [listeners]

theorem listeners_nodup (G : Graph) (d : Nat) : (listeners G d).Nodup := List.nodup_range.filter _

theorem ended_cons {log : List Entry} {e : Entry} {i : Nat} : Ended (e :: log) i ↔ e.ends = some i ∨ Ended log i := by
  simp [Ended]

theorem begun_cons {log : List Entry} {e : Entry} {i : Nat} : Begun (e :: log) i ↔ e.begins = some i ∨ Begun log i := by
  simp [Begun]

/-- Entries that `n_events` counts. -/
def counted (r : Nat) : Entry → Bool
  | .comp q _ => q == r
  | .send q _ => q == r
  | .pass _ _ => false
  | .recv q _ => q == r

/-- What rank `r` has to do. -/
def items (G : Graph) (r : Nat) : List Entry :=
  (comps G r).map (.comp r) ++ (sends G r).map (.send r) ++ (recvs G r).map (.recv r)

/-- The invariant. -/
structure Inv (G : Graph) (s : St) : Prop where
  dep : ∀ i, i < G.n → ∀ d, d ∈ s.dep i ↔ d ∈ G.deps i ∧ ¬ Ended s.log d
  lis : ∀ d, ¬ Ended s.log d → s.lis d = listeners G d
  vC : ∀ q i, i ∈ s.validC q ↔ (i < G.n ∧ ∃ b, G.ev i = .comp b ∧ G.rankOf b = q) ∧
    (∀ d, d ∈ G.deps i → Ended s.log d) ∧ ¬ Begun s.log i
  vS : ∀ q i, i ∈ s.validS q ↔ (i < G.n ∧ ∃ a b, G.ev i = .comm a b ∧ G.rankOf a = q) ∧
    (∀ d, d ∈ G.deps i → Ended s.log d) ∧ ¬ Begun s.log i
  vCn : ∀ q, (s.validC q).Nodup
  vSn : ∀ q, (s.validS q).Nodup
  fl : ∀ q i, (q, i) ∈ s.flight ↔ (i < G.n ∧ ∃ a b, G.ev i = .comm a b ∧ G.rankOf a ≠ q ∧ G.rankOf b = q) ∧
    Begun s.log i ∧ ¬ Ended s.log i
  fln : s.flight.Nodup
  proper : ∀ e, e ∈ s.log → Proper G e
  once : s.log.Nodup
  order : ∀ l e l', s.log = l ++ e :: l' →
    (∀ i, e.begins = some i → ∀ d, d ∈ G.deps i → Ended l' d) ∧ (∀ r i, e = .recv r i → Begun l' i)
  left : ∀ r, s.left r + (s.log.countP (counted r) : Nat) = ((items G r).length : Int)

theorem Inv.begun_deps {G : Graph} {s : St} (h : Inv G s) {i d : Nat} (hb : Begun s.log i) (hd : d ∈ G.deps i) :
    Ended s.log d := by
  obtain ⟨e, he, hi⟩ := hb
  obtain ⟨l, l', hl⟩ := List.append_of_mem he
  obtain ⟨x, hx, hx'⟩ := (h.order l e l' hl).1 i hi d hd
  exact ⟨x, by rw [hl]; exact List.mem_append_right _ (List.mem_cons_of_mem _ hx), hx'⟩

theorem Inv.ended_begun {G : Graph} {s : St} (h : Inv G s) {i : Nat} (hb : Ended s.log i) : Begun s.log i := by
  obtain ⟨e, he, hi⟩ := hb
  cases e with
  | comp r j => exact ⟨_, he, hi⟩
  | send r j => cases hi
  | pass r j => exact ⟨_, he, hi⟩
  | recv r j =>
    obtain ⟨l, l', hl⟩ := List.append_of_mem he
    simp only [Entry.ends, Option.some.injEq] at hi
    subst hi
    obtain ⟨x, hx, hx'⟩ := (h.order l _ l' hl).2 r _ rfl
    exact ⟨x, by rw [hl]; exact List.mem_append_right _ (List.mem_cons_of_mem _ hx), hx'⟩

theorem init_inv {G : Graph} (hg : Sound G) : Inv G (init G) := by
  have ne : ∀ d, ¬ Ended [] d := by rintro d ⟨_, h, _⟩; cases h
  have nb : ∀ d, ¬ Begun [] d := by rintro d ⟨_, h, _⟩; cases h
  have hall : ∀ i, (∀ d, d ∈ G.deps i → Ended [] d) ↔ G.deps i = [] := by
    intro i
    constructor
    · intro h
      exact List.eq_nil_iff_forall_not_mem.2 fun d hd => ne d (h d hd)
    · intro h d hd; rw [h] at hd; cases hd
  constructor
  · intro i _ d; simp [init, ne]
  · intro d _; rfl
  · intro q i
    simp only [init, hall, nb]
    simp only [comps, List.mem_filter, List.mem_range, List.isEmpty_iff]
    cases h : G.ev i <;> simp
  · intro q i
    simp only [init, hall, nb]
    simp only [sends, List.mem_filter, List.mem_range, List.isEmpty_iff]
    cases h : G.ev i with
    | comp b => simp
    | comm a b =>
      simp only [Bool.and_eq_true, bne_iff_ne, ne_eq, beq_iff_eq, Ev.comm.injEq, not_false_eq_true, and_true]
      constructor
      · rintro ⟨⟨h1, h2, h3⟩, h4⟩; exact ⟨⟨h1, a, b, ⟨rfl, rfl⟩, h3⟩, h4⟩
      · rintro ⟨⟨h1, a', b', ⟨rfl, rfl⟩, h3⟩, h4⟩
        exact ⟨⟨h1, fun e => hg.local_ i a b h1 h e h4, h3⟩, h4⟩
  · intro q; exact (List.nodup_range.filter _).filter _
  · intro q; exact (List.nodup_range.filter _).filter _
  · intro q i; simp [init, nb]
  · exact List.nodup_nil
  · intro e he; cases he
  · exact List.nodup_nil
  · intro l e l' h; simp [init] at h
  · intro r; simp [init, items]; omega

/-- `simple_event_done` on the rank where the event ends, with the record extended. -/
theorem eventDone_spec {G : Graph} (hg : Sound G) {r x : Nat} {s : St} {B : Nat → Prop} {log : List Entry}
    (hdep : ∀ i, i < G.n → ∀ d, d ∈ s.dep i ↔ d ∈ G.deps i ∧ ¬ Ended log d)
    (hlis : ∀ d, ¬ Ended log d → s.lis d = listeners G d) (hx : ¬ Ended log x) (hr : place G x = r)
    (hB : ∀ j, x ∈ G.deps j → j < G.n → ¬ B j)
    (hvC : ∀ q i, i ∈ s.validC q ↔ (i < G.n ∧ ∃ b, G.ev i = .comp b ∧ G.rankOf b = q) ∧
      (∀ d, d ∈ G.deps i → Ended log d) ∧ ¬ B i)
    (hvS : ∀ q i, i ∈ s.validS q ↔ (i < G.n ∧ ∃ a b, G.ev i = .comm a b ∧ G.rankOf a = q) ∧
      (∀ d, d ∈ G.deps i → Ended log d) ∧ ¬ B i)
    (hCn : ∀ q, (s.validC q).Nodup) (hSn : ∀ q, (s.validS q).Nodup) (D : Nat → Prop)
    (hD : ∀ d, D d ↔ d = x ∨ Ended log d) :
    (∀ i, i < G.n → ∀ d, d ∈ (eventDone G r x s).dep i ↔ d ∈ G.deps i ∧ ¬ D d) ∧
    (∀ d, ¬ D d → (eventDone G r x s).lis d = listeners G d) ∧
    (∀ q i, i ∈ (eventDone G r x s).validC q ↔ (i < G.n ∧ ∃ b, G.ev i = .comp b ∧ G.rankOf b = q) ∧
      (∀ d, d ∈ G.deps i → D d) ∧ ¬ B i) ∧
    (∀ q i, i ∈ (eventDone G r x s).validS q ↔ (i < G.n ∧ ∃ a b, G.ev i = .comm a b ∧ G.rankOf a = q) ∧
      (∀ d, d ∈ G.deps i → D d) ∧ ¬ B i) ∧
    (∀ q, ((eventDone G r x s).validC q).Nodup) ∧ (∀ q, ((eventDone G r x s).validS q).Nodup) := by
  have hL : s.lis x = listeners G x := hlis x hx
  have hw := woken_foldl G r x (s.lis x) s (by rw [hL]; exact listeners_nodup G x)
  have he : ∀ i, i < G.n → (((s.dep i).filter (· ≠ x)).isEmpty = true ↔ ∀ d, d ∈ G.deps i → D d) := by
    intro i hi
    rw [List.isEmpty_iff, List.eq_nil_iff_forall_not_mem]
    constructor
    · intro h d hd
      rw [hD]
      by_cases e : d = x
      · exact .inl e
      · by_cases e' : Ended log d
        · exact .inr e'
        · exact absurd (List.mem_filter.2 ⟨(hdep i hi d).2 ⟨hd, e'⟩, by simpa using e⟩) (h d)
    · intro h d hd
      rw [List.mem_filter] at hd
      have h1 := (hdep i hi d).1 hd.1
      rcases (hD d).1 (h d h1.1) with e | e
      · simp [e] at hd
      · exact h1.2 e
  have hlocC : ∀ j b q, j < G.n → x ∈ G.deps j → G.ev j = .comp b → (G.rankOf b = q ↔ q = r) := by
    intro j b q hj hm hev
    have := hg.here j x hj hm
    rw [hr] at this
    unfold home at this
    rw [hev] at this
    dsimp only at this
    rw [this]
    exact eq_comm
  have hlocS : ∀ j a b q, j < G.n → x ∈ G.deps j → G.ev j = .comm a b → (G.rankOf a = q ↔ q = r) := by
    intro j a b q hj hm hev
    have := hg.here j x hj hm
    rw [hr] at this
    unfold home at this
    rw [hev] at this
    dsimp only at this
    rw [this]
    exact eq_comm
  have notall : ∀ j, x ∈ G.deps j → ¬ ∀ d, d ∈ G.deps j → Ended log d := fun j hm h => hx (h x hm)
  have split : ∀ j, (∀ d, d ∈ G.deps j → D d) ↔ (∀ d, d ∈ G.deps j → Ended log d) ∨ (x ∈ G.deps j ∧ ∀ d, d ∈ G.deps j → D d) := by
    intro j
    constructor
    · intro h
      by_cases hm : x ∈ G.deps j
      · exact .inr ⟨hm, h⟩
      · left
        intro d hd
        rcases (hD d).1 (h d hd) with e | e
        · subst e; exact absurd hd hm
        · exact e
    · rintro (h | h)
      · intro d hd; exact (hD d).2 (.inr (h d hd))
      · exact h.2
  refine ⟨?_, ?_, ?_, ?_, ?_, ?_⟩
  · intro i hi d
    simp only [eventDone]
    rw [hw.dep i, hL, hD]
    by_cases hm : i ∈ listeners G x
    · rw [if_pos hm, List.mem_filter, hdep i hi]
      simp only [decide_eq_true_eq, not_or, and_assoc]
      exact ⟨fun ⟨a, b, c⟩ => ⟨a, c, b⟩, fun ⟨a, b, c⟩ => ⟨a, c, b⟩⟩
    · rw [if_neg hm, hdep i hi]
      constructor
      · rintro ⟨a, b⟩
        refine ⟨a, ?_⟩
        rintro (rfl | e)
        · exact hm (mem_listeners.2 ⟨hi, a⟩)
        · exact b e
      · rintro ⟨a, b⟩; exact ⟨a, fun e => b (.inr e)⟩
  · intro d hd
    simp only [eventDone]
    rw [hD] at hd
    rw [upd_other _ _ (fun e => hd (.inl e)), hw.lis]
    exact hlis d fun e => hd (.inr e)
  · intro q j
    simp only [eventDone]
    rw [hw.vC q, hL, split]
    by_cases hq : q = r
    · rw [if_pos hq, List.mem_append, hvC, List.mem_filter, mem_listeners]
      constructor
      · rintro (⟨a, b, c⟩ | ⟨⟨a, b⟩, c⟩)
        · exact ⟨a, .inl b, c⟩
        · rw [Bool.and_eq_true, he j a] at c
          refine ⟨⟨a, ?_⟩, .inr ⟨b, c.2⟩, hB j b a⟩
          have := c.1
          unfold isComp at this
          cases hev : G.ev j with
          | comp b' => exact ⟨b', rfl, (hlocC j b' q a b hev).2 hq⟩
          | comm a' b' => rw [hev] at this; cases this
      · rintro ⟨⟨a, b', hev, hb⟩, b | ⟨b, c⟩, d⟩
        · exact .inl ⟨⟨a, b', hev, hb⟩, b, d⟩
        · refine .inr ⟨⟨a, b⟩, ?_⟩
          rw [Bool.and_eq_true, he j a]
          exact ⟨by simp [isComp, hev], c⟩
    · rw [if_neg hq, hvC]
      constructor
      · rintro ⟨a, b, c⟩; exact ⟨a, .inl b, c⟩
      · rintro ⟨⟨a, b', hev, hb⟩, b | ⟨b, c⟩, d⟩
        · exact ⟨⟨a, b', hev, hb⟩, b, d⟩
        · exact absurd ((hlocC j b' q a b hev).1 hb) hq
  · intro q j
    simp only [eventDone]
    rw [hw.vS q, hL, split]
    by_cases hq : q = r
    · rw [if_pos hq, List.mem_append, hvS, List.mem_filter, mem_listeners]
      constructor
      · rintro (⟨a, b, c⟩ | ⟨⟨a, b⟩, c⟩)
        · exact ⟨a, .inl b, c⟩
        · rw [Bool.and_eq_true, he j a] at c
          refine ⟨⟨a, ?_⟩, .inr ⟨b, c.2⟩, hB j b a⟩
          have := c.1
          unfold isComp at this
          cases hev : G.ev j with
          | comp b' => rw [hev] at this; cases this
          | comm a' b' => exact ⟨a', b', rfl, (hlocS j a' b' q a b hev).2 hq⟩
      · rintro ⟨⟨a, a', b', hev, hb⟩, b | ⟨b, c⟩, d⟩
        · exact .inl ⟨⟨a, a', b', hev, hb⟩, b, d⟩
        · refine .inr ⟨⟨a, b⟩, ?_⟩
          rw [Bool.and_eq_true, he j a]
          exact ⟨by simp [isComp, hev], c⟩
    · rw [if_neg hq, hvS]
      constructor
      · rintro ⟨a, b, c⟩; exact ⟨a, .inl b, c⟩
      · rintro ⟨⟨a, a', b', hev, hb⟩, b | ⟨b, c⟩, d⟩
        · exact ⟨⟨a, a', b', hev, hb⟩, b, d⟩
        · exact absurd ((hlocS j a' b' q a b hev).1 hb) hq
  · intro q
    simp only [eventDone]
    rw [hw.vC q, hL]
    split
    · rw [List.nodup_append]
      refine ⟨hCn q, (listeners_nodup G x).filter _, ?_⟩
      rintro a ha b hb rfl
      exact notall a (mem_listeners.1 (List.mem_filter.1 hb).1).2 ((hvC q a).1 ha).2.1
    · exact hCn q
  · intro q
    simp only [eventDone]
    rw [hw.vS q, hL]
    split
    · rw [List.nodup_append]
      refine ⟨hSn q, (listeners_nodup G x).filter _, ?_⟩
      rintro a ha b hb rfl
      exact notall a (mem_listeners.1 (List.mem_filter.1 hb).1).2 ((hvS q a).1 ha).2.1
    · exact hSn q

theorem eventDone_rest {G : Graph} {r x : Nat} {s : St} (hn : (s.lis x).Nodup) :
    (eventDone G r x s).flight = s.flight ∧ (eventDone G r x s).left = s.left ∧ (eventDone G r x s).log = s.log := by
  have hw := woken_foldl G r x (s.lis x) s hn
  exact ⟨hw.flight, hw.left, hw.log⟩

theorem order_cons {G : Graph} {log : List Entry} {e : Entry}
    (h : ∀ l e l', log = l ++ e :: l' →
      (∀ i, e.begins = some i → ∀ d, d ∈ G.deps i → Ended l' d) ∧ (∀ r i, e = .recv r i → Begun l' i))
    (h1 : ∀ i, e.begins = some i → ∀ d, d ∈ G.deps i → Ended log d) (h2 : ∀ r i, e = .recv r i → Begun log i) :
    ∀ l e' l', e :: log = l ++ e' :: l' →
      (∀ i, e'.begins = some i → ∀ d, d ∈ G.deps i → Ended l' d) ∧ (∀ r i, e' = .recv r i → Begun l' i) := by
  intro l e' l' hl
  cases l with
  | nil =>
    simp only [List.nil_append, List.cons.injEq] at hl
    obtain ⟨rfl, rfl⟩ := hl
    exact ⟨h1, h2⟩
  | cons x l =>
    simp only [List.cons_append, List.cons.injEq] at hl
    exact h l e' l' hl.2

theorem self_dep {G : Graph} (hg : Sound G) {i : Nat} (hi : i < G.n) : i ∉ G.deps i := by
  intro h
  obtain ⟨lvl, hl⟩ := hg.acyclic
  have := hl i i hi h
  omega

theorem step_inv {G : Graph} (hg : Sound G) {r : Nat} {s t : St} (h : Inv G s) (hs : Step G r s t) : Inv G t := by
  cases hs with
  | comp hm =>
    rename_i i
    obtain ⟨⟨hi, b, hev, hb⟩, hdeps, hnb⟩ := (h.vC r i).1 hm
    have hne : ¬ Ended s.log i := fun e => hnb (h.ended_begun e)
    have hlis : s.lis i = listeners G i := h.lis i hne
    have key := eventDone_spec (s := { s with validC := upd s.validC r ((s.validC r).erase i) }) (r := r) (x := i)
      hg (B := fun j => j = i ∨ Begun s.log j) (log := s.log) h.dep h.lis hne (by simp [place, hev, hb])
      (by
        rintro j hd hj (rfl | e)
        · exact self_dep hg hj hd
        · exact hne (h.begun_deps e hd))
      (by
        intro q j
        dsimp only
        by_cases hq : q = r
        · subst hq
          rw [upd_same, (h.vCn q).mem_erase_iff, h.vC]
          constructor
          · rintro ⟨a, b, c, d⟩; exact ⟨b, c, fun e => e.elim a d⟩
          · rintro ⟨a, b, c⟩; exact ⟨fun e => c (.inl e), a, b, fun e => c (.inr e)⟩
        · rw [upd_other _ _ hq, h.vC]
          constructor
          · rintro ⟨a, b', c⟩
            refine ⟨a, b', ?_⟩
            rintro (rfl | e)
            · obtain ⟨_, b'', e1, e2⟩ := a
              rw [hev] at e1
              cases e1
              exact hq (e2.symm.trans hb)
            · exact c e
          · rintro ⟨a, b', c⟩; exact ⟨a, b', fun e => c (.inr e)⟩)
      (by
        intro q j
        dsimp only
        rw [h.vS]
        constructor
        · rintro ⟨a, b', c⟩
          refine ⟨a, b', ?_⟩
          rintro (rfl | e)
          · obtain ⟨_, a', b'', e1, e2⟩ := a
            rw [hev] at e1
            cases e1
          · exact c e
        · rintro ⟨a, b', c⟩; exact ⟨a, b', fun e => c (.inr e)⟩)
      (by
        intro q
        dsimp only
        by_cases hq : q = r
        · subst hq; rw [upd_same]; exact (h.vCn q).erase i
        · rw [upd_other _ _ hq]; exact h.vCn q)
      h.vSn (Ended (.comp r i :: s.log)) (by intro d; rw [ended_cons]; simp [Entry.ends, eq_comm])
    obtain ⟨k1, k2, k3, k4, k5, k6⟩ := key
    obtain ⟨e1, e2, e3⟩ := eventDone_rest (G := G) (r := r) (x := i)
      (s := { s with validC := upd s.validC r ((s.validC r).erase i) }) (by dsimp only; rw [hlis]; exact listeners_nodup G i)
    have hlog : (doComp G r i s).log = .comp r i :: s.log := by simp [doComp, e3]
    have hB : ∀ j, Begun (.comp r i :: s.log) j ↔ j = i ∨ Begun s.log j := by
      intro j; rw [begun_cons]; simp [Entry.begins, eq_comm]
    constructor
    · rw [hlog]; exact k1
    · rw [hlog]; exact k2
    · intro q j; rw [hlog, hB]; exact k3 q j
    · intro q j; rw [hlog, hB]; exact k4 q j
    · exact k5
    · exact k6
    · intro q j
      rw [hlog, hB]
      have : (doComp G r i s).flight = s.flight := by simp [doComp, e1]
      rw [this, h.fl, ended_cons]
      constructor
      · rintro ⟨a, b', c⟩
        refine ⟨a, .inr b', ?_⟩
        rintro (e | e)
        · simp only [Entry.ends, Option.some.injEq] at e
          subst e
          obtain ⟨_, a', b'', e1, _⟩ := a
          rw [hev] at e1; cases e1
        · exact c e
      · rintro ⟨a, b' | b', c⟩
        · subst b'
          exact absurd (.inl rfl) c
        · exact ⟨a, b', fun e => c (.inr e)⟩
    · have : (doComp G r i s).flight = s.flight := by simp [doComp, e1]
      rw [this]; exact h.fln
    · rw [hlog]
      intro e he
      rcases List.mem_cons.1 he with rfl | he
      · exact ⟨hi, b, hev, hb⟩
      · exact h.proper e he
    · rw [hlog, List.nodup_cons]
      exact ⟨fun e => hnb ⟨_, e, rfl⟩, h.once⟩
    · rw [hlog]
      refine order_cons h.order ?_ ?_
      · intro j hj; cases hj; exact hdeps
      · intro r' j hj; cases hj
    · intro q
      rw [hlog]
      have hl : (doComp G r i s).left q = if q = r then s.left r - 1 else s.left q := by
        simp only [doComp, e2, upd]
      have := h.left q
      rw [hl, List.countP_cons]
      by_cases hq : q = r
      · subst hq; simp [counted]; omega
      · have hq' : ¬ r = q := fun e => hq e.symm
        simp [counted, hq, hq']; omega
  | recv hm =>
    rename_i i
    obtain ⟨⟨hi, a, b, hev, ha, hb⟩, hbeg, hne⟩ := (h.fl r i).1 hm
    have hlis : s.lis i = listeners G i := h.lis i hne
    have key := eventDone_spec (s := { s with flight := s.flight.erase (r, i) }) (r := r) (x := i)
      hg (B := Begun s.log) (log := s.log) h.dep h.lis hne (by simp [place, hev, hb])
      (by
        intro j hd hj e
        exact hne (h.begun_deps e hd))
      h.vC h.vS h.vCn h.vSn (Ended (.recv r i :: s.log)) (by intro d; rw [ended_cons]; simp [Entry.ends, eq_comm])
    obtain ⟨k1, k2, k3, k4, k5, k6⟩ := key
    obtain ⟨e1, e2, e3⟩ := eventDone_rest (G := G) (r := r) (x := i)
      (s := { s with flight := s.flight.erase (r, i) }) (by dsimp only; rw [hlis]; exact listeners_nodup G i)
    have hlog : (doRecv G r i s).log = .recv r i :: s.log := by simp [doRecv, e3]
    have hB : ∀ j, Begun (.recv r i :: s.log) j ↔ Begun s.log j := by
      intro j; rw [begun_cons]; simp [Entry.begins]
    have hfl : (doRecv G r i s).flight = s.flight.erase (r, i) := by simp [doRecv, e1]
    constructor
    · rw [hlog]; exact k1
    · rw [hlog]; exact k2
    · intro q j; rw [hlog, hB]; exact k3 q j
    · intro q j; rw [hlog, hB]; exact k4 q j
    · exact k5
    · exact k6
    · intro q j
      rw [hlog, hB, hfl, h.fln.mem_erase_iff, h.fl, ended_cons]
      simp only [Entry.ends, Option.some.injEq, ne_eq, Prod.mk.injEq]
      constructor
      · rintro ⟨x, y, z, w⟩
        refine ⟨y, z, ?_⟩
        rintro (rfl | e)
        · obtain ⟨_, a', b', e1, _, e2⟩ := y
          rw [hev] at e1
          cases e1
          exact x ⟨e2.symm.trans hb, rfl⟩
        · exact w e
      · rintro ⟨x, y, z⟩
        exact ⟨fun e => z (.inl e.2.symm), x, y, fun e => z (.inr e)⟩
    · rw [hfl]; exact h.fln.erase _
    · rw [hlog]
      intro e he
      rcases List.mem_cons.1 he with rfl | he
      · exact ⟨hi, a, b, hev, ha, hb⟩
      · exact h.proper e he
    · rw [hlog, List.nodup_cons]
      exact ⟨fun e => hne ⟨_, e, rfl⟩, h.once⟩
    · rw [hlog]
      refine order_cons h.order ?_ ?_
      · intro j hj; cases hj
      · intro r' j hj; cases hj; exact hbeg
    · intro q
      rw [hlog]
      have hl : (doRecv G r i s).left q = if q = r then s.left r - 1 else s.left q := by
        simp only [doRecv, e2, upd]
      have := h.left q
      rw [hl, List.countP_cons]
      by_cases hq : q = r
      · subst hq; simp [counted]; omega
      · have hq' : ¬ r = q := fun e => hq e.symm
        simp [counted, hq, hq']; omega
  | send hm =>
    rename_i i
    obtain ⟨⟨hi, a, b, hev, ha⟩, hdeps, hnb⟩ := (h.vS r i).1 hm
    have hne : ¬ Ended s.log i := fun e => hnb (h.ended_begun e)
    have hlis : s.lis i = listeners G i := h.lis i hne
    by_cases hd : G.rankOf b = r
    · -- within the rank
      have key := eventDone_spec (s := { s with validS := upd s.validS r ((s.validS r).erase i) }) (r := r) (x := i)
        hg (B := fun j => j = i ∨ Begun s.log j) (log := s.log) h.dep h.lis hne (by simp [place, hev, hd])
        (by
          rintro j hd hj (rfl | e)
          · exact self_dep hg hj hd
          · exact hne (h.begun_deps e hd))
        (by
          intro q j
          dsimp only
          rw [h.vC]
          constructor
          · rintro ⟨a, b', c⟩
            refine ⟨a, b', ?_⟩
            rintro (rfl | e)
            · obtain ⟨_, b'', e1, e2⟩ := a
              rw [hev] at e1
              cases e1
            · exact c e
          · rintro ⟨a, b', c⟩; exact ⟨a, b', fun e => c (.inr e)⟩)
        (by
          intro q j
          dsimp only
          by_cases hq : q = r
          · subst hq
            rw [upd_same, (h.vSn q).mem_erase_iff, h.vS]
            constructor
            · rintro ⟨a, b, c, d⟩; exact ⟨b, c, fun e => e.elim a d⟩
            · rintro ⟨a, b, c⟩; exact ⟨fun e => c (.inl e), a, b, fun e => c (.inr e)⟩
          · rw [upd_other _ _ hq, h.vS]
            constructor
            · rintro ⟨x, b', c⟩
              refine ⟨x, b', ?_⟩
              rintro (rfl | e)
              · obtain ⟨_, a', b'', e1, e2⟩ := x
                rw [hev] at e1
                cases e1
                exact hq (e2.symm.trans ha)
              · exact c e
            · rintro ⟨a, b', c⟩; exact ⟨a, b', fun e => c (.inr e)⟩)
        h.vCn
        (by
          intro q
          dsimp only
          by_cases hq : q = r
          · subst hq; rw [upd_same]; exact (h.vSn q).erase i
          · rw [upd_other _ _ hq]; exact h.vSn q)
        (Ended (.pass r i :: s.log)) (by intro d; rw [ended_cons]; simp [Entry.ends, eq_comm])
      obtain ⟨k1, k2, k3, k4, k5, k6⟩ := key
      -- erasing before or after the listeners are woken is the same
      have hw := woken_foldl G r i (s.lis i) s (by rw [hlis]; exact listeners_nodup G i)
      have hw' := woken_foldl G r i (s.lis i) { s with validS := upd s.validS r ((s.validS r).erase i) }
        (by rw [hlis]; exact listeners_nodup G i)
      have same : (doSend G r i s) = { eventDone G r i { s with validS := upd s.validS r ((s.validS r).erase i) } with
          log := .pass r i :: s.log } := by
        have hdest : ¬ (G.rankOf b ≠ r) := by simp [hd]
        simp only [doSend, hev, hdest, if_false, eventDone]
        have f1 : (List.foldl (wake G r i) s (s.lis i)).dep =
            (List.foldl (wake G r i) { s with validS := upd s.validS r ((s.validS r).erase i) } (s.lis i)).dep := by
          funext j; rw [hw.dep, hw'.dep]
        have f2 : (List.foldl (wake G r i) s (s.lis i)).validC =
            (List.foldl (wake G r i) { s with validS := upd s.validS r ((s.validS r).erase i) } (s.lis i)).validC := by
          funext j; rw [hw.vC, hw'.vC]
        have f3 : upd (List.foldl (wake G r i) s (s.lis i)).validS r (((List.foldl (wake G r i) s (s.lis i)).validS r).erase i) =
            (List.foldl (wake G r i) { s with validS := upd s.validS r ((s.validS r).erase i) } (s.lis i)).validS := by
          funext j
          rw [hw'.vS, hw.vS]
          by_cases hj : j = r
          · subst hj
            simp only [upd_same, if_true]
            exact List.erase_append_left _ hm
          · rw [upd_other _ _ hj, hw.vS, if_neg hj, if_neg hj]
            exact (upd_other _ _ hj).symm
        rw [f3]
        simp only [St.mk.injEq]
        refine ⟨f1, ?_, f2, trivial, ?_, ?_, ?_⟩
        · rw [hw.lis, hw'.lis]
        · rw [hw.flight, hw'.flight]
        · rw [hw.left, hw'.left]
        · rw [hw.log]
      rw [same]
      obtain ⟨e1, e2, e3⟩ := eventDone_rest (G := G) (r := r) (x := i)
        (s := { s with validS := upd s.validS r ((s.validS r).erase i) }) (by dsimp only; rw [hlis]; exact listeners_nodup G i)
      have hB : ∀ j, Begun (.pass r i :: s.log) j ↔ j = i ∨ Begun s.log j := by
        intro j; rw [begun_cons]; simp [Entry.begins, eq_comm]
      constructor
      · exact k1
      · exact k2
      · intro q j; dsimp only; rw [hB]; exact k3 q j
      · intro q j; dsimp only; rw [hB]; exact k4 q j
      · exact k5
      · exact k6
      · intro q j
        dsimp only
        rw [hB, e1, ended_cons]
        dsimp only
        rw [h.fl]
        constructor
        · rintro ⟨x, y, z⟩
          refine ⟨x, .inr y, ?_⟩
          rintro (e | e)
          · simp only [Entry.ends, Option.some.injEq] at e
            subst e
            exact hnb y
          · exact z e
        · rintro ⟨x, y | y, z⟩
          · subst y; exact absurd (.inl rfl) z
          · exact ⟨x, y, fun e => z (.inr e)⟩
      · dsimp only; rw [e1]; exact h.fln
      · intro e he
        rcases List.mem_cons.1 he with rfl | he
        · exact ⟨hi, a, b, hev, ha, hd⟩
        · exact h.proper e he
      · dsimp only
        rw [List.nodup_cons]
        exact ⟨fun e => hnb ⟨_, e, rfl⟩, h.once⟩
      · refine order_cons h.order ?_ ?_
        · intro j hj; cases hj; exact hdeps
        · intro r' j hj; cases hj
      · intro q
        dsimp only
        rw [e2]
        have := h.left q
        rw [List.countP_cons]
        simp [counted]; omega
    · -- to another rank
      have same : doSend G r i s = { s with validS := upd s.validS r ((s.validS r).erase i), flight := (G.rankOf b, i) :: s.flight, left := upd s.left r (s.left r - 1), log := .send r i :: s.log } := by
        simp [doSend, hev, hd]
      rw [same]
      have hB : ∀ j, Begun (.send r i :: s.log) j ↔ j = i ∨ Begun s.log j := by
        intro j; rw [begun_cons]; simp [Entry.begins, eq_comm]
      have hE : ∀ j, Ended (.send r i :: s.log) j ↔ Ended s.log j := by
        intro j; rw [ended_cons]; simp [Entry.ends]
      constructor
      · intro j hj d; dsimp only; rw [hE]; exact h.dep j hj d
      · intro d; dsimp only; rw [hE]; exact h.lis d
      · intro q j
        dsimp only
        rw [hB, h.vC]
        simp only [hE]
        constructor
        · rintro ⟨x, y, z⟩
          refine ⟨x, y, ?_⟩
          rintro (rfl | e)
          · obtain ⟨_, b', e1, _⟩ := x
            rw [hev] at e1; cases e1
          · exact z e
        · rintro ⟨x, y, z⟩; exact ⟨x, y, fun e => z (.inr e)⟩
      · intro q j
        dsimp only
        rw [hB]
        simp only [hE]
        by_cases hq : q = r
        · subst hq
          rw [upd_same, (h.vSn q).mem_erase_iff, h.vS]
          constructor
          · rintro ⟨x, y, z, w⟩; exact ⟨y, z, fun e => e.elim x w⟩
          · rintro ⟨x, y, z⟩; exact ⟨fun e => z (.inl e), x, y, fun e => z (.inr e)⟩
        · rw [upd_other _ _ hq, h.vS]
          constructor
          · rintro ⟨x, y, z⟩
            refine ⟨x, y, ?_⟩
            rintro (rfl | e)
            · obtain ⟨_, a', b', e1, e2⟩ := x
              rw [hev] at e1
              cases e1
              exact hq (e2.symm.trans ha)
            · exact z e
          · rintro ⟨x, y, z⟩; exact ⟨x, y, fun e => z (.inr e)⟩
      · exact h.vCn
      · intro q
        dsimp only
        by_cases hq : q = r
        · subst hq; rw [upd_same]; exact (h.vSn q).erase i
        · rw [upd_other _ _ hq]; exact h.vSn q
      · intro q j
        dsimp only
        rw [hB, List.mem_cons, h.fl]
        simp only [hE, Prod.mk.injEq]
        constructor
        · rintro (⟨rfl, rfl⟩ | ⟨x, y, z⟩)
          · exact ⟨⟨hi, a, b, hev, by rw [ha]; exact fun e => hd e.symm, rfl⟩, .inl rfl, hne⟩
          · exact ⟨x, .inr y, z⟩
        · rintro ⟨x, y | y, z⟩
          · subst y
            obtain ⟨_, a', b', e1, _, e2⟩ := x
            rw [hev] at e1
            cases e1
            exact .inl ⟨e2.symm, rfl⟩
          · exact .inr ⟨x, y, z⟩
      · dsimp only
        rw [List.nodup_cons]
        exact ⟨fun e => hnb ((h.fl _ _).1 e).2.1, h.fln⟩
      · intro e he
        rcases List.mem_cons.1 he with rfl | he
        · exact ⟨hi, a, b, hev, ha, hd⟩
        · exact h.proper e he
      · dsimp only
        rw [List.nodup_cons]
        exact ⟨fun e => hnb ⟨_, e, rfl⟩, h.once⟩
      · refine order_cons h.order ?_ ?_
        · intro j hj; cases hj; exact hdeps
        · intro r' j hj; cases hj
      · intro q
        dsimp only
        have := h.left q
        rw [List.countP_cons]
        by_cases hq : q = r
        · subst hq; simp [counted]; omega
        · have hq' : ¬ r = q := fun e => hq e.symm
          simp [counted, hq', upd, hq]; omega

theorem reach_inv {G : Graph} (hg : Sound G) {s : St} (h : Reach G s) : Inv G s := by
  induction h with
  | init => exact init_inv hg
  | step _ hs ih => exact step_inv hg ih hs

end SST.Apps.Boxml
