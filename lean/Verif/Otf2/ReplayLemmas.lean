import Verif.Otf2.Spec
set_option autoImplicit false
/-! # Lemmas on the replay of traces -/

namespace Verif.Otf2

/-- A call as the replay will make it: when it starts and ends, and what it does. -/
structure XC where
  start : Nat
  stop : Nat
  act : Option Act

/-- The calls of the replay that stand for a call that completes requests. -/
def waitCalls (s e : Nat) : List Nat → List XC
  | [] => [⟨s, e, none⟩]
  | [r] => [⟨s, e, some (.wait r)⟩]
  | r :: r' :: rs => ⟨s, s, some (.wait r)⟩ :: waitCalls s e (r' :: rs)

/-- The calls of the replay that stand for one call of a program. -/
def callsOf (size : Nat → Nat) (op : Op) : List XC :=
  match op.body with
  | .send d c t l => [⟨op.start, op.stop, some (.send d c t l)⟩]
  | .recv m => [⟨op.start, op.stop, some (.recv m.src m.comm m.tag m.len)⟩]
  | .isend _ d c t l r => [⟨op.start, op.stop, some (.isend d c t l r)⟩]
  | .irecv m r => [⟨op.start, op.stop, some (.irecv m.src m.comm m.tag m.len r)⟩]
  | .complete _ rs => waitCalls op.start op.stop rs
  | .probe _ none => [⟨op.start, op.stop, none⟩]
  | .probe _ (some r) => [⟨op.start, op.stop, some (.wait r)⟩]
  | .coll _ o c root s v => [⟨op.start, op.stop, collAct o c root s v (size c)⟩]
  | .plain _ => [⟨op.start, op.stop, none⟩]
  | .skipped _ => []
  | .init => [⟨op.start, op.stop, some .print⟩]
  | .finalize => [⟨op.start, op.stop, some .finalize⟩]

/-- The effect of triggering one call. -/
def emit1 (conv : Nat → Int) (a : Int × List Out) (c : XC) : Int × List Out :=
  (conv c.stop, a.2 ++ (startMpi a.1 (conv c.start) ++ actOf c.act))

/-- The effect of triggering calls in order. -/
def emit (conv : Nat → Int) (a : Int × List Out) (l : List XC) : Int × List Out := l.foldl (emit1 conv) a

/-- A queued call as the replay will make it. -/
def toXC (c : Call) : XC := ⟨c.start, c.stop, c.trig⟩

theorem drain_eq (conv : Nat → Int) (q : List Call) : ∀ s : St,
    drain conv q s =
      { s with
        queue := q.dropWhile (·.ready)
        now := (emit conv (s.now, s.out) ((q.takeWhile (·.ready)).map toXC)).1
        out := (emit conv (s.now, s.out) ((q.takeWhile (·.ready)).map toXC)).2
        done := s.done ++ (q.takeWhile (·.ready)).map (·.ptr) } := by
  induction q with
  | nil => intro s; simp [drain, emit]
  | cons c q ih =>
    intro s
    rw [drain]
    cases h : c.ready
    · simp [h, emit]
    · simp only [if_true, ih]
      simp [h, emit, emit1, trigger, toXC]

/-- Whether an entry of the queue stands for a call: its times agree; if it is ready, so does what it
does; if not, the call is a receive whose request is pending and leads to the entry. -/
structure Fits (pend : Pend) (reqs : List (Nat × Nat)) (t : Option Nat) (x : Call × XC) : Prop where
  start : x.1.start = x.2.start
  stop : x.1.stop = x.2.stop
  ready : x.1.ready = true → x.1.trig = x.2.act ∧
    ∀ a b c d r, x.2.act = some (.irecv a b c d r) → find r pend = none
  waiting : x.1.ready = false → ∃ r m, find r pend = some (some m) ∧ look r reqs = some x.1.ptr ∧
    x.2.act = some (.irecv m.src m.comm m.tag m.len r)
  trig : some x.1.ptr = t → x.1.trig = x.2.act

/-- The invariant: `E` the calls made so far, `L` the calls in the queue with their entries, `tail` the
entry of the call that is not left yet. -/
structure Pre (conv : Nat → Int) (used : List Nat) (pend : Pend) (t : Option Nat) (s : St) (E : List XC)
    (L : List (Call × XC)) (tail : List Call) : Prop where
  queue : s.queue = L.map (·.1) ++ tail
  emitted : (s.now, s.out) = emit conv (0, []) E
  fits : ∀ x ∈ L, Fits pend s.reqs t x
  nodup : (s.queue.map (·.ptr)).Nodup
  lt : ∀ c ∈ s.queue, c.ptr < s.next
  pendr : ∀ r m, find r pend = some (some m) → ∃ x ∈ L, look r s.reqs = some x.1.ptr ∧
    x.1.ready = false ∧ x.2.act = some (.irecv m.src m.comm m.tag m.len r)
  keys : ∀ r, find r pend ≠ none → r ∈ used
  made : ∀ c ∈ E, ∀ a b c' d r, c.act = some (.irecv a b c' d r) → find r pend = none
  uses : ∀ c ∈ E ++ L.map (·.2), ∀ a b c' d r, c.act = some (.irecv a b c' d r) → r ∈ used

/-- The invariant when the queue has been drained. -/
structure Inv (conv : Nat → Int) (used : List Nat) (pend : Pend) (t : Option Nat) (s : St) (E : List XC)
    (L : List (Call × XC)) (tail : List Call) : Prop extends Pre conv used pend t s E L tail where
  head : ∀ x ∈ L.head?, x.1.ready = false

theorem takeWhile_append_tail {tail : List Call} (ht : ∀ c ∈ tail, c.ready = false)
    (L : List (Call × XC)) :
    (L.map (·.1) ++ tail).takeWhile (·.ready) = (L.takeWhile (·.1.ready)).map (·.1) ∧
      (L.map (·.1) ++ tail).dropWhile (·.ready) = (L.dropWhile (·.1.ready)).map (·.1) ++ tail := by
  induction L with
  | nil =>
    cases tail with
    | nil => simp
    | cons c tl =>
      have := ht c (by simp)
      simp [List.takeWhile_cons, List.dropWhile_cons, this]
  | cons x L ih =>
    cases h : x.1.ready
    · simp [List.takeWhile_cons, List.dropWhile_cons, h]
    · simp [List.takeWhile_cons, List.dropWhile_cons, h, ih.1, ih.2]

theorem head_dropWhile {α : Type} (p : α → Bool) (l : List α) : ∀ x ∈ (l.dropWhile p).head?, p x = false := by
  induction l with
  | nil => intro x hx; simp at hx
  | cons a l ih =>
    intro x hx
    rw [List.dropWhile_cons] at hx
    split at hx
    · exact ih x hx
    · simp at hx; subst hx; simp_all

theorem mem_takeWhile {α : Type} (p : α → Bool) (l : List α) {x : α} (h : x ∈ l.takeWhile p) :
    x ∈ l ∧ p x = true := by
  induction l with
  | nil => simp at h
  | cons a l ih =>
    rw [List.takeWhile_cons] at h
    split at h
    · rcases List.mem_cons.1 h with rfl | h
      · exact ⟨by simp, by assumption⟩
      · exact ⟨List.mem_cons_of_mem _ (ih h).1, (ih h).2⟩
    · simp at h

theorem mem_dropWhile_of {α : Type} (p : α → Bool) (l : List α) {x : α} (h : x ∈ l) (hp : p x = false) :
    x ∈ l.dropWhile p := by
  induction l with
  | nil => simp at h
  | cons a l ih =>
    rw [List.dropWhile_cons]
    rcases List.mem_cons.1 h with rfl | h
    · simp [hp]
    · split
      · exact ih h
      · exact List.mem_cons_of_mem _ h

/-- Draining the queue keeps the invariant and the list of calls. -/
theorem settle {conv : Nat → Int} {used : List Nat} {pend : Pend} {t : Option Nat} {s : St}
    {E : List XC} {L : List (Call × XC)} {tail : List Call} (h : Pre conv used pend t s E L tail)
    (ht : ∀ c ∈ tail, c.ready = false) :
    ∃ E' L', Inv conv used pend t (drain conv s.queue s) E' L' tail ∧
      E' ++ L'.map (·.2) = E ++ L.map (·.2) ∧
      (∀ x ∈ L, x.1.ready = false → x ∈ L') := by
  have htd := takeWhile_append_tail ht L
  refine ⟨E ++ (L.takeWhile (·.1.ready)).map (·.2), L.dropWhile (·.1.ready), ⟨⟨?_, ?_, ?_, ?_, ?_, ?_, h.keys, ?_, ?_⟩, ?_⟩, ?_, ?_⟩
  · rw [drain_eq]; simp only; rw [h.queue]; exact htd.2
  · rw [drain_eq]; simp only
    rw [h.queue, htd.1, h.emitted]
    have : ((L.takeWhile (·.1.ready)).map (·.1)).map toXC = (L.takeWhile (·.1.ready)).map (·.2) := by
      rw [List.map_map]
      apply List.map_congr_left
      intro x hx
      have hm := mem_takeWhile _ _ hx
      have hf := h.fits x hm.1
      have h1 := hf.start; have h2 := hf.stop; have h3 := (hf.ready hm.2).1
      obtain ⟨c, y⟩ := x
      cases y
      simp only at h1 h2 h3
      simp [toXC, h1, h2, h3]
    rw [this]
    simp [emit, List.foldl_append]
  · intro x hx; rw [drain_eq]; simp only
    exact h.fits x ((List.dropWhile_sublist _).subset hx)
  · rw [drain_eq]; simp only
    exact h.nodup.sublist ((List.dropWhile_sublist _).map _)
  · intro c hc; rw [drain_eq] at hc ⊢; simp only at hc ⊢
    exact h.lt c ((List.dropWhile_sublist _).subset hc)
  · intro r m hr
    obtain ⟨x, hx, h1, h2, h3⟩ := h.pendr r m hr
    refine ⟨x, mem_dropWhile_of _ _ hx h2, ?_, h2, h3⟩
    rw [drain_eq]; exact h1
  · intro c hc a b c' d r hr
    rcases List.mem_append.1 hc with hc | hc
    · exact h.made c hc a b c' d r hr
    · obtain ⟨x, hx, rfl⟩ := List.mem_map.1 hc
      have hm := mem_takeWhile _ _ hx
      exact ((h.fits x hm.1).ready hm.2).2 a b c' d r hr
  · have : (E ++ (L.takeWhile (·.1.ready)).map (·.2)) ++ (L.dropWhile (·.1.ready)).map (·.2) = E ++ L.map (·.2) := by
      rw [List.append_assoc, ← List.map_append, List.takeWhile_append_dropWhile]
    rw [this]; exact h.uses
  · intro x hx; exact head_dropWhile _ _ x hx
  · rw [List.append_assoc, ← List.map_append, List.takeWhile_append_dropWhile]
  · intro x hx hr; exact mem_dropWhile_of _ _ hx hr

theorem update_append (p : Nat) (f : Call → Call) (a b : List Call) :
    update p f (a ++ b) = update p f a ++ update p f b := by simp [update]

theorem update_id (p : Nat) (f : Call → Call) (q : List Call) (h : ∀ c ∈ q, c.ptr ≠ p) :
    update p f q = q := by
  unfold update
  conv => rhs; rw [← List.map_id q]
  apply List.map_congr_left
  intro c hc
  simp [h c hc]

theorem update_last (f : Call → Call) (q : List Call) (w : Call) (h : ∀ c ∈ q, c.ptr ≠ w.ptr) :
    update w.ptr f (q ++ [w]) = q ++ [f w] := by
  rw [update_append, update_id _ _ _ h]; simp [update]

theorem last_ne {q : List Call} {w : Call} (h : ((q ++ [w]).map (·.ptr)).Nodup) :
    ∀ c ∈ q, c.ptr ≠ w.ptr := by
  rw [List.map_append, List.nodup_append] at h
  intro c hc
  exact h.2.2 c.ptr (List.mem_map.2 ⟨c, hc, rfl⟩) w.ptr (by simp)

theorem update_twice (p : Nat) (f g : Call → Call) (q : List Call) (hf : ∀ c, (f c).ptr = c.ptr) :
    update p g (update p f q) = update p (fun c => g (f c)) q := by
  unfold update
  rw [List.map_map]
  apply List.map_congr_left
  intro c _
  simp only [Function.comp]
  by_cases h : c.ptr = p
  · rw [if_pos h, if_pos (by rw [hf]; exact h), if_pos h]
  · rw [if_neg h, if_neg h, if_neg h]

theorem update_ptrs (p : Nat) (f : Call → Call) (q : List Call) (hf : ∀ c, (f c).ptr = c.ptr) :
    (update p f q).map (·.ptr) = q.map (·.ptr) := by
  unfold update
  rw [List.map_map]
  apply List.map_congr_left
  intro c _
  simp only [Function.comp]
  split
  · exact hf c
  · rfl

theorem findLatest_last (q : List Call) (w : Call) : findLatest w.id (q ++ [w]) = some w := by
  simp [findLatest]

theorem peekBack_last (q : List Call) (w : Call) : peekBack (q ++ [w]) = .ok w := by
  simp [peekBack]

theorem alive_mem {p : Nat} {q : List Call} {c : Call} (h : c ∈ q) (hp : c.ptr = p) : alive p q = true := by
  simp only [alive, List.any_eq_true]
  exact ⟨c, h, by simp [hp]⟩

/-- Entering a call. -/
theorem inv_enter {conv : Nat → Int} {used : List Nat} {pend : Pend} {s : St} {E : List XC}
    {L : List (Call × XC)} (h : Inv conv used pend none s E L []) (id : Id) (start : Nat) :
    Inv conv used pend none (emplace id start none s) E L
      [{ ptr := s.next, id := id, start := start, stop := 0, ready := false, trig := none }] := by
  have hq : s.queue = L.map (·.1) := by rw [h.queue]; simp
  refine ⟨⟨?_, h.emitted, h.fits, ?_, ?_, h.pendr, h.keys, h.made, h.uses⟩, h.head⟩
  · simp [emplace, hq]
  · simp only [emplace, List.map_append, List.map_cons, List.map_nil]
    rw [List.nodup_append]
    refine ⟨h.nodup, by simp, ?_⟩
    intro a ha b hb
    obtain ⟨c, hc, rfl⟩ := List.mem_map.1 ha
    simp at hb; subst hb
    have := h.lt c hc
    omega
  · intro c hc
    simp only [emplace, List.mem_append, List.mem_singleton] at hc ⊢
    rcases hc with hc | rfl
    · have := h.lt c hc; omega
    · simp

/-- Changing the entry of the call that is not left yet. -/
theorem inv_tail {conv : Nat → Int} {used : List Nat} {pend : Pend} {t : Option Nat} {s : St} {E : List XC}
    {L : List (Call × XC)} {w : Call} (h : Inv conv used pend t s E L [w]) (f : Call → Call)
    (hf : (f w).ptr = w.ptr) :
    Inv conv used pend t { s with queue := update w.ptr f s.queue } E L [f w] ∧
      update w.ptr f s.queue = L.map (·.1) ++ [f w] := by
  have hn := h.nodup
  rw [h.queue] at hn
  have hu : update w.ptr f s.queue = L.map (·.1) ++ [f w] := by
    rw [h.queue]; exact update_last _ _ _ (last_ne hn)
  have hm : (update w.ptr f s.queue).map (·.ptr) = s.queue.map (·.ptr) := by
    rw [hu, h.queue]; simp [hf]
  refine ⟨⟨⟨hu, h.emitted, h.fits, by simp only; rw [hm]; exact h.nodup, ?_, h.pendr, h.keys, h.made, h.uses⟩, h.head⟩, hu⟩
  intro c hc
  simp only at hc ⊢
  rw [hu] at hc
  rcases List.mem_append.1 hc with hc | hc
  · exact h.lt c (by rw [h.queue]; exact List.mem_append_left _ hc)
  · simp at hc; subst hc; rw [hf]
    exact h.lt w (by rw [h.queue]; simp)

/-- The call that is not left yet becomes ready, another one possibly following it. -/
theorem inv_ready {conv : Nat → Int} {used : List Nat} {pend : Pend} {t : Option Nat} {s : St} {E : List XC}
    {L : List (Call × XC)} {w : Call} {tail : List Call} (h : Pre conv used pend t s E L (w :: tail))
    (ht : ∀ c ∈ tail, c.ready = false)
    (hw : ∀ a b c d r, w.trig ≠ some (.irecv a b c d r)) :
    ∃ s' E' L', callReady conv w.ptr s = .ok s' ∧ Inv conv used pend t s' E' L' tail ∧
      s'.reqs = s.reqs ∧ s'.next = s.next ∧
      E' ++ L'.map (·.2) = E ++ L.map (·.2) ++ [⟨w.start, w.stop, w.trig⟩] ∧
      (∀ x ∈ L, x.1.ready = false → x ∈ L') := by
  have hn := h.nodup
  rw [h.queue] at hn
  have hq : update w.ptr (fun c => { c with ready := true }) s.queue
      = (L ++ [(({ w with ready := true } : Call), (⟨w.start, w.stop, w.trig⟩ : XC))]).map (·.1) ++ tail := by
    rw [h.queue]
    have : L.map (·.1) ++ w :: tail = (L.map (·.1) ++ [w]) ++ tail := by simp
    rw [this] at hn ⊢
    rw [update_append, update_last]
    · rw [update_id]
      · simp
      · intro c hc
        rw [List.map_append, List.nodup_append] at hn
        intro he
        exact hn.2.2 w.ptr (by simp) c.ptr (List.mem_map.2 ⟨c, hc, rfl⟩) he.symm
    · rw [List.map_append, List.nodup_append] at hn
      exact last_ne hn.1
  have hmap := update_ptrs w.ptr (fun c => { c with ready := true }) s.queue (fun _ => rfl)
  have hp : Pre conv used pend t { s with queue := update w.ptr (fun c => { c with ready := true }) s.queue } E
      (L ++ [(({ w with ready := true } : Call), (⟨w.start, w.stop, w.trig⟩ : XC))]) tail := by
    refine ⟨hq, h.emitted, ?_, by simp only; rw [hmap]; exact h.nodup, ?_, ?_, h.keys, h.made, ?_⟩
    · intro x hx
      rcases List.mem_append.1 hx with hx | hx
      · exact h.fits x hx
      · simp at hx; subst hx
        exact ⟨rfl, rfl, fun _ => ⟨rfl, fun a b c d r hr => absurd hr (hw a b c d r)⟩,
          fun hh => by simp at hh, fun _ => rfl⟩
    · intro c hc
      have : c.ptr ∈ s.queue.map (·.ptr) := by
        rw [← hmap]; exact List.mem_map.2 ⟨c, hc, rfl⟩
      obtain ⟨c', hc', he⟩ := List.mem_map.1 this
      have := h.lt c' hc'
      simp only at this ⊢; omega
    · intro r m hr
      obtain ⟨x, hx, h1⟩ := h.pendr r m hr
      exact ⟨x, List.mem_append_left _ hx, h1⟩
    · intro c hc a b c' d r hr
      simp only [List.map_append, List.map_cons, List.map_nil] at hc
      rw [← List.append_assoc] at hc
      rcases List.mem_append.1 hc with hc | hc
      · exact h.uses c hc a b c' d r hr
      · simp at hc; subst hc; exact absurd hr (hw a b c' d r)
  obtain ⟨E', L', hi, he, hk⟩ := settle hp ht
  refine ⟨_, E', L', ?_, hi, ?_, ?_, ?_, ?_⟩
  · rw [callReady, if_pos (alive_mem (c := w) (by rw [h.queue]; simp) rfl)]
    simp only
    rw [drain_eq, drain_eq]
  · rw [drain_eq]
  · rw [drain_eq]
  · rw [he]; simp
  · intro x hx hr; exact hk x (List.mem_append_left _ hx) hr

/-- A receive whose request completed becomes ready. -/
theorem inv_received {conv : Nat → Int} {used : List Nat} {pend : Pend} {s : St} {E : List XC}
    {L : List (Call × XC)} {tail : List Call} {r p : Nat} {m : Msg}
    (h : Pre conv used pend (some p) s E L tail) (ht : ∀ c ∈ tail, c.ready = false)
    (hr : find r pend = some (some m)) (hp : look r s.reqs = some p)
    (hdrop : ∀ r', find r' (drop r pend) = if r' = r then none else find r' pend)
    (hrem : ∀ r', look r' (remove r s.reqs) = if r' = r then none else look r' s.reqs) :
    ∃ s' E' L', callReady conv p { s with reqs := remove r s.reqs } = .ok s' ∧
      Inv conv used (drop r pend) none s' E' L' tail ∧
      s'.reqs = remove r s.reqs ∧ s'.next = s.next ∧
      E' ++ L'.map (·.2) = E ++ L.map (·.2) := by
  obtain ⟨x, hx, hx1, hx2, hx3⟩ := h.pendr r m hr
  rw [hp] at hx1
  have hpx : p = x.1.ptr := by injection hx1
  let f : Call → Call := fun c => if c.ptr = p then { c with ready := true } else c
  let L1 := L.map (fun y => (f y.1, y.2))
  have hfp : ∀ c, (f c).ptr = c.ptr := by intro c; simp only [f]; split <;> rfl
  have hL1 : L1.map (·.1) = update p (fun c => { c with ready := true }) (L.map (·.1)) := by
    simp only [L1, List.map_map, update]
    apply List.map_congr_left; intro y _; rfl
  have hL2 : L1.map (·.2) = L.map (·.2) := by
    simp only [L1, List.map_map]
    apply List.map_congr_left; intro y _; rfl
  have hn := h.nodup
  rw [h.queue, List.map_append, List.nodup_append] at hn
  have hq : update p (fun c => { c with ready := true }) s.queue = L1.map (·.1) ++ tail := by
    rw [h.queue, update_append, hL1]
    congr 1
    apply update_id
    intro c hc he
    exact hn.2.2 x.1.ptr (List.mem_map.2 ⟨x.1, List.mem_map.2 ⟨x, hx, rfl⟩, rfl⟩) c.ptr
      (List.mem_map.2 ⟨c, hc, rfl⟩) (by rw [he, hpx])
  have huniq : ∀ y ∈ L, y.1.ptr = p → y.1 = x.1 ∧ y.2 = x.2 := by
    intro y hy hyp
    have hnd : (L.map (fun z => z.1.ptr)).Nodup := by
      have := hn.1
      rwa [List.map_map] at this
    have : y = x := by
      have aux : ∀ (l : List (Call × XC)), (l.map (fun z => z.1.ptr)).Nodup → y ∈ l → x ∈ l →
          y.1.ptr = x.1.ptr → y = x := by
        intro l
        induction l with
        | nil => intro _ hy; simp at hy
        | cons a l ih =>
          intro hnd hy hx hp
          simp only [List.map_cons, List.nodup_cons] at hnd
          rcases List.mem_cons.1 hy with ha | hy' <;> rcases List.mem_cons.1 hx with hb | hx'
          · rw [ha, hb]
          · exact absurd (List.mem_map.2 ⟨x, hx', by rw [← ha]; exact hp.symm⟩) hnd.1
          · exact absurd (List.mem_map.2 ⟨y, hy', by rw [← hb]; exact hp⟩) hnd.1
          · exact ih hnd.2 hy' hx' hp
      exact aux L hnd hy hx (by rw [hyp, hpx])
    rw [this]; exact ⟨rfl, rfl⟩
  have hmap := update_ptrs p (fun c => { c with ready := true }) s.queue (fun _ => rfl)
  have hpre : Pre conv used (drop r pend) none
      { s with reqs := remove r s.reqs, queue := update p (fun c => { c with ready := true }) s.queue }
      E L1 tail := by
    refine ⟨hq, h.emitted, ?_, by simp only; rw [hmap]; exact h.nodup, ?_, ?_, ?_, ?_, ?_⟩
    · intro y1 hy1
      obtain ⟨y, hy, rfl⟩ := List.mem_map.1 hy1
      have hf := h.fits y hy
      by_cases hyp : y.1.ptr = p
      · have hu := huniq y hy hyp
        have hfy : f y.1 = { y.1 with ready := true } := by simp only [f, if_pos hyp]
        simp only [hfy]
        refine ⟨hf.start, hf.stop, ?_, fun hh => by simp at hh, fun hh => by simp at hh⟩
        intro _
        refine ⟨hf.trig (by rw [hyp]), ?_⟩
        intro a b c d r' hr'
        simp only at hr'
        rw [hu.2, hx3] at hr'
        simp only [Option.some.injEq, Act.irecv.injEq] at hr'
        rw [hdrop, if_pos hr'.2.2.2.2.symm]
      · have hfy : f y.1 = y.1 := by simp only [f, if_neg hyp]
        simp only [hfy]
        refine ⟨hf.start, hf.stop, ?_, ?_, fun hh => by simp at hh⟩
        · intro hh
          refine ⟨(hf.ready hh).1, ?_⟩
          intro a b c d r' hr'
          rw [hdrop]; split
          · rfl
          · exact (hf.ready hh).2 a b c d r' hr'
        · intro hh
          obtain ⟨r', m', h1, h2, h3⟩ := hf.waiting hh
          have hne : r' ≠ r := by
            intro he; subst he
            rw [hp] at h2
            simp only [Option.some.injEq] at h2
            exact hyp h2.symm
          exact ⟨r', m', by rw [hdrop, if_neg hne]; exact h1, by simp only; rw [hrem, if_neg hne]; exact h2, h3⟩
    · intro c hc
      have : c.ptr ∈ s.queue.map (·.ptr) := by
        rw [← hmap]; exact List.mem_map.2 ⟨c, hc, rfl⟩
      obtain ⟨c', hc', he⟩ := List.mem_map.1 this
      have := h.lt c' hc'
      simp only at this ⊢; omega
    · intro r' m' hr'
      rw [hdrop] at hr'
      split at hr'
      · simp at hr'
      · rename_i hne
        obtain ⟨y, hy, h1, h2, h3⟩ := h.pendr r' m' hr'
        have hyp : y.1.ptr ≠ p := by
          intro he
          have hu := huniq y hy he
          rw [hu.2, hx3] at h3
          simp only [Option.some.injEq, Act.irecv.injEq] at h3
          exact hne h3.2.2.2.2.symm
        refine ⟨(f y.1, y.2), List.mem_map.2 ⟨y, hy, rfl⟩, ?_, ?_, h3⟩
        · simp only; rw [hrem, if_neg hne, hfp]; exact h1
        · simp only [f, if_neg hyp]; exact h2
    · intro r' hr'
      apply h.keys
      rw [hdrop] at hr'
      split at hr'
      · exact absurd rfl hr'
      · exact hr'
    · intro c hc a b c' d r' hr'
      rw [hdrop]; split
      · rfl
      · exact h.made c hc a b c' d r' hr'
    · rw [hL2]; exact h.uses
  obtain ⟨E', L', hi, he, _⟩ := settle hpre ht
  refine ⟨_, E', L', ?_, hi, ?_, ?_, ?_⟩
  · rw [callReady, if_pos (alive_mem (c := x.1) (by
      simp only; rw [h.queue]; exact List.mem_append_left _ (List.mem_map.2 ⟨x, hx, rfl⟩)) hpx.symm)]
    simp only
    rw [drain_eq, drain_eq]
  · rw [drain_eq]
  · rw [drain_eq]
  · rw [he, hL2]

end Verif.Otf2
