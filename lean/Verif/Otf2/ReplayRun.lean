import Verif.Otf2.ReplayLemmas
set_option autoImplicit false
/-! # The replay of the trace of a program -/

namespace Verif.Otf2

theorem find_drop (r r' : Nat) (pend : Pend) :
    find r' (drop r pend) = if r' = r then none else find r' pend := by
  induction pend with
  | nil => simp [drop, find]
  | cons a l ih =>
    obtain ⟨k, v⟩ := a
    simp only [drop] at ih
    by_cases hk : k = r
    · subst hk
      have : drop k ((k, v) :: l) = l.filter (fun x => x.1 ≠ k) := by simp [drop]
      rw [this, ih, find]
      by_cases h : r' = k
      · simp [h]
      · simp [h, Ne.symm h]
    · have : drop r ((k, v) :: l) = (k, v) :: l.filter (fun x => x.1 ≠ r) := by simp [drop, hk]
      rw [this, find, find, ih]
      by_cases h : k = r'
      · subst h; simp [hk]
      · simp [h]

theorem look_remove (r r' : Nat) (m : List (Nat × Nat)) :
    look r' (remove r m) = if r' = r then none else look r' m := by
  induction m with
  | nil => simp [remove, look]
  | cons a l ih =>
    obtain ⟨k, v⟩ := a
    simp only [remove] at ih
    by_cases hk : k = r
    · subst hk
      have : remove k ((k, v) :: l) = l.filter (fun x => x.1 ≠ k) := by simp [remove]
      rw [this, ih, look]
      by_cases h : r' = k
      · simp [h]
      · simp [h, Ne.symm h]
    · have : remove r ((k, v) :: l) = (k, v) :: l.filter (fun x => x.1 ≠ r) := by simp [remove, hk]
      rw [this, look, look, ih]
      by_cases h : k = r'
      · subst h; simp [hk]
      · simp [h]

theorem look_add (r p r' : Nat) (m : List (Nat × Nat)) :
    look r' (add r p m) = if r' = r then some p else look r' m := by
  rw [add, look, look_remove]
  by_cases h : r = r'
  · subst h; simp
  · simp [h, Ne.symm h]

theorem find_mem (r : Nat) (pend : Pend) : find r pend ≠ none ↔ r ∈ pend.map (·.1) := by
  induction pend with
  | nil => simp [find]
  | cons a l ih =>
    obtain ⟨k, v⟩ := a
    rw [find]
    by_cases h : k = r
    · simp [h]
    · simp only [h, if_false, ih, List.map_cons, List.mem_cons]
      constructor
      · intro hm; exact Or.inr hm
      · rintro (hm | hm)
        · exact absurd hm.symm h
        · exact hm

/-- Waiting for one more request in the call that is not left yet. -/
theorem inv_addWait {conv : Nat → Int} {used : List Nat} {pend : Pend} {t : Option Nat} {s : St} {E : List XC}
    {L : List (Call × XC)} {w : Call} (h : Inv conv used pend t s E L [w]) (hwr : w.ready = false)
    (hw : ∀ a b c d r, w.trig ≠ some (.irecv a b c d r)) (ht : some w.ptr ≠ t) (r : Nat) :
    ∃ s' E' L' w', addWait conv r s = .ok s' ∧ Inv conv used pend t s' E' L' [w'] ∧ s'.reqs = s.reqs ∧
      w'.start = w.start ∧ w'.ready = false ∧ w'.trig = some (.wait r) ∧
      (w.trig = none ∨ w.id = .wait → w'.id = w.id) ∧
      E' ++ L'.map (·.2) = E ++ L.map (·.2) ++ (if w.trig = none then [] else [⟨w.start, w.start, w.trig⟩]) ∧
      (∀ x ∈ L, x.1.ready = false → x ∈ L') := by
  have hpk : peekBack s.queue = .ok w := by rw [h.queue]; exact peekBack_last _ _
  cases htr : w.trig with
  | none =>
    obtain ⟨h1, _⟩ := inv_tail h (fun c => { c with trig := some (.wait r) }) rfl
    refine ⟨_, E, L, _, ?_, h1, rfl, rfl, hwr, rfl, fun _ => rfl, by simp, fun x hx _ => hx⟩
    simp only [addWait, hpk, htr, bind, Except.bind]
    rfl
  | some a =>
    have hn := h.nodup
    rw [h.queue] at hn
    let w2 : Call := { ptr := s.next, id := .wait, start := w.start, stop := 0, ready := false, trig := some (.wait r) }
    let w1 : Call := { w with stop := w.start }
    have hlt := h.lt
    have hwl : w.ptr < s.next := hlt w (by rw [h.queue]; simp)
    have hq : update w.ptr (fun c => { c with stop := c.start }) (s.queue ++ [w2])
        = L.map (·.1) ++ w1 :: [w2] := by
      rw [update_append, h.queue, update_last _ _ _ (last_ne hn), update_id]
      · simp [w1]
      · intro c hc; simp at hc; subst hc; simp only [w2]; omega
    have hpre : Pre conv used pend t
        { emplace .wait w.start (some (.wait r)) s with
          queue := update w.ptr (fun c => { c with stop := c.start }) (s.queue ++ [w2]) } E L (w1 :: [w2]) := by
      refine ⟨hq, h.emitted, h.fits, ?_, ?_, h.pendr, h.keys, h.made, h.uses⟩
      · simp only
        rw [update_ptrs _ _ _ (fun _ => by rfl), List.map_append, List.nodup_append]
        refine ⟨h.nodup, by simp, ?_⟩
        intro a ha b hb
        obtain ⟨c, hc, rfl⟩ := List.mem_map.1 ha
        simp at hb; subst hb
        have := hlt c hc
        simp only [w2]; omega
      · intro c hc
        have : c.ptr ∈ (s.queue ++ [w2]).map (·.ptr) := by
          rw [← update_ptrs w.ptr (fun c => { c with stop := c.start }) _ (fun _ => by rfl)]
          exact List.mem_map.2 ⟨c, hc, rfl⟩
        obtain ⟨c', hc', he⟩ := List.mem_map.1 this
        simp only [emplace]
        rcases List.mem_append.1 hc' with hc' | hc'
        · have := hlt c' hc'; omega
        · simp at hc'; subst hc'; simp only [w2] at he; omega
    obtain ⟨s', E', L', hs, hi, hr, _, he, hk⟩ := inv_ready (w := w1) hpre (by
      intro c hc; simp at hc; subst hc; rfl) hw
    refine ⟨s', E', L', w2, ?_, hi, hr, rfl, rfl, rfl, ?_, ?_, hk⟩
    · simp only [addWait, hpk, htr, bind, Except.bind]
      exact hs
    · rintro (hh | hh)
      · simp at hh
      · rw [hh]
    · rw [he]; simp [w1, htr]

theorem inv_forget {conv : Nat → Int} {used : List Nat} {pend : Pend} {s : St} {E : List XC}
    {L : List (Call × XC)} {tail : List Call} {r : Nat} (h : Inv conv used pend none s E L tail)
    (hr : find r pend = some none) :
    Inv conv used (drop r pend) none { s with reqs := remove r s.reqs } E L tail := by
  have hne : ∀ r' m, find r' pend = some (some m) → r' ≠ r := by
    intro r' m h1 he; subst he; rw [hr] at h1; simp at h1
  refine ⟨⟨h.queue, h.emitted, ?_, h.nodup, h.lt, ?_, ?_, ?_, h.uses⟩, h.head⟩
  · intro x hx
    have hf := h.fits x hx
    refine ⟨hf.start, hf.stop, ?_, ?_, hf.trig⟩
    · intro hh
      refine ⟨(hf.ready hh).1, ?_⟩
      intro a b c d r' hr'
      rw [find_drop]; split
      · rfl
      · exact (hf.ready hh).2 a b c d r' hr'
    · intro hh
      obtain ⟨r', m', h1, h2, h3⟩ := hf.waiting hh
      have := hne r' m' h1
      exact ⟨r', m', by rw [find_drop, if_neg this]; exact h1, by simp only; rw [look_remove, if_neg this]; exact h2, h3⟩
  · intro r' m' hr'
    rw [find_drop] at hr'
    split at hr'
    · simp at hr'
    · rename_i hn
      obtain ⟨x, hx, h1, h2⟩ := h.pendr r' m' hr'
      exact ⟨x, hx, by simp only; rw [look_remove, if_neg hn]; exact h1, h2⟩
  · intro r' hr'
    apply h.keys
    rw [find_drop] at hr'
    split at hr'
    · exact absurd rfl hr'
    · exact hr'
  · intro c hc a b c' d r' hr'
    rw [find_drop]; split
    · rfl
    · exact h.made c hc a b c' d r' hr'

/-- The event of the completion of one request. -/
theorem inv_completion {conv : Nat → Int} (size : Nat → Nat) {used : List Nat} {pend : Pend} {s : St} {E : List XC}
    {L : List (Call × XC)} {w : Call} (h : Inv conv used pend none s E L [w]) (hwr : w.ready = false)
    (hw : ∀ a b c d r, w.trig ≠ some (.irecv a b c d r)) {r : Nat} (hr : r ∈ pend.map (·.1)) :
    ∃ s' E' L' w', step conv size s (completion pend r) = .ok s' ∧
      Inv conv used (drop r pend) none s' E' L' [w'] ∧
      w'.start = w.start ∧ w'.ready = false ∧ w'.trig = some (.wait r) ∧
      (w.trig = none ∨ w.id = .wait → w'.id = w.id) ∧
      E' ++ L'.map (·.2) = E ++ L.map (·.2) ++ (if w.trig = none then [] else [⟨w.start, w.start, w.trig⟩]) := by
  rw [← find_mem] at hr
  cases hf : find r pend with
  | none => exact absurd hf hr
  | some v =>
    cases v with
    | none =>
      obtain ⟨s', E', L', w', h1, h2, h3, h4, h5, h6, h7, h8, _⟩ := inv_addWait h hwr hw (by simp) r
      refine ⟨_, E', L', w', ?_, inv_forget h2 hf, h4, h5, h6, h7, h8⟩
      simp only [completion, hf, step, h1, bind, Except.bind]
      rfl
    | some m =>
      obtain ⟨x, hx, hx1, hx2, hx3⟩ := h.pendr r m hf
      have hal : alive x.1.ptr s.queue = true :=
        alive_mem (c := x.1) (by rw [h.queue]; exact List.mem_append_left _ (List.mem_map.2 ⟨x, hx, rfl⟩)) rfl
      let g : Call → Call := fun c => { c with trig := some (.irecv m.src m.comm m.tag m.len r) }
      let f : Call → Call := fun c => if c.ptr = x.1.ptr then g c else c
      let L1 := L.map (fun y => (f y.1, y.2))
      have hfp : ∀ c, (f c).ptr = c.ptr := by intro c; simp only [f]; split <;> rfl
      have hL2 : L1.map (·.2) = L.map (·.2) := by
        simp only [L1, List.map_map]
        apply List.map_congr_left; intro y _; rfl
      have hn := h.nodup
      rw [h.queue, List.map_append, List.nodup_append] at hn
      have hwx : w.ptr ≠ x.1.ptr := by
        intro he
        exact hn.2.2 x.1.ptr (List.mem_map.2 ⟨x.1, List.mem_map.2 ⟨x, hx, rfl⟩, rfl⟩) w.ptr (by simp) he.symm
      have hnd : (L.map (fun z => z.1.ptr)).Nodup := by
        have := hn.1
        rwa [List.map_map] at this
      have huniq : ∀ y ∈ L, y.1.ptr = x.1.ptr → y = x := by
        intro y hy hyp
        have aux : ∀ (l : List (Call × XC)), (l.map (fun z => z.1.ptr)).Nodup → y ∈ l → x ∈ l → y = x := by
          intro l
          induction l with
          | nil => intro _ hy; simp at hy
          | cons a l ih =>
            intro hnd hy hx
            simp only [List.map_cons, List.nodup_cons] at hnd
            rcases List.mem_cons.1 hy with ha | hy' <;> rcases List.mem_cons.1 hx with hb | hx'
            · rw [ha, hb]
            · exact absurd (List.mem_map.2 ⟨x, hx', by rw [← ha]; exact hyp.symm⟩) hnd.1
            · exact absurd (List.mem_map.2 ⟨y, hy', by rw [← hb]; exact hyp⟩) hnd.1
            · exact ih hnd.2 hy' hx'
        exact aux L hnd hy hx
      have hq : update x.1.ptr g s.queue = L1.map (·.1) ++ [w] := by
        rw [h.queue, update_append, update_id x.1.ptr g [w] (by intro c hc; simp at hc; subst hc; exact hwx)]
        congr 1
        simp only [L1, List.map_map, update]
        apply List.map_congr_left; intro y _; rfl
      have hmap := update_ptrs x.1.ptr g s.queue (fun _ => rfl)
      have h1 : Inv conv used pend (some x.1.ptr) { s with queue := update x.1.ptr g s.queue } E L1 [w] := by
        refine ⟨⟨hq, h.emitted, ?_, by simp only; rw [hmap]; exact h.nodup, ?_, ?_, h.keys, h.made, by rw [hL2]; exact h.uses⟩, ?_⟩
        · intro y1 hy1
          obtain ⟨y, hy, rfl⟩ := List.mem_map.1 hy1
          have hf' := h.fits y hy
          by_cases hyp : y.1.ptr = x.1.ptr
          · have hyx := huniq y hy hyp
            subst hyx
            have hfy : f y.1 = g y.1 := by simp only [f, if_true]
            simp only [hfy]
            refine ⟨hf'.start, hf'.stop, fun hh => ?_, hf'.waiting, fun _ => hx3.symm⟩
            have : y.1.ready = true := hh
            rw [hx2] at this; simp at this
          · have hfy : f y.1 = y.1 := by simp only [f, if_neg hyp]
            simp only [hfy]
            refine ⟨hf'.start, hf'.stop, hf'.ready, hf'.waiting, fun hh => ?_⟩
            simp at hh; exact absurd hh hyp
        · intro c hc
          have : c.ptr ∈ s.queue.map (·.ptr) := by
            rw [← hmap]; exact List.mem_map.2 ⟨c, hc, rfl⟩
          obtain ⟨c', hc', he⟩ := List.mem_map.1 this
          have := h.lt c' hc'
          simp only at this ⊢; omega
        · intro r' m' hr'
          obtain ⟨y, hy, g1, g2, g3⟩ := h.pendr r' m' hr'
          refine ⟨(f y.1, y.2), List.mem_map.2 ⟨y, hy, rfl⟩, by simp only; rw [hfp]; exact g1, ?_, g3⟩
          simp only [f]; split
          · exact g2
          · exact g2
        · intro y1 hy1
          simp only [L1, List.head?_map] at hy1
          cases hL : L.head? with
          | none => rw [hL] at hy1; simp at hy1
          | some y =>
            rw [hL] at hy1; simp at hy1; subst hy1
            have := h.head y (by rw [hL]; rfl)
            simp only [f]; split
            · exact this
            · exact this
      obtain ⟨s', E', L', w', a1, a2, a3, a4, a5, a6, a7, a8, _⟩ :=
        inv_addWait h1 hwr hw (by simp only [ne_eq, Option.some.injEq]; exact hwx) r
      have a3' : s'.reqs = s.reqs := a3
      obtain ⟨s2, E2, L2, b1, b2, _, _, b5⟩ := inv_received a2.toPre (by
        intro c hc; simp at hc; subst hc; exact a5) hf (by rw [a3']; exact hx1)
        (fun r' => find_drop r r' pend) (fun r' => look_remove r r' _)
      refine ⟨s2, E2, L2, w', ?_, b2, a4, a5, a6, a7, ?_⟩
      · simp only [completion, hf, step, hx1, hal, if_true]
        show Except.bind (addWait conv r { s with queue := update x.1.ptr g s.queue }) _ = _
        rw [a1]
        exact b1
      · rw [b5, a8, hL2]

theorem run_append (conv : Nat → Int) (size : Nat → Nat) (a b : List Ev) (s s' : St)
    (h : run conv size a s = .ok s') : run conv size (a ++ b) s = run conv size b s' := by
  induction a generalizing s with
  | nil => simp [run] at h; subst h; rfl
  | cons e a ih =>
    rw [List.cons_append, run]
    rw [run] at h
    cases hs : step conv size s e with
    | error x => rw [hs] at h; simp at h
    | ok s1 => rw [hs] at h; exact ih s1 h

theorem run_cons (conv : Nat → Int) (size : Nat → Nat) {e : Ev} {b : List Ev} {s s' : St}
    (h : step conv size s e = .ok s') : run conv size (e :: b) s = run conv size b s' := by
  rw [run, h]

/-- Leaving a call. -/
theorem inv_leave {conv : Nat → Int} {used : List Nat} {pend : Pend} {s : St} {E : List XC}
    {L : List (Call × XC)} {w : Call} (h : Inv conv used pend none s E L [w])
    (trig : Option (Option Act)) (hw : ∀ a b c d r, trig.getD w.trig ≠ some (.irecv a b c d r)) (time : Nat) :
    ∃ s' E' L', leaveReady conv w.id time trig s = .ok s' ∧ Inv conv used pend none s' E' L' [] ∧
      E' ++ L'.map (·.2) = E ++ L.map (·.2) ++ [⟨w.start, time, trig.getD w.trig⟩] := by
  have hfl : findLatest w.id s.queue = some w := by rw [h.queue]; exact findLatest_last _ _
  obtain ⟨h1, _⟩ := inv_tail h (fun x => { x with stop := time, trig := trig.getD x.trig }) rfl
  obtain ⟨s', E', L', b1, b2, _, _, b5, _⟩ := inv_ready h1.toPre (by simp) hw
  refine ⟨s', E', L', ?_, b2, b5⟩
  simp only [leaveReady, hfl]
  exact b1

/-- The events of the completions in one call. -/
theorem inv_completions {conv : Nat → Int} (size : Nat → Nat) {used : List Nat} (rs : List Nat) :
    ∀ {pend : Pend} {s : St} {E : List XC} {L : List (Call × XC)} {w : Call} (p : Option Nat),
    Inv conv used pend none s E L [w] → w.ready = false → w.id = .wait → w.trig = p.map Act.wait →
    rs.Nodup → (∀ r ∈ rs, r ∈ pend.map (·.1)) →
    ∃ s' E' L' w', run conv size (completions pend rs) s = .ok s' ∧
      Inv conv used (rs.foldl (fun p r => drop r p) pend) none s' E' L' [w'] ∧
      w'.start = w.start ∧ w'.ready = false ∧ w'.id = .wait ∧ (∀ a b c d r, w'.trig ≠ some (.irecv a b c d r)) ∧
      ∀ e, E' ++ L'.map (·.2) ++ [⟨w.start, e, w'.trig⟩]
        = E ++ L.map (·.2) ++ waitCalls w.start e (p.toList ++ rs) := by
  induction rs with
  | nil =>
    intro pend s E L w p h hwr hid htr _ _
    refine ⟨s, E, L, w, rfl, h, rfl, hwr, hid, ?_, ?_⟩
    · intro a b c d r; rw [htr]; cases p <;> simp
    · intro e; rw [htr]; cases p <;> simp [waitCalls]
  | cons r rs ih =>
    intro pend s E L w p h hwr hid htr hnd hmem
    rw [List.nodup_cons] at hnd
    obtain ⟨s1, E1, L1, w1, a1, a2, a3, a4, a5, a6, a7⟩ := inv_completion size h hwr (by
      intro a b c d r; rw [htr]; cases p <;> simp) (hmem r (by simp))
    obtain ⟨s2, E2, L2, w2, b1, b2, b3, b4, b5, b6, b7⟩ := ih (some r) a2 a4 (by rw [a6 (Or.inr hid), hid]) a5 hnd.2 (by
      intro r' hr'
      rw [← find_mem, find_drop, if_neg]
      · rw [find_mem]; exact hmem r' (List.mem_cons_of_mem _ hr')
      · intro he; subst he; exact hnd.1 hr')
    refine ⟨s2, E2, L2, w2, ?_, b2, by rw [b3, a3], b4, b5, b6, ?_⟩
    · rw [completions, run_cons _ _ a1]; exact b1
    · intro e
      have := b7 e
      rw [a3] at this
      rw [this, a7, htr]
      cases p with
      | none => simp
      | some q => simp [waitCalls]

/-- A request that starts and is not a receive. -/
theorem inv_isend {conv : Nat → Int} {used : List Nat} {pend : Pend} {s : St} {E : List XC}
    {L : List (Call × XC)} {tail : List Call} (h : Inv conv used pend none s E L tail) {r : Nat} (hr : r ∉ used)
    (p : Nat) :
    Inv conv (r :: used) ((r, none) :: pend) none { s with reqs := add r p s.reqs } E L tail := by
  have hnone : find r pend = none := by
    cases hf : find r pend with
    | none => rfl
    | some v => exact absurd (h.keys r (by rw [hf]; simp)) hr
  have hfind : ∀ r', r' ≠ r → find r' ((r, none) :: pend) = find r' pend := by
    intro r' hne; rw [find, if_neg (Ne.symm hne)]
  refine ⟨⟨h.queue, h.emitted, ?_, h.nodup, h.lt, ?_, ?_, ?_, ?_⟩, h.head⟩
  · intro x hx
    have hf := h.fits x hx
    refine ⟨hf.start, hf.stop, ?_, ?_, hf.trig⟩
    · intro hh
      refine ⟨(hf.ready hh).1, ?_⟩
      intro a b c d r' hr'
      have hu := h.uses x.2 (List.mem_append_right _ (List.mem_map.2 ⟨x, hx, rfl⟩)) a b c d r' hr'
      rw [hfind r' (by intro he; subst he; exact hr hu)]
      exact (hf.ready hh).2 a b c d r' hr'
    · intro hh
      obtain ⟨r', m', h1, h2, h3⟩ := hf.waiting hh
      have hne : r' ≠ r := by intro he; subst he; rw [hnone] at h1; simp at h1
      exact ⟨r', m', by rw [hfind r' hne]; exact h1, by simp only; rw [look_add, if_neg hne]; exact h2, h3⟩
  · intro r' m' hr'
    have hne : r' ≠ r := by intro he; subst he; simp [find] at hr'
    rw [hfind r' hne] at hr'
    obtain ⟨x, hx, h1, h2⟩ := h.pendr r' m' hr'
    exact ⟨x, hx, by simp only; rw [look_add, if_neg hne]; exact h1, h2⟩
  · intro r' hr'
    by_cases hne : r' = r
    · simp [hne]
    · rw [hfind r' hne] at hr'
      exact List.mem_cons_of_mem _ (h.keys r' hr')
  · intro c hc a b c' d r' hr'
    have hu := h.uses c (List.mem_append_left _ hc) a b c' d r' hr'
    rw [hfind r' (by intro he; subst he; exact hr hu)]
    exact h.made c hc a b c' d r' hr'
  · intro c hc a b c' d r' hr'
    exact List.mem_cons_of_mem _ (h.uses c hc a b c' d r' hr')

/-- A receive that starts a request and is left. -/
theorem inv_irecv {conv : Nat → Int} {used : List Nat} {pend : Pend} {s : St} {E : List XC}
    {L : List (Call × XC)} {w : Call} (h : Inv conv used pend none s E L [w]) (hwr : w.ready = false)
    {r : Nat} (hr : r ∉ used) (m : Msg) :
    Inv conv (r :: used) ((r, some m) :: pend) none { s with reqs := add r w.ptr s.reqs } E
      (L ++ [(w, ⟨w.start, w.stop, some (.irecv m.src m.comm m.tag m.len r)⟩)]) [] := by
  have hnone : find r pend = none := by
    cases hf : find r pend with
    | none => rfl
    | some v => exact absurd (h.keys r (by rw [hf]; simp)) hr
  have hfind : ∀ r', r' ≠ r → find r' ((r, some m) :: pend) = find r' pend := by
    intro r' hne; rw [find, if_neg (Ne.symm hne)]
  refine ⟨⟨by simp [h.queue], h.emitted, ?_, h.nodup, h.lt, ?_, ?_, ?_, ?_⟩, ?_⟩
  · intro x hx
    rcases List.mem_append.1 hx with hx | hx
    · have hf := h.fits x hx
      refine ⟨hf.start, hf.stop, ?_, ?_, hf.trig⟩
      · intro hh
        refine ⟨(hf.ready hh).1, ?_⟩
        intro a b c d r' hr'
        have hu := h.uses x.2 (List.mem_append_right _ (List.mem_map.2 ⟨x, hx, rfl⟩)) a b c d r' hr'
        rw [hfind r' (by intro he; subst he; exact hr hu)]
        exact (hf.ready hh).2 a b c d r' hr'
      · intro hh
        obtain ⟨r', m', h1, h2, h3⟩ := hf.waiting hh
        have hne : r' ≠ r := by intro he; subst he; rw [hnone] at h1; simp at h1
        exact ⟨r', m', by rw [hfind r' hne]; exact h1, by simp only; rw [look_add, if_neg hne]; exact h2, h3⟩
    · simp at hx; subst hx
      refine ⟨rfl, rfl, fun hh => ?_, fun _ => ⟨r, m, by simp [find], by simp only; rw [look_add, if_pos rfl], rfl⟩, fun hh => by simp at hh⟩
      simp only at hh; rw [hwr] at hh; simp at hh
  · intro r' m' hr'
    by_cases hne : r' = r
    · subst hne
      simp [find] at hr'; subst hr'
      exact ⟨_, List.mem_append_right _ (List.mem_singleton.2 rfl), by simp only; rw [look_add, if_pos rfl], hwr, rfl⟩
    · rw [hfind r' hne] at hr'
      obtain ⟨x, hx, h1, h2⟩ := h.pendr r' m' hr'
      exact ⟨x, List.mem_append_left _ hx, by simp only; rw [look_add, if_neg hne]; exact h1, h2⟩
  · intro r' hr'
    by_cases hne : r' = r
    · simp [hne]
    · rw [hfind r' hne] at hr'
      exact List.mem_cons_of_mem _ (h.keys r' hr')
  · intro c hc a b c' d r' hr'
    have hu := h.uses c (List.mem_append_left _ hc) a b c' d r' hr'
    rw [hfind r' (by intro he; subst he; exact hr hu)]
    exact h.made c hc a b c' d r' hr'
  · intro c hc a b c' d r' hr'
    simp only [List.map_append, List.map_cons, List.map_nil] at hc
    rw [← List.append_assoc] at hc
    rcases List.mem_append.1 hc with hc | hc
    · exact List.mem_cons_of_mem _ (h.uses c hc a b c' d r' hr')
    · simp at hc; subst hc
      simp only [Option.some.injEq, Act.irecv.injEq] at hr'
      rw [hr'.2.2.2.2]; simp
  · intro x hx
    cases L with
    | nil => simp at hx; subst hx; exact hwr
    | cons y L => exact h.head x (by simpa using hx)

theorem enter_simple (conv : Nat → Int) (size : Nat → Nat) (s : St) (g : Id) (t : Nat) (h : simple g = true) :
    step conv size s (.enter g t) = .ok (emplace g t none s) := by
  cases g <;> first | rfl | simp [simple] at h

theorem leave_simple (conv : Nat → Int) (size : Nat → Nat) (s : St) (g : Id) (t : Nat) (h : simple g = true) :
    step conv size s (.leave g t) = leaveReady conv g t none s := by
  cases g <;> first | rfl | simp [simple] at h

theorem enter_waits (conv : Nat → Int) (size : Nat → Nat) (s : St) (g : Id) (t : Nat) (h : waits g = true) :
    step conv size s (.enter g t) = .ok (emplace .wait t none s) := by
  cases g <;> first | rfl | simp [waits] at h

theorem leave_waits (conv : Nat → Int) (size : Nat → Nat) (s : St) (g : Id) (t : Nat) (h : waits g = true) :
    step conv size s (.leave g t) = leaveReady conv .wait t none s := by
  cases g <;> first | rfl | simp [waits] at h

/-- The last event of a call. -/
theorem run_last (conv : Nat → Int) (size : Nat → Nat) {e : Ev} {s : St} {r : Except Err St}
    (h : step conv size s e = r) : run conv size [e] s = r := by
  rw [run, h]; cases r <;> rfl

/-- The events of one call. -/
theorem inv_op {conv : Nat → Int} (size : Nat → Nat) {used : List Nat} {pend : Pend} {s : St} {E : List XC}
    {L : List (Call × XC)} (h : Inv conv used pend none s E L []) (op : Op) (ha : allowed used pend op) :
    ∃ s' E' L', run conv size (eventsOf pend op) s = .ok s' ∧
      Inv conv (usedAfter used op) (pendAfter pend op) none s' E' L' [] ∧
      E' ++ L'.map (·.2) = E ++ L.map (·.2) ++ callsOf size op := by
  obtain ⟨body, start, stop⟩ := op
  have henter := fun (g : Id) => inv_enter h g start
  cases body with
  | send d c t l =>
    obtain ⟨h2, hq⟩ := inv_tail (henter .send) (fun x => { x with trig := some (.send d c t l) }) rfl
    obtain ⟨s', E', L', h3, h4, h5⟩ := inv_leave h2 none (by intro a b c d r; simp) stop
    refine ⟨s', E', L', ?_, h4, h5⟩
    simp only [eventsOf]
    rw [run_cons (s' := emplace .send start none s) _ _ rfl]
    have hfl : findLatest .send (emplace .send start none s).queue = some { ptr := s.next, id := .send, start := start, stop := 0, ready := false, trig := none } := by
      rw [(henter .send).queue]; simp [findLatest]
    rw [run_cons _ _ (by simp only [step, hfl]; rfl)]
    exact run_last _ _ h3
  | recv m =>
    obtain ⟨h2, hq⟩ := inv_tail (henter .recv) (fun x => { x with trig := some (.recv m.src m.comm m.tag m.len) }) rfl
    obtain ⟨s', E', L', h3, h4, h5⟩ := inv_leave h2 none (by intro a b c d r; simp) stop
    refine ⟨s', E', L', ?_, h4, h5⟩
    simp only [eventsOf]
    rw [run_cons (s' := emplace .recv start none s) _ _ rfl]
    have hfl : findLatest .recv (emplace .recv start none s).queue = some { ptr := s.next, id := .recv, start := start, stop := 0, ready := false, trig := none } := by
      rw [(henter .recv).queue]; simp [findLatest]
    rw [run_cons _ _ (by simp only [step, hfl]; rfl)]
    exact run_last _ _ h3
  | isend g d c t l r =>
    have ha' : simple g = true ∧ r ∉ used := ha
    have hi := inv_isend (henter g) ha'.2 s.next
    obtain ⟨h2, hq⟩ := inv_tail hi (fun x => { x with trig := some (.isend d c t l r) }) rfl
    obtain ⟨s', E', L', h3, h4, h5⟩ := inv_leave h2 none (by intro a b c d r; simp) stop
    refine ⟨s', E', L', ?_, h4, h5⟩
    simp only [eventsOf]
    rw [run_cons _ _ (enter_simple _ _ _ _ _ ha'.1)]
    have hpk : peekBack (emplace g start none s).queue = .ok { ptr := s.next, id := g, start := start, stop := 0, ready := false, trig := none } := by
      rw [(henter g).queue]; exact peekBack_last _ _
    rw [run_cons _ _ (by simp only [step, hpk, bind, Except.bind]; rfl)]
    exact run_last _ _ ((leave_simple _ _ _ _ _ ha'.1).trans h3)
  | irecv m r =>
    have ha' : r ∉ used := ha
    obtain ⟨h2, hq⟩ := inv_tail (henter .irecv) (fun x => { x with stop := stop }) rfl
    have hi := inv_irecv h2 rfl ha' m
    refine ⟨_, _, _, ?_, hi, by simp [callsOf]⟩
    simp only [eventsOf]
    rw [run_cons (s' := emplace .irecv start none s) _ _ rfl]
    have hpk : peekBack (emplace .irecv start none s).queue = .ok { ptr := s.next, id := .irecv, start := start, stop := 0, ready := false, trig := none } := by
      rw [(henter .irecv).queue]; exact peekBack_last _ _
    have hfl : findLatest .irecv (emplace .irecv start none s).queue = some { ptr := s.next, id := .irecv, start := start, stop := 0, ready := false, trig := none } := by
      rw [(henter .irecv).queue]; simp [findLatest]
    rw [run_cons _ _ (by simp only [step, hpk, bind, Except.bind]; rfl)]
    apply run_last
    simp only [step, hfl]
  | complete g rs =>
    have ha' : waits g = true ∧ rs.Nodup ∧ ∀ r ∈ rs, r ∈ pend.map (·.1) := ha
    obtain ⟨s1, E1, L1, w1, a1, a2, a3, a4, a5, a6, a7⟩ :=
      inv_completions size rs none (henter .wait) rfl rfl rfl ha'.2.1 ha'.2.2
    obtain ⟨s', E', L', h3, h4, h5⟩ := inv_leave a2 none (by intro a b c d r; exact a6 a b c d r) stop
    refine ⟨s', E', L', ?_, h4, ?_⟩
    · simp only [eventsOf]
      rw [run_cons _ _ (enter_waits _ _ _ _ _ ha'.1), run_append _ _ _ _ _ _ a1]
      rw [a5] at h3
      exact run_last _ _ ((leave_waits _ _ _ _ _ ha'.1).trans h3)
    · rw [h5, a3]; exact a7 stop
  | probe g q =>
    cases q with
    | none =>
      have ha' : simple g = true := ha
      obtain ⟨s', E', L', h3, h4, h5⟩ := inv_leave (henter g) none (by intro a b c d r; simp) stop
      refine ⟨s', E', L', ?_, h4, h5⟩
      simp only [eventsOf]
      rw [run_cons _ _ (enter_simple _ _ _ _ _ ha')]
      exact run_last _ _ ((leave_simple _ _ _ _ _ ha').trans h3)
    | some r =>
      have ha' : simple g = true ∧ r ∈ pend.map (·.1) := ha
      obtain ⟨s1, E1, L1, w1, a1, a2, a3, a4, a5, a6, a7⟩ :=
        inv_completion size (henter g) rfl (by intro a b c d r; simp) ha'.2
      have a6' := a6 (Or.inl rfl)
      obtain ⟨s', E', L', h3, h4, h5⟩ := inv_leave a2 none (by intro a b c d r; simp [a5]) stop
      refine ⟨s', E', L', ?_, h4, ?_⟩
      · simp only [eventsOf]
        rw [run_cons _ _ (enter_simple _ _ _ _ _ ha'.1), run_cons _ _ a1]
        rw [a6'] at h3
        exact run_last _ _ ((leave_simple _ _ _ _ _ ha'.1).trans h3)
      · rw [h5, a7, a3]; simp [a5, callsOf]
  | coll n o c root sn rv =>
    have hpk : peekBack (emplace (.other n) start none s).queue = .ok { ptr := s.next, id := .other n, start := start, stop := 0, ready := false, trig := none } := by
      rw [(henter (.other n)).queue]; exact peekBack_last _ _
    cases hc : collAct o c root sn rv (size c) with
    | none =>
      obtain ⟨s', E', L', h3, h4, h5⟩ := inv_leave (henter (.other n)) none (by intro a b c d r; simp) stop
      refine ⟨s', E', L', ?_, h4, by rw [h5]; simp [callsOf, hc]⟩
      simp only [eventsOf]
      rw [run_cons (s' := emplace (.other n) start none s) _ _ rfl, run_cons (s' := emplace (.other n) start none s) _ _ rfl]
      rw [run_cons _ _ (by simp only [step, hc]; rfl)]
      exact run_last _ _ h3
    | some a =>
      obtain ⟨h2, hq⟩ := inv_tail (henter (.other n)) (fun x => { x with trig := some a }) rfl
      obtain ⟨s', E', L', h3, h4, h5⟩ := inv_leave h2 none (by
        intro x b c' d r hh
        simp only [Option.getD_none, Option.some.injEq] at hh
        subst hh
        cases o <;> simp [collAct] at hc) stop
      refine ⟨s', E', L', ?_, h4, by rw [h5]; simp [callsOf, hc]⟩
      simp only [eventsOf]
      rw [run_cons (s' := emplace (.other n) start none s) _ _ rfl, run_cons (s' := emplace (.other n) start none s) _ _ rfl]
      rw [run_cons _ _ (by simp only [step, hc, hpk, bind, Except.bind]; rfl)]
      exact run_last _ _ h3
  | plain g =>
    have ha' : simple g = true := ha
    obtain ⟨s', E', L', h3, h4, h5⟩ := inv_leave (henter g) none (by intro a b c d r; simp) stop
    refine ⟨s', E', L', ?_, h4, h5⟩
    simp only [eventsOf]
    rw [run_cons _ _ (enter_simple _ _ _ _ _ ha')]
    exact run_last _ _ ((leave_simple _ _ _ _ _ ha').trans h3)
  | skipped n =>
    exact ⟨s, E, L, rfl, h, by simp [callsOf]⟩
  | init =>
    obtain ⟨s', E', L', h3, h4, h5⟩ := inv_leave (henter .init) (some (some .print)) (by intro a b c d r; simp) stop
    refine ⟨s', E', L', ?_, h4, h5⟩
    simp only [eventsOf]
    rw [run_cons (s' := emplace .init start none s) _ _ rfl]
    exact run_last _ _ h3
  | finalize =>
    obtain ⟨s', E', L', h3, h4, h5⟩ := inv_leave (henter .finalize) (some (some .finalize)) (by intro a b c d r; simp) stop
    refine ⟨s', E', L', ?_, h4, h5⟩
    simp only [eventsOf]
    rw [run_cons (s' := emplace .finalize start none s) _ _ rfl]
    exact run_last _ _ h3

/-- The events of a program. -/
theorem inv_program {conv : Nat → Int} (size : Nat → Nat) (ops : List Op) :
    ∀ {used : List Nat} {pend : Pend} {s : St} {E : List XC} {L : List (Call × XC)},
    Inv conv used pend none s E L [] → Legal used pend ops →
    ∃ s' E' L' used', run conv size (record pend ops) s = .ok s' ∧
      Inv conv used' (pending pend ops) none s' E' L' [] ∧
      E' ++ L'.map (·.2) = E ++ L.map (·.2) ++ ops.flatMap (callsOf size) := by
  induction ops with
  | nil => intro used pend s E L h _; exact ⟨s, E, L, used, rfl, h, by simp⟩
  | cons op ops ih =>
    intro used pend s E L h hl
    obtain ⟨s1, E1, L1, a1, a2, a3⟩ := inv_op size h op hl.1
    obtain ⟨s2, E2, L2, u2, b1, b2, b3⟩ := ih a2 hl.2
    refine ⟨s2, E2, L2, u2, ?_, b2, by rw [b3, a3]; simp⟩
    rw [record, run_append _ _ _ _ _ _ a1]; exact b1

theorem inv_init (conv : Nat → Int) : Inv conv [] [] none {} [] [] [] := by
  refine ⟨⟨rfl, rfl, by simp, by simp, by simp, ?_, ?_, by simp, by simp⟩, by simp⟩
  · intro r m h; simp [find] at h
  · intro r h; simp [find] at h

/-- A call that the replay makes is not a receive that is pending. -/
def okc (pend : Pend) (c : XC) : Bool :=
  match c.act with
  | some (.irecv _ _ _ _ r) => (find r pend).isNone
  | _ => true

theorem takeWhile_split {α : Type} (p : α → Bool) (E C : List α) (hE : ∀ x ∈ E, p x = true)
    (hC : ∀ x ∈ C.head?, p x = false) : (E ++ C).takeWhile p = E := by
  induction E with
  | nil =>
    cases C with
    | nil => rfl
    | cons a C => simp [List.takeWhile_cons, hC a (by simp)]
  | cons a E ih =>
    rw [List.cons_append, List.takeWhile_cons, hE a (by simp)]
    simp only [if_true]
    rw [ih (fun x hx => hE x (List.mem_cons_of_mem _ hx))]

theorem okc_waits (pend : Pend) (s e : Nat) (rs : List Nat) : ∀ c ∈ waitCalls s e rs, okc pend c = true := by
  fun_induction waitCalls s e rs with
  | case1 => intro c hc; simp at hc; subst hc; rfl
  | case2 => intro c hc; simp at hc; subst hc; rfl
  | case3 r r' rs ih =>
    intro c hc
    rcases List.mem_cons.1 hc with rfl | hc
    · rfl
    · exact ih c hc

theorem okc_op (size : Nat → Nat) (pend : Pend) (op : Op) :
    (finished pend op = true ∧ ∀ c ∈ callsOf size op, okc pend c = true) ∨
    (finished pend op = false ∧ ∃ c, callsOf size op = [c] ∧ okc pend c = false) := by
  obtain ⟨body, start, stop⟩ := op
  cases body with
  | irecv m r =>
    cases hf : find r pend with
    | none =>
      left
      refine ⟨?_, by intro c hc; simp [callsOf] at hc; subst hc; simp [okc, hf]⟩
      have : r ∉ pend.map (·.1) := by rw [← find_mem, hf]; simp
      simp only [finished]
      simp only [Bool.not_eq_true', List.contains_eq_mem, decide_eq_false_iff_not]
      exact this
    | some v =>
      right
      refine ⟨?_, _, rfl, by simp [okc, hf]⟩
      have : r ∈ pend.map (·.1) := by rw [← find_mem, hf]; simp
      simp only [finished]
      simp only [Bool.not_eq_false', List.contains_eq_mem, decide_eq_true_eq]
      exact this
  | complete g rs => left; exact ⟨rfl, okc_waits _ _ _ _⟩
  | probe g q =>
    left
    cases q <;> exact ⟨rfl, by intro c hc; simp [callsOf] at hc; subst hc; rfl⟩
  | coll n o c root s v =>
    left
    refine ⟨rfl, ?_⟩
    intro x hx; simp [callsOf] at hx; subst hx
    cases o <;> rfl
  | skipped n => left; exact ⟨rfl, by simp [callsOf]⟩
  | _ => left; exact ⟨rfl, by intro c hc; simp [callsOf] at hc; subst hc; rfl⟩

theorem takeWhile_all {α : Type} (p : α → Bool) (a b : List α) (h : ∀ x ∈ a, p x = true) :
    (a ++ b).takeWhile p = a ++ b.takeWhile p := by
  induction a with
  | nil => rfl
  | cons x a ih =>
    rw [List.cons_append, List.takeWhile_cons, h x (by simp)]
    simp only [if_true, List.cons_append]
    rw [ih (fun y hy => h y (List.mem_cons_of_mem _ hy))]

theorem takeWhile_calls (size : Nat → Nat) (pend : Pend) (ops : List Op) :
    (ops.flatMap (callsOf size)).takeWhile (okc pend)
      = (ops.takeWhile (finished pend)).flatMap (callsOf size) := by
  induction ops with
  | nil => rfl
  | cons op ops ih =>
    rw [List.flatMap_cons, List.takeWhile_cons]
    rcases okc_op size pend op with ⟨h1, h2⟩ | ⟨h1, c, h2, h3⟩
    · rw [h1, takeWhile_all _ _ _ h2, ih]; simp
    · rw [h1, h2]; simp [List.takeWhile_cons, h3]

theorem actOf_mpi (size : Nat → Nat) (o : CollOp) (c root s v : Nat) :
    actOf (collAct o c root s v (size c)) = (mpiOf size (.coll 0 o c root s v)).map .call := by
  cases o <;> rfl

theorem seen_append (a b : List Out) : seen (a ++ b) = seen a ++ seen b := by simp [seen]

theorem seen_start_self (t : Int) : seen (startMpi t t) = [] := by
  unfold startMpi
  split
  · rfl
  · simp [seen]

theorem emit_cons (conv : Nat → Int) (a : Int × List Out) (c : XC) (l : List XC) :
    emit conv a (c :: l) = emit conv (emit1 conv a c) l := rfl

theorem emit_waits (conv : Nat → Int) (s e : Nat) (rs : List Nat) : ∀ (now : Int) (out : List Out),
    (emit conv (now, out) (waitCalls s e rs)).1 = conv e ∧
    seen (emit conv (now, out) (waitCalls s e rs)).2
      = seen out ++ seen (startMpi now (conv s)) ++ (rs.map (fun r => Out.call (.wait r))) := by
  fun_induction waitCalls s e rs with
  | case1 => intro now out; simp [emit, emit1, actOf, seen_append]
  | case2 r => intro now out; simp [emit, emit1, actOf, seen_append, seen]
  | case3 r r' rs ih =>
    intro now out
    rw [emit_cons]
    obtain ⟨h1, h2⟩ := ih (emit1 conv (now, out) ⟨s, s, some (.wait r)⟩).1 (emit1 conv (now, out) ⟨s, s, some (.wait r)⟩).2
    refine ⟨h1, ?_⟩
    rw [show (emit1 conv (now, out) ⟨s, s, some (.wait r)⟩) = ((emit1 conv (now, out) ⟨s, s, some (.wait r)⟩).1, (emit1 conv (now, out) ⟨s, s, some (.wait r)⟩).2) from rfl, h2]
    simp only [emit1, seen_append, seen_start_self, List.append_nil, List.map_cons]
    simp [actOf, seen]

/-- The gap before a call: the replay knows the end of the call before only if it is not zero. -/
theorem gap_eq (last : Option Int) (now wall : Int) (h : now = last.getD 0) (hl : last ≠ some 0) :
    startMpi now wall = gap last wall := by
  cases last with
  | none => simp at h; simp [startMpi, h, gap]
  | some t =>
    simp at h hl
    subst h
    simp [startMpi, hl, gap]

/-- What the replay does when it makes the calls of a program. -/
theorem emit_program (conv : Nat → Int) (size : Nat → Nat) (ops : List Op) :
    ∀ (last : Option Int) (out : List Out), last ≠ some 0 → (∀ op ∈ ops, conv op.stop ≠ 0) →
    seen (emit conv (last.getD 0, out) (ops.flatMap (callsOf size))).2
      = seen out ++ seen (faithful conv size last ops) := by
  induction ops with
  | nil => intro last out _ _; simp [emit, faithful, seen]
  | cons op ops ih =>
    intro last out hl hs
    have hs' := fun o ho => hs o (List.mem_cons_of_mem _ ho)
    have h0 := hs op (by simp)
    have key : ∀ (one : Int × List Out) (pre : List Out),
        emit conv (last.getD 0, out) (callsOf size op) = one → one.1 = conv op.stop →
        seen one.2 = seen out ++ pre →
        seen (emit conv (last.getD 0, out) ((op :: ops).flatMap (callsOf size))).2
          = seen out ++ pre ++ seen (faithful conv size (some (conv op.stop)) ops) := by
      intro one pre h1 h2 h3
      have : emit conv (last.getD 0, out) ((op :: ops).flatMap (callsOf size)) = emit conv one (ops.flatMap (callsOf size)) := by
        rw [List.flatMap_cons, ← h1]; simp [emit, List.foldl_append]
      rw [this]
      have e : one = ((some (conv op.stop)).getD 0, one.2) := by rw [Option.getD_some, ← h2]
      rw [e, ih (some (conv op.stop)) one.2 (by simpa using h0) hs', h3]
    obtain ⟨body, start, stop⟩ := op
    have g := gap_eq last (last.getD 0) (conv start) rfl hl
    cases body with
    | skipped n =>
      simp only [List.flatMap_cons, callsOf, List.nil_append, faithful]
      exact ih last out hl hs'
    | complete gg rs =>
      have hw := emit_waits conv start stop rs (last.getD 0) out
      rw [key _ (seen (startMpi (last.getD 0) (conv start)) ++ rs.map (fun r => Out.call (.wait r))) rfl hw.1 (by
        simp only [callsOf]; rw [hw.2]; simp)]
      simp only [faithful, mpiOf, seen_append, g, List.map_map]
      have : seen (rs.map (Out.call ∘ Act.wait)) = rs.map (fun r => Out.call (.wait r)) := by
        simp [seen, Function.comp_def]
      rw [this]; simp
    | probe gg q =>
      cases q <;>
      · rw [key _ _ rfl (by simp [callsOf, emit, emit1]) (by simp only [callsOf, emit, List.foldl, emit1, seen_append]; rfl)]
        simp only [faithful, mpiOf, seen_append, g, actOf]
        simp
    | coll n o c root s v =>
      rw [key _ _ rfl (by simp [callsOf, emit, emit1]) (by simp only [callsOf, emit, List.foldl, emit1, seen_append]; rfl)]
      rw [actOf_mpi]
      simp only [faithful, mpiOf, seen_append, g]
      simp
    | _ =>
      rw [key _ _ rfl (by simp [callsOf, emit, emit1]) (by simp only [callsOf, emit, List.foldl, emit1, seen_append]; rfl)]
      simp only [faithful, mpiOf, seen_append, g, actOf]
      simp

end Verif.Otf2
