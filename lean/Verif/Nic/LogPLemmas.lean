import Verif.Nic.LogP
set_option autoImplicit false
/-
Invariants of the LogP network.
-/
namespace SST.Nic.LogP

/-- Sending, in every reachable state. -/
structure SInv (c : Cfg) (s : Net) : Prop where
  calls : s.sent.Pairwise fun a b => a.call ≤ b.call
  past : ∀ r ∈ s.sent, r.call ≤ s.now
  order : s.sent.Pairwise fun a b => a.msg.src = b.msg.src → c.negligible < a.msg.bytes →
    c.negligible < b.msg.bytes → a.stop ≤ b.start
  free : ∀ r ∈ s.sent, c.negligible < r.msg.bytes → r.stop ≤ (s.nics r.msg.src).outFree
  why : ∀ i, (s.nics i).outFree = 0 ∨
    ∃ r ∈ s.sent, r.msg.src = i ∧ c.negligible < r.msg.bytes ∧ r.stop = (s.nics i).outFree
  times : ∀ r ∈ s.sent, r.call ≤ r.start ∧ r.arr = arrival c r.start r.extra r.msg ∧
    (c.negligible < r.msg.bytes → r.stop = r.start + c.injLat + c.injByte * r.msg.bytes) ∧
    (r.msg.bytes ≤ c.negligible → r.start = r.call ∧ r.stop = r.call)
  wait : ∀ r ∈ s.sent, r.start = r.call ∨ ∃ r' ∈ s.sent, r'.msg.src = r.msg.src ∧
    c.negligible < r'.msg.bytes ∧ r'.stop = r.start
  ahead : ∀ r ∈ s.wire, s.now ≤ r.arr
  once : (s.got.map (·.1) ++ s.wire).Perm s.sent
  gotOrder : s.got.Pairwise fun a b => a.1.arr ≤ b.1.arr
  gotPast : ∀ g ∈ s.got, g.1.arr ≤ s.now

theorem setNic_nics (s : Net) (i : Nat) (n : Nic) (j : Nat) :
    (s.setNic i n).nics j = if j = i then n else s.nics j := rfl

theorem pairwise_snoc {α : Type} {R : α → α → Prop} {l : List α} {x : α} (h : l.Pairwise R)
    (hx : ∀ a ∈ l, R a x) : (l ++ [x]).Pairwise R := by
  rw [List.pairwise_append]
  exact ⟨h, by simp, by simpa using hx⟩

theorem recv_out (c : Cfg) (now bytes : Nat) (n : Nic) : (recv c now bytes n).2.outFree = n.outFree := by
  unfold recv; split
  · rfl
  · simp only []; split <;> rfl

theorem send_in (c : Cfg) (now bytes : Nat) (n : Nic) : (internodeSend c now bytes n).2.2.inFree = n.inFree := by
  unfold internodeSend; split <;> rfl

theorem sinv (c : Cfg) (s : Net) (hr : Reach c s) : SInv c s := by
  induction hr with
  | init => constructor <;> simp
  | @step s s' _ hs ih =>
    obtain ⟨h1, h2, h3, h4, h5, h6, h7, h8, h9, h10, h11⟩ := ih
    cases hs with
    | wait t h hw =>
      exact ⟨h1, fun r hr => Nat.le_trans (h2 r hr) h, h3, h4, h5, h6, h7, hw, h9, h10,
        fun g hg => Nat.le_trans (h11 g hg) h⟩
    | arrive r h hw =>
      have hn : ∀ j, ((s.arrive c r).nics j).outFree = (s.nics j).outFree := by
        intro j
        simp only [Net.arrive, setNic_nics]
        split
        · subst j; exact recv_out _ _ _ _
        · rfl
      refine ⟨h1, ?_, h3, ?_, ?_, h6, h7, ?_, ?_, ?_, ?_⟩
      · exact fun x hx => Nat.le_trans (h2 x hx) (h8 r h)
      · intro x hx; rw [hn]; exact h4 x hx
      · intro i; rw [hn]; exact h5 i
      · exact fun x hx => hw x (List.mem_of_mem_erase hx)
      · simp only [Net.arrive, Net.setNic, List.map_append, List.map_cons, List.map_nil, List.append_assoc]
        refine List.Perm.trans (List.Perm.append_left _ ?_) h9
        exact (List.perm_cons_erase h).symm
      · exact pairwise_snoc h10 fun g hg => Nat.le_trans (h11 g hg) (h8 r h)
      · intro g hg
        rcases List.mem_append.1 hg with hg | hg
        · exact Nat.le_trans (h11 g hg) (h8 r h)
        · simp at hg; subst hg; exact Nat.le_refl _
    | send m extra h =>
      have key : ∃ start stop n, internodeSend c s.now m.bytes (s.nics m.src) = (start, stop, n) ∧
          (m.bytes ≤ c.negligible → start = s.now ∧ stop = s.now ∧ n = s.nics m.src) ∧
          (c.negligible < m.bytes → s.now ≤ start ∧ (s.nics m.src).outFree ≤ start ∧
            (start = s.now ∨ start = (s.nics m.src).outFree) ∧
            stop = start + c.injLat + c.injByte * m.bytes ∧ n.outFree = stop) := by
        unfold internodeSend
        by_cases hb : m.bytes ≤ c.negligible
        · rw [if_pos hb]
          exact ⟨_, _, _, rfl, fun _ => ⟨rfl, rfl, rfl⟩, fun h => absurd hb (by omega)⟩
        · rw [if_neg hb]
          refine ⟨_, _, _, rfl, fun h => absurd h hb, fun _ => ?_⟩
          simp only []
          split <;> exact ⟨by omega, by omega, by omega, by omega, trivial⟩
      obtain ⟨start, stop, n, hk, ha, hb⟩ := key
      have hst : s.now ≤ start := by
        by_cases hm : m.bytes ≤ c.negligible
        · exact Nat.le_of_eq (ha hm).1.symm
        · exact (hb (by omega)).1
      have harr : s.now ≤ arrival c start extra m := by unfold arrival; omega
      -- the new record
      have hrec : s.send c m extra = { s.setNic m.src n with
          sent := s.sent ++ [⟨m, s.now, start, stop, extra, arrival c start extra m⟩],
          wire := s.wire ++ [⟨m, s.now, start, stop, extra, arrival c start extra m⟩] } := by
        simp only [Net.send, hk]; rfl
      rw [hrec]
      generalize hrr : (⟨m, s.now, start, stop, extra, arrival c start extra m⟩ : Rec) = r
      have hm : r.msg = m := by subst hrr; rfl
      have hc : r.call = s.now := by subst hrr; rfl
      have hs1 : r.start = start := by subst hrr; rfl
      have hs2 : r.stop = stop := by subst hrr; rfl
      have hs3 : r.arr = arrival c start extra m := by subst hrr; rfl
      have hs4 : r.extra = extra := by subst hrr; rfl
      clear hrr
      have hout : ∀ j, (if j = m.src then n else s.nics j).outFree =
          if j = m.src ∧ c.negligible < m.bytes then stop else (s.nics j).outFree := by
        intro j
        by_cases hj : j = m.src
        · by_cases hm : m.bytes ≤ c.negligible
          · rw [if_pos hj, if_neg (by omega), (ha hm).2.2, hj]
          · rw [if_pos hj, if_pos ⟨hj, by omega⟩, (hb (by omega)).2.2.2.2]
        · rw [if_neg hj, if_neg (fun h => hj h.1)]
      constructor
      · exact pairwise_snoc h1 fun a ha => hc ▸ h2 a ha
      · intro x hx
        rcases List.mem_append.1 hx with hx | hx
        · exact h2 x hx
        · simp at hx; subst hx; exact Nat.le_of_eq hc
      · refine pairwise_snoc h3 fun a hma hsrc hab hrb => ?_
        rw [hm] at hsrc hrb
        have := h4 a hma hab
        rw [hsrc] at this
        have := (hb hrb).2.1
        omega
      · intro x hx hxb
        simp only [setNic_nics, hout]
        rcases List.mem_append.1 hx with hx | hx
        · have hx4 := h4 x hx hxb
          split
          · rename_i hh
            have := hb hh.2
            rw [hh.1] at hx4
            omega
          · exact hx4
        · simp at hx; subst hx
          rw [hm] at hxb ⊢
          rw [if_pos ⟨rfl, hxb⟩]; omega
      · intro i
        simp only [setNic_nics, hout]
        by_cases hh : i = m.src ∧ c.negligible < m.bytes
        · rw [if_pos hh]
          exact .inr ⟨r, by simp, by rw [hm, hh.1], by rw [hm]; exact hh.2, hs2⟩
        · rw [if_neg hh]
          rcases h5 i with h | ⟨x, hx, hx'⟩
          · exact .inl h
          · exact .inr ⟨x, List.mem_append_left _ hx, hx'⟩
      · intro x hx
        rcases List.mem_append.1 hx with hx | hx
        · exact h6 x hx
        · simp at hx; subst hx
          rw [hc, hs1, hs2, hs3, hs4, hm]
          exact ⟨hst, rfl, fun h => (hb h).2.2.2.1, fun h => ⟨(ha h).1, (ha h).2.1⟩⟩
      · intro x hx
        rcases List.mem_append.1 hx with hx | hx
        · rcases h7 x hx with h | ⟨y, hy, hy'⟩
          · exact .inl h
          · exact .inr ⟨y, List.mem_append_left _ hy, hy'⟩
        · simp at hx; subst hx
          rw [hc, hs1, hm]
          by_cases hmb : m.bytes ≤ c.negligible
          · exact .inl (ha hmb).1
          · obtain ⟨_, hge, hor, _⟩ := hb (by omega)
            rcases hor with h | h
            · exact .inl h
            · rcases h5 m.src with h0 | ⟨y, hy, hy1, hy2, hy3⟩
              · left; omega
              · exact .inr ⟨y, List.mem_append_left _ hy, hy1, hy2, by omega⟩
      · intro x hx
        rcases List.mem_append.1 hx with hx | hx
        · exact h8 x hx
        · simp at hx; subst hx; rw [hs3]; exact harr
      · simp only [Net.setNic]
        rw [← List.append_assoc]
        exact List.Perm.append_right _ h9
      · exact h10
      · exact h11

/-- No message arrives before the time it takes to take it in. -/
def NotEarly (c : Cfg) (s : Net) : Prop := ∀ g ∈ s.got, c.negligible ≤ g.1.msg.bytes → c.injByte * g.1.msg.bytes < g.1.arr

/-- Receiving, in every reachable state without early messages. -/
structure RInv (c : Cfg) (s : Net) : Prop where
  order : s.got.Pairwise fun a b => a.1.msg.dst = b.1.msg.dst → c.negligible ≤ a.1.msg.bytes →
    c.negligible ≤ b.1.msg.bytes → a.2 + c.injByte * b.1.msg.bytes ≤ b.2
  free : ∀ g ∈ s.got, c.negligible ≤ g.1.msg.bytes → g.2 ≤ (s.nics g.1.msg.dst).inFree
  why : ∀ i, (s.nics i).inFree = 0 ∨
    ∃ g ∈ s.got, g.1.msg.dst = i ∧ c.negligible ≤ g.1.msg.bytes ∧ g.2 = (s.nics i).inFree
  times : ∀ g ∈ s.got, g.1.arr ≤ g.2 ∧ (g.1.msg.bytes < c.negligible → g.2 = g.1.arr)
  wait : ∀ g ∈ s.got, g.2 = g.1.arr ∨ ∃ g' ∈ s.got, g'.1.msg.dst = g.1.msg.dst ∧
    c.negligible ≤ g'.1.msg.bytes ∧ g.2 = g'.2 + c.injByte * g.1.msg.bytes

theorem rinv (c : Cfg) (s : Net) (hr : Reach c s) (hg : NotEarly c s) : RInv c s := by
  induction hr with
  | init => constructor <;> simp
  | @step s s' _ hs ih =>
    cases hs with
    | wait t h hw => exact ⟨(ih hg).1, (ih hg).2, (ih hg).3, (ih hg).4, (ih hg).5⟩
    | send m extra h =>
      have hn : ∀ j, ((s.send c m extra).nics j).inFree = (s.nics j).inFree := by
        intro j
        simp only [Net.send, setNic_nics]
        split
        · subst j; exact send_in _ _ _ _
        · rfl
      obtain ⟨h1, h2, h3, h4, h5⟩ := ih hg
      refine ⟨h1, ?_, ?_, h4, h5⟩
      · intro g hg hb; rw [hn]; exact h2 g hg hb
      · intro i; rw [hn]; exact h3 i
    | arrive r h hw =>
      obtain ⟨h1, h2, h3, h4, h5⟩ := ih fun g hx => hg g (List.mem_append_left _ hx)
      have he0 : c.negligible ≤ r.msg.bytes → c.injByte * r.msg.bytes < r.arr :=
        hg (r, (recv c r.arr r.msg.bytes (s.nics r.msg.dst)).1) (List.mem_append_right _ (List.mem_singleton.2 rfl))
      have key : ∃ d n, recv c r.arr r.msg.bytes (s.nics r.msg.dst) = (d, n) ∧
          (r.msg.bytes < c.negligible → d = r.arr ∧ n = s.nics r.msg.dst) ∧
          (c.negligible ≤ r.msg.bytes → r.arr ≤ d ∧ (s.nics r.msg.dst).inFree + c.injByte * r.msg.bytes ≤ d ∧
            (d = r.arr ∨ d = (s.nics r.msg.dst).inFree + c.injByte * r.msg.bytes) ∧ n.inFree = d) := by
        unfold recv
        by_cases hb : r.msg.bytes < c.negligible
        · rw [if_pos hb]
          exact ⟨_, _, rfl, fun _ => ⟨rfl, rfl⟩, fun h => absurd hb (by omega)⟩
        · rw [if_neg hb]
          have he := he0 (by omega)
          simp only [recvStart, if_pos he, later]
          by_cases hl : r.arr - c.injByte * r.msg.bytes > (s.nics r.msg.dst).inFree
          · rw [if_pos (by simpa using hl)]
            exact ⟨_, _, rfl, fun h => absurd h hb, fun _ => ⟨by omega, by omega, by omega, rfl⟩⟩
          · rw [if_neg (by simpa using hl)]
            exact ⟨_, _, rfl, fun h => absurd h hb, fun _ => ⟨by omega, by omega, by omega, rfl⟩⟩
      obtain ⟨d, n, hk, ha, hb⟩ := key
      have hrec : s.arrive c r = { s.setNic r.msg.dst n with now := r.arr, wire := s.wire.erase r, got := s.got ++ [(r, d)] } := by
        simp only [Net.arrive, hk]; rfl
      rw [hrec]
      have hin : ∀ j, (if j = r.msg.dst then n else s.nics j).inFree =
          if j = r.msg.dst ∧ c.negligible ≤ r.msg.bytes then d else (s.nics j).inFree := by
        intro j
        by_cases hj : j = r.msg.dst
        · by_cases hm : r.msg.bytes < c.negligible
          · rw [if_pos hj, if_neg (by omega), (ha hm).2, hj]
          · rw [if_pos hj, if_pos ⟨hj, by omega⟩, (hb (by omega)).2.2.2]
        · rw [if_neg hj, if_neg (fun h => hj h.1)]
      constructor
      · refine pairwise_snoc h1 fun a hma hd hab hrb => ?_
        simp only at hd hrb ⊢
        have := h2 a hma hab
        rw [hd] at this
        have := (hb hrb).2.1
        omega
      · intro x hx hxb
        simp only [setNic_nics, hin]
        rcases List.mem_append.1 hx with hx | hx
        · have hx4 := h2 x hx hxb
          split
          · rename_i hh
            have := hb hh.2
            rw [hh.1] at hx4
            omega
          · exact hx4
        · simp at hx; subst hx
          rw [if_pos ⟨rfl, hxb⟩]; exact Nat.le_refl _
      · intro i
        simp only [setNic_nics, hin]
        by_cases hh : i = r.msg.dst ∧ c.negligible ≤ r.msg.bytes
        · rw [if_pos hh]
          exact .inr ⟨(r, d), by simp, hh.1.symm, hh.2, rfl⟩
        · rw [if_neg hh]
          rcases h3 i with h | ⟨x, hx, hx'⟩
          · exact .inl h
          · exact .inr ⟨x, List.mem_append_left _ hx, hx'⟩
      · intro x hx
        rcases List.mem_append.1 hx with hx | hx
        · exact h4 x hx
        · simp at hx; subst hx
          simp only
          by_cases hm : r.msg.bytes < c.negligible
          · exact ⟨Nat.le_of_eq (ha hm).1.symm, fun _ => (ha hm).1⟩
          · exact ⟨(hb (by omega)).1, fun h => absurd h hm⟩
      · intro x hx
        rcases List.mem_append.1 hx with hx | hx
        · rcases h5 x hx with h | ⟨y, hy, hy'⟩
          · exact .inl h
          · exact .inr ⟨y, List.mem_append_left _ hy, hy'⟩
        · simp at hx; subst hx
          simp only
          by_cases hm : r.msg.bytes < c.negligible
          · exact .inl (ha hm).1
          · obtain ⟨hge, _, hor, _⟩ := hb (by omega)
            rcases hor with h | h
            · exact .inl h
            · rcases h3 r.msg.dst with h0 | ⟨y, hy, hy1, hy2, hy3⟩
              · left
                have he := he0 (by omega)
                omega
              · exact .inr ⟨y, List.mem_append_left _ hy, hy1, hy2, by omega⟩

end SST.Nic.LogP
