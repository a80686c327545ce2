import Verif.Sculpin.Nic
/-!
C101: the sculpin network interface cuts a message into packets and puts it together again.
-/
set_option autoImplicit false
namespace SST.Sculpin

/-! ### Specification -/

/-- The packets of a message: full ones and a last one that carries the message and the rest. -/
structure Cut (mtu : Nat) (f : Nic.Flow) (l : List Nic.Packet) : Prop where
  ids : ∀ p ∈ l, p.fid = f.id
  sum : (l.map Nic.Packet.bytes).sum = f.len
  size : ∀ p ∈ l, 0 < p.bytes ∧ p.bytes ≤ mtu
  tail : ∃ init last, l = init ++ [last] ∧ last.payload = some f ∧ ∀ p ∈ init, p.payload = none ∧ p.bytes = mtu

/-- Back to back: every packet starts when the one before it has left, the first at `t`, all have left
at `u`. -/
def BackToBack (d : Nat) : Nat → List Inj → Nat → Prop
  | t, [], u => t = u
  | t, x :: l, u => x.start = t ∧ x.tts = x.pkt.bytes * d ∧ BackToBack d (t + x.pkt.bytes * d) l u

theorem btb_append (d : Nat) {t u v : Nat} {a b : List Inj} (h : BackToBack d t a u) (h2 : BackToBack d u b v) :
    BackToBack d t (a ++ b) v := by
  induction a generalizing t with
  | nil => cases h; exact h2
  | cons x a ih => exact ⟨h.1, h.2.1, ih h.2.2⟩

theorem loop_out (mtu d : Nat) (f : Nic.Flow) (n left free : Nat) (out : List Inj) :
    loop mtu d f n ⟨left, free, out⟩ = ⟨(loop mtu d f n ⟨left, free, []⟩).left, (loop mtu d f n ⟨left, free, []⟩).free, out ++ (loop mtu d f n ⟨left, free, []⟩).out⟩ := by
  induction n generalizing left free out with
  | zero => simp [loop]
  | succ n ih =>
    unfold loop
    simp only
    split
    · simp
    · simp only [body, List.nil_append]
      rw [ih, ih (out := [_])]
      simp

/-- The loop for less than 4 GB. -/
theorem loop_cut {mtu d : Nat} (hm : 0 < mtu) (f : Nic.Flow) (left free : Nat) (h0 : 0 < left) (h : left < 4294967296) :
    ∃ n u out, loop mtu d f n ⟨left, free, []⟩ = ⟨0, u, out⟩ ∧ BackToBack d free out u ∧
      (∀ p ∈ out.map Inj.pkt, p.fid = f.id) ∧ ((out.map Inj.pkt).map Nic.Packet.bytes).sum = left ∧ (∀ p ∈ out.map Inj.pkt, 0 < p.bytes ∧ p.bytes ≤ mtu) ∧
      ∃ init last, out.map Inj.pkt = init ++ [last] ∧ last.payload = some f ∧ ∀ p ∈ init, p.payload = none ∧ p.bytes = mtu := by
  induction left using Nat.strongRecOn generalizing free with
  | ind left ih =>
    by_cases hl : left ≤ mtu
    · refine ⟨1, free + left * d, [⟨⟨f.id, left, some f⟩, free, left * d⟩], ?_, ⟨rfl, rfl, rfl⟩, ?_, ?_, ?_, [], _, rfl, rfl, ?_⟩
      · have e : min (left % 4294967296) mtu = left := by rw [Nat.mod_eq_of_lt h]; omega
        have : left ≠ 0 := by omega
        simp [loop, body, e, this]
      · simp
      · simp
      · simp; omega
      · intro p hp; cases hp
    · have e : min (left % 4294967296) mtu = mtu := by rw [Nat.mod_eq_of_lt h]; omega
      obtain ⟨n, u, out, h1, h2, h3, h4, h5, init, last, h6, h7, h8⟩ := ih (left - mtu) (by omega) (free + mtu * d) (by omega) (by omega)
      refine ⟨n + 1, u, ⟨⟨f.id, mtu, none⟩, free, mtu * d⟩ :: out, ?_, ⟨rfl, rfl, h2⟩, ?_, ?_, ?_, ⟨f.id, mtu, none⟩ :: init, last, ?_, h7, ?_⟩
      · have n0 : left ≠ 0 := by omega
        have n1 : left - mtu ≠ 0 := by omega
        unfold loop
        simp only [body, e, if_neg n0, if_neg n1, List.nil_append]
        rw [loop_out, h1]
        rfl
      · intro p hp
        rcases List.mem_cons.mp hp with rfl | hp
        · rfl
        · exact h3 p hp
      · simp only [List.map_cons, List.sum_cons]
        rw [h4]
        omega
      · intro p hp
        rcases List.mem_cons.mp hp with rfl | hp
        · exact ⟨hm, Nat.le_refl _⟩
        · exact h5 p hp
      · simp only [List.map_cons]
        rw [h6]
        rfl
      · intro p hp
        rcases List.mem_cons.mp hp with rfl | hp
        · exact ⟨rfl, rfl⟩
        · exact h8 p hp

theorem loop_more (mtu d : Nat) (f : Nic.Flow) (n k : Nat) (s : Loop) (h : (loop mtu d f n s).left = 0) : loop mtu d f (n + k) s = loop mtu d f n s := by
  induction n generalizing s with
  | zero =>
    simp only [loop] at h
    cases k with
    | zero => rfl
    | succ k => simp [loop, h]
  | succ n ih =>
    rw [Nat.add_right_comm]
    unfold loop at h ⊢
    split
    · rfl
    · rename_i h0
      rw [if_neg h0] at h
      exact ih _ h

/-- The result of `doSend` is unique. -/
theorem doSend_unique {mtu d free now : Nat} {f : Nic.Flow} {u u' : Nat} {a b : List Inj} (h : DoSend mtu d free now f u a) (h' : DoSend mtu d free now f u' b) :
    u = u' ∧ a = b := by
  obtain ⟨n, hn⟩ := h
  obtain ⟨m, hm⟩ := h'
  have h1 := loop_more mtu d f n m _ (by rw [hn])
  have h2 := loop_more mtu d f m n _ (by rw [hm])
  rw [Nat.add_comm m n, h1, hn, hm] at h2
  cases h2
  exact ⟨rfl, rfl⟩

/-! ### The property -/

/-- A message of less than 4 GB that is not empty is cut into packets no longer than the MTU, which go
out back to back as soon as the interface is free. -/
theorem C101_cut {mtu d : Nat} (hm : 0 < mtu) (free now : Nat) (f : Nic.Flow) (h0 : 0 < f.len) (h : f.len < 4294967296) :
    ∃ u out, DoSend mtu d free now f u out ∧ Cut mtu f (out.map Inj.pkt) ∧ BackToBack d (max free now) out u := by
  obtain ⟨n, u, out, h1, h2, h3, h4, h5, h6⟩ := loop_cut (d := d) hm f f.len (if free < now then now else free) h0 h
  refine ⟨u, out, ⟨n, h1⟩, ⟨h3, h4, h5, h6⟩, ?_⟩
  have : max free now = if free < now then now else free := by split <;> omega
  rw [this]
  exact h2

example : DoSend 100 2 5 0 ⟨7, 250⟩ 505 [⟨⟨7, 100, none⟩, 5, 200⟩, ⟨⟨7, 100, none⟩, 205, 200⟩, ⟨⟨7, 50, some ⟨7, 250⟩⟩, 405, 100⟩] :=
  ⟨3, by decide⟩

/-- Any messages of that kind with different identifiers, sent one after the other: the packets go out one
at a time and, in whatever order they come, the receiver hands up exactly the messages sent, each
once. -/
theorem C101_delivered {mtu d : Nat} (hm : 0 < mtu) (l : List (Nat × Nic.Flow)) (free : Nat)
    (hl : ∀ x ∈ l, 0 < x.2.len ∧ x.2.len < 4294967296) (hn : (l.map fun x => x.2.id).Nodup) :
    ∃ u out, Sends mtu d free l u out ∧ out.Pairwise (fun a b => a.start + a.tts ≤ b.start) ∧
      ∀ arr : List Nic.Packet, arr.Perm (out.map Inj.pkt) → (Nic.recvAll Nic.cq0 arr).2.Perm (l.map Prod.snd) := by
  have btb : ∀ {t u : Nat} {a : List Inj}, BackToBack d t a u → t ≤ u ∧ (∀ x ∈ a, t ≤ x.start ∧ x.start + x.tts ≤ u) ∧ a.Pairwise (fun a b => a.start + a.tts ≤ b.start) := by
    intro t u a h
    induction a generalizing t with
    | nil => cases h; simp
    | cons x a ih =>
      obtain ⟨i1, i2, i3⟩ := ih h.2.2
      have e1 := h.1
      have e2 := h.2.1
      refine ⟨by omega, ?_, List.pairwise_cons.mpr ⟨fun y hy => ?_, i3⟩⟩
      · intro y hy
        rcases List.mem_cons.mp hy with rfl | hy
        · omega
        · have := i2 y hy; omega
      · have := i2 y hy; omega
  -- the packets, message by message
  have key : ∀ (l : List (Nat × Nic.Flow)) (free : Nat), (∀ x ∈ l, 0 < x.2.len ∧ x.2.len < 4294967296) →
      ∃ u out parts, Sends mtu d free l u out ∧ free ≤ u ∧ (∀ x ∈ out, free ≤ x.start) ∧ out.Pairwise (fun a b => a.start + a.tts ≤ b.start) ∧
        out.map Inj.pkt = (parts : List (List Nic.Packet)).flatten ∧ parts.length = l.length ∧ ∀ (i : Nat) (p : List Nic.Packet) (f : Nat × Nic.Flow), parts[i]? = some p → l[i]? = some f → Cut mtu f.2 p := by
    intro l
    induction l with
    | nil => intro free _; exact ⟨free, [], [], .nil free, Nat.le_refl _, by simp, by simp, rfl, rfl, by simp⟩
    | cons x l ih =>
      intro free hl
      obtain ⟨now, f⟩ := x
      obtain ⟨u1, a, h1, h2, h3⟩ := C101_cut (d := d) hm free now f (hl _ (List.mem_cons_self ..)).1 (hl _ (List.mem_cons_self ..)).2
      obtain ⟨u2, b, parts, i1, i2, i3, i4, i5, i6, i7⟩ := ih u1 (fun x hx => hl x (List.mem_cons_of_mem _ hx))
      obtain ⟨b1, b2, b3⟩ := btb h3
      refine ⟨u2, a ++ b, a.map Inj.pkt :: parts, .cons h1 i1, by omega, ?_, ?_, ?_, by simp [i6], ?_⟩
      · intro x hx
        rcases List.mem_append.mp hx with hx | hx
        · have := b2 x hx; omega
        · have := i3 x hx; omega
      · refine List.pairwise_append.mpr ⟨b3, i4, fun x hx y hy => ?_⟩
        have := b2 x hx
        have := i3 y hy
        omega
      · rw [List.map_append, i5]; rfl
      · intro i p f hp hf
        cases i with
        | zero => simp at hp hf; subst hp hf; exact h2
        | succ i => exact i7 i p f (by simpa using hp) (by simpa using hf)
  obtain ⟨u, out, parts, k1, _, _, k4, k5, k6, k7⟩ := key l free hl
  refine ⟨u, out, k1, k4, ?_⟩
  intro arr hperm
  -- payloads
  have cutpay : ∀ {f : Nic.Flow} {p : List Nic.Packet}, Cut mtu f p → p.filterMap Nic.Packet.payload = [f] := by
    intro f p h
    obtain ⟨init, last, e, h1, h2⟩ := h.tail
    rw [e, List.filterMap_append]
    have : init.filterMap Nic.Packet.payload = [] := by
      rw [List.filterMap_eq_nil_iff]
      exact fun q hq => (h2 q hq).1
    rw [this]
    simp [h1]
  have pays : ∀ (parts : List (List Nic.Packet)) (l : List (Nat × Nic.Flow)), parts.length = l.length →
      (∀ (i : Nat) (p : List Nic.Packet) (f : Nat × Nic.Flow), parts[i]? = some p → l[i]? = some f → Cut mtu f.2 p) → parts.flatten.filterMap Nic.Packet.payload = l.map Prod.snd := by
    intro parts
    induction parts with
    | nil => intro l hl _; cases l with | nil => rfl | cons x l => cases hl
    | cons p parts ih =>
      intro l hl h
      cases l with
      | nil => cases hl
      | cons x l =>
        rw [List.flatten_cons, List.filterMap_append, cutpay (h 0 p x rfl rfl), ih l (by simpa using hl) (fun i p f hp hf => h (i + 1) p f (by simpa using hp) (by simpa using hf))]
        rfl
  -- every message is complete
  have flows : ∀ (parts : List (List Nic.Packet)) (l : List (Nat × Nic.Flow)), parts.length = l.length → (l.map fun x => x.2.id).Nodup →
      (∀ (i : Nat) (p : List Nic.Packet) (f : Nat × Nic.Flow), parts[i]? = some p → l[i]? = some f → Cut mtu f.2 p) →
      (∀ q ∈ parts.flatten, q.fid ∈ l.map fun x => x.2.id) ∧ ∀ x ∈ l, Cut mtu x.2 (Nic.ofFlow x.2.id parts.flatten) := by
    intro parts
    induction parts with
    | nil => intro l hl _ _; cases l with | nil => simp | cons x l => cases hl
    | cons p parts ih =>
      intro l hl hn h
      cases l with
      | nil => cases hl
      | cons x l =>
        rw [List.map_cons, List.nodup_cons] at hn
        obtain ⟨i1, i2⟩ := ih l (by simpa using hl) hn.2 (fun i p f hp hf => h (i + 1) p f (by simpa using hp) (by simpa using hf))
        have hc := h 0 p x rfl rfl
        refine ⟨?_, ?_⟩
        · intro q hq
          rw [List.flatten_cons] at hq
          rcases List.mem_append.mp hq with hq | hq
          · rw [hc.ids q hq]; exact List.mem_cons_self ..
          · exact List.mem_cons_of_mem _ (i1 q hq)
        · intro y hy
          rw [List.flatten_cons, Nic.ofFlow_append]
          rcases List.mem_cons.mp hy with rfl | hy
          · have e1 : Nic.ofFlow y.2.id p = p := List.filter_eq_self.mpr (fun q hq => by simp [hc.ids q hq])
            have e2 : Nic.ofFlow y.2.id parts.flatten = [] := by
              apply List.filter_eq_nil_iff.mpr
              intro q hq hqe
              have := i1 q hq
              rw [show q.fid = y.2.id by simpa using hqe] at this
              exact hn.1 this
            rw [e1, e2, List.append_nil]
            exact hc
          · have e1 : Nic.ofFlow y.2.id p = [] := by
              apply List.filter_eq_nil_iff.mpr
              intro q hq hqe
              have := hc.ids q hq
              have hqe : q.fid = y.2.id := by simpa using hqe
              rw [hqe] at this
              exact hn.1 (List.mem_map.mpr ⟨y, hy, this⟩)
            rw [e1, List.nil_append]
            exact i2 y hy
  obtain ⟨g1, g2⟩ := flows parts l k6 hn k7
  have hcomp : Nic.Complete arr := by
    intro q hq
    have hq' := (hperm.mem_iff).mp hq
    rw [k5] at hq'
    obtain ⟨x, hx, hxe⟩ := List.mem_map.mp (g1 q hq')
    have hc := g2 x hx
    rw [← k5] at hc
    have hp : (Nic.ofFlow q.fid arr).Perm (Nic.ofFlow x.2.id (out.map Inj.pkt)) := by
      rw [← hxe]
      exact hperm.filter _
    refine ⟨x.2, ?_, ?_, ?_, ?_, ?_⟩
    · exact fun p hp' => hc.ids p ((hp.mem_iff).mp hp')
    · unfold Nic.bytesOf
      rw [(hp.map _).sum_nat]
      exact hc.sum
    · have := hp.filterMap Nic.Packet.payload
      rw [cutpay hc] at this
      exact List.perm_singleton.mp this
    · exact fun p hp' _ => (hc.size p ((hp.mem_iff).mp hp')).1
    · have := (hl x hx).2; omega
  refine (Nic.C52_exactly_once arr hcomp).1.trans ?_
  have := hperm.filterMap Nic.Packet.payload
  rw [k5, pays parts l k6 k7] at this
  exact this

/-- Messages of 4 GB or more are never sent: the loop does not end, and from some pass on it sends only
empty packets. -/
theorem C101_large_refuted (mtu d free now : Nat) (f : Nic.Flow) (h : 4294967296 ≤ f.len) :
    (∀ u out, ¬ DoSend mtu d free now f u out) ∧ (0 < mtu → ∃ N, ∀ n, ∃ more : List Inj,
      (loop mtu d f (N + n) (loop0 free now f)).out = (loop mtu d f N (loop0 free now f)).out ++ more ∧ more.length = n ∧ ∀ x ∈ more, x.pkt.bytes = 0) := by
  have keep : ∀ (n : Nat) (s : Loop), 4294967296 ≤ s.left → 4294967296 ≤ (loop mtu d f n s).left := by
    intro n
    induction n with
    | zero => intro s hs; exact hs
    | succ n ih =>
      intro s hs
      unfold loop
      rw [if_neg (by omega)]
      apply ih
      show 4294967296 ≤ s.left - min (s.left % 4294967296) mtu
      have : min (s.left % 4294967296) mtu ≤ s.left % 4294967296 := Nat.min_le_left ..
      have h1 := Nat.div_add_mod s.left 4294967296
      have h2 : 1 ≤ s.left / 4294967296 := (Nat.le_div_iff_mul_le (by decide)).mpr (by omega)
      omega
  refine ⟨?_, ?_⟩
  · rintro u out ⟨n, hn⟩
    have := keep n (loop0 free now f) h
    rw [hn] at this
    exact absurd this (show ¬ (4294967296 ≤ 0) by decide)
  · intro hm
    have hz : ∀ (n : Nat) (s : Loop), 4294967296 ≤ s.left → s.left % 4294967296 = 0 → ∃ more : List Inj, (loop mtu d f n s).out = s.out ++ more ∧ more.length = n ∧ ∀ x ∈ more, x.pkt.bytes = 0 := by
      intro n
      induction n with
      | zero => intro s _ _; exact ⟨[], by simp [loop]⟩
      | succ n ih =>
        intro s hs h0
        unfold loop
        rw [if_neg (by omega)]
        have e : min (s.left % 4294967296) mtu = 0 := by omega
        obtain ⟨more, m1, m2, m3⟩ := ih (body mtu d f s) (by simp only [body, e]; omega) (by simp only [body, e]; omega)
        refine ⟨⟨⟨f.id, 0, if s.left - 0 = 0 then some f else none⟩, s.free, 0 * d⟩ :: more, ?_, by simp [m2], ?_⟩
        · rw [m1]
          simp only [body, e]
          simp
        · intro x hx
          rcases List.mem_cons.mp hx with rfl | hx
          · rfl
          · exact m3 x hx
    have reach : ∀ (k : Nat) (s : Loop), 4294967296 ≤ s.left → s.left % 4294967296 = k → ∃ N, 4294967296 ≤ (loop mtu d f N s).left ∧ (loop mtu d f N s).left % 4294967296 = 0 := by
      intro k
      induction k using Nat.strongRecOn with
      | ind k ih =>
        intro s hs hk
        by_cases h0 : k = 0
        · exact ⟨0, hs, hk.trans h0⟩
        · have hb : (body mtu d f s).left = s.left - min k mtu := by simp only [body, hk]
          have h1 := Nat.div_add_mod s.left 4294967296
          have h2 : 1 ≤ s.left / 4294967296 := (Nat.le_div_iff_mul_le (by decide)).mpr (by omega)
          obtain ⟨N, n1, n2⟩ := ih (k - min k mtu) (by omega) (body mtu d f s) (by rw [hb]; omega) (by rw [hb]; omega)
          refine ⟨N + 1, ?_⟩
          unfold loop
          rw [if_neg (by omega)]
          exact ⟨n1, n2⟩
    obtain ⟨N, n1, n2⟩ := reach _ (loop0 free now f) h rfl
    refine ⟨N, fun n => ?_⟩
    obtain ⟨more, m1, m2, m3⟩ := hz n _ n1 n2
    refine ⟨more, ?_, m2, m3⟩
    rw [← m1]
    congr 1
    have comp : ∀ (a b : Nat) (s : Loop), loop mtu d f (a + b) s = loop mtu d f b (loop mtu d f a s) := by
      intro a
      induction a with
      | zero => intro b s; rw [Nat.zero_add]; rfl
      | succ a ih =>
        intro b s
        rw [Nat.add_right_comm]
        show (if s.left = 0 then s else loop mtu d f (a + b) (body mtu d f s)) = loop mtu d f b (if s.left = 0 then s else loop mtu d f a (body mtu d f s))
        split
        · rename_i h0
          cases b with
          | zero => rfl
          | succ b => simp [loop, h0]
        · exact ih b _
    exact comp N n _

example : (4294967296 : Nat) ≤ (⟨1, 4294967300⟩ : Nic.Flow).len := by decide

/-- An empty message is acknowledged but not sent: it never reaches the receiver. -/
theorem C101_empty_refuted (mtu d free now i : Nat) : DoSend mtu d free now ⟨i, 0⟩ (max free now) [] ∧
    (Nic.recvAll Nic.cq0 (([] : List Inj).map Inj.pkt)).2 = [] := by
  refine ⟨⟨0, ?_⟩, rfl⟩
  simp only [loop, loop0]
  congr 1
  split <;> omega

/-- The receiving side takes the packets one at a time, in the order in which they come, each as soon as
it is there and the one before it is done. -/
theorem C101_eject (d free : Nat) (l : List (Nat × Nic.Packet)) :
    ejects d free l = (serve d free (l.map fun x => ⟨0, x.2.bytes, x.1, 0, 0⟩)).map Sent.stop := by
  induction l generalizing free with
  | nil => rfl
  | cons x l ih =>
    have e : eject d free x.1 x.2.bytes = max x.1 free + x.2.bytes * d := by
      unfold eject
      split <;> congr 1 <;> omega
    simp only [ejects, List.map_cons, serve]
    rw [ih, e]

end SST.Sculpin
