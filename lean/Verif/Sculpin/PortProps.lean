import Verif.Sculpin.Port
/-!
C100: an output port of a sculpin switch is a first-come first-served server that never idles
while packets wait.
-/
set_option autoImplicit false
namespace SST.Sculpin

/-! ### Specification -/

/-- First come, first served, one at a time: a packet starts when it has come and the one before it has
left, and takes `d` ticks a byte.  `free` is when the link is free. -/
def serve (d : Nat) : Nat → List Pkt → List Sent
  | _, [] => []
  | free, k :: l => ⟨k, max k.arrival free, max k.arrival free + k.bytes * d⟩ :: serve d (max k.arrival free + k.bytes * d) l

/-- A packet without its sequence number, which only the port uses. -/
def Pkt.plain (k : Pkt) : Pkt := { k with seq := 0 }
@[inherit_doc Pkt.plain] def Sent.plain (s : Sent) : Sent := { s with pkt := s.pkt.plain }

/-- When the link is free after serving. -/
def freeAfter (d : Nat) : Nat → List Pkt → Nat
  | free, [] => free
  | free, k :: l => freeAfter d (max k.arrival free + k.bytes * d) l

theorem serve_snoc (d free : Nat) (l : List Pkt) (k : Pkt) : serve d free (l ++ [k]) =
    serve d free l ++ [⟨k, max k.arrival (freeAfter d free l), max k.arrival (freeAfter d free l) + k.bytes * d⟩] := by
  induction l generalizing free with
  | nil => rfl
  | cons a l ih => simp only [List.cons_append, serve, freeAfter]; rw [ih]

theorem free_snoc (d free : Nat) (l : List Pkt) (k : Pkt) :
    freeAfter d free (l ++ [k]) = max k.arrival (freeAfter d free l) + k.bytes * d := by
  induction l generalizing free with
  | nil => rfl
  | cons a l ih => simp only [List.cons_append, freeAfter]; rw [ih]

theorem serve_pkt (d free : Nat) (l : List Pkt) : (serve d free l).map Sent.pkt = l := by
  induction l generalizing free with
  | nil => rfl
  | cons a l ih => simp only [serve, List.map_cons]; rw [ih]

theorem serve_len (d free : Nat) (l : List Pkt) : (serve d free l).length = l.length := by
  have := congrArg List.length (serve_pkt d free l)
  simpa using this

theorem serve_take (d free n : Nat) (l : List Pkt) : serve d free (l.take n) = (serve d free l).take n := by
  induction l generalizing free n with
  | nil => simp [serve]
  | cons a l ih =>
    cases n with
    | zero => simp [serve]
    | succ n => simp only [List.take_succ_cons, serve]; rw [ih]

/-- Served one at a time. -/
theorem serve_apart (d free : Nat) (l : List Pkt) : (∀ x ∈ serve d free l, free ≤ x.start ∧ x.start ≤ x.stop) ∧
    (serve d free l).Pairwise fun a b => a.stop ≤ b.start := by
  induction l generalizing free with
  | nil => simp [serve]
  | cons k l ih =>
    obtain ⟨h1, h2⟩ := ih (max k.arrival free + k.bytes * d)
    simp only [serve, List.mem_cons, List.pairwise_cons]
    refine ⟨?_, fun x hx => (h1 x hx).1, h2⟩
    rintro x (rfl | hx)
    · simp only; omega
    · have := h1 x hx
      omega

/-! ### Invariant -/

/-- Insertion behind everything. -/
theorem insert_last {p : Pkt} {l : List Pkt} (h : ∀ q ∈ l, before q p = true) : insert p l = l ++ [p] := by
  induction l with
  | nil => rfl
  | cons q l ih =>
    have hq := h q (List.mem_cons_self ..)
    have hn : before p q = false := by
      unfold before at hq ⊢
      split at hq
      · rename_i e
        rw [if_pos e.symm]
        split at hq
        · rename_i e2
          rw [if_pos e2.symm]
          simp at hq ⊢
          omega
        · rename_i e2
          rw [if_neg (fun e => e2 e.symm)]
          simp at hq ⊢
          omega
      · rename_i e
        rw [if_neg (fun e2 => e e2.symm)]
        simp at hq ⊢
        omega
    unfold insert
    rw [hn, hq]
    simp only [Bool.false_eq_true, if_false, if_true]
    rw [ih (fun x hx => h x (List.mem_cons_of_mem _ hx))]
    rfl

/-- Invariant of a port: a pull is scheduled exactly while packets wait. -/
structure Inv (d : Nat) (s : St) (p : Port) : Prop where
  port : s.port = some p
  pulls : p.pulls = if p.queue = [] then [] else [p.nextFree]
  late : p.queue ≠ [] → s.clock ≤ p.nextFree
  came : s.came = (s.sent.map Sent.pkt ++ p.queue).map Pkt.plain
  mem : ∀ k ∈ p.queue, k.seq < p.seq ∧ k.arrival ≤ s.clock ∧ k.prio = 0
  served : s.sent.map Sent.plain = serve d 0 ((s.sent.map Sent.pkt).map Pkt.plain)
  free : p.nextFree = freeAfter d 0 ((s.sent.map Sent.pkt).map Pkt.plain)
  past : ∀ k ∈ s.sent, k.start ≤ s.clock

/-- Sending a packet when the link is free. -/
theorem send_inv {d : Nat} {s : St} {p : Port} {k : Pkt} {now : Nat} (hc : s.clock ≤ now)
    (h2 : s.came = (s.sent.map Sent.pkt ++ k :: p.queue).map Pkt.plain) (hp : p.pulls = [])
    (hk : k.arrival ≤ now) (hm : ∀ k ∈ p.queue, k.seq < p.seq ∧ k.arrival ≤ now ∧ k.prio = 0)
    (hn : now = max k.arrival p.nextFree)
    (hs : s.sent.map Sent.plain = serve d 0 ((s.sent.map Sent.pkt).map Pkt.plain))
    (hf : p.nextFree = freeAfter d 0 ((s.sent.map Sent.pkt).map Pkt.plain)) (hpast : ∀ k ∈ s.sent, k.start ≤ s.clock) :
    Inv d ⟨now, some (send d p k now).1, s.came, s.sent ++ [(send d p k now).2]⟩ (send d p k now).1 := by
  have hfree : (if p.nextFree < now then now else p.nextFree) = now := by split <;> omega
  have e1 : (send d p k now).2 = ⟨k, now, now + k.bytes * d⟩ := by
    unfold send
    simp only [hfree, Nat.sub_self, Nat.add_zero]
    split <;> rfl
  have e2 : (send d p k now).1 = if p.queue = [] then { p with nextFree := now + k.bytes * d, seq := 0 } else { p with nextFree := now + k.bytes * d, pulls := [now + k.bytes * d] } := by
    unfold send
    simp only [hfree, Nat.sub_self, Nat.add_zero, hp, List.nil_append]
    split <;> rfl
  have hq : (send d p k now).1.queue = p.queue := by rw [e2]; split <;> rfl
  have hnf : (send d p k now).1.nextFree = now + k.bytes * d := by rw [e2]; split <;> rfl
  have hpk : k.plain.arrival = k.arrival := rfl
  have hb : k.plain.bytes = k.bytes := rfl
  refine ⟨rfl, ?_, ?_, ?_, ?_, ?_, ?_, ?_⟩
  · rw [hq, hnf, e2]
    split
    · exact hp
    · rfl
  · intro _
    rw [hnf]
    simp only
    omega
  · simp only
    rw [h2, e1, hq]
    simp
  · intro q hq'
    rw [hq] at hq'
    have := hm q hq'
    refine ⟨?_, this.2.1, this.2.2⟩
    rw [e2, if_neg (fun e => by rw [e] at hq'; cases hq')]
    exact this.1
  · simp only [List.map_append, List.map_cons, List.map_nil]
    rw [e1, serve_snoc, hs, hpk, hb, ← hf, ← hn]
    rfl
  · rw [hnf]
    simp only [List.map_append, List.map_cons, List.map_nil]
    rw [e1, free_snoc, hpk, hb, ← hf, ← hn]
  · intro x hx
    simp only [List.mem_append, List.mem_singleton] at hx
    rcases hx with hx | rfl
    · exact Nat.le_trans (hpast x hx) hc
    · rw [e1]; exact Nat.le_refl _

theorem inv_run {d : Nat} {s : St} (h : Run d s) : ∃ p, Inv d s p := by
  induction h with
  | init => exact ⟨{}, rfl, rfl, fun h => absurd rfl h, rfl, (by intro k hk; cases hk), rfl, rfl, (by intro k hk; cases hk)⟩
  | @step s s' _ hs ih =>
    obtain ⟨p, hi⟩ := ih
    cases hs with
    | @arrive p' hp k hk t ht hn =>
      have e := hi.port
      rw [hp] at e
      cases e
      unfold tryToSend
      simp only
      by_cases h1 : t < p.nextFree
      · rw [if_pos h1]
        have hlast : insert { k with arrival := t, seq := p.seq } p.queue = p.queue ++ [{ k with arrival := t, seq := p.seq }] := by
          apply insert_last
          intro q hq
          obtain ⟨m1, m2, m3⟩ := hi.mem q hq
          unfold before
          simp only [m3, hk, if_true]
          split
          · simpa using m1
          · simp; omega
        refine ⟨_, rfl, ?_, ?_, ?_, ?_, ?_, ?_, ?_⟩
        · have hpu := hi.pulls
          by_cases hq : p.queue = []
          · rw [if_pos hq] at hpu
            simp [hq, hpu, insert]
          · rw [if_neg hq] at hpu
            simp [hq, hpu, hlast]
        · intro _
          split <;> (simp only; omega)
        · have : (if p.queue = [] then ({ p with seq := p.seq + 1, pulls := p.pulls ++ [p.nextFree] } : Port) else { p with seq := p.seq + 1 }).queue = p.queue := by split <;> rfl
          simp only [this]
          rw [hlast, hi.came]
          simp [Pkt.plain]
        · have h2 : (if p.queue = [] then ({ p with seq := p.seq + 1, pulls := p.pulls ++ [p.nextFree] } : Port) else { p with seq := p.seq + 1 }).queue = p.queue := by split <;> rfl
          have h3 : (if p.queue = [] then ({ p with seq := p.seq + 1, pulls := p.pulls ++ [p.nextFree] } : Port) else { p with seq := p.seq + 1 }).seq = p.seq + 1 := by split <;> rfl
          simp only [h2, h3, hlast]
          intro q hq
          rcases List.mem_append.mp hq with hq | hq
          · obtain ⟨m1, m2, m3⟩ := hi.mem q hq
            exact ⟨by omega, by omega, m3⟩
          · simp only [List.mem_singleton] at hq
            subst hq
            exact ⟨by simp, Nat.le_refl _, hk⟩
        · simpa using hi.served
        · have := hi.free
          split <;> simpa using this
        · intro x hx
          simp only [List.append_nil] at hx
          exact Nat.le_trans (hi.past x hx) ht
      · rw [if_neg h1]
        by_cases hq : p.queue = []
        · rw [if_pos hq]
          simp only
          refine ⟨_, send_inv (s := ⟨s.clock, s.port, s.came ++ [{ k with arrival := t, seq := 0 }], s.sent⟩) (p := { p with seq := p.seq + 1 }) (k := { k with arrival := t, seq := p.seq }) ht ?_ ?_ ?_ ?_ ?_ hi.served hi.free hi.past⟩
          · simp only
            rw [hi.came, hq]
            simp [Pkt.plain]
          · have := hi.pulls
            rwa [if_pos hq] at this
          · exact Nat.le_refl _
          · intro x hx
            simp only [hq] at hx
            cases hx
          · simp only; omega
        · rw [if_neg hq]
          have hlast : insert { k with arrival := t, seq := p.seq } p.queue = p.queue ++ [{ k with arrival := t, seq := p.seq }] := by
            apply insert_last
            intro q hq
            obtain ⟨m1, m2, m3⟩ := hi.mem q hq
            unfold before
            simp only [m3, hk, if_true]
            split
            · simpa using m1
            · simp; omega
          have hpu := hi.pulls
          rw [if_neg hq] at hpu
          refine ⟨_, rfl, ?_, ?_, ?_, ?_, ?_, ?_, ?_⟩
          · simp [hpu, hlast]
          · intro _
            exact hn p.nextFree (by rw [hpu]; exact List.mem_singleton_self _)
          · simp only
            rw [hlast, hi.came]
            simp [Pkt.plain]
          · simp only [hlast]
            intro q hq
            rcases List.mem_append.mp hq with hq | hq
            · obtain ⟨m1, m2, m3⟩ := hi.mem q hq
              exact ⟨by omega, by omega, m3⟩
            · simp only [List.mem_singleton] at hq
              subst hq
              exact ⟨by simp, Nat.le_refl _, hk⟩
          · simpa using hi.served
          · simpa using hi.free
          · intro x hx
            simp only [List.append_nil] at hx
            exact Nat.le_trans (hi.past x hx) ht
    | @pull p' hp T hT hn =>
      have e := hi.port
      rw [hp] at e
      cases e
      have hpu := hi.pulls
      by_cases hq : p.queue = []
      · rw [if_pos hq] at hpu
        rw [hpu] at hT
        cases hT
      · rw [if_neg hq] at hpu
        have hTe : T = p.nextFree := by rw [hpu] at hT; simpa using hT
        subst hTe
        obtain ⟨k, l, hkl⟩ : ∃ k l, p.queue = k :: l := by
          cases h : p.queue with
          | nil => exact absurd h hq
          | cons k l => exact ⟨k, l, rfl⟩
        have hpn : pullNext d { p with pulls := p.pulls.erase p.nextFree } p.nextFree =
            some (send d { p with queue := l, pulls := [] } k p.nextFree) := by
          unfold pullNext
          simp only [hkl, hpu]
          simp
        rw [hpn]
        simp only [Option.map_some, Option.toList_some]
        have hl := hi.late hq
        obtain ⟨m1, m2, m3⟩ := hi.mem k (by rw [hkl]; exact List.mem_cons_self ..)
        refine ⟨_, send_inv (s := s) hl ?_ rfl (Nat.le_trans m2 hl) ?_ ?_ hi.served hi.free hi.past⟩
        · rw [hi.came, hkl]
        · intro x hx
          obtain ⟨m1, m2, m3⟩ := hi.mem x (by rw [hkl]; exact List.mem_cons_of_mem _ hx)
          exact ⟨m1, Nat.le_trans m2 hl, m3⟩
        · simp only; omega

/-! ### The property -/

/-- The port never aborts. -/
theorem C100_no_abort {d : Nat} {s : St} (h : Run d s) : s.port ≠ none := by
  obtain ⟨p, hi⟩ := inv_run h
  rw [hi.port]
  exact fun e => by cases e

/-- What was sent, and when, is what a first-come first-served server would have sent: the packets
sent are the first that came, in order, each as soon as the link is free; those that were not
sent wait in the queue. -/
theorem C100_fifo {d : Nat} {s : St} (h : Run d s) : s.sent.map Sent.plain = (serve d 0 s.came).take s.sent.length ∧
    ∃ p, s.port = some p ∧ s.came.length = s.sent.length + p.queue.length := by
  obtain ⟨p, hi⟩ := inv_run h
  refine ⟨?_, p, hi.port, by rw [hi.came]; simp⟩
  rw [← serve_take, hi.came, hi.served]
  congr 1
  rw [List.map_append, List.take_append_of_le_length (by simp), List.take_of_length_le (by simp)]

/-- While packets wait, exactly one pull is scheduled, for the time when the link is free; it can run.
So when nothing is scheduled, every packet was sent. -/
theorem C100_all_sent {d : Nat} {s : St} (h : Run d s) : ∃ p, s.port = some p ∧
    (p.queue ≠ [] → p.pulls = [p.nextFree] ∧ s.clock ≤ p.nextFree ∧ ∃ s', Step d s s' ∧ s'.sent.length = s.sent.length + 1) ∧
    (p.pulls = [] → s.sent.map Sent.plain = serve d 0 s.came) := by
  obtain ⟨p, hi⟩ := inv_run h
  refine ⟨p, hi.port, ?_, ?_⟩
  · intro hq
    have hpu := hi.pulls
    rw [if_neg hq] at hpu
    refine ⟨hpu, hi.late hq, _, .pull hi.port (T := p.nextFree) (by rw [hpu]; exact List.mem_singleton_self _) (by rw [hpu]; simp), ?_⟩
    cases hk : p.queue with
    | nil => exact absurd hk hq
    | cons k l => simp [pullNext]
  · intro hpu
    have hq : p.queue = [] := by
      have := hi.pulls
      rw [hpu] at this
      by_cases hq : p.queue = []
      · exact hq
      · rw [if_neg hq] at this; cases this
    rw [hi.served, hi.came, hq, List.append_nil]

/-- No two packets are on the link at once, and they leave in the order in which they were sent. -/
theorem C100_link_exclusive {d : Nat} {s : St} (h : Run d s) : s.sent.Pairwise fun a b => a.stop ≤ b.start := by
  obtain ⟨p, hi⟩ := inv_run h
  have h1 := (serve_apart d 0 ((s.sent.map Sent.pkt).map Pkt.plain)).2
  rw [← hi.served, List.pairwise_map] at h1
  exact h1

/-- A run with a packet that comes together with the pull it does not wait for: two bytes at time 0, one
at 1, one at 4 before the pull of time 4. -/
example : ∃ s, Run 2 s ∧ s.sent.map (fun x => (x.pkt.id, x.start)) = [(7, 0), (8, 4)] ∧ s.came.length = 3 := by
  have r1 := Run.step .init (Step.arrive (d := 2) (s := {}) rfl ⟨7, 2, 0, 0, 0⟩ rfl (t := 0) (Nat.le_refl _) (by decide))
  have r2 := Run.step r1 (.arrive rfl ⟨8, 1, 0, 0, 0⟩ rfl (t := 1) (by decide) (by decide))
  have r3 := Run.step r2 (.arrive rfl ⟨9, 1, 0, 0, 0⟩ rfl (t := 4) (by decide) (by decide))
  have r4 := Run.step r3 (.pull rfl (T := 4) (by decide) (by decide))
  exact ⟨_, r4, by decide, by decide⟩

end SST.Sculpin
