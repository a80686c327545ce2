import Verif.Pisces.Arbitrator
/-
C54 for the bandwidth arbitrators of the packet-flow model.
-/
set_option autoImplicit false
namespace SST.Pisces.Arbit

/-- A history of packets through the simple arbitrator, each with the time it has left. -/
def simpleRun (byteDelay nextFree : Nat) : List In → List (In × Out)
  | [] => []
  | p :: ps => (p, (simple byteDelay nextFree p).2) :: simpleRun byteDelay (simple byteDelay nextFree p).1 ps

/-- **C54** (simple arbitrator). With any arrival times and sizes: a packet takes the link for its size
times the byte delay, ending when it leaves; it does not start before it comes, and starts after every
packet that came before it has left. -/
theorem C54_simple (byteDelay nextFree : Nat) (ps : List In) :
    (∀ x ∈ simpleRun byteDelay nextFree ps, x.2.head = x.2.tail ∧ x.1.now + x.1.bytes * byteDelay ≤ x.2.tail ∧ nextFree + x.1.bytes * byteDelay ≤ x.2.tail) ∧
    (simpleRun byteDelay nextFree ps).Pairwise (fun a b => a.2.tail + b.1.bytes * byteDelay ≤ b.2.tail) ∧
    (simpleRun byteDelay nextFree ps).map (·.1) = ps := by
  induction ps generalizing nextFree with
  | nil => exact ⟨(fun x hx => by cases hx), List.Pairwise.nil, rfl⟩
  | cons p ps ih =>
    obtain ⟨h1, h2, h3⟩ := ih (simple byteDelay nextFree p).1
    have hs : p.now ≤ (if nextFree < p.now then p.now else nextFree) ∧ nextFree ≤ (if nextFree < p.now then p.now else nextFree) := by
      split <;> omega
    have ht : (simple byteDelay nextFree p).2.tail = (if nextFree < p.now then p.now else nextFree) + p.bytes * byteDelay := rfl
    have hf : (simple byteDelay nextFree p).1 = (if nextFree < p.now then p.now else nextFree) + p.bytes * byteDelay := rfl
    refine ⟨?_, ?_, ?_⟩
    · intro x hx
      rcases List.mem_cons.mp hx with rfl | hx
      · refine ⟨rfl, ?_, ?_⟩
        · simp only; rw [ht]; omega
        · simp only; rw [ht]; omega
      · obtain ⟨a, b, d⟩ := h1 x hx
        exact ⟨a, b, by rw [hf] at d; omega⟩
    · refine List.Pairwise.cons ?_ h2
      intro b hb
      obtain ⟨_, _, d⟩ := h1 b hb
      rw [hf] at d
      simp only
      rw [ht]
      exact d
    · simp only [simpleRun, List.map_cons]; rw [h3]

example : simpleRun 2 0 [⟨5, 100, 0⟩, ⟨6, 10, 0⟩, ⟨1000, 1, 0⟩] =
    [(⟨5, 100, 0⟩, ⟨205, 205⟩), (⟨6, 10, 0⟩, ⟨225, 225⟩), (⟨1000, 1, 0⟩, ⟨1002, 1002⟩)] := by decide

/-- **C54** (simple arbitrator): the link is not left idle while a packet waits: a packet starts at
once, or when the one before it leaves. -/
theorem C54_simple_busy (byteDelay nextFree : Nat) (p : In) :
    (simple byteDelay nextFree p).2.tail = max p.now nextFree + p.bytes * byteDelay := by
  unfold simple
  simp only
  split <;> omega

/-- **C54** (null arbitrator, refuted). It lets packets share the link at full bandwidth: two packets that
come at the same time both have the link for the same interval. (This is what it is for: it models no
congestion.) -/
theorem C54_null_refuted : null 2 ⟨0, 100, 0⟩ = ⟨0, 200⟩ ∧ null 2 ⟨0, 50, 0⟩ = ⟨0, 100⟩ := by decide

/-- **C54** (null arbitrator, partial). A packet still takes at least its size times the byte delay. -/
theorem C54_null_partial (byteDelay : Nat) (p : In) : (null byteDelay p).head = p.now ∧ p.now + p.bytes * byteDelay ≤ (null byteDelay p).tail := by
  refine ⟨rfl, ?_⟩
  show _ ≤ p.now + p.bytes * max byteDelay p.delay
  exact Nat.add_le_add_left (Nat.mul_le_mul_left _ (Nat.le_max_left ..)) _

/-- A history of packets through the cut-through arbitrator. -/
def ctRun (c : Nat) (es : List Epoch) : List In → Option (List Epoch × List (In × Out))
  | [] => some (es, [])
  | p :: ps =>
    match cutThrough c es p with
    | none => none
    | some (es', o) => (ctRun c es' ps).map fun r => (r.1, (p, o) :: r.2)

/-- A packet that comes at least as fast as the link sends, of more than two bytes (and fewer than a
full epoch). -/
def Fast (c : Nat) (p : In) : Prop := p.delay ≤ c ∧ 2 < p.bytes ∧ p.bytes < full

theorem ct_fast {c : Nat} {s k : Nat} {p : In} (h : Fast c p) :
    ∃ k', cutThrough c [⟨s, k⟩] p = some ([⟨max p.now s + p.bytes * c, k'⟩], ⟨max p.now s, max p.now s + p.bytes * c⟩) := by
  obtain ⟨h1, h2, h3⟩ := h
  have hc : clearOut c p.now [⟨s, k⟩] = [⟨max p.now s, full⟩] := by
    simp only [clearOut]
    split
    · rw [Nat.max_eq_right (by omega)]
    · rw [Nat.max_eq_left (by omega)]
  unfold cutThrough
  simp only
  rw [hc]
  simp only
  have hr : ∃ f, rounds p [⟨max p.now s, full⟩] = f + 1 + 1 := ⟨4 * (p.bytes + 1 + 2) - 2, by unfold rounds; simp only [List.length_singleton]; omega⟩
  obtain ⟨f, hf⟩ := hr
  rw [hf]
  rw [ctLoop]
  rw [if_neg (by omega)]
  simp only
  rw [if_pos h1, if_neg (by omega), ctLoop, if_pos (by omega)]
  exact ⟨_, rfl⟩

/-- **C54** (cut-through arbitrator, partial). If every packet comes at least as fast as the link sends,
packets have the link one after the other: from the later of its arrival and the end of the packets
before it, for its size times the byte delay. What is missing: packets that come more slowly, for which
`C54_cut_through_refuted` holds. -/
theorem C54_cut_through_partial (c : Nat) (ps : List In) (h : ∀ p ∈ ps, Fast c p) (s k : Nat) :
    ∃ s' k' out, ctRun c [⟨s, k⟩] ps = some ([⟨s', k'⟩], out) ∧ out.map (·.1) = ps ∧
      (∀ x ∈ out, x.1.now ≤ x.2.head ∧ s ≤ x.2.head ∧ x.2.tail = x.2.head + x.1.bytes * c) ∧
      out.Pairwise (fun a b => a.2.tail ≤ b.2.head) := by
  induction ps generalizing s k with
  | nil => exact ⟨s, k, [], rfl, rfl, (fun x hx => by cases hx), List.Pairwise.nil⟩
  | cons p ps ih =>
    obtain ⟨k', hk⟩ := ct_fast (s := s) (k := k) (h p (List.mem_cons_self ..))
    obtain ⟨s2, k2, out, e1, e2, e3, e4⟩ := ih (fun q hq => h q (List.mem_cons_of_mem _ hq)) (max p.now s + p.bytes * c) k'
    refine ⟨s2, k2, (p, ⟨max p.now s, max p.now s + p.bytes * c⟩) :: out, ?_, ?_, ?_, ?_⟩
    · simp only [ctRun]; rw [hk]; simp only; rw [e1]; rfl
    · rw [List.map_cons, e2]
    · intro x hx
      rcases List.mem_cons.mp hx with rfl | hx
      · exact ⟨Nat.le_max_left .., Nat.le_max_right .., rfl⟩
      · obtain ⟨a, b, d⟩ := e3 x hx
        exact ⟨a, by omega, d⟩
    · refine List.Pairwise.cons ?_ e4
      intro b hb
      exact (e3 b hb).2.1

example : (∀ p ∈ [(⟨5, 100, 1⟩ : In), ⟨6, 10, 2⟩], Fast 2 p) ∧
    (ctRun 2 ct0 [⟨5, 100, 1⟩, ⟨6, 10, 2⟩]).map (·.2) = some [(⟨5, 100, 1⟩, ⟨5, 205⟩), (⟨6, 10, 2⟩, ⟨205, 225⟩)] := by
  refine ⟨?_, by decide⟩
  intro p hp
  simp only [List.mem_cons, List.not_mem_nil, or_false] at hp
  rcases hp with rfl | rfl <;> exact ⟨by decide, by decide, by decide⟩

/-- **C54** (cut-through arbitrator, refuted). A packet that comes more slowly than the link sends leaves
gaps that a later packet uses: the second packet here has the link for part of the first one's
interval. (Also by design: it approximates the interleaving of flits.) -/
theorem C54_cut_through_refuted : (ctRun 10 ct0 [⟨0, 10, 20⟩, ⟨0, 5, 0⟩]).map (fun r => r.2.map (·.2)) = some [⟨0, 200⟩, ⟨0, 50⟩] := by decide

/-- **C79** (refuted). The free cycles the cut-through arbitrator keeps can overlap, as it rounds times
down to whole cycles: after these five packets it has a free cycle from 151 and then all the cycles from
150. A build with sanity checks aborts at this point ("arbitration epochs go backward in time"); others
give the cycle away twice. -/
theorem C79_refuted : (ctRun 10 ct0 [⟨0, 3, 50⟩, ⟨29, 3, 0⟩, ⟨68, 3, 15⟩, ⟨87, 3, 15⟩, ⟨106, 3, 15⟩]).map (fun r => (r.1, r.2.map (·.2.tail), checks r.1 ⟨0, 0⟩)) =
    some ([⟨151, 1⟩, ⟨150, 4294967295⟩], [150, 59, 108, 123, 142], false) := by decide

/-- **C79** (refuted). A packet of one or two bytes leaves before it has come: its tail leaves at time
zero, and the check that the head does not leave after the tail fails. -/
theorem C79_small_refuted : (cutThrough 10 ct0 ⟨100, 2, 0⟩).map (fun r => (r.2, checks r.1 r.2)) = some (⟨100, 0⟩, false) := by decide

/-- **C79** (partial). Packets that come at least as fast as the link sends pass every check. -/
theorem C79_partial (c : Nat) (p : In) (h : Fast c p) (s k : Nat) :
    ∃ es o, cutThrough c [⟨s, k⟩] p = some (es, o) ∧ checks es o = true ∧ es.length = 1 := by
  obtain ⟨k', hk⟩ := ct_fast (s := s) (k := k) h
  refine ⟨_, _, hk, ?_, rfl⟩
  unfold checks
  simp

end SST.Pisces.Arbit
