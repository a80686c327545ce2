/-
One virtual channel of one output port of the packet-flow ("pisces") network model: the
credits the sender holds for the buffer behind the port and the packets that wait for credits.
`PiscesBuffer` (an output buffer) and `PiscesNtoMQueue` (a crossbar, muxer or demuxer) differ
in what they do when credits come back.
-/
set_option autoImplicit false
namespace SST.Pisces

/-- A packet in an element, sstmac/hardware/pisces/pisces.h:66-177: `numBytes()`, `vc()` (the
channel it arrived on), `nextLocalInport()`, `nextLocalOutport()`, `nextVC()`.  `id` stands for
the identity of the object.  The other fields of the packet do not matter for flow control. -/
structure Pkt where
  id : Nat
  bytes : Nat
  vc : Nat
  inp : Nat
  out : Nat
  next : Nat
deriving DecidableEq, Repr

/-- `credits_[slot]` (an `int`) and `queues_[slot]`. -/
structure Slot where
  cred : Int
  queue : List Pkt
deriving DecidableEq, Repr

/-- The comparison `num_credits >= pkt->numBytes()` (pisces_buffer.cc:198, pisces_crossbar.cc:229)
and `pkt->numBytes() <= num_credits` (pisces_sender.cc:64): an `int` against a `uint32_t`, so the
`int` is converted to `uint32_t` first. -/
def fits (cred : Int) (bytes : Nat) : Bool := decide ((bytes : Int) ≤ cred % 4294967296)

/-- `PayloadQueue::pop`, sstmac/hardware/pisces/pisces_sender.cc:58-70: the first packet that
fits, and the queue without it. -/
def pop (cred : Int) : List Pkt → Option (Pkt × List Pkt)
  | [] => none
  | p :: q =>
    if fits cred p.bytes then some (p, q)
    else match pop cred q with
      | none => none
      | some (r, q') => some (r, p :: q')

/-- `PiscesBuffer::handlePayload`, pisces_buffer.cc:168-208, and `PiscesNtoMQueue::handlePayload`,
pisces_crossbar.cc:196-232: the packets sent now. -/
def payload (s : Slot) (p : Pkt) : Slot × List Pkt :=
  if fits s.cred p.bytes then ({ s with cred := s.cred - p.bytes }, [p])
  else ({ s with queue := s.queue ++ [p] }, [])

theorem pop_length {cred : Int} {q q' : List Pkt} {p : Pkt} (h : pop cred q = some (p, q')) : q.length = q'.length + 1 := by
  induction q generalizing q' with
  | nil => simp [pop] at h
  | cons a q ih =>
    unfold pop at h
    split at h
    · cases h; rfl
    · split at h
      · simp at h
      · rename_i e
        cases h
        simp [ih e]

/-- The loop of `PiscesBuffer::handleCredit`, pisces_buffer.cc:151-163: pop while a packet fits. -/
def drain (cred : Int) (q : List Pkt) : Slot × List Pkt :=
  match h : pop cred q with
  | none => (⟨cred, q⟩, [])
  | some (p, q') =>
    let r := drain (cred - p.bytes) q'
    (r.1, p :: r.2)
termination_by q.length
decreasing_by have := pop_length h; omega

/-- `PiscesBuffer::handleCredit`, pisces_buffer.cc:110-166. -/
def creditAll (s : Slot) (n : Nat) : Slot × List Pkt := drain (s.cred + n) s.queue

/-- `PiscesNtoMQueue::handleCredit`, pisces_crossbar.cc:160-197: one packet at most. -/
def creditOne (s : Slot) (n : Nat) : Slot × List Pkt :=
  let cred := s.cred + n
  match pop cred s.queue with
  | none => (⟨cred, s.queue⟩, [])
  | some (p, q') => (⟨cred - p.bytes, q'⟩, [p])

/-- What happens at a slot: a packet comes in, or credits come back. -/
inductive Ev
  | pkt (p : Pkt)
  | credit (n : Nat)

/-- One event at a slot of an output buffer (`all`) or of a crossbar. -/
def step (all : Bool) (s : Slot) : Ev → Slot × List Pkt
  | .pkt p => payload s p
  | .credit n => if all then creditAll s n else creditOne s n

/-- A history of events: the slot after it and everything sent, in order. -/
def run (all : Bool) (s : Slot) : List Ev → Slot × List Pkt
  | [] => (s, [])
  | e :: es =>
    let r := step all s e
    let t := run all r.1 es
    (t.1, r.2 ++ t.2)

/-- The packets of a history. -/
def pkts : List Ev → List Pkt
  | [] => []
  | .pkt p :: es => p :: pkts es
  | .credit _ :: es => pkts es

/-- The credits given back in a history. -/
def back : List Ev → Nat
  | [] => 0
  | .pkt _ :: es => back es
  | .credit n :: es => n + back es

/-- The bytes of some packets. -/
def total (l : List Pkt) : Nat := (l.map Pkt.bytes).sum

/-! ### Lemmas -/

theorem fits_iff {cred : Int} {b : Nat} (h0 : 0 ≤ cred) (h1 : cred < 4294967296) : fits cred b = true ↔ (b : Int) ≤ cred := by
  unfold fits
  rw [decide_eq_true_eq, Int.emod_eq_of_lt h0 h1]

theorem pop_fits {cred : Int} {q q' : List Pkt} {p : Pkt} (h : pop cred q = some (p, q')) : fits cred p.bytes = true := by
  induction q generalizing q' with
  | nil => simp [pop] at h
  | cons a q ih =>
    unfold pop at h
    split at h
    · cases h; assumption
    · split at h
      · simp at h
      · rename_i e
        cases h
        exact ih e

theorem pop_none {cred : Int} {q : List Pkt} (h : pop cred q = none) : ∀ p ∈ q, fits cred p.bytes = false := by
  induction q with
  | nil => simp
  | cons a q ih =>
    unfold pop at h
    split at h
    · simp at h
    · rename_i hf
      split at h
      · rename_i e
        intro p hp
        rcases List.mem_cons.1 hp with rfl | hp
        · simpa using hf
        · exact ih e p hp
      · simp at h

/-- The packet popped, what is before it in the queue (nothing there fits) and after it. -/
theorem pop_split {cred : Int} {q q' : List Pkt} {p : Pkt} (h : pop cred q = some (p, q')) :
    ∃ a b, q = a ++ p :: b ∧ q' = a ++ b ∧ ∀ x ∈ a, fits cred x.bytes = false := by
  induction q generalizing q' with
  | nil => simp [pop] at h
  | cons a q ih =>
    unfold pop at h
    split at h
    · cases h
      exact ⟨[], q, rfl, rfl, by simp⟩
    · rename_i hf
      split at h
      · simp at h
      · rename_i e
        cases h
        obtain ⟨x, y, rfl, rfl, hx⟩ := ih e
        refine ⟨a :: x, y, rfl, rfl, ?_⟩
        intro z hz
        rcases List.mem_cons.1 hz with rfl | hz
        · simpa using hf
        · exact hx z hz

theorem pop_perm {cred : Int} {q q' : List Pkt} {p : Pkt} (h : pop cred q = some (p, q')) : (p :: q').Perm q := by
  obtain ⟨a, b, rfl, rfl, _⟩ := pop_split h
  exact List.perm_middle.symm

theorem drain_perm (cred : Int) (q : List Pkt) : ((drain cred q).2 ++ (drain cred q).1.queue).Perm q := by
  fun_induction drain cred q with
  | case1 cred q h => exact List.Perm.refl _
  | case2 cred q p q' h r ih => exact (List.Perm.cons p ih).trans (pop_perm h)

theorem total_perm {a b : List Pkt} (h : a.Perm b) : total a = total b := by
  unfold total
  exact (h.map _).sum_nat

theorem total_append (a b : List Pkt) : total (a ++ b) = total a + total b := by
  unfold total
  rw [List.map_append, List.sum_append_nat]

theorem drain_cred (cred : Int) (q : List Pkt) : (drain cred q).1.cred + total (drain cred q).2 = cred := by
  fun_induction drain cred q with
  | case1 cred q h => simp [total]
  | case2 cred q p q' h r ih =>
    simp only [total, List.map_cons, List.sum_cons] at ih ⊢
    have : r = drain (cred - p.bytes) q' := rfl
    rw [← this] at ih
    omega

theorem drain_nonneg (cred : Int) (q : List Pkt) (h0 : 0 ≤ cred) (h1 : cred < 4294967296) : 0 ≤ (drain cred q).1.cred := by
  fun_induction drain cred q with
  | case1 cred q h => exact h0
  | case2 cred q p q' h r ih =>
    have := (fits_iff h0 h1).1 (pop_fits h)
    exact ih (by omega) (by omega)

/-- What an event takes in comes out or waits; credits are exchanged for bytes sent. -/
theorem step_perm (all : Bool) (s : Slot) (e : Ev) : ((step all s e).2 ++ (step all s e).1.queue).Perm (s.queue ++ pkts [e]) := by
  cases e with
  | pkt p =>
    unfold step payload
    simp only
    split
    · simp only [pkts]
      exact List.perm_append_comm (l₁ := [p])
    · simp only [pkts, List.nil_append]
      exact List.Perm.refl _
  | credit n =>
    unfold step
    simp only [pkts, List.append_nil]
    split
    · exact drain_perm _ _
    · unfold creditOne
      simp only
      split
      · exact List.Perm.refl _
      · rename_i h
        exact pop_perm h

theorem step_cred (all : Bool) (s : Slot) (e : Ev) : (step all s e).1.cred + total (step all s e).2 = s.cred + back [e] := by
  cases e with
  | pkt p =>
    unfold step payload
    simp only
    split <;> simp [total, back]
  | credit n =>
    unfold step
    simp only [back, Nat.add_zero]
    split
    · exact drain_cred _ _
    · unfold creditOne
      simp only
      split <;> simp [total]

theorem step_nonneg (all : Bool) (s : Slot) (e : Ev) (h0 : 0 ≤ s.cred) (h1 : s.cred + back [e] < 4294967296) : 0 ≤ (step all s e).1.cred := by
  cases e with
  | pkt p =>
    unfold step payload
    simp only [back] at *
    split
    · rename_i h
      have := (fits_iff h0 (by omega)).1 h
      simp only
      omega
    · exact h0
  | credit n =>
    unfold step
    simp only [back, Nat.add_zero] at *
    split
    · exact drain_nonneg _ _ (by omega) h1
    · unfold creditOne
      simp only
      split
      · simp only; omega
      · rename_i h
        have := (fits_iff (by omega) h1).1 (pop_fits h)
        simp only
        omega

end SST.Pisces
