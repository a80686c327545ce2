import Verif.Sculpin.NicProps
/-!
C102: packets that take the same path through sculpin switches stay in order and are never faster than
the wires allow; how long a packet takes when nothing is in its way.
-/
set_option autoImplicit false
namespace SST.Sculpin

/-- Packets come in the order of time. -/
theorem came_sorted {d : Nat} {s : St} (h : Run d s) : (∀ k ∈ s.came, k.arrival ≤ s.clock) ∧ s.came.Pairwise (fun a b => a.arrival ≤ b.arrival) := by
  induction h with
  | init => simp
  | @step s s' hr hs ih =>
    cases hs with
    | @arrive p hp k hk t ht hn =>
      refine ⟨?_, List.pairwise_append.mpr ⟨ih.2, by simp, ?_⟩⟩
      · intro q hq
        rcases List.mem_append.mp hq with hq | hq
        · exact Nat.le_trans (ih.1 q hq) ht
        · simp only [List.mem_singleton] at hq
          subst hq
          exact Nat.le_refl _
      · intro a ha b hb
        simp only [List.mem_singleton] at hb
        subst hb
        exact Nat.le_trans (ih.1 a ha) ht
    | @pull p hp T hT hn =>
      refine ⟨fun q hq => Nat.le_trans (ih.1 q hq) ?_, ih.2⟩
      obtain ⟨p', hi⟩ := inv_run hr
      have e := hi.port
      rw [hp] at e
      cases e
      have hpu := hi.pulls
      by_cases hqe : p.queue = []
      · rw [if_pos hqe] at hpu
        rw [hpu] at hT
        cases hT
      · rw [if_neg hqe] at hpu
        rw [hpu] at hT
        simp only [List.mem_singleton] at hT
        subst hT
        exact hi.late hqe

/-- What a port sends: never before it came, for `bytes * d`. -/
theorem sent_facts {d : Nat} {s : St} (h : Run d s) : (∀ x ∈ s.sent, x.pkt.arrival ≤ x.start ∧ x.stop = x.start + x.pkt.bytes * d) ∧
    s.sent.Pairwise (fun a b => a.pkt.arrival ≤ b.pkt.arrival) := by
  obtain ⟨p, hi⟩ := inv_run h
  constructor
  · have : ∀ (l : List Pkt) (free : Nat), ∀ x ∈ serve d free l, x.pkt.arrival ≤ x.start ∧ x.stop = x.start + x.pkt.bytes * d := by
      intro l
      induction l with
      | nil => intro free x hx; cases hx
      | cons k l ih =>
        intro free x hx
        rcases List.mem_cons.mp hx with rfl | hx
        · exact ⟨Nat.le_max_left .., rfl⟩
        · exact ih _ x hx
    intro x hx
    have := this _ 0 x.plain (by rw [← hi.served]; exact List.mem_map.mpr ⟨x, hx, rfl⟩)
    exact this
  · have hs := (came_sorted h).2
    rw [hi.came, List.map_append, List.pairwise_append] at hs
    have := hs.1
    rw [List.map_map, List.pairwise_map] at this
    exact this

/-- At one port, what comes earlier is sent before what comes later. -/
theorem port_order {d : Nat} {s : St} (h : Run d s) {a b : Sent} (ha : a ∈ s.sent) (hb : b ∈ s.sent) (hlt : a.pkt.arrival < b.pkt.arrival) : a.stop ≤ b.start := by
  have h1 := C100_link_exclusive h
  have h2 := (sent_facts h).2
  obtain ⟨i, hi, rfl⟩ := List.getElem_of_mem ha
  obtain ⟨j, hj, rfl⟩ := List.getElem_of_mem hb
  rcases Nat.lt_trichotomy i j with hij | hij | hij
  · exact List.pairwise_iff_getElem.mp h1 i j hi hj hij
  · subst hij; omega
  · have := List.pairwise_iff_getElem.mp h2 j i hj hi hij
    omega

/-! ### Paths -/

/-- One link of a path: its byte delay, the latency to the next switch, and the history of the port that
sends on it, with all its traffic. -/
structure Hop where
  d : Nat
  lat : Nat
  s : St

/-- A packet takes a path: at every port it is sent once it has come; it comes to the next port when its
head is there and its tail can follow (`entry`).  `trace` is when it started and had left at each port. -/
inductive Takes (k bytes : Nat) : List Hop → List Sent → Prop
  | last (h : Hop) (a : Sent) (ha : a ∈ h.s.sent) (hid : a.pkt.id = k) (hb : a.pkt.bytes = bytes) : Takes k bytes [h] [a]
  | cons (h h' : Hop) (a b : Sent) (l : List Hop) (tr : List Sent) (ha : a ∈ h.s.sent) (hid : a.pkt.id = k) (hb : a.pkt.bytes = bytes)
      (he : b.pkt.arrival = entry (a.start + h.lat) (bytes * h.d) (bytes * h'.d)) (ht : Takes k bytes (h' :: l) (b :: tr)) :
      Takes k bytes (h :: h' :: l) (a :: b :: tr)

/-- The latencies of all links but the last, whose latency comes after the packet left. -/
def wires : List Hop → Nat
  | h :: h' :: l => h.lat + wires (h' :: l)
  | _ => 0

/-- The tail of a packet leaves a port no sooner than it left the port before and crossed the wire; so a
packet is never faster than the wires and its slowest link allow. -/
theorem C102_not_faster {k bytes : Nat} {l : List Hop} {tr : List Sent} (hr : ∀ h ∈ l, Run h.d h.s) (ht : Takes k bytes l tr) :
    ∀ a b, tr.head? = some a → tr.getLast? = some b → a.stop + wires l ≤ b.stop ∧ ∀ h ∈ l, a.start + wires l + bytes * h.d ≤ b.stop := by
  induction ht with
  | last h a ha hid hb =>
    intro x y hx hy
    simp at hx hy
    subst hx hy
    have := (sent_facts (hr h (List.mem_cons_self ..))).1 a ha
    rw [hb] at this
    simp only [wires, List.mem_singleton]
    refine ⟨by omega, ?_⟩
    rintro h' rfl
    omega
  | cons h h' a b l tr ha hid hb he ht ih =>
    intro x y hx hy
    simp at hx
    subst hx
    have hb' : b ∈ h'.s.sent ∧ b.pkt.bytes = bytes := by
      cases ht with
      | last _ _ h1 _ h2 => exact ⟨h1, h2⟩
      | cons _ _ _ _ _ _ h1 _ h2 => exact ⟨h1, h2⟩
    obtain ⟨i1, i2⟩ := ih (fun g hg => hr g (List.mem_cons_of_mem _ hg)) b y rfl (by rw [← hy, List.getLast?_cons_cons])
    have f1 := (sent_facts (hr h (List.mem_cons_self ..))).1 a ha
    have f2 := (sent_facts (hr h' (by simp))).1 b hb'.1
    rw [hb] at f1
    rw [hb'.2] at f2
    have hen : a.start + h.lat ≤ b.start ∧ a.stop + h.lat ≤ b.stop := by
      unfold entry at he
      split at he <;> omega
    simp only [wires]
    refine ⟨by omega, ?_⟩
    intro g hg
    rcases List.mem_cons.mp hg with rfl | hg
    · omega
    · have := i2 g hg
      omega

/-- Two packets that take the same path leave every port in the order in which they left the first,
whatever other traffic crosses their way: the second starts only when the first has left.  Packets are not
empty and links take time. -/
theorem C102_in_order {j k bj bk : Nat} {l : List Hop} {tj tk : List Sent} (hr : ∀ h ∈ l, Run h.d h.s ∧ 0 < h.d) (hbj : 0 < bj)
    (hj : Takes j bj l tj) (hk : Takes k bk l tk) (h0 : ∀ a b, tj.head? = some a → tk.head? = some b → a.stop ≤ b.start) :
    ∀ (i : Nat) (a b : Sent), tj[i]? = some a → tk[i]? = some b → a.stop ≤ b.start := by
  induction hj generalizing tk with
  | last h a ha hid hb =>
    intro i x y hx hy
    cases i with
    | zero =>
      apply h0 x y
      · simpa using hx
      · rw [← hy]; cases tk <;> rfl
    | succ i => simp at hx
  | cons h h' a b l tr ha hid hb he ht ih =>
    cases hk with
    | cons _ _ a' b' _ tr' ha' hid' hb' he' ht' =>
      have hbs : b ∈ h'.s.sent ∧ b.pkt.bytes = bj := by
        cases ht with
        | last _ _ h1 _ h2 => exact ⟨h1, h2⟩
        | cons _ _ _ _ _ _ h1 _ h2 => exact ⟨h1, h2⟩
      have hbs' : b' ∈ h'.s.sent := by
        cases ht' with
        | last _ _ h1 _ h2 => exact h1
        | cons _ _ _ _ _ _ h1 _ h2 => exact h1
      have hfirst := h0 a a' rfl rfl
      have f1 := (sent_facts (hr h (List.mem_cons_self ..)).1).1 a ha
      rw [hb] at f1
      have p1 : 0 < bj * h.d := Nat.mul_pos hbj (hr h (List.mem_cons_self ..)).2
      have p2 : 0 < bj * h'.d := Nat.mul_pos hbj (hr h' (by simp)).2
      have hlt : b.pkt.arrival < b'.pkt.arrival := by
        rw [he, he']
        unfold entry
        split <;> split <;> omega
      have hord := port_order (hr h' (by simp)).1 hbs.1 hbs' hlt
      have hrest := ih (fun g hg => hr g (List.mem_cons_of_mem _ hg)) ht' (by
        intro x y hx hy
        simp at hx hy
        subst hx hy
        exact hord)
      intro i x y hx hy
      cases i with
      | zero =>
        simp at hx hy
        subst hx hy
        exact hfirst
      | succ i => exact hrest i x y (by simpa using hx) (by simpa using hy)

/-! ### A packet alone -/

/-- When a packet of `bytes` bytes that never waits has left the last of the links with byte delays `ds`
and latencies between them, if it starts at `t` on a link with byte delay `d`. -/
def alone (bytes : Nat) : Nat → Nat → List (Nat × Nat) → Nat
  | t, d, [] => t + bytes * d
  | t, d, (lat, d') :: l => alone bytes (entry (t + lat) (bytes * d) (bytes * d')) d' l

/-- What the slowest link takes. -/
def slowest (bytes d : Nat) (l : List (Nat × Nat)) : Nat := l.foldl (fun m x => max m (bytes * x.2)) (bytes * d)

/-- How much slower links are than the ones before them, added up. -/
def climbs (bytes : Nat) : Nat → List (Nat × Nat) → Nat
  | _, [] => 0
  | d, (_, d') :: l => (bytes * d' - bytes * d) + climbs bytes d' l

/-- A packet alone takes the wires, its first link, and what every link adds that is slower than the one
before it. -/
theorem C102_alone (bytes t d : Nat) (l : List (Nat × Nat)) : alone bytes t d l = t + (l.map Prod.fst).sum + bytes * d + climbs bytes d l := by
  induction l generalizing t d with
  | nil => simp [alone, climbs]
  | cons x l ih =>
    obtain ⟨lat, d'⟩ := x
    simp only [alone, climbs, List.map_cons, List.sum_cons]
    rw [ih]
    unfold entry
    split <;> omega

/-- If no link is slower than the one before it, or all are at least as slow, that is what cut-through
routing takes: the wires and the slowest link once. -/
theorem C102_cut_through_partial (bytes t d : Nat) (l : List (Nat × Nat))
    (h : ((d :: l.map Prod.snd).Pairwise (fun a b => b ≤ a)) ∨ ((d :: l.map Prod.snd).Pairwise (fun a b => a ≤ b))) :
    alone bytes t d l = t + (l.map Prod.fst).sum + slowest bytes d l := by
  rw [C102_alone, Nat.add_assoc _ (bytes * d)]
  congr 1
  unfold slowest
  rcases h with h | h
  · induction l generalizing d with
    | nil => simp [climbs]
    | cons x l ih =>
      obtain ⟨lat, d'⟩ := x
      simp only [List.map_cons, List.pairwise_cons] at h
      have hd : bytes * d' ≤ bytes * d := Nat.mul_le_mul_left _ (h.1 d' (by simp))
      have := ih d (List.pairwise_cons.mpr ⟨fun y hy => h.1 y (by simp [hy]), h.2.2⟩)
      simp only [climbs, List.foldl_cons]
      rw [Nat.max_eq_left hd, ← this]
      have hc : ∀ (l : List (Nat × Nat)) (d : Nat), (d :: l.map Prod.snd).Pairwise (fun a b => b ≤ a) → climbs bytes d l = 0 := by
        intro l
        induction l with
        | nil => intro d _; rfl
        | cons x l ih =>
          intro d h
          simp only [List.map_cons] at h
          rw [List.pairwise_cons] at h
          simp only [climbs]
          rw [ih x.2 h.2]
          have : bytes * x.2 ≤ bytes * d := Nat.mul_le_mul_left _ (h.1 x.2 (by simp))
          omega
      rw [hc l d' (List.pairwise_cons.mpr h.2), hc l d (List.pairwise_cons.mpr ⟨fun y hy => h.1 y (by simp [hy]), h.2.2⟩)]
      omega
  · induction l generalizing d with
    | nil => simp [climbs]
    | cons x l ih =>
      obtain ⟨lat, d'⟩ := x
      simp only [List.map_cons, List.pairwise_cons] at h
      have hd : bytes * d ≤ bytes * d' := Nat.mul_le_mul_left _ (h.1 d' (by simp))
      simp only [climbs, List.foldl_cons]
      rw [Nat.max_eq_right hd, ← ih d' (List.pairwise_cons.mpr h.2)]
      omega

example : alone 10 0 3 [(5, 2), (5, 1)] = 40 := by decide

/-- But in the usual case it is not: when the links between switches are faster than the injection and
ejection of the interfaces, a packet pays for injection and for ejection, although the head of a packet
could be ejected while its tail is injected. -/
theorem C102_cut_through_refuted (bytes t inj link lat : Nat) (n : Nat) (hn : 0 < n) (h : link < inj) (hb : 0 < bytes) :
    alone bytes t inj (List.replicate n (lat, link) ++ [(lat, inj)]) = t + (n + 1) * lat + 2 * (bytes * inj) - bytes * link ∧
    t + (n + 1) * lat + slowest bytes inj (List.replicate n (lat, link) ++ [(lat, inj)]) < alone bytes t inj (List.replicate n (lat, link) ++ [(lat, inj)]) := by
  have hlt : bytes * link < bytes * inj := Nat.mul_lt_mul_of_pos_left h hb
  have hs : slowest bytes inj (List.replicate n (lat, link) ++ [(lat, inj)]) = bytes * inj := by
    unfold slowest
    rw [List.foldl_append]
    have : ∀ n, (List.replicate n (lat, link)).foldl (fun m x => max m (bytes * x.2)) (bytes * inj) = bytes * inj := by
      intro n
      induction n with
      | zero => rfl
      | succ n ih => rw [List.replicate_succ, List.foldl_cons]; simp only; rw [Nat.max_eq_left (Nat.le_of_lt hlt), ih]
    rw [this]
    simp
  have hsum : ((List.replicate n (lat, link) ++ [(lat, inj)]).map Prod.fst).sum = (n + 1) * lat := by
    simp [List.sum_replicate_nat, Nat.add_mul]
  have hc : ∀ n, climbs bytes link (List.replicate n (lat, link) ++ [(lat, inj)]) = bytes * inj - bytes * link := by
    intro n
    induction n with
    | zero => simp [climbs]
    | succ n ih => rw [List.replicate_succ, List.cons_append]; simp only [climbs]; rw [ih]; omega
  have hcl : climbs bytes inj (List.replicate n (lat, link) ++ [(lat, inj)]) = bytes * inj - bytes * link := by
    cases n with
    | zero => omega
    | succ n =>
      rw [List.replicate_succ, List.cons_append]
      simp only [climbs]
      rw [hc n]
      omega
  rw [C102_alone, hs, hsum, hcl]
  constructor <;> omega

example : (0 : Nat) < 2 ∧ (1 : Nat) < 5 := by decide

/-- Two packets over two ports, the second slower. -/
example : ∃ (l : List Hop) (tj tk : List Sent), (∀ h ∈ l, Run h.d h.s ∧ 0 < h.d) ∧ Takes 7 2 l tj ∧ Takes 8 1 l tk ∧ l.length = 2 ∧
    tj.map Sent.start = [0, 5] ∧ tk.map Sent.start = [4, 11] := by
  have e1 : ∃ s, Run 2 s ∧ s.sent = [⟨⟨7, 2, 0, 0, 0⟩, 0, 4⟩, ⟨⟨8, 1, 1, 0, 0⟩, 4, 6⟩] := by
    have r1 := Run.step .init (Step.arrive (d := 2) (s := {}) rfl ⟨7, 2, 0, 0, 0⟩ rfl (t := 0) (Nat.le_refl _) (by decide))
    have r2 := Run.step r1 (.arrive rfl ⟨8, 1, 0, 0, 0⟩ rfl (t := 1) (by decide) (by decide))
    have r3 := Run.step r2 (.pull rfl (T := 4) (by decide) (by decide))
    exact ⟨_, r3, by decide⟩
  have e2 : ∃ s, Run 3 s ∧ s.sent = [⟨⟨7, 2, 5, 0, 0⟩, 5, 11⟩, ⟨⟨8, 1, 9, 0, 0⟩, 11, 14⟩] := by
    have q1 := Run.step .init (Step.arrive (d := 3) (s := {}) rfl ⟨7, 2, 0, 0, 0⟩ rfl (t := 5) (by decide) (by decide))
    have q2 := Run.step q1 (.arrive rfl ⟨8, 1, 0, 0, 0⟩ rfl (t := 9) (by decide) (by decide))
    have q3 := Run.step q2 (.pull rfl (T := 11) (by decide) (by decide))
    exact ⟨_, q3, by decide⟩
  obtain ⟨s1, r1, h1⟩ := e1
  obtain ⟨s2, r2, h2⟩ := e2
  refine ⟨[⟨2, 5, s1⟩, ⟨3, 5, s2⟩], [⟨⟨7, 2, 0, 0, 0⟩, 0, 4⟩, ⟨⟨7, 2, 5, 0, 0⟩, 5, 11⟩], [⟨⟨8, 1, 1, 0, 0⟩, 4, 6⟩, ⟨⟨8, 1, 9, 0, 0⟩, 11, 14⟩], ?_,
    .cons _ _ _ _ _ _ (by simp [h1]) rfl rfl rfl (.last _ _ (by simp [h2]) rfl rfl),
    .cons _ _ _ _ _ _ (by simp [h1]) rfl rfl rfl (.last _ _ (by simp [h2]) rfl rfl), rfl, rfl, rfl⟩
  intro h hh
  simp only [List.mem_cons, List.not_mem_nil, or_false] at hh
  rcases hh with rfl | rfl
  · exact ⟨r1, show 0 < 2 by decide⟩
  · exact ⟨r2, show 0 < 3 by decide⟩

end SST.Sculpin
