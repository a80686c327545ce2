import Verif.Nic.RecvCq
/-
C52: the completion queue hands up each message exactly once, with its last packet.
-/
set_option autoImplicit false
namespace SST.Nic

/-- The bytes of a list of packets. -/
def bytesOf (l : List Packet) : Nat := (l.map Packet.bytes).sum

/-- `l` are the packets of message `f`, in any order: they have its identifier, their bytes add up
to its length, exactly one carries the message, and the others are not empty. -/
structure PacketsOf (f : Flow) (l : List Packet) : Prop where
  ids : ∀ p ∈ l, p.fid = f.id
  len : bytesOf l = f.len
  one : l.filterMap Packet.payload = [f]
  pos : ∀ p ∈ l, p.payload = none → 0 < p.bytes
  u64 : f.len < 18446744073709551616

/-- The packets of one message among others. -/
def ofFlow (i : Nat) (l : List Packet) : List Packet := l.filter (·.fid == i)

/-- `l` is any interleaving, in any order, of the packets of complete messages. -/
def Complete (l : List Packet) : Prop := ∀ p ∈ l, ∃ f, PacketsOf f (ofFlow p.fid l)

theorem bytesOf_append (a b : List Packet) : bytesOf (a ++ b) = bytesOf a + bytesOf b := by
  unfold bytesOf
  rw [List.map_append, List.sum_append_nat]

theorem ofFlow_append (i : Nat) (a b : List Packet) : ofFlow i (a ++ b) = ofFlow i a ++ ofFlow i b := List.filter_append ..

theorem mem_ofFlow {i : Nat} {l : List Packet} {p : Packet} : p ∈ ofFlow i l ↔ p ∈ l ∧ p.fid = i := by
  simp [ofFlow]

/-- What the queue holds about a message of which it has seen `seen`, when more is to come. -/
def entry (seen : List Packet) : Option Incoming :=
  if seen = [] then none
  else some ⟨(seen.filterMap Packet.payload).head?, bytesOf seen, match (seen.filterMap Packet.payload).head? with | some f => f.len | none => 0⟩

/-- The queue after the packets `seen`, when they are part of complete messages `seen ++ rest`. -/
def Good (q : Cq) (seen rest : List Packet) : Prop := ∀ i, q i = if ofFlow i rest = [] then none else entry (ofFlow i seen)

theorem entry_getD (seen : List Packet) : (entry seen).getD ⟨none, 0, 0⟩ =
    ⟨(seen.filterMap Packet.payload).head?, bytesOf seen, match (seen.filterMap Packet.payload).head? with | some f => f.len | none => 0⟩ := by
  unfold entry
  split
  · rename_i h; subst h; rfl
  · rfl

theorem pos_bytes {f : Flow} {l : List Packet} (h : PacketsOf f l) {a : List Packet} (hs : ∀ p ∈ a, p ∈ l) (hn : a.filterMap Packet.payload = [])
    (hne : a ≠ []) : 0 < bytesOf a := by
  cases a with
  | nil => exact (hne rfl).elim
  | cons p a =>
    have hp : p.payload = none := by
      cases hc : p.payload with
      | none => rfl
      | some g => rw [List.filterMap_cons, hc] at hn; cases hn
    have := h.pos p (hs p (List.mem_cons_self ..)) hp
    unfold bytesOf
    rw [List.map_cons, List.sum_cons]
    omega

theorem step_good {q : Cq} {seen rest : List Packet} {p : Packet} (hc : Complete (seen ++ p :: rest)) (hg : Good q seen (p :: rest)) {f : Flow}
    (hf : PacketsOf f (ofFlow p.fid (seen ++ p :: rest))) :
    (recv q p).2 = (if ofFlow p.fid rest = [] then some (some f) else none) ∧ Good (recv q p).1 (seen ++ [p]) rest := by
  have hsplit : ofFlow p.fid (seen ++ p :: rest) = ofFlow p.fid seen ++ [p] ++ ofFlow p.fid rest := by
    rw [ofFlow_append, List.append_assoc]
    congr 1
    simp [ofFlow]
  generalize hS : ofFlow p.fid seen = S at hsplit
  generalize hR : ofFlow p.fid rest = R at hsplit
  have hq : (q p.fid).getD ⟨none, 0, 0⟩ = ⟨(S.filterMap Packet.payload).head?, bytesOf S, match (S.filterMap Packet.payload).head? with | some f => f.len | none => 0⟩ := by
    rw [hg p.fid, if_neg (by simp [ofFlow]), hS, entry_getD]
  have hlen : bytesOf S + p.bytes + bytesOf R = f.len := by
    have := hf.len
    rw [hsplit, bytesOf_append, bytesOf_append] at this
    simpa [bytesOf] using this
  have hone : S.filterMap Packet.payload ++ ([p].filterMap Packet.payload ++ R.filterMap Packet.payload) = [f] := by
    have := hf.one
    rw [hsplit, List.filterMap_append, List.filterMap_append, List.append_assoc] at this
    exact this
  have hu := hf.u64
  -- the entry after the packet
  have hpay : (⟨(S.filterMap Packet.payload).head?, bytesOf S, match (S.filterMap Packet.payload).head? with | some f => f.len | none => 0⟩ : Incoming).note p.payload =
      ⟨((S ++ [p]).filterMap Packet.payload).head?, bytesOf S, match ((S ++ [p]).filterMap Packet.payload).head? with | some f => f.len | none => 0⟩ := by
    rw [List.filterMap_append]
    cases hp : p.payload with
    | none => simp [hp, Incoming.note]
    | some g =>
      have : S.filterMap Packet.payload = [] := by
        rw [List.filterMap_cons, hp] at hone
        rcases hx : S.filterMap Packet.payload with _ | ⟨a, _ | ⟨b, t⟩⟩
        · rfl
        · rw [hx] at hone; simp at hone
        · rw [hx] at hone; simp at hone
      simp [this, hp, Incoming.note]
  have hmod : (bytesOf S + p.bytes) % 18446744073709551616 = bytesOf (S ++ [p]) := by
    rw [bytesOf_append, Nat.mod_eq_of_lt (by omega)]
    simp [bytesOf]
  have hcomp : (bytesOf (S ++ [p]) = (match ((S ++ [p]).filterMap Packet.payload).head? with | some f => f.len | none => 0)) ↔ R = [] := by
    have hb : bytesOf (S ++ [p]) + bytesOf R = f.len := by
      rw [bytesOf_append]
      simp only [bytesOf, List.map_cons, List.map_nil, List.sum_cons, List.sum_nil] at *
      omega
    rw [← List.append_assoc, ← List.filterMap_append] at hone
    rcases hx : (S ++ [p]).filterMap Packet.payload with _ | ⟨a, t⟩
    · rw [hx] at hone
      simp only [List.head?_nil]
      have h1 := pos_bytes hf (a := S ++ [p]) (by intro x hx; rw [hsplit]; exact List.mem_append.2 (Or.inl hx)) hx (by simp)
      constructor
      · intro h; omega
      · intro h; rw [h] at hone; simp at hone
    · rw [hx] at hone
      simp only [List.cons_append, List.cons.injEq, List.append_eq_nil_iff] at hone
      obtain ⟨rfl, _, hR'⟩ := hone
      simp only [List.head?_cons]
      constructor
      · intro h
        by_cases hne : R = []
        · exact hne
        · have := pos_bytes hf (a := R) (by intro x hx; rw [hsplit]; exact List.mem_append.2 (Or.inr hx)) hR' hne
          omega
      · intro h
        rw [h] at hb
        simp only [bytesOf, List.map_nil, List.sum_nil] at hb
        unfold bytesOf
        omega
  have hmsg : R = [] → ((S ++ [p]).filterMap Packet.payload).head? = some f := by
    intro h
    rw [h, List.filterMap_nil, List.append_nil, ← List.filterMap_append] at hone
    rw [hone]
    rfl
  have hother : ∀ i, i ≠ p.fid → q i = if ofFlow i rest = [] then none else entry (ofFlow i (seen ++ [p])) := by
    intro i hi
    rw [hg i]
    have h1 : ofFlow i (p :: rest) = ofFlow i rest := by
      unfold ofFlow
      rw [List.filter_cons, if_neg]
      simpa using fun h => hi h.symm
    have h2 : ofFlow i (seen ++ [p]) = ofFlow i seen := by
      unfold ofFlow
      rw [List.filter_append]
      have : ([p].filter fun x => x.fid == i) = [] := by
        simp only [List.filter_cons, List.filter_nil]
        rw [if_neg]
        simpa using fun h => hi h.symm
      rw [this, List.append_nil]
    rw [h1, h2]
  have hS' : ofFlow p.fid (seen ++ [p]) = S ++ [p] := by
    rw [ofFlow_append, hS]
    congr 1
    simp [ofFlow]
  unfold recv
  simp only [hq, hpay, hmod, hcomp]
  by_cases hR0 : R = []
  · rw [if_pos hR0, hmsg hR0, if_pos hR0]
    refine ⟨rfl, ?_⟩
    intro i
    by_cases hi : i = p.fid
    · simp only [hi, if_true]
      rw [if_pos (by rw [hR]; exact hR0)]
    · simp only [hi, if_false]
      exact hother i hi
  · rw [if_neg hR0, if_neg hR0]
    refine ⟨rfl, ?_⟩
    intro i
    by_cases hi : i = p.fid
    · simp only [hi, if_true]
      rw [hR, if_neg hR0, hS']
      unfold entry
      rw [if_neg (by simp)]
    · simp only [hi, if_false]
      exact hother i hi

theorem run_good (seen rest : List Packet) (hc : Complete (seen ++ rest)) : Good (recvAll cq0 seen).1 seen rest := by
  suffices h : ∀ (a b : List Packet) (q : Cq), Complete (a ++ b ++ rest) → Good q a (b ++ rest) → Good (recvAll q b).1 (a ++ b) rest by
    have := h [] seen cq0 hc ?_
    · exact this
    · intro i
      unfold cq0 entry ofFlow
      simp
  intro a b
  induction b generalizing a with
  | nil => intro q _ hg; simpa [recvAll] using hg
  | cons p b ih =>
    intro q hc hg
    have hc' : Complete (a ++ p :: (b ++ rest)) := by simpa using hc
    obtain ⟨f, hf⟩ := hc' p (by simp)
    have := step_good hc' hg hf
    have := ih (a ++ [p]) (recv q p).1 (by simpa using hc) this.2
    unfold recvAll
    simpa using this

/-- C52: whatever order the packets of any number of messages arrive in, a packet makes the queue
hand up its message exactly when no packet of that message is still to come. -/
theorem C52_with_last_packet (pre post : List Packet) (p : Packet) (f : Flow) (hc : Complete (pre ++ p :: post))
    (hf : PacketsOf f (ofFlow p.fid (pre ++ p :: post))) :
    (recv (recvAll cq0 pre).1 p).2 = if ∃ x ∈ post, x.fid = p.fid then none else some (some f) := by
  rw [(step_good hc (run_good pre _ hc) hf).1]
  have : ofFlow p.fid post = [] ↔ ¬ ∃ x ∈ post, x.fid = p.fid := by
    unfold ofFlow
    rw [List.filter_eq_nil_iff]
    simp
  by_cases h : ofFlow p.fid post = []
  · rw [if_pos h, if_neg (this.1 h)]
  · rw [if_neg h, if_pos]
    exact Classical.byContradiction fun h' => h (this.2 h')

theorem recvAll_append (q : Cq) (a b : List Packet) :
    recvAll q (a ++ b) = ((recvAll (recvAll q a).1 b).1, (recvAll q a).2 ++ (recvAll (recvAll q a).1 b).2) := by
  induction a generalizing q with
  | nil => rfl
  | cons p a ih =>
    simp only [List.cons_append, recvAll, ih, List.append_assoc]

theorem count_payload {l : List Packet} (hc : Complete l) (f : Flow) (hm : f ∈ l.filterMap Packet.payload) :
    (∃ p ∈ l, p.fid = f.id ∧ p.payload = some f) ∧ PacketsOf f (ofFlow f.id l) := by
  rw [List.mem_filterMap] at hm
  obtain ⟨p, hp, hpf⟩ := hm
  obtain ⟨g, hg⟩ := hc p hp
  have hmem : p ∈ ofFlow p.fid l := mem_ofFlow.2 ⟨hp, rfl⟩
  have : f ∈ (ofFlow p.fid l).filterMap Packet.payload := List.mem_filterMap.2 ⟨p, hmem, hpf⟩
  rw [hg.one, List.mem_singleton] at this
  subst this
  have hid := hg.ids p hmem
  refine ⟨⟨p, hp, hid, hpf⟩, ?_⟩
  rw [← hid]
  exact hg

theorem snocInd {α : Type} {P : List α → Prop} (h0 : P []) (h1 : ∀ l a, P l → P (l ++ [a])) (l : List α) : P l := by
  rw [← l.reverse_reverse]
  induction l.reverse with
  | nil => exact h0
  | cons a l ih => rw [List.reverse_cons]; exact h1 _ _ ih

theorem count_run {l : List Packet} (hc : Complete l) (f : Flow) : ∀ (pre post : List Packet), l = pre ++ post →
    (recvAll cq0 pre).2.count f = if f ∈ l.filterMap Packet.payload ∧ ofFlow f.id post = [] then 1 else 0 := by
  intro pre
  induction pre using snocInd with
  | h0 =>
    intro post h
    rw [if_neg]
    · rfl
    · rintro ⟨hm, hp⟩
      obtain ⟨⟨p, hp', hid, _⟩, _⟩ := count_payload hc f hm
      rw [h, List.nil_append] at hp'
      have : p ∈ ofFlow f.id post := mem_ofFlow.2 ⟨hp', hid⟩
      rw [hp] at this
      cases this
  | h1 pre p ih =>
    intro post h
    have h' : l = pre ++ p :: post := by rw [h]; simp
    have ih := ih (p :: post) h'
    rw [recvAll_append]
    have hlc : Complete (pre ++ p :: post) := by rw [← h']; exact hc
    obtain ⟨g, hg⟩ := hlc p (by simp)
    have hres := (step_good hlc (run_good pre _ hlc) hg).1
    have hgid : g.id = p.fid := (hg.ids p (mem_ofFlow.2 ⟨by simp, rfl⟩)).symm
    have hgm : g ∈ l.filterMap Packet.payload := by
      have : g ∈ (ofFlow p.fid l).filterMap Packet.payload := by rw [h', hg.one]; simp
      rw [List.mem_filterMap] at this ⊢
      obtain ⟨x, hx, hxp⟩ := this
      exact ⟨x, (mem_ofFlow.1 hx).1, hxp⟩
    rw [List.count_append, ih]
    simp only [recvAll, hres, List.append_nil]
    by_cases hfp : f.id = p.fid
    · have hne : ofFlow f.id (p :: post) ≠ [] := by
        rw [hfp]; simp [ofFlow]
      rw [if_neg (fun h => hne h.2), Nat.zero_add, hfp]
      by_cases hpost : ofFlow p.fid post = []
      · rw [if_pos hpost]
        by_cases hfg : f = g
        · subst hfg
          rw [if_pos ⟨hgm, hpost⟩]
          simp
        · rw [if_neg]
          · simp only [List.count_cons, List.count_nil, beq_iff_eq]
            rw [if_neg (fun h => hfg h.symm)]
          · rintro ⟨hm, _⟩
            obtain ⟨_, h2⟩ := count_payload hc f hm
            rw [h', hfp] at h2
            have := h2.one.symm.trans hg.one
            simp only [List.cons.injEq, and_true] at this
            exact hfg this
      · rw [if_neg hpost, if_neg (fun h => hpost h.2)]
        rfl
    · have h1 : ofFlow f.id (p :: post) = ofFlow f.id post := by
        unfold ofFlow
        rw [List.filter_cons, if_neg]
        simpa using fun h => hfp h.symm
      rw [h1]
      by_cases hpost : ofFlow p.fid post = []
      · rw [if_pos hpost]
        simp only [List.count_cons, List.count_nil, beq_iff_eq]
        rw [if_neg (c := g = f), Nat.add_zero]
        intro h
        rw [h] at hgid
        exact hfp hgid
      · rw [if_neg hpost]
        rfl

/-- C52: over a whole run the queue hands up exactly the messages sent, each once, and is empty
afterwards. -/
theorem C52_exactly_once (l : List Packet) (hc : Complete l) :
    (recvAll cq0 l).2.Perm (l.filterMap Packet.payload) ∧ (l.filterMap Packet.payload).Nodup ∧ ∀ i, (recvAll cq0 l).1 i = none := by
  have hnd : ∀ f, (l.filterMap Packet.payload).count f ≤ 1 := by
    intro f
    by_cases hm : f ∈ l.filterMap Packet.payload
    · obtain ⟨_, h⟩ := count_payload hc f hm
      have h1 : ∀ l' : List Packet, (∀ p ∈ l', p ∈ l) → (l'.filterMap Packet.payload).count f = ((ofFlow f.id l').filterMap Packet.payload).count f := by
        intro l'
        induction l' with
        | nil => intro _; rfl
        | cons p l' ih =>
          intro hs
          have ih := ih (fun x hx => hs x (List.mem_cons_of_mem _ hx))
          unfold ofFlow at ih ⊢
          rw [List.filter_cons]
          by_cases hp : p.fid = f.id
          · simp only [hp, beq_self_eq_true, if_true]
            rw [List.filterMap_cons, List.filterMap_cons]
            split
            · exact ih
            · simp only [List.count_cons, ih]
          · rw [if_neg (by simpa using hp), List.filterMap_cons]
            split
            · exact ih
            · rename_i g hg
              rw [List.count_cons, ih, if_neg, Nat.add_zero]
              simp only [beq_iff_eq]
              rintro rfl
              obtain ⟨g', hg'⟩ := hc p (hs p (List.mem_cons_self ..))
              have hm' : p ∈ ofFlow p.fid l := mem_ofFlow.2 ⟨hs p (List.mem_cons_self ..), rfl⟩
              have : g ∈ (ofFlow p.fid l).filterMap Packet.payload := List.mem_filterMap.2 ⟨p, hm', hg⟩
              rw [hg'.one, List.mem_singleton] at this
              subst this
              exact hp (hg'.ids p hm')
      rw [h1 l (fun _ h => h), h.one]
      simp
    · rw [List.count_eq_zero.2 hm]
      omega
  refine ⟨?_, ?_, ?_⟩
  · rw [List.perm_iff_count]
    intro f
    have := count_run hc f l [] (by simp)
    rw [this]
    by_cases hm : f ∈ l.filterMap Packet.payload
    · rw [if_pos ⟨hm, rfl⟩]
      have h1 := List.count_pos_iff.2 hm
      have h2 := hnd f
      omega
    · rw [if_neg (fun h => hm h.1), List.count_eq_zero.2 hm]
  · rw [List.nodup_iff_count]
    exact hnd
  · intro i
    have := run_good l [] (by simpa using hc) i
    rw [this]
    simp [ofFlow]

/-- Two messages of 5000 and 0 bytes; the packets of the first arrive in the wrong order around
the second. -/
def demo : List Packet := [⟨1, 904, some ⟨1, 5000⟩⟩, ⟨2, 0, some ⟨2, 0⟩⟩, ⟨1, 4096, none⟩]

example : Complete demo ∧ (recvAll cq0 demo).2 = [⟨2, 0⟩, ⟨1, 5000⟩] := by
  refine ⟨?_, by decide⟩
  intro p hp
  have hp : p.fid = 1 ∨ p.fid = 2 := by revert p; decide
  rcases hp with h | h <;> rw [h]
  · exact ⟨⟨1, 5000⟩, by decide, by decide, by decide, by decide, by decide⟩
  · exact ⟨⟨2, 0⟩, by decide, by decide, by decide, by decide, by decide⟩

end SST.Nic
