import Verif.Pisces.FlowProps
import Verif.Topo.TorusProps
/-
The packet-flow elements of a network of switches and NICs, and C50 for it.
-/
set_option autoImplicit false
namespace SST.Pisces
open SST.Topo (Conn WellWired Attached)

/-- The elements: the crossbar of switch `s`, the output buffer of port `p` of switch `s`, the
injection buffer of node `n`, the receiving side of the NIC of node `n`
(pisces_switch.cc:119-133, pisces_nic.cc:80-82). -/
inductive Elt
  | xbar (s : Nat)
  | buf (s p : Nat)
  | inj (n : Nat)
  | sink (n : Nat)
deriving DecidableEq, Repr

/-- Output port `p` of switch `s` has a link or a node. -/
def used (N : Topo.Net) (s p : Nat) : Bool := decide (s < N.size) && ((N.conns s).any (·.outport == p) || (N.inj s).any (·.2 == p))

/-- The switch and switch port of node `n` (`endpointsConnectedToInjectionSwitch`,
interconnect.cc:249-267; ejection uses the same ports, topology.h). -/
def homeOf (N : Topo.Net) (n : Nat) : Option (Nat × Nat) :=
  (List.range N.size).findSome? fun s => ((N.inj s).find? (·.1 == n)).map fun x => (s, x.2)

/-- Where `setOutput` leads: crossbar port to buffer (`PiscesSwitch::connectOutput`,
pisces_switch.cc:165-188), buffer to the switch or NIC (interconnect.cc:282,574), NIC to switch
(interconnect.cc:267). -/
def outOf (N : Topo.Net) : Elt → Nat → Option (Elt × Nat)
  | .xbar s, p => if used N s p then some (.buf s p, 0) else none
  | .buf s p, k => if k = 0 ∧ s < N.size then
      match (N.conns s).find? (·.outport == p) with
      | some c => some (.xbar c.dst, c.inport)
      | none => match (N.inj s).find? (·.2 == p) with
        | some x => some (.sink x.1, 0)
        | none => none
    else none
  | .inj n, k => if k = 0 then (homeOf N n).map fun x => (.xbar x.1, x.2) else none
  | .sink _, _ => none

/-- Where `setInput` leads: the crossbar's input ports to the buffer of the switch
(interconnect.cc:607, pisces_switch.cc:199-204; the buffers always get port 0) or the NIC
(interconnect.cc:264), the buffer to the crossbar (pisces_switch.cc:181-183), the receiving NIC
to the buffer (interconnect.cc:285). -/
def backOf (N : Topo.Net) : Elt → Nat → Option (Elt × Nat)
  | .xbar t, q => if t < N.size then
      match (List.range N.size).findSome? (fun s => ((N.conns s).find? (fun c => c.dst == t && c.inport == q)).map fun c => (s, c.outport)) with
      | some x => some (.buf x.1 x.2, 0)
      | none => match (N.inj t).find? (·.2 == q) with
        | some x => some (.inj x.1, 0)
        | none => none
    else none
  | .buf s p, i => if i = 0 ∧ used N s p then some (.xbar s, p) else none
  | .inj _, _ => none
  | .sink n, i => if i = 0 then (homeOf N n).map fun x => (.buf x.1 x.2, 0) else none

/-- The elements of a network: `P` = `maxNumPorts`, `V` = the router's `numVC`, `cr s p` =
`link_credits_ * portScaleFactor`, `ic` = the injection credits. Crossbars take the new virtual
channel, buffers keep it (pisces_switch.cc:121, pisces_buffer.cc:88). -/
def cfgOf (N : Topo.Net) (P V : Nat) (cr : Nat → Nat → Nat) (ic : Nat) : Cfg Elt where
  nvc := fun | .xbar _ | .buf _ _ => V | _ => 1
  ports := fun | .xbar _ => P | .sink _ => 0 | _ => 1
  all := fun | .xbar _ => false | _ => true
  update := fun | .xbar _ => true | _ => false
  sink := fun | .sink _ => true | _ => false
  out := outOf N
  back := backOf N
  init := fun e p => match e with | .xbar s => cr s p | .buf s q => cr s q | _ => ic

theorem eq_of_nodup_map {α β : Type} {f : α → β} {l : List α} (h : (l.map f).Nodup) {a b : α} (ha : a ∈ l) (hb : b ∈ l) (e : f a = f b) : a = b := by
  induction l with
  | nil => cases ha
  | cons x l ih =>
    rw [List.map_cons, List.nodup_cons] at h
    rcases List.mem_cons.1 ha with h1 | h1
    · rcases List.mem_cons.1 hb with h2 | h2
      · rw [h1, h2]
      · exact (h.1 (List.mem_map.2 ⟨b, h2, by rw [← e, h1]⟩)).elim
    · rcases List.mem_cons.1 hb with h2 | h2
      · exact (h.1 (List.mem_map.2 ⟨a, h1, by rw [e, h2]⟩)).elim
      · exact ih h.2 h1 h2

section
variable {N : Topo.Net} (hw : WellWired N) {nodes : Nat} {home : Nat → Nat} (ha : Attached N nodes home)
include hw ha

theorem find_out {s : Nat} (hs : s < N.size) (p : Nat) (c : Conn) :
    (N.conns s).find? (·.outport == p) = some c ↔ c ∈ N.conns s ∧ c.outport = p := by
  constructor
  · intro h
    exact ⟨List.mem_of_find?_eq_some h, by simpa using List.find?_some h⟩
  · rintro ⟨hm, rfl⟩
    cases hf : (N.conns s).find? (·.outport == c.outport) with
    | none =>
      have := List.find?_eq_none.1 hf c hm
      simp at this
    | some d =>
      have h1 := List.mem_of_find?_eq_some hf
      have h2 : d.outport = c.outport := by simpa using List.find?_some hf
      rw [eq_of_nodup_map (hw.out_once s hs) h1 hm h2]

theorem find_inj_port {s : Nat} (hs : s < N.size) (p : Nat) (x : Nat × Nat) :
    (N.inj s).find? (·.2 == p) = some x ↔ x ∈ N.inj s ∧ x.2 = p := by
  constructor
  · intro h
    exact ⟨List.mem_of_find?_eq_some h, by simpa using List.find?_some h⟩
  · rintro ⟨hm, rfl⟩
    cases hf : (N.inj s).find? (·.2 == x.2) with
    | none =>
      have := List.find?_eq_none.1 hf x hm
      simp at this
    | some d =>
      have h1 := List.mem_of_find?_eq_some hf
      have h2 : d.2 = x.2 := by simpa using List.find?_some hf
      rw [eq_of_nodup_map ((List.nodup_append.1 (ha.ports s hs)).1) h1 hm h2]

theorem find_inj_node {s : Nat} (hs : s < N.size) (n : Nat) (x : Nat × Nat) :
    (N.inj s).find? (·.1 == n) = some x ↔ x ∈ N.inj s ∧ x.1 = n := by
  constructor
  · intro h
    exact ⟨List.mem_of_find?_eq_some h, by simpa using List.find?_some h⟩
  · rintro ⟨hm, rfl⟩
    cases hf : (N.inj s).find? (·.1 == x.1) with
    | none =>
      have := List.find?_eq_none.1 hf x hm
      simp at this
    | some d =>
      have h1 := List.mem_of_find?_eq_some hf
      have h2 : d.1 = x.1 := by simpa using List.find?_some hf
      rw [eq_of_nodup_map (ha.once s hs) h1 hm h2]

/-- A port with a link has no node. -/
theorem link_or_node {s p t q n : Nat} (hs : s < N.size) (h : N.Link s p t q) (hn : (n, p) ∈ N.inj s) : False := by
  have := (List.nodup_append.1 (ha.ports s hs)).2.2
  exact this p (List.mem_map.2 ⟨_, hn, rfl⟩) p (List.mem_map.2 ⟨_, h, rfl⟩) rfl

theorem homeOf_iff (n s p : Nat) : homeOf N n = some (s, p) ↔ s < N.size ∧ (n, p) ∈ N.inj s := by
  constructor
  · intro h
    obtain ⟨s', hs', h⟩ := List.exists_of_findSome?_eq_some h
    rw [List.mem_range] at hs'
    simp only [Option.map_eq_some_iff, Prod.mk.injEq] at h
    obtain ⟨x, h1, rfl, rfl⟩ := h
    rw [find_inj_node hw ha hs'] at h1
    obtain ⟨h1, rfl⟩ := h1
    exact ⟨hs', h1⟩
  · rintro ⟨hs, hm⟩
    cases hf : homeOf N n with
    | none =>
      have := List.findSome?_eq_none_iff.1 hf s (List.mem_range.2 hs)
      simp only [Option.map_eq_none_iff] at this
      have h2 := (find_inj_node hw ha hs n (n, p)).2 ⟨hm, rfl⟩
      rw [this] at h2
      cases h2
    | some y =>
      obtain ⟨s', p'⟩ := y
      obtain ⟨s'', hs', h⟩ := List.exists_of_findSome?_eq_some hf
      rw [List.mem_range] at hs'
      simp only [Option.map_eq_some_iff, Prod.mk.injEq] at h
      obtain ⟨x, h1, rfl, rfl⟩ := h
      rw [find_inj_node hw ha hs'] at h1
      obtain ⟨h1, rfl⟩ := h1
      have e1 := (ha.node _ _ _ hs hm).2
      have e2 := (ha.node _ _ x.2 hs' h1).2
      have : s'' = s := by rw [← e1, ← e2]
      subst this
      have h3 := (find_inj_node hw ha hs x.1 x).2 ⟨h1, rfl⟩
      have h4 := (find_inj_node hw ha hs x.1 (x.1, p)).2 ⟨hm, rfl⟩
      rw [h3] at h4
      have h5 : x = (x.1, p) := Option.some.inj h4
      rw [show x.2 = p from congrArg Prod.snd h5]

theorem used_iff (s p : Nat) : used N s p = true ↔ s < N.size ∧ ((∃ t q, N.Link s p t q) ∨ ∃ n, (n, p) ∈ N.inj s) := by
  unfold used
  simp only [Bool.and_eq_true, decide_eq_true_eq, Bool.or_eq_true, List.any_eq_true, beq_iff_eq]
  constructor
  · rintro ⟨hs, h⟩
    refine ⟨hs, ?_⟩
    rcases h with ⟨c, hc, rfl⟩ | ⟨x, hx, rfl⟩
    · left
      refine ⟨c.dst, c.inport, ?_⟩
      have := hw.src s c hs hc
      unfold Topo.Net.Link
      rw [← this]
      rw [this]
      subst this
      exact hc
    · exact Or.inr ⟨x.1, hx⟩
  · rintro ⟨hs, h⟩
    refine ⟨hs, ?_⟩
    rcases h with ⟨t, q, h⟩ | ⟨n, h⟩
    · exact Or.inl ⟨_, h, rfl⟩
    · exact Or.inr ⟨_, h, rfl⟩

theorem out_buf (s p k : Nat) (e : Elt) (i : Nat) : outOf N (.buf s p) k = some (e, i) ↔
    k = 0 ∧ s < N.size ∧ ((∃ t q, N.Link s p t q ∧ e = .xbar t ∧ i = q) ∨ (∃ n, (n, p) ∈ N.inj s ∧ e = .sink n ∧ i = 0)) := by
  simp only [outOf]
  by_cases h0 : k = 0 ∧ s < N.size
  · obtain ⟨rfl, hs⟩ := h0
    simp only [true_and, hs, if_true]
    split
    · rename_i c hc
      rw [find_out hw ha hs] at hc
      obtain ⟨hm, rfl⟩ := hc
      have hlink : N.Link s c.outport c.dst c.inport := by
        have := hw.src s c hs hm
        unfold Topo.Net.Link
        subst this
        exact hm
      simp only [Option.some.injEq, Prod.mk.injEq]
      constructor
      · rintro ⟨rfl, rfl⟩
        exact Or.inl ⟨_, _, hlink, rfl, rfl⟩
      · rintro (⟨t, q, hl, rfl, rfl⟩ | ⟨n, hn, _⟩)
        · have h1 := (find_out hw ha hs c.outport c).2 ⟨hm, rfl⟩
          have h2 := (find_out hw ha hs c.outport ⟨s, t, c.outport, i⟩).2 ⟨hl, rfl⟩
          rw [h1] at h2
          have := Option.some.inj h2
          rw [this]
          exact ⟨rfl, rfl⟩
        · exact (link_or_node hw ha hs hlink hn).elim
    · rename_i hc
      have hno : ∀ t q, ¬ N.Link s p t q := by
        intro t q hl
        have := (find_out hw ha hs p ⟨s, t, p, q⟩).2 ⟨hl, rfl⟩
        rw [hc] at this
        cases this
      split
      · rename_i x hx
        rw [find_inj_port hw ha hs] at hx
        obtain ⟨hm, rfl⟩ := hx
        simp only [Option.some.injEq, Prod.mk.injEq]
        constructor
        · rintro ⟨rfl, rfl⟩
          exact Or.inr ⟨_, hm, rfl, rfl⟩
        · rintro (⟨t, q, hl, _⟩ | ⟨n, hn, rfl, rfl⟩)
          · exact (hno _ _ hl).elim
          · have h1 := (find_inj_port hw ha hs x.2 x).2 ⟨hm, rfl⟩
            have h2 := (find_inj_port hw ha hs x.2 (n, x.2)).2 ⟨hn, rfl⟩
            rw [h1] at h2
            have := Option.some.inj h2
            rw [show x.1 = n from congrArg Prod.fst this]
            exact ⟨rfl, rfl⟩
      · rename_i hx
        constructor
        · intro h; cases h
        · rintro (⟨t, q, hl, _⟩ | ⟨n, hn, rfl, rfl⟩)
          · exact (hno _ _ hl).elim
          · have h2 := (find_inj_port hw ha hs p (n, p)).2 ⟨hn, rfl⟩
            rw [hx] at h2
            cases h2
  · simp only [if_neg h0]
    constructor
    · intro h; cases h
    · rintro ⟨h1, h2, _⟩
      exact (h0 ⟨h1, h2⟩).elim

theorem find_src (t q : Nat) (ht : t < N.size) (x : Nat × Nat) :
    (List.range N.size).findSome? (fun s => ((N.conns s).find? (fun c => c.dst == t && c.inport == q)).map fun c => (s, c.outport)) = some x ↔
      x.1 < N.size ∧ N.Link x.1 x.2 t q := by
  have fwd : ∀ y : Nat × Nat, (List.range N.size).findSome? (fun s => ((N.conns s).find? (fun c => c.dst == t && c.inport == q)).map fun c => (s, c.outport)) = some y →
      y.1 < N.size ∧ N.Link y.1 y.2 t q := by
    intro y h
    obtain ⟨s, hs, h⟩ := List.exists_of_findSome?_eq_some h
    rw [List.mem_range] at hs
    simp only [Option.map_eq_some_iff] at h
    obtain ⟨c, h1, rfl⟩ := h
    have h2 := List.mem_of_find?_eq_some h1
    have h3 := List.find?_some h1
    simp only [Bool.and_eq_true, beq_iff_eq] at h3
    obtain ⟨rfl, rfl⟩ := h3
    refine ⟨hs, ?_⟩
    have := hw.src s c hs h2
    unfold Topo.Net.Link
    subst this
    exact h2
  refine ⟨fwd x, ?_⟩
  rintro ⟨hs, hl⟩
  cases hf : (List.range N.size).findSome? (fun s => ((N.conns s).find? (fun c => c.dst == t && c.inport == q)).map fun c => (s, c.outport)) with
  | none =>
    have := List.findSome?_eq_none_iff.1 hf x.1 (List.mem_range.2 hs)
    simp only [Option.map_eq_none_iff] at this
    have := List.find?_eq_none.1 this _ hl
    simp at this
  | some y =>
    obtain ⟨h1, h2⟩ := fwd y hf
    have := hw.in_once _ _ _ _ _ _ h1 hs h2 hl
    rw [show y = x from Prod.ext this.1 this.2]

theorem back_xbar (t q : Nat) (e : Elt) (k : Nat) : backOf N (.xbar t) q = some (e, k) ↔
    k = 0 ∧ t < N.size ∧ ((∃ s p, s < N.size ∧ N.Link s p t q ∧ e = .buf s p) ∨ (∃ n, (n, q) ∈ N.inj t ∧ e = .inj n)) := by
  simp only [backOf]
  by_cases ht : t < N.size
  · simp only [ht, if_true, true_and]
    split
    · rename_i x hx
      rw [find_src hw ha t q ht] at hx
      simp only [Option.some.injEq, Prod.mk.injEq]
      constructor
      · rintro ⟨rfl, rfl⟩
        exact ⟨rfl, Or.inl ⟨_, _, hx.1, hx.2, rfl⟩⟩
      · rintro ⟨rfl, ⟨s, p, hs, hl, rfl⟩ | ⟨n, hn, _⟩⟩
        · have := hw.in_once _ _ _ _ _ _ hx.1 hs hx.2 hl
          rw [this.1, this.2]
          exact ⟨rfl, rfl⟩
        · exact (link_or_node hw ha ht (hw.back _ _ _ _ hx.1 hx.2) hn).elim
    · rename_i hx
      have hno : ∀ s p, s < N.size → ¬ N.Link s p t q := by
        intro s p hs hl
        have := (find_src hw ha t q ht (s, p)).2 ⟨hs, hl⟩
        rw [hx] at this
        cases this
      split
      · rename_i y hy
        rw [find_inj_port hw ha ht] at hy
        obtain ⟨hm, rfl⟩ := hy
        simp only [Option.some.injEq, Prod.mk.injEq]
        constructor
        · rintro ⟨rfl, rfl⟩
          exact ⟨rfl, Or.inr ⟨_, hm, rfl⟩⟩
        · rintro ⟨rfl, ⟨s, p, hs, hl, rfl⟩ | ⟨n, hn, rfl⟩⟩
          · exact (hno _ _ hs hl).elim
          · have h1 := (find_inj_port hw ha ht y.2 y).2 ⟨hm, rfl⟩
            have h2 := (find_inj_port hw ha ht y.2 (n, y.2)).2 ⟨hn, rfl⟩
            rw [h1] at h2
            have := Option.some.inj h2
            rw [show y.1 = n from congrArg Prod.fst this]
            exact ⟨rfl, rfl⟩
      · rename_i hy
        constructor
        · intro h; cases h
        · rintro ⟨rfl, ⟨s, p, hs, hl, rfl⟩ | ⟨n, hn, rfl⟩⟩
          · exact (hno _ _ hs hl).elim
          · have h2 := (find_inj_port hw ha ht q (n, q)).2 ⟨hn, rfl⟩
            rw [hy] at h2
            cases h2
  · simp only [if_neg ht]
    constructor
    · intro h; cases h
    · rintro ⟨_, h2, _⟩
      exact (ht h2).elim

/-- Every input port is credited to the output port that feeds it. -/
theorem joined (P V : Nat) (cr : Nat → Nat → Nat) (ic : Nat) : (cfgOf N P V cr ic).Joined := by
  intro e p e' i
  show outOf N e p = some (e', i) ↔ backOf N e' i = some (e, p)
  cases e with
  | xbar s =>
    have h1 : outOf N (.xbar s) p = some (e', i) ↔ used N s p = true ∧ e' = .buf s p ∧ i = 0 := by
      simp only [outOf]
      by_cases h : used N s p = true
      · simp only [h, if_true, Option.some.injEq, Prod.mk.injEq, true_and]
        constructor <;> (rintro ⟨rfl, rfl⟩; exact ⟨rfl, rfl⟩)
      · simp [h]
    rw [h1]
    cases e' with
    | xbar t =>
      rw [back_xbar hw ha]
      constructor
      · rintro ⟨_, h, _⟩; cases h
      · rintro ⟨_, _, ⟨_, _, _, _, h⟩ | ⟨_, _, h⟩⟩ <;> cases h
    | buf s' p' =>
      simp only [backOf]
      constructor
      · rintro ⟨h, he, rfl⟩
        cases he
        simp [h]
      · intro h
        split at h
        · rename_i hc
          simp only [Option.some.injEq, Prod.mk.injEq, Elt.xbar.injEq] at h
          obtain ⟨rfl, rfl⟩ := h
          exact ⟨hc.2, rfl, hc.1⟩
        · cases h
    | inj n =>
      simp only [backOf]
      constructor
      · rintro ⟨_, h, _⟩; cases h
      · intro h; cases h
    | sink n =>
      simp only [backOf]
      constructor
      · rintro ⟨_, h, _⟩; cases h
      · intro h
        split at h
        · simp at h
        · cases h
  | buf s r =>
    rw [out_buf hw ha]
    cases e' with
    | xbar t =>
      rw [back_xbar hw ha]
      constructor
      · rintro ⟨rfl, hs, ⟨t', q, hl, he, rfl⟩ | ⟨_, _, he, _⟩⟩
        · cases he
          exact ⟨rfl, hw.range _ _ _ _ hs hl, Or.inl ⟨_, _, hs, hl, rfl⟩⟩
        · cases he
      · rintro ⟨rfl, ht, ⟨s', p', hs, hl, he⟩ | ⟨_, _, he⟩⟩
        · cases he
          exact ⟨rfl, hs, Or.inl ⟨_, _, hl, rfl, rfl⟩⟩
        · cases he
    | buf s' p' =>
      simp only [backOf]
      constructor
      · rintro ⟨_, _, ⟨_, _, _, he, _⟩ | ⟨_, _, he, _⟩⟩ <;> cases he
      · intro h
        split at h
        · simp at h
        · cases h
    | inj n =>
      simp only [backOf]
      constructor
      · rintro ⟨_, _, ⟨_, _, _, he, _⟩ | ⟨_, _, he, _⟩⟩ <;> cases he
      · intro h; cases h
    | sink n =>
      simp only [backOf]
      constructor
      · rintro ⟨rfl, hs, ⟨_, _, _, he, _⟩ | ⟨n', hn, he, rfl⟩⟩
        · cases he
        · cases he
          rw [if_pos rfl, (homeOf_iff hw ha n s r).2 ⟨hs, hn⟩]
          rfl
      · intro h
        split at h
        · rename_i h0
          subst h0
          simp only [Option.map_eq_some_iff, Prod.mk.injEq, Elt.buf.injEq] at h
          obtain ⟨x, hx, ⟨rfl, rfl⟩, rfl⟩ := h
          have := (homeOf_iff hw ha n x.1 x.2).1 hx
          exact ⟨rfl, this.1, Or.inr ⟨n, this.2, rfl, rfl⟩⟩
        · cases h
  | inj n =>
    have h1 : outOf N (.inj n) p = some (e', i) ↔ p = 0 ∧ ∃ s, s < N.size ∧ (n, i) ∈ N.inj s ∧ e' = .xbar s := by
      simp only [outOf]
      split
      · rename_i h0
        simp only [Option.map_eq_some_iff, Prod.mk.injEq, h0, true_and]
        constructor
        · rintro ⟨x, hx, rfl, rfl⟩
          have := (homeOf_iff hw ha n x.1 x.2).1 hx
          exact ⟨x.1, this.1, this.2, rfl⟩
        · rintro ⟨s, hs, hn, rfl⟩
          exact ⟨(s, i), (homeOf_iff hw ha n s i).2 ⟨hs, hn⟩, rfl, rfl⟩
      · rename_i h0
        constructor
        · intro h; cases h
        · rintro ⟨h, _⟩; exact (h0 h).elim
    rw [h1]
    cases e' with
    | xbar t =>
      rw [back_xbar hw ha]
      constructor
      · rintro ⟨rfl, s, hs, hn, he⟩
        cases he
        exact ⟨rfl, hs, Or.inr ⟨n, hn, rfl⟩⟩
      · rintro ⟨rfl, ht, ⟨_, _, _, _, he⟩ | ⟨n', hn, he⟩⟩
        · cases he
        · cases he
          exact ⟨rfl, t, ht, hn, rfl⟩
    | buf s' p' =>
      simp only [backOf]
      constructor
      · rintro ⟨_, _, _, _, he⟩; cases he
      · intro h
        split at h
        · simp at h
        · cases h
    | inj n =>
      simp only [backOf]
      constructor
      · rintro ⟨_, _, _, _, he⟩; cases he
      · intro h; cases h
    | sink n =>
      simp only [backOf]
      constructor
      · rintro ⟨_, _, _, _, he⟩; cases he
      · intro h
        split at h
        · simp at h
        · cases h
  | sink n =>
    constructor
    · intro h; simp only [outOf] at h; cases h
    · intro h
      cases e' with
      | xbar t =>
        rw [back_xbar hw ha] at h
        obtain ⟨_, _, ⟨_, _, _, _, he⟩ | ⟨_, _, he⟩⟩ := h <;> cases he
      | buf s p =>
        simp only [backOf] at h
        split at h
        · simp at h
        · cases h
      | inj n => simp only [backOf] at h; cases h
      | sink n =>
        simp only [backOf] at h
        split at h
        · simp at h
        · cases h

end

/-- C50: for every well-wired network of switches with nodes attached, any routing, any timing:
on the link from output port `p` of switch `s` to input port `q` of switch `t`, and on each of the
`V` virtual channels, the credits of the output buffer, the bytes in flight, the bytes waiting in
the crossbar of `t` that came in on `q`, and the credits on their way back always add up to the
port's share of its credits, and no credit count is negative. -/
theorem C50_links (N : Topo.Net) (hw : WellWired N) (nodes : Nat) (home : Nat → Nat) (ha : Attached N nodes home)
    (P V : Nat) (cr : Nat → Nat → Nat) (ic : Nat) (hcr : ∀ s p, cr s p < 2147483648) (hic : ic < 2147483648)
    (st : Net Elt) (h : Reach (cfgOf N P V cr ic) st) (s p t q v : Nat) (hs : s < N.size) (hv : v < V) (hl : N.Link s p t q) :
    (st.slots (.buf s p) v).cred + inFlight st.wire (.xbar t) q v + (cfgOf N P V cr ic).buffered st (.xbar t) q v +
      returning st.wire (.buf s p) 0 v = (cr s p / V : Nat) ∧ 0 ≤ (st.slots (.buf s p) v).cred := by
  have ho : (cfgOf N P V cr ic).out (.buf s p) 0 = some (.xbar t, q) := (out_buf hw ha s p 0 _ _).2 ⟨rfl, hs, Or.inl ⟨t, q, hl, rfl, rfl⟩⟩
  have hcap : ∀ e p, (cfgOf N P V cr ic).init e p < 2147483648 := by
    intro e p
    unfold cfgOf
    cases e <;> simp only <;> first | exact hcr _ _ | exact hic
  have := C50_credits_conserved (cfgOf N P V cr ic) (joined hw ha P V cr ic) hcap st h (.buf s p) 0 v (by show 0 < 1; omega) hv _ _ ho
  simp only [Nat.zero_mul, Nat.zero_add] at this
  exact this

/-- C50: between a switch's crossbar and its output buffers. -/
theorem C50_switch (N : Topo.Net) (hw : WellWired N) (nodes : Nat) (home : Nat → Nat) (ha : Attached N nodes home)
    (P V : Nat) (cr : Nat → Nat → Nat) (ic : Nat) (hcr : ∀ s p, cr s p < 2147483648) (hic : ic < 2147483648)
    (st : Net Elt) (h : Reach (cfgOf N P V cr ic) st) (s p v : Nat) (hs : s < N.size) (hp : p < P) (hv : v < V)
    (hl : (∃ t q, N.Link s p t q) ∨ ∃ n, (n, p) ∈ N.inj s) :
    (st.slots (.xbar s) (p * V + v)).cred + inFlight st.wire (.buf s p) 0 v + (cfgOf N P V cr ic).buffered st (.buf s p) 0 v +
      returning st.wire (.xbar s) p v = (cr s p / V : Nat) ∧ 0 ≤ (st.slots (.xbar s) (p * V + v)).cred := by
  have ho : (cfgOf N P V cr ic).out (.xbar s) p = some (.buf s p, 0) := by
    show outOf N (.xbar s) p = _
    simp only [outOf]
    rw [if_pos ((used_iff hw ha s p).2 ⟨hs, hl⟩)]
  have hcap : ∀ e p, (cfgOf N P V cr ic).init e p < 2147483648 := by
    intro e p
    unfold cfgOf
    cases e <;> simp only <;> first | exact hcr _ _ | exact hic
  exact C50_credits_conserved (cfgOf N P V cr ic) (joined hw ha P V cr ic) hcap st h (.xbar s) p v hp hv _ _ ho

/-- C50: between a NIC and its switch, in both directions. -/
theorem C50_nic (N : Topo.Net) (hw : WellWired N) (nodes : Nat) (home : Nat → Nat) (ha : Attached N nodes home)
    (P V : Nat) (cr : Nat → Nat → Nat) (ic : Nat) (hcr : ∀ s p, cr s p < 2147483648) (hic : ic < 2147483648)
    (st : Net Elt) (h : Reach (cfgOf N P V cr ic) st) (s n p : Nat) (hs : s < N.size) (hn : (n, p) ∈ N.inj s) :
    ((st.slots (.inj n) 0).cred + inFlight st.wire (.xbar s) p 0 + (cfgOf N P V cr ic).buffered st (.xbar s) p 0 +
      returning st.wire (.inj n) 0 0 = ic ∧ 0 ≤ (st.slots (.inj n) 0).cred) ∧
    ∀ v, v < V → (st.slots (.buf s p) v).cred + inFlight st.wire (.sink n) 0 v + returning st.wire (.buf s p) 0 v = (cr s p / V : Nat) ∧
      0 ≤ (st.slots (.buf s p) v).cred := by
  have hcap : ∀ e p, (cfgOf N P V cr ic).init e p < 2147483648 := by
    intro e p
    unfold cfgOf
    cases e <;> simp only <;> first | exact hcr _ _ | exact hic
  constructor
  · have ho : (cfgOf N P V cr ic).out (.inj n) 0 = some (.xbar s, p) := by
      show outOf N (.inj n) 0 = _
      simp only [outOf]
      rw [(homeOf_iff hw ha n s p).2 ⟨hs, hn⟩]
      rfl
    have := C50_credits_conserved (cfgOf N P V cr ic) (joined hw ha P V cr ic) hcap st h (.inj n) 0 0 (by show 0 < 1; omega) (by show 0 < 1; omega) _ _ ho
    have h1 : (cfgOf N P V cr ic).init (.inj n) 0 / (cfgOf N P V cr ic).nvc (.inj n) = ic := by
      show ic / 1 = ic
      exact Nat.div_one _
    rw [h1] at this
    simp only [Nat.zero_mul, Nat.zero_add] at this
    exact this
  · intro v hv
    have ho : (cfgOf N P V cr ic).out (.buf s p) 0 = some (.sink n, 0) := (out_buf hw ha s p 0 _ _).2 ⟨rfl, hs, Or.inr ⟨n, hn, rfl, rfl⟩⟩
    have := C50_credits_conserved (cfgOf N P V cr ic) (joined hw ha P V cr ic) hcap st h (.buf s p) 0 v (by show 0 < 1; omega) hv _ _ ho
    have hb : (cfgOf N P V cr ic).buffered st (.sink n) 0 v = 0 := by
      unfold Cfg.buffered
      have : (cfgOf N P V cr ic).ports (.sink n) * (cfgOf N P V cr ic).nvc (.sink n) = 0 := rfl
      rw [this]
      rfl
    rw [hb] at this
    simp only [Nat.zero_mul, Nat.zero_add, Int.natCast_zero, Int.add_zero] at this
    exact this

/-- A ring of two switches with one node each, two virtual channels. -/
def ring : Cfg Elt := cfgOf (Topo.Torus.net [2] 1) 3 2 (fun _ _ => 4096) 4096

/-- The hypotheses of C50 are met, and a packet of 1000 bytes gets from node 0 through the crossbar
of switch 0 into its output buffer, with its credits on their way back. -/
example : WellWired (Topo.Torus.net [2] 1) ∧ Attached (Topo.Torus.net [2] 1) 2 (fun n => n / 1) ∧
    ∃ st, Reach ring st ∧ (st.slots (.inj 0) 0).cred = 3096 ∧ returning st.wire (.inj 0) 0 0 = 1000 ∧
      (st.slots (.xbar 0) 0).cred = 1048 ∧ inFlight st.wire (.buf 0 0) 0 0 = 1000 := by
  refine ⟨Topo.Torus.C40_torus_links_partial [2] (by decide) (by decide) 1, Topo.Torus.C49_torus [2] 1 (by decide), ?_⟩
  refine ⟨_, .next (.next .start (.inject (e := .inj 0) (x := ⟨1, 1000, 0, 0, 0, 0⟩) (by decide) (by decide) (by decide) (by decide) (by decide)))
    (.arrive (a := []) (b := []) (e := .xbar 0) (x := ⟨1, 1000, 0, 2, 0, 0⟩) (by decide) (by decide) (by decide) (by decide) (by decide)), ?_⟩
  decide

end SST.Pisces
