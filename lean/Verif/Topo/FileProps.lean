import Verif.Topo.File
import Verif.Os.CoresProps
/-!
C103: a network read from a file is the one in the file; table routing delivers along the tables.
-/
set_option autoImplicit false
namespace SST.Topo.File
open SST.Topo

variable {α : Type} [DecidableEq α]

/-! ### Specification -/

/-- What a file must hold: different names; port numbers of a switch different; a link between switches is
listed at both ends; every node at one port of one switch. -/
structure Sound (F : Json α) : Prop where
  names : (F.nodes ++ F.switches.map Prod.fst).Nodup
  ports : ∀ a ∈ F.switches, (a.2.map OutPort.port).Nodup
  back : ∀ a ∈ F.switches, ∀ b ∈ F.switches, ∀ o ∈ a.2, o.dest = b.1 → (⟨o.inport, a.1, o.port⟩ : OutPort α) ∈ b.2
  node : ∀ n ∈ F.nodes, ∃ a ∈ F.switches, ∃ o ∈ a.2, o.dest = n
  once : ∀ n ∈ F.nodes, ∀ a ∈ F.switches, ∀ b ∈ F.switches, ∀ o ∈ a.2, ∀ o' ∈ b.2, o.dest = n → o'.dest = n → a.1 = b.1 ∧ o = o'

/-! ### Lemmas -/

theorem findIdx_iff {β : Type} (f : β → α) (l : List β) (hn : (l.map f).Nodup) (a : α) (i : Nat) :
    l.findIdx? (fun x => f x == a) = some i ↔ ∃ x, l[i]? = some x ∧ f x = a := by
  rw [List.findIdx?_eq_some_iff_getElem]
  constructor
  · rintro ⟨h, h1, _⟩
    exact ⟨l[i], List.getElem?_eq_getElem h, by simpa using h1⟩
  · rintro ⟨x, hx, rfl⟩
    obtain ⟨h, rfl⟩ := List.getElem?_eq_some_iff.mp hx
    refine ⟨h, by simp, ?_⟩
    intro j hj
    have hn := List.pairwise_iff_getElem.mp (List.pairwise_map.mp hn) j i (by omega) h hj
    simpa using hn

theorem switchId_iff {F : Json α} (h : Sound F) (a : α) (t : Nat) : switchId F a = some t ↔ ∃ l, F.switches[t]? = some (a, l) := by
  unfold switchId
  rw [findIdx_iff Prod.fst F.switches (List.nodup_append.mp h.names).2.1]
  constructor
  · rintro ⟨⟨b, l⟩, h1, rfl⟩; exact ⟨l, h1⟩
  · rintro ⟨l, h1⟩; exact ⟨_, h1, rfl⟩

theorem nodeId_iff {F : Json α} (h : Sound F) (a : α) (t : Nat) : nodeId F a = some t ↔ F.nodes[t]? = some a := by
  unfold nodeId
  have := findIdx_iff id F.nodes (by simpa using (List.nodup_append.mp h.names).1) a t
  simp only [id] at this
  rw [this]
  simp

theorem outports_iff {F : Json α} {s : Nat} {o : OutPort α} : o ∈ outports F s ↔ ∃ a l, F.switches[s]? = some (a, l) ∧ o ∈ l := by
  unfold outports
  cases h : F.switches[s]? with
  | none => simp
  | some x =>
    obtain ⟨a, l⟩ := x
    simp only [Option.map_some, Option.getD_some]
    constructor
    · exact fun ho => ⟨a, l, rfl, ho⟩
    · rintro ⟨_, _, e, ho⟩; cases e; exact ho

/-- The links are those of the file. -/
theorem link_iff {F : Json α} (h : Sound F) (s p t q : Nat) : (net F).Link s p t q ↔
    ∃ a l b l', F.switches[s]? = some (a, l) ∧ F.switches[t]? = some (b, l') ∧ (⟨p, b, q⟩ : OutPort α) ∈ l := by
  show (⟨s, t, p, q⟩ : Conn) ∈ conns F s ↔ _
  unfold conns
  rw [List.mem_filterMap]
  constructor
  · rintro ⟨o, ho, he⟩
    obtain ⟨a, l, h1, h2⟩ := outports_iff.mp ho
    cases hd : switchId F o.dest with
    | none => rw [hd] at he; cases he
    | some u =>
      rw [hd] at he
      simp only [Option.map_some, Option.some.injEq, Conn.mk.injEq, true_and] at he
      obtain ⟨rfl, rfl, rfl⟩ := he
      obtain ⟨l', h3⟩ := (switchId_iff h _ _).mp hd
      exact ⟨a, l, o.dest, l', h1, h3, h2⟩
  · rintro ⟨a, l, b, l', h1, h2, h3⟩
    refine ⟨⟨p, b, q⟩, outports_iff.mpr ⟨a, l, h1, h3⟩, ?_⟩
    simp only
    rw [(switchId_iff h b t).mpr ⟨l', h2⟩]
    rfl

/-- The nodes are those of the file. -/
theorem inj_iff {F : Json α} (h : Sound F) (s n p : Nat) : (n, p) ∈ (net F).inj s ↔
    ∃ a l b q, F.switches[s]? = some (a, l) ∧ F.nodes[n]? = some b ∧ (⟨p, b, q⟩ : OutPort α) ∈ l := by
  show (n, p) ∈ inj F s ↔ _
  unfold inj
  rw [List.mem_filterMap]
  constructor
  · rintro ⟨o, ho, he⟩
    obtain ⟨a, l, h1, h2⟩ := outports_iff.mp ho
    cases hd : nodeId F o.dest with
    | none => rw [hd] at he; cases he
    | some u =>
      rw [hd] at he
      simp only [Option.map_some, Option.some.injEq, Prod.mk.injEq] at he
      obtain ⟨rfl, rfl⟩ := he
      exact ⟨a, l, o.dest, o.inport, h1, (nodeId_iff h _ _).mp hd, h2⟩
  · rintro ⟨a, l, b, q, h1, h2, h3⟩
    refine ⟨⟨p, b, q⟩, outports_iff.mpr ⟨a, l, h1, h3⟩, ?_⟩
    simp only
    rw [(nodeId_iff h b n).mpr h2]
    rfl

theorem filterMap_sublist_map {β γ δ : Type} (f : β → Option γ) (g : γ → δ) (k : β → δ) (h : ∀ b c, f b = some c → g c = k b) (l : List β) :
    ((l.filterMap f).map g).Sublist (l.map k) := by
  induction l with
  | nil => exact .slnil
  | cons b l ih =>
    rw [List.filterMap_cons]
    cases hb : f b with
    | none => exact ih.cons _
    | some c => simp only [List.map_cons]; rw [h b c hb]; exact ih.cons₂ _

theorem outports_nodup {F : Json α} (h : Sound F) (s : Nat) : ((outports F s).map OutPort.port).Nodup := by
  unfold outports
  cases hs : F.switches[s]? with
  | none => simp
  | some x => exact h.ports x (List.mem_of_getElem? hs)

theorem conns_out {F : Json α} (s : Nat) : ((conns F s).map Conn.outport).Sublist ((outports F s).map OutPort.port) := by
  apply filterMap_sublist_map
  intro b c hb
  cases hd : switchId F b.dest with
  | none => rw [hd] at hb; cases hb
  | some u => rw [hd] at hb; simp only [Option.map_some, Option.some.injEq] at hb; subst hb; rfl

theorem inj_out {F : Json α} (s : Nat) : ((inj F s).map Prod.snd).Sublist ((outports F s).map OutPort.port) := by
  apply filterMap_sublist_map
  intro b c hb
  cases hd : nodeId F b.dest with
  | none => rw [hd] at hb; cases hb
  | some u => rw [hd] at hb; simp only [Option.map_some, Option.some.injEq] at hb; subst hb; rfl

/-- The entry of a port. -/
theorem port_unique {F : Json α} (h : Sound F) {s : Nat} {o o' : OutPort α} (ho : o ∈ outports F s) (ho' : o' ∈ outports F s) (e : o.port = o'.port) : o = o' := by
  have hn := outports_nodup h s
  obtain ⟨i, hi, rfl⟩ := List.getElem_of_mem ho
  obtain ⟨j, hj, rfl⟩ := List.getElem_of_mem ho'
  have hn := List.pairwise_iff_getElem.mp (List.pairwise_map.mp hn)
  rcases Nat.lt_trichotomy i j with hij | hij | hij
  · exact absurd e (hn i j hi hj hij)
  · subst hij; rfl
  · exact absurd e.symm (hn j i hj hi hij)

theorem not_both {F : Json α} (h : Sound F) {a : α} {n s : Nat} {l : List (OutPort α)} (h1 : F.nodes[n]? = some a) (h2 : F.switches[s]? = some (a, l)) : False :=
  (List.nodup_append.mp h.names).2.2 a (List.mem_of_getElem? h1) a (List.mem_map.mpr ⟨(a, l), List.mem_of_getElem? h2, rfl⟩) rfl

theorem index_unique {F : Json α} (h : Sound F) {a : α} {s t : Nat} {l l' : List (OutPort α)} (h1 : F.switches[s]? = some (a, l)) (h2 : F.switches[t]? = some (a, l')) : s = t := by
  have e1 := (switchId_iff h a s).mpr ⟨l, h1⟩
  have e2 := (switchId_iff h a t).mpr ⟨l', h2⟩
  rw [e1] at e2
  exact Option.some.inj e2

/-- Where a node is. -/
theorem home_unique {F : Json α} (h : Sound F) {n s t p q : Nat} (h1 : (n, p) ∈ inj F s) (h2 : (n, q) ∈ inj F t) : s = t ∧ p = q := by
  obtain ⟨a, l, b, i, a1, a2, a3⟩ := (inj_iff h s n p).mp h1
  obtain ⟨a', l', b', i', b1, b2, b3⟩ := (inj_iff h t n q).mp h2
  rw [a2] at b2
  cases b2
  obtain ⟨e1, e2⟩ := h.once b (List.mem_of_getElem? a2) _ (List.mem_of_getElem? a1) _ (List.mem_of_getElem? b1) _ a3 _ b3 rfl rfl
  simp only at e1
  subst e1
  refine ⟨index_unique h a1 b1, ?_⟩
  cases e2
  rfl

theorem nodeToSwitch_eq {F : Json α} (h : Sound F) {n s p : Nat} (h1 : (n, p) ∈ inj F s) : nodeToSwitch F n = s := by
  have hs : s < F.switches.length := by
    obtain ⟨a, l, b, i, a1, _⟩ := (inj_iff h s n p).mp h1
    exact (List.getElem?_eq_some_iff.mp a1).1
  unfold nodeToSwitch
  have hany : ∀ t, (inj F t).any (fun x => x.1 == n) = true ↔ t = s := by
    intro t
    rw [List.any_eq_true]
    constructor
    · rintro ⟨⟨m, q⟩, hm, he⟩
      have : m = n := by simpa using he
      subst this
      exact (home_unique h hm h1).1
    · rintro rfl
      exact ⟨_, h1, by simp⟩
  have hmem : s ∈ (List.range F.switches.length).filter fun s => (inj F s).any fun x => x.1 == n :=
    List.mem_filter.mpr ⟨List.mem_range.mpr hs, (hany s).mpr rfl⟩
  cases hl : ((List.range F.switches.length).filter fun s => (inj F s).any fun x => x.1 == n).getLast? with
  | none =>
    rw [List.getLast?_eq_none_iff] at hl
    rw [hl] at hmem
    cases hmem
  | some t =>
    have := List.mem_of_getLast? hl
    exact (hany t).mp (List.mem_filter.mp this).2

/-! ### The property: the network -/

/-- The network is the one in the file: its links agree from both ends and every node has its own port. -/
theorem C103_wired {F : Json α} (h : Sound F) : WellWired (net F) ∧ Attached (net F) F.nodes.length (nodeToSwitch F) := by
  constructor
  · apply wellWired_of_back
    · intro s c _ hc
      obtain ⟨o, _, he⟩ := List.mem_filterMap.mp (show c ∈ conns F s from hc)
      cases hd : switchId F o.dest with
      | none => rw [hd] at he; cases he
      | some u => rw [hd] at he; simp only [Option.map_some, Option.some.injEq] at he; subst he; rfl
    · intro s _
      exact (conns_out s).nodup (outports_nodup h s)
    · intro s p t q _ hl
      obtain ⟨a, l, b, l', h1, h2, h3⟩ := (link_iff h s p t q).mp hl
      refine ⟨(List.getElem?_eq_some_iff.mp h2).1, (link_iff h t q s p).mpr ⟨b, l', a, l, h2, h1, ?_⟩⟩
      exact h.back _ (List.mem_of_getElem? h1) _ (List.mem_of_getElem? h2) _ h3 rfl
  · refine ⟨?_, ?_, ?_, ?_⟩
    · intro s n p _ hn
      obtain ⟨a, l, b, q, h1, h2, h3⟩ := (inj_iff h s n p).mp hn
      exact ⟨(List.getElem?_eq_some_iff.mp h2).1, nodeToSwitch_eq h hn⟩
    · intro n hn
      have hn' := List.getElem?_eq_getElem hn
      obtain ⟨⟨a, l⟩, ha, o, ho, he⟩ := h.node _ (List.getElem_mem hn)
      obtain ⟨s, hs, hsa⟩ := List.getElem_of_mem ha
      have hin : (n, o.port) ∈ inj F s := (inj_iff h s n o.port).mpr ⟨a, l, _, o.inport, by rw [List.getElem?_eq_getElem hs, hsa], hn', by rw [← he]; exact ho⟩
      rw [nodeToSwitch_eq h hin]
      exact ⟨hs, o.port, hin⟩
    · intro s _
      show ((inj F s).map Prod.fst).Nodup
      have hn : (inj F s).map Prod.snd |>.Nodup := (inj_out s).nodup (outports_nodup h s)
      unfold List.Nodup at hn ⊢
      rw [List.pairwise_map] at hn ⊢
      refine hn.imp_of_mem ?_
      intro x y hx hy hne e
      obtain ⟨n, p⟩ := x
      obtain ⟨m, q⟩ := y
      simp only at e
      subst e
      exact hne (home_unique h hx hy).2
    · intro s _
      show ((inj F s).map Prod.snd ++ (conns F s).map Conn.outport).Nodup
      rw [List.nodup_append]
      refine ⟨(inj_out s).nodup (outports_nodup h s), (conns_out s).nodup (outports_nodup h s), ?_⟩
      intro p hp q hq e
      subst e
      obtain ⟨⟨n, p'⟩, hx, rfl⟩ := List.mem_map.mp hp
      obtain ⟨c, hc, hce⟩ := List.mem_map.mp hq
      obtain ⟨o, ho, he⟩ := List.mem_filterMap.mp hx
      obtain ⟨o', ho', he'⟩ := List.mem_filterMap.mp hc
      cases hd : nodeId F o.dest with
      | none => rw [hd] at he; cases he
      | some u =>
        cases hd' : switchId F o'.dest with
        | none => rw [hd'] at he'; cases he'
        | some v =>
          rw [hd] at he
          rw [hd'] at he'
          simp only [Option.map_some, Option.some.injEq, Prod.mk.injEq] at he
          simp only [Option.map_some, Option.some.injEq] at he'
          subst he'
          have heq : o = o' := port_unique h ho ho' (by rw [he.2]; exact hce.symm)
          subst heq
          obtain ⟨l, hl⟩ := (switchId_iff h _ _).mp hd'
          exact not_both h ((nodeId_iff h _ _).mp hd) hl

/-- Two switches with two links and two nodes. -/
def pairNet : Json String where
  nodes := ["n0", "n1"]
  switches := [("a", [⟨0, "b", 1⟩, ⟨1, "b", 0⟩, ⟨2, "n0", 0⟩]), ("b", [⟨0, "a", 1⟩, ⟨1, "a", 0⟩, ⟨2, "n1", 0⟩])]

theorem pair_sound : Sound pairNet := by
  refine ⟨by decide, by decide, by decide, by decide, by decide⟩

/-- A destination that is misspelt is ignored: the link is not there, nobody is told. -/
theorem C103_unknown_refuted : ∃ F : Json String, outports F 0 = [⟨0, "bb", 0⟩] ∧ conns F 0 = [] ∧ inj F 0 = [] :=
  ⟨⟨["n"], [("a", [⟨0, "bb", 0⟩]), ("b", [⟨0, "a", 0⟩, ⟨1, "n", 0⟩])]⟩, by decide, by decide, by decide⟩

/-! ### The property: the number of ports -/

theorem foldl_max_le {β : Type} (f : Nat → β → Nat) (hf : ∀ m b, m ≤ f m b) (l : List β) (m : Nat) : m ≤ l.foldl f m := by
  induction l generalizing m with
  | nil => exact Nat.le_refl _
  | cons b l ih => exact Nat.le_trans (hf m b) (ih _)

theorem foldl_mem_le {β : Type} (f : Nat → β → Nat) (hf : ∀ m b, m ≤ f m b) (v : β → Nat) (hv : ∀ m b, v b ≤ f m b) (l : List β) (m : Nat) (b : β) (hb : b ∈ l) :
    v b ≤ l.foldl f m := by
  induction l generalizing m with
  | nil => cases hb
  | cons c l ih =>
    rcases List.mem_cons.mp hb with rfl | hb
    · exact Nat.le_trans (hv m b) (foldl_max_le f hf l _)
    · exact ih _ hb

theorem foldl_mem_le2 {β γ : Type} (g : β → List γ) (f : Nat → γ → Nat) (hf : ∀ m b, m ≤ f m b) (v : γ → Nat) (hv : ∀ m b, v b ≤ f m b) (l : List β) (m : Nat) (b : β) (hb : b ∈ l)
    (c : γ) (hc : c ∈ g b) : v c ≤ l.foldl (fun m b => (g b).foldl f m) m := by
  induction l generalizing m with
  | nil => cases hb
  | cons d l ih =>
    rcases List.mem_cons.mp hb with rfl | hb
    · exact Nat.le_trans (foldl_mem_le f hf v hv _ m c hc) (foldl_max_le _ (fun m b => foldl_max_le f hf _ m) l _)
    · exact ih _ hb

/-- Links use ports below the number of ports that switches allocate. -/
theorem C103_link_ports {F : Json α} {s : Nat} {c : Conn} (hs : s < F.switches.length) (hc : c ∈ conns F s) : c.outport < maxNumPorts F ∧ c.inport < maxNumPorts F := by
  have h1 := foldl_mem_le2 (conns F) (fun m (c : Conn) => max (max m c.outport) c.inport) (fun m b => by omega) Conn.outport (fun m b => by omega) (List.range F.switches.length) 0 s (List.mem_range.mpr hs) c hc
  have h2 := foldl_mem_le2 (conns F) (fun m (c : Conn) => max (max m c.outport) c.inport) (fun m b => by omega) Conn.inport (fun m b => by omega) (List.range F.switches.length) 0 s (List.mem_range.mpr hs) c hc
  unfold maxNumPorts
  omega

/-- So do nodes, if the ports of every switch are numbered without gaps, each used for a link or a node. -/
theorem C103_node_ports_partial {F : Json α} (h : Sound F) (hg : ∀ s < F.switches.length, ∀ o ∈ outports F s, o.port < (conns F s).length + (inj F s).length)
    {s n p : Nat} (hs : s < F.switches.length) (hp : (n, p) ∈ inj F s) : p < maxNumPorts F := by
  have hport : p < (conns F s).length + (inj F s).length := by
    obtain ⟨o, ho, he⟩ := List.mem_filterMap.mp hp
    have := hg s hs o ho
    cases hd : nodeId F o.dest with
    | none => rw [hd] at he; cases he
    | some u =>
      rw [hd] at he
      simp only [Option.map_some, Option.some.injEq, Prod.mk.injEq] at he
      omega
  have hlinks : (conns F s).length ≤ (List.range F.switches.length).foldl (fun m s => (conns F s).foldl (fun m c => max (max m c.outport) c.inport) m) 0 + 1 := by
    have hn : ((conns F s).map Conn.outport).Nodup := (conns_out s).nodup (outports_nodup h s)
    rw [← List.length_map (f := Conn.outport)]
    apply Os.length_le_of_lt _ _ hn
    intro q hq
    obtain ⟨c, hc, rfl⟩ := List.mem_map.mp hq
    exact Nat.lt_succ_of_le (foldl_mem_le2 (conns F) (fun m (c : Conn) => max (max m c.outport) c.inport) (fun m b => by omega) Conn.outport (fun m b => by omega) (List.range F.switches.length) 0 s (List.mem_range.mpr hs) c hc)
  have hnodes := foldl_mem_le (fun m s => max m (inj F s).length) (fun m b => Nat.le_max_left ..) (fun s => (inj F s).length) (fun m b => Nat.le_max_right ..) (List.range F.switches.length) 0 s (List.mem_range.mpr hs)
  unfold maxNumPorts
  omega

example : maxNumPorts pairNet = 4 := by decide

/-- But not if a node is at a port with a large number: switches then write behind the end of their array
of ports. -/
theorem C103_node_ports_refuted : ∃ F : Json String, Sound F ∧ (0, 5) ∈ inj F 0 ∧ maxNumPorts F = 3 :=
  ⟨⟨["n"], [("a", [⟨5, "n", 0⟩])]⟩, ⟨by decide, by decide, by decide, by decide, by decide⟩, by decide, by decide⟩

/-! ### The property: table routing -/

/-- The entry after `k` packets. -/
def after : Nat → Entry → Entry
  | 0, e => e
  | k + 1, e => after k (nextPort e).2

/-- The packets to a node go to the ports of its channel in turn: each `n`-th packet to each of `n` ports. -/
theorem C103_round_robin (ports : List Nat) (hp : ports ≠ []) (k : Nat) : (nextPort (after k ⟨ports, 0⟩)).1 = ports[k % ports.length]? ∧
    k % ports.length < ports.length := by
  have hl : 0 < ports.length := List.length_pos_iff.mpr hp
  have key : ∀ k i, i < ports.length → after k ⟨ports, i⟩ = ⟨ports, (i + k) % ports.length⟩ := by
    intro k
    induction k with
    | zero => intro i hi; simp only [after, Nat.add_zero]; rw [Nat.mod_eq_of_lt hi]
    | succ k ih =>
      intro i hi
      simp only [after, nextPort]
      rw [ih _ (Nat.mod_lt _ hl), Nat.mod_add_mod]
      congr 2
      omega
  rw [key k 0 hl, Nat.zero_add]
  exact ⟨rfl, Nat.mod_lt _ hl⟩

/-- The tables lead somewhere: every port of an entry goes to the node, or to a switch that is nearer by the
measure `dist`. -/
def Leads (F : Json α) (T : Nat → Table) (dist : Nat → Nat → Nat) : Prop :=
  ∀ s node, s < F.switches.length → node < F.nodes.length → ∀ p ∈ T s node,
    (node, p) ∈ inj F s ∨ ∃ t q, (net F).Link s p t q ∧ dist node t < dist node s

/-- Then every packet arrives, over at most `dist` links, on the one virtual channel, or with
`increment_vcs` on as many as it takes links and one. -/
theorem C103_table {F : Json α} (h : Sound F) {T : Nat → Table} {dist : Nat → Nat → Nat} (ha : Accepted F T) (hl : Leads F T dist) (node : Nat)
    (hn : node < F.nodes.length) (s : Nat) (hs : s < F.switches.length) :
    (∀ x, DeliversWithin (net F) (router T false) 1 node (dist node s) s x) ∧
    (∀ x vcs, x + dist node s < min vcs 16 → DeliversWithin (net F) (router T true) vcs node (dist node s) s x) := by
  have key : ∀ (n s : Nat), s < F.switches.length → dist node s ≤ n →
      (∀ x, DeliversWithin (net F) (router T false) 1 node n s x) ∧
      (∀ x vcs, x + n < min vcs 16 → DeliversWithin (net F) (router T true) vcs node n s x) := by
    intro n
    induction n with
    | zero =>
      intro s hs hd
      obtain ⟨p, hp⟩ := List.exists_mem_of_ne_nil _ (ha s node hs hn)
      have hall : ∀ p ∈ T s node, (node, p) ∈ inj F s := by
        intro p hp
        rcases hl s node hs hn p hp with h1 | ⟨t, q, _, h2⟩
        · exact h1
        · omega
      refine ⟨fun x => ⟨⟨p, 0, x, hp, rfl, rfl⟩, ?_⟩, fun x vcs hx => ⟨⟨p, x % 16, (x + 1) % 256, hp, rfl, rfl⟩, ?_⟩⟩
      · rintro p vc h' ⟨h1, h2, _⟩
        exact ⟨by omega, hall p h1⟩
      · rintro p vc h' ⟨h1, h2, _⟩
        refine ⟨?_, hall p h1⟩
        rw [h2, Nat.mod_eq_of_lt (by omega)]
        omega
    | succ n ih =>
      intro s hs hd
      obtain ⟨p, hp⟩ := List.exists_mem_of_ne_nil _ (ha s node hs hn)
      refine ⟨fun x => ⟨⟨p, 0, x, hp, rfl, rfl⟩, ?_⟩, fun x vcs hx => ⟨⟨p, x % 16, (x + 1) % 256, hp, rfl, rfl⟩, ?_⟩⟩
      · rintro p vc h' ⟨h1, h2, _⟩
        refine ⟨by omega, ?_⟩
        rcases hl s node hs hn p h1 with h3 | ⟨t, q, h4, h5⟩
        · exact .inl h3
        · exact .inr ⟨t, q, h4, (ih t ((C103_wired h).1.range s p t q hs h4) (by omega)).1 _⟩
      · rintro p vc h' ⟨h1, h2, h3⟩
        refine ⟨?_, ?_⟩
        · rw [h2, Nat.mod_eq_of_lt (by omega)]
          omega
        · rcases hl s node hs hn p h1 with h6 | ⟨t, q, h4, h5⟩
          · exact .inl h6
          · refine .inr ⟨t, q, h4, (ih t ((C103_wired h).1.range s p t q hs h4) (by omega)).2 _ _ ?_⟩
            rw [h3, Nat.mod_eq_of_lt (by omega)]
            omega
  exact key (dist node s) s hs (Nat.le_refl _)

/-- With `increment_vcs` no set of packets can wait for each other in a circle, whatever the tables, if no
packet takes more than 15 links. -/
theorem C103_increment_deadlock_free {F : Json α} (h : Sound F) {T : Nat → Table} {dist : Nat → Nat → Nat} (hl : Leads F T dist)
    (hd : ∀ node s, dist node s ≤ 15) : DeadlockFree (net F) (router T true) 0 F.nodes.length := by
  have flight : ∀ node s x, node < F.nodes.length → InFlight (net F) (router T true) 0 node s x → s < F.switches.length ∧ x + dist node s ≤ 15 := by
    intro node s x hn hf
    induction hf with
    | inject hs _ => exact ⟨hs, by have := hd node ‹_›; omega⟩
    | @hop s x p vc x' t q _ hr hk ih =>
      obtain ⟨h1, h2⟩ := ih
      obtain ⟨hp, _, hx⟩ := hr
      refine ⟨(C103_wired h).1.range s p t q h1 hk, ?_⟩
      rcases hl s node h1 hn p hp with h3 | ⟨t', q', h4, h5⟩
      · exfalso
        have := ((C103_wired h).2.ports s h1)
        rw [List.nodup_append] at this
        exact this.2.2 p (List.mem_map.mpr ⟨_, h3, rfl⟩) p (List.mem_map.mpr ⟨_, hk, rfl⟩) rfl
      · have := conn_unique ((C103_wired h).1.out_once s h1) hk h4 rfl
        simp only [Conn.mk.injEq] at this
        obtain ⟨_, rfl, _, rfl⟩ := this
        rw [hx, Nat.mod_eq_of_lt (by omega)]
        omega
  intro c hc
  refine acyclic_of_rank (fun c => (0, c.2.2)) ?_ c hc
  rintro a b ⟨node, s, x, p, vc, x', t, q, p', vc', x'', u, q', hn, hf, hr, hk, hr', hk', rfl, rfl⟩
  right
  refine ⟨rfl, ?_⟩
  obtain ⟨h1, h2⟩ := flight node s x hn hf
  obtain ⟨h3, h4⟩ := flight node t x' hn (.hop hf hr hk)
  obtain ⟨h5, h6⟩ := flight node u x'' hn (.hop (.hop hf hr hk) hr' hk')
  -- the last switch of the two links is still within reach, so the counter has not wrapped
  obtain ⟨hp, hv, hx⟩ := hr
  obtain ⟨hp', hv', hx'⟩ := hr'
  simp only at hv hx hv' hx' ⊢
  have hx1 : x' = x + 1 := by rw [hx, Nat.mod_eq_of_lt (by omega)]
  have hx2 : x'' = x' + 1 := by rw [hx', Nat.mod_eq_of_lt (by omega)]
  rw [hv, hv', Nat.mod_eq_of_lt (by omega), Nat.mod_eq_of_lt (by omega)]
  omega

/-- Tables of the two switches that lead to the nodes, over both links in turn. -/
example : Accepted pairNet (fun s node => if s = node then [2] else [0, 1]) ∧
    Leads pairNet (fun s node => if s = node then [2] else [0, 1]) (fun node s => if s = node then 0 else 1) := by
  constructor
  · intro s node _ _
    simp only
    split <;> simp
  · intro s node hs hn
    have hs : s < 2 := hs
    have hn : node < 2 := hn
    have key : ∀ s : Fin 2, ∀ node : Fin 2, ∀ p ∈ (if s.1 = node.1 then [2] else [0, 1]), (node.1, p) ∈ inj pairNet s.1 ∨
        ((⟨s.1, 1 - s.1, p, 1 - p⟩ : Conn) ∈ conns pairNet s.1 ∧ (if 1 - s.1 = node.1 then 0 else 1) < (if s.1 = node.1 then 0 else 1)) := by decide
    intro p hp
    rcases key ⟨s, hs⟩ ⟨node, hn⟩ p hp with h | ⟨h1, h2⟩
    · exact .inl h
    · exact .inr ⟨_, _, h1, h2⟩

/-- The check of the constructor does not see tables that lead nowhere: here both switches send packets for
the first node to each other. -/
theorem C103_accepted_refuted : ∃ (F : Json String) (T : Nat → Table), Sound F ∧ Accepted F T ∧
    ∀ n s x, s < 2 → ¬ DeliversWithin (net F) (router T false) 1 0 n s x := by
  refine ⟨pairNet, fun s node => if node = 0 then [0] else [s], pair_sound, ?_, ?_⟩
  · intro s node _ _
    simp only
    split <;> simp
  · intro n
    induction n with
    | zero =>
      intro s x hs hd
      have := hd.2 0 0 x ⟨by simp, rfl, rfl⟩
      have key : ∀ s : Fin 2, (0, 0) ∉ inj pairNet s.1 := by decide
      exact key ⟨s, hs⟩ this.2
    | succ n ih =>
      intro s x hs hd
      rcases (hd.2 0 0 x ⟨by simp, rfl, rfl⟩).2 with h | ⟨t, q, h1, h2⟩
      · have key : ∀ s : Fin 2, (0, 0) ∉ inj pairNet s.1 := by decide
        exact key ⟨s, hs⟩ h
      · exact ih t x ((C103_wired pair_sound).1.range s 0 t q hs h1) h2

/-! ### Rings -/

/-- A ring of `n` switches, one node at each.  Port 0 leads to the next switch, port 1 to the one before. -/
def ring (n : Nat) : Json Nat where
  nodes := (List.range n).map fun i => n + i
  switches := (List.range n).map fun i => (i, [⟨0, (i + 1) % n, 1⟩, ⟨1, (i + n - 1) % n, 0⟩, ⟨2, n + i, 0⟩])

/-- Tables that send every packet round the ring one way. -/
def oneWay (s node : Nat) : List Nat := if s = node then [2] else [0]

theorem mod_ne {n a b : Nat} (h1 : a < b) (h2 : b < a + n) : a % n ≠ b % n := by
  intro e
  have := Nat.sub_mod_eq_zero_of_mod_eq e.symm
  rw [Nat.mod_eq_of_lt (by omega)] at this
  omega

theorem next_back {n i : Nat} (h : i < n) : ((i + 1) % n + n - 1) % n = i ∧ ((i + n - 1) % n + 1) % n = i := by
  by_cases h1 : i + 1 = n
  · rw [h1, Nat.mod_self, Nat.zero_add, Nat.mod_eq_of_lt (by omega : n - 1 < n)]
    have e : i + n - 1 = (n - 2 + 1 - 1) + n - (if n = 1 then 1 else 0) := by split <;> omega
    refine ⟨by omega, ?_⟩
    by_cases h2 : n = 1
    · subst h2; omega
    · have : i + n - 1 = (n - 2) + n := by omega
      rw [this, Nat.add_mod_right, Nat.mod_eq_of_lt (by omega : n - 2 < n), Nat.mod_eq_of_lt (by omega)]
      omega
  · rw [Nat.mod_eq_of_lt (by omega : i + 1 < n)]
    have e : i + 1 + n - 1 = i + n := by omega
    rw [e, Nat.add_mod_right, Nat.mod_eq_of_lt h]
    refine ⟨rfl, ?_⟩
    by_cases h0 : i = 0
    · subst h0
      rw [Nat.zero_add, Nat.mod_eq_of_lt (by omega : n - 1 < n)]
      have : n - 1 + 1 = n := by omega
      rw [this, Nat.mod_self]
    · have : i + n - 1 = (i - 1) + n := by omega
      rw [this, Nat.add_mod_right, Nat.mod_eq_of_lt (by omega : i - 1 < n)]
      rw [Nat.mod_eq_of_lt (by omega)]
      omega

theorem ring_sound {n : Nat} (hn : 0 < n) : Sound (ring n) := by
  have hsw : ∀ a ∈ (ring n).switches, ∃ i, i < n ∧ a = (i, [⟨0, (i + 1) % n, 1⟩, ⟨1, (i + n - 1) % n, 0⟩, ⟨2, n + i, 0⟩]) := by
    intro a ha
    obtain ⟨i, hi, rfl⟩ := List.mem_map.mp ha
    exact ⟨i, List.mem_range.mp hi, rfl⟩
  have hnd : ∀ a ∈ (ring n).nodes, ∃ i, i < n ∧ a = n + i := by
    intro a ha
    obtain ⟨i, hi, rfl⟩ := List.mem_map.mp ha
    exact ⟨i, List.mem_range.mp hi, rfl⟩
  refine ⟨?_, ?_, ?_, ?_, ?_⟩
  · rw [List.nodup_append]
    refine ⟨nodup_map (fun a b h => by omega) List.nodup_range, ?_, ?_⟩
    · show (((List.range n).map _).map Prod.fst).Nodup
      rw [List.map_map]
      exact nodup_map (fun a b h => h) List.nodup_range
    · intro a ha b hb e
      obtain ⟨i, hi, rfl⟩ := hnd a ha
      obtain ⟨c, hc, rfl⟩ := List.mem_map.mp hb
      obtain ⟨j, hj, rfl⟩ := hsw c hc
      simp only at e
      omega
  · intro a ha
    obtain ⟨i, hi, rfl⟩ := hsw a ha
    show [0, 1, 2].Nodup
    decide
  · intro a ha b hb o ho he
    obtain ⟨i, hi, rfl⟩ := hsw a ha
    obtain ⟨j, hj, rfl⟩ := hsw b hb
    have nb := next_back hi
    simp only [List.mem_cons, List.not_mem_nil, or_false] at ho
    rcases ho with rfl | rfl | rfl
    · simp only at he
      subst he
      simp only [List.mem_cons, OutPort.mk.injEq, List.not_mem_nil, or_false]
      rw [nb.1]
      simp
    · simp only at he
      subst he
      simp only [List.mem_cons, OutPort.mk.injEq, List.not_mem_nil, or_false]
      rw [nb.2]
      simp
    · simp only at he
      omega
  · intro a ha
    obtain ⟨i, hi, rfl⟩ := hnd a ha
    exact ⟨_, List.mem_map.mpr ⟨i, List.mem_range.mpr hi, rfl⟩, ⟨2, n + i, 0⟩, by simp, rfl⟩
  · intro x hx a ha b hb o ho o' ho' e e'
    obtain ⟨k, hk, rfl⟩ := hnd x hx
    have pick : ∀ a ∈ (ring n).switches, ∀ o ∈ a.2, o.dest = n + k → a.1 = k ∧ o = ⟨2, n + k, 0⟩ := by
      intro a ha o ho e
      obtain ⟨i, hi, rfl⟩ := hsw a ha
      have m1 := Nat.mod_lt (i + 1) hn
      have m2 := Nat.mod_lt (i + n - 1) hn
      simp only [List.mem_cons, List.not_mem_nil, or_false] at ho
      rcases ho with rfl | rfl | rfl
      · simp only at e; omega
      · simp only at e; omega
      · simp only at e
        have : i = k := by omega
        subst this
        exact ⟨rfl, rfl⟩
    obtain ⟨p1, p2⟩ := pick a ha o ho e
    obtain ⟨q1, q2⟩ := pick b hb o' ho' e'
    exact ⟨by rw [p1, q1], by rw [p2, q2]⟩

theorem ring_switch {n s : Nat} (hs : s < n) : (ring n).switches[s]? = some (s, [⟨0, (s + 1) % n, 1⟩, ⟨1, (s + n - 1) % n, 0⟩, ⟨2, n + s, 0⟩]) := by
  show ((List.range n).map _)[s]? = _
  rw [List.getElem?_map, List.getElem?_range hs]
  rfl

theorem ring_link {n s : Nat} (hs : s < n) : (net (ring n)).Link s 0 ((s + 1) % n) 1 :=
  (link_iff (ring_sound (by omega)) _ _ _ _).mpr ⟨_, _, _, _, ring_switch hs, ring_switch (Nat.mod_lt _ (by omega)), by simp⟩

theorem ring_inj {n s : Nat} (hs : s < n) : (s, 2) ∈ (net (ring n)).inj s :=
  (inj_iff (ring_sound (by omega)) _ _ _).mpr ⟨_, _, n + s, 0, ring_switch hs, by
    show ((List.range n).map _)[s]? = _
    rw [List.getElem?_map, List.getElem?_range hs]
    rfl, by simp⟩

theorem ring_leads {n : Nat} : Leads (ring n) oneWay (fun node s => (node + n - s) % n) := by
  intro s node hs hn p hp
  have hs : s < n := by simpa [ring] using hs
  have hn : node < n := by simpa [ring] using hn
  unfold oneWay at hp
  split at hp
  · rename_i e
    subst e
    simp only [List.mem_singleton] at hp
    subst hp
    exact .inl (ring_inj hs)
  · rename_i hne
    simp only [List.mem_singleton] at hp
    subst hp
    refine .inr ⟨_, _, ring_link hs, ?_⟩
    show (node + n - (s + 1) % n) % n < (node + n - s) % n
    have dist : ∀ s, s < n → (node + n - s) % n = if s ≤ node then node - s else node + n - s := by
      intro s hs
      split
      · have : node + n - s = (node - s) + n := by omega
        rw [this, Nat.add_mod_right, Nat.mod_eq_of_lt (by omega)]
      · exact Nat.mod_eq_of_lt (by omega)
    rw [dist s hs, dist _ (Nat.mod_lt _ (by omega))]
    by_cases h1 : s + 1 = n
    · rw [h1, Nat.mod_self]
      split <;> split <;> omega
    · rw [Nat.mod_eq_of_lt (by omega : s + 1 < n)]
      split <;> split <;> omega

/-- A packet from switch `j` to the node before it, on its way. -/
theorem ring_flight {n : Nat} (incr : Bool) (j : Nat) (hj : j < n) (hn : 0 < n) (i : Nat) (hi : i < n) (h256 : i < 256) :
    InFlight (net (ring n)) (router oneWay incr) 0 ((j + n - 1) % n) ((j + i) % n) (if incr then i else 0) := by
  induction i with
  | zero =>
    have : (if incr = true then 0 else 0) = (0 : Nat) := by split <;> rfl
    rw [this, Nat.add_zero, Nat.mod_eq_of_lt hj]
    refine .inject (by simpa [net, ring] using hj) (fun e => ?_)
    have := ring_inj hj
    rw [e] at this
    cases this
  | succ i ih =>
    have hlt : (j + i) % n < n := Nat.mod_lt _ hn
    have hne : (j + i) % n ≠ (j + n - 1) % n := mod_ne (by omega) (by omega)
    have hl := ring_link hlt
    rw [Nat.mod_add_mod] at hl
    refine .hop (p := 0) (vc := if incr then i % 16 else 0) (ih (by omega) (by omega)) ⟨by simp [oneWay, hne], ?_⟩ hl
    cases incr with
    | false => simp
    | true => simp; omega

theorem ring_wait {n : Nat} (incr : Bool) (i j : Nat) (hj : j < n) (hi : i + 3 ≤ n) (h256 : i < 254) :
    WaitsFor (net (ring n)) (router oneWay incr) 0 n ((j + i) % n, 0, if incr then i % 16 else 0) ((j + i + 1) % n, 0, if incr then (i + 1) % 16 else 0) := by
  have hn : 0 < n := by omega
  have h1 : (j + i) % n < n := Nat.mod_lt _ hn
  have h2 : (j + i + 1) % n < n := Nat.mod_lt _ hn
  have l1 := ring_link h1
  rw [Nat.mod_add_mod] at l1
  have l2 := ring_link h2
  refine ⟨(j + n - 1) % n, (j + i) % n, if incr then i else 0, 0, if incr then i % 16 else 0, if incr then i + 1 else 0, (j + i + 1) % n, 1, 0,
    if incr then (i + 1) % 16 else 0, if incr then i + 2 else 0, _, 1, Nat.mod_lt _ hn, ring_flight incr j hj hn i (by omega) (by omega), ⟨?_, ?_⟩, l1, ⟨?_, ?_⟩, l2, rfl, rfl⟩
  · have hne : (j + i) % n ≠ (j + n - 1) % n := mod_ne (by omega) (by omega)
    simp [oneWay, hne]
  · cases incr with
    | false => simp
    | true => simp; omega
  · have hne : (j + i + 1) % n ≠ (j + n - 1) % n := mod_ne (by omega) (by omega)
    simp [oneWay, hne]
  · cases incr with
    | false => simp
    | true => simp; omega

/-- Without `increment_vcs` packets that go round a ring of three or more switches can wait for each other in
a circle, although the tables lead every packet to its node. -/
theorem C103_ring_refuted (n : Nat) (h : 3 ≤ n) : Sound (ring n) ∧ Leads (ring n) oneWay (fun node s => (node + n - s) % n) ∧
    ¬ DeadlockFree (net (ring n)) (router oneWay false) 0 n := by
  refine ⟨ring_sound (by omega), ring_leads, fun hd => hd (0, 0, 0) ?_⟩
  have step : ∀ k, WaitsFor (net (ring n)) (router oneWay false) 0 n (k % n, 0, 0) ((k + 1) % n, 0, 0) := by
    intro k
    have := ring_wait (n := n) false 0 (k % n) (Nat.mod_lt _ (by omega)) (by omega) (by omega)
    rw [Nat.add_zero, Nat.mod_mod, Nat.mod_add_mod] at this
    exact this
  have chain : ∀ k, Relation.TransGen (WaitsFor (net (ring n)) (router oneWay false) 0 n) (0, 0, 0) ((k + 1) % n, 0, 0) := by
    intro k
    induction k with
    | zero =>
      have := step 0
      rw [Nat.zero_mod] at this
      exact .single this
    | succ k ih => exact .tail ih (step (k + 1))
  have := chain (n - 1)
  rw [show n - 1 + 1 = n by omega, Nat.mod_self] at this
  exact this

/-- With `increment_vcs` they still can in a ring of 18 or more: the field for the channel has four bits, so
the seventeenth link is taken on channel 0 again, however many channels there are. -/
theorem C103_increment_refuted (n : Nat) (h : 18 ≤ n) : Sound (ring n) ∧ Leads (ring n) oneWay (fun node s => (node + n - s) % n) ∧
    ¬ DeadlockFree (net (ring n)) (router oneWay true) 0 n := by
  refine ⟨ring_sound (by omega), ring_leads, fun hd => hd (0, 0, 0) ?_⟩
  have step : ∀ k, WaitsFor (net (ring n)) (router oneWay true) 0 n (k % n, 0, k % 16) ((k + 1) % n, 0, (k + 1) % 16) := by
    intro k
    have hm := Nat.mod_lt k (show 0 < 16 by decide)
    have := ring_wait (n := n) true (k % 16) ((k - k % 16) % n) (Nat.mod_lt _ (by omega)) (by omega) (by omega)
    rw [Nat.mod_add_mod, Nat.add_assoc, Nat.mod_add_mod, ← Nat.add_assoc, Nat.sub_add_cancel (Nat.mod_le ..), Nat.mod_mod, Nat.mod_add_mod] at this
    exact this
  have chain : ∀ k, Relation.TransGen (WaitsFor (net (ring n)) (router oneWay true) 0 n) (0, 0, 0) ((k + 1) % n, 0, (k + 1) % 16) := by
    intro k
    induction k with
    | zero =>
      have := step 0
      rw [Nat.zero_mod] at this
      exact .single this
    | succ k ih => exact .tail ih (step (k + 1))
  have := chain (16 * n - 1)
  rw [show 16 * n - 1 + 1 = 16 * n by omega, Nat.mul_mod_left, Nat.mul_mod_right] at this
  exact this

end SST.Topo.File
