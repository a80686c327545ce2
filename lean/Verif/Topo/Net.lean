/-
What a topology and a router amount to from outside: a set of links between numbered ports
of numbered switches, nodes attached to switch ports, and a routing decision at every switch
a packet comes to.  These definitions are specifications; nothing here models code, except
`Conn`, `toU32`.
-/
set_option autoImplicit false
namespace SST.Topo

/-- `Topology::Connection`, sstmac/hardware/topology/topology.h:79-84. -/
structure Conn where
  src : Nat
  dst : Nat
  outport : Nat
  inport : Nat
deriving DecidableEq, Repr

/-- Conversion to `SwitchId` (`uint32_t`, sstmac/common/node_address.h:52). -/
def toU32 (z : Int) : Nat := (z % 4294967296).toNat

/-- A wired network. -/
structure Net where
  /-- switches are numbered 0 .. size-1 -/
  size : Nat
  /-- the links that leave a switch (`connectedOutports`) -/
  conns : Nat → List Conn
  /-- (node, switch port) for the nodes at a switch (`endpointsConnectedToInjectionSwitch`) -/
  inj : Nat → List (Nat × Nat)

/-- Output port `p` of switch `s` leads to input port `q` of switch `t`. -/
def Net.Link (N : Net) (s p t q : Nat) : Prop := (⟨s, t, p, q⟩ : Conn) ∈ N.conns s

/-- Every link joins two switches of the network and has a link back between the same two
ports, and every port of a switch has at most one link out and one link in. -/
structure WellWired (N : Net) : Prop where
  src : ∀ s c, s < N.size → c ∈ N.conns s → c.src = s
  range : ∀ s p t q, s < N.size → N.Link s p t q → t < N.size
  back : ∀ s p t q, s < N.size → N.Link s p t q → N.Link t q s p
  out_once : ∀ s, s < N.size → ((N.conns s).map Conn.outport).Nodup
  in_once : ∀ s s' t q p p', s < N.size → s' < N.size → N.Link s p t q → N.Link s' p' t q → s = s' ∧ p = p'

/-- `Walk s t n`: `n` links lead from `s` to `t`. -/
inductive Walk (N : Net) : Nat → Nat → Nat → Prop
  | nil (s : Nat) : Walk N s s 0
  | cons {s p t q u n : Nat} (h : N.Link s p t q) (w : Walk N t u n) : Walk N s u (n + 1)

/-- `n` is the number of links on a shortest path. -/
def IsDist (N : Net) (s t n : Nat) : Prop := Walk N s t n ∧ ∀ m, Walk N s t m → n ≤ m

/-- A router: `R s node h p vc h'` says that at switch `s` a packet for `node` with routing
header `h` may be sent to output port `p` on virtual channel `vc` with new header `h'`. -/
abbrev Router (H : Type) := Nat → Nat → H → Nat → Nat → H → Prop

/-- `Delivers N R vcs node n s h`: the router always has a decision for the packet at switch
`s`, and whatever it decides there and at the following switches, the packet takes exactly
`n` links, always on one of `vcs` virtual channels, and then leaves through the port of
`node`. -/
def Delivers {H : Type} (N : Net) (R : Router H) (vcs node : Nat) : Nat → Nat → H → Prop
  | 0, s, h => (∃ p vc h', R s node h p vc h') ∧
      ∀ p vc h', R s node h p vc h' → vc < vcs ∧ (node, p) ∈ N.inj s
  | n + 1, s, h => (∃ p vc h', R s node h p vc h') ∧
      ∀ p vc h', R s node h p vc h' →
        vc < vcs ∧ ∃ t q, N.Link s p t q ∧ Delivers N R vcs node n t h'

/-- As `Delivers`, with at most `n` links. -/
def DeliversWithin {H : Type} (N : Net) (R : Router H) (vcs node : Nat) : Nat → Nat → H → Prop
  | 0, s, h => (∃ p vc h', R s node h p vc h') ∧
      ∀ p vc h', R s node h p vc h' → vc < vcs ∧ (node, p) ∈ N.inj s
  | n + 1, s, h => (∃ p vc h', R s node h p vc h') ∧
      ∀ p vc h', R s node h p vc h' →
        vc < vcs ∧ ((node, p) ∈ N.inj s ∨ ∃ t q, N.Link s p t q ∧ DeliversWithin N R vcs node n t h')

/-- The switches and headers a packet for `node`, injected with header `h0` at some switch
that has nodes, can have on its way. -/
inductive InFlight {H : Type} (N : Net) (R : Router H) (h0 : H) (node : Nat) : Nat → H → Prop
  | inject {s : Nat} (hs : s < N.size) (hi : N.inj s ≠ []) : InFlight N R h0 node s h0
  | hop {s : Nat} {h : H} {p vc : Nat} {h' : H} {t q : Nat} (hf : InFlight N R h0 node s h)
      (hr : R s node h p vc h') (hl : N.Link s p t q) : InFlight N R h0 node t h'

/-- A channel is a virtual channel of an output port of a switch.  A packet that occupies
`c` may wait for `c'`: `c'` is its next channel. -/
def WaitsFor {H : Type} (N : Net) (R : Router H) (h0 : H) (nodes : Nat) (c c' : Nat × Nat × Nat) : Prop :=
  ∃ node s h p vc h' t q p' vc' h'' u q', node < nodes ∧ InFlight N R h0 node s h ∧ R s node h p vc h' ∧
    N.Link s p t q ∧ R t node h' p' vc' h'' ∧ N.Link t p' u q' ∧ c = (s, p, vc) ∧ c' = (t, p', vc')

/-- No set of packets can wait for each other in a circle. -/
def DeadlockFree {H : Type} (N : Net) (R : Router H) (h0 : H) (nodes : Nat) : Prop :=
  ∀ c, ¬ Relation.TransGen (WaitsFor N R h0 nodes) c c

/-- The nodes at the switches are exactly 0 .. nodes-1, each at the switch `home` says, and
no switch port is used for two nodes or for a node and a link. -/
structure Attached (N : Net) (nodes : Nat) (home : Nat → Nat) : Prop where
  node : ∀ s n p, s < N.size → (n, p) ∈ N.inj s → n < nodes ∧ home n = s
  all : ∀ n, n < nodes → home n < N.size ∧ ∃ p, (n, p) ∈ N.inj (home n)
  once : ∀ s, s < N.size → ((N.inj s).map Prod.fst).Nodup
  ports : ∀ s, s < N.size → ((N.inj s).map Prod.snd ++ (N.conns s).map Conn.outport).Nodup

theorem acyclic_of_rank {α : Type} {r : α → α → Prop} (rank : α → Nat × Nat)
    (h : ∀ a b, r a b → (rank a).1 < (rank b).1 ∨ ((rank a).1 = (rank b).1 ∧ (rank a).2 < (rank b).2)) (a : α) :
    ¬ Relation.TransGen r a a := by
  have : ∀ b, Relation.TransGen r a b →
      (rank a).1 < (rank b).1 ∨ ((rank a).1 = (rank b).1 ∧ (rank a).2 < (rank b).2) := by
    intro b hb
    induction hb with
    | single hb => exact h _ _ hb
    | tail _ hb ih =>
      have := h _ _ hb
      omega
  intro ha
  have := this a ha
  omega

theorem toU32_of_lt {z : Int} {n : Nat} (h : z = n) (hn : n < 4294967296) : toU32 z = n := by
  unfold toU32
  subst h
  omega

theorem nodup_map {α β : Type} {f : α → β} (hf : ∀ a b, f a = f b → a = b) {l : List α} (h : l.Nodup) : (l.map f).Nodup := by
  unfold List.Nodup at *
  rw [List.pairwise_map]
  exact h.imp fun hne e => hne (hf _ _ e)

/-- `conc` consecutive nodes at each switch, on the ports from `base` on. -/
theorem attached_conc (N : Net) (conc base : Nat) (hc : 0 < conc)
    (hi : ∀ s, N.inj s = (List.range conc).map fun i => (s * conc + i, base + i))
    (ho : ∀ s, s < N.size → ((N.conns s).map Conn.outport).Nodup ∧ ∀ p ∈ (N.conns s).map Conn.outport, p < base) :
    Attached N (N.size * conc) (fun n => n / conc) := by
  refine ⟨?_, ?_, ?_, ?_⟩
  · intro s n p hs h
    rw [hi, List.mem_map] at h
    obtain ⟨i, hi, e⟩ := h
    rw [List.mem_range] at hi
    simp only [Prod.mk.injEq] at e
    obtain ⟨rfl, _⟩ := e
    constructor
    · calc s * conc + i < s * conc + conc := by omega
        _ = (s + 1) * conc := by rw [Nat.succ_mul]
        _ ≤ N.size * conc := Nat.mul_le_mul_right _ hs
    · show (s * conc + i) / conc = s
      rw [Nat.mul_comm, Nat.mul_add_div hc, Nat.div_eq_of_lt hi, Nat.add_zero]
  · intro n hn
    refine ⟨Nat.div_lt_of_lt_mul (by rw [Nat.mul_comm]; exact hn), base + n % conc, ?_⟩
    rw [hi, List.mem_map]
    refine ⟨n % conc, List.mem_range.2 (Nat.mod_lt _ hc), ?_⟩
    simp only [Prod.mk.injEq, and_true]
    rw [Nat.mul_comm, Nat.div_add_mod]
  · intro s _
    rw [hi, List.map_map]
    apply nodup_map
    · intro a b h; simp at h; omega
    · exact List.nodup_range
  · intro s hs
    obtain ⟨h1, h2⟩ := ho s hs
    rw [List.nodup_append]
    refine ⟨?_, h1, ?_⟩
    · rw [hi, List.map_map]
      apply nodup_map
      · intro a b h; simp at h; omega
      · exact List.nodup_range
    · intro a ha b hb
      have := h2 b hb
      rw [hi] at ha
      simp only [List.map_map, List.mem_map, List.mem_range, Function.comp] at ha
      obtain ⟨i, _, rfl⟩ := ha
      omega

/-- Two links of a switch whose outports are all different. -/
theorem conn_unique {l : List Conn} (nd : (l.map Conn.outport).Nodup) {c c' : Conn} (h : c ∈ l) (h' : c' ∈ l)
    (e : c.outport = c'.outport) : c = c' := by
  induction l with
  | nil => simp at h
  | cons a l ih =>
    simp only [List.map_cons, List.nodup_cons, List.mem_map, not_exists, not_and] at nd
    rcases List.mem_cons.1 h with h1 | h1 <;> rcases List.mem_cons.1 h' with h2 | h2
    · rw [h1, h2]
    · subst h1; exact absurd e.symm (nd.1 c' h2)
    · subst h2; exact absurd e (nd.1 c h1)
    · exact ih nd.2 h1 h2

/-- Links back and different outports suffice. -/
theorem wellWired_of_back (N : Net) (hsrc : ∀ s c, s < N.size → c ∈ N.conns s → c.src = s)
    (hout : ∀ s, s < N.size → ((N.conns s).map Conn.outport).Nodup)
    (hback : ∀ s p t q, s < N.size → N.Link s p t q → t < N.size ∧ N.Link t q s p) : WellWired N := by
  refine ⟨hsrc, fun s p t q hs h => (hback s p t q hs h).1, fun s p t q hs h => (hback s p t q hs h).2, hout, ?_⟩
  intro s s' t q p p' hs hs' h h'
  obtain ⟨ht, b⟩ := hback s p t q hs h
  obtain ⟨_, b'⟩ := hback s' p' t q hs' h'
  have := conn_unique (hout t ht) b b' rfl
  simp only [Conn.mk.injEq] at this
  exact ⟨this.2.1, this.2.2.2⟩

/-- A packet that arrives has taken a path. -/
theorem walk_of_delivers {H : Type} {N : Net} {R : Router H} {vcs node n s : Nat} {h : H} (hd : Delivers N R vcs node n s h) :
    ∃ t, Walk N s t n ∧ ∃ p, (node, p) ∈ N.inj t := by
  induction n generalizing s h with
  | zero =>
    obtain ⟨⟨p, vc, h', hr⟩, hall⟩ := hd
    exact ⟨s, Walk.nil s, p, (hall p vc h' hr).2⟩
  | succ n ih =>
    obtain ⟨⟨p, vc, h', hr⟩, hall⟩ := hd
    obtain ⟨_, t, q, hl, hd'⟩ := hall p vc h' hr
    obtain ⟨u, w, hi⟩ := ih hd'
    exact ⟨u, Walk.cons hl w, hi⟩

theorem within_mono {H : Type} {N : Net} {R : Router H} {vcs node : Nat} : ∀ {n m s : Nat} {h : H}, n ≤ m →
    DeliversWithin N R vcs node n s h → DeliversWithin N R vcs node m s h := by
  intro n
  induction n with
  | zero =>
    intro m s h _ hd
    cases m with
    | zero => exact hd
    | succ m => exact ⟨hd.1, fun p vc h' hr => ⟨(hd.2 p vc h' hr).1, Or.inl (hd.2 p vc h' hr).2⟩⟩
  | succ n ih =>
    intro m s h hle hd
    cases m with
    | zero => omega
    | succ m =>
      refine ⟨hd.1, fun p vc h' hr => ?_⟩
      obtain ⟨h1, h2⟩ := hd.2 p vc h' hr
      refine ⟨h1, ?_⟩
      rcases h2 with h2 | ⟨t, q, hl, hd'⟩
      · exact Or.inl h2
      · exact Or.inr ⟨t, q, hl, ih (by omega) hd'⟩

/-- A packet that arrives has taken a path. -/
theorem walk_of_within {H : Type} {N : Net} {R : Router H} {vcs node n s : Nat} {h : H} (hd : DeliversWithin N R vcs node n s h) :
    ∃ t m, m ≤ n ∧ Walk N s t m ∧ ∃ p, (node, p) ∈ N.inj t := by
  induction n generalizing s h with
  | zero =>
    obtain ⟨⟨p, vc, h', hr⟩, hall⟩ := hd
    exact ⟨s, 0, Nat.le_refl _, Walk.nil s, p, (hall p vc h' hr).2⟩
  | succ n ih =>
    obtain ⟨⟨p, vc, h', hr⟩, hall⟩ := hd
    rcases (hall p vc h' hr).2 with hi | ⟨t, q, hl, hd'⟩
    · exact ⟨s, 0, Nat.zero_le _, Walk.nil s, p, hi⟩
    · obtain ⟨u, m, hm, w, hi⟩ := ih hd'
      exact ⟨u, m + 1, by omega, Walk.cons hl w, hi⟩

end SST.Topo
