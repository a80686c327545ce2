import Verif.Topo.Net
/-
The fully connected and the star topology with their routers.
-/
set_option autoImplicit false
namespace SST.Topo.Full
open SST.Topo

/-- `FullyConnected::connectedOutports`, sstmac/hardware/topology/fully_connected.cc:72-88. -/
def conns (n src : Nat) : List Conn :=
  ((List.range n).filter fun i => i ≠ src).map fun i => { src := src, dst := i, outport := i, inport := src }

/-- `FullyConnected::endpointsConnectedToInjectionSwitch`, fully_connected.cc:58-69. -/
def inj (n conc s : Nat) : List (Nat × Nat) := (List.range conc).map fun i => (s * conc + i, n + i)

/-- The fully connected network of `n` switches with `conc` nodes each. -/
def net (n conc : Nat) : Net where
  size := n
  conns := conns n
  inj := inj n conc

/-- `FullyConnected::minimalDistance`, fully_connected.h:88-90. -/
def minimalDistance (_src _dst : Nat) : Nat := 1

/-- `FullyConnectedMinimalRouter::route`, sstmac/hardware/router/router.cc:145-153: port and
virtual channel. -/
def route (n conc me node : Nat) : Nat × Nat :=
  let ej := node / conc
  if ej = me then (n + node % conc, 0) else (ej, 0)

/-- The router as a relation; it keeps nothing in the header. -/
def router (n conc : Nat) : Router Unit := fun s node _ p vc _ => route n conc s node = (p, vc)

/-- `Star` (sstmac/hardware/topology/star.cc:58-74): one switch, no links, node `i` on port `i`. -/
def starNet (conc : Nat) : Net where
  size := 1
  conns := fun _ => []
  inj := fun s => (List.range conc).map fun i => (s * conc + i, i)

/-- `StarMinimalRouter::route`, router.cc:183-185; the virtual channel keeps the zero the packet
header was cleared to (packet.cc:68). -/
def starRouter : Router Unit := fun _ node _ p vc _ => p = node ∧ vc = 0

theorem link_iff (n conc s p t q : Nat) : (net n conc).Link s p t q ↔ t < n ∧ t ≠ s ∧ p = t ∧ q = s := by
  show _ ∈ conns n s ↔ _
  unfold conns
  simp only [List.mem_map, List.mem_filter, List.mem_range, decide_eq_true_eq, Conn.mk.injEq, true_and]
  constructor
  · rintro ⟨i, ⟨h1, h2⟩, rfl, rfl, rfl⟩
    exact ⟨h1, h2, rfl, rfl⟩
  · rintro ⟨h1, h2, rfl, rfl⟩
    exact ⟨_, ⟨h1, h2⟩, rfl, rfl, rfl⟩

theorem outports_nodup (n s : Nat) : ((conns n s).map Conn.outport).Nodup := by
  unfold conns
  rw [List.map_map]
  exact nodup_map (fun a b h => h) (List.Nodup.sublist List.filter_sublist List.nodup_range)

/-- C75: every link of the fully connected network has a link back between the same ports, no
port is used twice. -/
theorem C75_full_links (n conc : Nat) : WellWired (net n conc) := by
  apply wellWired_of_back
  · intro s c _ hc
    have hc : c ∈ conns n s := hc
    unfold conns at hc
    rw [List.mem_map] at hc
    obtain ⟨_, _, rfl⟩ := hc
    rfl
  · intro s _
    exact outports_nodup n s
  · intro s p t q hs hl
    rw [link_iff] at hl
    obtain ⟨h1, h2, rfl, rfl⟩ := hl
    exact ⟨h1, (link_iff ..).2 ⟨hs, fun e => h2 e.symm, rfl, rfl⟩⟩

/-- C75: two different switches of the fully connected network are exactly one link apart. -/
theorem C75_full_neighbours (n conc s t : Nat) (ht : t < n) (hne : s ≠ t) : ∃ p q, (net n conc).Link s p t q :=
  ⟨t, s, (link_iff ..).2 ⟨ht, fun e => hne e.symm, rfl, rfl⟩⟩

/-- C75/C49: the nodes of the fully connected network. -/
theorem C49_full (n conc : Nat) (hc : 0 < conc) : Attached (net n conc) (n * conc) (fun x => x / conc) := by
  refine attached_conc (net n conc) conc n hc (fun _ => rfl) ?_
  intro s _
  refine ⟨outports_nodup n s, ?_⟩
  intro p hp
  have hp : p ∈ (conns n s).map Conn.outport := hp
  unfold conns at hp
  simp only [List.map_map, List.mem_map, List.mem_filter, List.mem_range, Function.comp] at hp
  obtain ⟨i, ⟨h, _⟩, rfl⟩ := hp
  exact h

/-- C75: every packet in the fully connected network takes no link if it is at the switch of its
node and exactly one otherwise, on the one virtual channel, and leaves through the port of its
node. -/
theorem C75_full_delivers (n conc s node : Nat) (hn : node < n * conc) :
    Delivers (net n conc) (router n conc) 1 node (if s = node / conc then 0 else 1) s () := by
  have hc : 0 < conc := by
    apply Nat.pos_of_ne_zero
    rintro rfl
    omega
  have zero : Delivers (net n conc) (router n conc) 1 node 0 (node / conc) () := by
    refine ⟨⟨_, _, (), rfl⟩, ?_⟩
    intro p vc _ hr
    unfold router route at hr
    simp only [if_true, Prod.mk.injEq] at hr
    obtain ⟨rfl, rfl⟩ := hr
    refine ⟨by omega, ?_⟩
    show _ ∈ inj n conc _
    unfold inj
    rw [List.mem_map]
    refine ⟨node % conc, List.mem_range.2 (Nat.mod_lt _ hc), ?_⟩
    rw [Nat.mul_comm, Nat.div_add_mod]
  split
  · rename_i e
    rw [e]
    exact zero
  · rename_i e
    refine ⟨⟨_, _, (), rfl⟩, ?_⟩
    intro p vc _ hr
    unfold router route at hr
    simp only [if_neg (fun h => e (Eq.symm h) : ¬ node / conc = s), Prod.mk.injEq] at hr
    obtain ⟨rfl, rfl⟩ := hr
    refine ⟨by omega, node / conc, s, ?_, zero⟩
    exact (link_iff ..).2 ⟨Nat.div_lt_of_lt_mul (by rw [Nat.mul_comm]; exact hn), fun h => e h.symm, rfl, rfl⟩

/-- C75: no packet in the fully connected network ever waits for a second link, so there is no
circular wait. -/
theorem C75_full_deadlock_free (n conc : Nat) : DeadlockFree (net n conc) (router n conc) () (n * conc) := by
  unfold DeadlockFree
  apply acyclic_of_rank (fun _ => (0, 0))
  rintro _ _ ⟨node, s, x, p, vc, x', t, q, p', vc', x'', u, q', hn, hf, hr, hl, hr', hl', rfl, rfl⟩
  exfalso
  rw [link_iff] at hl hl'
  obtain ⟨h1, h2, rfl, rfl⟩ := hl
  obtain ⟨h3, h4, rfl, rfl⟩ := hl'
  unfold router route at hr hr'
  simp only at hr hr'
  split at hr
  · simp only [Prod.mk.injEq] at hr
    omega
  · simp only [Prod.mk.injEq] at hr
    rw [if_pos hr.1] at hr'
    simp only [Prod.mk.injEq] at hr'
    omega

/-- C48: between different switches the reported distance of the fully connected network is the
shortest. -/
theorem C48_full_partial (n conc s t : Nat) (ht : t < n) (hne : s ≠ t) : IsDist (net n conc) s t (minimalDistance s t) := by
  constructor
  · exact Walk.cons (n := 0) ((link_iff ..).2 ⟨ht, fun e => hne e.symm, rfl, rfl⟩ : (net n conc).Link s t t s) (Walk.nil t)
  · intro m w
    cases w with
    | nil => exact absurd rfl hne
    | cons _ _ => show 1 ≤ _; omega

/-- C48: a switch is reported one hop away from itself. -/
theorem C48_full_self_refuted : ¬ ∀ n conc s t, s < n → t < n → IsDist (net n conc) s t (minimalDistance s t) := by
  intro h
  have := (h 2 1 0 0 (by decide) (by decide)).2 0 (Walk.nil 0)
  revert this
  decide

/-- C75: on a star every packet leaves through the port of its node. -/
theorem C75_star_delivers (conc node : Nat) (hn : node < conc) : Delivers (starNet conc) starRouter 1 node 0 0 () := by
  refine ⟨⟨_, _, (), rfl, rfl⟩, ?_⟩
  rintro p vc _ ⟨rfl, rfl⟩
  refine ⟨by omega, ?_⟩
  show _ ∈ (List.range conc).map fun i => (0 * conc + i, i)
  rw [List.mem_map]
  exact ⟨p, List.mem_range.2 hn, by simp⟩

/-- C49 for the star. -/
theorem C49_star (conc : Nat) (hc : 0 < conc) : Attached (starNet conc) conc (fun x => x / conc) := by
  have := attached_conc (starNet conc) conc 0 hc (by intro s; simp [starNet]) (by intro s _; simp [starNet])
  rw [show (starNet conc).size = 1 from rfl, Nat.one_mul] at this
  exact this

example : (net 4 2).Link 1 3 3 1 ∧ (net 4 2).inj 3 = [(6, 4), (7, 5)] := by
  unfold Net.Link; decide

example : route 4 2 1 7 = (3, 0) ∧ route 4 2 3 7 = (5, 0) := by decide

example : (starNet 3).inj 0 = [(0, 0), (1, 1), (2, 2)] := by decide

end SST.Topo.Full
