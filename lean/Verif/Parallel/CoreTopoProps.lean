import Verif.Parallel.CoreLinksProps
import Verif.Topo.TorusProps
import Verif.Topo.HypercubeProps
import Verif.Topo.Full
import Verif.Topo.FatTreeProps
import Verif.Topo.DragonflyProps
import Verif.Topo.DragonflyPlusProps
import Verif.Topo.CascadeProps
set_option autoImplicit false
/-
C156 for the topologies of the library: each of them, where its links agree from both ends,
gives a machine that starts under SST core, with one name per link and one destination per
port.
-/
namespace SST.Parallel.CoreLinks
open SST.Parallel.Links

/-- The machine the configuration builds on a topology of the library.  `ep_port` is 0 in all
of them except the one read from a file: sstmac/hardware/topology/cascade.cc:99,
dragonfly.cc:112, dragonfly_plus.cc:135, fat_tree.cc:438, fully_connected.cc:69,
hypercube.cc:79, star.cc:72, torus.cc:78. -/
def ofNet (N : SST.Topo.Net) (nodes : Nat) (home : Nat → Nat) (logp link inj ej : Nat) : Sys :=
  ⟨⟨1, 1, N.size, fun _ => 0, fun _ => 0, fun s => (N.inj s).map fun x => ⟨x.1, x.2, 0⟩,
    fun s => (N.conns s).map fun c => ⟨c.outport, c.dst, c.inport⟩, false, logp, link, inj, ej⟩, nodes, home⟩

/-- What a user relies on: the machine starts; links have different names; a port has one
destination; between switches packets follow the connections of the topology with the
latency of links, and credits come back the same way; every node reaches its switch. -/
structure Runs (N : SST.Topo.Net) (m : Sys) : Prop where
  starts : started m = true
  names : ((build m).map (·.name)).Nodup
  one : ∀ x y y' lat lat', Carries m x y lat → Carries m x y' lat' → y = y' ∧ lat = lat'
  payload : ∀ s p t q lat, Carries m ⟨.switch s, .out, p⟩ ⟨.switch t, .inp, q⟩ lat ↔
    s < N.size ∧ N.Link s p t q ∧ lat = m.cfg.linkLat
  credit : ∀ s p t q lat, Carries m ⟨.switch t, .inp, q⟩ ⟨.switch s, .out, p⟩ lat ↔
    s < N.size ∧ N.Link s p t q ∧ lat = m.cfg.linkLat
  inject : ∀ n s p lat, (∃ e, Carries m ⟨.node n, .out, e⟩ ⟨.switch s, .inp, p⟩ lat) ↔
    s < N.size ∧ (n, p) ∈ N.inj s ∧ lat = m.cfg.injLat
  eject : ∀ n s p lat, (∃ e, Carries m ⟨.switch s, .out, p⟩ ⟨.node n, .inp, e⟩ lat) ↔
    s < N.size ∧ (n, p) ∈ N.inj s ∧ lat = m.cfg.injLat

theorem nodup_of_map {α β : Type} {f : α → β} {l : List α} (h : (l.map f).Nodup) : l.Nodup := by
  rw [List.Nodup, List.pairwise_map] at h
  exact h.imp fun hne e => hne (by rw [e])

/-- C156.  Any network whose links agree from both ends and whose nodes have their own ports
runs under SST core. -/
theorem C156_runs (N : SST.Topo.Net) (nodes : Nat) (home : Nat → Nat) (logp link inj ej : Nat)
    (hw : SST.Topo.WellWired N) (hn : SST.Topo.Attached N nodes home) :
    Runs N (ofNet N nodes home logp link inj ej) := by
  have mo : ∀ s k, s < N.size → k ∈ (ofNet N nodes home logp link inj ej).cfg.out s → N.Link s k.srcPort k.dst k.dstPort := by
    intro s k hs hk
    simp only [ofNet, List.mem_map] at hk
    obtain ⟨c, hc, rfl⟩ := hk
    have := hw.src s c hs hc
    obtain ⟨a, b, c', d⟩ := c
    subst this
    exact hc
  have om : ∀ s p t q, N.Link s p t q → (⟨p, t, q⟩ : Links.Conn) ∈ (ofNet N nodes home logp link inj ej).cfg.out s := by
    intro s p t q h
    simp only [ofNet, List.mem_map]
    exact ⟨_, h, rfl⟩
  have mi : ∀ s p, p ∈ (ofNet N nodes home logp link inj ej).cfg.inj s → (p.nid, p.swPort) ∈ N.inj s ∧ p.epPort = 0 := by
    intro s p h
    simp only [ofNet, List.mem_map] at h
    obtain ⟨x, hx, rfl⟩ := h
    exact ⟨hx, rfl⟩
  have im : ∀ s n p, (n, p) ∈ N.inj s → (⟨n, p, 0⟩ : Port) ∈ (ofNet N nodes home logp link inj ej).cfg.inj s := by
    intro s n p h
    simp only [ofNet, List.mem_map]
    exact ⟨_, h, rfl⟩
  have hp : Paired (ofNet N nodes home logp link inj ej) := by
    intro s k hs hk
    have := mo s k hs hk
    exact ⟨hw.range _ _ _ _ hs this, om _ _ _ _ (hw.back _ _ _ _ hs this)⟩
  have ha : Attached (ofNet N nodes home logp link inj ej) :=
    ⟨fun s p hs h => hn.node s _ _ hs (mi s p h).1, fun n h => (hn.all n h).1⟩
  have hports : ∀ s, s < N.size → (((ofNet N nodes home logp link inj ej).cfg.out s).map (·.srcPort) ++
      ((ofNet N nodes home logp link inj ej).cfg.inj s).map (·.swPort)).Nodup := by
    intro s hs
    have := hn.ports s hs
    rw [List.nodup_append] at this ⊢
    simp only [ofNet, List.map_map]
    refine ⟨this.2.1, this.1, ?_⟩
    intro a ha b hb e
    exact this.2.2 b hb a ha e.symm
  have hnid : ∀ s, s < N.size → (((ofNet N nodes home logp link inj ej).cfg.inj s).map (·.nid)).Nodup := by
    intro s hs
    simp only [ofNet, List.map_map]
    exact hn.once s hs
  have hu : OnePort (ofNet N nodes home logp link inj ej) := by
    refine ⟨hports, ?_, ?_⟩
    · intro s p q hs h1 h2 e _
      exact (nodup_append_map (r := []) (g := fun x : Nat => x) (by simpa using hnid s hs)).1 p q h1 h2 e
    · intro s p hs h
      rw [(mi s p h).2]
      decide
  have ho : Once (ofNet N nodes home logp link inj ej) := by
    intro s hs
    have := hports s hs
    rw [List.nodup_append] at this
    exact ⟨nodup_of_map this.1, nodup_of_map this.2.1⟩
  refine ⟨C156_started _ hp ha, C156_names _ ho, fun x y y' l l' h h' => C156_one_destination _ hp ha hu x y y' l l' h h',
    ?_, ?_, ?_, ?_⟩
  · intro s p t q lat
    rw [C156_carries _ hp ha]
    constructor
    · intro h
      cases h with
      | payload _ h2 h3 => exact ⟨h2, mo _ _ h2 h3, rfl⟩
    · rintro ⟨hs, h, rfl⟩
      exact .payload (s := s) (k := ⟨p, t, q⟩) rfl hs (om _ _ _ _ h)
  · intro s p t q lat
    rw [C156_carries _ hp ha]
    constructor
    · intro h
      cases h with
      | credit _ h2 h3 => exact ⟨h2, mo _ _ h2 h3, rfl⟩
    · rintro ⟨hs, h, rfl⟩
      exact .credit (s := s) (k := ⟨p, t, q⟩) rfl hs (om _ _ _ _ h)
  · intro n s p lat
    constructor
    · rintro ⟨e, h⟩
      rw [C156_carries _ hp ha] at h
      cases h with
      | inject _ h2 h3 => exact ⟨h2, (mi _ _ h3).1, rfl⟩
    · rintro ⟨hs, h, rfl⟩
      exact ⟨0, (C156_carries _ hp ha _ _ _).2 (.inject (s := s) (p := ⟨n, p, 0⟩) rfl hs (im _ _ _ h))⟩
  · intro n s p lat
    constructor
    · rintro ⟨e, h⟩
      rw [C156_carries _ hp ha] at h
      cases h with
      | eject _ h2 h3 => exact ⟨h2, (mi _ _ h3).1, rfl⟩
    · rintro ⟨hs, h, rfl⟩
      exact ⟨0, (C156_carries _ hp ha _ _ _).2 (.eject (s := s) (p := ⟨n, p, 0⟩) rfl hs (im _ _ _ h))⟩

section
variable (logp link inj ej : Nat)

/-- C156 for tori with at least two switches in every dimension. -/
theorem C156_torus (dims : List Nat) (h2 : ∀ D ∈ dims, 2 ≤ D) (hsz : SST.Topo.size dims ≤ 4294967296)
    (conc : Nat) (hc : 0 < conc) : Runs (SST.Topo.Torus.net dims conc)
      (ofNet (SST.Topo.Torus.net dims conc) (SST.Topo.size dims * conc) (fun n => n / conc) logp link inj ej) :=
  C156_runs _ _ _ _ _ _ _ (SST.Topo.Torus.C40_torus_links_partial dims h2 hsz conc) (SST.Topo.Torus.C49_torus dims conc hc)

/-- C156 for generalised hypercubes. -/
theorem C156_hypercube (dims : List Nat) (hpos : ∀ D ∈ dims, 0 < D) (hsz : SST.Topo.size dims ≤ 4294967296)
    (conc : Nat) (hc : 0 < conc) : Runs (SST.Topo.Hypercube.net dims conc)
      (ofNet (SST.Topo.Hypercube.net dims conc) (SST.Topo.size dims * conc) (fun n => n / conc) logp link inj ej) :=
  C156_runs _ _ _ _ _ _ _ (SST.Topo.Hypercube.C43_hypercube_links dims hpos hsz conc) (SST.Topo.Hypercube.C49_hypercube dims conc hc)

/-- C156 for fully connected switches. -/
theorem C156_full (n conc : Nat) (hc : 0 < conc) : Runs (SST.Topo.Full.net n conc)
      (ofNet (SST.Topo.Full.net n conc) (n * conc) (fun x => x / conc) logp link inj ej) :=
  C156_runs _ _ _ _ _ _ _ (SST.Topo.Full.C75_full_links n conc) (SST.Topo.Full.C49_full n conc hc)

/-- C156 for fat trees whose aggregation switches have as many ports down as there are
leaves in a subtree. -/
theorem C156_fat_tree (P : SST.Topo.FatTree.Par) (h : SST.Topo.FatTree.Ok P) (h1 : P.D = P.L) :
    Runs (SST.Topo.FatTree.net P) (ofNet (SST.Topo.FatTree.net P) P.maxNodes (fun n => n / P.conc) logp link inj ej) :=
  C156_runs _ _ _ _ _ _ _ (SST.Topo.FatTree.C44_fat_tree_links_partial P h h1) (SST.Topo.FatTree.C49_fat_tree P h)

/-- C156 for dragonflies with an even number of group links and the circulant wiring. -/
theorem C156_dragonfly (P : SST.Topo.Dragonfly.Par) (hh : P.h % 2 = 0) (hc : 0 < P.conc) :
    Runs (SST.Topo.Dragonfly.net P (SST.Topo.Dragonfly.circulant P))
      (ofNet (SST.Topo.Dragonfly.net P (SST.Topo.Dragonfly.circulant P)) (P.a * P.g * P.conc) (fun n => n / P.conc) logp link inj ej) :=
  C156_runs _ _ _ _ _ _ _ (SST.Topo.Dragonfly.C46_dragonfly_circulant P hh) ((SST.Topo.Dragonfly.C49_dragonfly P hc).1 hh)

/-- C156 for dragonflies with the all-to-all wiring. -/
theorem C156_dragonfly_alltoall (P : SST.Topo.Dragonfly.Par) (h : SST.Topo.Dragonfly.AllOk P) (hc : 0 < P.conc) :
    Runs (SST.Topo.Dragonfly.net P (SST.Topo.Dragonfly.allToAll P))
      (ofNet (SST.Topo.Dragonfly.net P (SST.Topo.Dragonfly.allToAll P)) (P.a * P.g * P.conc) (fun n => n / P.conc) logp link inj ej) :=
  C156_runs _ _ _ _ _ _ _ (SST.Topo.Dragonfly.C46_dragonfly_alltoall P h) ((SST.Topo.Dragonfly.C49_dragonfly P hc).2.1 h)

/-- C156 for dragonfly+ networks with the all-to-all wiring. -/
theorem C156_dragonfly_plus (P : SST.Topo.Dragonfly.Par) (h : SST.Topo.Dragonfly.AllOk P) (hc : 0 < P.conc) :
    Runs (SST.Topo.DragonflyPlus.net P (SST.Topo.Dragonfly.allToAll P))
      (ofNet (SST.Topo.DragonflyPlus.net P (SST.Topo.Dragonfly.allToAll P)) (P.a * P.g * P.conc) (fun n => n / P.conc) logp link inj ej) :=
  C156_runs _ _ _ _ _ _ _ (SST.Topo.DragonflyPlus.C98_wired P h hc).1 (SST.Topo.DragonflyPlus.C98_wired P h hc).2

/-- C156 for cascades with an even number of group links that do not go round. -/
theorem C156_cascade (P : SST.Topo.Cascade.Par) (he : SST.Topo.Cascade.gc P % 2 = 0)
    (hr : P.x * P.y * SST.Topo.Cascade.gc P < P.g + 2) (hc : 0 < P.conc) : Runs (SST.Topo.Cascade.net P)
      (ofNet (SST.Topo.Cascade.net P) (P.x * P.y * P.g * P.conc) (fun n => n / P.conc) logp link inj ej) :=
  C156_runs _ _ _ _ _ _ _ (SST.Topo.Cascade.C99_wired_partial P he hr hc).1 (SST.Topo.Cascade.C99_wired_partial P he hr hc).2

end

/-- A torus of 4 x 3 switches with two nodes each. -/
example : started (ofNet (SST.Topo.Torus.net [4, 3] 2) 24 (fun n => n / 2) 1 2 3 4) = true :=
  (C156_torus 1 2 3 4 [4, 3] (by decide) (by decide) 2 (by decide)).starts

example : Runs (SST.Topo.Full.net 5 3) (ofNet (SST.Topo.Full.net 5 3) 15 (fun n => n / 3) 1 2 3 4) :=
  C156_full 1 2 3 4 5 3 (by decide)

/-- C156, refuted part.  A torus with a dimension of one switch (see C40) reports a connection
to a switch that does not exist: its connections do not come in pairs. -/
theorem C156_torus_one_refuted : ¬ ∀ (dims : List Nat) (conc : Nat), (∀ D ∈ dims, 0 < D) → SST.Topo.size dims ≤ 4294967296 →
    0 < conc → Paired (ofNet (SST.Topo.Torus.net dims conc) (SST.Topo.size dims * conc) (fun n => n / conc) 1 2 3 4) := by
  intro h
  have := h [1, 2] 1 (by decide) (by decide) (by decide) 0
  have := this ⟨1, 4294967295, 0⟩
  exact absurd this (by decide)

end SST.Parallel.CoreLinks
