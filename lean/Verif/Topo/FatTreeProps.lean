import Verif.Topo.FatTree
/-
C44, C45; C48 and C49 for the fat tree.
-/
set_option autoImplicit false
namespace SST.Topo.FatTree
open SST.Topo

/-- An accepted configuration with at least one switch of each kind. -/
structure Ok (P : Par) : Prop where
  check : checkInput P = true
  S : 0 < P.S
  L : 0 < P.L
  A : 0 < P.A
  K : 0 < P.K
  conc : 0 < P.conc

/-- The same as equations; `m` is the number of links between a leaf and an aggregation
switch. -/
theorem Ok.facts {P : Par} (h : Ok P) : ∃ m, 0 < m ∧ P.D = P.L * m ∧ P.uL = P.A * m ∧ 0 < P.C ∧ P.S ≤ P.C ∧ 0 < P.uA ∧
    P.K * P.C = P.na * P.uA ∧ P.maxNodes ≤ P.nl * P.conc := by
  have hc := h.check
  simp only [checkInput, Bool.and_eq_true, decide_eq_true_eq, beq_iff_eq] at hc
  obtain ⟨⟨⟨⟨⟨⟨⟨⟨⟨c1, c2⟩, c3⟩, c4⟩, c5⟩, c6⟩, c7⟩, c8⟩, c9⟩, c10⟩ := hc
  have hS := h.S
  have hL := h.L
  have hA := h.A
  obtain ⟨m, hm⟩ := Nat.dvd_of_mod_eq_zero c4
  have hm0 : 0 < m := by
    apply Nat.pos_of_ne_zero
    rintro rfl
    simp at hm
    omega
  have hu : P.uL = P.A * m := by
    rw [hm, Nat.mul_left_comm] at c9
    exact (Nat.eq_of_mul_eq_mul_left hL c9).symm
  refine ⟨m, hm0, hm, hu, by omega, c1, ?_, c8, c10⟩
  apply Nat.pos_of_ne_zero
  intro e
  rw [e, Nat.mul_zero] at c8
  have := Nat.mul_pos h.K (show 0 < P.C by omega)
  omega

/-! ### Arithmetic -/

theorem mul_add_div' {a b c : Nat} (hb : c < b) : (a * b + c) / b = a := by
  rw [Nat.mul_comm, Nat.mul_add_div (by omega), Nat.div_eq_of_lt hb, Nat.add_zero]

theorem mul_add_mod' {a b c : Nat} (hb : c < b) : (a * b + c) % b = c := by
  rw [Nat.mul_comm, Nat.mul_add_mod, Nat.mod_eq_of_lt hb]

theorem mul_add_lt {a b c n : Nat} (ha : a < n) (hc : c < b) : a * b + c < n * b := by
  calc a * b + c < a * b + b := by omega
    _ = (a + 1) * b := by rw [Nat.succ_mul]
    _ ≤ n * b := Nat.mul_le_mul_right _ ha

/-! ### Links -/

theorem link_leaf {P : Par} {s : Nat} (hs : s < P.nl) (p t q : Nat) : (net P).Link s p t q ↔
    p < P.uL ∧ t = P.nl + s / P.L * P.A + (s % P.L + p * P.L) / P.D ∧ q = (s % P.L + p * P.L) % P.D := by
  show _ ∈ conns P s ↔ _
  unfold conns
  rw [if_pos hs, List.mem_map]
  simp only [List.mem_range, leafConn, Conn.mk.injEq, true_and]
  constructor
  · rintro ⟨u, hu, h1, rfl, h3⟩
    exact ⟨hu, h1.symm, h3.symm⟩
  · rintro ⟨hu, h1, h3⟩
    exact ⟨p, hu, h1.symm, rfl, h3.symm⟩

theorem link_agg {P : Par} {o : Nat} (ho : o < P.na) (p t q : Nat) : (net P).Link (P.nl + o) p t q ↔
    (∃ u, u < P.uA ∧ p = P.D + u ∧ t = P.nl + P.na + (u * P.na + o % P.A * P.S + o / P.A) / P.C ∧
      q = (u * P.na + o % P.A * P.S + o / P.A) % P.C) ∨
    (p < P.D ∧ t = o / P.A * P.L + p % P.L ∧ q = o % P.A + p / P.L * P.L) := by
  show _ ∈ conns P (P.nl + o) ↔ _
  unfold conns
  rw [if_neg (by omega), if_pos (by omega), List.mem_append, List.mem_map, List.mem_map]
  simp only [List.mem_range, aggUp, aggDown, Conn.mk.injEq, true_and, Nat.add_sub_cancel_left]
  constructor
  · rintro (⟨u, hu, h1, h2, h3⟩ | ⟨d, hd, h1, rfl, h3⟩)
    · exact Or.inl ⟨u, hu, h2.symm, h1.symm, h3.symm⟩
    · exact Or.inr ⟨hd, h1.symm, h3.symm⟩
  · rintro (⟨u, hu, h2, h1, h3⟩ | ⟨hd, h1, h3⟩)
    · exact Or.inl ⟨u, hu, h1.symm, h2.symm, h3.symm⟩
    · exact Or.inr ⟨p, hd, h1.symm, rfl, h3.symm⟩

theorem link_core {P : Par} {k : Nat} (p t q : Nat) : (net P).Link (P.nl + P.na + k) p t q ↔
    p < P.C ∧ t = P.nl + (k * P.C + p) % P.S * P.A + (k * P.C + p) % P.na / P.S ∧ q = (k * P.C + p) / P.na + P.D := by
  show _ ∈ conns P (P.nl + P.na + k) ↔ _
  unfold conns
  rw [if_neg (by omega), if_neg (by omega), List.mem_map]
  have e : P.nl + P.na + k - P.na - P.nl = k := by omega
  simp only [List.mem_range, coreDown, Conn.mk.injEq, true_and, e]
  constructor
  · rintro ⟨u, hu, h1, rfl, h3⟩
    exact ⟨hu, h1.symm, h3.symm⟩
  · rintro ⟨hu, h1, h3⟩
    exact ⟨p, hu, h1.symm, rfl, h3.symm⟩

/-- Where up port `u` of leaf `l` of a subtree leads. -/
theorem leaf_up {L m l u : Nat} (hl : l < L) (_hm : 0 < m) :
    (l + u * L) / (L * m) = u / m ∧ (l + u * L) % (L * m) = l + u % m * L := by
  have e1 : (l + u * L) / L = u := by rw [Nat.add_comm]; exact mul_add_div' hl
  have e2 : (l + u * L) % L = l := by rw [Nat.add_comm]; exact mul_add_mod' hl
  constructor
  · rw [← Nat.div_div_eq_div_mul, e1]
  · rw [Nat.mod_mul, e1, e2, Nat.mul_comm]

/-- The global numbering of the links between aggregation and core switches. -/
theorem g_split {A S u a t : Nat} (ha : a < A) (ht : t < S) :
    (u * (A * S) + a * S + t) % S = t ∧ (u * (A * S) + a * S + t) % (A * S) / S = a ∧
    (u * (A * S) + a * S + t) / (A * S) = u := by
  have e : u * (A * S) + a * S + t = (u * A + a) * S + t := by
    rw [← Nat.mul_assoc, ← Nat.add_mul]
  have e1 : (u * (A * S) + a * S + t) / S = u * A + a := by rw [e]; exact mul_add_div' ht
  refine ⟨by rw [e]; exact mul_add_mod' ht, ?_, ?_⟩
  · rw [Nat.mul_comm A S, Nat.mod_mul_right_div_self, Nat.mul_comm S A, e1]
    exact mul_add_mod' ha
  · rw [Nat.mul_comm A S, ← Nat.div_div_eq_div_mul, Nat.mul_comm S A, e1]
    exact mul_add_div' ha

theorem g_join {A S g : Nat} : g / (A * S) * (A * S) + g % (A * S) / S * S + g % S = g := by
  have h1 : g % (A * S) / S * S + g % S = g % (A * S) := by
    have := Nat.div_add_mod (g % (A * S)) S
    rw [Nat.mod_mod_of_dvd g (Nat.dvd_mul_left S A)] at this
    rw [Nat.mul_comm (g % (A * S) / S) S]
    exact this
  have h2 := Nat.div_add_mod g (A * S)
  rw [Nat.mul_comm] at h2
  omega

theorem outports_nodup (P : Par) (s : Nat) : ((conns P s).map Conn.outport).Nodup := by
  unfold conns
  split
  · rw [List.map_map]
    exact nodup_map (fun a b h => by simpa [leafConn] using h) List.nodup_range
  · split
    · rw [List.map_append, List.map_map, List.map_map, List.nodup_append]
      refine ⟨nodup_map (fun a b h => by simpa [aggUp] using h) List.nodup_range,
        nodup_map (fun a b h => by simpa [aggDown] using h) List.nodup_range, ?_⟩
      intro a ha b hb
      simp only [List.mem_map, List.mem_range, Function.comp, aggUp, aggDown] at ha hb
      obtain ⟨u, _, rfl⟩ := ha
      obtain ⟨d, hd, rfl⟩ := hb
      omega
    · rw [List.map_map]
      exact nodup_map (fun a b h => by simpa [coreDown] using h) List.nodup_range

theorem conns_src (P : Par) (s : Nat) : ∀ c ∈ conns P s, c.src = s := by
  intro c hc
  unfold conns at hc
  split at hc
  · simp only [List.mem_map] at hc
    obtain ⟨_, _, rfl⟩ := hc; rfl
  · split at hc
    · simp only [List.mem_append, List.mem_map] at hc
      rcases hc with ⟨_, _, rfl⟩ | ⟨_, _, rfl⟩ <;> rfl
    · simp only [List.mem_map] at hc
      obtain ⟨_, _, rfl⟩ := hc; rfl

/-- The leaf, aggregation and core switches. -/
theorem switch_cases {P : Par} {s : Nat} (hs : s < P.size) :
    (∃ t l, s = t * P.L + l ∧ t < P.S ∧ l < P.L ∧ s < P.nl) ∨
    (∃ o t a, s = P.nl + o ∧ o = t * P.A + a ∧ t < P.S ∧ a < P.A ∧ o < P.na) ∨ (∃ k, s = P.nl + P.na + k ∧ k < P.K) := by
  by_cases h0 : s < P.nl
  · left
    have hL : 0 < P.L := by
      apply Nat.pos_of_ne_zero
      intro e
      simp [Par.nl, e] at h0
    refine ⟨s / P.L, s % P.L, ?_, Nat.div_lt_of_lt_mul h0, Nat.mod_lt _ hL, h0⟩
    rw [Nat.mul_comm]; exact (Nat.div_add_mod s P.L).symm
  by_cases h1 : s < P.nl + P.na
  · right; left
    have hlt : s - P.nl < P.na := by omega
    have hA : 0 < P.A := by
      apply Nat.pos_of_ne_zero
      intro e
      simp [Par.na, e] at hlt
    refine ⟨s - P.nl, (s - P.nl) / P.A, (s - P.nl) % P.A, by omega, ?_, Nat.div_lt_of_lt_mul hlt, Nat.mod_lt _ hA, hlt⟩
    rw [Nat.mul_comm]; exact (Nat.div_add_mod _ P.A).symm
  · right; right
    exact ⟨s - (P.nl + P.na), by omega, by unfold Par.size at hs; omega⟩

theorem agg_lt {P : Par} {t a : Nat} (ht : t < P.S) (ha : a < P.A) : t * P.A + a < P.na := by
  have := mul_add_lt ht ha
  unfold Par.na
  rw [Nat.mul_comm P.A]
  exact this

theorem leaf_lt {P : Par} {t l : Nat} (ht : t < P.S) (hl : l < P.L) : t * P.L + l < P.nl := by
  have := mul_add_lt ht hl
  unfold Par.nl
  rw [Nat.mul_comm P.L]
  exact this

/-- Upward links of an aggregation switch and their way back: every accepted configuration. -/
theorem agg_core {P : Par} (h : Ok P) {t a u : Nat} (ht : t < P.S) (ha : a < P.A) (hu : u < P.uA) :
    (u * P.na + a * P.S + t) / P.C < P.K ∧
    (u * P.na + a * P.S + t) / P.C * P.C + (u * P.na + a * P.S + t) % P.C = u * P.na + a * P.S + t ∧
    (u * P.na + a * P.S + t) % P.S = t ∧ (u * P.na + a * P.S + t) % P.na / P.S = a ∧ (u * P.na + a * P.S + t) / P.na = u := by
  obtain ⟨m, _, _, _, hC, _, _, hKC, _⟩ := h.facts
  refine ⟨?_, ?_, g_split ha ht⟩
  · apply Nat.div_lt_of_lt_mul
    rw [Nat.mul_comm P.C, hKC, Nat.mul_comm P.na]
    have : a * P.S + t < P.na := by
      have := mul_add_lt ha ht
      unfold Par.na
      exact this
    have := mul_add_lt hu this
    omega
  · rw [Nat.mul_comm]; exact Nat.div_add_mod _ _

/-- C44, where one link joins each leaf to each aggregation switch of its subtree
(`down_ports_per_agg_switch = leaf_switches_per_subtree`): every link has a link back between
the same ports, no port is used twice, all links stay in the network. -/
theorem C44_fat_tree_links_partial (P : Par) (h : Ok P) (h1 : P.D = P.L) : WellWired (net P) := by
  obtain ⟨m, hm0, hD, huL, hC, hSC, huA, hKC, _⟩ := h.facts
  have hL := h.L
  have hS := h.S
  have hA := h.A
  have hm : m = 1 := by
    rw [h1] at hD
    have : P.L * m = P.L * 1 := by omega
    exact Nat.eq_of_mul_eq_mul_left hL this
  subst hm
  rw [Nat.mul_one] at huL hD
  apply wellWired_of_back
  · intro s c _ hc
    exact conns_src P s c hc
  · intro s _
    exact outports_nodup P s
  intro s p t q hs hl
  rcases switch_cases hs with ⟨tr, l, rfl, htr, hl', hnl⟩ | ⟨o, tr, a, rfl, ho, htr, ha, hlt⟩ | ⟨k, rfl, hk⟩
  · rw [link_leaf hnl, mul_add_div' hl', mul_add_mod' hl'] at hl
    obtain ⟨hp, ht, hq⟩ := hl
    obtain ⟨e1, e2⟩ := leaf_up (u := p) hl' (show 0 < 1 by omega)
    rw [Nat.mul_one, Nat.div_one] at e1
    rw [Nat.mul_one, Nat.mod_one, Nat.zero_mul, Nat.add_zero] at e2
    rw [hD, e1, Nat.add_assoc] at ht
    rw [hD, e2] at hq
    subst ht hq
    have hlt := agg_lt htr (show p < P.A by omega)
    refine ⟨by show _ < P.size; unfold Par.size; omega, ?_⟩
    rw [link_agg hlt]
    right
    rw [mul_add_div' (show p < P.A by omega), mul_add_mod' (show p < P.A by omega), Nat.mod_eq_of_lt hl', Nat.div_eq_of_lt hl']
    exact ⟨by omega, rfl, by omega⟩
  · rw [link_agg hlt] at hl
    subst ho
    rw [mul_add_div' ha, mul_add_mod' ha] at hl
    rcases hl with ⟨u, hu, rfl, rfl, rfl⟩ | ⟨hp, rfl, rfl⟩
    · obtain ⟨g1, g2, g3, g4, g5⟩ := agg_core h htr ha hu
      refine ⟨by show _ < P.size; unfold Par.size; omega, ?_⟩
      rw [link_core, g2, g3, g4, g5]
      exact ⟨Nat.mod_lt _ hC, by omega, by omega⟩
    · have hpl : p < P.L := by omega
      rw [Nat.mod_eq_of_lt hpl, Nat.div_eq_of_lt hpl]
      have hlf := leaf_lt htr hpl
      refine ⟨by show _ < P.size; unfold Par.size; omega, ?_⟩
      rw [link_leaf hlf, mul_add_div' hpl, mul_add_mod' hpl]
      rw [Nat.zero_mul, Nat.add_zero]
      obtain ⟨e1, e2⟩ := leaf_up (u := a) hpl (show 0 < 1 by omega)
      rw [Nat.mul_one, Nat.div_one] at e1
      rw [Nat.mul_one, Nat.mod_one, Nat.zero_mul, Nat.add_zero] at e2
      rw [hD, e1, e2]
      exact ⟨by omega, by omega, rfl⟩
  · rw [link_core] at hl
    obtain ⟨hp, rfl, rfl⟩ := hl
    have hg : k * P.C + p < P.uA * P.na := by
      have := mul_add_lt hk hp
      rw [hKC, Nat.mul_comm P.na] at this
      exact this
    have ht := Nat.mod_lt (k * P.C + p) hS
    have ha : (k * P.C + p) % P.na / P.S < P.A := by
      apply Nat.div_lt_of_lt_mul
      rw [Nat.mul_comm P.S]
      exact Nat.mod_lt _ (Nat.mul_pos hA hS)
    have hu : (k * P.C + p) / P.na < P.uA := by
      apply Nat.div_lt_of_lt_mul
      rw [Nat.mul_comm P.na]
      exact hg
    have hlt := agg_lt ht ha
    rw [Nat.add_assoc]
    refine ⟨by show _ < P.size; unfold Par.size; omega, ?_⟩
    rw [link_agg hlt]
    left
    refine ⟨_, hu, by omega, ?_⟩
    rw [mul_add_div' ha, mul_add_mod' ha]
    have := g_join (A := P.A) (S := P.S) (g := k * P.C + p)
    rw [show P.A * P.S = P.na from rfl] at this
    rw [this, mul_add_div' hp, mul_add_mod' hp]
    exact ⟨rfl, rfl⟩

/-- C44, the upper half, every accepted configuration: the links between aggregation and core
switches agree in both directions. -/
theorem C44_fat_tree_core_links (P : Par) (h : Ok P) (s p t q : Nat) (hs : s < P.size) (hl : (net P).Link s p t q)
    (hc : P.nl + P.na ≤ s ∨ P.nl + P.na ≤ t) : t < P.size ∧ (net P).Link t q s p := by
  obtain ⟨m, hm0, hD, huL, hC, hSC, huA, hKC, _⟩ := h.facts
  have hS := h.S
  have hA := h.A
  rcases switch_cases hs with ⟨tr, l, rfl, htr, hl', hnl⟩ | ⟨o, tr, a, rfl, ho, htr, ha, hlt⟩ | ⟨k, rfl, hk⟩
  · exfalso
    rw [link_leaf hnl, mul_add_div' hl', mul_add_mod' hl'] at hl
    obtain ⟨hp, rfl, _⟩ := hl
    have := leaf_up (u := p) hl' hm0
    rw [hD, this.1] at hc
    have := agg_lt htr (show p / m < P.A from Nat.div_lt_of_lt_mul (by rw [Nat.mul_comm, ← huL]; exact hp))
    omega
  · subst ho
    rw [link_agg hlt] at hl
    rw [mul_add_div' ha, mul_add_mod' ha] at hl
    rcases hl with ⟨u, hu, rfl, rfl, rfl⟩ | ⟨hp, rfl, rfl⟩
    · obtain ⟨g1, g2, g3, g4, g5⟩ := agg_core h htr ha hu
      refine ⟨by show _ < P.size; unfold Par.size; omega, ?_⟩
      rw [link_core, g2, g3, g4, g5]
      exact ⟨Nat.mod_lt _ hC, by omega, by omega⟩
    · have := leaf_lt htr (Nat.mod_lt p h.L)
      omega
  · rw [link_core] at hl
    obtain ⟨hp, rfl, rfl⟩ := hl
    have hg : k * P.C + p < P.uA * P.na := by
      have := mul_add_lt hk hp
      rw [hKC, Nat.mul_comm P.na] at this
      exact this
    have ht := Nat.mod_lt (k * P.C + p) hS
    have ha : (k * P.C + p) % P.na / P.S < P.A := by
      apply Nat.div_lt_of_lt_mul
      rw [Nat.mul_comm P.S]
      exact Nat.mod_lt _ (Nat.mul_pos hA hS)
    have hu : (k * P.C + p) / P.na < P.uA := by
      apply Nat.div_lt_of_lt_mul
      rw [Nat.mul_comm P.na]
      exact hg
    have hlt := agg_lt ht ha
    rw [Nat.add_assoc]
    refine ⟨by show _ < P.size; unfold Par.size; omega, ?_⟩
    rw [link_agg hlt]
    left
    refine ⟨_, hu, by omega, ?_⟩
    rw [mul_add_div' ha, mul_add_mod' ha]
    have := g_join (A := P.A) (S := P.S) (g := k * P.C + p)
    rw [show P.A * P.S = P.na from rfl] at this
    rw [this, mul_add_div' hp, mul_add_mod' hp]
    exact ⟨rfl, rfl⟩

/-- An accepted tree with two links between each leaf and each aggregation switch. -/
def twoLinks : Par := { S := 2, L := 2, A := 2, K := 4, uL := 4, D := 4, uA := 4, C := 4, conc := 4, maxNodes := 16 }

/-- C44 is false in general: with two links between a leaf and an aggregation switch, up port 1
of leaf 0 leads to port 2 of aggregation switch 4, which leads back to port 2 of the leaf. -/
theorem C44_fat_tree_links_refuted : ¬ ∀ P, Ok P → WellWired (net P) := by
  intro h
  have := (h twoLinks ⟨by decide, by decide, by decide, by decide, by decide, by decide⟩).back 0 1 4 2 (by decide)
    (by unfold Net.Link; decide)
  revert this
  unfold Net.Link
  decide

/-- ... and an accepted configuration can abort while it is being wired. -/
theorem C44_fat_tree_abort_refuted : ¬ ∀ P, Ok P → ∀ s, s < P.size → aborts P s = false := by
  intro h
  have := h { S := 1, L := 4, A := 1, K := 1, uL := 2, D := 8, uA := 2, C := 2, conc := 1, maxNodes := 4 }
    ⟨by decide, by decide, by decide, by decide, by decide, by decide⟩ 4 (by decide)
  revert this
  decide

/-- Wiring does not abort if each leaf has one link to each aggregation switch of its subtree,
or a subtree has at least as many aggregation switches as leaves. -/
theorem C44_fat_tree_no_abort (P : Par) (h : Ok P) (hd : P.D = P.L ∨ P.L ≤ P.A) (s : Nat) :
    aborts P s = false := by
  obtain ⟨m, hm0, hD, huL, hC, hSC, huA, hKC, _⟩ := h.facts
  have hL := h.L
  have hA := h.A
  have hDpos : 0 < P.D := by rw [hD]; exact Nat.mul_pos hL hm0
  unfold aborts
  split
  · simp only [List.any_eq_false, List.mem_range, decide_eq_true_eq]
    intro u _
    have := Nat.mod_lt (s % P.L + u * P.L) hDpos
    show ¬ P.D ≤ (s % P.L + u * P.L) % P.D
    omega
  · split
    · simp only [Bool.or_eq_false_iff, List.any_eq_false, List.mem_range, decide_eq_true_eq]
      refine ⟨?_, ?_⟩
      · intro u _
        have := Nat.mod_lt (u * P.na + (s - P.nl) % P.A * P.S + (s - P.nl) / P.A) hC
        show ¬ P.C ≤ (u * P.na + (s - P.nl) % P.A * P.S + (s - P.nl) / P.A) % P.C
        omega
      · intro d hd'
        have ha := Nat.mod_lt (s - P.nl) hA
        have hdm : d / P.L < m := Nat.div_lt_of_lt_mul (by rw [← hD]; exact hd')
        have key : d / P.L * P.L + (s - P.nl) % P.A < P.A * m := by
          rcases hd with hd | hd
          · have : m = 1 := by
              rw [hd] at hD
              exact (Nat.eq_of_mul_eq_mul_left hL (by omega : P.L * 1 = P.L * m)).symm
            subst this
            have : d / P.L = 0 := Nat.lt_one_iff.1 hdm
            rw [this]
            omega
          · calc d / P.L * P.L + (s - P.nl) % P.A ≤ d / P.L * P.A + (s - P.nl) % P.A :=
                  Nat.add_le_add_right (Nat.mul_le_mul_left _ hd) _
              _ < m * P.A := mul_add_lt hdm ha
              _ = P.A * m := Nat.mul_comm _ _
        show ¬ P.uL ≤ (s - P.nl) % P.A + d / P.L * P.L
        omega
    · simp only [List.any_eq_false, List.mem_range, decide_eq_true_eq]
      intro d _
      show ¬ ((s - P.na - P.nl) * P.C + d) / P.na + P.D < P.D
      exact Nat.not_lt.2 (Nat.le_add_left _ _)

/-- A tree with single links: 3 subtrees of 4 leaves and 2 aggregation switches, 6 core
switches. -/
def demo : Par := { S := 3, L := 4, A := 2, K := 4, uL := 2, D := 4, uA := 2, C := 3, conc := 2, maxNodes := 20 }

theorem demo_ok : Ok demo := ⟨by decide, by decide, by decide, by decide, by decide, by decide⟩

example : demo.D = demo.L ∧ (net demo).Link 5 1 15 1 ∧ (net demo).Link 15 1 5 1 ∧ (net demo).Link 15 5 21 1 ∧
    (net demo).Link 21 1 15 5 := by
  unfold Net.Link; decide

example : Ok twoLinks ∧ twoLinks.L ≤ twoLinks.A :=
  ⟨⟨by decide, by decide, by decide, by decide, by decide, by decide⟩, by decide⟩

/-! ### C49 -/

/-- C49 for the fat tree: nodes are at the leaves only, and there may be fewer than the leaves
could take. -/
theorem C49_fat_tree (P : Par) (h : Ok P) : Attached (net P) P.maxNodes (fun n => n / P.conc) := by
  obtain ⟨m, hm0, hD, huL, hC, hSC, huA, hKC, hmax⟩ := h.facts
  have hc := h.conc
  refine ⟨?_, ?_, ?_, ?_⟩
  · intro s n p _ hm
    have hm : (n, p) ∈ inj P s := hm
    unfold inj at hm
    split at hm
    · simp only [List.mem_filter, List.mem_map, List.mem_range, decide_eq_true_eq] at hm
      obtain ⟨⟨i, hi, e⟩, hlt⟩ := hm
      simp only [Prod.mk.injEq] at e
      obtain ⟨rfl, _⟩ := e
      exact ⟨hlt, mul_add_div' hi⟩
    · simp at hm
  · intro n hn
    have hnl : n / P.conc < P.nl := Nat.div_lt_of_lt_mul (by rw [Nat.mul_comm]; omega)
    refine ⟨by show _ < P.size; unfold Par.size; omega, P.uL + n % P.conc, ?_⟩
    show _ ∈ inj P _
    unfold inj
    rw [if_pos hnl]
    simp only [List.mem_filter, List.mem_map, List.mem_range, decide_eq_true_eq]
    refine ⟨⟨n % P.conc, Nat.mod_lt _ hc, ?_⟩, hn⟩
    rw [Nat.mul_comm, Nat.div_add_mod]
  · intro s _
    show ((inj P s).map Prod.fst).Nodup
    unfold inj
    split
    · refine List.Nodup.sublist (List.Sublist.map _ (List.filter_sublist)) ?_
      rw [List.map_map]
      exact nodup_map (fun a b h => by simpa using h) List.nodup_range
    · simp
  · intro s _
    show ((inj P s).map Prod.snd ++ (conns P s).map Conn.outport).Nodup
    rw [List.nodup_append]
    refine ⟨?_, outports_nodup P s, ?_⟩
    · unfold inj
      split
      · refine List.Nodup.sublist (List.Sublist.map _ (List.filter_sublist)) ?_
        rw [List.map_map]
        exact nodup_map (fun a b h => by simpa using h) List.nodup_range
      · simp
    · intro a ha b hb
      unfold inj at ha
      split at ha
      · rename_i hs
        unfold conns at hb
        rw [if_pos hs] at hb
        simp only [List.map_map, List.mem_map, List.mem_range, Function.comp, leafConn] at hb
        obtain ⟨u, hu, rfl⟩ := hb
        simp only [List.mem_map, List.mem_filter, List.mem_range] at ha
        obtain ⟨x, ⟨⟨i, _, rfl⟩, _⟩, rfl⟩ := ha
        simp only
        omega
      · simp at ha

example : (net demo).inj 9 = [(18, 2), (19, 3)] ∧ (net demo).inj 10 = [] ∧ (net demo).inj 13 = [] := by decide

/-! ### Routing -/

/-- The counters of a router stay within their vectors. -/
structure RotOk (P : Par) (me : Nat) (r : Rot) : Prop where
  up : r.up < (if me < P.nl then P.uL else P.uA)
  down : ∀ path, downRoutes P me path ≠ [] → r.down path < (downRoutes P me path).length

theorem num_pos {P : Par} (h : Ok P) (me : Nat) : 0 < (if me < P.nl then P.uL else P.uA) := by
  obtain ⟨m, hm0, hD, huL, hC, hSC, huA, hKC, hmax⟩ := h.facts
  have hA := h.A
  split
  · rw [huL]; exact Nat.mul_pos hA hm0
  · exact huA

theorem route_ok {P : Par} (h : Ok P) {me node p vc : Nat} {r r' : Rot} (hr : RotOk P me r)
    (e : route P me node r = some (p, vc, r')) : RotOk P me r' := by
  have hup : RotOk P me (getUpPort P me r).2 := ⟨Nat.mod_lt _ (num_pos h me), hr.down⟩
  have hdn : ∀ path x, getDownPort P me path r = some x → RotOk P me x.2 := by
    intro path x hx
    unfold getDownPort at hx
    simp only at hx
    split at hx
    · cases hx
    · cases hx
      refine ⟨hr.up, ?_⟩
      intro i hi
      simp only
      split
      · rename_i e; subst e
        exact Nat.mod_lt _ (List.length_pos_iff.2 hi)
      · exact hr.down i hi
  have hup' : ∀ {x : Nat × Nat × Rot}, some ((getUpPort P me r).1, 0, (getUpPort P me r).2) = some x → RotOk P me x.2.2 := by
    intro x hx; cases hx; exact hup
  have hdn' : ∀ {path : Nat} {x : Nat × Nat × Rot},
      ((getDownPort P me path r).map fun x => (x.1, 0, x.2)) = some x → RotOk P me x.2.2 := by
    intro path x hx
    rw [Option.map_eq_some_iff] at hx
    obtain ⟨y, hy, rfl⟩ := hx
    exact hdn path y hy
  unfold route at e
  simp only at e
  split at e
  · cases e; exact hr
  · split at e
    · exact hdn' e
    · split at e
      · split at e
        · exact hdn' e
        · exact hup' e
      · exact hup' e

theorem reach_ok {P : Par} (h : Ok P) {me : Nat} {r : Rot} (hr : Reach P me r) : RotOk P me r := by
  induction hr with
  | init => exact ⟨Nat.mod_lt _ (num_pos h me), fun path hp => Nat.mod_lt _ (List.length_pos_iff.2 hp)⟩
  | route _ _ e ih => exact route_ok h ih e

/-- `getDownPort` gives one of the ports. -/
theorem down_port {P : Par} {me path : Nat} {r : Rot} (hr : RotOk P me r) (hne : downRoutes P me path ≠ []) :
    ∃ x, getDownPort P me path r = some x ∧ x.1 ∈ downRoutes P me path := by
  have hlt := hr.down path hne
  unfold getDownPort
  simp only
  rw [List.getElem?_eq_getElem hlt]
  exact ⟨_, rfl, List.getElem_mem hlt⟩

/-- The ways a packet can go on from a switch: up from a leaf, up from an aggregation switch of
another subtree, down from a core switch, down from an aggregation switch of the right
subtree. -/
inductive Hop (P : Par) (d s p t : Nat) : Prop
  | leaf (h1 : s < P.nl) (h2 : s ≠ d) (h3 : P.nl ≤ t) (h4 : t < P.nl + P.na) (h5 : (t - P.nl) / P.A = s / P.L)
  | aggUp (h1 : P.nl ≤ s) (h2 : s < P.nl + P.na) (h3 : (s - P.nl) / P.A ≠ d / P.L) (h4 : P.D ≤ p) (h5 : P.nl + P.na ≤ t)
      (h6 : t < P.size)
  | core (h1 : P.nl + P.na ≤ s) (h2 : P.nl ≤ t) (h3 : t < P.nl + P.na) (h4 : (t - P.nl) / P.A = d / P.L)
  | aggDown (h1 : P.nl ≤ s) (h2 : s < P.nl + P.na) (h3 : (s - P.nl) / P.A = d / P.L) (h4 : p < P.D) (h5 : t = d)

theorem down_agg {P : Par} (h : Ok P) {o tr a d p : Nat} (ho : o = tr * P.A + a) (htr : tr < P.S) (ha : a < P.A)
    (_hd : d / P.L = tr) :
    (p ∈ downRoutes P (P.nl + o) (d % P.L) ↔ p < P.D ∧ p % P.L = d % P.L) := by
  subst ho
  have hlt := agg_lt htr ha
  have hL := h.L
  unfold downRoutes
  rw [if_neg (by omega)]
  simp only [List.mem_map, List.mem_filter, decide_eq_true_eq, beq_iff_eq]
  constructor
  · rintro ⟨c, ⟨⟨hc, hcs⟩, hm⟩, rfl⟩
    have hs := conns_src P _ c hc
    obtain ⟨cs, cd, co, ci⟩ := c
    simp only at hs hcs hm
    subst hs
    rcases (link_agg hlt co cd ci).1 hc with ⟨u, hu, rfl, rfl, rfl⟩ | ⟨hp, rfl, rfl⟩
    · generalize (u * P.na + (tr * P.A + a) % P.A * P.S + (tr * P.A + a) / P.A) / P.C = z at hcs
      omega
    · refine ⟨hp, ?_⟩
      rw [← hm, Nat.mul_comm ((tr * P.A + a) / P.A), Nat.mul_add_mod, Nat.mod_mod]
  · rintro ⟨hp, e⟩
    refine ⟨⟨P.nl + (tr * P.A + a), tr * P.L + p % P.L, p, a + p / P.L * P.L⟩, ⟨⟨?_, ?_⟩, ?_⟩, rfl⟩
    · refine (link_agg hlt p _ _).2 (Or.inr ?_)
      rw [mul_add_div' ha, mul_add_mod' ha]
      exact ⟨hp, rfl, rfl⟩
    · have := leaf_lt htr (Nat.mod_lt p hL)
      show tr * P.L + p % P.L < P.nl + (tr * P.A + a)
      omega
    · show (tr * P.L + p % P.L) % P.L = d % P.L
      rw [Nat.mul_comm, Nat.mul_add_mod, Nat.mod_mod]
      exact e

theorem down_core {P : Par} (h : Ok P) {k t p : Nat} :
    p ∈ downRoutes P (P.nl + P.na + k) t ↔ p < P.C ∧ (k * P.C + p) % P.S = t := by
  have hS := h.S
  have hA := h.A
  have hdiv : ∀ g : Nat, (P.nl + g % P.S * P.A + g % P.na / P.S - P.nl) / P.A = g % P.S := by
    intro g
    have ha : g % P.na / P.S < P.A := by
      apply Nat.div_lt_of_lt_mul
      rw [Nat.mul_comm P.S]
      exact Nat.mod_lt _ (Nat.mul_pos hA hS)
    rw [show P.nl + g % P.S * P.A + g % P.na / P.S - P.nl = g % P.S * P.A + g % P.na / P.S from by
      rw [Nat.add_assoc, Nat.add_sub_cancel_left]]
    exact mul_add_div' ha
  unfold downRoutes
  rw [if_pos (by omega)]
  simp only [List.mem_map, List.mem_filter, beq_iff_eq]
  constructor
  · rintro ⟨c, ⟨hc, hm⟩, rfl⟩
    have hs := conns_src P _ c hc
    obtain ⟨cs, cd, co, ci⟩ := c
    simp only at hs hm
    subst hs
    obtain ⟨hp, rfl, rfl⟩ := (link_core co cd ci).1 hc
    rw [hdiv] at hm
    exact ⟨hp, hm⟩
  · rintro ⟨hp, e⟩
    refine ⟨⟨_, _, p, _⟩, ⟨(link_core p _ _).2 ⟨hp, rfl, rfl⟩, ?_⟩, rfl⟩
    simp only
    rw [hdiv]
    exact e

theorem dst_lt {P : Par} (h : Ok P) {node : Nat} (hn : node < P.maxNodes) : node / P.conc < P.nl := by
  obtain ⟨m, hm0, hD, huL, hC, hSC, huA, hKC, hmax⟩ := h.facts
  exact Nat.div_lt_of_lt_mul (by rw [Nat.mul_comm]; omega)

/-- One decision: whatever the counters, there is one, and it ejects the packet at its leaf or
takes a link of the right kind. -/
theorem decide_step {P : Par} (h : Ok P) {s node : Nat} (hs : s < P.size) (hn : node < P.maxNodes) {r : Rot}
    (hr : RotOk P s r) :
    ∃ p r', route P s node r = some (p, 0, r') ∧
      ((node / P.conc = s ∧ p = P.uL + node % P.conc) ∨
        (node / P.conc ≠ s ∧ ∃ t q, (net P).Link s p t q ∧ Hop P (node / P.conc) s p t)) := by
  obtain ⟨m, hm0, hD, huL, hC, hSC, huA, hKC, hmax⟩ := h.facts
  have hd := dst_lt h hn
  have hL := h.L
  have hS := h.S
  have hA := h.A
  have hsd : subtree P (node / P.conc) = node / P.conc / P.L := by unfold subtree; rw [if_pos hd]
  have htd : node / P.conc / P.L < P.S := Nat.div_lt_of_lt_mul hd
  unfold route
  simp only
  by_cases e : node / P.conc = s
  · rw [if_pos e]
    exact ⟨_, _, rfl, Or.inl ⟨e, Nat.add_comm _ _⟩⟩
  rw [if_neg e, hsd]
  rcases switch_cases hs with ⟨tr, l, e', htr, hl', hnl⟩ | ⟨o, tr, a, e', ho, htr, ha, hlt⟩ | ⟨k, e', hk⟩
  · rw [if_neg (by omega), if_neg (by omega)]
    refine ⟨_, _, rfl, Or.inr ⟨e, ?_⟩⟩
    have hu := hr.up
    rw [if_pos hnl] at hu
    have hpa : r.up / m < P.A := Nat.div_lt_of_lt_mul (by rw [Nat.mul_comm, ← huL]; exact hu)
    have hle := leaf_up (u := r.up) hl' hm0
    refine ⟨P.nl + (tr * P.A + r.up / m), l + r.up % m * P.L, ?_, ?_⟩
    · rw [link_leaf hnl]
      unfold getUpPort
      simp only [if_pos hnl, Nat.zero_add]
      rw [e', mul_add_div' hl', mul_add_mod' hl', hD, hle.1, hle.2]
      exact ⟨hu, by omega, rfl⟩
    · refine Hop.leaf hnl (fun h => e h.symm) (Nat.le_add_right _ _) ?_ ?_
      · have := agg_lt htr hpa
        omega
      · rw [Nat.add_sub_cancel_left, mul_add_div' hpa, e', mul_add_div' hl']
  · rw [if_neg (by omega), if_pos (by omega)]
    have hss : subtree P s = tr := by
      unfold subtree
      rw [if_neg (by omega), e', Nat.add_sub_cancel_left, ho]
      exact mul_add_div' ha
    have hst : (s - P.nl) / P.A = tr := by rw [e', Nat.add_sub_cancel_left, ho]; exact mul_add_div' ha
    rw [hss]
    by_cases et : node / P.conc / P.L = tr
    · rw [if_pos et]
      have hmem := fun p => down_agg (p := p) h ho htr ha et
      have hne : downRoutes P s (node / P.conc % P.L) ≠ [] := by
        intro hnil
        have := (hmem (node / P.conc % P.L)).2 ⟨?_, Nat.mod_mod _ _⟩
        · rw [e'] at hnil
          rw [hnil] at this
          simp at this
        · have := Nat.mod_lt (node / P.conc) hL
          have : P.L * 1 ≤ P.L * m := Nat.mul_le_mul_left _ hm0
          omega
      obtain ⟨x, hx, hxm⟩ := down_port hr hne
      rw [hx]
      refine ⟨_, _, rfl, Or.inr ⟨e, node / P.conc, a + x.1 / P.L * P.L, ?_, ?_⟩⟩
      · rw [e'] at hxm ⊢
        obtain ⟨hp, hpm⟩ := (hmem x.1).1 hxm
        rw [link_agg hlt]
        right
        rw [ho, mul_add_div' ha, mul_add_mod' ha]
        refine ⟨hp, ?_, rfl⟩
        rw [hpm, ← et, Nat.mul_comm]
        exact (Nat.div_add_mod _ _).symm
      · rw [e'] at hxm
        obtain ⟨hp, hpm⟩ := (hmem x.1).1 hxm
        exact Hop.aggDown (by omega) (by omega) (by rw [hst, et]) hp rfl
    · rw [if_neg et]
      refine ⟨_, _, rfl, Or.inr ⟨e, ?_⟩⟩
      have hu := hr.up
      rw [if_neg (by omega)] at hu
      obtain ⟨g1, g2, g3, g4, g5⟩ := agg_core h htr ha hu
      refine ⟨P.nl + P.na + (r.up * P.na + a * P.S + tr) / P.C, (r.up * P.na + a * P.S + tr) % P.C, ?_, ?_⟩
      · unfold getUpPort
        simp only [if_neg (show ¬ s < P.nl by omega)]
        rw [e', link_agg hlt]
        left
        rw [ho, mul_add_div' ha, mul_add_mod' ha]
        exact ⟨_, hu, rfl, rfl, rfl⟩
      · refine Hop.aggUp (by omega) (by omega) (by rw [hst]; exact fun h => et h.symm) ?_ (Nat.le_add_right _ _)
          (by unfold Par.size; omega)
        unfold getUpPort
        simp only [if_neg (show ¬ s < P.nl by omega)]
        omega
  · rw [if_pos (by omega)]
    have hCS : P.C % P.S = 0 := by
      have hc := h.check
      simp only [checkInput, Bool.and_eq_true, decide_eq_true_eq, beq_iff_eq] at hc
      exact hc.1.1.1.1.1.1.1.2
    have hne : downRoutes P s (node / P.conc / P.L) ≠ [] := by
      intro hnil
      have := (down_core (k := k) (t := node / P.conc / P.L) (p := node / P.conc / P.L) h).2 ⟨by omega, ?_⟩
      · rw [e'] at hnil
        rw [hnil] at this
        simp at this
      · rw [Nat.add_mod, Nat.mul_mod, hCS, Nat.mul_zero, Nat.zero_mod, Nat.zero_add, Nat.mod_mod]
        exact Nat.mod_eq_of_lt htd
    obtain ⟨x, hx, hxm⟩ := down_port hr hne
    rw [hx]
    rw [e'] at hxm
    obtain ⟨hp, hpm⟩ := (down_core h).1 hxm
    have hag : (k * P.C + x.1) % P.na / P.S < P.A := by
      apply Nat.div_lt_of_lt_mul
      rw [Nat.mul_comm P.S]
      exact Nat.mod_lt _ (Nat.mul_pos hA hS)
    have hlt := agg_lt (Nat.mod_lt (k * P.C + x.1) hS) hag
    refine ⟨_, _, rfl, Or.inr ⟨e, P.nl + ((k * P.C + x.1) % P.S * P.A + (k * P.C + x.1) % P.na / P.S), (k * P.C + x.1) / P.na + P.D, ?_,
      Hop.core (by omega) (Nat.le_add_right _ _) (by omega) ?_⟩⟩
    · rw [e', link_core]
      exact ⟨hp, by omega, rfl⟩
    · rw [Nat.add_sub_cancel_left, mul_add_div' hag, hpm]

/-- C45: a router never runs out of ports: whatever packets it routed before, it has a decision
for the next one. -/
theorem C45_fat_tree_always_decides (P : Par) (h : Ok P) (s node : Nat) (hs : s < P.size) (hn : node < P.maxNodes)
    (r : Rot) (hr : Reach P s r) : (route P s node r).isSome := by
  obtain ⟨p, r', e, _⟩ := decide_step h hs hn (reach_ok h hr)
  rw [e]; rfl

theorem decides {P : Par} (h : Ok P) {s node : Nat} (hs : s < P.size) (hn : node < P.maxNodes) :
    ∃ p vc h', router P s node () p vc h' := by
  obtain ⟨p, r', e, _⟩ := decide_step h hs hn (reach_ok h (Reach.init (me := s)))
  exact ⟨p, 0, (), rot0 P s, r', Reach.init, e⟩

theorem decision {P : Par} (h : Ok P) {s node p vc : Nat} {x : Unit} (hs : s < P.size) (hn : node < P.maxNodes)
    (hr : router P s node () p vc x) : vc = 0 ∧
      ((node / P.conc = s ∧ p = P.uL + node % P.conc) ∨
        (node / P.conc ≠ s ∧ ∃ t q, (net P).Link s p t q ∧ Hop P (node / P.conc) s p t)) := by
  obtain ⟨r, r', hr, e⟩ := hr
  obtain ⟨p1, r1, e1, hc⟩ := decide_step h hs hn (reach_ok h hr)
  rw [e] at e1
  cases e1
  exact ⟨rfl, hc⟩

/-- Links between the same pair of (switch, port) lead to one place. -/
theorem link_fun {P : Par} {s p t q t' q' : Nat} (h : (net P).Link s p t q) (h' : (net P).Link s p t' q') : t = t' ∧ q = q' := by
  have := conn_unique (outports_nodup P s) h h' rfl
  simp only [Conn.mk.injEq] at this
  exact ⟨this.2.1, this.2.2.2⟩

theorem deliver0 {P : Par} (h : Ok P) {node : Nat} (hn : node < P.maxNodes) :
    Delivers (net P) (router P) 1 node 0 (node / P.conc) () := by
  have hd := dst_lt h hn
  have hsz : node / P.conc < P.size := by unfold Par.size; omega
  refine ⟨decides h hsz hn, ?_⟩
  intro p vc x hr
  obtain ⟨hv, hc⟩ := decision h hsz hn hr
  refine ⟨by omega, ?_⟩
  rcases hc with ⟨_, rfl⟩ | ⟨hne, _⟩
  · show _ ∈ inj P _
    unfold inj
    rw [if_pos hd]
    simp only [List.mem_filter, List.mem_map, List.mem_range, decide_eq_true_eq]
    refine ⟨⟨node % P.conc, Nat.mod_lt _ h.conc, ?_⟩, hn⟩
    rw [Nat.mul_comm, Nat.div_add_mod]
  · exact absurd rfl hne

theorem deliver_succ {P : Par} (h : Ok P) {node s n : Nat} (hn : node < P.maxNodes) (hs : s < P.size)
    (hne : node / P.conc ≠ s) (hnext : ∀ p t, Hop P (node / P.conc) s p t → Delivers (net P) (router P) 1 node n t ()) :
    Delivers (net P) (router P) 1 node (n + 1) s () := by
  refine ⟨decides h hs hn, ?_⟩
  intro p vc x hr
  obtain ⟨hv, hc⟩ := decision h hs hn hr
  refine ⟨by omega, ?_⟩
  rcases hc with ⟨e, _⟩ | ⟨_, t, q, hl, hop⟩
  · exact absurd e hne
  · exact ⟨t, q, hl, hnext p t hop⟩

theorem deliver1 {P : Par} (h : Ok P) {node s : Nat} (hn : node < P.maxNodes) (h1 : P.nl ≤ s) (h2 : s < P.nl + P.na)
    (h3 : (s - P.nl) / P.A = node / P.conc / P.L) : Delivers (net P) (router P) 1 node 1 s () := by
  have hd := dst_lt h hn
  refine deliver_succ h hn (by unfold Par.size; omega) (by omega) ?_
  intro p t hop
  cases hop with
  | leaf => omega
  | aggUp => exact absurd h3 (by assumption)
  | core => omega
  | aggDown _ _ _ _ h5 => rw [h5]; exact deliver0 h hn

theorem deliver2 {P : Par} (h : Ok P) {node s : Nat} (hn : node < P.maxNodes) (h1 : P.nl + P.na ≤ s) (h2 : s < P.size) :
    Delivers (net P) (router P) 1 node 2 s () := by
  have hd := dst_lt h hn
  refine deliver_succ h hn h2 (by omega) ?_
  intro p t hop
  cases hop with
  | leaf => omega
  | aggUp => omega
  | core _ h2 h3 h4 => exact deliver1 h hn h2 h3 h4
  | aggDown => omega

theorem deliver3 {P : Par} (h : Ok P) {node s : Nat} (hn : node < P.maxNodes) (h1 : P.nl ≤ s) (h2 : s < P.nl + P.na)
    (h3 : (s - P.nl) / P.A ≠ node / P.conc / P.L) : Delivers (net P) (router P) 1 node 3 s () := by
  have hd := dst_lt h hn
  refine deliver_succ h hn (by unfold Par.size; omega) (by omega) ?_
  intro p t hop
  cases hop with
  | leaf => omega
  | aggUp _ _ _ _ h5 h6 => exact deliver2 h hn h5 h6
  | core => omega
  | aggDown => exact absurd (by assumption) h3

/-- C45: from every leaf switch every packet reaches its node in 0 links if the node is at that
leaf, 2 if it is in the same subtree, 4 otherwise, whatever packets the routers routed
before, on virtual channel 0. -/
theorem C45_fat_tree_delivers (P : Par) (h : Ok P) (s node : Nat) (hs : s < P.nl) (hn : node < P.maxNodes) :
    Delivers (net P) (router P) 1 node
      (if s = node / P.conc then 0 else if s / P.L = node / P.conc / P.L then 2 else 4) s () := by
  have hsz : s < P.size := by unfold Par.size; omega
  split
  · rename_i e; rw [e]; exact deliver0 h hn
  · rename_i e
    split
    · rename_i et
      refine deliver_succ h hn hsz (fun h => e h.symm) ?_
      intro p t hop
      cases hop with
      | leaf _ _ h3 h4 h5 => exact deliver1 h hn h3 h4 (by rw [h5, et])
      | aggUp => omega
      | core => omega
      | aggDown => omega
    · rename_i et
      refine deliver_succ h hn hsz (fun h => e h.symm) ?_
      intro p t hop
      cases hop with
      | leaf _ _ h3 h4 h5 => exact deliver3 h hn h3 h4 (by rw [h5]; exact et)
      | aggUp => omega
      | core => omega
      | aggDown => omega

/-- Each link joins neighbouring levels. -/
theorem link_level {P : Par} (h : Ok P) {s p t q : Nat} (hs : s < P.size) (hl : (net P).Link s p t q) :
    (s < P.nl → p < P.uL ∧ P.nl ≤ t ∧ t < P.nl + P.na) ∧ t < P.size := by
  obtain ⟨m, hm0, hD, huL, hC, hSC, huA, hKC, hmax⟩ := h.facts
  rcases switch_cases hs with ⟨tr, l, rfl, htr, hl', hnl⟩ | ⟨o, tr, a, rfl, ho, htr, ha, hlt⟩ | ⟨k, rfl, hk⟩
  · rw [link_leaf hnl, mul_add_div' hl', mul_add_mod' hl'] at hl
    obtain ⟨hp, ht, hq⟩ := hl
    obtain ⟨e1, e2⟩ := leaf_up (u := p) hl' hm0
    rw [hD, e1] at ht
    have := agg_lt htr (show p / m < P.A from Nat.div_lt_of_lt_mul (by rw [Nat.mul_comm, ← huL]; exact hp))
    generalize p / m = z at *
    exact ⟨fun _ => ⟨hp, by omega, by omega⟩, by unfold Par.size; omega⟩
  · refine ⟨fun _ => by omega, ?_⟩
    subst ho
    rw [link_agg hlt, mul_add_div' ha, mul_add_mod' ha] at hl
    rcases hl with ⟨u, hu, rfl, rfl, rfl⟩ | ⟨hp, rfl, rfl⟩
    · have := (agg_core h htr ha hu).1
      unfold Par.size; omega
    · have := leaf_lt htr (Nat.mod_lt p h.L)
      unfold Par.size; omega
  · refine ⟨fun _ => by omega, ?_⟩
    exact (C44_fat_tree_core_links P h _ p t q hs hl (Or.inl (by omega))).1

/-- Where a packet goes when it takes a link. -/
theorem hop_of {P : Par} (h : Ok P) {s node p vc t q : Nat} {x : Unit} (hs : s < P.size) (hn : node < P.maxNodes)
    (hr : router P s node () p vc x) (hl : (net P).Link s p t q) : Hop P (node / P.conc) s p t := by
  have hd := dst_lt h hn
  rcases (decision h hs hn hr).2 with ⟨e, rfl⟩ | ⟨_, t', q', hl', hop⟩
  · have := ((link_level h hs hl).1 (by omega)).1
    omega
  · obtain ⟨rfl, rfl⟩ := link_fun hl hl'
    exact hop

theorem flight_lt {P : Par} (h : Ok P) {node s : Nat} {x : Unit} (hf : InFlight (net P) (router P) () node s x) : s < P.size := by
  induction hf with
  | inject hs _ => exact hs
  | hop _ _ hl ih => exact (link_level h ih hl).2

/-- C45: no set of packets can wait for each other in a circle: packets only go up, then only
down. -/
theorem C45_fat_tree_deadlock_free (P : Par) (h : Ok P) : DeadlockFree (net P) (router P) () P.maxNodes := by
  unfold DeadlockFree
  apply acyclic_of_rank (fun c => (if c.1 < P.nl then 0 else if P.nl + P.na ≤ c.1 then 2 else
    if P.D ≤ c.2.1 then 1 else 3, 0))
  rintro _ _ ⟨node, s, x, p, vc, x', t, q, p', vc', x'', u, q', hn, hf, hr, hl, hr', hl', rfl, rfl⟩
  left
  have hs := flight_lt h hf
  have ht := (link_level h hs hl).2
  have hd := dst_lt h hn
  have hop := hop_of h hs hn hr hl
  have hop' := hop_of h ht hn hr' hl'
  simp only
  cases hop with
  | leaf h1 h2 h3 h4 h5 =>
    rw [if_pos h1, if_neg (by omega), if_neg (by omega)]
    split <;> omega
  | aggUp h1 h2 h3 h4 h5 h6 =>
    rw [if_neg (by omega), if_neg (by omega), if_pos h4, if_neg (by omega), if_pos h5]
    omega
  | core h1 h2 h3 h4 =>
    rw [if_neg (by omega), if_pos h1, if_neg (by omega), if_neg (by omega)]
    cases hop' with
    | leaf => omega
    | aggUp => exact absurd h4 (by assumption)
    | core => omega
    | aggDown _ _ _ h4' => rw [if_neg (by omega)]; omega
  | aggDown h1 h2 h3 h4 h5 =>
    cases hop' with
    | leaf => omega
    | aggUp => omega
    | core => omega
    | aggDown => omega

example : Ok twoLinks ∧ 3 < twoLinks.nl ∧ 0 < twoLinks.maxNodes ∧ (3 ≠ 0 / twoLinks.conc ∧ 3 / twoLinks.L ≠ 0 / twoLinks.conc / twoLinks.L) :=
  ⟨⟨by decide, by decide, by decide, by decide, by decide, by decide⟩, by decide, by decide, by decide⟩

/-! ### Distances -/

theorem walk_lt {P : Par} (h : Ok P) {s t n : Nat} (hs : s < P.size) (w : Walk (net P) s t n) : t < P.size := by
  induction w with
  | nil => exact hs
  | cons hl _ ih => exact ih (link_level h hs hl).2

/-- The kinds of links there are. -/
theorem link_kinds {P : Par} (h : Ok P) {s p t q : Nat} (hs : s < P.size) (hl : (net P).Link s p t q) :
    (s < P.nl ∧ P.nl ≤ t ∧ t < P.nl + P.na ∧ (t - P.nl) / P.A = s / P.L) ∨
    (P.nl ≤ s ∧ s < P.nl + P.na ∧ P.nl + P.na ≤ t) ∨
    (P.nl ≤ s ∧ s < P.nl + P.na ∧ t < P.nl ∧ (s - P.nl) / P.A = t / P.L) ∨
    (P.nl + P.na ≤ s ∧ P.nl ≤ t ∧ t < P.nl + P.na) := by
  obtain ⟨m, hm0, hD, huL, hC, hSC, huA, hKC, hmax⟩ := h.facts
  have hS := h.S
  have hA := h.A
  rcases switch_cases hs with ⟨tr, l, rfl, htr, hl', hnl⟩ | ⟨o, tr, a, rfl, ho, htr, ha, hlt⟩ | ⟨k, rfl, hk⟩
  · left
    rw [link_leaf hnl, mul_add_div' hl', mul_add_mod' hl'] at hl
    obtain ⟨hp, ht, hq⟩ := hl
    obtain ⟨e1, e2⟩ := leaf_up (u := p) hl' hm0
    rw [hD, e1] at ht
    have hpa : p / m < P.A := Nat.div_lt_of_lt_mul (by rw [Nat.mul_comm, ← huL]; exact hp)
    have := agg_lt htr hpa
    refine ⟨hnl, by rw [ht, Nat.add_assoc]; exact Nat.le_add_right _ _, by omega, ?_⟩
    rw [mul_add_div' hl', ht, Nat.add_assoc, Nat.add_sub_cancel_left, mul_add_div' hpa]
  · subst ho
    rw [link_agg hlt, mul_add_div' ha, mul_add_mod' ha] at hl
    rcases hl with ⟨u, hu, rfl, rfl, rfl⟩ | ⟨hp, rfl, rfl⟩
    · right; left
      exact ⟨by omega, by omega, Nat.le_add_right _ _⟩
    · right; right; left
      have hlm := Nat.mod_lt p h.L
      have := leaf_lt htr hlm
      refine ⟨by omega, by omega, by omega, ?_⟩
      rw [Nat.add_sub_cancel_left, mul_add_div' ha, mul_add_div' hlm]
  · right; right; right
    rw [link_core] at hl
    obtain ⟨hp, rfl, rfl⟩ := hl
    have hag : (k * P.C + p) % P.na / P.S < P.A := by
      apply Nat.div_lt_of_lt_mul
      rw [Nat.mul_comm P.S]
      exact Nat.mod_lt _ (Nat.mul_pos hA hS)
    have hlt := agg_lt (Nat.mod_lt (k * P.C + p) hS) hag
    generalize (k * P.C + p) % P.na / P.S = z at *
    omega

/-- The true distance between two leaf switches. -/
theorem C48_fat_tree_true_distance (P : Par) (h : Ok P) (s t : Nat) (hs : s < P.nl) (ht : t < P.nl) :
    IsDist (net P) s t (if s = t then 0 else if s / P.L = t / P.L then 2 else 4) := by
  constructor
  · -- the router's path, in the same network with all places for nodes taken
    have hfull : Ok { P with maxNodes := P.nl * P.conc } := by
      refine ⟨?_, h.S, h.L, h.A, h.K, h.conc⟩
      have hc := h.check
      simp only [checkInput, Bool.and_eq_true, decide_eq_true_eq, beq_iff_eq] at hc ⊢
      exact ⟨hc.1, Nat.le_refl _⟩
    have hn : t * P.conc < P.nl * P.conc := Nat.mul_lt_mul_of_pos_right ht h.conc
    have hd : t * P.conc / P.conc = t := Nat.mul_div_cancel _ h.conc
    have := C45_fat_tree_delivers { P with maxNodes := P.nl * P.conc } hfull s (t * P.conc) hs hn
    simp only [hd] at this
    obtain ⟨t', w, hi⟩ := walk_of_delivers this
    have : t' = t := by
      have hsz : t' < P.size := walk_lt hfull (by show s < P.size; unfold Par.size; omega) w
      obtain ⟨p, hi⟩ := hi
      have := (C49_fat_tree _ hfull).node t' _ p hsz hi
      rw [← this.2]
      exact hd
    subst this
    have walk_eq : ∀ {a b n : Nat}, Walk (net { P with maxNodes := P.nl * P.conc }) a b n → Walk (net P) a b n := by
      intro a b n w
      induction w with
      | nil => exact Walk.nil _
      | cons hl _ ih => exact Walk.cons hl ih
    exact walk_eq w
  · intro m w
    have hsz : s < P.size := by unfold Par.size; omega
    match m, w with
    | 0, w => cases w; simp
    | 1, w =>
      cases w with
      | cons hl w =>
        cases w
        have := link_kinds h hsz hl
        omega
    | 2, w =>
      cases w with
      | cons hl w =>
        cases w with
        | cons hl' w =>
          cases w
          have h1 := link_kinds h hsz hl
          have h2 := link_kinds h (link_level h hsz hl).2 hl'
          have : s / P.L = t / P.L := by omega
          rw [if_pos this]
          split <;> omega
    | 3, w =>
      cases w with
      | cons hl w =>
        cases w with
        | cons hl' w =>
          cases w with
          | cons hl'' w =>
            cases w
            have h1 := link_kinds h hsz hl
            have hsz1 := (link_level h hsz hl).2
            have h2 := link_kinds h hsz1 hl'
            have h3 := link_kinds h (link_level h hsz1 hl').2 hl''
            omega
    | m + 4, _ => 
      split
      · omega
      · split <;> omega

/-- C48 is false for the fat tree: the reported distance takes the subtree of a leaf switch for
that of an aggregation switch.  Leaves 0 and 3 of the same subtree are reported as 4 links
apart, but are 2 apart. -/
theorem C48_fat_tree_distance_refuted :
    ¬ ∀ P, Ok P → ∀ s t, s < P.nl → t < P.nl → IsDist (net P) s t (minimalDistance P s t) := by
  intro h
  have h1 := h demo demo_ok 0 3 (by decide) (by decide)
  have h2 := C48_fat_tree_true_distance demo demo_ok 0 3 (by decide) (by decide)
  have := h1.2 _ h2.1
  revert this
  decide

/-- ... and it can be too short. -/
theorem C48_fat_tree_distance_low_refuted :
    ¬ ∀ P, Ok P → ∀ s t n, s < P.nl → t < P.nl → IsDist (net P) s t n → n ≤ minimalDistance P s t := by
  intro h
  have hok : Ok { S := 2, L := 1, A := 2, K := 2, uL := 2, D := 1, uA := 1, C := 2, conc := 1, maxNodes := 2 } :=
    ⟨by decide, by decide, by decide, by decide, by decide, by decide⟩
  have := h _ hok 0 1 _ (by decide) (by decide) (C48_fat_tree_true_distance _ hok 0 1 (by decide) (by decide))
  revert this
  decide

/-- C48, where a subtree has as many leaves as aggregation switches, their number divides 2^32
and the network is smaller than 2^32: the reported distance is the true one. -/
theorem C48_fat_tree_distance_partial (P : Par) (h : Ok P) (hAL : P.A = P.L) (hdvd : P.L ∣ 4294967296) (hsmall : P.nl < 4294967296)
    (s t : Nat) (hs : s < P.nl) (ht : t < P.nl) : IsDist (net P) s t (minimalDistance P s t) := by
  have hL := h.L
  have key : ∀ x, x < P.nl → aggSubtree P x = (4294967296 - P.nl) / P.L + x / P.L := by
    intro x hx
    obtain ⟨c, hc⟩ := hdvd
    have hSc : P.S < c := by
      have : P.L * P.S < P.L * c := by rw [← hc]; exact hsmall
      exact Nat.lt_of_mul_lt_mul_left this
    have e1 : toU32 ((x : Int) - (P.nl : Int)) = 4294967296 - P.nl + x := by
      unfold toU32
      omega
    have e2 : 4294967296 - P.nl = P.L * (c - P.S) := by
      rw [hc, Nat.mul_sub]; rfl
    unfold aggSubtree
    rw [e1, hAL, e2, Nat.mul_add_div hL, Nat.mul_div_cancel_left _ hL]
  have := C48_fat_tree_true_distance P h s t hs ht
  unfold minimalDistance
  rw [key s hs, key t ht]
  have e : ((4294967296 - P.nl) / P.L + s / P.L = (4294967296 - P.nl) / P.L + t / P.L) ↔ s / P.L = t / P.L := by omega
  simp only [e]
  exact this

example : Ok twoLinks ∧ twoLinks.A = twoLinks.L ∧ twoLinks.L ∣ 4294967296 ∧ twoLinks.nl < 4294967296 :=
  ⟨⟨by decide, by decide, by decide, by decide, by decide, by decide⟩, by decide, ⟨2147483648, by decide⟩, by decide⟩

end SST.Topo.FatTree
