import Verif.Topo.DragonflyPlus
import Verif.Topo.DragonflyProps
/-!
C98: dragonfly+ networks are wired consistently, and the minimal and adaptive routers deliver
every packet within their channels.
-/
set_option autoImplicit false
namespace SST.Topo.DragonflyPlus
open SST.Topo SST.Topo.Dragonfly

/-- A leaf switch. -/
def leaf (P : Par) (A G : Nat) : Nat := A + G * P.a
/-- A spine switch. -/
def spine (P : Par) (A G : Nat) : Nat := A + G * P.a + P.a * P.g

section
variable {P : Par} {A G : Nat} (hA : A < P.a) (hG : G < P.g)
include hA hG

theorem leafs_pos : 0 < leafs P := Nat.mul_pos (by omega) (by omega)

theorem leaf_lt : leaf P A G < leafs P := uid_lt hA hG

theorem leaf_row : row P (leaf P A G) = 0 := Nat.div_eq_of_lt (leaf_lt hA hG)
theorem leaf_colA : colA P (leaf P A G) = A := uid_mod hA
theorem leaf_grp : grp P (leaf P A G) = G := by
  unfold grp
  rw [Nat.mod_eq_of_lt (leaf_lt hA hG)]
  exact uid_div hA

theorem spine_row : row P (spine P A G) = 1 := by
  unfold row spine
  show (leaf P A G + leafs P) / leafs P = 1
  rw [Nat.add_div_right _ (leafs_pos hA hG), Nat.div_eq_of_lt (leaf_lt hA hG)]
theorem spine_row_ne : ¬ row P (spine P A G) = 0 := by
  rw [spine_row hA hG]; omega
theorem spine_colA : colA P (spine P A G) = A := by
  unfold colA spine
  rw [Nat.add_mul_mod_self_left]
  exact uid_mod hA
theorem spine_grp : grp P (spine P A G) = G := by
  unfold grp spine
  show (leaf P A G + leafs P) % leafs P / P.a = G
  rw [Nat.add_mod_right, Nat.mod_eq_of_lt (leaf_lt hA hG)]
  exact uid_div hA

theorem leaf_size : leaf P A G < 2 * P.a * P.g := by
  have := leaf_lt hA hG
  rw [Nat.mul_assoc]
  show _ < 2 * leafs P
  omega
theorem spine_size : spine P A G < 2 * P.a * P.g := by
  have := leaf_lt hA hG
  rw [Nat.mul_assoc]
  show leaf P A G + leafs P < 2 * leafs P
  omega

theorem link_leaf (W : Wiring) (p t q : Nat) :
    (net P W).Link (leaf P A G) p t q ↔ p < P.a ∧ t = spine P p G ∧ q = A := by
  show _ ∈ conns P W _ ↔ _
  unfold conns
  rw [if_pos (leaf_row hA hG), List.mem_map, leaf_grp hA hG, leaf_colA hA hG]
  constructor
  · rintro ⟨x, hx, e⟩
    simp only [Conn.mk.injEq, true_and] at e
    obtain ⟨rfl, rfl, rfl⟩ := e
    refine ⟨List.mem_range.mp hx, ?_, rfl⟩
    unfold uid spine leafs
    omega
  · rintro ⟨hp, rfl, rfl⟩
    refine ⟨p, List.mem_range.mpr hp, ?_⟩
    simp only [Conn.mk.injEq, true_and, and_true]
    unfold uid spine leafs
    omega

theorem link_spine (W : Wiring) (p t q : Nat) :
    (net P W).Link (spine P A G) p t q ↔ (p < P.a ∧ t = leaf P p G ∧ q = A) ∨
      ∃ i d, (W.connected A G)[i]? = some d ∧ p = i + P.a ∧ t = d + P.a * P.g ∧ q = P.a + W.inport A G i (d % P.a) (d / P.a) := by
  show _ ∈ conns P W _ ↔ _
  unfold conns
  rw [if_neg (by rw [spine_row hA hG]; omega), List.mem_append, List.mem_map, List.mem_map, spine_grp hA hG, spine_colA hA hG]
  refine or_congr ?_ ?_
  · constructor
    · rintro ⟨x, hx, e⟩
      simp only [Conn.mk.injEq, true_and] at e
      obtain ⟨rfl, rfl, rfl⟩ := e
      refine ⟨List.mem_range.mp hx, ?_, rfl⟩
      unfold uid leaf
      omega
    · rintro ⟨hp, rfl, rfl⟩
      refine ⟨p, List.mem_range.mpr hp, ?_⟩
      simp only [Conn.mk.injEq, true_and, and_true]
      unfold uid leaf
      omega
  · constructor
    · rintro ⟨⟨d, i⟩, hx, e⟩
      simp only [Conn.mk.injEq, true_and] at e
      obtain ⟨rfl, rfl, rfl⟩ := e
      exact ⟨i, d, mem_zipIdx.mp hx, rfl, rfl, rfl⟩
    · rintro ⟨i, d, h, rfl, rfl, rfl⟩
      exact ⟨(d, i), mem_zipIdx.mpr h, rfl⟩

end

theorem switch_cases {P : Par} {s : Nat} (hs : s < 2 * P.a * P.g) :
    ∃ A G, A < P.a ∧ G < P.g ∧ (s = leaf P A G ∨ s = spine P A G) := by
  rw [Nat.mul_assoc] at hs
  by_cases h : s < P.a * P.g
  · obtain ⟨h1, h2⟩ := split_lt h
    exact ⟨_, _, h1, h2, Or.inl (uid_eq P s).symm⟩
  · obtain ⟨h1, h2⟩ := split_lt (P := P) (s := s - P.a * P.g) (by omega)
    refine ⟨_, _, h1, h2, Or.inr ?_⟩
    have := uid_eq P (s - P.a * P.g)
    unfold spine
    omega

theorem spine_of {P : Par} (d : Nat) : d + P.a * P.g = spine P (d % P.a) (d / P.a) := by
  have := uid_eq P d
  unfold spine
  omega

/-- Links between groups only. -/
def Cross (P : Par) (W : Wiring) : Prop := ∀ A G d, A < P.a → G < P.g → d ∈ W.connected A G → d / P.a ≠ G

theorem outports_nodup (P : Par) (W : Wiring) (s : Nat) : ((conns P W s).map Conn.outport).Nodup := by
  unfold conns
  split
  · rw [List.map_map]
    exact nodup_map (fun a b h => h) List.nodup_range
  · rw [List.map_append, List.map_map, List.map_map, List.nodup_append]
    refine ⟨nodup_map (fun a b h => h) List.nodup_range, ?_, ?_⟩
    · have : (W.connected (colA P s) (grp P s)).zipIdx.map (Conn.outport ∘ fun x => ({ src := s, dst := x.1 + P.a * P.g, outport := x.2 + P.a, inport := P.a + W.inport (colA P s) (grp P s) x.2 (x.1 % P.a) (x.1 / P.a) } : Conn)) =
          (List.range (W.connected (colA P s) (grp P s)).length).map (· + P.a) := by
        rw [List.range_eq_range', ← List.zipIdx_map_snd 0 (W.connected (colA P s) (grp P s)), List.map_map]
        rfl
      rw [this]
      exact nodup_map (fun a b h => by omega) List.nodup_range
    · intro x hx y hy
      simp only [List.mem_map, List.mem_range, Function.comp] at hx hy
      obtain ⟨i, hi, rfl⟩ := hx
      obtain ⟨j, _, rfl⟩ := hy
      omega

theorem conns_src (P : Par) (W : Wiring) (s : Nat) : ∀ c ∈ conns P W s, c.src = s := by
  intro c hc
  unfold conns at hc
  split at hc
  · obtain ⟨_, _, rfl⟩ := List.mem_map.mp hc; rfl
  · rcases List.mem_append.mp hc with h | h <;> (obtain ⟨_, _, rfl⟩ := List.mem_map.mp h; rfl)

theorem wellWired {P : Par} {W : Wiring} (hsym : Sym P W) (hx : Cross P W) : WellWired (net P W) := by
  apply wellWired_of_back
  · exact fun s c _ hc => conns_src P W s c hc
  · exact fun s _ => outports_nodup P W s
  intro s p t q hs hl
  obtain ⟨A, G, hA, hG, rfl | rfl⟩ := switch_cases hs
  · obtain ⟨h1, rfl, rfl⟩ := (link_leaf hA hG W p t q).mp hl
    exact ⟨spine_size h1 hG, (link_spine h1 hG W _ _ _).mpr (Or.inl ⟨hA, rfl, rfl⟩)⟩
  · rcases (link_spine hA hG W p t q).mp hl with ⟨h1, rfl, rfl⟩ | ⟨i, d, h1, rfl, rfl, rfl⟩
    · exact ⟨leaf_size h1 hG, (link_leaf h1 hG W _ _ _).mpr ⟨hA, rfl, rfl⟩⟩
    · have hd := hsym.lt _ _ _ hA hG (List.mem_of_getElem? h1)
      obtain ⟨g1, g2⟩ := split_lt hd
      obtain ⟨b1, b2⟩ := hsym.back _ _ _ _ hA hG h1 (hx _ _ _ hA hG (List.mem_of_getElem? h1))
      rw [spine_of d]
      refine ⟨spine_size g1 g2, ?_⟩
      rw [link_spine g1 g2]
      right
      refine ⟨_, _, b1, by omega, rfl, ?_⟩
      rw [uid_mod hA, uid_div hA, b2]
      omega

theorem attached {P : Par} {W : Wiring} (hc : 0 < P.conc) : Attached (net P W) (P.a * P.g * P.conc) (fun n => n / P.conc) := by
  have hrow : ∀ s, ¬ 0 < row P s → s < 2 * P.a * P.g → s < P.a * P.g := by
    intro s h hs
    obtain ⟨A, G, hA, hG, rfl | rfl⟩ := switch_cases hs
    · exact leaf_lt hA hG
    · rw [spine_row hA hG] at h; omega
  refine ⟨?_, ?_, ?_, ?_⟩
  · intro s n p hs h
    change (n, p) ∈ inj P s at h
    unfold inj at h
    split at h
    · simp at h
    · rename_i hr
      obtain ⟨i, hi, e⟩ := List.mem_map.mp h
      simp only [Prod.mk.injEq] at e
      obtain ⟨rfl, _⟩ := e
      have hi := List.mem_range.mp hi
      refine ⟨?_, ?_⟩
      · have := hrow s hr hs
        calc s * P.conc + i < s * P.conc + P.conc := by omega
          _ = (s + 1) * P.conc := by rw [Nat.succ_mul]
          _ ≤ P.a * P.g * P.conc := Nat.mul_le_mul_right _ this
      · show (s * P.conc + i) / P.conc = s
        rw [Nat.mul_comm, Nat.mul_add_div hc, Nat.div_eq_of_lt hi, Nat.add_zero]
  · intro n hn
    have hlt : n / P.conc < P.a * P.g := Nat.div_lt_of_lt_mul (by rw [Nat.mul_comm]; exact hn)
    refine ⟨?_, n % P.conc + P.a, ?_⟩
    · show _ < 2 * P.a * P.g
      rw [Nat.mul_assoc]
      omega
    · show _ ∈ inj P (n / P.conc)
      unfold inj
      rw [if_neg (by unfold row; rw [Nat.div_eq_of_lt (show _ < leafs P from hlt)]; omega), List.mem_map]
      refine ⟨n % P.conc, List.mem_range.2 (Nat.mod_lt _ hc), ?_⟩
      simp only [Prod.mk.injEq, and_true]
      rw [Nat.mul_comm, Nat.div_add_mod]
  · intro s _
    show ((inj P s).map Prod.fst).Nodup
    unfold inj
    split
    · simp
    · rw [List.map_map]
      exact nodup_map (fun a b h => by simp at h; omega) List.nodup_range
  · intro s hs
    show ((inj P s).map Prod.snd ++ (conns P W s).map Conn.outport).Nodup
    unfold inj
    split
    · exact outports_nodup P W s
    · rename_i hr
      rw [List.nodup_append]
      refine ⟨?_, outports_nodup P W s, ?_⟩
      · rw [List.map_map]
        exact nodup_map (fun a b h => by simp at h; omega) List.nodup_range
      · intro x hx y hy
        unfold conns at hy
        rw [if_pos (by omega)] at hy
        simp only [List.map_map, List.mem_map, List.mem_range, Function.comp] at hx hy
        obtain ⟨i, _, rfl⟩ := hx
        obtain ⟨j, hj, rfl⟩ := hy
        omega

/-! ### Routing -/

/-- A dragonfly+ that is accepted: the constructors do not abort, and the links agree from both
ends; every spine switch has all its `h` links. -/
structure Ok (P : Par) (W : Wiring) : Prop where
  ctor : ∀ s, s < 2 * P.a * P.g → ctorAborts P W s = false
  sym : Sym P W
  full : ∀ A G, A < P.a → G < P.g → (W.connected A G).length = P.h

theorem Ok.facts {P : Par} {W : Wiring} (h : Ok P W) {A G : Nat} (hA : A < P.a) (hG : G < P.g) :
    2 ≤ P.g ∧ 0 < covering P ∧ P.h = (P.g - 1) * covering P ∧
      ∀ i d, (W.connected A G)[i]? = some d →
        d / P.a = if G ≤ i / covering P then i / covering P + 1 else i / covering P := by
  have := h.ctor _ (spine_size hA hG)
  unfold ctorAborts at this
  rw [spine_grp hA hG, spine_colA hA hG] at this
  simp only [Bool.or_eq_false_iff, decide_eq_false_iff_not, List.any_eq_false, bne_iff_ne, ne_eq, Decidable.not_not,
    beq_eq_false_iff_ne] at this
  obtain ⟨⟨⟨h1, h2⟩, h3⟩, h4⟩ := this
  have h3 : P.h % (P.g - 1) = 0 := by simpa using h3
  refine ⟨by omega, by omega, ?_, ?_⟩
  · unfold covering
    rw [Nat.mul_comm]
    exact (Nat.div_mul_cancel (Nat.dvd_of_mod_eq_zero h3)).symm
  · intro i d hd
    have := h4 (d, i) (mem_zipIdx.mpr hd)
    unfold expectedG at this
    rw [spine_grp hA hG] at this
    simp only at this
    unfold grp at this
    rw [Nat.mod_eq_of_lt (show _ < leafs P from h.sym.lt _ _ _ hA hG (List.mem_of_getElem? hd))] at this
    exact this.symm

theorem Ok.cross {P : Par} {W : Wiring} (h : Ok P W) : Cross P W := by
  intro A G d hA hG hd
  obtain ⟨i, hi⟩ := List.getElem?_of_mem hd
  rw [(h.facts hA hG).2.2.2 i d hi]
  split <;> omega

section
variable {P : Par} {W : Wiring} (h : Ok P W)
include h

/-- The ports to a group lead to it. -/
theorem global_port {A G dG k : Nat} (hA : A < P.a) (hG : G < P.g) (hd : dG < P.g) (hne : dG ≠ G) (hk : k < covering P) :
    ∃ B q, B < P.a ∧ (net P W).Link (spine P A G) (groupBase P (spine P A G) dG + k) (spine P B dG) q ∧
      P.a ≤ groupBase P (spine P A G) dG + k := by
  obtain ⟨hg, hc, hh, hexp⟩ := h.facts hA hG
  unfold groupBase
  rw [spine_grp hA hG]
  generalize ho : (if G < dG then dG - 1 else dG) = o
  have ho' : o < P.g - 1 := by split at ho <;> omega
  have hlt : o * covering P + k < (W.connected A G).length := by
    rw [h.full A G hA hG, hh]
    exact FatTree.mul_add_lt ho' hk
  have hi := List.getElem?_eq_getElem hlt
  have hd' := hexp _ _ hi
  rw [FatTree.mul_add_div' hk] at hd'
  have hg' : (W.connected A G)[o * covering P + k] / P.a = dG := by
    rw [hd']
    split at ho <;> split <;> omega
  have hlt' := h.sym.lt _ _ _ hA hG (List.mem_of_getElem? hi)
  obtain ⟨g1, g2⟩ := split_lt hlt'
  refine ⟨(W.connected A G)[o * covering P + k] % P.a, P.a + W.inport A G (o * covering P + k) ((W.connected A G)[o * covering P + k] % P.a) ((W.connected A G)[o * covering P + k] / P.a), g1, ?_, by omega⟩
  rw [link_spine hA hG]
  right
  exact ⟨_, _, hi, by omega, by rw [spine_of, hg'], rfl⟩

theorem valiant_port {A G dG draw v : Nat} (hA : A < P.a) (hG : G < P.g)
    (hv : valiantPort P (spine P A G) dG draw = some v) :
    ∃ B i q, B < P.a ∧ i < P.g ∧ i ≠ G ∧ i ≠ dG ∧ (net P W).Link (spine P A G) v (spine P B i) q ∧ P.a ≤ v := by
  obtain ⟨hg, hc, hh, hexp⟩ := h.facts hA hG
  unfold valiantPort at hv
  rw [spine_grp hA hG] at hv
  simp only at hv
  split at hv
  · cases hv
  · rename_i hlt
    split at hv
    · cases hv
    · rename_i hne
      have hi : draw / covering P < P.g := Nat.div_lt_of_lt_mul (by omega)
      obtain ⟨B, q, h1, h2, h3⟩ := global_port h hA hG hi (fun e => hne (Or.inl e)) (Nat.mod_lt draw hc)
      have hdm := Nat.div_add_mod draw (covering P)
      have e : v = groupBase P (spine P A G) (draw / covering P) + draw % covering P := by
        simp only [Option.some.injEq] at hv
        rw [← hv]
        unfold groupBase
        rw [spine_grp hA hG]
        generalize draw / covering P = x at *
        split
        · obtain ⟨y, rfl⟩ : ∃ y, x = y + 1 := ⟨x - 1, by omega⟩
          rw [Nat.add_sub_cancel]
          rw [Nat.mul_comm, Nat.succ_mul] at hdm
          omega
        · rw [Nat.mul_comm] at hdm
          omega
      rw [← e] at h2 h3
      exact ⟨B, _, q, h1, hi, fun e => hne (Or.inl e), fun e => hne (Or.inr e), h2, h3⟩

end

/-- The destination switch. -/
theorem dst_facts {P : Par} {node : Nat} (hn : node < P.a * P.g * P.conc) :
    node / P.conc < P.a * P.g ∧ node / P.conc % P.a < P.a ∧ node / P.conc / P.a < P.g ∧
      node / P.conc % leafs P / P.a = node / P.conc / P.a ∧
      node / P.conc = leaf P (node / P.conc % P.a) (node / P.conc / P.a) := by
  have hlt : node / P.conc < P.a * P.g := Nat.div_lt_of_lt_mul (by rw [Nat.mul_comm]; exact hn)
  obtain ⟨h1, h2⟩ := split_lt hlt
  exact ⟨hlt, h1, h2, by rw [Nat.mod_eq_of_lt (show _ < leafs P from hlt)], (uid_eq P _).symm⟩

theorem leaf_inj {P : Par} {A G B G' : Nat} (hA : A < P.a) (hB : B < P.a) (e : leaf P A G = leaf P B G') : A = B ∧ G = G' := by
  have h1 : leaf P A G % P.a = leaf P B G' % P.a := by rw [e]
  have h2 : leaf P A G / P.a = leaf P B G' / P.a := by rw [e]
  unfold leaf at h1 h2
  rw [uid_mod hA, uid_mod hB] at h1
  rw [uid_div hA, uid_div hB] at h2
  exact ⟨h1, h2⟩

theorem inj_at {P : Par} {W : Wiring} {node : Nat} (hc : 0 < P.conc) (hn : node < P.a * P.g * P.conc) :
    (node, node % P.conc + P.a) ∈ (net P W).inj (node / P.conc) := by
  obtain ⟨h1, _⟩ := dst_facts hn
  show _ ∈ inj P _
  unfold inj
  rw [if_neg (by unfold row; rw [Nat.div_eq_of_lt (show _ < leafs P from h1)]; omega), List.mem_map]
  refine ⟨node % P.conc, List.mem_range.2 (Nat.mod_lt _ hc), ?_⟩
  simp only [Prod.mk.injEq, and_true]
  rw [Nat.mul_comm, Nat.div_add_mod]

/-- Counters in range. -/
structure RotOk (P : Par) (r : Rot) : Prop where
  up : r.up < P.a
  grp : ∀ i, r.grp i < covering P

theorem next_ok {P : Par} {r : Rot} (h : RotOk P r) (hc : 0 < covering P) (i : Nat) :
    RotOk P { r with grp := fun j => if j = i then (r.grp i + 1) % covering P else r.grp j } := by
  refine ⟨h.up, fun j => ?_⟩
  simp only
  split
  · exact Nat.mod_lt _ hc
  · exact h.grp j

theorem mreach_ok {P : Par} {static : Bool} {me : Nat} {r : Rot} (ha : 0 < P.a) (hc : 0 < covering P)
    (h : MReach P static me r) : RotOk P r := by
  induction h with
  | init => exact ⟨Nat.mod_lt _ ha, fun _ => hc⟩
  | route _ node ih =>
    unfold minRoute
    simp only
    split
    · exact ih
    · split
      · split
        · exact ih
        · exact ⟨Nat.mod_lt _ ha, ih.grp⟩
      · split
        · exact ih
        · split
          · exact ih
          · exact next_ok ih hc _

section
variable {P : Par} {W : Wiring} (h : Ok P W) {static : Bool}
include h

/-- A decision of the minimal router at a leaf. -/
theorem min_leaf {A G node p vc : Nat} {x x' : Unit} (hA : A < P.a) (hG : G < P.g)
    (hr : minRouter P static (leaf P A G) node x p vc x') :
    vc = 0 ∧ if node / P.conc = leaf P A G then p = node % P.conc + P.a else p < P.a := by
  obtain ⟨r, hr, rfl, rfl⟩ := hr
  have hk := mreach_ok (by omega) (h.facts hA hG).2.1 hr
  refine ⟨rfl, ?_⟩
  unfold minRoute
  simp only
  split
  · rfl
  · rw [if_pos (leaf_row hA hG)]
    split
    · exact Nat.mod_lt _ (by omega)
    · exact hk.up

/-- A decision of the minimal router at a spine switch. -/
theorem min_spine {A G node p vc : Nat} {x x' : Unit} (hA : A < P.a) (hG : G < P.g) (hn : node < P.a * P.g * P.conc)
    (hr : minRouter P static (spine P A G) node x p vc x') :
    vc = 0 ∧ if G = node / P.conc / P.a then p = node / P.conc % P.a
      else ∃ k, k < covering P ∧ p = groupBase P (spine P A G) (node / P.conc / P.a) + k := by
  obtain ⟨r, hr, rfl, rfl⟩ := hr
  obtain ⟨_, hc, _⟩ := h.facts hA hG
  have hk := mreach_ok (by omega) hc hr
  obtain ⟨h1, h2, h3, h4, h5⟩ := dst_facts hn
  refine ⟨rfl, ?_⟩
  unfold minRoute
  simp only
  have e1 : ¬ node / P.conc = spine P A G := by unfold spine; omega
  have e2 : ¬ row P (spine P A G) = 0 := by rw [spine_row hA hG]; omega
  rw [if_neg e1, if_neg e2, h4, spine_grp hA hG]
  by_cases hne : G = node / P.conc / P.a
  · rw [if_pos hne, if_pos hne]
  · rw [if_neg hne, if_neg hne]
    split
    · exact ⟨_, Nat.mod_lt _ hc, rfl⟩
    · exact ⟨_, hk.grp _, rfl⟩

theorem min_decides (s node : Nat) (x : Unit) : ∃ p vc x', minRouter P static s node x p vc x' :=
  ⟨_, 0, (), _, .init, rfl, rfl⟩

theorem min0 (hc : 0 < P.conc) {node : Nat} (hn : node < P.a * P.g * P.conc) :
    Delivers (net P W) (minRouter P static) minVC node 0 (node / P.conc) () := by
  refine ⟨min_decides h _ _ _, ?_⟩
  intro p vc x' hr
  obtain ⟨h1, h2, h3, h4, h5⟩ := dst_facts hn
  rw [h5] at hr
  obtain ⟨rfl, h7⟩ := min_leaf h h2 h3 hr
  rw [if_pos h5] at h7
  subst h7
  exact ⟨by decide, inj_at hc hn⟩

theorem min1 (hc : 0 < P.conc) {A node : Nat} (hA : A < P.a) (hn : node < P.a * P.g * P.conc) :
    Delivers (net P W) (minRouter P static) minVC node 1 (spine P A (node / P.conc / P.a)) () := by
  refine ⟨min_decides h _ _ _, ?_⟩
  intro p vc x' hr
  obtain ⟨h1, h2, h3, h4, h5⟩ := dst_facts hn
  obtain ⟨rfl, h7⟩ := min_spine h hA h3 hn hr
  rw [if_pos rfl] at h7
  subst h7
  refine ⟨by decide, node / P.conc, A, ?_, min0 h hc hn⟩
  rw [link_spine hA h3]
  exact Or.inl ⟨h2, h5, rfl⟩

theorem min2 (hc : 0 < P.conc) {A G node : Nat} (hA : A < P.a) (hG : G < P.g) (hn : node < P.a * P.g * P.conc)
    (hne : G ≠ node / P.conc / P.a) : Delivers (net P W) (minRouter P static) minVC node 2 (spine P A G) () := by
  refine ⟨min_decides h _ _ _, ?_⟩
  intro p vc x' hr
  obtain ⟨h1, h2, h3, h4, h5⟩ := dst_facts hn
  obtain ⟨rfl, h7⟩ := min_spine h hA hG hn hr
  rw [if_neg hne] at h7
  obtain ⟨k, hk, rfl⟩ := h7
  obtain ⟨B, q, g1, g2, _⟩ := global_port h hA hG h3 (fun e => hne e.symm) hk
  exact ⟨by decide, _, q, g2, min1 h hc g1 hn⟩

theorem min_up (hc : 0 < P.conc) {A G node n : Nat} (hA : A < P.a) (hG : G < P.g) (hn : node < P.a * P.g * P.conc)
    (hne : node / P.conc ≠ leaf P A G)
    (hsp : ∀ B, B < P.a → Delivers (net P W) (minRouter P static) minVC node n (spine P B G) ()) :
    Delivers (net P W) (minRouter P static) minVC node (n + 1) (leaf P A G) () := by
  refine ⟨min_decides h _ _ _, ?_⟩
  intro p vc x' hr
  obtain ⟨rfl, h7⟩ := min_leaf h hA hG hr
  rw [if_neg hne] at h7
  refine ⟨by decide, _, _, (link_leaf hA hG W p _ _).mpr ⟨h7, rfl, rfl⟩, hsp p h7⟩

end

/-- The rank of a channel: up, between the groups, down. -/
def chanRank (P : Par) (c : Nat × Nat × Nat) : Nat × Nat :=
  (if row P c.1 = 0 then 0 else if P.a ≤ c.2.1 then 1 + c.2.2 else 3, 0)

theorem flight_lt {H : Type} {P : Par} {W : Wiring} (hw : WellWired (net P W)) {R : Router H} {h0 : H} {node s : Nat} {x : H}
    (hf : InFlight (net P W) R h0 node s x) : s < 2 * P.a * P.g := by
  induction hf with
  | inject hs _ => exact hs
  | hop _ _ hl ih => exact hw.range _ _ _ _ ih hl

theorem spine_link_unique {P : Par} {W : Wiring} {s p t q t' q' : Nat} (h : (net P W).Link s p t q) (h' : (net P W).Link s p t' q') :
    t = t' := by
  have := conn_unique (outports_nodup P W s) h h' rfl
  simp only [Conn.mk.injEq] at this
  exact this.2.1

theorem min_deadlock_free {P : Par} {W : Wiring} (h : Ok P W) (static : Bool) :
    DeadlockFree (net P W) (minRouter P static) () (P.a * P.g * P.conc) := by
  have hw := wellWired h.sym h.cross
  apply acyclic_of_rank (chanRank P)
  rintro _ _ ⟨node, s, x, p, vc, x', t, q, p', vc', x'', u, q', hn, hf, hr, hl, hr', hl', rfl, rfl⟩
  left
  obtain ⟨h1, h2, h3, h4, h5⟩ := dst_facts hn
  obtain ⟨A, G, hA, hG, rfl | rfl⟩ := switch_cases (flight_lt hw hf)
  · obtain ⟨hp, rfl, rfl⟩ := (link_leaf hA hG W p t q).mp hl
    unfold chanRank
    simp only
    rw [if_pos (leaf_row hA hG), if_neg (spine_row_ne hp hG)]
    split <;> omega
  · obtain ⟨rfl, hd⟩ := min_spine h hA hG hn hr
    split at hd
    · rename_i e
      subst hd
      have ht : t = node / P.conc := by
        refine spine_link_unique hl ((link_spine hA hG W _ (node / P.conc) A).mpr (Or.inl ⟨h2, ?_, rfl⟩))
        rw [e]; exact h5
      subst ht
      rw [h5] at hr' hl'
      obtain ⟨_, hd'⟩ := min_leaf h h2 h3 hr'
      rw [if_pos h5] at hd'
      obtain ⟨hp, _⟩ := (link_leaf h2 h3 W _ _ _).mp hl'
      omega
    · rename_i e
      obtain ⟨k, hk, rfl⟩ := hd
      obtain ⟨B, q2, g1, g2, g3⟩ := global_port h hA hG h3 (fun e' => e e'.symm) hk
      have ht := spine_link_unique hl g2
      subst ht
      obtain ⟨rfl, hd'⟩ := min_spine h g1 h3 hn hr'
      rw [if_pos rfl] at hd'
      subst hd'
      unfold chanRank
      simp only
      rw [if_neg (spine_row_ne hA hG), if_neg (spine_row_ne g1 h3), if_pos g3, if_neg (by omega)]
      omega

/-! ### Progressive adaptive routing -/

theorem preach_ok {P : Par} {me : Nat} {r : Rot} (ha : 0 < P.a) (hc : 0 < covering P) (h : PReach P me r) : RotOk P r := by
  induction h with
  | init => exact ⟨ha, fun _ => hc⟩
  | @route r0 _ node hd draw goMin p hd' r' e ih =>
    unfold parRoute at e
    simp only at e
    split at e
    · split at e
      · simp only [Option.some.injEq, Prod.mk.injEq] at e
        rw [← e.2.2]; exact ih
      · simp only [Option.some.injEq, Prod.mk.injEq] at e
        rw [← e.2.2]; exact ⟨Nat.mod_lt _ ha, ih.grp⟩
    · split at e
      · simp only [Option.some.injEq, Prod.mk.injEq] at e
        rw [← e.2.2]; exact ih
      · split at e
        · simp only [Option.some.injEq, Prod.mk.injEq] at e
          rw [← e.2.2]; exact next_ok ih hc _
        · split at e
          · split at e
            · cases e
            · split at e
              · simp only [Option.some.injEq, Prod.mk.injEq] at e
                rw [← e.2.2]; exact next_ok ih hc _
              · simp only [Option.some.injEq, Prod.mk.injEq] at e
                rw [← e.2.2]; exact ih
          · simp only [Option.some.injEq, Prod.mk.injEq] at e
            rw [← e.2.2]; exact next_ok ih hc _

/-- What the adaptive router can decide at spine switch (A, G). -/
inductive ParSpine (P : Par) (A G node : Nat) (x : PHdr) : Nat → PHdr → Prop
  | down (h : G = node / P.conc / P.a) : ParSpine P A G node x (node / P.conc % P.a) x
  | late (h : G ≠ node / P.conc / P.a) (hs : x.stage = 1) {k : Nat} (hk : k < covering P) :
      ParSpine P A G node x (groupBase P (spine P A G) (node / P.conc / P.a) + k) ⟨x.stage, 1⟩
  | direct (h : G ≠ node / P.conc / P.a) (hs : x.stage ≠ 1) {k : Nat} (hk : k < covering P) :
      ParSpine P A G node x (groupBase P (spine P A G) (node / P.conc / P.a) + k) ⟨2, 0⟩
  | detour (h : G ≠ node / P.conc / P.a) (hs : x.stage ≠ 1) (h3 : 2 < P.g) {draw v : Nat}
      (hv : valiantPort P (spine P A G) (node / P.conc / P.a) draw = some v) : ParSpine P A G node x v ⟨1, 0⟩

section
variable {P : Par} {W : Wiring} (h : Ok P W)
include h

theorem par_leaf {A G node p vc : Nat} {x x' : PHdr} (hA : A < P.a) (hG : G < P.g)
    (hr : parRouter P (leaf P A G) node x p vc x') :
    vc = 0 ∧ x' = ⟨x.stage, 0⟩ ∧ if node / P.conc = leaf P A G then p = node % P.conc + P.a else p < P.a := by
  obtain ⟨r, r', draw, gm, hr, e, rfl⟩ := hr
  have hk := preach_ok (by omega) (h.facts hA hG).2.1 hr
  unfold parRoute at e
  simp only at e
  rw [if_pos (leaf_row hA hG)] at e
  split at e
  · simp only [Option.some.injEq, Prod.mk.injEq] at e
    obtain ⟨rfl, rfl, _⟩ := e
    simp_all
  · simp only [Option.some.injEq, Prod.mk.injEq] at e
    obtain ⟨rfl, rfl, _⟩ := e
    refine ⟨rfl, rfl, ?_⟩
    split
    · contradiction
    · exact hk.up

theorem par_spine {A G node p vc : Nat} {x x' : PHdr} (hA : A < P.a) (hG : G < P.g) (hn : node < P.a * P.g * P.conc)
    (hr : parRouter P (spine P A G) node x p vc x') : vc = x'.vc ∧ ParSpine P A G node x p x' := by
  obtain ⟨r, r', draw, gm, hr, e, rfl⟩ := hr
  refine ⟨rfl, ?_⟩
  have hk := preach_ok (by omega) (h.facts hA hG).2.1 hr
  obtain ⟨h1, h2, h3, h4, h5⟩ := dst_facts hn
  unfold parRoute at e
  simp only at e
  rw [if_neg (by rw [spine_row hA hG]; omega), h4, spine_grp hA hG] at e
  split at e
  · simp only [Option.some.injEq, Prod.mk.injEq] at e
    obtain ⟨rfl, rfl, _⟩ := e
    exact .down (by assumption)
  · rename_i hne
    split at e
    · simp only [Option.some.injEq, Prod.mk.injEq] at e
      obtain ⟨rfl, rfl, _⟩ := e
      exact .late hne (by assumption) (hk.grp _)
    · rename_i hst
      split at e
      · rename_i hg
        split at e
        · cases e
        · rename_i v hv
          split at e
          · simp only [Option.some.injEq, Prod.mk.injEq] at e
            obtain ⟨rfl, rfl, _⟩ := e
            exact .direct hne hst (hk.grp _)
          · simp only [Option.some.injEq, Prod.mk.injEq] at e
            obtain ⟨rfl, rfl, _⟩ := e
            exact .detour hne hst hg hv
      · simp only [Option.some.injEq, Prod.mk.injEq] at e
        obtain ⟨rfl, rfl, _⟩ := e
        exact .direct hne hst (hk.grp _)

/-- Some draw ends the loop. -/
theorem draw_exists {A G dG : Nat} (hA : A < P.a) (hG : G < P.g) (hg : 2 < P.g) :
    ∃ draw v, valiantPort P (spine P A G) dG draw = some v := by
  obtain ⟨_, hc, _⟩ := h.facts hA hG
  have : ∃ i, i < P.g ∧ i ≠ G ∧ i ≠ dG := by
    by_cases h0 : G ≠ 0 ∧ dG ≠ 0
    · exact ⟨0, by omega, by omega, by omega⟩
    · by_cases h1 : G ≠ 1 ∧ dG ≠ 1
      · exact ⟨1, by omega, by omega, by omega⟩
      · exact ⟨2, by omega, by omega, by omega⟩
  obtain ⟨i, h1, h2, h3⟩ := this
  refine ⟨covering P * i, (if G < i then covering P * i - covering P else covering P * i) + P.a, ?_⟩
  unfold valiantPort
  rw [if_neg (by have := Nat.mul_lt_mul_of_pos_left h1 hc; omega), Nat.mul_div_cancel_left _ hc, spine_grp hA hG]
  simp only
  rw [if_neg (by omega)]

theorem par_decides {s node : Nat} (hs : s < 2 * P.a * P.g) (x : PHdr) : ∃ p vc x', parRouter P s node x p vc x' := by
  have key : ∀ draw, (∃ y, parRoute P s node x parRot0 draw true = some y) → ∃ p vc x', parRouter P s node x p vc x' := by
    rintro draw ⟨⟨p, x', r'⟩, e⟩
    exact ⟨p, x'.vc, x', _, r', draw, true, .init, e, rfl⟩
  obtain ⟨A, G, hA, hG, rfl | rfl⟩ := switch_cases hs
  · apply key 0
    unfold parRoute
    simp only
    rw [if_pos (leaf_row hA hG)]
    split <;> exact ⟨_, rfl⟩
  · by_cases hg : 2 < P.g
    · obtain ⟨draw, v, hv⟩ := draw_exists h (dG := node / P.conc % leafs P / P.a) hA hG hg
      apply key draw
      unfold parRoute
      simp only
      rw [if_neg (spine_row_ne hA hG), if_pos hg, hv]
      simp only
      split
      · exact ⟨_, rfl⟩
      · split
        · exact ⟨_, rfl⟩
        · exact ⟨_, rfl⟩
    · apply key 0
      unfold parRoute
      simp only
      rw [if_neg (spine_row_ne hA hG), if_neg hg]
      split
      · exact ⟨_, rfl⟩
      · split
        · exact ⟨_, rfl⟩
        · exact ⟨_, rfl⟩

theorem par0 (hc : 0 < P.conc) {node : Nat} (hn : node < P.a * P.g * P.conc) (x : PHdr) :
    DeliversWithin (net P W) (parRouter P) parVC node 0 (node / P.conc) x := by
  obtain ⟨h1, h2, h3, h4, h5⟩ := dst_facts hn
  refine ⟨par_decides h (by rw [h5]; exact leaf_size h2 h3) _, ?_⟩
  intro p vc x' hr
  rw [h5] at hr
  obtain ⟨rfl, _, h7⟩ := par_leaf h h2 h3 hr
  rw [if_pos h5] at h7
  subst h7
  exact ⟨by decide, inj_at hc hn⟩

theorem par1 (hc : 0 < P.conc) {A node : Nat} (hA : A < P.a) (hn : node < P.a * P.g * P.conc) {x : PHdr} (hx : x.vc < 2) :
    DeliversWithin (net P W) (parRouter P) parVC node 1 (spine P A (node / P.conc / P.a)) x := by
  obtain ⟨h1, h2, h3, h4, h5⟩ := dst_facts hn
  refine ⟨par_decides h (spine_size hA h3) _, ?_⟩
  intro p vc x' hr
  obtain ⟨rfl, hd⟩ := par_spine h hA h3 hn hr
  cases hd with
  | down _ =>
    refine ⟨hx, Or.inr ⟨node / P.conc, A, ?_, par0 h hc hn _⟩⟩
    rw [link_spine hA h3]
    exact Or.inl ⟨h2, h5, rfl⟩
  | late hne => exact absurd rfl hne
  | direct hne => exact absurd rfl hne
  | detour hne => exact absurd rfl hne

theorem par2 (hc : 0 < P.conc) {A G node : Nat} (hA : A < P.a) (hG : G < P.g) (hn : node < P.a * P.g * P.conc) {x : PHdr}
    (hx : x.vc < 2) (hs : x.stage = 1) : DeliversWithin (net P W) (parRouter P) parVC node 2 (spine P A G) x := by
  obtain ⟨h1, h2, h3, h4, h5⟩ := dst_facts hn
  by_cases hne : G = node / P.conc / P.a
  · rw [hne]
    exact within_mono (by omega) (par1 h hc hA hn hx)
  refine ⟨par_decides h (spine_size hA hG) _, ?_⟩
  intro p vc x' hr
  obtain ⟨rfl, hd⟩ := par_spine h hA hG hn hr
  cases hd with
  | down e => exact absurd e hne
  | late _ _ hk =>
    obtain ⟨B, q, g1, g2, _⟩ := global_port h hA hG h3 (fun e => hne e.symm) hk
    exact ⟨show 1 < 2 by decide, Or.inr ⟨_, q, g2, par1 h hc g1 hn (show 1 < 2 by decide)⟩⟩
  | direct _ hs' => exact absurd hs hs'
  | detour _ hs' => exact absurd hs hs'

theorem par3 (hc : 0 < P.conc) {A G node : Nat} (hA : A < P.a) (hG : G < P.g) (hn : node < P.a * P.g * P.conc) {x : PHdr}
    (hx : x.vc < 2) : DeliversWithin (net P W) (parRouter P) parVC node 3 (spine P A G) x := by
  obtain ⟨h1, h2, h3, h4, h5⟩ := dst_facts hn
  by_cases hs : x.stage = 1
  · exact within_mono (by omega) (par2 h hc hA hG hn hx hs)
  by_cases hne : G = node / P.conc / P.a
  · rw [hne]
    exact within_mono (by omega) (par1 h hc hA hn hx)
  refine ⟨par_decides h (spine_size hA hG) _, ?_⟩
  intro p vc x' hr
  obtain ⟨rfl, hd⟩ := par_spine h hA hG hn hr
  cases hd with
  | down e => exact absurd e hne
  | late _ hs' => exact absurd hs' hs
  | direct _ _ hk =>
    obtain ⟨B, q, g1, g2, _⟩ := global_port h hA hG h3 (fun e => hne e.symm) hk
    exact ⟨by decide, Or.inr ⟨_, q, g2, within_mono (n := 1) (m := 2) (by decide) (par1 h hc g1 hn (by decide))⟩⟩
  | detour _ _ _ hv =>
    obtain ⟨B, i, q, g1, g2, g3, g4, g5, _⟩ := valiant_port h hA hG hv
    exact ⟨by decide, Or.inr ⟨_, q, g5, par2 h hc g1 g2 hn (by decide) rfl⟩⟩

theorem par4 (hc : 0 < P.conc) {A G node : Nat} (hA : A < P.a) (hG : G < P.g) (hn : node < P.a * P.g * P.conc) (x : PHdr) :
    DeliversWithin (net P W) (parRouter P) parVC node 4 (leaf P A G) x := by
  refine ⟨par_decides h (leaf_size hA hG) _, ?_⟩
  intro p vc x' hr
  obtain ⟨rfl, rfl, h7⟩ := par_leaf h hA hG hr
  refine ⟨by decide, ?_⟩
  split at h7
  · rename_i e
    subst h7
    rw [← e]
    exact Or.inl (inj_at hc hn)
  · exact Or.inr ⟨_, _, (link_leaf hA hG W p _ _).mpr ⟨h7, rfl, rfl⟩, par3 h hc h7 hG hn (show 0 < 2 by decide)⟩

theorem par_deadlock_free : DeadlockFree (net P W) (parRouter P) PHdr.init (P.a * P.g * P.conc) := by
  have hw := wellWired h.sym h.cross
  apply acyclic_of_rank (chanRank P)
  rintro _ _ ⟨node, s, x, p, vc, x', t, q, p', vc', x'', u, q', hn, hf, hr, hl, hr', hl', rfl, rfl⟩
  left
  obtain ⟨h1, h2, h3, h4, h5⟩ := dst_facts hn
  obtain ⟨A, G, hA, hG, rfl | rfl⟩ := switch_cases (flight_lt hw hf)
  · obtain ⟨hp, rfl, rfl⟩ := (link_leaf hA hG W p t q).mp hl
    unfold chanRank
    simp only
    rw [if_pos (leaf_row hA hG), if_neg (spine_row_ne hp hG)]
    split <;> omega
  · have last : ∀ B k q2, B < P.a → x'.vc < 2 → p = k → P.a ≤ k → (net P W).Link (spine P A G) k (spine P B (node / P.conc / P.a)) q2 →
        (chanRank P (spine P A G, p, x'.vc)).1 < (chanRank P (t, p', vc')).1 := by
      intro B k q2 hB hvc e hk hl2
      subst e
      have ht := spine_link_unique hl hl2
      subst ht
      obtain ⟨rfl, hd'⟩ := par_spine h hB h3 hn hr'
      cases hd' with
      | down _ =>
        unfold chanRank
        simp only
        rw [if_neg (spine_row_ne hA hG), if_neg (spine_row_ne hB h3), if_pos hk, if_neg (by omega)]
        omega
      | late hne => exact absurd rfl hne
      | direct hne => exact absurd rfl hne
      | detour hne => exact absurd rfl hne
    obtain ⟨rfl, hd⟩ := par_spine h hA hG hn hr
    cases hd with
    | down e =>
      have ht : t = node / P.conc := by
        refine spine_link_unique hl ((link_spine hA hG W _ (node / P.conc) A).mpr (Or.inl ⟨h2, ?_, rfl⟩))
        rw [e]; exact h5
      subst ht
      rw [h5] at hr' hl'
      obtain ⟨_, _, hd'⟩ := par_leaf h h2 h3 hr'
      rw [if_pos h5] at hd'
      obtain ⟨hp, _⟩ := (link_leaf h2 h3 W _ _ _).mp hl'
      omega
    | late hne _ hk =>
      obtain ⟨B, q2, g1, g2, g3⟩ := global_port h hA hG h3 (fun e => hne e.symm) hk
      exact last B _ q2 g1 (show 1 < 2 by decide) rfl g3 g2
    | direct hne _ hk =>
      obtain ⟨B, q2, g1, g2, g3⟩ := global_port h hA hG h3 (fun e => hne e.symm) hk
      exact last B _ q2 g1 (by decide) rfl g3 g2
    | detour _ _ _ hv =>
      obtain ⟨B, i, q2, g1, g2, g3, g4, g5, g6⟩ := valiant_port h hA hG hv
      have ht := spine_link_unique hl g5
      subst ht
      obtain ⟨rfl, hd'⟩ := par_spine h g1 g2 hn hr'
      cases hd' with
      | down e => exact absurd e g4
      | late hne _ hk =>
        unfold chanRank
        simp only
        rw [if_neg (spine_row_ne hA hG), if_neg (spine_row_ne g1 g2), if_pos g6]
        split <;> omega
      | direct _ hs => exact absurd rfl hs
      | detour _ hs => exact absurd rfl hs

end

/-! ### Wirings -/

theorem all_ok {P : Par} (h : AllOk P) : Ok P (allToAll P) := by
  obtain ⟨hcv, hst, ha, hh⟩ := all_facts h
  refine ⟨?_, all_sym P h, ?_⟩
  · intro s hs
    have hP := h.a
    have hg := h.g
    unfold ctorAborts
    simp only [Bool.or_eq_false_iff, decide_eq_false_iff_not, List.any_eq_false, bne_iff_ne, ne_eq, Decidable.not_not,
      beq_eq_false_iff_ne]
    refine ⟨⟨⟨by omega, h.cov⟩, by simp [h.h]⟩, ?_⟩
    rintro ⟨d, i⟩ hx
    have hG : grp P s < P.g := by
      unfold grp
      exact Nat.div_lt_of_lt_mul (Nat.mod_lt _ (Nat.mul_pos hP (by omega)))
    have hd : (allConnected P (colA P s) (grp P s))[i]? = some d := mem_zipIdx.mp hx
    have hlt : d < leafs P := (all_sym P h).lt _ _ d (Nat.mod_lt _ hP) hG (List.mem_of_getElem? hd)
    have hd2 := hd
    rw [all_getElem? h hG] at hd2
    split at hd2
    · simp only [Option.some.injEq] at hd2
      simp only
      have : grp P d = d / P.a := by unfold grp; rw [Nat.mod_eq_of_lt hlt]
      rw [this, ← hd2, FatTree.mul_add_div' (Nat.mod_lt _ hP)]
      unfold expectedG
      simp only
      generalize grp P s = G at *
      generalize i / covering P = e at *
      split <;> split <;> omega
    · cases hd2
  · intro A G hA hG
    show (allConnected P A G).length = P.h
    unfold allConnected
    rw [length_flatMap_const (n := covering P) _ _ (fun _ _ => by simp), others_eq, if_neg (by omega), List.length_map, List.length_range, hh]

/-! ### Distance -/

theorem walk_leaf {P : Par} {W : Wiring} {A G A' G' n : Nat} (hA : A < P.a) (hG : G < P.g) (hA' : A' < P.a) (hG' : G' < P.g)
    (w : Walk (net P W) (leaf P A G) (leaf P A' G') n) :
    (leaf P A G ≠ leaf P A' G' → 2 ≤ n) ∧ (G ≠ G' → 3 ≤ n) := by
  have hne : ∀ B H, B < P.a → H < P.g → leaf P A' G' ≠ spine P B H := by
    intro B H _ _ e
    have := leaf_lt hA' hG'
    unfold spine at e
    unfold leafs at this
    omega
  generalize hx : leaf P A G = x at w
  generalize hy : leaf P A' G' = y at w
  cases w with
  | nil => exact ⟨fun h => absurd rfl h, fun h => absurd (leaf_inj hA hA' (hx.trans hy.symm)).2 h⟩
  | @cons _ p t q _ n hl w =>
    subst hx hy
    obtain ⟨hp, rfl, rfl⟩ := (link_leaf hA hG W p t q).mp hl
    generalize hx : spine P p G = x at w
    generalize hy : leaf P A' G' = y at w
    cases w with
    | nil => exact absurd (hy.trans hx.symm) (hne _ _ hp hG)
    | @cons _ p2 t2 q2 _ n2 hl2 w2 =>
      subst hx
      refine ⟨fun _ => by omega, fun hg => ?_⟩
      rcases (link_spine hp hG W p2 t2 q2).mp hl2 with ⟨h1, rfl, rfl⟩ | ⟨i, d, h1, h2, h3, h4⟩
      · subst hy
        generalize hz : leaf P p2 G = z at w2
        generalize hy : leaf P A' G' = y at w2
        cases w2 with
        | nil => exact absurd (leaf_inj h1 hA' (hz.trans hy.symm)).2 hg
        | cons => omega
      · generalize hz : t2 = z at w2
        cases w2 with
        | nil =>
          exfalso
          have := leaf_lt hA' hG'
          unfold leafs at this
          omega
        | cons => omega

/-! ### The property -/

/-- Links between two leaf switches: none to itself, two within a group, three between groups. -/
def links (P : Par) (s t : Nat) : Nat := if s = t then 0 else if s / P.a = t / P.a then 2 else 3

/-- The links of a dragonfly+ with the all-to-all wiring agree from both ends, and every node has
one port of one switch. -/
theorem C98_wired (P : Par) (h : AllOk P) (hc : 0 < P.conc) :
    WellWired (net P (allToAll P)) ∧ Attached (net P (allToAll P)) (P.a * P.g * P.conc) (fun n => n / P.conc) :=
  ⟨wellWired (all_sym P h) (all_ok h).cross, attached hc⟩

/-- For any wiring of full switches that the constructors accept, minimal routing delivers
every packet over one virtual channel, over two links within a group and three between groups. -/
theorem C98_minimal (P : Par) (W : Wiring) (h : Ok P W) (hc : 0 < P.conc) (static : Bool) (s node : Nat) (hs : s < P.a * P.g)
    (hn : node < P.a * P.g * P.conc) :
    Delivers (net P W) (minRouter P static) minVC node (links P s (node / P.conc)) s () := by
  obtain ⟨h1, h2, h3, h4, h5⟩ := dst_facts hn
  obtain ⟨g1, g2⟩ := split_lt hs
  unfold links
  split
  · rename_i e
    rw [e]; exact min0 h hc hn
  · rename_i hne
    have es : s = leaf P (s % P.a) (s / P.a) := (uid_eq P s).symm
    have hne' : node / P.conc ≠ leaf P (s % P.a) (s / P.a) := by rw [← es]; exact fun e => hne e.symm
    split
    · rename_i e
      rw [es]
      refine min_up h hc g1 g2 hn hne' fun B hB => ?_
      rw [e]
      exact min1 h hc hB hn
    · rename_i e
      rw [es]
      exact min_up h hc g1 g2 hn hne' fun B hB => min2 h hc hB g2 hn e

theorem C98_minimal_deadlock_free (P : Par) (W : Wiring) (h : Ok P W) (static : Bool) :
    DeadlockFree (net P W) (minRouter P static) () (P.a * P.g * P.conc) := min_deadlock_free h static

/-- Adaptive routing delivers every packet over at most four links and two virtual channels,
whatever the queue lengths and the random choices. -/
theorem C98_adaptive (P : Par) (W : Wiring) (h : Ok P W) (hc : 0 < P.conc) (s node : Nat) (hs : s < P.a * P.g)
    (hn : node < P.a * P.g * P.conc) : DeliversWithin (net P W) (parRouter P) parVC node 4 s PHdr.init := by
  obtain ⟨g1, g2⟩ := split_lt hs
  have := par4 h hc g1 g2 hn PHdr.init
  rwa [show leaf P (s % P.a) (s / P.a) = s from uid_eq P s] at this

theorem C98_adaptive_deadlock_free (P : Par) (W : Wiring) (h : Ok P W) :
    DeadlockFree (net P W) (parRouter P) PHdr.init (P.a * P.g * P.conc) := par_deadlock_free h

/-- The all-to-all wiring is such a wiring. -/
theorem C98_alltoall (P : Par) (h : AllOk P) : Ok P (allToAll P) := all_ok h

/-- The number of hops reported for two nodes on different switches is the length of a shortest path. -/
theorem C98_hops (P : Par) (W : Wiring) (h : Ok P W) (hc : 0 < P.conc) (n m : Nat) (hn : n < P.a * P.g * P.conc)
    (hm : m < P.a * P.g * P.conc) (hne : n / P.conc ≠ m / P.conc) :
    IsDist (net P W) (n / P.conc) (m / P.conc) (numHopsToNode P n m) := by
  obtain ⟨h1, h2, h3, h4, h5⟩ := dst_facts hn
  obtain ⟨g1, g2, g3, g4, g5⟩ := dst_facts hm
  have e : numHopsToNode P n m = links P (n / P.conc) (m / P.conc) := by
    unfold numHopsToNode minimalDistance links grp row
    rw [if_neg hne, h4, g4, Nat.div_eq_of_lt (show _ < leafs P from h1), Nat.div_eq_of_lt (show _ < leafs P from g1)]
    rfl
  rw [e]
  constructor
  · obtain ⟨t, w, p, hp⟩ := walk_of_delivers (C98_minimal P W h hc false _ m h1 hm)
    have ht : t < 2 * P.a * P.g := by
      have hw := wellWired h.sym h.cross
      have : ∀ s t n, Walk (net P W) s t n → s < 2 * P.a * P.g → t < 2 * P.a * P.g := by
        intro s t n w
        induction w with
        | nil => exact id
        | cons hl _ ih => exact fun hs => ih (hw.range _ _ _ _ hs hl)
      refine this _ _ _ w ?_
      rw [Nat.mul_assoc]; omega
    have := ((attached (W := W) hc).node t m p ht hp).2
    have e2 : t = m / P.conc := this.symm
    rwa [e2] at w
  · intro k w
    rw [h5, g5] at w
    obtain ⟨k1, k2⟩ := walk_leaf h2 h3 g2 g3 w
    unfold links
    rw [if_neg hne]
    split
    · exact k1 (by rw [← h5, ← g5]; exact hne)
    · exact k2 (by assumption)

/-- Two nodes on the same switch: two hops are reported, but none is taken. -/
theorem C98_hops_refuted : ¬ ∀ (P : Par) (n m : Nat), AllOk P → 0 < P.conc → n < P.a * P.g * P.conc → m < P.a * P.g * P.conc →
    IsDist (net P (allToAll P)) (n / P.conc) (m / P.conc) (numHopsToNode P n m) := by
  intro h
  have := (h { a := 2, g := 3, h := 2, conc := 2 } 0 1 ⟨by decide, by decide, by decide, by decide, by decide⟩
    (by decide) (by decide) (by decide)).2 0 (Walk.nil 0)
  revert this
  decide

/-- Two groups of two leaf and two spine switches with two links each. -/
def two : Par := { a := 2, g := 2, h := 2, conc := 1 }

/-- With the circulant wiring (the default), which the constructors accept too, a packet can come to a
switch whose port for its next hop has neither a link nor a node. -/
theorem C98_circulant_refuted : (∀ s, s < 2 * two.a * two.g → ctorAborts two (circulant two) s = false) ∧
    WellWired (net two (circulant two)) ∧
    ∃ node s p, node < two.a * two.g * two.conc ∧ InFlight (net two (circulant two)) (minRouter two false) () node s () ∧
      minRouter two false s node () p 0 () ∧ (∀ t q, ¬ (net two (circulant two)).Link s p t q) ∧
      ∀ n, (n, p) ∉ (net two (circulant two)).inj s := by
  have hcross : Cross two (circulant two) := by
    intro A G d hA hG hd
    have hA : A < 2 := hA
    have hG : G < 2 := hG
    have : ∀ A, A < 2 → ∀ G, G < 2 → ∀ d ∈ circConnected two A G, d / 2 ≠ G := by decide +kernel
    exact this A hA G hG d hd
  refine ⟨by decide +kernel, wellWired (circ_sym two (by decide)) hcross, 2, 5, 2, by decide, ?_, ?_, ?_, ?_⟩
  · refine InFlight.hop (p := 1) (vc := 0) (q := 1) (InFlight.inject (s := 1) (by decide) (by decide)) ?_ ?_
    · exact ⟨_, .init, rfl, rfl⟩
    · show (⟨1, 5, 1, 1⟩ : Conn) ∈ conns two (circulant two) 1
      decide +kernel
  · exact ⟨_, .init, rfl, rfl⟩
  · have : ∀ c ∈ conns two (circulant two) 5, c.outport ≠ 2 := by decide +kernel
    intro t q hl
    exact this _ hl rfl
  · intro n hn
    have : inj two 5 = [] := by decide +kernel
    have hn : (n, 2) ∈ inj two 5 := hn
    rw [this] at hn
    cases hn

/-- Four groups of four, six links a spine switch, two nodes a leaf switch. -/
def demo : Par := { a := 4, g := 4, h := 6, conc := 2 }
example : AllOk demo := ⟨by decide, by decide, by decide, by decide, by decide⟩
example : Ok demo (allToAll demo) := C98_alltoall demo ⟨by decide, by decide, by decide, by decide, by decide⟩
example : links demo 0 1 = 2 ∧ links demo 0 5 = 3 ∧ numHopsToNode demo 0 11 = 3 ∧ numHopsToNode demo 0 1 = 2 := by decide
/-- A detour: from leaf 0 through spine 0 of group 0, group 2, to leaf 4 of group 1. -/
example : ((parRoute demo (spine demo 0 0) 8 PHdr.init parRot0 4 false).map fun x => (x.1, x.2.1)) = some (6, ⟨1, 0⟩) ∧
    ((parRoute demo (spine demo 0 2) 8 ⟨1, 0⟩ parRot0 0 true).map fun x => (x.1, x.2.1)) = some (6, ⟨1, 1⟩) := by decide +kernel

end SST.Topo.DragonflyPlus
