import Verif.Topo.DragonflyValiant
import Verif.Topo.DragonflyProps
/-
C95: Valiant, UGAL and PAR routing on the dragonfly.
-/
set_option autoImplicit false
namespace SST.Topo.Dragonfly
open SST.Topo

/-- Bound on the number of links of a minimal route. -/
def dd (P : Par) (W : Wiring) (s t : Nat) : Nat :=
  if s = t then 0 else if s / P.a = t / P.a then 1 else if directPorts P W s (t / P.a) ≠ [] then 2 else 3

theorem dd_self (P : Par) (W : Wiring) (s : Nat) : dd P W s s = 0 := by unfold dd; rw [if_pos rfl]

theorem dd_le (P : Par) (W : Wiring) (s t : Nat) : dd P W s t ≤ 3 := by
  unfold dd
  split
  · omega
  · split
    · omega
    · split <;> omega

theorem dd_pos {P : Par} {W : Wiring} {s t : Nat} (h : s ≠ t) : 1 ≤ dd P W s t := by
  unfold dd
  rw [if_neg h]
  split
  · omega
  · split <;> omega

theorem dd_group {P : Par} {W : Wiring} {s t : Nat} (h : s / P.a = t / P.a) : dd P W s t ≤ 1 := by
  unfold dd
  rw [if_pos h]
  split <;> omega

theorem dd_direct {P : Par} {W : Wiring} {s t : Nat} (h : directPorts P W s (t / P.a) ≠ []) : dd P W s t ≤ 2 := by
  unfold dd
  rw [if_pos h]
  split
  · omega
  · split <;> omega

/-- The counters stay within their vectors. -/
structure VOk (P : Par) (W : Wiring) (me : Nat) (st : VRot) : Prop where
  g : RotOk P W me st.grot
  w : ∀ i, gateways P W me i ≠ [] → st.wrot i < (gateways P W me i).length

theorem rotOk_next {P : Par} {W : Wiring} {me : Nat} {r : Nat → Nat} (h : RotOk P W me r) (dG : Nat) :
    RotOk P W me (fun i => if i = dG then (r dG + 1) % (groupPorts P W me dG).length else r i) := by
  intro i hi
  simp only
  split
  · rename_i e
    subst e
    exact Nat.mod_lt _ (List.length_pos_iff.2 hi)
  · exact h i hi

theorem wrot_next {P : Par} {W : Wiring} {me : Nat} {r : Nat → Nat} (h : ∀ i, gateways P W me i ≠ [] → r i < (gateways P W me i).length)
    (dG : Nat) : ∀ i, gateways P W me i ≠ [] →
      (if i = dG then (r dG + 1) % (gateways P W me dG).length else r i) < (gateways P W me i).length := by
  intro i hi
  split
  · rename_i e
    subst e
    exact Nat.mod_lt _ (List.length_pos_iff.2 hi)
  · exact h i hi

theorem toSwitch_ok {P : Par} {W : Wiring} {static : Bool} {me target ng : Nat} {r : Nat → Nat} (h : RotOk P W me r) {p ng' : Nat}
    {r' : Nat → Nat} (e : toSwitch P W static me target ng r = some (p, ng', r')) : RotOk P W me r' := by
  unfold toSwitch at e
  simp only at e
  split at e
  · cases e; exact h
  · split at e
    · cases e
    · split at e
      · cases e
      · cases e
        cases static with
        | true => exact h
        | false => exact rotOk_next h _

theorem ok_map {P : Par} {W : Wiring} {static : Bool} {me target ng : Nat} {st : VRot} (h : VOk P W me st)
    {f : Nat × Nat × (Nat → Nat) → Nat × VHdr × VRot} {x : Nat × VHdr × VRot}
    (hf : ∀ y, (f y).2.2 = { st with grot := y.2.2 })
    (e : (toSwitch P W static me target ng st.grot).map f = some x) : VOk P W me x.2.2 := by
  rw [Option.map_eq_some_iff] at e
  obtain ⟨y, h1, rfl⟩ := e
  rw [hf]
  exact ⟨toSwitch_ok (p := y.1) (ng' := y.2.1) (r' := y.2.2) h.g h1, h.w⟩

theorem ugalMin_ok {P : Par} {W : Wiring} {me ej ms : Nat} {hd : VHdr} {st : VRot} (h : VOk P W me st) {x : Nat × VHdr × VRot}
    (e : ugalMin P W me ej ms hd st = some x) : VOk P W me x.2.2 := by
  unfold ugalMin at e
  simp only at e
  split at e
  · cases e
  · split at e
    · cases e
    · cases e
      exact ⟨rotOk_next h.g _, wrot_next h.w _⟩

theorem valiantInter_ok {P : Par} {W : Wiring} {me n : Nat} {hd : VHdr} {st : VRot} (h : VOk P W me st) {x : Nat × VHdr × VRot}
    (e : valiantInter P W me n hd st = some x) : VOk P W me x.2.2 := by
  unfold valiantInter at e
  split at e
  · cases e
  · cases e
    exact ⟨h.g, wrot_next h.w _⟩

theorem vswitch_ok {A : Algo} {P : Par} {W : Wiring} {static : Bool} {me ej : Nat} {hd : VHdr} {st : VRot} (h : VOk P W me st)
    {new : Nat} {go : Bool} {x : Nat × VHdr × VRot} (e : vswitch A P W static me ej hd st new go = some x) : VOk P W me x.2.2 := by
  unfold vswitch at e
  split at e
  · split at e
    · split at e
      · split at e
        · cases e; exact h
        · cases e; exact h
      · cases e
    · split at e
      · exact ugalMin_ok h e
      · split at e
        · split at e
          · exact valiantInter_ok h e
          · exact ugalMin_ok h e
        · cases e
  · split at e
    · split at e
      · exact ok_map h (fun _ => rfl) e
      · exact ok_map h (fun _ => rfl) e
    · split at e
      · exact ok_map h (fun _ => rfl) e
      · split at e
        · exact ok_map h (fun _ => rfl) e
        · cases e

theorem vreach_ok {A : Algo} {P : Par} {W : Wiring} {static : Bool} {me : Nat} {st : VRot} (h : VReach A P W static me st) : VOk P W me st := by
  induction h with
  | init =>
    exact ⟨fun dG h => Nat.mod_lt _ (List.length_pos_iff.2 h), fun i h => Nat.mod_lt _ (List.length_pos_iff.2 h)⟩
  | route _ e ih =>
    unfold vroute at e
    simp only at e
    split at e
    · cases e; exact ih
    · split at e
      · cases e
      · rename_i x hx
        split at e
        · cases e
        · cases e
          exact vswitch_ok ih hx

section
variable {P : Par} {W : Wiring}
  (hlen : ∀ A G, A < P.a → G < P.g → (W.connected A G).length ≤ P.h)
  (hlt : ∀ A G d, A < P.a → G < P.g → d ∈ W.connected A G → d < P.a * P.g) (hfar : Far P W) (hna : NoAbort P W)
include hlen hlt hfar

/-- A port that the constructor lists for a group leads into it, or to a switch of the own
group with a link to it. -/
theorem port_kind {me dG p : Nat} (hs : me < P.a * P.g) (hdG : dG < P.g) (hne : dG ≠ me / P.a) (hp : p ∈ groupPorts P W me dG) :
    p < P.a + P.h ∧ ∃ u q, (net P W).Link me p u q ∧ u < P.a * P.g ∧
      ((u / P.a = dG ∧ directPorts P W me dG ≠ []) ∨
       (u / P.a = me / P.a ∧ directPorts P W u dG ≠ [] ∧ directPorts P W me dG = [])) := by
  obtain ⟨hA, hG⟩ := split_lt hs
  unfold groupPorts at hp
  rw [if_neg (show ¬ dG = computeG P me from hne)] at hp
  split at hp
  · rename_i hdir
    obtain ⟨i, d, h1, h2, rfl⟩ := (mem_direct hne).1 hp
    have := hlen _ _ hA hG
    have := (List.getElem?_eq_some_iff.1 h1).1
    refine ⟨by omega, d, W.inport (me % P.a) (me / P.a) i (d % P.a) (d / P.a) + P.a, ?_,
      hlt _ _ _ hA hG (List.mem_of_getElem? h1), Or.inl ⟨h2, hdir⟩⟩
    rw [link_iff]
    exact Or.inr ⟨i, h1, by rw [h2]; exact hne, rfl, rfl⟩
  · rename_i hdir
    simp only [ne_eq, Decidable.not_not] at hdir
    rw [List.mem_map] at hp
    obtain ⟨x, hx, rfl⟩ := hp
    obtain ⟨hxa, d, hdm, hdg⟩ := hfar.far _ _ _ x hG hdG (fun h => hne h.symm) hx
    have hxme : x.1 ≠ me % P.a := by
      intro h
      have : directPorts P W me dG ≠ [] := by
        rw [direct_ne_nil hne]
        exact ⟨d, by rw [← h]; exact hdm, hdg⟩
      exact this hdir
    refine ⟨by omega, x.1 + me / P.a * P.a, me % P.a, ?_, uid_lt hxa hG, Or.inr ⟨uid_div hxa, ?_, hdir⟩⟩
    · rw [link_iff]
      exact Or.inl ⟨hxa, hxme, rfl, rfl⟩
    · rw [direct_ne_nil (by rw [uid_div hxa]; exact hne), uid_div hxa, uid_mod hxa]
      exact ⟨d, hdm, hdg⟩

include hna

/-- Every group has a link to every other group. -/
theorem groups_linked {G dG : Nat} (ha : 0 < P.a) (hG : G < P.g) (hdG : dG < P.g) (hne : dG ≠ G) :
    ∃ A d, A < P.a ∧ d ∈ W.connected A G ∧ d / P.a = dG := by
  have hs : 0 + G * P.a < P.a * P.g := uid_lt ha hG
  have hg : (0 + G * P.a) / P.a = G := uid_div ha
  have hn := groupPorts_ne_nil hna hs hdG (by rw [hg]; exact hne)
  obtain ⟨p, hp⟩ := List.exists_mem_of_ne_nil _ hn
  obtain ⟨_, u, q, _, hu, h⟩ := port_kind hlen hlt hfar hs hdG (by rw [hg]; exact hne) hp
  have use : ∀ s, s < P.a * P.g → s / P.a = G → directPorts P W s dG ≠ [] → ∃ A d, A < P.a ∧ d ∈ W.connected A G ∧ d / P.a = dG := by
    intro s hs hsg hd
    rw [direct_ne_nil (by rw [hsg]; exact hne)] at hd
    obtain ⟨d, h1, h2⟩ := hd
    exact ⟨s % P.a, d, (split_lt hs).1, by rw [hsg] at h1; exact h1, h2⟩
  rcases h with ⟨_, h⟩ | ⟨h1, h2, _⟩
  · exact use _ hs hg h
  · exact use u hu (h1.trans hg) h2

/-- The next hop towards a switch. -/
theorem toSwitch_step {static : Bool} {me t ng : Nat} (hs : me < P.a * P.g) (ht : t < P.a * P.g) (hne : me ≠ t) {r : Nat → Nat}
    (hr : RotOk P W me r) : ∃ p ng' r', toSwitch P W static me t ng r = some (p, ng', r') ∧
      ∃ u q, (net P W).Link me p u q ∧ u < P.a * P.g ∧ dd P W u t + 1 ≤ dd P W me t := by
  obtain ⟨hA, hG⟩ := split_lt hs
  obtain ⟨htA, htG⟩ := split_lt ht
  unfold toSwitch computeG computeA
  simp only
  by_cases eg : t / P.a = me / P.a
  · rw [if_pos eg]
    refine ⟨_, _, _, rfl, t, me % P.a, ?_, ht, ?_⟩
    · rw [link_iff]
      left
      refine ⟨htA, ?_, ?_, rfl⟩
      · intro h
        apply hne
        rw [← uid_eq P t, ← uid_eq P me, h, eg]
      · rw [← eg]
        exact (uid_eq P t).symm
    · rw [dd_self]
      exact dd_pos hne
  rw [if_neg eg]
  have hnn := groupPorts_ne_nil hna hs htG eg
  have hpos := List.length_pos_iff.2 hnn
  have fin : ∀ (idx : Nat) (rot' : Nat → Nat), idx < (groupPorts P W me (t / P.a)).length → ∃ p ng' r',
      (match (groupPorts P W me (t / P.a))[idx]? with
        | none => none
        | some p => if P.a + P.h ≤ p then none else some (p, if P.a ≤ p then (ng + 1) % 4 else ng, rot')) = some (p, ng', r') ∧
      ∃ u q, (net P W).Link me p u q ∧ u < P.a * P.g ∧ dd P W u t + 1 ≤ dd P W me t := by
    intro idx rot' hi
    rw [List.getElem?_eq_getElem hi]
    obtain ⟨h1, u, q, h2, h3, h4⟩ := port_kind hlen hlt hfar hs htG eg (List.getElem_mem hi)
    refine ⟨_, _, rot', by simp only; rw [if_neg (by omega)], u, q, h2, h3, ?_⟩
    have e2 : dd P W me t = if directPorts P W me (t / P.a) ≠ [] then 2 else 3 := by
      unfold dd
      rw [if_neg hne, if_neg (fun h => eg h.symm)]
    rcases h4 with ⟨h4, h5⟩ | ⟨h4, h5, h6⟩
    · rw [e2, if_pos h5]
      have := dd_group (W := W) h4
      omega
    · rw [e2, if_neg (by rw [h6]; simp)]
      have := dd_direct h5
      omega
  cases static with
  | true => exact fin (t % _) r (Nat.mod_lt _ hpos)
  | false => exact fin (r (t / P.a)) _ (hr _ hnn)

omit hna hlen hlt hfar in
theorem foldl_some {α : Type} (p : Nat → Bool) (f : Nat → α) (l : List Nat) (acc : Option α) :
    ((∃ a ∈ l, p a) → ∃ a ∈ l, p a = true ∧ l.foldl (fun x a => if p a then some (f a) else x) acc = some (f a)) ∧
    ((∀ a ∈ l, ¬ p a) → l.foldl (fun x a => if p a then some (f a) else x) acc = acc) := by
  induction l generalizing acc with
  | nil => exact ⟨fun ⟨_, h, _⟩ => by simp at h, fun _ => rfl⟩
  | cons b l ih =>
    rw [List.foldl_cons]
    constructor
    · intro h
      by_cases hl : ∃ a ∈ l, p a
      · obtain ⟨a, h1, h2, h3⟩ := (ih (if p b then some (f b) else acc)).1 hl
        exact ⟨a, List.mem_cons_of_mem _ h1, h2, h3⟩
      · have hl' : ∀ a ∈ l, ¬ p a := fun a ha hp => hl ⟨a, ha, hp⟩
        rw [(ih _).2 hl']
        obtain ⟨a, ha, hp⟩ := h
        rcases List.mem_cons.1 ha with e | e
        · subst e
          exact ⟨a, List.mem_cons_self, hp, by rw [if_pos hp]⟩
        · exact absurd hp (hl' a e)
    · intro h
      rw [(ih _).2 (fun a ha => h a (List.mem_cons_of_mem _ ha)), if_neg (h b List.mem_cons_self)]

/-- The search for an extra hop succeeds. -/
theorem detour_some {me i G : Nat} (hs : me < P.a * P.g) (hi : i < P.g) (hG : G < P.g) (hne : i ≠ G) :
    ∃ a, a < P.a ∧ detour P W me i G = some (a + G * P.a) := by
  obtain ⟨hA, _⟩ := split_lt hs
  have ha : 0 < P.a := by omega
  obtain ⟨A, d, h1, h2, h3⟩ := groups_linked hlen hlt hfar hna ha hG hi hne
  unfold detour
  obtain ⟨a, g1, _, g2⟩ := (foldl_some (fun a => (W.connected ((a + computeA P me) % P.a) G).any (fun sid => computeG P sid == i))
    (fun a => getUid P a G) (List.range P.a) none).1 ⟨(A + P.a - me % P.a) % P.a, List.mem_range.2 (Nat.mod_lt _ ha), by
      have e : ((A + P.a - me % P.a) % P.a + computeA P me) % P.a = A := by
        unfold computeA
        rw [Nat.mod_add_mod, Nat.sub_add_cancel (by omega), Nat.add_mod_right]
        exact Nat.mod_eq_of_lt h1
      rw [e, List.any_eq_true]
      exact ⟨d, h2, by rw [beq_iff_eq]; exact h3⟩⟩
  exact ⟨a, List.mem_range.1 g1, g2⟩

/-- The entries of `group_gateways_`: after the first hop at most two more lead to the
recorded switch. -/
theorem gateway_kind {me i : Nat} (hs : me < P.a * P.g) (hi : i < P.g) (hne : i ≠ me / P.a) {x : Nat × Nat} (hx : x ∈ gateways P W me i) :
    x.2 < P.a * P.g ∧ ∃ u q, (net P W).Link me x.1 u q ∧ u < P.a * P.g ∧ dd P W u x.2 ≤ 2 := by
  obtain ⟨hA, hG⟩ := split_lt hs
  unfold gateways at hx
  split at hx
  · unfold gateBase computeA computeG at hx
    simp only [List.mem_flatMap, List.mem_filter, List.mem_range, List.mem_map, decide_eq_true_eq, beq_iff_eq] at hx
    obtain ⟨a, ⟨h1, h2⟩, sid, ⟨h3, h4⟩, rfl⟩ := hx
    refine ⟨hlt _ _ _ h1 hG h3, a + me / P.a * P.a, me % P.a, ?_, uid_lt h1 hG, ?_⟩
    · rw [link_iff]
      exact Or.inl ⟨h1, h2, rfl, rfl⟩
    · apply dd_direct
      rw [h4, direct_ne_nil (by rw [uid_div h1]; exact hne), uid_div h1, uid_mod h1]
      exact ⟨sid, h3, h4⟩
  · simp only [List.mem_filterMap, Option.map_eq_some_iff] at hx
    obtain ⟨G, hm, dest, hd, rfl⟩ := hx
    unfold interGroups computeG at hm
    simp only [List.mem_filter, List.mem_range, Bool.and_eq_true, decide_eq_true_eq] at hm
    obtain ⟨hGl, hG1, hG2⟩ := hm
    obtain ⟨a, ha, e⟩ := detour_some hlen hlt hfar hna hs hi hGl (fun e => hG2 e.symm)
    rw [hd] at e
    cases e
    refine ⟨uid_lt ha hGl, ?_⟩
    have hnn := groupPorts_ne_nil hna hs hGl hG1
    have hpos := List.length_pos_iff.2 hnn
    have hidx := Nat.mod_lt (computeA P me) hpos
    simp only [List.getD_eq_getElem?_getD, List.getElem?_eq_getElem hidx, Option.getD_some]
    obtain ⟨_, u, q, h2, h3, h4⟩ := port_kind hlen hlt hfar hs hGl hG1 (List.getElem_mem hidx)
    refine ⟨u, q, h2, h3, ?_⟩
    rcases h4 with ⟨h4, _⟩ | ⟨_, h5, _⟩
    · have := dd_group (P := P) (W := W) (s := u) (t := a + G * P.a) (by rw [uid_div ha]; exact h4)
      omega
    · exact dd_direct (by rw [uid_div ha]; exact h5)

omit hlen hlt hfar hna in
/-- A third number. -/
theorem third {n x y : Nat} (h : 3 ≤ n) : ∃ z, z < n ∧ z ≠ x ∧ z ≠ y := by
  by_cases h0 : 0 ≠ x ∧ 0 ≠ y
  · exact ⟨0, by omega, h0⟩
  · by_cases h1 : 1 ≠ x ∧ 1 ≠ y
    · exact ⟨1, by omega, h1⟩
    · exact ⟨2, by omega, by omega, by omega⟩

/-- Every group has entries, with three groups. -/
theorem gateways_ne_nil {me i : Nat} (hg : 3 ≤ P.g) (hs : me < P.a * P.g) (hi : i < P.g) : gateways P W me i ≠ [] := by
  unfold gateways
  split
  · assumption
  · obtain ⟨z, h1, h2, h3⟩ := third (x := me / P.a) (y := i) hg
    obtain ⟨a, _, e⟩ := detour_some hlen hlt hfar hna hs hi h1 (fun e => h3 e.symm)
    apply List.ne_nil_of_mem (a := _)
    rw [List.mem_filterMap]
    refine ⟨z, ?_, by rw [e]; rfl⟩
    unfold interGroups computeG
    simp only [List.mem_filter, List.mem_range, Bool.and_eq_true, decide_eq_true_eq]
    exact ⟨h1, h2, h3⟩

end

/-- What a header on its way says. -/
structure VHok (A : Algo) (P : Par) (h : VHdr) : Prop where
  stage : h.stage ≤ 2 ∨ (h.stage = 3 ∧ A = .ugal)
  dest : h.stage = 1 → h.dest < P.a * P.g

/-- Bound on the links left. -/
def vleft (A : Algo) (P : Par) (W : Wiring) (ej s : Nat) (h : VHdr) : Nat :=
  if s = ej then 0
  else if h.stage = 0 then
    if A = .par then (if s / P.a = ej / P.a then 2 else if directPorts P W s (ej / P.a) ≠ [] then 6 else 7) else 6
  else if h.stage = 1 then dd P W s h.dest + dd P W h.dest ej
  else dd P W s ej

/-- Bound on the length of a route. -/
def maxHops : Algo → Nat
  | .par => 7
  | _ => 6

section
variable {A : Algo} {P : Par} {W : Wiring} {static : Bool}
  (hlen : ∀ A G, A < P.a → G < P.g → (W.connected A G).length ≤ P.h)
  (hlt : ∀ A G d, A < P.a → G < P.g → d ∈ W.connected A G → d < P.a * P.g) (hfar : Far P W) (hna : NoAbort P W)
  (hN : P.a * P.g ≤ 2 ^ 24)
include hlen hlt hfar hna hN

/-- A decision of `vswitch`. -/
def VStep (A : Algo) (P : Par) (W : Wiring) (ej me : Nat) (h : VHdr) (x : Nat × VHdr × VRot) : Prop :=
  VHok A P x.2.1 ∧ x.2.1.nhops = h.nhops ∧ ∃ u q, (net P W).Link me x.1 u q ∧ u < P.a * P.g ∧ vleft A P W ej u x.2.1 + 1 ≤ vleft A P W ej me h

omit hlen hlt hfar hna hN in
theorem vleft_le {ej s : Nat} {h : VHdr} (h0 : h.stage ≠ 0) : (h.stage = 1 → vleft A P W ej s h ≤ dd P W s h.dest + dd P W h.dest ej) ∧
    (h.stage ≠ 1 → vleft A P W ej s h ≤ dd P W s ej) := by
  unfold vleft
  rw [if_neg h0]
  constructor
  · intro h1
    rw [if_pos h1]
    split <;> omega
  · intro h1
    rw [if_neg h1]
    split <;> omega

/-- Towards the destination. -/
theorem final_step {me ej : Nat} {h : VHdr} {st : VRot} (hs : me < P.a * P.g) (hej : ej < P.a * P.g) (hne : me ≠ ej) (hst : VOk P W me st)
    (hh : VHok A P h) (hd : dd P W me ej ≤ vleft A P W ej me h) :
    ∃ x, finalTo P W static me ej h st = some x ∧ VStep A P W ej me h x := by
  obtain ⟨p, ng', r', e, u, q, h1, h2, h3⟩ := toSwitch_step (static := static) (ng := h.ng) hlen hlt hfar hna hs hej hne hst.g
  refine ⟨_, by unfold finalTo; rw [e]; rfl, ⟨Or.inl (Nat.le_refl 2), fun h => by simp at h⟩, rfl, u, q, h1, h2, ?_⟩
  have := (vleft_le (A := A) (P := P) (W := W) (ej := ej) (s := u) (h := { h with ng := ng', stage := 2, dest := ej % 2 ^ 24 }) (by simp)).2 (by simp)
  simp only at this ⊢
  omega

/-- Towards a switch recorded in the header, or minimal only. -/
theorem to_step {me ej t : Nat} {h : VHdr} {st : VRot} (hs : me < P.a * P.g) (ht : t < P.a * P.g) (hne : me ≠ t) (hst : VOk P W me st)
    (hh : VHok A P h) (hmin : ∀ u ng', dd P W u t + 1 ≤ dd P W me t → vleft A P W ej u { h with ng := ng' } + 1 ≤ vleft A P W ej me h) :
    ∃ x, (toSwitch P W static me t h.ng st.grot).map (fun x => (x.1, { h with ng := x.2.1 }, ({ st with grot := x.2.2 } : VRot))) = some x ∧
      VStep A P W ej me h x := by
  obtain ⟨p, ng', r', e, u, q, h1, h2, h3⟩ := toSwitch_step (static := static) (ng := h.ng) hlen hlt hfar hna hs ht hne hst.g
  exact ⟨_, by rw [e]; rfl, ⟨hh.stage, hh.dest⟩, rfl, u, q, h1, h2, hmin u ng' h3⟩

/-- The minimal branch. -/
theorem ugalMin_step {me ej : Nat} {h : VHdr} {st : VRot} (hs : me < P.a * P.g) (hej : ej < P.a * P.g) (hne : ej / P.a ≠ me / P.a)
    (hst : VOk P W me st) (h0 : h.stage = 0) (hA : A ≠ .valiant) (hgt : gateways P W me (ej / P.a) ≠ []) :
    ∃ x, ugalMin P W me ej (minStage A) h st = some x ∧ VStep A P W ej me h x := by
  obtain ⟨_, hdG⟩ := split_lt hej
  have hnn := groupPorts_ne_nil hna hs hdG hne
  have hi := hst.g _ hnn
  obtain ⟨_, u, q, h2, h3, h4⟩ := port_kind hlen hlt hfar hs hdG hne (List.getElem_mem hi)
  refine ⟨_, by
    unfold ugalMin computeG
    simp only
    rw [List.getElem?_eq_getElem hi]
    simp only
    rw [if_neg hgt], ⟨?_, ?_⟩, rfl, u, q, h2, h3, ?_⟩
  · cases A with
    | valiant => exact absurd rfl hA
    | ugal => exact Or.inr ⟨rfl, rfl⟩
    | par => exact Or.inl (Nat.zero_le 2)
  · intro h; cases A <;> simp [minStage] at h
  · have hme : ¬ me = ej := fun e => hne (by rw [e])
    have hme' : ¬ me / P.a = ej / P.a := fun e => hne e.symm
    cases A with
    | valiant => exact absurd rfl hA
    | ugal =>
      have := (vleft_le (A := .ugal) (P := P) (W := W) (ej := ej) (s := u) (h := { h with dest := ej % 2 ^ 24, stage := 3 }) (by simp)).2 (by simp)
      have e : vleft .ugal P W ej me h = 6 := by unfold vleft; rw [if_neg hme, if_pos h0, if_neg (by decide)]
      have := dd_le P W u ej
      simp only [minStage] at *
      omega
    | par =>
      have e : vleft .par P W ej me h = if directPorts P W me (ej / P.a) ≠ [] then 6 else 7 := by
        unfold vleft; rw [if_neg hme, if_pos h0, if_pos rfl, if_neg hme']
      have e2 : vleft .par P W ej u { h with dest := ej % 2 ^ 24, stage := 0 } ≤
          if u / P.a = ej / P.a then 2 else if directPorts P W u (ej / P.a) ≠ [] then 6 else 7 := by
        unfold vleft
        split
        · omega
        · rw [if_pos rfl, if_pos rfl]; exact Nat.le_refl _
      simp only [minStage]
      rw [e]
      rcases h4 with ⟨h4, h5⟩ | ⟨h4, h5, h6⟩
      · rw [if_pos h4] at e2
        rw [if_pos h5]
        omega
      · rw [if_neg (by rw [h4]; exact hme'), if_pos h5] at e2
        rw [if_neg (by rw [h6]; simp)]
        omega

/-- The Valiant branch between groups. -/
theorem valiantInter_step {me ej n : Nat} {h : VHdr} {st : VRot} (hs : me < P.a * P.g) (hne : ej / P.a ≠ me / P.a)
    (hst : VOk P W me st) (h0 : h.stage = 0) (hn : n < P.g) (hnm : n ≠ me / P.a) (hgt : gateways P W me n ≠ []) :
    ∃ x, valiantInter P W me n h st = some x ∧ VStep A P W ej me h x := by
  have hi := hst.w _ hgt
  obtain ⟨h1, u, q, h2, h3, h4⟩ := gateway_kind hlen hlt hfar hna hs hn hnm (List.getElem_mem hi)
  have hm := Nat.mod_eq_of_lt (Nat.lt_of_lt_of_le h1 hN)
  refine ⟨_, by unfold valiantInter; rw [List.getElem?_eq_getElem hi], ⟨Or.inl (by simp), fun _ => ?_⟩, rfl, u, q, h2, h3, ?_⟩
  · show _ % 2 ^ 24 < _
    rw [hm]; exact h1
  · have e : 6 ≤ vleft A P W ej me h := by
      unfold vleft
      rw [if_neg (fun e => hne (by rw [e])), if_pos h0]
      split
      · rw [if_neg (fun e => hne e.symm)]; split <;> omega
      · omega
    have := (vleft_le (A := A) (P := P) (W := W) (ej := ej) (s := u)
      (h := { h with dest := ((gateways P W me n)[st.wrot n]).2 % 2 ^ 24, stage := 1 }) (by simp)).1 rfl
    simp only [hm] at this ⊢
    have := dd_le P W ((gateways P W me n)[st.wrot n]).2 ej
    omega

/-- Every decision that `vswitch` can make. -/
theorem vswitch_step {me ej : Nat} {h : VHdr} {st : VRot} (hs : me < P.a * P.g) (hej : ej < P.a * P.g) (hne : me ≠ ej)
    (hst : VOk P W me st) (hh : VHok A P h) (hdr : ∀ s i, s < P.a * P.g → i < P.g → i ≠ s / P.a → gateways P W s i ≠ []) :
    (∀ new go x, vswitch A P W static me ej h st new go = some x → VStep A P W ej me h x) ∧
    (P.a ≠ 2 → (A = .valiant → P.g ≠ 2) → ∃ new go x, vswitch A P W static me ej h st new go = some x) := by
  obtain ⟨hmA, hmG⟩ := split_lt hs
  obtain ⟨heA, heG⟩ := split_lt hej
  have key : ∀ {f : Option (Nat × VHdr × VRot)} {x : Nat × VHdr × VRot}, (∃ y, f = some y ∧ VStep A P W ej me h y) → f = some x → VStep A P W ej me h x := by
    intro f x ⟨y, h1, h2⟩ h3
    rw [h1] at h3; cases h3; exact h2
  by_cases h0 : h.stage = 0
  · by_cases hg : ej / P.a = me / P.a
    · have hAne : me % P.a ≠ ej % P.a := by
        intro e
        apply hne
        rw [← uid_eq P me, ← uid_eq P ej, e, hg]
      have link : ∀ n, n < P.a → n ≠ me % P.a → (net P W).Link me n (n + me / P.a * P.a) (me % P.a) := by
        intro n h1 h2
        rw [link_iff]; exact Or.inl ⟨h1, h2, rfl, rfl⟩
      constructor
      · intro new go x e
        unfold vswitch at e
        rw [if_pos h0, if_pos (show computeG P ej = computeG P me from hg)] at e
        split at e
        · rename_i hnew
          unfold computeA at hnew
          obtain ⟨n1, n2, n3⟩ := hnew
          have hu := uid_lt n1 hmG
          have hm := Nat.mod_eq_of_lt (Nat.lt_of_lt_of_le hu hN)
          have lo : 2 ≤ vleft A P W ej me h := by
            unfold vleft
            rw [if_neg hne, if_pos h0]
            split
            · rw [if_pos hg.symm]; omega
            · omega
          split at e
          · cases e
            refine ⟨⟨Or.inl (by simp), fun _ => ?_⟩, rfl, _, _, link new n1 n2, hu, ?_⟩
            · show getUid P new (computeG P me) % 2 ^ 24 < _
              unfold getUid computeG
              rw [hm]; exact hu
            · have := (vleft_le (A := A) (P := P) (W := W) (ej := ej) (s := new + me / P.a * P.a)
                (h := { h with dest := getUid P new (computeG P me) % 2 ^ 24, stage := 1 }) (by simp)).1 rfl
              simp only [getUid, computeG, hm] at this ⊢
              rw [dd_self] at this
              have := dd_group (P := P) (W := W) (s := new + me / P.a * P.a) (t := ej) (by rw [uid_div n1]; exact hg.symm)
              omega
          · rename_i hgo
            cases e
            refine ⟨⟨?_, ?_⟩, rfl, ej, me % P.a, ?_, hej, ?_⟩
            · cases A with
              | valiant => exact absurd (Or.inl rfl) hgo
              | ugal => exact Or.inr ⟨rfl, rfl⟩
              | par => exact Or.inl (Nat.zero_le 2)
            · intro h; cases A <;> simp [minStage] at h
            · have := link (ej % P.a) heA (fun e => hAne e.symm)
              rw [← hg, uid_eq] at this
              exact this
            · have : vleft A P W ej ej { h with dest := ej % 2 ^ 24, stage := minStage A } = 0 := by unfold vleft; rw [if_pos rfl]
              simp only at this ⊢
              omega
        · cases e
      · intro ha _
        obtain ⟨z, z1, z2, z3⟩ := third (n := P.a) (x := me % P.a) (y := ej % P.a) (by
          generalize me % P.a = u at hmA hAne
          generalize ej % P.a = v at heA hAne
          omega)
        refine ⟨z, true, (z, { h with dest := getUid P z (computeG P me) % 2 ^ 24, stage := 1 }, st), ?_⟩
        · unfold vswitch
          rw [if_pos h0, if_pos (show computeG P ej = computeG P me from hg), if_pos ⟨z1, z2, z3⟩, if_pos (Or.inr rfl)]
          rfl
    · have hgc : ¬ computeG P ej = computeG P me := hg
      have hgt := hdr me (ej / P.a) hs heG hg
      constructor
      · intro new go x e
        unfold vswitch at e
        rw [if_pos h0, if_neg hgc] at e
        split at e
        · rename_i hA
          exact key (ugalMin_step hlen hlt hfar hna hN hs hej hg hst h0 hA.1 hgt) e
        · split at e
          · rename_i hnew
            split at e
            · exact key (valiantInter_step hlen hlt hfar hna hN hs hg hst h0 hnew.1 hnew.2.1 (hdr me new hs hnew.1 hnew.2.1)) e
            · rename_i hgo
              exact key (ugalMin_step hlen hlt hfar hna hN hs hej hg hst h0 (fun e => hgo (Or.inl e)) hgt) e
          · cases e
      · intro _ hv
        by_cases hA : A ≠ .valiant ∧ P.g ≤ 2
        · obtain ⟨x, e, _⟩ := ugalMin_step hlen hlt hfar hna hN hs hej hg hst h0 hA.1 hgt
          refine ⟨0, false, x, ?_⟩
          unfold vswitch
          rw [if_pos h0, if_neg hgc, if_pos hA]
          exact e
        · have h2 : 2 ≤ P.g := by
            generalize me / P.a = u at hmG hg
            generalize ej / P.a = v at heG hg
            omega
          have h3 : 3 ≤ P.g := by
            by_cases e : A = .valiant
            · have := hv e
              omega
            · have : ¬ P.g ≤ 2 := fun h => hA ⟨e, h⟩
              omega
          obtain ⟨z, z1, z2, z3⟩ := third (n := P.g) (x := me / P.a) (y := ej / P.a) h3
          obtain ⟨x, e, _⟩ := valiantInter_step (A := A) (ej := ej) hlen hlt hfar hna hN hs hg hst h0 z1 z2 (hdr me z hs z1 z2)
          refine ⟨z, true, x, ?_⟩
          unfold vswitch
          rw [if_pos h0, if_neg hgc, if_neg hA, if_pos ⟨z1, z2, z3⟩, if_pos (Or.inr rfl)]
          exact e
  · -- later stages: neither draws nor queue lengths matter
    have main : ∃ x, (∀ new go, vswitch A P W static me ej h st new go = some x) ∧ VStep A P W ej me h x := by
      by_cases h1 : h.stage = 1
      · have hd := hh.dest h1
        have hv : vleft A P W ej me h = dd P W me h.dest + dd P W h.dest ej := by
          unfold vleft; rw [if_neg hne, if_neg h0, if_pos h1]
        by_cases e : me = h.dest
        · obtain ⟨x, e1, e2⟩ := final_step (A := A) (static := static) hlen hlt hfar hna hN hs hej hne hst hh (by rw [hv, ← e, dd_self]; omega)
          exact ⟨x, fun new go => by unfold vswitch; rw [if_neg h0, if_pos h1, if_pos e]; exact e1, e2⟩
        · obtain ⟨x, e1, e2⟩ := to_step (A := A) (static := static) (ej := ej) hlen hlt hfar hna hN hs hd e hst hh (by
            intro u ng' hu
            rw [hv]
            have := (vleft_le (A := A) (P := P) (W := W) (ej := ej) (s := u) (h := { h with ng := ng' }) h0).1 h1
            simp only at this
            omega)
          exact ⟨x, fun new go => by unfold vswitch; rw [if_neg h0, if_pos h1, if_neg e]; exact e1, e2⟩
      · have hv : vleft A P W ej me h = dd P W me ej := by
          unfold vleft; rw [if_neg hne, if_neg h0, if_neg h1]
        by_cases h2 : h.stage = 2
        · obtain ⟨x, e1, e2⟩ := final_step (A := A) (static := static) hlen hlt hfar hna hN hs hej hne hst hh (by omega)
          exact ⟨x, fun new go => by unfold vswitch; rw [if_neg h0, if_neg h1, if_pos h2]; exact e1, e2⟩
        · have h3 : h.stage = 3 ∧ A = .ugal := by
            rcases hh.stage with h3 | h3
            · omega
            · exact h3
          obtain ⟨x, e1, e2⟩ := to_step (A := A) (static := static) (ej := ej) hlen hlt hfar hna hN hs hej hne hst hh (by
            intro u ng' hu
            rw [hv]
            have := (vleft_le (A := A) (P := P) (W := W) (ej := ej) (s := u) (h := { h with ng := ng' }) h0).2 h1
            omega)
          exact ⟨x, fun new go => by unfold vswitch; rw [if_neg h0, if_neg h1, if_neg h2, if_pos h3]; exact e1, e2⟩
    obtain ⟨x, e, hx⟩ := main
    refine ⟨fun new go y hy => ?_, fun _ _ => ⟨0, true, x, e 0 true⟩⟩
    rw [e] at hy; cases hy; exact hx

/-- One decision of the router. -/
inductive VKind (A : Algo) (P : Par) (W : Wiring) (node me : Nat) (h : VHdr) (p vc : Nat) (h' : VHdr) : Prop
  | eject (h1 : node / P.conc = me) (h2 : p = P.a + P.h + node % P.conc) (h3 : vc = 0)
  | hop (u q : Nat) (h1 : node / P.conc ≠ me) (h2 : vc = h.nhops) (h3 : h'.nhops = (h.nhops + 1) % 16) (h4 : VHok A P h')
      (h5 : (net P W).Link me p u q) (h6 : u < P.a * P.g) (h7 : vleft A P W (node / P.conc) u h' + 1 ≤ vleft A P W (node / P.conc) me h)

omit hlen hlt hfar hna hN in
theorem ejsw_lt {node : Nat} (hn : node < P.a * P.g * P.conc) : node / P.conc < P.a * P.g :=
  Nat.div_lt_of_lt_mul (by rw [Nat.mul_comm]; exact hn)

variable (hdr : ∀ s i, s < P.a * P.g → i < P.g → i ≠ s / P.a → gateways P W s i ≠ [])
include hdr

theorem vkind {me node : Nat} {h h' : VHdr} {p vc : Nat} (hs : me < P.a * P.g) (hn : node < P.a * P.g * P.conc) (hh : VHok A P h)
    (hr : vrouter A P W static me node h p vc h') : VKind A P W node me h p vc h' := by
  obtain ⟨st, st', new, go, hst, e⟩ := hr
  have hej := ejsw_lt hn
  unfold vroute at e
  simp only at e
  split at e
  · rename_i h1
    cases e
    exact VKind.eject h1 rfl rfl
  · rename_i hne
    split at e
    · cases e
    · rename_i x hx
      split at e
      · cases e
      · cases e
        obtain ⟨h1, h2, u, q, h3, h4, h5⟩ := (vswitch_step (static := static) hlen hlt hfar hna hN hs hej (fun e => hne e.symm)
          (vreach_ok hst) hh hdr).1 new go x hx
        refine VKind.hop u q hne rfl rfl ⟨h1.stage, h1.dest⟩ h3 h4 ?_
        unfold vleft at h5 ⊢
        exact h5

theorem vdecides {me node : Nat} {h : VHdr} (ha : P.a ≠ 2) (hg : A = .valiant → P.g ≠ 2) (hs : me < P.a * P.g)
    (hn : node < P.a * P.g * P.conc) (hh : VHok A P h) (hv : A = .ugal → h.nhops < 6) {st : VRot} (hst : VReach A P W static me st) :
    ∃ new go p vc h' st', vroute A P W static me node h st new go = some (p, vc, h', st') := by
  have hej := ejsw_lt hn
  unfold vroute
  by_cases e : node / P.conc = me
  · exact ⟨0, true, _, _, _, _, by simp only; rw [if_pos e]⟩
  · obtain ⟨new, go, x, hx⟩ := (vswitch_step (A := A) (static := static) hlen hlt hfar hna hN hs hej (fun h => e h.symm)
      (vreach_ok hst) hh hdr).2 ha hg
    refine ⟨new, go, x.1, h.nhops, { x.2.1 with nhops := (h.nhops + 1) % 16 }, x.2.2, ?_⟩
    simp only
    rw [if_neg e, hx]
    simp only
    rw [if_neg]
    intro ⟨h1, h2⟩
    have := hv h1
    unfold numVC at h2
    omega

/-- Delivery from any point of a route. -/
theorem vwithin (ha : P.a ≠ 2) (hg : A = .valiant → P.g ≠ 2) (hc : 0 < P.conc) {node : Nat} (hn : node < P.a * P.g * P.conc) :
    ∀ (n me : Nat) (h : VHdr), me < P.a * P.g → VHok A P h → vleft A P W (node / P.conc) me h ≤ n → h.nhops + n ≤ maxHops A →
      DeliversWithin (net P W) (vrouter A P W static) (maxHops A) node n me h := by
  have hej := ejsw_lt hn
  have hmax : maxHops A ≤ 7 := by cases A <;> decide
  have hB : 0 < maxHops A := by cases A <;> decide
  have inj : ∀ p, p = P.a + P.h + node % P.conc → (node, p) ∈ (net P W).inj (node / P.conc) := by
    intro p e
    subst e
    show _ ∈ inj P _
    unfold inj
    rw [List.mem_map]
    refine ⟨node % P.conc, List.mem_range.2 (Nat.mod_lt _ hc), ?_⟩
    rw [Nat.mul_comm, Nat.div_add_mod]
  have dec : ∀ {me : Nat} {h : VHdr}, me < P.a * P.g → VHok A P h → (node / P.conc ≠ me → h.nhops < maxHops A) →
      ∃ p vc h', vrouter A P W static me node h p vc h' := by
    intro me h hs hh hv
    by_cases e : node / P.conc = me
    · exact ⟨P.a + P.h + node % P.conc, 0, h, _, _, 0, true, VReach.init, by unfold vroute; simp only; rw [if_pos e]⟩
    · obtain ⟨new, go, p, vc, h', st', hr⟩ := vdecides (static := static) hlen hlt hfar hna hN hdr ha hg hs hn hh
        (fun hA => by have := hv e; subst hA; exact this) VReach.init
      exact ⟨p, vc, h', _, _, new, go, VReach.init, hr⟩
  intro n
  induction n with
  | zero =>
    intro me h hs hh hl hb
    have hme : me = node / P.conc := by
      refine Classical.byContradiction fun e => ?_
      have : 1 ≤ vleft A P W (node / P.conc) me h := by
        unfold vleft
        rw [if_neg e]
        split
        · split
          · split
            · omega
            · split <;> omega
          · omega
        · split
          · rename_i h1
            by_cases e1 : me = h.dest
            · rw [← e1]
              have := dd_pos (P := P) (W := W) e
              omega
            · have := dd_pos (P := P) (W := W) e1
              omega
          · exact dd_pos e
      omega
    refine ⟨dec hs hh (fun e => absurd hme.symm e), fun p vc h' hr => ?_⟩
    cases vkind hlen hlt hfar hna hN hdr hs hn hh hr with
    | eject h1 h2 h3 => exact ⟨by omega, by rw [hme]; exact inj p h2⟩
    | hop u q h1 => exact absurd hme.symm h1
  | succ n ih =>
    intro me h hs hh hl hb
    refine ⟨dec hs hh (fun _ => by omega), fun p vc h' hr => ?_⟩
    cases vkind hlen hlt hfar hna hN hdr hs hn hh hr with
    | eject h1 h2 h3 => exact ⟨by omega, Or.inl (by rw [← h1]; exact inj p h2)⟩
    | hop u q h1 h2 h3 h4 h5 h6 h7 =>
      refine ⟨by omega, Or.inr ⟨u, q, h5, ih u h' h6 h4 (by omega) ?_⟩⟩
      rw [h3, Nat.mod_eq_of_lt (by omega)]
      omega

omit hlen hlt hfar hna hN hdr in
theorem vleft_init (A : Algo) (P : Par) (W : Wiring) (ej s : Nat) : vleft A P W ej s VHdr.init ≤ maxHops A := by
  unfold vleft
  rw [if_pos (show VHdr.init.stage = 0 from rfl)]
  split
  · omega
  · split
    · rename_i e
      subst e
      show _ ≤ 7
      split
      · omega
      · split <;> omega
    · cases A <;> simp [maxHops]

/-- Packets on their way. -/
theorem vflight {node s : Nat} {h : VHdr} (hn : node < P.a * P.g * P.conc)
    (hf : InFlight (net P W) (vrouter A P W static) VHdr.init node s h) :
    s < P.a * P.g ∧ VHok A P h ∧ h.nhops + vleft A P W (node / P.conc) s h ≤ maxHops A := by
  have hmax : maxHops A ≤ 7 := by cases A <;> decide
  induction hf with
  | @inject s hs hi =>
    refine ⟨hs, ⟨Or.inl (Nat.zero_le 2), fun h => by simp [VHdr.init] at h⟩, ?_⟩
    show 0 + vleft A P W (node / P.conc) s VHdr.init ≤ maxHops A
    rw [Nat.zero_add]
    exact vleft_init A P W _ _
  | @hop s h p vc h' t q hf hr hl ih =>
    obtain ⟨hs, hh, hb⟩ := ih
    obtain ⟨hp, ht⟩ := link_lt hlen hlt hfar hna hs hl
    cases vkind hlen hlt hfar hna hN hdr hs hn hh hr with
    | eject h1 h2 h3 => omega
    | hop u q' h1 h2 h3 h4 h5 h6 h7 =>
      obtain ⟨rfl, _⟩ := link_fun hlen hlt hfar hna hl h5
      refine ⟨ht, h4, ?_⟩
      rw [h3, Nat.mod_eq_of_lt (by omega)]
      omega

theorem vfree : DeadlockFree (net P W) (vrouter A P W static) VHdr.init (P.a * P.g * P.conc) := by
  unfold DeadlockFree
  apply acyclic_of_rank (fun c => (c.2.2, 0))
  rintro _ _ ⟨node, s, x, p, vc, x', t, q, p', vc', x'', u, q', hn, hf, hr, hl, hr', hl', rfl, rfl⟩
  left
  have hmax : maxHops A ≤ 7 := by cases A <;> decide
  obtain ⟨hs, hh, hb⟩ := vflight hlen hlt hfar hna hN hdr hn hf
  have hf' := InFlight.hop hf hr hl
  obtain ⟨ht, hh', hb'⟩ := vflight hlen hlt hfar hna hN hdr hn hf'
  obtain ⟨hp, _⟩ := link_lt hlen hlt hfar hna hs hl
  obtain ⟨hp', _⟩ := link_lt hlen hlt hfar hna ht hl'
  cases vkind hlen hlt hfar hna hN hdr hs hn hh hr with
  | eject h1 h2 h3 => omega
  | hop v q1 h1 h2 h3 h4 h5 h6 h7 =>
    cases vkind hlen hlt hfar hna hN hdr ht hn hh' hr' with
    | eject g1 g2 g3 => omega
    | hop v' q2 g1 g2 g3 g4 g5 g6 g7 =>
      show vc < vc'
      rw [h2, g2, h3, Nat.mod_eq_of_lt (by omega)]
      omega

end

/-! ### The property -/

/-- A wiring of the groups for which the shape is accepted. -/
inductive StdWiring (P : Par) : Wiring → Prop
  | circulant (hh : P.h % 2 = 0) (hna : NoAbort P (circulant P)) : StdWiring P (circulant P)
  | allToAll (h : AllOk P) : StdWiring P (allToAll P)
  | single (ha : 0 < P.a) (hh : P.h = 1) (hg : P.g ≤ P.a + 1) : StdWiring P (single P)

/-- Non-minimal routing on the dragonfly: every reached router has a draw with which it forwards
a packet on its way; a packet is delivered within `B` links, on channels below `B`, whatever is
drawn and however long the queues are; and waiting for channels never forms a cycle. -/
structure NonMinimalOk (A : Algo) (P : Par) (W : Wiring) (static : Bool) (B : Nat) : Prop where
  forwards : ∀ node s h st, node < P.a * P.g * P.conc → InFlight (net P W) (vrouter A P W static) VHdr.init node s h →
    VReach A P W static s st → ∃ new go p vc h' st', vroute A P W static s node h st new go = some (p, vc, h', st')
  delivers : ∀ s node, s < P.a * P.g → node < P.a * P.g * P.conc →
    DeliversWithin (net P W) (vrouter A P W static) B node B s VHdr.init
  free : DeadlockFree (net P W) (vrouter A P W static) VHdr.init (P.a * P.g * P.conc)

theorem std_facts {P : Par} {W : Wiring} (h : StdWiring P W) :
    (∀ A G, A < P.a → G < P.g → (W.connected A G).length ≤ P.h) ∧
    (∀ A G d, A < P.a → G < P.g → d ∈ W.connected A G → d < P.a * P.g) ∧ Far P W ∧ NoAbort P W := by
  cases h with
  | circulant hh hna => exact ⟨(circ_sym P hh).len, (circ_sym P hh).lt, circ_far P, hna⟩
  | allToAll h =>
    refine ⟨(all_sym P h).len, (all_sym P h).lt, all_far P h, ?_⟩
    intro s hs
    obtain ⟨hcv, _⟩ := all_facts h
    unfold ctorAborts
    rw [List.any_eq_false]
    intro dG hdG
    simp only [Bool.and_eq_true, decide_eq_true_eq, beq_iff_eq, not_and]
    rintro _ hnil
    have : (0, dG * covering P + 0) ∈ farConns P (Dragonfly.allToAll P) s dG := by
      show _ ∈ allToGroup P (s / P.a) dG (prevConns P (Dragonfly.allToAll P) s dG)
      unfold allToGroup
      simp only [List.mem_flatMap, List.mem_map, List.mem_range]
      exact ⟨0, h.a, 0, hcv, rfl⟩
    rw [hnil] at this
    simp at this
  | single ha hh hg =>
    refine ⟨?_, ?_, single_far P ha hg, ?_⟩
    · intro A G _ _
      rw [hh]; exact Nat.le_refl _
    · intro A G d hA hG hd
      have hd : d ∈ singleConnected P A G := hd
      unfold singleConnected at hd
      simp only [List.mem_singleton] at hd
      rw [hd, Nat.add_comm]
      exact uid_lt (modulo_lt _ ha) (modulo_lt _ (by omega))
    · intro s hs
      unfold ctorAborts
      rw [List.any_eq_false]
      intro dG hdG
      simp only [Bool.and_eq_true, decide_eq_true_eq, beq_iff_eq, not_and]
      rintro _ hnil
      have : farConns P (Dragonfly.single P) s dG ≠ [] := by
        show singleToGroup P _ _ _ ≠ []
        unfold singleToGroup
        simp
      exact this hnil

/-- C95: with other than two groups the constructor of the three routers does not abort. -/
theorem C95_constructed (P : Par) (W : Wiring) (hw : StdWiring P W) (hg : P.g ≠ 2) (s : Nat) (hs : s < P.a * P.g) :
    vctorAborts P W s = false := by
  obtain ⟨hlen, hlt, hfar, hna⟩ := std_facts hw
  obtain ⟨_, hG⟩ := split_lt hs
  unfold vctorAborts
  rw [List.any_eq_false]
  intro i hi
  rw [List.mem_range] at hi
  simp only [Bool.and_eq_true, decide_eq_true_eq, Bool.or_eq_true, beq_iff_eq, List.any_eq_true, not_and, not_or]
  rintro ⟨hne, _⟩
  have hne : i ≠ s / P.a := hne
  constructor
  · rintro ⟨g, hg, hn⟩
    unfold interGroups at hg
    simp only [List.mem_filter, List.mem_range, Bool.and_eq_true, decide_eq_true_eq] at hg
    obtain ⟨a, _, e⟩ := detour_some hlen hlt hfar hna hs hi hg.1 (fun e => hg.2.2 e.symm)
    rw [e] at hn
    cases hn
  · obtain ⟨z, h1, h2, h3⟩ := third (n := P.g) (x := s / P.a) (y := i) (by
      generalize s / P.a = v at hG hne
      omega)
    apply List.ne_nil_of_mem (a := z)
    unfold interGroups computeG
    simp only [List.mem_filter, List.mem_range, Bool.and_eq_true, decide_eq_true_eq]
    exact ⟨h1, h2, h3⟩

theorem gates_of_ctor {P : Par} {W : Wiring} (hv : ∀ s, s < P.a * P.g → vctorAborts P W s = false) :
    ∀ s i, s < P.a * P.g → i < P.g → i ≠ s / P.a → gateways P W s i ≠ [] := by
  intro s i hs hi hne
  have h := hv s hs
  unfold vctorAborts at h
  rw [List.any_eq_false] at h
  have h := h i (List.mem_range.2 hi)
  simp only [Bool.and_eq_true, decide_eq_true_eq, Bool.or_eq_true, beq_iff_eq, List.any_eq_true, not_and, not_or] at h
  unfold gateways
  split
  · assumption
  · rename_i hb
    simp only [ne_eq, Decidable.not_not] at hb
    obtain ⟨h1, h2⟩ := h ⟨hne, hb⟩
    obtain ⟨g, hg⟩ := List.exists_mem_of_ne_nil _ h2
    cases hd : detour P W s i g with
    | none => exact absurd ⟨g, hg, by rw [hd]; rfl⟩ h1
    | some d =>
      apply List.ne_nil_of_mem (a := _)
      rw [List.mem_filterMap]
      exact ⟨g, hg, by rw [hd]; rfl⟩

theorem nonMinimalOk {A : Algo} {P : Par} {W : Wiring} {static : Bool} (hw : StdWiring P W) (hN : P.a * P.g ≤ 2 ^ 24) (hc : 0 < P.conc)
    (ha : P.a ≠ 2) (hg : A = .valiant → P.g ≠ 2) (hv : ∀ s, s < P.a * P.g → vctorAborts P W s = false) :
    NonMinimalOk A P W static (maxHops A) := by
  obtain ⟨hlen, hlt, hfar, hna⟩ := std_facts hw
  have hdr := gates_of_ctor hv
  refine ⟨?_, ?_, vfree hlen hlt hfar hna hN hdr⟩
  · intro node s h st hn hf hst
    obtain ⟨hs, hh, hb⟩ := vflight hlen hlt hfar hna hN hdr hn hf
    by_cases e : node / P.conc = s
    · exact ⟨0, true, _, _, _, _, by unfold vroute; simp only; rw [if_pos e]⟩
    refine vdecides hlen hlt hfar hna hN hdr ha hg hs hn hh (fun hA => ?_) hst
    subst hA
    have : 1 ≤ vleft .ugal P W (node / P.conc) s h := by
      unfold vleft
      rw [if_neg (fun h => e h.symm)]
      split
      · rw [if_neg (by decide)]; omega
      · split
        · by_cases e1 : s = h.dest
          · rw [← e1]
            have := dd_pos (P := P) (W := W) (fun h => e h.symm)
            omega
          · have := dd_pos (P := P) (W := W) e1
            omega
        · exact dd_pos (fun h => e h.symm)
    have : maxHops .ugal = 6 := rfl
    omega
  · intro s node hs hn
    have hok : VHok A P VHdr.init := ⟨Or.inl (Nat.zero_le 2), fun h => by simp [VHdr.init] at h⟩
    refine vwithin hlen hlt hfar hna hN hdr ha hg hc hn (maxHops A) s VHdr.init hs hok ?_ (by simp [VHdr.init])
    have := vleft_init A P W (node / P.conc) s
    exact this

/-- C95, Valiant routing: within six links on the six channels the router declares. -/
theorem C95_valiant (P : Par) (W : Wiring) (static : Bool) (hw : StdWiring P W) (hN : P.a * P.g ≤ 2 ^ 24) (hc : 0 < P.conc)
    (ha : P.a ≠ 2) (hg : P.g ≠ 2) : NonMinimalOk .valiant P W static numVC :=
  nonMinimalOk hw hN hc ha (fun _ => hg) (C95_constructed P W hw hg)

/-- C95, UGAL. -/
theorem C95_ugal (P : Par) (W : Wiring) (static : Bool) (hw : StdWiring P W) (hN : P.a * P.g ≤ 2 ^ 24) (hc : 0 < P.conc)
    (ha : P.a ≠ 2) (hv : ∀ s, s < P.a * P.g → vctorAborts P W s = false) : NonMinimalOk .ugal P W static numVC :=
  nonMinimalOk hw hN hc ha (fun h => by cases h) hv

/-- C95, PAR: delivery takes up to seven links, so seven channels are needed, one more than the
router declares (`C95_par_refuted`). -/
theorem C95_par_partial (P : Par) (W : Wiring) (static : Bool) (hw : StdWiring P W) (hN : P.a * P.g ≤ 2 ^ 24) (hc : 0 < P.conc)
    (ha : P.a ≠ 2) (hv : ∀ s, s < P.a * P.g → vctorAborts P W s = false) : NonMinimalOk .par P W static (numVC + 1) :=
  nonMinimalOk hw hN hc ha (fun h => by cases h) hv

/-- C95, UGAL: once the minimal path is chosen three links are enough. -/
theorem C95_ugal_minimal (P : Par) (W : Wiring) (static : Bool) (hw : StdWiring P W) (hN : P.a * P.g ≤ 2 ^ 24) (hc : 0 < P.conc)
    (ha : P.a ≠ 2) (hv : ∀ s, s < P.a * P.g → vctorAborts P W s = false) (s node : Nat) (h : VHdr) (hs : s < P.a * P.g)
    (hn : node < P.a * P.g * P.conc) (h3 : h.stage = 3) (hh : h.nhops ≤ 3) :
    DeliversWithin (net P W) (vrouter .ugal P W static) numVC node 3 s h := by
  obtain ⟨hlen, hlt, hfar, hna⟩ := std_facts hw
  refine vwithin (A := .ugal) hlen hlt hfar hna hN (gates_of_ctor hv) ha (fun h => by cases h) hc hn 3 s h hs
    ⟨Or.inr ⟨h3, rfl⟩, fun h => by omega⟩ ?_ (by show _ ≤ 6; omega)
  exact Nat.le_trans ((vleft_le (by omega)).2 (by omega)) (dd_le _ _ _ _)

/-- C95: on the way to the intermediate switch a packet keeps it. -/
theorem C95_keeps_target (A : Algo) (P : Par) (W : Wiring) (static : Bool) (me node : Nat) (h : VHdr) (st : VRot) (new : Nat) (go : Bool)
    (p vc : Nat) (h' : VHdr) (st' : VRot) (h1 : h.stage = 1) (hd : me ≠ h.dest) (he : node / P.conc ≠ me)
    (e : vroute A P W static me node h st new go = some (p, vc, h', st')) : h'.stage = 1 ∧ h'.dest = h.dest := by
  unfold vroute at e
  simp only at e
  rw [if_neg he] at e
  split at e
  · cases e
  · rename_i x hx
    split at e
    · cases e
    · cases e
      unfold vswitch at hx
      rw [if_neg (by omega), if_pos h1, if_neg hd, Option.map_eq_some_iff] at hx
      obtain ⟨y, _, rfl⟩ := hx
      exact ⟨h1, rfl⟩

/-- C95, partial: the intermediate switch of a packet between groups lies in a third group if
another switch of the own group has a link to the group drawn.  Without one it may not
(`C95_third_group_refuted`). -/
theorem C95_third_group_partial (P : Par) (W : Wiring) (static : Bool) (hw : StdWiring P W) (hN : P.a * P.g ≤ 2 ^ 24) (me node : Nat)
    (hs : me < P.a * P.g) (st : VRot) (new : Nat) (go : Bool) (p vc : Nat) (h' : VHdr) (st' : VRot)
    (hne : node / P.conc / P.a ≠ me / P.a)
    (hb : ∃ a d, a < P.a ∧ a ≠ me % P.a ∧ d ∈ W.connected a (me / P.a) ∧ d / P.a = new)
    (e : vroute .valiant P W static me node VHdr.init st new go = some (p, vc, h', st')) :
    h'.stage = 1 ∧ h'.dest / P.a = new ∧ new ≠ me / P.a ∧ new ≠ node / P.conc / P.a := by
  obtain ⟨hlen, hlt, hfar, hna⟩ := std_facts hw
  obtain ⟨hA, hG⟩ := split_lt hs
  unfold vroute at e
  simp only at e
  rw [if_neg (fun h => hne (by rw [h]))] at e
  split at e
  · cases e
  · rename_i x hx
    split at e
    · cases e
    · cases e
      unfold vswitch at hx
      rw [if_pos (show VHdr.init.stage = 0 from rfl), if_neg (show ¬ computeG P _ = computeG P me from hne), if_neg (by simp)] at hx
      split at hx
      · rename_i hn
        rw [if_pos (Or.inl rfl)] at hx
        unfold valiantInter at hx
        split at hx
        · cases hx
        · rename_i y hy
          cases hx
          refine ⟨rfl, ?_, hn.2.1, hn.2.2⟩
          have hm := List.mem_of_getElem? hy
          have hbase : gateBase P W me new ≠ [] := by
            obtain ⟨a, d, g1, g2, g3, g4⟩ := hb
            apply List.ne_nil_of_mem (a := (a, d))
            unfold gateBase computeA computeG
            simp only [List.mem_flatMap, List.mem_filter, List.mem_range, List.mem_map, decide_eq_true_eq, beq_iff_eq]
            exact ⟨a, ⟨g1, g2⟩, d, ⟨g3, g4⟩, rfl⟩
          unfold gateways at hm
          rw [if_pos hbase] at hm
          unfold gateBase computeA computeG at hm
          simp only [List.mem_flatMap, List.mem_filter, List.mem_range, List.mem_map, decide_eq_true_eq, beq_iff_eq] at hm
          obtain ⟨a, ⟨g1, g2⟩, sid, ⟨g3, g4⟩, rfl⟩ := hm
          show sid % 2 ^ 24 / P.a = new
          rw [Nat.mod_eq_of_lt (Nat.lt_of_lt_of_le (hlt _ _ _ g1 hG g3) hN)]
          exact g4
      · cases hx

example : NonMinimalOk .valiant { a := 3, g := 7, h := 2, conc := 2 } (circulant { a := 3, g := 7, h := 2, conc := 2 }) false 6 ∧
    NonMinimalOk .ugal { a := 4, g := 3, h := 4, conc := 2 } (allToAll { a := 4, g := 3, h := 4, conc := 2 }) true 6 ∧
    NonMinimalOk .par { a := 4, g := 5, h := 1, conc := 1 } (single { a := 4, g := 5, h := 1, conc := 1 }) false 7 :=
  ⟨C95_valiant _ _ _ (.circulant rfl (C47_dragonfly_circulant_covers _ (by decide))) (by decide) (by decide) (by decide) (by decide),
   C95_ugal _ _ _ (.allToAll ⟨by decide, by decide, by decide, by decide, by decide⟩) (by decide) (by decide) (by decide)
     (C95_constructed _ _ (.allToAll ⟨by decide, by decide, by decide, by decide, by decide⟩) (by decide)),
   C95_par_partial _ _ _ (.single (by decide) rfl (by decide)) (by decide) (by decide) (by decide)
     (C95_constructed _ _ (.single (by decide) rfl (by decide)) (by decide))⟩

-- UGAL between two groups is accepted when another switch has a link.
example : ∀ s, s < 6 → vctorAborts { a := 3, g := 2, h := 2, conc := 1 } (circulant { a := 3, g := 2, h := 2, conc := 1 }) s = false := by
  decide +kernel

-- Another switch of group 0 has a link to group 5.
example : ∃ a d, a < 3 ∧ a ≠ 0 % 3 ∧ d ∈ (circulant { a := 3, g := 7, h := 2, conc := 1 }).connected a 0 ∧ d / 3 = 5 :=
  ⟨1, 16, by decide, by decide, by decide +kernel, by decide⟩

example : (vroute .valiant { a := 3, g := 7, h := 2, conc := 1 } (circulant { a := 3, g := 7, h := 2, conc := 1 }) false 0 20 VHdr.init
    (vrot0 { a := 3, g := 7, h := 2, conc := 1 } (circulant { a := 3, g := 7, h := 2, conc := 1 }) 0) 5 true).map (fun x => (x.1, x.2.1, x.2.2.1)) =
    some (1, 0, ⟨0, 1, 1, 16⟩) := by decide +kernel

/-- C95 is false for groups of two switches: no number ends the drawing loop of any of the three
routers for a packet to the other switch of the group, so `route` does not return. -/
theorem C95_two_switches_refuted (A : Algo) (P : Par) (W : Wiring) (static : Bool) (ha : P.a = 2) (me node : Nat) (st : VRot) (new : Nat)
    (go : Bool) (hne : node / P.conc ≠ me) (hg : node / P.conc / P.a = me / P.a) :
    vroute A P W static me node VHdr.init st new go = none := by
  unfold vroute vswitch
  simp only
  rw [if_neg hne, if_pos (show VHdr.init.stage = 0 from rfl), if_pos (show computeG P _ = computeG P me from hg), if_neg]
  unfold computeA
  rw [ha] at hg ⊢
  omega

/-- C95 is false for Valiant routing between two groups: the drawing loop does not end. -/
theorem C95_two_groups_refuted (P : Par) (W : Wiring) (static : Bool) (hg : P.g = 2) (me node : Nat) (st : VRot) (new : Nat) (go : Bool)
    (hm : me < P.a * P.g) (hn : node < P.a * P.g * P.conc) (hne : node / P.conc / P.a ≠ me / P.a) :
    vroute .valiant P W static me node VHdr.init st new go = none := by
  have hej : node / P.conc < P.a * P.g := Nat.div_lt_of_lt_mul (by rw [Nat.mul_comm]; exact hn)
  have h1 := (split_lt hm).2
  have h2 := (split_lt hej).2
  unfold vroute vswitch
  simp only
  rw [if_neg (fun h => hne (by rw [h])), if_pos (show VHdr.init.stage = 0 from rfl), if_neg (show ¬ computeG P _ = computeG P me from hne),
    if_neg (by simp), if_neg]
  unfold computeG
  generalize node / P.conc / P.a = v at *
  generalize me / P.a = u at *
  omega

/-- Seven groups of three switches. -/
def seven : Par := { a := 3, g := 7, h := 2, conc := 1 }

theorem seven_std : StdWiring seven (circulant seven) :=
  .circulant rfl (C47_dragonfly_circulant_covers _ (by decide))

theorem vrouter_of {A : Algo} {P : Par} {W : Wiring} {static : Bool} {me node : Nat} {h : VHdr} {new : Nat} {go : Bool} {p vc : Nat} {h' : VHdr}
    (e : (vroute A P W static me node h (vrot0 P W me) new go).map (fun x => (x.1, x.2.1, x.2.2.1)) = some (p, vc, h')) :
    vrouter A P W static me node h p vc h' := by
  rw [Option.map_eq_some_iff] at e
  obtain ⟨x, h1, h2⟩ := e
  cases h2
  exact ⟨_, x.2.2.2, new, go, VReach.init, h1⟩

/-- C95 is false for PAR: it declares six channels, but a packet can take a minimal hop within
its group, change to a Valiant path there, and then needs a seventh hop, on channel 6. -/
theorem C95_par_refuted : ∃ (P : Par) (W : Wiring), StdWiring P W ∧ P.a ≠ 2 ∧ P.g ≠ 2 ∧ (∀ s, s < P.a * P.g → vctorAborts P W s = false) ∧
    ∃ (node s : Nat) (h : VHdr) (p vc : Nat) (h' : VHdr) (t q : Nat), node < P.a * P.g * P.conc ∧
      InFlight (net P W) (vrouter .par P W false) VHdr.init node s h ∧ vrouter .par P W false s node h p vc h' ∧
      (net P W).Link s p t q ∧ numVC ≤ vc := by
  refine ⟨seven, circulant seven, seven_std, by decide, by decide, C95_constructed _ _ seven_std (by decide), 18, 20, ⟨2, 6, 2, 18⟩, 0, 6,
    ⟨2, 7, 2, 18⟩, 18, 2, by decide, ?_, ?_, ?_, by decide⟩
  · have i0 : InFlight (net seven (circulant seven)) (vrouter .par seven (circulant seven) false) VHdr.init 18 1 VHdr.init := .inject (by decide) (by decide +kernel)
    have i1 := InFlight.hop (p := 0) (vc := 0) (h' := ⟨0, 1, 0, 18⟩) (t := 0) (q := 1) i0 (vrouter_of (new := 1) (go := false) (by decide +kernel)) (by unfold Net.Link; decide +kernel)
    have i2 := InFlight.hop (p := 1) (vc := 1) (h' := ⟨0, 2, 1, 6⟩) (t := 1) (q := 0) i1 (vrouter_of (new := 1) (go := true) (by decide +kernel)) (by unfold Net.Link; decide +kernel)
    have i3 := InFlight.hop (p := 3) (vc := 2) (h' := ⟨1, 3, 1, 6⟩) (t := 7) (q := 4) i2 (vrouter_of (new := 0) (go := true) (by decide +kernel)) (by unfold Net.Link; decide +kernel)
    have i4 := InFlight.hop (p := 0) (vc := 3) (h' := ⟨1, 4, 1, 6⟩) (t := 6) (q := 1) i3 (vrouter_of (new := 0) (go := true) (by decide +kernel)) (by unfold Net.Link; decide +kernel)
    have i5 := InFlight.hop (p := 2) (vc := 4) (h' := ⟨1, 5, 2, 18⟩) (t := 8) (q := 0) i4 (vrouter_of (new := 0) (go := true) (by decide +kernel)) (by unfold Net.Link; decide +kernel)
    have i6 := InFlight.hop (p := 4) (vc := 5) (h' := ⟨2, 6, 2, 18⟩) (t := 20) (q := 3) i5 (vrouter_of (new := 0) (go := true) (by decide +kernel)) (by unfold Net.Link; decide +kernel)
    exact i6
  · exact vrouter_of (new := 0) (go := true) (by decide +kernel)
  · unfold Net.Link; decide +kernel

/-- Three switches, each a group. -/
def triangle : Par := { a := 1, g := 3, h := 2, conc := 1 }

theorem triangle_ok : AllOk triangle := by constructor <;> decide

/-- C95 is false as far as the third group goes: in three groups of one switch, all connected, a
packet from group 0 to group 1 for which group 2 is drawn is sent straight to group 1. -/
theorem C95_third_group_refuted : ∃ (P : Par) (W : Wiring), StdWiring P W ∧ ∃ (p vc : Nat) (h' : VHdr),
    (∃ st', vroute .valiant P W false 0 1 VHdr.init (vrot0 P W 0) 2 true = some (p, vc, h', st')) ∧
    (∃ q, (net P W).Link 0 p 1 q) ∧ h'.dest = 1 ∧ 1 / P.conc = 1 := by
  refine ⟨triangle, allToAll triangle, .allToAll triangle_ok, 1, 0, ⟨0, 1, 1, 1⟩, ?_, ⟨1, ?_⟩, rfl, rfl⟩
  · have e : (vroute .valiant triangle (allToAll triangle) false 0 1 VHdr.init (vrot0 triangle (allToAll triangle) 0) 2 true).map
        (fun x => (x.1, x.2.1, x.2.2.1)) = some (1, 0, ⟨0, 1, 1, 1⟩) := by decide +kernel
    rw [Option.map_eq_some_iff] at e
    obtain ⟨⟨p, vc, h', st'⟩, h1, h2⟩ := e
    simp only [Prod.mk.injEq] at h2
    obtain ⟨rfl, rfl, rfl⟩ := h2
    exact ⟨st', h1⟩
  · unfold Net.Link; decide +kernel

end SST.Topo.Dragonfly
