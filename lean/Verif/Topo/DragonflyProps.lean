import Verif.Topo.DragonflyLemmas
/-
C39, C46, C47, C48, C49 for the dragonfly.
-/
set_option autoImplicit false
namespace SST.Topo.Dragonfly
open SST.Topo
open SST.Topo.FatTree (mul_add_div' mul_add_mod' mul_add_lt)

/-! ### Links -/

section
variable {P : Par} {W : Wiring}

theorem mem_zipIdx {l : List Nat} {x : Nat × Nat} : x ∈ l.zipIdx ↔ l[x.2]? = some x.1 := by
  obtain ⟨d, i⟩ := x
  rw [List.mk_mem_zipIdx_iff_getElem?]

theorem link_iff (s p t q : Nat) : (net P W).Link s p t q ↔
    (p < P.a ∧ p ≠ s % P.a ∧ t = p + s / P.a * P.a ∧ q = s % P.a) ∨
    (∃ i, (W.connected (s % P.a) (s / P.a))[i]? = some t ∧ t / P.a ≠ s / P.a ∧ p = i + P.a ∧
      q = W.inport (s % P.a) (s / P.a) i (t % P.a) (t / P.a) + P.a) := by
  show _ ∈ conns P W s ↔ _
  unfold conns
  rw [List.mem_append]
  apply or_congr
  · unfold localConns computeA computeG getUid
    simp only [List.mem_map, List.mem_filter, List.mem_range, decide_eq_true_eq, Conn.mk.injEq, true_and]
    constructor
    · rintro ⟨a, ⟨h1, h2⟩, rfl, rfl, rfl⟩
      exact ⟨h1, h2, rfl, rfl⟩
    · rintro ⟨h1, h2, rfl, rfl⟩
      exact ⟨p, ⟨h1, h2⟩, rfl, rfl, rfl⟩
  · unfold globalConns computeA computeG
    simp only [List.mem_map, List.mem_filter, decide_eq_true_eq, Conn.mk.injEq, true_and, mem_zipIdx]
    constructor
    · rintro ⟨x, ⟨h1, h2⟩, rfl, rfl, rfl⟩
      exact ⟨x.2, h1, h2, rfl, rfl⟩
    · rintro ⟨i, h1, h2, rfl, rfl⟩
      exact ⟨(t, i), ⟨h1, h2⟩, rfl, rfl, rfl⟩

theorem outports_nodup (s : Nat) : ((conns P W s).map Conn.outport).Nodup := by
  unfold conns localConns globalConns
  rw [List.map_append, List.nodup_append]
  refine ⟨?_, ?_, ?_⟩
  · rw [List.map_map]
    refine nodup_map (fun a b h => by simpa using h) (List.Nodup.sublist List.filter_sublist List.nodup_range)
  · rw [List.map_map]
    have h1 : (((W.connected (computeA P s) (computeG P s)).zipIdx.filter fun x => computeG P x.1 ≠ computeG P s).map Prod.snd).Nodup := by
      refine List.Nodup.sublist (List.Sublist.map _ List.filter_sublist) ?_
      rw [List.zipIdx_map_snd]
      exact List.nodup_range'
    have h2 := nodup_map (f := fun i : Nat => i + P.a) (fun a b h => by omega) h1
    rw [List.map_map] at h2
    exact h2
  · intro a ha b hb
    simp only [List.mem_map, List.mem_filter, List.mem_range] at ha hb
    obtain ⟨_, ⟨x, ⟨hx, _⟩, rfl⟩, rfl⟩ := ha
    obtain ⟨_, ⟨y, _, rfl⟩, rfl⟩ := hb
    simp only
    omega

theorem conns_src (s : Nat) : ∀ c ∈ conns P W s, c.src = s := by
  intro c hc
  unfold conns localConns globalConns at hc
  simp only [List.mem_append, List.mem_map] at hc
  rcases hc with ⟨_, _, rfl⟩ | ⟨_, _, rfl⟩ <;> rfl

theorem split_lt {s : Nat} (hs : s < P.a * P.g) : s % P.a < P.a ∧ s / P.a < P.g := by
  have ha : 0 < P.a := by
    apply Nat.pos_of_ne_zero
    intro e
    rw [e, Nat.zero_mul] at hs
    omega
  exact ⟨Nat.mod_lt _ ha, Nat.div_lt_of_lt_mul hs⟩

theorem wellWired (hsym : Sym P W) : WellWired (net P W) := by
  apply wellWired_of_back
  · intro s c _ hc
    exact conns_src s c hc
  · intro s _
    exact outports_nodup s
  intro s p t q hs hl
  have hs : s < P.a * P.g := hs
  obtain ⟨hA, hG⟩ := split_lt hs
  rw [link_iff] at hl
  rcases hl with ⟨h1, h2, rfl, rfl⟩ | ⟨i, h1, h2, rfl, rfl⟩
  · refine ⟨uid_lt h1 hG, ?_⟩
    rw [link_iff]
    left
    rw [uid_div h1, uid_mod h1]
    exact ⟨hA, fun e => h2 e.symm, (uid_eq P s).symm, rfl⟩
  · refine ⟨hsym.lt _ _ _ hA hG (List.mem_of_getElem? h1), ?_⟩
    obtain ⟨b1, b2⟩ := hsym.back _ _ _ _ hA hG h1 h2
    rw [link_iff]
    right
    rw [uid_eq] at b1
    exact ⟨_, b1, fun e => h2 e.symm, rfl, by rw [b2]⟩

/-- The ports of a switch: the vector of links has room for them, and none is a port for nodes. -/
theorem ports_lt (hsym : Sym P W) {s p t q : Nat} (hs : s < P.a * P.g) (hl : (net P W).Link s p t q) : p < P.a + P.h := by
  obtain ⟨hA, hG⟩ := split_lt hs
  rw [link_iff] at hl
  rcases hl with ⟨h1, h2, rfl, rfl⟩ | ⟨i, h1, h2, rfl, rfl⟩
  · omega
  · have := hsym.len _ _ hA hG
    have := (List.getElem?_eq_some_iff.1 h1).1
    omega

end

/-- C46, circulant wiring, every group size, number of groups and even number of global links:
every link has a link back between the same ports, no port is used twice, all links stay in the
network. -/
theorem C46_dragonfly_circulant (P : Par) (hh : P.h % 2 = 0) : WellWired (net P (circulant P)) :=
  wellWired (circ_sym P hh)

/-- C46, all-to-all wiring, every shape the constructor accepts. -/
theorem C46_dragonfly_alltoall (P : Par) (h : AllOk P) : WellWired (net P (allToAll P)) :=
  wellWired (all_sym P h)

/-- C46, single-link wiring, even group size or exactly one switch per other group (or a multiple). -/
theorem C46_dragonfly_single_partial (P : Par) (ha : 0 < P.a) (hh : P.h = 1) (he : P.a % 2 = 0 ∨ (P.a + 1) % P.g = 0) :
    WellWired (net P (single P)) :=
  wellWired (single_sym P ha hh he)

/-- C46 is false for the single-link wiring with an odd group size: switch 2 of group 0 leads to
switch 2 of group 2, which leads to group 4. -/
theorem C46_dragonfly_single_refuted : ¬ ∀ P : Par, 0 < P.a → P.h = 1 → WellWired (net P (single P)) := by
  intro h
  have := (h { a := 3, g := 5, h := 1, conc := 1 } (by decide) rfl).back 2 3 8 3 (by decide) (by unfold Net.Link; decide)
  revert this
  unfold Net.Link
  decide

example : (net { a := 3, g := 7, h := 2, conc := 1 } (circulant { a := 3, g := 7, h := 2, conc := 1 })).Link 1 3 7 4 ∧
    (net { a := 3, g := 7, h := 2, conc := 1 } (circulant { a := 3, g := 7, h := 2, conc := 1 })).Link 7 4 1 3 := by
  unfold Net.Link; decide

example : AllOk { a := 4, g := 3, h := 4, conc := 1 } ∧
    (net { a := 4, g := 3, h := 4, conc := 1 } (allToAll { a := 4, g := 3, h := 4, conc := 1 })).Link 1 7 11 5 ∧
    (net { a := 4, g := 3, h := 4, conc := 1 } (allToAll { a := 4, g := 3, h := 4, conc := 1 })).Link 11 5 1 7 :=
  ⟨⟨by decide, by decide, by decide, by decide, by decide⟩, by unfold Net.Link; decide, by unfold Net.Link; decide⟩

example : (net { a := 4, g := 5, h := 1, conc := 1 } (single { a := 4, g := 5, h := 1, conc := 1 })).Link 2 4 11 4 := by
  unfold Net.Link; decide

/-! ### C39, C49 -/

/-- C39 for the dragonfly (`switchCoords`, `switchAddr`, dragonfly.h:229-238). -/
theorem C39_dragonfly (P : Par) (ha : 0 < P.a) :
    (∀ s, s < P.a * P.g → computeA P s < P.a ∧ computeG P s < P.g ∧ getUid P (computeA P s) (computeG P s) = s) ∧
    (∀ a g, a < P.a → g < P.g → getUid P a g < P.a * P.g ∧ computeA P (getUid P a g) = a ∧ computeG P (getUid P a g) = g) := by
  constructor
  · intro s hs
    exact ⟨Nat.mod_lt _ ha, Nat.div_lt_of_lt_mul hs, uid_eq P s⟩
  · intro a g h1 h2
    exact ⟨uid_lt h1 h2, uid_mod h1, uid_div h1⟩

example : computeA { a := 4, g := 5, h := 1, conc := 1 } 14 = 2 ∧ computeG { a := 4, g := 5, h := 1, conc := 1 } 14 = 3 ∧
    getUid { a := 4, g := 5, h := 1, conc := 1 } 2 3 = 14 := by decide

theorem attached (P : Par) (W : Wiring) (hsym : Sym P W) (hc : 0 < P.conc) :
    Attached (net P W) (P.a * P.g * P.conc) (fun n => n / P.conc) := by
  refine attached_conc (net P W) P.conc (P.a + P.h) hc (fun _ => rfl) ?_
  intro s hs
  refine ⟨outports_nodup s, ?_⟩
  intro p hp
  rw [List.mem_map] at hp
  obtain ⟨c, hc, rfl⟩ := hp
  have := conns_src s c hc
  obtain ⟨cs, cd, co, ci⟩ := c
  simp only at this
  subst this
  exact ports_lt hsym hs (t := cd) (q := ci) hc

/-- C49 for the dragonfly with each wiring. -/
theorem C49_dragonfly (P : Par) (hc : 0 < P.conc) :
    (P.h % 2 = 0 → Attached (net P (circulant P)) (P.a * P.g * P.conc) (fun n => n / P.conc)) ∧
    (AllOk P → Attached (net P (allToAll P)) (P.a * P.g * P.conc) (fun n => n / P.conc)) ∧
    (0 < P.a → P.h = 1 → Attached (net P (single P)) (P.a * P.g * P.conc) (fun n => n / P.conc)) := by
  refine ⟨fun h => attached P _ (circ_sym P h) hc, fun h => attached P _ (all_sym P h) hc, ?_⟩
  intro ha hh
  refine attached_conc (net P (single P)) P.conc (P.a + P.h) hc (fun _ => rfl) ?_
  intro s hs
  refine ⟨outports_nodup s, ?_⟩
  intro p hp
  rw [List.mem_map] at hp
  obtain ⟨c, hc, rfl⟩ := hp
  have := conns_src s c hc
  obtain ⟨cs, cd, co, ci⟩ := c
  simp only at this
  subst this
  rcases (link_iff _ _ _ _).1 hc with ⟨h1, _⟩ | ⟨i, h1, _, rfl, _⟩
  · show co < _
    omega
  · have := (List.getElem?_eq_some_iff.1 h1).1
    have hlen : ((single P).connected (cs % P.a) (cs / P.a)).length = 1 := rfl
    rw [hlen] at this
    show i + P.a < _
    omega

example : (net { a := 2, g := 3, h := 2, conc := 2 } (circulant { a := 2, g := 3, h := 2, conc := 2 })).inj 3 = [(6, 4), (7, 5)] := by
  decide

/-! ### Minimal routing -/

section
variable {P : Par} {W : Wiring} {static : Bool}

/-- The constructor of the router of no switch aborts. -/
def NoAbort (P : Par) (W : Wiring) : Prop := ∀ s, s < P.a * P.g → ctorAborts P W s = false

theorem mem_direct {me dG p : Nat} (hne : dG ≠ me / P.a) :
    p ∈ directPorts P W me dG ↔ ∃ i d, (W.connected (me % P.a) (me / P.a))[i]? = some d ∧ d / P.a = dG ∧ p = i + P.a := by
  unfold directPorts computeG computeA
  rw [if_neg hne]
  simp only [List.mem_map, List.mem_filter, beq_iff_eq, mem_zipIdx]
  constructor
  · rintro ⟨x, ⟨h1, h2⟩, rfl⟩
    exact ⟨x.2, x.1, h1, h2, rfl⟩
  · rintro ⟨i, d, h1, h2, rfl⟩
    exact ⟨(d, i), ⟨h1, h2⟩, rfl⟩

theorem direct_ne_nil {me dG : Nat} (hne : dG ≠ me / P.a) :
    directPorts P W me dG ≠ [] ↔ ∃ d ∈ W.connected (me % P.a) (me / P.a), d / P.a = dG := by
  constructor
  · intro h
    obtain ⟨p, hp⟩ := List.exists_mem_of_ne_nil _ h
    obtain ⟨i, d, h1, h2, _⟩ := (mem_direct hne).1 hp
    exact ⟨d, List.mem_of_getElem? h1, h2⟩
  · rintro ⟨d, h1, h2⟩ e
    obtain ⟨i, hi⟩ := List.getElem?_of_mem h1
    have := (mem_direct (W := W) (p := i + P.a) hne).2 ⟨i, d, hi, h2, rfl⟩
    rw [e] at this
    simp at this

theorem groupPorts_ne_nil (hna : NoAbort P W) {me dG : Nat} (hs : me < P.a * P.g) (hd : dG < P.g) (hne : dG ≠ me / P.a) :
    groupPorts P W me dG ≠ [] := by
  have h := hna me hs
  unfold ctorAborts at h
  rw [List.any_eq_false] at h
  have h := h dG (List.mem_range.2 hd)
  unfold groupPorts
  rw [if_neg (show ¬ dG = computeG P me from hne)]
  split
  · assumption
  · rename_i hnil
    intro e
    rw [List.map_eq_nil_iff] at e
    apply h
    simp only [ne_eq, Decidable.not_not] at hnil
    rw [hnil, e]
    simp only [beq_self_eq_true, Bool.and_true, decide_eq_true_eq]
    exact hne

/-- The counters stay within their vectors. -/
def RotOk (P : Par) (W : Wiring) (me : Nat) (r : Nat → Nat) : Prop :=
  ∀ dG, groupPorts P W me dG ≠ [] → r dG < (groupPorts P W me dG).length

theorem reach_ok {me : Nat} {r : Nat → Nat} (hr : Reach P W static me r) : RotOk P W me r := by
  induction hr with
  | init => exact fun dG h => Nat.mod_lt _ (List.length_pos_iff.2 h)
  | route _ e ih =>
    unfold route at e
    simp only at e
    split at e
    · cases e; exact ih
    · split at e
      · cases e; exact ih
      · split at e
        · cases e
        · split at e
          · cases e
          · cases e
            cases static with
            | true => exact ih
            | false =>
              intro dG h
              simp only [Bool.false_eq_true, reduceIte]
              split
              · rename_i e; subst e
                exact Nat.mod_lt _ (List.length_pos_iff.2 h)
              · exact ih dG h

/-- The kinds of decisions: eject, last local hop, local hop to a gateway, global hop. -/
inductive Kind (P : Par) (W : Wiring) (node me hops p vc hops' : Nat) : Prop
  | eject (h1 : node / P.conc = me) (h2 : p = P.a + P.h + node % P.conc) (h3 : vc = 0) (h4 : hops' = hops)
  | last (h1 : node / P.conc ≠ me) (h2 : node / P.conc / P.a = me / P.a) (h3 : p < P.a) (h4 : vc = hops) (h5 : hops' = hops)
      (h6 : (net P W).Link me p (node / P.conc) (me % P.a))
  | gate (t q : Nat) (h1 : node / P.conc / P.a ≠ me / P.a) (h2 : p < P.a) (h3 : vc = hops) (h4 : hops' = hops)
      (h5 : (net P W).Link me p t q) (h6 : t / P.a = me / P.a) (h7 : t < P.a * P.g)
      (h8 : directPorts P W t (node / P.conc / P.a) ≠ []) (h9 : directPorts P W me (node / P.conc / P.a) = [])
  | glob (t q : Nat) (h1 : node / P.conc / P.a ≠ me / P.a) (h2 : P.a ≤ p) (h3 : vc = hops) (h4 : hops' = (hops + 1) % 4)
      (h5 : (net P W).Link me p t q) (h6 : t / P.a = node / P.conc / P.a) (h7 : t < P.a * P.g)
      (h8 : directPorts P W me (node / P.conc / P.a) ≠ [])

variable (hlen : ∀ A G, A < P.a → G < P.g → (W.connected A G).length ≤ P.h)
  (hlt : ∀ A G d, A < P.a → G < P.g → d ∈ W.connected A G → d < P.a * P.g) (hfar : Far P W) (hna : NoAbort P W)
include hlen hlt hfar hna

/-- One decision. -/
theorem decide_step {me node hops : Nat} (hs : me < P.a * P.g) (hn : node < P.a * P.g * P.conc) {r : Nat → Nat}
    (hr : RotOk P W me r) : ∃ p vc hops' r', route P W static me node hops r = some (p, vc, hops', r') ∧
      Kind P W node me hops p vc hops' := by
  have hd : node / P.conc < P.a * P.g := Nat.div_lt_of_lt_mul (by rw [Nat.mul_comm]; exact hn)
  obtain ⟨hA, hG⟩ := split_lt hs
  obtain ⟨hdA, hdG⟩ := split_lt hd
  unfold route
  simp only
  by_cases e : node / P.conc = me
  · rw [if_pos e]
    exact ⟨_, _, _, _, rfl, Kind.eject e rfl rfl rfl⟩
  rw [if_neg e]
  unfold computeG
  by_cases eg : node / P.conc / P.a = me / P.a
  · rw [if_pos eg]
    refine ⟨_, _, _, _, rfl, Kind.last e eg hdA rfl rfl ?_⟩
    rw [link_iff]
    left
    refine ⟨hdA, ?_, ?_, rfl⟩
    · intro h
      apply e
      rw [← uid_eq P (node / P.conc), ← uid_eq P me]
      unfold computeA at h
      rw [h, eg]
    · rw [← eg]
      exact (uid_eq P _).symm
  rw [if_neg eg]
  have hne := groupPorts_ne_nil hna hs hdG eg
  have hpos := List.length_pos_iff.2 hne
  -- whatever the index, a port of the list
  have main : ∀ p, p ∈ groupPorts P W me (node / P.conc / P.a) →
      p < P.a + P.h ∧ Kind P W node me hops p hops (if P.a ≤ p then (hops + 1) % 4 else hops) := by
    intro p hp
    unfold groupPorts at hp
    rw [if_neg (show ¬ node / P.conc / P.a = computeG P me from eg)] at hp
    split at hp
    · rename_i hdir
      obtain ⟨i, d, h1, h2, rfl⟩ := (mem_direct eg).1 hp
      have := hlen _ _ hA hG
      have := (List.getElem?_eq_some_iff.1 h1).1
      refine ⟨by omega, ?_⟩
      rw [if_pos (by omega)]
      refine Kind.glob d (W.inport (me % P.a) (me / P.a) i (d % P.a) (d / P.a) + P.a) eg (by omega) rfl rfl ?_ h2
        (hlt _ _ _ hA hG (List.mem_of_getElem? h1)) hdir
      rw [link_iff]
      exact Or.inr ⟨i, h1, by rw [h2]; exact eg, rfl, rfl⟩
    · rename_i hdir
      simp only [ne_eq, Decidable.not_not] at hdir
      rw [List.mem_map] at hp
      obtain ⟨x, hx, rfl⟩ := hp
      obtain ⟨hxa, d, hdm, hdg⟩ := hfar.far _ _ _ x hG hdG (fun h => eg h.symm) hx
      have hxme : x.1 ≠ me % P.a := by
        intro h
        have : directPorts P W me (node / P.conc / P.a) ≠ [] := by
          rw [direct_ne_nil eg]
          exact ⟨d, by rw [← h]; exact hdm, hdg⟩
        exact this hdir
      refine ⟨by omega, ?_⟩
      rw [if_neg (by omega)]
      refine Kind.gate (x.1 + me / P.a * P.a) (me % P.a) eg hxa rfl rfl ?_ (uid_div hxa) (uid_lt hxa hG) ?_ hdir
      · rw [link_iff]
        exact Or.inl ⟨hxa, hxme, rfl, rfl⟩
      · rw [direct_ne_nil (by rw [uid_div hxa]; exact eg), uid_div hxa, uid_mod hxa]
        exact ⟨d, hdm, hdg⟩
  have fin : ∀ (idx : Nat) (rot' : Nat → Nat), idx < (groupPorts P W me (node / P.conc / P.a)).length → ∃ p vc hops' r',
      (match (groupPorts P W me (node / P.conc / P.a))[idx]? with
        | none => none
        | some p => if P.a + P.h ≤ p then none else some (p, hops, if P.a ≤ p then (hops + 1) % 4 else hops, rot')) =
          some (p, vc, hops', r') ∧ Kind P W node me hops p vc hops' := by
    intro idx rot' hi
    rw [List.getElem?_eq_getElem hi]
    have := main _ (List.getElem_mem hi)
    refine ⟨_, _, _, rot', ?_, this.2⟩
    simp only
    rw [if_neg (by omega)]
  cases static with
  | true => exact fin (node / P.conc % _) r (Nat.mod_lt _ hpos)
  | false => exact fin (r (node / P.conc / P.a)) _ (hr _ hne)

theorem decides {me node : Nat} (hops : Nat) (hs : me < P.a * P.g) (hn : node < P.a * P.g * P.conc) :
    ∃ p vc h', router P W static me node hops p vc h' := by
  obtain ⟨p, vc, h', r', e, _⟩ := decide_step (static := static) (hops := hops) hlen hlt hfar hna hs hn
    (reach_ok (Reach.init (static := static)))
  exact ⟨p, vc, h', _, _, Reach.init, e⟩

theorem kind_of {me node hops p vc h' : Nat} (hs : me < P.a * P.g) (hn : node < P.a * P.g * P.conc)
    (hr : router P W static me node hops p vc h') : Kind P W node me hops p vc h' := by
  obtain ⟨r, r', hr, e⟩ := hr
  obtain ⟨p1, vc1, h1, r1, e1, hk⟩ := decide_step (static := static) (hops := hops) hlen hlt hfar hna hs hn (reach_ok hr)
  rw [e] at e1
  cases e1
  exact hk

variable (hc : 0 < P.conc)
include hc

theorem within0 {node : Nat} (hops : Nat) (hn : node < P.a * P.g * P.conc) :
    DeliversWithin (net P W) (router P W static) 2 node 0 (node / P.conc) hops := by
  have hd : node / P.conc < P.a * P.g := Nat.div_lt_of_lt_mul (by rw [Nat.mul_comm]; exact hn)
  refine ⟨decides hlen hlt hfar hna hops hd hn, ?_⟩
  intro p vc h' hr
  cases kind_of hlen hlt hfar hna hd hn hr with
  | eject h1 h2 h3 h4 =>
    refine ⟨by omega, ?_⟩
    subst h2
    show _ ∈ inj P _
    unfold inj
    rw [List.mem_map]
    refine ⟨node % P.conc, List.mem_range.2 (Nat.mod_lt _ hc), ?_⟩
    rw [Nat.mul_comm, Nat.div_add_mod]
  | last h1 => exact absurd rfl h1
  | gate _ _ h1 => exact absurd rfl h1
  | glob _ _ h1 => exact absurd rfl h1

theorem within1 {node s hops : Nat} (hn : node < P.a * P.g * P.conc) (hs : s < P.a * P.g) (hh : hops < 2)
    (hg : node / P.conc / P.a = s / P.a) :
    DeliversWithin (net P W) (router P W static) 2 node 1 s hops := by
  by_cases e : node / P.conc = s
  · rw [← e]
    exact within_mono (Nat.zero_le 1) (within0 hlen hlt hfar hna hc hops hn)
  refine ⟨decides hlen hlt hfar hna hops hs hn, ?_⟩
  intro p vc h' hr
  cases kind_of hlen hlt hfar hna hs hn hr with
  | eject h1 => exact absurd h1 e
  | last h1 h2 h3 h4 h5 h6 =>
    exact ⟨by omega, Or.inr ⟨_, _, h6, within0 hlen hlt hfar hna hc _ hn⟩⟩
  | gate _ _ h1 => exact absurd hg h1
  | glob _ _ h1 => exact absurd hg h1

theorem within2 {node s : Nat} (hn : node < P.a * P.g * P.conc) (hs : s < P.a * P.g)
    (hg : node / P.conc / P.a = s / P.a ∨ directPorts P W s (node / P.conc / P.a) ≠ []) :
    DeliversWithin (net P W) (router P W static) 2 node 2 s 0 := by
  by_cases e : node / P.conc / P.a = s / P.a
  · exact within_mono (by omega) (within1 hlen hlt hfar hna hc hn hs (by omega) e)
  have hdir := hg.resolve_left e
  refine ⟨decides hlen hlt hfar hna 0 hs hn, ?_⟩
  intro p vc h' hr
  cases kind_of hlen hlt hfar hna hs hn hr with
  | eject h1 => exact absurd (by rw [h1]) e
  | last _ h2 => exact absurd h2 e
  | gate _ _ _ _ _ _ _ _ _ _ h9 => exact absurd h9 hdir
  | glob t q h1 h2 h3 h4 h5 h6 h7 h8 =>
    refine ⟨by omega, Or.inr ⟨t, q, h5, ?_⟩⟩
    rw [h4]
    exact within1 hlen hlt hfar hna hc hn h7 (by omega) h6.symm

theorem within3 {node s : Nat} (hn : node < P.a * P.g * P.conc) (hs : s < P.a * P.g) :
    DeliversWithin (net P W) (router P W static) 2 node 3 s 0 := by
  by_cases e : node / P.conc / P.a = s / P.a
  · exact within_mono (by omega) (within1 hlen hlt hfar hna hc hn hs (by omega) e)
  by_cases hdir : directPorts P W s (node / P.conc / P.a) = []
  · refine ⟨decides hlen hlt hfar hna 0 hs hn, ?_⟩
    intro p vc h' hr
    cases kind_of hlen hlt hfar hna hs hn hr with
    | eject h1 => exact absurd (by rw [h1]) e
    | last _ h2 => exact absurd h2 e
    | glob _ _ _ _ _ _ _ _ _ h8 => exact absurd hdir h8
    | gate t q h1 h2 h3 h4 h5 h6 h7 h8 h9 =>
      refine ⟨by omega, Or.inr ⟨t, q, h5, ?_⟩⟩
      rw [h4]
      exact within2 hlen hlt hfar hna hc hn h7 (Or.inr h8)
  · exact within_mono (by omega) (within2 hlen hlt hfar hna hc hn hs (Or.inr hdir))

omit hc

theorem link_fun {s p t q t' q' : Nat} (h : (net P W).Link s p t q) (h' : (net P W).Link s p t' q') : t = t' ∧ q = q' := by
  have := conn_unique (outports_nodup s) h h' rfl
  simp only [Conn.mk.injEq] at this
  exact ⟨this.2.1, this.2.2.2⟩

theorem link_lt {s p t q : Nat} (hs : s < P.a * P.g) (hl : (net P W).Link s p t q) : p < P.a + P.h ∧ t < P.a * P.g := by
  obtain ⟨hA, hG⟩ := split_lt hs
  rcases (link_iff _ _ _ _).1 hl with ⟨h1, h2, rfl, rfl⟩ | ⟨i, h1, h2, rfl, rfl⟩
  · exact ⟨by omega, uid_lt h1 hG⟩
  · have := hlen _ _ hA hG
    have := (List.getElem?_eq_some_iff.1 h1).1
    exact ⟨by omega, hlt _ _ _ hA hG (List.mem_of_getElem? h1)⟩

theorem flight {node s hops : Nat} (hn : node < P.a * P.g * P.conc) (hf : InFlight (net P W) (router P W static) 0 node s hops) :
    s < P.a * P.g ∧ (hops = 0 ∨ (hops = 1 ∧ s / P.a = node / P.conc / P.a)) := by
  induction hf with
  | inject hs _ => exact ⟨hs, Or.inl rfl⟩
  | hop _ hr hl ih =>
    obtain ⟨hs, hh⟩ := ih
    refine ⟨(link_lt hlen hlt hfar hna hs hl).2, ?_⟩
    cases kind_of hlen hlt hfar hna hs hn hr with
    | eject h1 h2 => have := (link_lt hlen hlt hfar hna hs hl).1; omega
    | last h1 h2 h3 h4 h5 h6 =>
      obtain ⟨rfl, _⟩ := link_fun hlen hlt hfar hna hl h6
      rcases hh with hh | hh
      · exact Or.inl (by omega)
      · exact Or.inr ⟨by omega, rfl⟩
    | gate t' q' h1 h2 h3 h4 h5 h6 h7 h8 h9 =>
      rcases hh with hh | hh
      · exact Or.inl (by omega)
      · exact absurd hh.2.symm h1
    | glob t' q' h1 h2 h3 h4 h5 h6 h7 h8 =>
      obtain ⟨rfl, _⟩ := link_fun hlen hlt hfar hna hl h5
      rcases hh with hh | hh
      · subst hh
        exact Or.inr ⟨h4, h6⟩
      · exact absurd hh.2.symm h1

theorem deadlock_free : DeadlockFree (net P W) (router P W static) 0 (P.a * P.g * P.conc) := by
  unfold DeadlockFree
  apply acyclic_of_rank (fun c => (if P.a ≤ c.2.1 then 1 else if c.2.2 = 0 then 0 else 2, 0))
  rintro _ _ ⟨node, s, x, p, vc, x', t, q, p', vc', x'', u, q', hn, hf, hr, hl, hr', hl', rfl, rfl⟩
  left
  obtain ⟨hs, hx⟩ := flight hlen hlt hfar hna hn hf
  obtain ⟨hp, ht⟩ := link_lt hlen hlt hfar hna hs hl
  obtain ⟨hp', _⟩ := link_lt hlen hlt hfar hna ht hl'
  have hk' := kind_of hlen hlt hfar hna ht hn hr'
  simp only
  cases kind_of hlen hlt hfar hna hs hn hr with
  | eject h1 h2 => omega
  | last h1 h2 h3 h4 h5 h6 =>
    obtain ⟨rfl, _⟩ := link_fun hlen hlt hfar hna hl h6
    cases hk' with
    | eject _ h2 => omega
    | last h1 => exact absurd rfl h1
    | gate _ _ h1 => exact absurd rfl h1
    | glob _ _ h1 => exact absurd rfl h1
  | gate t' q' h1 h2 h3 h4 h5 h6 h7 h8 h9 =>
    obtain ⟨rfl, _⟩ := link_fun hlen hlt hfar hna hl h5
    rcases hx with hx | hx
    · rw [if_neg (by omega), if_pos (by omega)]
      cases hk' with
      | eject h1' => exact absurd (by rw [h1']; exact h6) h1
      | last _ h2' => exact absurd (by rw [h2']; exact h6) h1
      | gate _ _ _ _ _ _ _ _ _ _ h9' => exact absurd h9' h8
      | glob _ _ _ h2' => rw [if_pos h2']; omega
    · exact absurd hx.2.symm h1
  | glob t' q' h1 h2 h3 h4 h5 h6 h7 h8 =>
    obtain ⟨rfl, _⟩ := link_fun hlen hlt hfar hna hl h5
    rcases hx with hx | hx
    · rw [if_pos h2]
      cases hk' with
      | eject _ h2' => omega
      | last _ _ h3' h4' => rw [if_neg (by omega), if_neg (by omega)]; omega
      | gate _ _ h1' => exact absurd h6.symm h1'
      | glob _ _ h1' => exact absurd h6.symm h1'
    · exact absurd hx.2.symm h1

end

/-- C47: what the minimal router does with every packet, whatever it routed before and for both
settings of `static`: the packet reaches its node over at most three links, at most two if the
switch has a link to the node's group, at most one in its own group, always on one of the two
virtual channels; the router always has a decision; and no set of packets can wait for each
other in a circle. -/
structure MinimalOk (P : Par) (W : Wiring) (static : Bool) : Prop where
  decides : ∀ s node hops r, s < P.a * P.g → node < P.a * P.g * P.conc → Reach P W static s r →
    (route P W static s node hops r).isSome
  three : ∀ s node, s < P.a * P.g → node < P.a * P.g * P.conc → DeliversWithin (net P W) (router P W static) 2 node 3 s 0
  two : ∀ s node p t q, s < P.a * P.g → node < P.a * P.g * P.conc → (net P W).Link s p t q → t / P.a = node / P.conc / P.a →
    DeliversWithin (net P W) (router P W static) 2 node 2 s 0
  one : ∀ s node, s < P.a * P.g → node < P.a * P.g * P.conc → s / P.a = node / P.conc / P.a →
    DeliversWithin (net P W) (router P W static) 2 node 1 s 0
  oneGlobal : ∀ s node hops p vc hops' t q, node < P.a * P.g * P.conc →
    InFlight (net P W) (router P W static) 0 node s hops → router P W static s node hops p vc hops' → (net P W).Link s p t q →
    s / P.a ≠ t / P.a → t / P.a = node / P.conc / P.a
  free : DeadlockFree (net P W) (router P W static) 0 (P.a * P.g * P.conc)

theorem minimalOk {P : Par} {W : Wiring} (static : Bool)
    (hlen : ∀ A G, A < P.a → G < P.g → (W.connected A G).length ≤ P.h)
    (hlt : ∀ A G d, A < P.a → G < P.g → d ∈ W.connected A G → d < P.a * P.g) (hfar : Far P W) (hna : NoAbort P W)
    (hc : 0 < P.conc) : MinimalOk P W static := by
  refine ⟨?_, ?_, ?_, ?_, ?_, deadlock_free hlen hlt hfar hna⟩
  · intro s node hops r hs hn hr
    obtain ⟨p, vc, h', r', e, _⟩ := decide_step (static := static) (hops := hops) hlen hlt hfar hna hs hn (reach_ok hr)
    rw [e]; rfl
  · exact fun s node hs hn => within3 hlen hlt hfar hna hc hn hs
  · intro s node p t q hs hn hl ht
    refine within2 hlen hlt hfar hna hc hn hs ?_
    by_cases e : node / P.conc / P.a = s / P.a
    · exact Or.inl e
    · right
      rw [direct_ne_nil e]
      rcases (link_iff _ _ _ _).1 hl with ⟨h1, _, rfl, _⟩ | ⟨i, h1, _, _, _⟩
      · rw [uid_div h1] at ht
        exact absurd ht.symm e
      · exact ⟨t, List.mem_of_getElem? h1, ht⟩
  · exact fun s node hs hn he => within1 hlen hlt hfar hna hc hn hs (by omega) he.symm
  · intro s node hops p vc hops' t q hn hf hr hl hne
    obtain ⟨hs, _⟩ := flight hlen hlt hfar hna hn hf
    have hp := (link_lt hlen hlt hfar hna hs hl).1
    cases kind_of hlen hlt hfar hna hs hn hr with
    | eject h1 h2 => omega
    | last h1 h2 h3 h4 h5 h6 =>
      obtain ⟨rfl, _⟩ := link_fun hlen hlt hfar hna hl h6
      rfl
    | gate t' q' h1 h2 h3 h4 h5 h6 h7 h8 h9 =>
      obtain ⟨rfl, _⟩ := link_fun hlen hlt hfar hna hl h5
      exact absurd h6.symm hne
    | glob t' q' h1 h2 h3 h4 h5 h6 h7 h8 =>
      obtain ⟨rfl, _⟩ := link_fun hlen hlt hfar hna hl h5
      exact h6

/-- C47, circulant wiring, where the constructors of the routers do not abort. -/
theorem C47_dragonfly_circulant (P : Par) (static : Bool) (hh : P.h % 2 = 0) (hc : 0 < P.conc) (hna : NoAbort P (circulant P)) :
    MinimalOk P (circulant P) static :=
  minimalOk static (circ_sym P hh).len (circ_sym P hh).lt (circ_far P) hna hc

/-- The constructors do not abort if there are enough global links. -/
theorem C47_dragonfly_circulant_covers (P : Par) (hg : P.g ≤ 2 * (P.a * (P.h / 2)) + 1) : NoAbort P (circulant P) := by
  intro s hs
  obtain ⟨hA, hG⟩ := split_lt hs
  unfold ctorAborts
  rw [List.any_eq_false]
  intro dG hdG
  rw [List.mem_range] at hdG
  simp only [Bool.and_eq_true, decide_eq_true_eq, beq_iff_eq, not_and]
  rintro ⟨hne, _⟩ hnil
  unfold computeG at hne
  -- an offset that leads to the group
  have main : ∃ o, 0 < o ∧ o ≤ P.a * (P.h / 2) ∧
      (((s / P.a : Nat) : Int) + o) % P.g = dG ∨ ∃ o, 0 < o ∧ o ≤ P.a * (P.h / 2) ∧ (((s / P.a : Nat) : Int) - o) % P.g = dG := by
    generalize s / P.a = G at *
    by_cases hlt : G < dG
    · by_cases h2 : 2 * (dG - G) ≤ P.g
      · exact ⟨dG - G, Or.inl ⟨by omega, by omega, emod_eq_of (q := 0) (by omega) (by omega) (by omega)⟩⟩
      · exact ⟨0, Or.inr ⟨P.g - (dG - G), by omega, by omega, emod_eq_of (q := -1) (by omega) (by omega) (by omega)⟩⟩
    · by_cases h2 : 2 * (G - dG) < P.g
      · exact ⟨0, Or.inr ⟨G - dG, by omega, by omega, emod_eq_of (q := 0) (by omega) (by omega) (by omega)⟩⟩
      · exact ⟨P.g - (G - dG), Or.inl ⟨by omega, by omega, emod_eq_of (q := 1) (by omega) (by omega) (by omega)⟩⟩
  have conn : ∀ o d : Nat, 0 < o → o ≤ P.a * (P.h / 2) → o % P.g ≠ 0 → d = dG →
      (d = cmod (((s / P.a : Nat) : Int) + o) P.g ∨ d = cmod (((s / P.a : Nat) : Int) - o) P.g) → False := by
    intro o d h1 h2 h3 h4 h5
    subst h4
    have hhalf : 0 < P.h / 2 := by
      apply Nat.pos_of_ne_zero
      intro e
      rw [e, Nat.mul_zero] at h2
      omega
    have hx : (o - 1) / (P.h / 2) < P.a := Nat.div_lt_of_lt_mul (by rw [Nat.mul_comm]; omega)
    have ho : o ∈ offs P ((o - 1) / (P.h / 2)) := by
      unfold offs
      rw [List.mem_filter]
      refine ⟨?_, by simpa using h3⟩
      rw [List.mem_map]
      refine ⟨(o - 1) % (P.h / 2), List.mem_range.2 (Nat.mod_lt _ hhalf), ?_⟩
      have := Nat.div_add_mod (o - 1) (P.h / 2)
      rw [Nat.mul_comm] at this
      omega
    have hmem : d * P.a + (o - 1) / (P.h / 2) ∈ circConnected P ((o - 1) / (P.h / 2)) (s / P.a) := by
      rw [circ_eq hG, List.mem_flatMap]
      refine ⟨o, ho, ?_⟩
      simp only [List.mem_cons, List.not_mem_nil, or_false]
      rcases h5 with h5 | h5
      · left; rw [h5]
      · right; rw [h5]
    have hfirst : ∃ c, firstIn P d (circConnected P ((o - 1) / (P.h / 2)) (s / P.a)) = some c := by
      unfold firstIn
      rw [← Option.isSome_iff_exists, List.findIdx?_isSome, List.any_eq_true]
      exact ⟨_, hmem, by simpa using mul_add_div' hx⟩
    obtain ⟨c, hc⟩ := hfirst
    have : ((o - 1) / (P.h / 2), c) ∈ farConns P (circulant P) s d := by
      show _ ∈ circToGroup P (s / P.a) d (prevConns P (circulant P) s d)
      unfold circToGroup
      rw [List.mem_filterMap]
      refine ⟨_, List.mem_range.2 hx, ?_⟩
      rw [hc]; rfl
    rw [hnil] at this
    simp at this
  have hgp : 0 < P.g := by omega
  obtain ⟨o, h⟩ := main
  rcases h with ⟨h1, h2, h3⟩ | ⟨o, h1, h2, h3⟩
  · refine conn o dG h1 h2 ?_ rfl (Or.inl ?_)
    · intro h0
      have := (same_group (o := o) hG).1.2 h0
      rw [this] at h3
      omega
    · have := cmod_eq (((s / P.a : Nat) : Int) + o) hgp
      omega
  · refine conn o dG h1 h2 ?_ rfl (Or.inr ?_)
    · intro h0
      have := (same_group (o := o) hG).2.2 h0
      rw [this] at h3
      omega
    · have := cmod_eq (((s / P.a : Nat) : Int) - o) hgp
      omega

/-- C47, all-to-all wiring, every accepted shape. -/
theorem C47_dragonfly_alltoall (P : Par) (static : Bool) (h : AllOk P) (hc : 0 < P.conc) : MinimalOk P (allToAll P) static := by
  refine minimalOk static (all_sym P h).len (all_sym P h).lt (all_far P h) ?_ hc
  intro s hs
  obtain ⟨hcv, _⟩ := all_facts h
  unfold ctorAborts
  rw [List.any_eq_false]
  intro dG hdG
  simp only [Bool.and_eq_true, decide_eq_true_eq, beq_iff_eq, not_and]
  rintro _ hnil
  have : (0, dG * covering P + 0) ∈ farConns P (allToAll P) s dG := by
    show _ ∈ allToGroup P (s / P.a) dG (prevConns P (allToAll P) s dG)
    unfold allToGroup
    simp only [List.mem_flatMap, List.mem_map, List.mem_range]
    exact ⟨0, h.a, 0, hcv, rfl⟩
  rw [hnil] at this
  simp at this

/-- C47, single-link wiring with at least one switch per other group. -/
theorem C47_dragonfly_single_partial (P : Par) (static : Bool) (ha : 0 < P.a) (hh : P.h = 1) (hg : P.g ≤ P.a + 1) (hc : 0 < P.conc) :
    MinimalOk P (single P) static := by
  refine minimalOk static ?_ ?_ (single_far P ha hg) ?_ hc
  · intro A G _ _
    rw [hh]; exact Nat.le_refl _
  · intro A G d hA hG hd
    have hd : d ∈ singleConnected P A G := hd
    unfold singleConnected at hd
    simp only [List.mem_singleton] at hd
    rw [hd, Nat.add_comm]
    exact uid_lt (modulo_lt _ ha) (modulo_lt _ (by omega))
  · intro s hs
    unfold ctorAborts
    rw [List.any_eq_false]
    intro dG hdG
    simp only [Bool.and_eq_true, decide_eq_true_eq, beq_iff_eq, not_and]
    rintro _ hnil
    have : farConns P (single P) s dG ≠ [] := by
      show singleToGroup P _ _ _ ≠ []
      unfold singleToGroup
      simp
    exact this hnil

/-- A small group: the first switch of group 0 has no way to group 2. -/
def few : Par := { a := 2, g := 4, h := 1, conc := 1 }

/-- C47 is false for the single-link wiring with fewer switches in a group than other groups: the
constructors accept it, and the router sends a packet for group 2 to a port without a link. -/
theorem C47_dragonfly_single_refuted :
    ¬ ∀ (P : Par) (static : Bool), 0 < P.a → P.h = 1 → 0 < P.conc → NoAbort P (single P) → MinimalOk P (single P) static := by
  intro h
  have hna : NoAbort few (single few) := by
    intro s hs
    unfold ctorAborts
    rw [List.any_eq_false]
    intro dG _
    simp only [Bool.and_eq_true, decide_eq_true_eq, beq_iff_eq, not_and]
    rintro _ hnil
    have : farConns few (single few) s dG ≠ [] := by
      show singleToGroup few _ _ _ ≠ []
      unfold singleToGroup
      simp
    exact this hnil
  have := (h few false (by decide) rfl (by decide) hna).three 0 4 (by decide) (by decide)
  have hr : router few (single few) false 0 4 0 0 0 0 :=
    ⟨rot0 few (single few) 0, _, Reach.init, by
      have : groupPorts few (single few) 0 2 = [0] := by decide
      unfold route
      simp only
      rw [if_neg (by decide), if_neg (by decide)]
      simp only [Bool.false_eq_true, reduceIte]
      rw [show computeG few (4 / few.conc) = 2 from by decide]
      unfold rot0
      rw [this]
      rfl⟩
  obtain ⟨_, hi | ⟨t, q, hl, _⟩⟩ := this.2 0 0 0 hr
  · revert hi; decide
  · rcases (link_iff _ _ _ _).1 hl with ⟨_, h2, _⟩ | ⟨i, _, _, h, _⟩
    · revert h2; decide
    · have : few.a = 2 := rfl
      omega

example : NoAbort { a := 2, g := 5, h := 2, conc := 3 } (circulant { a := 2, g := 5, h := 2, conc := 3 }) :=
  C47_dragonfly_circulant_covers _ (by decide)

example : groupPorts { a := 2, g := 5, h := 2, conc := 3 } (circulant { a := 2, g := 5, h := 2, conc := 3 }) 0 2 = [1] ∧
    groupPorts { a := 2, g := 5, h := 2, conc := 3 } (circulant { a := 2, g := 5, h := 2, conc := 3 }) 1 2 = [2] := by decide

/-! ### C48 -/

/-- C48, the half that holds: the reported distance is never less than the true one. -/
theorem dist_le {P : Par} {W : Wiring} (hlen : ∀ A G, A < P.a → G < P.g → (W.connected A G).length ≤ P.h)
    (hlt : ∀ A G d, A < P.a → G < P.g → d ∈ W.connected A G → d < P.a * P.g) (hfar : Far P W) (hna : NoAbort P W)
    {s t : Nat} (hs : s < P.a * P.g) (ht : t < P.a * P.g) : ∃ m, m ≤ minimalDistance P W s t ∧ Walk (net P W) s t m := by
  -- the same switches with one node each
  have key : ∀ n, DeliversWithin (net { P with conc := 1 } W) (router { P with conc := 1 } W false) 2 t n s 0 →
      ∃ m, m ≤ n ∧ Walk (net P W) s t m := by
    intro n hd
    obtain ⟨t', m, hm, w, p, hi⟩ := walk_of_within hd
    have hi : (t, p) ∈ inj { P with conc := 1 } t' := hi
    have : t' = t := by
      unfold inj at hi
      simp only [List.mem_map, List.mem_range, Prod.mk.injEq] at hi
      obtain ⟨i, hi, h1, _⟩ := hi
      omega
    subst this
    have walk_eq : ∀ {a b n : Nat}, Walk (net { P with conc := 1 } W) a b n → Walk (net P W) a b n := by
      intro a b n w
      induction w with
      | nil => exact Walk.nil _
      | cons hl _ ih => exact Walk.cons hl ih
    exact ⟨m, hm, walk_eq w⟩
  have hok : MinimalOk { P with conc := 1 } W false := minimalOk false hlen hlt ⟨hfar.far⟩ hna (Nat.lt_succ_self 0)
  have hn : t < P.a * P.g * 1 := by omega
  have h1 : t / 1 = t := Nat.div_one t
  have three := hok.three s t hs hn
  have two := fun p u q => hok.two s t p u q hs hn
  have one := hok.one s t hs hn
  simp only [h1] at two one
  unfold minimalDistance
  split
  · rename_i e
    exact key 1 (one e)
  · rename_i e
    simp only
    split
    · rename_i hct
      rw [List.contains_iff_mem] at hct
      obtain ⟨i, hi⟩ := List.getElem?_of_mem hct
      refine ⟨1, Nat.le_refl _, Walk.cons ((link_iff _ _ _ _).2 (Or.inr ⟨i, hi, fun h => e h.symm, rfl, rfl⟩)) (Walk.nil _)⟩
    · split
      · rename_i d hfind
        split
        · have hmem := List.mem_of_find?_eq_some hfind
          have hp := List.find?_some hfind
          rw [List.mem_reverse] at hmem
          obtain ⟨i, hi⟩ := List.getElem?_of_mem hmem
          have hp' : d / P.a = t / P.a := by simpa [computeG] using hp
          exact key 2 (two _ d _ ((link_iff _ _ _ _).2 (Or.inr ⟨i, hi, by rw [hp']; exact fun h => e h.symm, rfl, rfl⟩)) hp')
        · exact key 3 three
      · exact key 3 three

/-- C48 for the dragonfly with the circulant wiring: the reported number of hops is never less
than the number of links on a shortest path. -/
theorem C48_dragonfly_upper_bound_partial (P : Par) (hh : P.h % 2 = 0) (hna : NoAbort P (circulant P)) (s t n : Nat)
    (hs : s < P.a * P.g) (ht : t < P.a * P.g) (hd : IsDist (net P (circulant P)) s t n) : n ≤ minimalDistance P (circulant P) s t := by
  obtain ⟨m, hm, w⟩ := dist_le (circ_sym P hh).len (circ_sym P hh).lt (circ_far P) hna hs ht
  exact Nat.le_trans (hd.2 m w) hm

/-- ... and with the all-to-all wiring. -/
theorem C48_dragonfly_alltoall_upper_bound_partial (P : Par) (h : AllOk P) (s t n : Nat)
    (hs : s < P.a * P.g) (ht : t < P.a * P.g) (hd : IsDist (net P (allToAll P)) s t n) : n ≤ minimalDistance P (allToAll P) s t := by
  have hna : NoAbort P (allToAll P) := by
    intro s hs
    obtain ⟨hcv, _⟩ := all_facts h
    unfold ctorAborts
    rw [List.any_eq_false]
    intro dG hdG
    simp only [Bool.and_eq_true, decide_eq_true_eq, beq_iff_eq, not_and]
    rintro _ hnil
    have : (0, dG * covering P + 0) ∈ farConns P (allToAll P) s dG := by
      show _ ∈ allToGroup P (s / P.a) dG (prevConns P (allToAll P) s dG)
      unfold allToGroup
      simp only [List.mem_flatMap, List.mem_map, List.mem_range]
      exact ⟨0, h.a, 0, hcv, rfl⟩
    rw [hnil] at this
    simp at this
  obtain ⟨m, hm, w⟩ := dist_le (all_sym P h).len (all_sym P h).lt (all_far P h) hna hs ht
  exact Nat.le_trans (hd.2 m w) hm

/-- Two switches in a group, five groups, one pair of global links each. -/
def five : Par := { a := 2, g := 5, h := 2, conc := 1 }

/-- C48 is false: a switch is reported one hop away from itself. -/
theorem C48_dragonfly_self_refuted :
    ¬ ∀ P : Par, P.h % 2 = 0 → NoAbort P (circulant P) → ∀ s t, s < P.a * P.g → t < P.a * P.g →
      IsDist (net P (circulant P)) s t (minimalDistance P (circulant P) s t) := by
  intro h
  have := (h five rfl (C47_dragonfly_circulant_covers _ (by decide)) 0 0 (by decide) (by decide)).2 0 (Walk.nil 0)
  revert this
  decide

/-- ... and also between different switches: from switch 0 the other switch of the group has a
link to switch 5, so two links suffice, but three are reported. -/
theorem C48_dragonfly_refuted :
    ¬ ∀ P : Par, P.h % 2 = 0 → NoAbort P (circulant P) → ∀ s t, s < P.a * P.g → t < P.a * P.g → s ≠ t →
      IsDist (net P (circulant P)) s t (minimalDistance P (circulant P) s t) := by
  intro h
  have w : Walk (net five (circulant five)) 0 5 2 :=
    Walk.cons (p := 1) (t := 1) (q := 0) (by unfold Net.Link; decide)
      (Walk.cons (p := 2) (t := 5) (q := 3) (by unfold Net.Link; decide) (Walk.nil 5))
  have := (h five rfl (C47_dragonfly_circulant_covers _ (by decide)) 0 5 (by decide) (by decide) (by decide)).2 2 w
  revert this
  decide

end SST.Topo.Dragonfly
