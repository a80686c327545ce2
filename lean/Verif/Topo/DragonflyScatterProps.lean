import Verif.Topo.DragonflyScatter
import Verif.Topo.DragonflyValiantProps
/-
C96: rotate and scatter routing on the dragonfly.
-/
set_option autoImplicit false
namespace SST.Topo.Dragonfly
open SST.Topo

theorem nextPort_some {l : List Nat} {i : Nat} (h : i < l.length) :
    ∃ p j, nextPort l i = some (p, j) ∧ p ∈ l ∧ j < l.length ∧ j = (i + 1) % l.length := by
  unfold nextPort
  rw [List.getElem?_eq_getElem h]
  refine ⟨_, _, rfl, List.getElem_mem h, ?_, ?_⟩
  · split <;> omega
  · split
    · rename_i e; rw [e, Nat.mod_self]
    · rw [Nat.mod_eq_of_lt (by omega)]

/-! ### Rotate -/

/-- The counters stay within their vectors. -/
structure ROk (P : Par) (W : Wiring) (me : Nat) (st : RRot) : Prop where
  g : RotOk P W me st.grot
  p : validPorts P W me ≠ [] → st.pos < (validPorts P W me).length

theorem rreach_ok {P : Par} {W : Wiring} {static : Bool} {me : Nat} {st : RRot} (h : RReach P W static me st) : ROk P W me st := by
  induction h with
  | init => exact ⟨fun dG h => Nat.mod_lt _ (List.length_pos_iff.2 h), fun h => List.length_pos_iff.2 h⟩
  | route _ e ih =>
    unfold rroute at e
    simp only at e
    split at e
    · cases e; exact ih
    · split at e
      · rw [Option.map_eq_some_iff] at e
        obtain ⟨y, h1, h2⟩ := e
        cases h2
        exact ⟨toSwitch_ok (p := y.1) (ng' := y.2.1) (r' := y.2.2) ih.g h1, ih.p⟩
      · split at e
        · cases e; exact ih
        · split at e
          · cases e
          · rename_i x hx
            cases e
            refine ⟨ih.g, fun hne => ?_⟩
            obtain ⟨p, j, h1, _, h2, _⟩ := nextPort_some (ih.p hne)
            rw [h1] at hx
            cases hx
            exact h2

/-- Bound on the links left. -/
def rleft (P : Par) (W : Wiring) (ej s : Nat) (h : RHdr) : Nat :=
  if s = ej then 0 else if h.ng = 0 then (if s / P.a = ej / P.a then 1 else 4) else dd P W s ej

theorem mem_valid {P : Par} {W : Wiring} {me p : Nat} :
    p ∈ validPorts P W me ↔ ∃ i d, (W.connected (me % P.a) (me / P.a))[i]? = some d ∧ d / P.a ≠ me / P.a ∧ p = i + P.a := by
  unfold validPorts computeA computeG
  simp only [List.mem_map, List.mem_filter, decide_eq_true_eq, mem_zipIdx]
  constructor
  · rintro ⟨x, ⟨h1, h2⟩, rfl⟩
    exact ⟨x.2, x.1, h1, h2, rfl⟩
  · rintro ⟨i, d, h1, h2, rfl⟩
    exact ⟨(d, i), ⟨h1, h2⟩, rfl⟩

/-- One decision of the rotate router. -/
inductive RKind (P : Par) (W : Wiring) (node me : Nat) (h : RHdr) (p vc : Nat) (h' : RHdr) : Prop
  | eject (h1 : node / P.conc = me) (h2 : p = P.a + P.h + node % P.conc) (h3 : vc = 0)
  | hop (u q : Nat) (h1 : node / P.conc ≠ me) (h2 : vc = h.nhops) (h3 : h'.nhops = (h.nhops + 1) % 16) (h4 : h'.ng ≤ h.nhops + 1)
      (h5 : (net P W).Link me p u q) (h6 : u < P.a * P.g) (h7 : rleft P W (node / P.conc) u h' + 1 ≤ rleft P W (node / P.conc) me h)

theorem toSwitch_ng {P : Par} {W : Wiring} {static : Bool} {me t ng : Nat} {r : Nat → Nat} {p ng' : Nat} {r' : Nat → Nat}
    (e : toSwitch P W static me t ng r = some (p, ng', r')) : ng' = ng ∨ ng' = (ng + 1) % 4 := by
  unfold toSwitch at e
  simp only at e
  split at e
  · cases e; exact Or.inl rfl
  · split at e
    · cases e
    · split at e
      · cases e
      · cases e
        split
        · exact Or.inr rfl
        · exact Or.inl rfl

theorem inj_mem {P : Par} {W : Wiring} (hc : 0 < P.conc) {node : Nat} :
    ∀ p, p = P.a + P.h + node % P.conc → (node, p) ∈ (net P W).inj (node / P.conc) := by
  intro p e
  subst e
  show _ ∈ inj P _
  unfold inj
  rw [List.mem_map]
  refine ⟨node % P.conc, List.mem_range.2 (Nat.mod_lt _ hc), ?_⟩
  rw [Nat.mul_comm, Nat.div_add_mod]

section
variable {P : Par} {W : Wiring} {static : Bool} (hw : StdWiring P W) (hval : ∀ s, s < P.a * P.g → 1 < P.g → validPorts P W s ≠ [])
include hw hval

theorem rroute_step {me node : Nat} {h : RHdr} {st : RRot} (hs : me < P.a * P.g) (hn : node < P.a * P.g * P.conc) (hst : ROk P W me st)
    (hng : h.ng ≤ h.nhops) (hb : h.nhops + rleft P W (node / P.conc) me h ≤ 4) :
    ∃ p vc h' st', rroute P W static me node h st = some (p, vc, h', st') ∧ RKind P W node me h p vc h' := by
  obtain ⟨hlen, hlt, hfar, hna⟩ := std_facts hw
  have hej := ejsw_lt hn
  obtain ⟨hA, hG⟩ := split_lt hs
  obtain ⟨hA', hG'⟩ := split_lt hej
  unfold rroute
  simp only
  by_cases e : node / P.conc = me
  · rw [if_pos e]
    exact ⟨_, _, _, _, rfl, .eject e rfl rfl⟩
  rw [if_neg e]
  have e' : ¬ me = node / P.conc := fun h => e h.symm
  by_cases e1 : 1 ≤ h.ng
  · rw [if_pos e1]
    have hv : rleft P W (node / P.conc) me h = dd P W me (node / P.conc) := by
      unfold rleft; rw [if_neg e', if_neg (by omega)]
    obtain ⟨p, ng', r', h1, u, q, h2, h3, h4⟩ := toSwitch_step (static := static) (ng := h.ng) hlen hlt hfar hna hs hej e' hst.g
    refine ⟨_, _, _, _, by rw [h1]; rfl, .hop u q e rfl rfl ?_ h2 h3 ?_⟩
    · have := toSwitch_ng h1
      show ng' ≤ h.nhops + 1
      rcases this with h | h <;> omega
    · show rleft P W (node / P.conc) u ⟨ng', (h.nhops + 1) % 16⟩ + 1 ≤ _
      by_cases eu : u = node / P.conc
      · have : rleft P W (node / P.conc) u ⟨ng', (h.nhops + 1) % 16⟩ = 0 := by unfold rleft; rw [if_pos eu]
        have := dd_pos (P := P) (W := W) e'
        omega
      · have h5 := dd_pos (P := P) (W := W) eu
        have : rleft P W (node / P.conc) u ⟨ng', (h.nhops + 1) % 16⟩ = dd P W u (node / P.conc) := by
          unfold rleft
          rw [if_neg eu, if_neg]
          show ¬ ng' = 0
          rcases toSwitch_ng h1 with h8 | h8 <;> omega
        omega
  · rw [if_neg e1]
    have hv : rleft P W (node / P.conc) me h = if me / P.a = node / P.conc / P.a then 1 else 4 := by
      unfold rleft; rw [if_neg e', if_pos (by omega)]
    by_cases eg : node / P.conc / P.a = me / P.a
    · rw [if_pos (show computeG P _ = computeG P me from eg)]
      rw [if_pos eg.symm] at hv
      refine ⟨_, _, _, _, rfl, .hop (node / P.conc) (me % P.a) e rfl rfl (by show h.ng ≤ _; omega) ?_ hej ?_⟩
      · rw [link_iff]
        left
        refine ⟨hA', ?_, ?_, rfl⟩
        · intro h
          apply e'
          rw [← uid_eq P me, ← uid_eq P (node / P.conc), eg]
          exact congrArg (· + me / P.a * P.a) h.symm
        · rw [← eg]
          exact (uid_eq P _).symm
      · have : rleft P W (node / P.conc) (node / P.conc) ⟨h.ng, (h.nhops + 1) % 16⟩ = 0 := by unfold rleft; rw [if_pos rfl]
        omega
    · rw [if_neg (show ¬ computeG P _ = computeG P me from eg)]
      rw [if_neg (fun h => eg h.symm)] at hv
      have hnn := hval me hs (by
        generalize me / P.a = x at *
        generalize node / P.conc / P.a = y at *
        omega)
      obtain ⟨p, j, h1, h2, _, _⟩ := nextPort_some (hst.p hnn)
      rw [h1]
      obtain ⟨i, d, g1, g2, g3⟩ := mem_valid.1 h2
      have hd := hlt _ _ _ hA hG (List.mem_of_getElem? g1)
      refine ⟨_, _, _, _, rfl, .hop d (W.inport (me % P.a) (me / P.a) i (d % P.a) (d / P.a) + P.a) e rfl rfl ?_ ?_ hd ?_⟩
      · show (h.ng + 1) % 4 ≤ _
        omega
      · rw [link_iff]
        exact Or.inr ⟨i, g1, g2, g3, rfl⟩
      · have : rleft P W (node / P.conc) d ⟨(h.ng + 1) % 4, (h.nhops + 1) % 16⟩ ≤ dd P W d (node / P.conc) := by
          unfold rleft
          split
          · omega
          · rw [if_neg]
            · exact Nat.le_refl _
            · show ¬ (h.ng + 1) % 4 = 0
              omega
        have := dd_le P W d (node / P.conc)
        omega

theorem rkind {me node : Nat} {h h' : RHdr} {p vc : Nat} (hs : me < P.a * P.g) (hn : node < P.a * P.g * P.conc)
    (hng : h.ng ≤ h.nhops) (hb : h.nhops + rleft P W (node / P.conc) me h ≤ 4)
    (hr : rrouter P W static me node h p vc h') : RKind P W node me h p vc h' := by
  obtain ⟨st, st', hst, e⟩ := hr
  obtain ⟨p1, vc1, h1, st1, e1, k⟩ := rroute_step (static := static) hw hval hs hn (rreach_ok hst) hng hb
  rw [e] at e1
  cases e1
  exact k

theorem rwithin (hc : 0 < P.conc) {node : Nat} (hn : node < P.a * P.g * P.conc) :
    ∀ (n me : Nat) (h : RHdr), me < P.a * P.g → h.ng ≤ h.nhops → rleft P W (node / P.conc) me h ≤ n → h.nhops + n ≤ 4 →
      DeliversWithin (net P W) (rrouter P W static) 4 node n me h := by
  have inj := inj_mem (W := W) hc (node := node)
  have dec : ∀ {me : Nat} {h : RHdr}, me < P.a * P.g → h.ng ≤ h.nhops → h.nhops + rleft P W (node / P.conc) me h ≤ 4 →
      ∃ p vc h', rrouter P W static me node h p vc h' := by
    intro me h hs hng hb
    obtain ⟨p1, vc1, h1, st1, e1, _⟩ := rroute_step (static := static) hw hval hs hn (rreach_ok (static := static) .init) hng hb
    exact ⟨p1, vc1, h1, _, st1, .init, e1⟩
  intro n
  induction n with
  | zero =>
    intro me h hs hng hl hb
    have hme : me = node / P.conc := by
      refine Classical.byContradiction fun e => ?_
      have : 1 ≤ rleft P W (node / P.conc) me h := by
        unfold rleft
        rw [if_neg e]
        split
        · split <;> omega
        · exact dd_pos e
      omega
    refine ⟨dec hs hng (by omega), fun p vc h' hr => ?_⟩
    cases rkind hw hval hs hn hng (by omega) hr with
    | eject h1 h2 h3 => exact ⟨by omega, by rw [hme]; exact inj p h2⟩
    | hop u q h1 => exact absurd hme.symm h1
  | succ n ih =>
    intro me h hs hng hl hb
    refine ⟨dec hs hng (by omega), fun p vc h' hr => ?_⟩
    cases rkind hw hval hs hn hng (by omega) hr with
    | eject h1 h2 h3 => exact ⟨by omega, Or.inl (by rw [← h1]; exact inj p h2)⟩
    | hop u q h1 h2 h3 h4 h5 h6 h7 =>
      rw [Nat.mod_eq_of_lt (by omega)] at h3
      exact ⟨by omega, Or.inr ⟨u, q, h5, ih u h' h6 (by omega) (by omega) (by omega)⟩⟩

theorem rflight {node s : Nat} {h : RHdr} (hn : node < P.a * P.g * P.conc)
    (hf : InFlight (net P W) (rrouter P W static) ⟨0, 0⟩ node s h) :
    s < P.a * P.g ∧ h.ng ≤ h.nhops ∧ h.nhops + rleft P W (node / P.conc) s h ≤ 4 := by
  obtain ⟨hlen, hlt, hfar, hna⟩ := std_facts hw
  induction hf with
  | @inject s hs hi =>
    refine ⟨hs, Nat.le_refl _, ?_⟩
    show 0 + _ ≤ 4
    unfold rleft
    split
    · omega
    · rw [if_pos rfl]; split <;> omega
  | @hop s h p vc h' t q hf hr hl ih =>
    obtain ⟨hs, hng, hb⟩ := ih
    obtain ⟨hp, ht⟩ := link_lt hlen hlt hfar hna hs hl
    cases rkind hw hval hs hn hng hb hr with
    | eject h1 h2 h3 => omega
    | hop u q' h1 h2 h3 h4 h5 h6 h7 =>
      obtain ⟨rfl, _⟩ := link_fun hlen hlt hfar hna hl h5
      rw [Nat.mod_eq_of_lt (by omega)] at h3
      exact ⟨ht, by omega, by omega⟩

theorem rfree : DeadlockFree (net P W) (rrouter P W static) ⟨0, 0⟩ (P.a * P.g * P.conc) := by
  obtain ⟨hlen, hlt, hfar, hna⟩ := std_facts hw
  unfold DeadlockFree
  apply acyclic_of_rank (fun c => (c.2.2, 0))
  rintro _ _ ⟨node, s, x, p, vc, x', t, q, p', vc', x'', u, q', hn, hf, hr, hl, hr', hl', rfl, rfl⟩
  left
  obtain ⟨hs, hng, hb⟩ := rflight hw hval hn hf
  obtain ⟨ht, hng', hb'⟩ := rflight hw hval hn (InFlight.hop hf hr hl)
  obtain ⟨hp, _⟩ := link_lt hlen hlt hfar hna hs hl
  obtain ⟨hp', _⟩ := link_lt hlen hlt hfar hna ht hl'
  cases rkind hw hval hs hn hng hb hr with
  | eject h1 h2 h3 => omega
  | hop v q1 h1 h2 h3 h4 h5 h6 h7 =>
    cases rkind hw hval ht hn hng' hb' hr' with
    | eject g1 g2 g3 => omega
    | hop v' q2 g1 g2 g3 g4 g5 g6 g7 =>
      show vc < vc'
      rw [h2, g2, h3, Nat.mod_eq_of_lt (by omega)]
      omega

end

/-! ### Scatter -/

/-- One link in the search of the scatter router. -/
inductive Hop (P : Par) (W : Wiring) (s gh p t : Nat) : Nat → Prop
  | loc (h1 : p < P.a) (h2 : p ≠ s % P.a) (h3 : t = p + s / P.a * P.a) : Hop P W s gh p t gh
  | glob (i : Nat) (h0 : gh = 0) (h1 : (W.connected (s % P.a) (s / P.a))[i]? = some t) (h2 : p = i + P.a) : Hop P W s gh p t 1

/-- A path of `n` links, with at most `1 - gh` between groups. -/
inductive Walk (P : Par) (W : Wiring) : Nat → Nat → Nat → Nat → Prop
  | nil {gh s : Nat} : Walk P W 0 gh s s
  | cons {n gh gh' s p u t : Nat} (h : Hop P W s gh p u gh') (w : Walk P W n gh' u t) : Walk P W (n + 1) gh s t

theorem mem_follow_cons {P : Par} {W : Wiring} {n s k gh : Nat} {port : Option Nat} {e : Nat × Nat × Nat} :
    e ∈ follow P W (n + 1) s k gh port ↔ ∃ p u gh', Hop P W s gh p u gh' ∧
      (e = (k + 1, u, port.getD p) ∨ e ∈ follow P W n u (k + 1) gh' (some (port.getD p))) := by
  rw [follow]
  simp only [List.mem_append, List.mem_flatMap, List.mem_filter, List.mem_range, List.mem_cons, decide_eq_true_eq]
  constructor
  · rintro (h | ⟨aa, ⟨h1, h2⟩, h3⟩)
    · split at h
      · rename_i h0
        simp only [List.mem_flatMap, List.mem_cons] at h
        obtain ⟨x, h1, h2⟩ := h
        subst h0
        exact ⟨_, x.1, 1, .glob x.2 rfl (mem_zipIdx.1 h1) rfl, h2⟩
      · simp at h
    · exact ⟨aa, _, gh, .loc h1 h2 rfl, h3⟩
  · rintro ⟨p, u, gh', hh, h⟩
    cases hh with
    | loc h1 h2 h3 =>
      subst h3
      exact Or.inr ⟨p, ⟨h1, h2⟩, h⟩
    | glob i h0 h1 h2 =>
      subst h0 h2
      left
      rw [if_pos rfl]
      simp only [List.mem_flatMap, List.mem_cons]
      exact ⟨(u, i), mem_zipIdx.2 h1, h⟩

theorem mem_follow_some {P : Par} {W : Wiring} {n : Nat} : ∀ {s k gh q : Nat} {e : Nat × Nat × Nat},
    e ∈ follow P W n s k gh (some q) ↔ ∃ m, m < n ∧ e.1 = k + 1 + m ∧ e.2.2 = q ∧ Walk P W (m + 1) gh s e.2.1 := by
  induction n with
  | zero => intro s k gh q e; simp [follow]
  | succ n ih =>
    intro s k gh q e
    rw [mem_follow_cons]
    simp only [Option.getD_some, ih]
    constructor
    · rintro ⟨p, u, gh', hh, rfl | ⟨m, h1, h2, h3, h4⟩⟩
      · exact ⟨0, by omega, rfl, rfl, .cons hh .nil⟩
      · exact ⟨m + 1, by omega, by omega, h3, .cons hh h4⟩
    · rintro ⟨m, h1, h2, h3, h4⟩
      cases h4 with
      | cons hh w =>
        refine ⟨_, _, _, hh, ?_⟩
        cases w with
        | nil => left; rw [← h3, show k + 1 = e.1 by omega]
        | @cons m _ _ _ _ _ _ h w => exact Or.inr ⟨m, by omega, by omega, h3, .cons h w⟩

/-- What the search finds: the first port of a path. -/
theorem mem_follow {P : Par} {W : Wiring} {n s : Nat} {e : Nat × Nat × Nat} :
    e ∈ follow P W n s 0 0 none ↔ ∃ m u gh', m < n ∧ e.1 = m + 1 ∧ Hop P W s 0 e.2.2 u gh' ∧ Walk P W m gh' u e.2.1 := by
  cases n with
  | zero => simp [follow]
  | succ n =>
    rw [mem_follow_cons]
    simp only [Option.getD_none, mem_follow_some]
    constructor
    · rintro ⟨p, u, gh', hh, rfl | ⟨m, h1, h2, h3, h4⟩⟩
      · exact ⟨0, u, gh', by omega, rfl, hh, .nil⟩
      · exact ⟨m + 1, u, gh', by omega, by omega, by rw [h3]; exact hh, h4⟩
    · rintro ⟨m, u, gh', h1, h2, h3, h4⟩
      refine ⟨_, u, gh', h3, ?_⟩
      cases h4 with
      | nil => left; rw [show 0 + 1 = e.1 by omega]
      | @cons m _ _ _ _ _ _ h w => exact Or.inr ⟨m, by omega, by omega, rfl, .cons h w⟩

/-- Paths stay in the group once a link between groups is used. -/
theorem walk_group {P : Par} {W : Wiring} {n gh s t : Nat} (w : Walk P W n gh s t) (h : gh ≠ 0) : t / P.a = s / P.a := by
  induction w with
  | nil => rfl
  | cons hh _ ih =>
    cases hh with
    | loc h1 h2 h3 =>
      rw [ih h, h3, uid_div h1]
    | glob i h0 => exact absurd h0 h

theorem hop_weaken {P : Par} {W : Wiring} {s gh p t gh' : Nat} (h : Hop P W s gh p t gh') : ∃ gh'', Hop P W s 0 p t gh'' ∧ (gh'' = 0 ∨ gh'' = gh') := by
  cases h with
  | loc h1 h2 h3 => exact ⟨0, .loc h1 h2 h3, Or.inl rfl⟩
  | glob i h0 h1 h2 => exact ⟨1, .glob i rfl h1 h2, Or.inr rfl⟩

theorem walk_weaken {P : Par} {W : Wiring} {n gh s t : Nat} (w : Walk P W n gh s t) : Walk P W n 0 s t := by
  induction w with
  | nil => exact .nil
  | cons hh w ih =>
    obtain ⟨g'', h1, h2⟩ := hop_weaken hh
    rcases h2 with rfl | rfl
    · exact .cons h1 ih
    · exact .cons h1 w

section
variable {P : Par} {W : Wiring} (hw : StdWiring P W)
include hw

theorem mem_table {me h sid p : Nat} (hs : me < P.a * P.g) (hh : h ≤ 3) : p ∈ table P W me h sid ↔
    ∃ m u gh', m + 1 ≤ h ∧ Hop P W me 0 p u gh' ∧ Walk P W m gh' u sid ∧ (p < P.a ∨ sid / P.a ≠ me / P.a) := by
  obtain ⟨hlen, hlt, hfar, hna⟩ := std_facts hw
  obtain ⟨hA, hG⟩ := split_lt hs
  unfold table computeG
  simp only [List.mem_filter, List.mem_range, List.any_eq_true, mem_follow, Bool.and_eq_true, decide_eq_true_eq, beq_iff_eq, Bool.or_eq_true,
    bne_iff_ne]
  constructor
  · rintro ⟨_, e, ⟨m, u, gh', h1, h2, h3, h4⟩, ⟨⟨h5, h6⟩, h7⟩, h8⟩
    subst h6 h7
    exact ⟨m, u, gh', by omega, h3, h4, h8⟩
  · rintro ⟨m, u, gh', h1, h2, h3, h4⟩
    refine ⟨?_, (m + 1, sid, p), ⟨m, u, gh', by omega, rfl, h2, h3⟩, ⟨⟨h1, rfl⟩, rfl⟩, h4⟩
    cases h2 with
    | loc h1 => omega
    | glob i h0 h1 h2 =>
      have := hlen _ _ hA hG
      have := (List.getElem?_eq_some_iff.1 h1).1
      omega

/-- A chosen port is a link, after which a shorter path is left. -/
theorem table_step {me h ej p : Nat} (hs : me < P.a * P.g) (hh : h ≤ 3) (hp : p ∈ table P W me h ej) :
    ∃ u q m, (net P W).Link me p u q ∧ u < P.a * P.g ∧ m + 1 ≤ h ∧ Walk P W m 0 u ej ∧
      (u / P.a ≠ me / P.a → u / P.a = ej / P.a ∧ ej / P.a ≠ me / P.a) := by
  obtain ⟨hlen, hlt, hfar, hna⟩ := std_facts hw
  obtain ⟨hA, hG⟩ := split_lt hs
  obtain ⟨m, u, gh', h1, h2, h3, h4⟩ := (mem_table hw hs hh).1 hp
  cases h2 with
  | loc g1 g2 g3 =>
    refine ⟨u, me % P.a, m, ?_, by rw [g3]; exact uid_lt g1 hG, h1, h3, fun h => absurd (by rw [g3, uid_div g1]) h⟩
    rw [link_iff]
    exact Or.inl ⟨g1, g2, g3, rfl⟩
  | glob i g0 g1 g2 =>
    have hu := walk_group h3 (by decide)
    have hg : ej / P.a ≠ me / P.a := by
      rcases h4 with h4 | h4
      · omega
      · exact h4
    refine ⟨u, W.inport (me % P.a) (me / P.a) i (u % P.a) (u / P.a) + P.a, m, ?_, hlt _ _ _ hA hG (List.mem_of_getElem? g1), h1, walk_weaken h3,
      fun _ => ⟨hu.symm, hg⟩⟩
    rw [link_iff]
    exact Or.inr ⟨i, g1, by rw [← hu]; exact hg, g2, rfl⟩

/-- A path gives a port. -/
theorem table_ne_nil {me h ej m : Nat} (hs : me < P.a * P.g) (hej : ej < P.a * P.g) (hh : h ≤ 3) (hne : me ≠ ej) (w : Walk P W m 0 me ej) (hm : m ≤ h) :
    table P W me h ej ≠ [] := by
  obtain ⟨hA, hG⟩ := split_lt hs
  obtain ⟨hA', hG'⟩ := split_lt hej
  cases w with
  | nil => exact absurd rfl hne
  | @cons m _ gh' _ p u _ hh' w =>
    by_cases hg : ej / P.a = me / P.a
    · apply List.ne_nil_of_mem (a := ej % P.a)
      rw [mem_table hw hs hh]
      refine ⟨0, ej, 0, by omega, .loc hA' ?_ ?_, .nil, Or.inl hA'⟩
      · intro e
        apply hne
        rw [← uid_eq P me, ← uid_eq P ej, e, hg]
      · rw [← hg]; exact (uid_eq P ej).symm
    · apply List.ne_nil_of_mem (a := p)
      rw [mem_table hw hs hh]
      exact ⟨m, u, gh', hm, hh', w, Or.inr hg⟩

/-- Any two switches have a path of three links with one between groups; of one, in a group. -/
theorem walk_exists {s t : Nat} (hs : s < P.a * P.g) (ht : t < P.a * P.g) (hne : s ≠ t) :
    ∃ m, Walk P W m 0 s t ∧ m ≤ 3 ∧ (s / P.a = t / P.a → m = 1) := by
  obtain ⟨hlen, hlt, hfar, hna⟩ := std_facts hw
  obtain ⟨hA, hG⟩ := split_lt hs
  obtain ⟨hA', hG'⟩ := split_lt ht
  have loc : ∀ {gh u v : Nat}, v < P.a * P.g → u / P.a = v / P.a → u ≠ v → Hop P W u gh (v % P.a) v gh := by
    intro gh u v hv hg hn
    refine .loc (split_lt hv).1 ?_ (by rw [hg]; exact (uid_eq P v).symm)
    intro e
    apply hn
    rw [← uid_eq P u, ← uid_eq P v, e, hg]
  by_cases hg : s / P.a = t / P.a
  · exact ⟨1, .cons (loc ht hg hne) .nil, by omega, fun _ => rfl⟩
  · obtain ⟨A, d, h1, h2, h3⟩ := groups_linked hlen hlt hfar hna (by omega) hG hG' (fun e => hg e.symm)
    obtain ⟨i, hi⟩ := List.getElem?_of_mem h2
    have hd := hlt _ _ _ h1 hG h2
    have hu := uid_lt h1 hG
    have glob : Hop P W (A + s / P.a * P.a) 0 (i + P.a) d 1 := .glob i rfl (by rw [uid_div h1, uid_mod h1]; exact hi) rfl
    have last : ∃ m, m ≤ 1 ∧ Walk P W m 1 d t := by
      by_cases e : d = t
      · subst e; exact ⟨0, by omega, .nil⟩
      · exact ⟨1, by omega, .cons (loc ht h3 e) .nil⟩
    obtain ⟨m, hm, w⟩ := last
    by_cases e : s = A + s / P.a * P.a
    · rw [← e] at glob
      exact ⟨m + 1, .cons glob w, by omega, fun h => absurd h hg⟩
    · exact ⟨m + 1 + 1, .cons (loc hu (by rw [uid_div h1]) e) (.cons glob w), by omega, fun h => absurd h hg⟩

end

theorem within_vcs {H : Type} {N : Net} {R : Router H} {v w node : Nat} (hv : v ≤ w) : ∀ {n s : Nat} {h : H},
    DeliversWithin N R v node n s h → DeliversWithin N R w node n s h := by
  intro n
  induction n with
  | zero =>
    intro s h ⟨h1, h2⟩
    exact ⟨h1, fun p vc h' hr => ⟨Nat.lt_of_lt_of_le (h2 p vc h' hr).1 hv, (h2 p vc h' hr).2⟩⟩
  | succ n ih =>
    intro s h ⟨h1, h2⟩
    refine ⟨h1, fun p vc h' hr => ⟨Nat.lt_of_lt_of_le (h2 p vc h' hr).1 hv, ?_⟩⟩
    rcases (h2 p vc h' hr).2 with h3 | ⟨t, q, h3, h4⟩
    · exact Or.inl h3
    · exact Or.inr ⟨t, q, h3, ih h4⟩

theorem sreach_ok {P : Par} {W : Wiring} {me : Nat} {st : Nat → Nat → Nat} (h : SReach P W me st) :
    ∀ i j, table P W me i j ≠ [] → st i j < (table P W me i j).length := by
  induction h with
  | init => exact fun i j h => List.length_pos_iff.2 h
  | route _ e ih =>
    unfold sroute at e
    simp only at e
    split at e
    · cases e; exact ih
    · split at e
      · cases e
      · split at e
        · cases e
        · rename_i x hx
          cases e
          intro i j hne
          simp only
          split
          · rename_i hij
            obtain ⟨rfl, rfl⟩ := hij
            obtain ⟨p, j, h1, _, h2, _⟩ := nextPort_some (ih _ _ hne)
            rw [h1] at hx
            cases hx
            exact h2
          · exact ih i j hne

/-- The hops a packet may take. -/
def smax (P : Par) (ej s : Nat) (h : SHdr) : Nat := scatMax P (h.src.getD s) ej

/-- Packets on their way: at the destination, or with a path that is short enough. -/
structure SOk (P : Par) (W : Wiring) (ej s : Nat) (h : SHdr) (n : Nat) : Prop where
  lt : s < P.a * P.g
  hops : h.nhops + n ≤ smax P ej s h
  path : s = ej ∨ ∃ m, m ≤ n ∧ Walk P W m 0 s ej
  own : (h.src.getD s) / P.a = ej / P.a → s / P.a = ej / P.a

/-- One decision of the scatter router. -/
inductive SKind (P : Par) (W : Wiring) (node me : Nat) (h : SHdr) (p vc : Nat) (h' : SHdr) (n : Nat) : Prop
  | eject (h1 : node / P.conc = me) (h2 : p = P.a + P.h + node % P.conc) (h3 : vc = 0)
  | hop (u q k : Nat) (h1 : node / P.conc ≠ me) (h2 : vc = h.nhops) (h3 : h'.nhops = h.nhops + 1) (h4 : k + 1 = n)
      (h5 : (net P W).Link me p u q) (h6 : SOk P W (node / P.conc) u h' k) (h7 : h'.src = some (h.src.getD me))
      (h8 : u / P.a ≠ me / P.a → u / P.a = node / P.conc / P.a ∧ node / P.conc / P.a ≠ me / P.a)

theorem smax_le (P : Par) (ej s : Nat) (h : SHdr) : 2 ≤ smax P ej s h ∧ smax P ej s h ≤ 3 := by
  unfold smax scatMax
  split <;> omega

section
variable {P : Par} {W : Wiring} (hw : StdWiring P W)
include hw

theorem sroute_step {me node : Nat} {h : SHdr} {st : Nat → Nat → Nat} {n : Nat} (hn : node < P.a * P.g * P.conc)
    (hst : ∀ i j, table P W me i j ≠ [] → st i j < (table P W me i j).length)
    (ho : SOk P W (node / P.conc) me h n) (hx : h.nhops + n = smax P (node / P.conc) me h) :
    ∃ p vc h' st', sroute P W me node h st = some (p, vc, h', st') ∧ SKind P W node me h p vc h' n := by
  have hej := ejsw_lt hn
  obtain ⟨hm2, hm3⟩ := smax_le P (node / P.conc) me h
  unfold sroute
  simp only
  by_cases e : node / P.conc = me
  · rw [if_pos e]
    exact ⟨_, _, _, _, rfl, .eject e rfl rfl⟩
  rw [if_neg e]
  have e' : ¬ me = node / P.conc := fun h => e h.symm
  rcases ho.path with hp | ⟨m, hm, w⟩
  · exact absurd hp e'
  have hm0 : 1 ≤ m := by
    cases w with
    | nil => exact absurd rfl e'
    | cons => omega
  have hsm : scatMax P (h.src.getD me) (node / P.conc) = smax P (node / P.conc) me h := rfl
  rw [hsm, if_neg (by omega)]
  have hal : smax P (node / P.conc) me h - h.nhops = n := by omega
  rw [hal]
  have hnn := table_ne_nil hw (h := n) ho.lt hej (by omega) e' w hm
  obtain ⟨p, j, h1, h2, _, _⟩ := nextPort_some (hst _ _ hnn)
  rw [h1]
  obtain ⟨u, q, m', g1, g2, g3, g4, g5⟩ := table_step hw ho.lt (by omega) h2
  refine ⟨_, _, _, _, rfl, .hop u q (n - 1) e rfl (Nat.mod_eq_of_lt (by omega)) (by omega) g1 ⟨g2, ?_, Or.inr ⟨m', by omega, g4⟩, ?_⟩ rfl g5⟩
  · show (h.nhops + 1) % 16 + (n - 1) ≤ smax P (node / P.conc) me h
    rw [Nat.mod_eq_of_lt (by omega)]
    omega
  · intro hs
    have hs : (h.src.getD me) / P.a = node / P.conc / P.a := hs
    have := ho.own hs
    by_cases hu : u / P.a = me / P.a
    · rw [hu, this]
    · exact (g5 hu).1

theorem skind {me node : Nat} {h h' : SHdr} {p vc n : Nat} (hn : node < P.a * P.g * P.conc)
    (ho : SOk P W (node / P.conc) me h n) (hx : h.nhops + n = smax P (node / P.conc) me h)
    (hr : srouter P W me node h p vc h') : SKind P W node me h p vc h' n := by
  obtain ⟨st, st', hst, e⟩ := hr
  obtain ⟨p1, vc1, h1, st1, e1, k⟩ := sroute_step hw hn (sreach_ok hst) ho hx
  rw [e] at e1
  cases e1
  exact k

omit hw in
theorem smax_keep {ej me u : Nat} {h h' : SHdr} (h7 : h'.src = some (h.src.getD me)) : smax P ej u h' = smax P ej me h := by
  unfold smax
  rw [h7]
  rfl

theorem swithin (hc : 0 < P.conc) {node : Nat} (hn : node < P.a * P.g * P.conc) :
    ∀ (n me : Nat) (h : SHdr), SOk P W (node / P.conc) me h n → h.nhops + n = smax P (node / P.conc) me h →
      DeliversWithin (net P W) (srouter P W) (smax P (node / P.conc) me h) node n me h := by
  have inj := inj_mem (W := W) hc (node := node)
  have dec : ∀ {n me : Nat} {h : SHdr}, SOk P W (node / P.conc) me h n → h.nhops + n = smax P (node / P.conc) me h →
      ∃ p vc h', srouter P W me node h p vc h' := by
    intro n me h ho hx
    obtain ⟨p1, vc1, h1, st1, e1, _⟩ := sroute_step hw hn (sreach_ok .init) ho hx
    exact ⟨p1, vc1, h1, _, st1, .init, e1⟩
  intro n
  induction n with
  | zero =>
    intro me h ho hx
    obtain ⟨hm2, hm3⟩ := smax_le P (node / P.conc) me h
    refine ⟨dec ho hx, fun p vc h' hr => ?_⟩
    cases skind hw hn ho hx hr with
    | eject h1 h2 h3 => exact ⟨by omega, by rw [← h1]; exact inj p h2⟩
    | hop u q k h1 h2 h3 h4 => omega
  | succ n ih =>
    intro me h ho hx
    obtain ⟨hm2, hm3⟩ := smax_le P (node / P.conc) me h
    refine ⟨dec ho hx, fun p vc h' hr => ?_⟩
    cases skind hw hn ho hx hr with
    | eject h1 h2 h3 => exact ⟨by omega, Or.inl (by rw [← h1]; exact inj p h2)⟩
    | hop u q k h1 h2 h3 h4 h5 h6 h7 =>
      have hk : k = n := by omega
      subst hk
      have := ih u h' h6 (by rw [smax_keep h7]; omega)
      rw [smax_keep h7] at this
      exact ⟨by omega, Or.inr ⟨u, q, h5, this⟩⟩

theorem sok_init {s ej : Nat} (hs : s < P.a * P.g) (hej : ej < P.a * P.g) : SOk P W ej s .init (smax P ej s .init) := by
  refine ⟨hs, Nat.le_of_eq (Nat.zero_add _), ?_, fun h => h⟩
  by_cases e : s = ej
  · exact Or.inl e
  · obtain ⟨m, h1, h2, h3⟩ := walk_exists hw hs hej e
    refine Or.inr ⟨m, ?_, h1⟩
    unfold smax scatMax
    split
    · rename_i h
      have := h3 h
      omega
    · exact h2

theorem sflight {node s : Nat} {h : SHdr} (hn : node < P.a * P.g * P.conc)
    (hf : InFlight (net P W) (srouter P W) .init node s h) :
    ∃ n, SOk P W (node / P.conc) s h n ∧ h.nhops + n = smax P (node / P.conc) s h := by
  obtain ⟨hlen, hlt, hfar, hna⟩ := std_facts hw
  induction hf with
  | @inject s hs hi => exact ⟨_, sok_init hw hs (ejsw_lt hn), Nat.zero_add _⟩
  | @hop s h p vc h' t q hf hr hl ih =>
    obtain ⟨n, ho, hx⟩ := ih
    obtain ⟨hp, ht⟩ := link_lt hlen hlt hfar hna ho.lt hl
    cases skind hw hn ho hx hr with
    | eject h1 h2 h3 => omega
    | hop u q' k h1 h2 h3 h4 h5 h6 h7 =>
      obtain ⟨rfl, _⟩ := link_fun hlen hlt hfar hna hl h5
      exact ⟨k, h6, by rw [smax_keep h7]; omega⟩

theorem sfree : DeadlockFree (net P W) (srouter P W) .init (P.a * P.g * P.conc) := by
  obtain ⟨hlen, hlt, hfar, hna⟩ := std_facts hw
  unfold DeadlockFree
  apply acyclic_of_rank (fun c => (c.2.2, 0))
  rintro _ _ ⟨node, s, x, p, vc, x', t, q, p', vc', x'', u, q', hn, hf, hr, hl, hr', hl', rfl, rfl⟩
  left
  obtain ⟨n, ho, hx⟩ := sflight hw hn hf
  obtain ⟨n', ho', hx'⟩ := sflight hw hn (InFlight.hop hf hr hl)
  obtain ⟨hp, _⟩ := link_lt hlen hlt hfar hna ho.lt hl
  obtain ⟨hp', _⟩ := link_lt hlen hlt hfar hna ho'.lt hl'
  cases skind hw hn ho hx hr with
  | eject h1 h2 h3 => omega
  | hop v q1 k h1 h2 h3 h4 h5 h6 h7 =>
    cases skind hw hn ho' hx' hr' with
    | eject g1 g2 g3 => omega
    | hop v' q2 k' g1 g2 g3 g4 g5 g6 g7 =>
      show vc < vc'
      omega

end

/-! ### The properties -/

/-- C96, rotate: where every switch has a link to another group, every packet is delivered within
four links on the four channels the router declares; no deadlock; no router fails. -/
theorem C96_rotate (P : Par) (W : Wiring) (static : Bool) (hw : StdWiring P W) (hc : 0 < P.conc)
    (hval : ∀ s, s < P.a * P.g → 1 < P.g → ∃ p t q, (net P W).Link s p t q ∧ t / P.a ≠ s / P.a) :
    (∀ s node, s < P.a * P.g → node < P.a * P.g * P.conc → DeliversWithin (net P W) (rrouter P W static) rotVC node 4 s ⟨0, 0⟩) ∧
    DeadlockFree (net P W) (rrouter P W static) ⟨0, 0⟩ (P.a * P.g * P.conc) ∧
    (∀ node s h st, node < P.a * P.g * P.conc → InFlight (net P W) (rrouter P W static) ⟨0, 0⟩ node s h → RReach P W static s st →
      (rroute P W static s node h st).isSome) := by
  have hv : ∀ s, s < P.a * P.g → 1 < P.g → validPorts P W s ≠ [] := by
    intro s hs hg
    obtain ⟨p, t, q, hl, hne⟩ := hval s hs hg
    rw [link_iff] at hl
    rcases hl with ⟨h1, _, rfl, _⟩ | ⟨i, h1, h2, h3, _⟩
    · exact absurd (uid_div h1) hne
    · exact List.ne_nil_of_mem (mem_valid.2 ⟨i, t, h1, h2, h3⟩)
  refine ⟨fun s node hs hn => ?_, rfree hw hv, fun node s h st hn hf hst => ?_⟩
  · refine rwithin hw hv hc hn 4 s ⟨0, 0⟩ hs (Nat.le_refl _) ?_ (Nat.le_refl _)
    unfold rleft
    split
    · omega
    · rw [if_pos rfl]; split <;> omega
  · obtain ⟨hs, hng, hb⟩ := rflight hw hv hn hf
    obtain ⟨p, vc, h', st', e, _⟩ := rroute_step (static := static) hw hv hs hn (rreach_ok hst) hng hb
    rw [e]; rfl

/-- C96, scatter: every packet is delivered within three links on the three channels the router
declares, within two in its own group, which it does not leave; it crosses between groups only
into the destination group; no deadlock; no router fails. -/
structure ScatterOk (P : Par) (W : Wiring) : Prop where
  three : ∀ s node, s < P.a * P.g → node < P.a * P.g * P.conc → DeliversWithin (net P W) (srouter P W) scatVC node 3 s .init
  two : ∀ s node, s < P.a * P.g → node < P.a * P.g * P.conc → node / P.conc / P.a = s / P.a →
    DeliversWithin (net P W) (srouter P W) 2 node 2 s .init
  cross : ∀ s node h p vc h' t q, node < P.a * P.g * P.conc → InFlight (net P W) (srouter P W) .init node s h →
    srouter P W s node h p vc h' → (net P W).Link s p t q → t / P.a ≠ s / P.a →
    t / P.a = node / P.conc / P.a ∧ node / P.conc / P.a ≠ s / P.a
  free : DeadlockFree (net P W) (srouter P W) .init (P.a * P.g * P.conc)
  decides : ∀ node s h st, node < P.a * P.g * P.conc → InFlight (net P W) (srouter P W) .init node s h → SReach P W s st →
    (sroute P W s node h st).isSome

theorem C96_scatter (P : Par) (W : Wiring) (hw : StdWiring P W) (hc : 0 < P.conc) : ScatterOk P W := by
  obtain ⟨hlen, hlt, hfar, hna⟩ := std_facts hw
  have main : ∀ s node, s < P.a * P.g → node < P.a * P.g * P.conc →
      DeliversWithin (net P W) (srouter P W) (smax P (node / P.conc) s .init) node (smax P (node / P.conc) s .init) s .init :=
    fun s node hs hn => swithin hw hc hn _ s .init (sok_init hw hs (ejsw_lt hn)) (Nat.zero_add _)
  refine ⟨fun s node hs hn => ?_, fun s node hs hn hg => ?_, ?_, sfree hw, fun node s h st hn hf hst => ?_⟩
  · have := smax_le P (node / P.conc) s .init
    exact within_mono this.2 (within_vcs this.2 (main s node hs hn))
  · have h := main s node hs hn
    rw [show smax P (node / P.conc) s .init = 2 from if_pos hg.symm] at h
    exact h
  · intro s node h p vc h' t q hn hf hr hl hne
    obtain ⟨n, ho, hx⟩ := sflight hw hn hf
    obtain ⟨hp, _⟩ := link_lt hlen hlt hfar hna ho.lt hl
    cases skind hw hn ho hx hr with
    | eject h1 h2 h3 => omega
    | hop u q' k h1 h2 h3 h4 h5 h6 h7 h8 =>
      obtain ⟨rfl, _⟩ := link_fun hlen hlt hfar hna hl h5
      exact h8 hne
  · obtain ⟨n, ho, hx⟩ := sflight hw hn hf
    obtain ⟨p, vc, h', st', e, _⟩ := sroute_step hw hn (sreach_ok hst) ho hx
    rw [e]; rfl

/-- C96: both routers take the ports of a set in turn: the `k`-th packet after a packet at position
`i` leaves by the port at position `i + k`, cyclically, so all ports are used equally. -/
theorem C96_round_robin (ports : List Nat) (i k : Nat) (hi : i < ports.length) :
    ∃ (ps : List (Nat × Nat)), ps.length = k + 1 ∧ (∀ n, n ≤ k → ∃ x, ps[n]? = some x ∧ ports[(i + n) % ports.length]? = some x.1 ∧ x.2 = (i + n + 1) % ports.length) ∧
      ps[0]? = nextPort ports i ∧ ∀ n x, ps[n]? = some x → n < k → ps[n + 1]? = nextPort ports x.2 := by
  induction k with
  | zero =>
    obtain ⟨p, j, h1, h2, h3, h4⟩ := nextPort_some hi
    refine ⟨[(p, j)], rfl, ?_, by rw [h1]; rfl, fun n x _ h => by omega⟩
    intro n hn
    have : n = 0 := by omega
    subst this
    refine ⟨(p, j), rfl, ?_, h4⟩
    rw [Nat.add_zero, Nat.mod_eq_of_lt hi]
    unfold nextPort at h1
    split at h1
    · cases h1
    · rename_i q hq
      cases h1
      exact hq
  | succ k ih =>
    obtain ⟨ps, g1, g2, g3, g4⟩ := ih
    obtain ⟨x, h1, h2, h3⟩ := g2 k (Nat.le_refl _)
    have hl : x.2 < ports.length := by rw [h3]; exact Nat.mod_lt _ (by omega)
    obtain ⟨p, j, e1, e2, e3, e4⟩ := nextPort_some hl
    refine ⟨ps ++ [(p, j)], by rw [List.length_append, g1]; rfl, ?_, by rw [List.getElem?_append_left (by omega)]; exact g3, ?_⟩
    · intro n hn
      by_cases hk : n ≤ k
      · rw [List.getElem?_append_left (by omega)]
        exact g2 n hk
      · have : n = ps.length := by omega
        refine ⟨(p, j), by rw [this]; exact List.getElem?_concat_length, ?_, ?_⟩
        · have : ports[x.2]? = some p := by
            unfold nextPort at e1
            split at e1
            · cases e1
            · rename_i q hq
              cases e1
              exact hq
          rw [show i + n = i + k + 1 by omega, ← h3]
          exact this
        · rw [show i + n + 1 = i + k + 1 + 1 by omega]
          show j = _
          rw [e4, h3, Nat.mod_add_mod]
    · intro n y hy hn
      by_cases hk : n < k
      · rw [List.getElem?_append_left (by omega)] at hy ⊢
        exact g4 n y hy hk
      · have hk : n = k := by omega
        subst hk
        rw [List.getElem?_append_left (by omega), h1] at hy
        cases hy
        rw [e1, ← g1]
        exact List.getElem?_concat_length

/-- Which position a scatter router uses next for a destination: the one after it. -/
theorem C96_scatter_turns (P : Par) (W : Wiring) (me node : Nat) (h : SHdr) (st st' : Nat → Nat → Nat) (p vc : Nat) (h' : SHdr)
    (hst : SReach P W me st) (hne : node / P.conc ≠ me) (e : sroute P W me node h st = some (p, vc, h', st')) :
    ∃ k, h.nhops < k ∧ nextPort (table P W me (k - h.nhops) (node / P.conc)) (st (k - h.nhops) (node / P.conc)) =
        some (p, st' (k - h.nhops) (node / P.conc)) ∧
      ∀ i j, ¬ (i = k - h.nhops ∧ j = node / P.conc) → st' i j = st i j := by
  unfold sroute at e
  simp only at e
  rw [if_neg hne] at e
  split at e
  · cases e
  · rename_i hk
    split at e
    · cases e
    · rename_i x hx
      cases e
      refine ⟨_, Nat.lt_of_not_le hk, ?_, fun i j h => if_neg h⟩
      simp only
      rw [hx, if_pos ⟨trivial, trivial⟩]

/-- Two groups of two switches with one pair of global links each. -/
def pairs : Par := { a := 2, g := 2, h := 2, conc := 1 }

theorem pairs_std : StdWiring pairs (circulant pairs) := .circulant rfl (C47_dragonfly_circulant_covers _ (by decide))

/-- C96 is false for rotate routing in general: in an accepted network a switch may have no link
to another group; its router then reads the end of an empty set. -/
theorem C96_rotate_refuted : ∃ (P : Par) (W : Wiring) (node s : Nat), StdWiring P W ∧ node < P.a * P.g * P.conc ∧
    InFlight (net P W) (rrouter P W false) ⟨0, 0⟩ node s ⟨0, 0⟩ ∧ ∀ st, RReach P W false s st → rroute P W false s node ⟨0, 0⟩ st = none := by
  refine ⟨pairs, circulant pairs, 2, 1, pairs_std, by decide, .inject (by decide) (by decide), ?_⟩
  intro st _
  have : validPorts pairs (circulant pairs) 1 = [] := by decide +kernel
  unfold rroute
  simp only
  rw [if_neg (by decide), if_neg (by decide), if_neg (by decide), this]
  rfl

example : (∀ s, s < 21 → 1 < 7 → ∃ p t q, (net seven (circulant seven)).Link s p t q ∧ t / 3 ≠ s / 3) := by
  intro s hs _
  have : ∀ s, s < 21 → ((circulant seven).connected (s % 3) (s / 3))[0]?.any (fun d => d / 3 != s / 3) = true := by decide +kernel
  have h := this s hs
  rw [Option.any_eq_true] at h
  obtain ⟨d, h1, h2⟩ := h
  refine ⟨0 + 3, d, _, (link_iff (P := seven) _ _ _ _).2 (Or.inr ⟨0, h1, (show ¬ d / 3 = s / 3 by simpa using h2), rfl, rfl⟩), by simpa using h2⟩

example : ScatterOk seven (circulant seven) ∧ ScatterOk { a := 4, g := 5, h := 1, conc := 2 } (single { a := 4, g := 5, h := 1, conc := 2 }) :=
  ⟨C96_scatter _ _ seven_std (by decide), C96_scatter _ _ (.single (by decide) rfl (by decide)) (by decide)⟩

-- From switch 0 to switch 7 of group 2: with two links by switch 1, with three also by switch 2.
example : table seven (circulant seven) 0 3 7 = [1, 2] ∧ table seven (circulant seven) 0 2 7 = [1] := by decide +kernel

end SST.Topo.Dragonfly
