import Verif.Topo.TorusProps
/-
Valiant and UGAL routing on the torus (sstmac/hardware/router/torus_routing.cc).
-/
set_option autoImplicit false
namespace SST.Topo.TorusValiant
open SST.Topo SST.Topo.Torus

/-- `TorusValiantRouter::header`, torus_routing.cc:178-181: the header of the minimal router,
`stage_number` and the 24-bit `dest_switch`.  A new packet has all zero (packet.cc:68). -/
structure VHdr where
  base : Hdr := {}
  stage : Nat := 0
  dest : Nat := 0
deriving DecidableEq, Repr

/-- `minimalRoute(dst, hdr)` on the larger header. -/
def min1 (dims : List Nat) (me dst : Nat) (h : VHdr) : Option (Nat × Nat × VHdr) :=
  (minimalRoute dims me dst h.base).map fun r => (r.1, r.2.1, { h with base := r.2.2 })

/-- `case final_stage`, torus_routing.cc:251-259 and 331-339. -/
def finalStage (dims : List Nat) (me ej : Nat) (h : VHdr) : Option (Nat × Nat × VHdr) :=
  (min1 dims me ej h).map fun r => (r.1, r.2.1 + 2, { r.2.2 with dest := ej % 16777216 })

/-- `TorusValiantRouter::route`, torus_routing.cc:217-262; `inter` is what `getIntermediate`
(206-215) returned. -/
def vroute (dims : List Nat) (conc me node inter : Nat) (h : VHdr) : Option (Nat × Nat × VHdr) :=
  let ej := node / conc
  if ej = me then some (node % conc + 2 * dims.length, 0, h)
  else if h.stage = 0 then
    (min1 dims me inter { h with dest := inter % 16777216 }).map fun r => (r.1, r.2.1, { r.2.2 with stage := 1 })
  else if h.stage = 1 then
    if me = h.dest then finalStage dims me ej { h with stage := 2 }
    else min1 dims me h.dest h
  else finalStage dims me ej h

/-- `TorusUGALRouter::route`, torus_routing.cc:285-349; `valiant` is the comparison of the two
queue metrics (lines 304-307), which may come out either way. -/
def uroute (dims : List Nat) (conc me node inter : Nat) (valiant : Bool) (h : VHdr) : Option (Nat × Nat × VHdr) :=
  let ej := node / conc
  if ej = me then some (node % conc + 2 * dims.length, 0, h)
  else if h.stage = 0 then
    let h' := if valiant then { h with dest := inter % 16777216, stage := 1 } else { h with dest := ej % 16777216, stage := 3 }
    min1 dims me h'.dest h'
  else if h.stage = 1 then
    if me = h.dest then finalStage dims me ej { h with stage := 2 }
    else min1 dims me h.dest h
  else if h.stage = 2 then finalStage dims me ej h
  else min1 dims me ej h

/-- What `getIntermediate` (torus_routing.cc:200-208) can return: the loop ends only with a
switch that is neither the destination nor this one. -/
def Inter (dims : List Nat) (me ej inter : Nat) : Prop := inter < size dims ∧ inter ≠ ej ∧ inter ≠ me

/-- The Valiant router as a relation: the random intermediate is any possible one, and is
drawn only for a packet in its first stage that is not at its destination. -/
def vrouter (dims : List Nat) (conc : Nat) : Router VHdr :=
  fun me node h p vc h' => ∃ inter,
    (node / conc ≠ me → h.stage = 0 → Inter dims me (node / conc) inter) ∧ vroute dims conc me node inter h = some (p, vc, h')

/-- The UGAL router as a relation. -/
def urouter (dims : List Nat) (conc : Nat) : Router VHdr :=
  fun me node h p vc h' => ∃ inter valiant,
    (node / conc ≠ me → h.stage = 0 → Inter dims me (node / conc) inter) ∧ uroute dims conc me node inter valiant h = some (p, vc, h')

/-! ### Proofs -/

/-- A step of `minimalRoute` towards `d`. -/
theorem step {dims : List Nat} (hpos : ∀ D ∈ dims, 0 < D) (hsz : size dims ≤ 4294967296) (conc : Nat) {s d : Nat}
    (hs : s < size dims) (hd : d < size dims) (hne : s ≠ d) (h : VHdr) :
    ∃ p vc b t q, min1 dims s d h = some (p, vc, { h with base := b }) ∧ vc < 2 ∧ (net dims conc).Link s p t q ∧
      t < size dims ∧ dist dims t d + 1 = dist dims s d := by
  obtain ⟨k, D, p, vc, h', t, q, _, _, _, hr, hvc, hl, ht, hdist, _⟩ :=
    route_step hpos hsz (conc := 1) (node := d) hs (by simpa using hd) (by simpa using hne) h.base
  rw [Nat.div_one] at hdist
  unfold route at hr
  rw [Nat.div_one, if_neg (fun e => hne e.symm)] at hr
  exact ⟨p, vc, h', t, q, by simp [min1, hr], hvc, hl, ht, hdist⟩

section
variable {dims : List Nat} (hpos : ∀ D ∈ dims, 0 < D) (hsz : size dims ≤ 16777216) {conc node : Nat} (hc : 0 < conc)
  (hn : node < size dims * conc)
include hpos hsz hc hn

omit hpos hsz hc in
theorem dest_lt : node / conc < size dims := Nat.div_lt_of_lt_mul (by rw [Nat.mul_comm]; exact hn)

omit hpos hsz hn in
theorem eject_within {R : Router VHdr} {h : VHdr} (n : Nat)
    (hr : ∀ p vc h', R (node / conc) node h p vc h' ↔ (p, vc, h') = (node % conc + 2 * dims.length, 0, h)) :
    DeliversWithin (net dims conc) R 4 node n (node / conc) h := by
  apply within_mono (Nat.zero_le n)
  refine ⟨⟨_, _, _, (hr _ _ _).2 rfl⟩, ?_⟩
  intro p vc h' h2
  rw [hr] at h2
  simp only [Prod.mk.injEq] at h2
  obtain ⟨rfl, rfl, rfl⟩ := h2
  exact ⟨by omega, eject_mem hc⟩

omit hpos hsz hc hn in
theorem v_eject {h : VHdr} (p vc : Nat) (h' : VHdr) :
    vrouter dims conc (node / conc) node h p vc h' ↔ (p, vc, h') = (node % conc + 2 * dims.length, 0, h) := by
  unfold vrouter vroute
  simp only [if_true, Option.some.injEq]
  constructor
  · rintro ⟨_, _, e⟩; exact e.symm
  · intro e; exact ⟨0, by simp, e.symm⟩

omit hpos hsz hc hn in
theorem u_eject {h : VHdr} (p vc : Nat) (h' : VHdr) :
    urouter dims conc (node / conc) node h p vc h' ↔ (p, vc, h') = (node % conc + 2 * dims.length, 0, h) := by
  unfold urouter uroute
  simp only [if_true, Option.some.injEq]
  constructor
  · rintro ⟨_, _, _, e⟩; exact e.symm
  · intro e; exact ⟨0, true, by simp, e.symm⟩

/-- A router that in some stage behaves like `finalStage` and leads to the same stage. -/
theorem final_within {R : Router VHdr}
    (he : ∀ h p vc h', R (node / conc) node h p vc h' ↔ (p, vc, h') = (node % conc + 2 * dims.length, 0, h))
    (hf : ∀ s h p vc h', s ≠ node / conc → h.stage = 2 →
      (R s node h p vc h' ↔ finalStage dims s (node / conc) h = some (p, vc, h'))) :
    ∀ n s h, s < size dims → h.stage = 2 → dist dims s (node / conc) = n →
      DeliversWithin (net dims conc) R 4 node n s h := by
  have hd := dest_lt hn
  intro n
  induction n with
  | zero =>
    intro s h hs _ hz
    have := (dist_zero dims hpos s _ hs hd).1 hz
    subst this
    exact eject_within hc 0 (he h)
  | succ n ih =>
    intro s h hs hst hz
    by_cases hne : s = node / conc
    · subst hne
      exact eject_within hc _ (he h)
    · obtain ⟨p, vc, b, t, q, hm, hvc, hl, ht, hdist⟩ := step hpos (by omega) conc hs hd hne h
      have hR : ∀ p' vc' h', R s node h p' vc' h' ↔
          (p', vc', h') = (p, vc + 2, { h with base := b, dest := (node / conc) % 16777216 }) := by
        intro p' vc' h'
        rw [hf s h p' vc' h' hne hst]
        simp only [finalStage, hm, Option.map_some, Option.some.injEq]
        exact eq_comm
      refine ⟨⟨_, _, _, (hR _ _ _).2 rfl⟩, ?_⟩
      intro p' vc' h' hr
      rw [hR] at hr
      simp only [Prod.mk.injEq] at hr
      obtain ⟨rfl, rfl, rfl⟩ := hr
      exact ⟨by omega, Or.inr ⟨t, q, hl, ih t _ ht hst (by omega)⟩⟩

/-- The way to the intermediate switch and on. -/
theorem middle_within {R : Router VHdr}
    (he : ∀ h p vc h', R (node / conc) node h p vc h' ↔ (p, vc, h') = (node % conc + 2 * dims.length, 0, h))
    (hf : ∀ s h p vc h', s ≠ node / conc → h.stage = 2 →
      (R s node h p vc h' ↔ finalStage dims s (node / conc) h = some (p, vc, h')))
    (hm : ∀ s h p vc h', s ≠ node / conc → h.stage = 1 → (R s node h p vc h' ↔
      (if s = h.dest then finalStage dims s (node / conc) { h with stage := 2 } else min1 dims s h.dest h) = some (p, vc, h'))) :
    ∀ n s h, s < size dims → h.stage = 1 → h.dest < size dims → dist dims s h.dest = n →
      DeliversWithin (net dims conc) R 4 node (n + dist dims h.dest (node / conc)) s h := by
  have hd := dest_lt hn
  have arrived : ∀ s h, s < size dims → h.stage = 1 → s = h.dest →
      DeliversWithin (net dims conc) R 4 node (dist dims h.dest (node / conc)) s h := by
    intro s h hs hst hdest
    by_cases hne : s = node / conc
    · subst hne
      exact eject_within hc _ (he h)
    · have h2 := final_within hpos hsz hc hn he hf _ s { h with stage := 2 } hs rfl rfl
      have e : ∀ p vc h', R s node h p vc h' ↔ R s node { h with stage := 2 } p vc h' := by
        intro p vc h'
        rw [hm s h p vc h' hne hst, if_pos hdest, hf s { h with stage := 2 } p vc h' hne rfl]
      rw [← hdest]
      cases hz : dist dims s (node / conc) with
      | zero => exact absurd ((dist_zero dims hpos s _ hs hd).1 hz) hne
      | succ n =>
        rw [hz] at h2
        unfold DeliversWithin at h2 ⊢
        simpa only [e] using h2
  intro n
  induction n with
  | zero =>
    intro s h hs hst hdl hz
    have := (dist_zero dims hpos s _ hs hdl).1 hz
    rw [Nat.zero_add]
    exact arrived s h hs hst this
  | succ n ih =>
    intro s h hs hst hdl hz
    by_cases hsd : s = h.dest
    · exact within_mono (by omega) (arrived s h hs hst hsd)
    by_cases hne : s = node / conc
    · subst hne
      exact eject_within hc _ (he h)
    · obtain ⟨p, vc, b, t, q, hmm, hvc, hl, ht, hdist⟩ := step hpos (by omega) conc hs hdl hsd h
      have hR : ∀ p' vc' h', R s node h p' vc' h' ↔ (p', vc', h') = (p, vc, { h with base := b }) := by
        intro p' vc' h'
        rw [hm s h p' vc' h' hne hst, if_neg hsd, hmm, Option.some.injEq]
        exact eq_comm
      rw [show n + 1 + dist dims h.dest (node / conc) = (n + dist dims h.dest (node / conc)) + 1 by omega]
      refine ⟨⟨_, _, _, (hR _ _ _).2 rfl⟩, ?_⟩
      intro p' vc' h' hr
      rw [hR] at hr
      simp only [Prod.mk.injEq] at hr
      obtain ⟨rfl, rfl, rfl⟩ := hr
      exact ⟨by omega, Or.inr ⟨t, q, hl, ih t { h with base := b } ht hst hdl (by simp only; omega)⟩⟩
end

theorem exists_inter {dims : List Nat} (h3 : 3 ≤ size dims) (a b : Nat) : ∃ i, Inter dims a b i := by
  unfold Inter
  by_cases h0 : 0 ≠ a ∧ 0 ≠ b
  · exact ⟨0, by omega, by omega, by omega⟩
  · by_cases h1 : 1 ≠ a ∧ 1 ≠ b
    · exact ⟨1, by omega, by omega, by omega⟩
    · exact ⟨2, by omega, by omega, by omega⟩

/-- C72, Valiant routing: on a torus of at least three switches a packet injected anywhere
reaches its node within twice the diameter, on the declared four virtual channels, whichever
intermediate switch is drawn. -/
theorem C72_torus_valiant_delivers_partial (dims : List Nat) (hpos : ∀ D ∈ dims, 0 < D) (hsz : size dims ≤ 16777216)
    (h3 : 3 ≤ size dims) (conc : Nat) (hc : 0 < conc) (s node : Nat) (hs : s < size dims) (hn : node < size dims * conc) :
    DeliversWithin (net dims conc) (vrouter dims conc) 4 node (2 * diameter dims) s {} := by
  have hd := dest_lt hn
  by_cases hne : s = node / conc
  · subst hne
    exact eject_within hc _ v_eject
  · have hR : ∀ p vc h', vrouter dims conc s node {} p vc h' ↔
        ∃ inter, Inter dims s (node / conc) inter ∧ vroute dims conc s node inter {} = some (p, vc, h') := by
      intro p vc h'
      unfold vrouter
      simp [Ne.symm hne]
    have hgo : ∀ inter, Inter dims s (node / conc) inter → ∃ p vc b t q,
        vroute dims conc s node inter {} = some (p, vc, { base := b, stage := 1, dest := inter }) ∧ vc < 2 ∧
        (net dims conc).Link s p t q ∧ t < size dims ∧ dist dims t inter + 1 = dist dims s inter := by
      intro inter hi
      have hmod : inter % 16777216 = inter := Nat.mod_eq_of_lt (by have := hi.1; omega)
      obtain ⟨p, vc, b, t, q, hm, hvc, hl, ht, hdist⟩ := step hpos (by omega) conc hs hi.1 (Ne.symm hi.2.2) { dest := inter }
      refine ⟨p, vc, b, t, q, ?_, hvc, hl, ht, hdist⟩
      unfold vroute
      rw [if_neg (Ne.symm hne), if_pos rfl]
      simp only [hmod, hm, Option.map_some]
    obtain ⟨i0, hi0⟩ := exists_inter h3 s (node / conc)
    obtain ⟨p0, vc0, b0, t0, q0, e0, _, _, _, hz0⟩ := hgo i0 hi0
    have hdiam : 2 * diameter dims = (2 * diameter dims - 1) + 1 := by
      have := dist_diameter dims hpos s i0
      omega
    rw [hdiam]
    refine ⟨⟨_, _, _, (hR _ _ _).2 ⟨i0, hi0, e0⟩⟩, ?_⟩
    intro p vc h' hr
    obtain ⟨inter, hi, e⟩ := (hR _ _ _).1 hr
    obtain ⟨p1, vc1, b, t, q, e1, hvc, hl, ht, hdist⟩ := hgo inter hi
    rw [e] at e1
    simp only [Option.some.injEq, Prod.mk.injEq] at e1
    obtain ⟨rfl, rfl, rfl⟩ := e1
    refine ⟨by omega, Or.inr ⟨t, q, hl, ?_⟩⟩
    have d1 := dist_diameter dims hpos s inter
    have d2 := dist_diameter dims hpos inter (node / conc)
    refine within_mono ?_ (middle_within hpos hsz hc hn (fun _ => v_eject) ?_ ?_ (dist dims t inter) t
      { base := b, stage := 1, dest := inter } ht rfl hi.1 rfl)
    · simp only; omega
    · intro s h p vc h' hne hst
      unfold vrouter vroute
      simp [Ne.symm hne, hst]
    · intro s h p vc h' hne hst
      unfold vrouter vroute
      simp [Ne.symm hne, hst]

/-- C72, UGAL routing: the same, whatever the queue lengths were. -/
theorem C72_torus_ugal_delivers_partial (dims : List Nat) (hpos : ∀ D ∈ dims, 0 < D) (hsz : size dims ≤ 16777216)
    (h3 : 3 ≤ size dims) (conc : Nat) (hc : 0 < conc) (s node : Nat) (hs : s < size dims) (hn : node < size dims * conc) :
    DeliversWithin (net dims conc) (urouter dims conc) 4 node (2 * diameter dims) s {} := by
  have hd := dest_lt hn
  by_cases hne : s = node / conc
  · subst hne
    exact eject_within hc _ u_eject
  · have hR : ∀ p vc h', urouter dims conc s node {} p vc h' ↔
        ∃ inter v, Inter dims s (node / conc) inter ∧ uroute dims conc s node inter v {} = some (p, vc, h') := by
      intro p vc h'
      unfold urouter
      simp [Ne.symm hne]
    have hgo : ∀ (x st : Nat), x < size dims → x ≠ s → ∃ p vc b t q,
        min1 dims s x { stage := st, dest := x } = some (p, vc, { base := b, stage := st, dest := x }) ∧ vc < 2 ∧
        (net dims conc).Link s p t q ∧ t < size dims ∧ dist dims t x + 1 = dist dims s x := by
      intro x st hx hxs
      obtain ⟨p, vc, b, t, q, hm, hvc, hl, ht, hdist⟩ := step hpos (by omega) conc hs hx (Ne.symm hxs) { stage := st, dest := x }
      exact ⟨p, vc, b, t, q, hm, hvc, hl, ht, hdist⟩
    have hval : ∀ inter, Inter dims s (node / conc) inter → uroute dims conc s node inter true {} =
        min1 dims s inter { stage := 1, dest := inter } := by
      intro inter hi
      have hmod : inter % 16777216 = inter := Nat.mod_eq_of_lt (by have := hi.1; omega)
      unfold uroute
      rw [if_neg (Ne.symm hne), if_pos rfl]
      simp [hmod]
    have hmin : ∀ inter, uroute dims conc s node inter false {} =
        min1 dims s (node / conc) { stage := 3, dest := node / conc } := by
      intro inter
      have hmod : (node / conc) % 16777216 = node / conc := Nat.mod_eq_of_lt (by omega)
      unfold uroute
      rw [if_neg (Ne.symm hne), if_pos rfl]
      simp [hmod]
    -- the minimal-only stage
    have hstage3 : ∀ n s h, s < size dims → h.stage = 3 → dist dims s (node / conc) = n →
        DeliversWithin (net dims conc) (urouter dims conc) 4 node n s h := by
      intro n
      induction n with
      | zero =>
        intro s h hs _ hz
        have := (dist_zero dims hpos s _ hs hd).1 hz
        subst this
        exact eject_within hc 0 u_eject
      | succ n ih =>
        intro s h hs hst hz
        by_cases hne : s = node / conc
        · subst hne
          exact eject_within hc _ u_eject
        · obtain ⟨p, vc, b, t, q, hm, hvc, hl, ht, hdist⟩ := step hpos (by omega) conc hs hd hne h
          have hR : ∀ p' vc' h', urouter dims conc s node h p' vc' h' ↔ (p', vc', h') = (p, vc, { h with base := b }) := by
            intro p' vc' h'
            unfold urouter uroute
            simp only [Ne.symm hne, hst, hm, if_false]
            simp [eq_comm]
          refine ⟨⟨_, _, _, (hR _ _ _).2 rfl⟩, ?_⟩
          intro p' vc' h' hr
          rw [hR] at hr
          simp only [Prod.mk.injEq] at hr
          obtain ⟨rfl, rfl, rfl⟩ := hr
          exact ⟨by omega, Or.inr ⟨t, q, hl, ih t _ ht hst (by omega)⟩⟩
    obtain ⟨i0, hi0⟩ := exists_inter h3 s (node / conc)
    obtain ⟨p0, vc0, b0, t0, q0, e0, _, _, _, hz0⟩ := hgo i0 1 hi0.1 hi0.2.2
    have hdiam : 2 * diameter dims = (2 * diameter dims - 1) + 1 := by
      have := dist_diameter dims hpos s i0
      omega
    rw [hdiam]
    refine ⟨⟨_, _, _, (hR _ _ _).2 ⟨i0, true, hi0, by rw [hval i0 hi0]; exact e0⟩⟩, ?_⟩
    intro p vc h' hr
    obtain ⟨inter, v, hi, e⟩ := (hR _ _ _).1 hr
    cases v with
    | true =>
      rw [hval inter hi] at e
      obtain ⟨p1, vc1, b, t, q, e1, hvc, hl, ht, hdist⟩ := hgo inter 1 hi.1 hi.2.2
      rw [e] at e1
      simp only [Option.some.injEq, Prod.mk.injEq] at e1
      obtain ⟨rfl, rfl, rfl⟩ := e1
      refine ⟨by omega, Or.inr ⟨t, q, hl, ?_⟩⟩
      have d1 := dist_diameter dims hpos s inter
      have d2 := dist_diameter dims hpos inter (node / conc)
      refine within_mono ?_ (middle_within hpos hsz hc hn (fun _ => u_eject) ?_ ?_ (dist dims t inter) t
        { base := b, stage := 1, dest := inter } ht rfl hi.1 rfl)
      · simp only; omega
      · intro s h p vc h' hne hst
        unfold urouter uroute
        simp [Ne.symm hne, hst]
      · intro s h p vc h' hne hst
        unfold urouter uroute
        simp [Ne.symm hne, hst]
    | false =>
      rw [hmin inter] at e
      obtain ⟨p1, vc1, b, t, q, e1, hvc, hl, ht, hdist⟩ := hgo (node / conc) 3 hd (Ne.symm hne)
      rw [e] at e1
      simp only [Option.some.injEq, Prod.mk.injEq] at e1
      obtain ⟨rfl, rfl, rfl⟩ := e1
      refine ⟨by omega, Or.inr ⟨t, q, hl, ?_⟩⟩
      have d1 := dist_diameter dims hpos s (node / conc)
      exact within_mono (by omega) (hstage3 _ t { base := b, stage := 3, dest := node / conc } ht rfl rfl)

/-- C72 is false with two switches: there is no intermediate switch, the search for one does
not end, and the packet is never routed. -/
theorem C72_torus_valiant_delivers_refuted :
    ¬ ∀ (dims : List Nat) (conc s node n : Nat), (∀ D ∈ dims, 0 < D) → size dims ≤ 16777216 → 0 < conc → s < size dims →
      node < size dims * conc → 2 * diameter dims ≤ n → DeliversWithin (net dims conc) (vrouter dims conc) 4 node n s {} := by
  intro h
  have := h [2] 1 0 1 2 (by decide) (by decide) (by decide) (by decide) (by decide) (by decide)
  obtain ⟨⟨p, vc, h', inter, hi, _⟩, _⟩ := this
  have := hi (by decide) rfl
  unfold Inter at this
  have h1 := this.1
  simp [size] at this h1
  omega

/-- The hypotheses on a 3x3 torus; the packet from 0 to 4 by way of 8. -/
example : (∀ D ∈ [3, 3], 0 < D) ∧ 3 ≤ size [3, 3] ∧ Inter [3, 3] 0 4 8 ∧
    vroute [3, 3] 1 0 4 8 {} = some (1, 1, { base := { crossed := true, lastDim := 0 }, stage := 1, dest := 8 }) := by
  unfold Inter; decide

/-- One hop of a packet in the ring of eight. -/
theorem hop8 {node s p vc t q : Nat} {h h' : VHdr} (inter : Nat)
    (hf : InFlight (net [8] 1) (vrouter [8] 1) {} node s h)
    (hi : node / 1 ≠ s → h.stage = 0 → Inter [8] s (node / 1) inter)
    (hr : vroute [8] 1 s node inter h = some (p, vc, h')) (hl : (net [8] 1).Link s p t q) :
    InFlight (net [8] 1) (vrouter [8] 1) {} node t h' :=
  InFlight.hop hf ⟨inter, hi, hr⟩ hl

/-- C73 is false: on a ring of eight, Valiant routing has a circle of waiting channels, all on
the upward ports and virtual channel 3.  The date-line flag of the first stage is carried
into the second, so the flag no longer separates the two sides of the date line.  Packets
7 to 4 by way of 0, 7 to 6 by way of 2 and 0 to 1 by way of 5. -/
theorem C73_torus_valiant_deadlock_refuted :
    ¬ ∀ (dims : List Nat) (conc : Nat), (∀ D ∈ dims, 2 ≤ D) → size dims ≤ 16777216 → 0 < conc →
      DeadlockFree (net dims conc) (vrouter dims conc) {} (size dims * conc) := by
  intro h
  have h := h [8] 1 (by decide) (by decide) (by decide) (0, 0, 3)
  apply h
  let c : Nat → VHdr := fun d => { base := { crossed := true, lastDim := 0 }, stage := 1, dest := d }
  let f : Nat → VHdr := fun d => { base := { crossed := true, lastDim := 0 }, stage := 2, dest := d }
  -- 7 to 4 by way of 0
  have a0 : InFlight (net [8] 1) (vrouter [8] 1) {} 4 0 (c 0) :=
    hop8 (s := 7) (p := 0) (vc := 1) (q := 1) 0 (InFlight.inject (by decide) (by decide)) (by unfold Inter; decide)
      (by decide) (by unfold Net.Link; decide)
  have a1 : InFlight (net [8] 1) (vrouter [8] 1) {} 4 1 (f 4) :=
    hop8 (p := 0) (vc := 3) (q := 1) 0 a0 (by unfold Inter; decide) (by decide) (by unfold Net.Link; decide)
  have a2 : InFlight (net [8] 1) (vrouter [8] 1) {} 4 2 (f 4) :=
    hop8 (p := 0) (vc := 3) (q := 1) 0 a1 (by unfold Inter; decide) (by decide) (by unfold Net.Link; decide)
  -- 7 to 6 by way of 2
  have b0 : InFlight (net [8] 1) (vrouter [8] 1) {} 6 0 (c 2) :=
    hop8 (s := 7) (p := 0) (vc := 1) (q := 1) 2 (InFlight.inject (by decide) (by decide)) (by unfold Inter; decide)
      (by decide) (by unfold Net.Link; decide)
  have b1 : InFlight (net [8] 1) (vrouter [8] 1) {} 6 1 (c 2) :=
    hop8 (p := 0) (vc := 1) (q := 1) 0 b0 (by unfold Inter; decide) (by decide) (by unfold Net.Link; decide)
  have b2 : InFlight (net [8] 1) (vrouter [8] 1) {} 6 2 (c 2) :=
    hop8 (p := 0) (vc := 1) (q := 1) 0 b1 (by unfold Inter; decide) (by decide) (by unfold Net.Link; decide)
  have b3 : InFlight (net [8] 1) (vrouter [8] 1) {} 6 3 (f 6) :=
    hop8 (p := 0) (vc := 3) (q := 1) 0 b2 (by unfold Inter; decide) (by decide) (by unfold Net.Link; decide)
  have b4 : InFlight (net [8] 1) (vrouter [8] 1) {} 6 4 (f 6) :=
    hop8 (p := 0) (vc := 3) (q := 1) 0 b3 (by unfold Inter; decide) (by decide) (by unfold Net.Link; decide)
  -- 0 to 1 by way of 5
  have d7 : InFlight (net [8] 1) (vrouter [8] 1) {} 1 7 (c 5) :=
    hop8 (s := 0) (p := 1) (vc := 1) (q := 0) 5 (InFlight.inject (by decide) (by decide)) (by unfold Inter; decide)
      (by decide) (by unfold Net.Link; decide)
  have d6 : InFlight (net [8] 1) (vrouter [8] 1) {} 1 6 (c 5) :=
    hop8 (p := 1) (vc := 1) (q := 0) 0 d7 (by unfold Inter; decide) (by decide) (by unfold Net.Link; decide)
  have d5 : InFlight (net [8] 1) (vrouter [8] 1) {} 1 5 (c 5) :=
    hop8 (p := 1) (vc := 1) (q := 0) 0 d6 (by unfold Inter; decide) (by decide) (by unfold Net.Link; decide)
  have e6 : InFlight (net [8] 1) (vrouter [8] 1) {} 1 6 (f 1) :=
    hop8 (p := 0) (vc := 3) (q := 1) 0 d5 (by unfold Inter; decide) (by decide) (by unfold Net.Link; decide)
  have e7 : InFlight (net [8] 1) (vrouter [8] 1) {} 1 7 (f 1) :=
    hop8 (p := 0) (vc := 3) (q := 1) 0 e6 (by unfold Inter; decide) (by decide) (by unfold Net.Link; decide)
  have w : ∀ (node s t u : Nat) (h h' h'' : VHdr), node < 8 → InFlight (net [8] 1) (vrouter [8] 1) {} node s h →
      (node / 1 ≠ s ∧ h.stage ≠ 0 ∧ vroute [8] 1 s node 0 h = some (0, 3, h')) →
      (net [8] 1).Link s 0 t 1 →
      (node / 1 ≠ t ∧ h'.stage ≠ 0 ∧ vroute [8] 1 t node 0 h' = some (0, 3, h'')) →
      (net [8] 1).Link t 0 u 1 →
      WaitsFor (net [8] 1) (vrouter [8] 1) {} 8 (s, 0, 3) (t, 0, 3) := by
    intro node s t u h h' h'' hn hf h1 hl h2 hl'
    exact ⟨node, s, h, 0, 3, h', t, 1, 0, 3, h'', u, 1, hn, hf, ⟨0, fun _ e => absurd e h1.2.1, h1.2.2⟩, hl,
      ⟨0, fun _ e => absurd e h2.2.1, h2.2.2⟩, hl', rfl, rfl⟩
  have w01 := w 4 0 1 2 _ (f 4) (f 4) (by decide) a0 (by decide) (by unfold Net.Link; decide) (by decide) (by unfold Net.Link; decide)
  have w12 := w 4 1 2 3 _ (f 4) (f 4) (by decide) a1 (by decide) (by unfold Net.Link; decide) (by decide) (by unfold Net.Link; decide)
  have w23 := w 4 2 3 4 _ (f 4) (f 4) (by decide) a2 (by decide) (by unfold Net.Link; decide) (by decide) (by unfold Net.Link; decide)
  have w34 := w 6 3 4 5 _ (f 6) (f 6) (by decide) b3 (by decide) (by unfold Net.Link; decide) (by decide) (by unfold Net.Link; decide)
  have w45 := w 6 4 5 6 _ (f 6) (f 6) (by decide) b4 (by decide) (by unfold Net.Link; decide) (by decide) (by unfold Net.Link; decide)
  have w56 := w 1 5 6 7 _ (f 1) (f 1) (by decide) d5 (by decide) (by unfold Net.Link; decide) (by decide) (by unfold Net.Link; decide)
  have w67 := w 1 6 7 0 _ (f 1) (f 1) (by decide) e6 (by decide) (by unfold Net.Link; decide) (by decide) (by unfold Net.Link; decide)
  have w70 := w 1 7 0 1 _ (f 1) (f 1) (by decide) e7 (by decide) (by unfold Net.Link; decide) (by decide) (by unfold Net.Link; decide)
  exact (((((((Relation.TransGen.single w01).tail w12).tail w23).tail w34).tail w45).tail w56).tail w67).tail w70

end SST.Topo.TorusValiant
