import Verif.Topo.TorusPositive
import Verif.Topo.TorusProps
/-
Theorems about the router of a torus that goes up only.
-/
set_option autoImplicit false
namespace SST.Topo.TorusPositive

open SST.Topo.Torus (toPort net link_up link_unique link_cases outport_lt eject_mem rank rank_up up_val)

/-- The torus with its links in the + direction only: those of even ports. -/
def upNet (dims : List Nat) (conc : Nat) : Net := { net dims conc with conns := fun s => ((net dims conc).conns s).filter fun c => c.outport % 2 = 0 }

/-- The number of steps up from `a` to `b` on a ring of `D`. -/
def ring (D a b : Nat) : Nat := if a ≤ b then b - a else b + D - a

/-- The sum of the steps up of all dimensions. -/
def upDist : List Nat → Nat → Nat → Nat
  | [], _, _ => 0
  | D :: ds, s, d => ring D (s % D) (d % D) + upDist ds (s / D) (d / D)

theorem upDist_setAt (dims : List Nat) : (∀ D ∈ dims, 0 < D) → ∀ k x s d (D : Nat), dims[k]? = some D → x < D →
    upDist dims (setAt dims k x s) d + ring D (digit dims k s) (digit dims k d) = upDist dims s d + ring D x (digit dims k d) := by
  induction dims with
  | nil => intro _ k x s d D h; simp at h
  | cons E ds ih =>
    intro hpos k x s d D h hx
    have hE : 0 < E := hpos E (by simp)
    cases k with
    | zero =>
      simp only [List.getElem?_cons_zero, Option.some.injEq] at h
      subst h
      simp only [setAt, upDist, digit]
      rw [Nat.add_mul_mod_self_left, Nat.mod_eq_of_lt hx, Nat.add_mul_div_left _ _ (by omega), Nat.div_eq_of_lt hx, Nat.zero_add]
      omega
    | succ k =>
      simp only [List.getElem?_cons_succ] at h
      have := ih (fun d hd => hpos d (by simp [hd])) k x (s / E) (d / E) D h hx
      simp only [setAt, upDist, digit]
      rw [Nat.add_mul_mod_self_left, Nat.mod_mod, Nat.add_mul_div_left _ _ hE, Nat.div_eq_of_lt (Nat.mod_lt _ hE), Nat.zero_add]
      omega

theorem upDist_zero (dims : List Nat) : (∀ D ∈ dims, 0 < D) → ∀ s d, s < size dims → d < size dims → (upDist dims s d = 0 ↔ s = d) := by
  induction dims with
  | nil => intro _ s d hs hd; simp [size] at hs hd; simp [upDist, hs, hd]
  | cons E ds ih =>
    intro hpos s d hs hd
    have hE : 0 < E := hpos E (by simp)
    simp only [size] at hs hd
    have := ih (fun d hd => hpos d (by simp [hd])) _ _ (Nat.div_lt_of_lt_mul hs) (Nat.div_lt_of_lt_mul hd)
    have h1 := Nat.mod_lt s hE
    have h2 := Nat.mod_lt d hE
    simp only [upDist]
    constructor
    · intro h
      have e1 : s % E = d % E := by
        have : ring E (s % E) (d % E) = 0 := by omega
        unfold ring at this
        split at this <;> omega
      have e2 := this.1 (by omega)
      rw [← Nat.mod_add_div s E, ← Nat.mod_add_div d E, e1, e2]
    · intro h
      subst h
      have := this.2 rfl
      unfold ring
      rw [if_pos (Nat.le_refl _)]
      omega

theorem ring_up {D a b : Nat} (ha : a < D) (hb : b < D) (hne : a ≠ b) : ring D ((a + 1) % D) b + 1 = ring D a b := by
  rw [up_val ha]
  unfold ring
  repeat' split
  all_goals omega

theorem ring_lip {D a b : Nat} (ha : a < D) (hb : b < D) : ring D a b ≤ ring D ((a + 1) % D) b + 1 := by
  by_cases h : a = b
  · subst h
    unfold ring
    rw [if_pos (Nat.le_refl _)]
    omega
  · have := ring_up ha hb h; omega

/-- What the router decides: the first dimension in which the coordinates differ. -/
theorem posGo_spec (s d : Nat) (w : Bool) (dims : List Nat) : ∀ i st,
    (∃ (k D : Nat), dims[k]? = some D ∧ digit dims k (s / st) ≠ digit dims k (d / st) ∧
      (∀ j, j < k → digit dims j (s / st) = digit dims j (d / st)) ∧
      posGo s d w i st dims = some (step (i + k) D (digit dims k (s / st)) (digit dims k (d / st)) w)) ∨
    (∀ j, j < dims.length → digit dims j (s / st) = digit dims j (d / st)) := by
  induction dims with
  | nil => intro i st; right; intro j hj; simp at hj
  | cons E ds ih =>
    intro i st
    by_cases hne : (s / st) % E = (d / st) % E
    · have := ih (i + 1) (st * E)
      simp only [← Nat.div_div_eq_div_mul] at this
      rcases this with ⟨k, D, hk, h1, h2, h3⟩ | hall
      · left
        refine ⟨k + 1, D, by simpa using hk, by simpa [digit] using h1, ?_, ?_⟩
        · intro j hj
          cases j with
          | zero => simpa [digit] using hne
          | succ j => simpa [digit] using h2 j (by omega)
        · unfold posGo
          rw [if_neg (by simpa using hne), h3, show i + (k + 1) = i + 1 + k by omega]
          rfl
      · right
        intro j hj
        cases j with
        | zero => simpa [digit] using hne
        | succ j => simpa [digit] using hall j (by simpa using hj)
    · left
      refine ⟨0, E, rfl, by simpa [digit] using hne, by omega, ?_⟩
      unfold posGo
      rw [if_pos hne]
      rfl

/-- One routing step. -/
theorem route_step {dims : List Nat} (hpos : ∀ D ∈ dims, 0 < D) (hsz : size dims ≤ 4294967296) {conc s node : Nat}
    (hs : s < size dims) (hd : node / conc < size dims) (hne : s ≠ node / conc) (w : Bool) :
    ∃ (k D vc t : Nat) (w' : Bool), dims[k]? = some D ∧
      digit dims k s ≠ digit dims k (node / conc) ∧ (∀ j, j < k → digit dims j s = digit dims j (node / conc)) ∧
      route dims conc s node w = some (2 * k, vc, w') ∧ vc < 2 ∧ (net dims conc).Link s (2 * k) t (2 * k + 1) ∧ t < size dims ∧
      upDist dims t (node / conc) + 1 = upDist dims s (node / conc) ∧
      (2 * k, vc, w') = step k D (digit dims k s) (digit dims k (node / conc)) w ∧ t = setAt dims k ((digit dims k s + 1) % D) s := by
  have := posGo_spec s (node / conc) w dims 0 1
  simp only [Nat.div_one, Nat.zero_add] at this
  rcases this with ⟨k, D, hk, hdig, hbef, hr⟩ | h
  · have hD : 0 < D := hpos D (List.mem_of_getElem? hk)
    have hx := digit_lt (s := s) hk hD
    have hy := digit_lt (s := node / conc) hk hD
    have hm := Nat.mod_lt (digit dims k s + 1) hD
    refine ⟨k, D, (step k D (digit dims k s) (digit dims k (node / conc)) w).2.1, setAt dims k ((digit dims k s + 1) % D) s, (step k D (digit dims k s) (digit dims k (node / conc)) w).2.2, hk, hdig, hbef, ?_, ?_, link_up hpos hsz conc hs hk, setAt_lt dims k _ s D hk hm hs, ?_, rfl, rfl⟩
    · unfold route
      rw [if_neg (by omega), hr]
      rfl
    · unfold step
      simp only
      repeat' split
      all_goals omega
    · have e1 := upDist_setAt dims hpos k _ s (node / conc) D hk hm
      have e2 := ring_up hx hy hdig
      omega
  · exact absurd (eq_of_digits hs hd h) hne

/-- From any switch, whatever header the packet has, it is delivered on two virtual channels in exactly as many hops as there are steps
up. -/
theorem C135_delivery (dims : List Nat) (hpos : ∀ D ∈ dims, 0 < D) (hsz : size dims ≤ 4294967296) (conc : Nat) (hc : 0 < conc)
    (s node : Nat) (hs : s < size dims) (hn : node < size dims * conc) (w : Bool) :
    Delivers (upNet dims conc) (router dims conc) 2 node (upDist dims s (node / conc)) s w := by
  have hd : node / conc < size dims := Nat.div_lt_of_lt_mul (by rw [Nat.mul_comm]; exact hn)
  generalize hm : upDist dims s (node / conc) = m
  induction m generalizing s w with
  | zero =>
    have := (upDist_zero dims hpos s (node / conc) hs hd).1 hm
    subst this
    have hr : route dims conc (node / conc) node w = some (node % conc + 2 * dims.length, 0, w) := by simp [route]
    refine ⟨⟨_, _, _, hr⟩, ?_⟩
    intro p vc h' hr'
    have hr' : route dims conc (node / conc) node w = some (p, vc, h') := hr'
    rw [hr] at hr'
    simp only [Option.some.injEq, Prod.mk.injEq] at hr'
    obtain ⟨rfl, rfl, rfl⟩ := hr'
    exact ⟨by omega, eject_mem hc⟩
  | succ m ih =>
    have hne : s ≠ node / conc := by
      intro e
      have := (upDist_zero dims hpos s (node / conc) hs hd).2 e
      omega
    obtain ⟨k, D, vc, t, w', _, _, _, hr, hvc, hl, ht, hdist, _, _⟩ := route_step hpos hsz hs hd hne w
    refine ⟨⟨_, vc, w', hr⟩, ?_⟩
    intro p2 vc2 h2 hr2
    have hr2 : route dims conc s node w = some (p2, vc2, h2) := hr2
    rw [hr] at hr2
    simp only [Option.some.injEq, Prod.mk.injEq] at hr2
    obtain ⟨rfl, rfl, rfl⟩ := hr2
    exact ⟨hvc, t, 2 * k + 1, List.mem_filter.mpr ⟨hl, by simp⟩, ih t ht w' (by omega)⟩

/-- From the first to the last switch of a 5x4 torus: four hops and three, seven in all. -/
example : upDist [5, 4] 0 19 = 7 ∧ route [5, 4] 2 0 39 false = some (0, 0, false) ∧ route [5, 4] 2 19 0 false = some (0, 1, false) ∧ route [5, 4] 2 19 3 false = some (0, 1, true) := by decide

/-- No path up is shorter. -/
theorem C135_shortest (dims : List Nat) (hpos : ∀ D ∈ dims, 0 < D) (hsz : size dims ≤ 4294967296) (conc : Nat) (hc : 0 < conc) (s d : Nat) (hs : s < size dims) (hd : d < size dims) :
    IsDist (upNet dims conc) s d (upDist dims s d) := by
  have key : ∀ s d m, Walk (upNet dims conc) s d m → d < size dims → s < size dims → upDist dims s d ≤ m := by
    intro s d m hw
    induction hw with
    | nil s => intro _ hs; rw [(upDist_zero dims hpos s s hs hs).2 rfl]; exact Nat.le_refl _
    | @cons s p t q u n hl _ ih =>
      intro hu hs
      have hl := List.mem_filter.mp hl
      obtain ⟨k, D, hk, hcase⟩ := link_cases hpos hsz conc hs hl.1
      have hD : 0 < D := hpos D (List.mem_of_getElem? hk)
      rcases hcase with ⟨_, _, ht⟩ | ⟨hp, _, _⟩
      · subst ht
        have hm := Nat.mod_lt (digit dims k s + 1) hD
        have e1 := upDist_setAt dims hpos k _ s u D hk hm
        have e2 := ring_lip (digit_lt (s := s) hk hD) (digit_lt (s := u) hk hD)
        have := ih hu (setAt_lt dims k _ s D hk hm hs)
        omega
      · have := hl.2
        simp only [decide_eq_true_eq] at this
        omega
  refine ⟨?_, fun m w => key s d m w hd hs⟩
  have hdc : d * conc / conc = d := Nat.mul_div_cancel _ hc
  have hdel := C135_delivery dims hpos hsz conc hc s (d * conc) hs (Nat.mul_lt_mul_of_pos_right hd hc) false
  rw [hdc] at hdel
  obtain ⟨t, w, p, hp⟩ := walk_of_delivers hdel
  have : t = d := by
    have hp : (d * conc, p) ∈ Torus.inj dims conc t := hp
    unfold Torus.inj at hp
    obtain ⟨i, hi, e⟩ := List.mem_map.mp hp
    simp only [Prod.mk.injEq] at e
    have hi := List.mem_range.mp hi
    have e1 : (t * conc + i) / conc = t := by rw [Nat.mul_comm, Nat.mul_add_div hc, Nat.div_eq_of_lt hi, Nat.add_zero]
    rw [← e1, e.1, hdc]
  rw [← this]
  rw [this] at w ⊢
  exact w

/-- A packet that has wrapped around in the dimension it is in will not come to the end of it again. -/
def WInv (dims : List Nat) (d s : Nat) (w : Bool) : Prop :=
  w = true → ∀ (k : Nat), k < dims.length → digit dims k s ≠ digit dims k d → (∀ j, j < k → digit dims j s = digit dims j d) → digit dims k s < digit dims k d

/-- What the packet does at a switch on its way. -/
theorem hop_cases {dims : List Nat} (hpos : ∀ D ∈ dims, 0 < D) (hsz : size dims ≤ 4294967296) {conc node : Nat}
    (hd : node / conc < size dims) {s : Nat} (hs : s < size dims) {w w' : Bool} {p vc t q : Nat}
    (hr : router dims conc s node w p vc w') (hl : (net dims conc).Link s p t q) :
    t < size dims ∧ ∃ (k D : Nat), dims[k]? = some D ∧ p = 2 * k ∧
      digit dims k s ≠ digit dims k (node / conc) ∧ (∀ j, j < k → digit dims j s = digit dims j (node / conc)) ∧
      (∀ j, j < dims.length → j ≠ k → digit dims j t = digit dims j s) ∧
      digit dims k s < D ∧ digit dims k (node / conc) < D ∧
      (p, vc, w') = step k D (digit dims k s) (digit dims k (node / conc)) w ∧ digit dims k t = (digit dims k s + 1) % D := by
  have hr : route dims conc s node w = some (p, vc, w') := hr
  by_cases hne : s = node / conc
  · exfalso
    unfold route at hr
    rw [if_pos hne.symm] at hr
    simp only [Option.some.injEq, Prod.mk.injEq] at hr
    have := outport_lt hl
    omega
  · obtain ⟨k, D, vc0, t0, w0, hk, hdig, hbef, hr0, _, hl0, ht0, _, hc, e⟩ := route_step hpos hsz hs hd hne w
    rw [hr] at hr0
    simp only [Option.some.injEq, Prod.mk.injEq] at hr0
    obtain ⟨rfl, rfl, rfl⟩ := hr0
    obtain ⟨rfl, rfl⟩ := link_unique hl hl0
    have hkl := (List.getElem?_eq_some_iff.1 hk).1
    have hD : 0 < D := hpos D (List.mem_of_getElem? hk)
    refine ⟨ht0, k, D, hk, rfl, hdig, hbef, ?_, digit_lt hk hD, digit_lt hk hD, hc, ?_⟩
    · intro j hj hjk
      rw [e, digit_setAt hpos hk (Nat.mod_lt _ hD) j hj, if_neg hjk]
    · rw [e, digit_setAt hpos hk (Nat.mod_lt _ hD) k hkl, if_pos rfl]

theorem flight_inv {dims : List Nat} (hpos : ∀ D ∈ dims, 0 < D) (hsz : size dims ≤ 4294967296) {conc node : Nat}
    (hd : node / conc < size dims) {s : Nat} {w : Bool} (hf : InFlight (net dims conc) (router dims conc) false node s w) :
    s < size dims ∧ WInv dims (node / conc) s w := by
  induction hf with
  | inject hs _ => exact ⟨hs, fun hc => by cases hc⟩
  | @hop s w p vc w' t q hf hr hl ih =>
    obtain ⟨hs, hinv⟩ := ih
    obtain ⟨ht, k, D, hk, _, hdig, hbef, hoth, hx, hy, hst, het⟩ := hop_cases hpos hsz hd hs hr hl
    refine ⟨ht, fun hw k' hk' hne hb => ?_⟩
    have hkl := (List.getElem?_eq_some_iff.1 hk).1
    unfold step at hst
    simp only [Prod.mk.injEq] at hst
    obtain ⟨_, _, hw'⟩ := hst
    have hnx : ¬ (digit dims k s + 1) % D = digit dims k (node / conc) := by
      intro e
      rw [if_pos e] at hw'
      rw [hw] at hw'
      cases hw'
    rw [if_neg hnx] at hw'
    have hkk : k' = k := by
      apply Decidable.byContradiction
      intro hn
      by_cases hlt : k' < k
      · exact hne (by rw [hoth k' hk' hn, hbef k' hlt])
      · have := hb k (by omega)
        rw [het] at this
        exact hnx this
    subst hkk
    rw [het]
    rw [up_val hx] at hnx ⊢
    by_cases hlast : digit dims k' s = D - 1
    · rw [if_pos hlast] at hnx ⊢
      omega
    · rw [if_neg hlast] at hnx hw' ⊢
      have := hinv (by rw [← hw']; exact hw) k' hk' hdig hbef
      omega

/-- Packets of this router cannot wait for each other in a circle. -/
theorem C135_deadlock_free (dims : List Nat) (hpos : ∀ D ∈ dims, 0 < D) (hsz : size dims ≤ 4294967296) (conc : Nat) :
    DeadlockFree (net dims conc) (router dims conc) false (size dims * conc) := by
  intro c
  apply acyclic_of_rank (rank dims)
  rintro _ _ ⟨node, s, h, p, vc, h', t, q, p', vc', h'', u, q', hn, hf, hr, hl, hr', hl', rfl, rfl⟩
  have hd : node / conc < size dims := Nat.div_lt_of_lt_mul (by rw [Nat.mul_comm]; exact hn)
  obtain ⟨hs, hinv⟩ := flight_inv hpos hsz hd hf
  obtain ⟨ht, k, D, hk, hp, hdig, hbef, hoth, hx, hy, hst, het⟩ := hop_cases hpos hsz hd hs hr hl
  obtain ⟨_, k', D', hk', hp', hdig', hbef', _, hx', _, hst', _⟩ := hop_cases hpos hsz hd ht hr' hl'
  have hkl := (List.getElem?_eq_some_iff.1 hk).1
  have hkl' := (List.getElem?_eq_some_iff.1 hk').1
  subst hp hp'
  rw [rank_up hk, rank_up hk']
  have hle : k ≤ k' := by
    apply Decidable.byContradiction
    intro hlt
    exact hdig' (by rw [hoth k' hkl' (by omega), hbef k' (by omega)])
  by_cases hkk : k < k'
  · exact Or.inl hkk
  right
  have hkk : k' = k := by omega
  subst hkk
  refine ⟨rfl, ?_⟩
  rw [hk] at hk'
  cases hk'
  have hnx : ¬ (digit dims k' s + 1) % D = digit dims k' (node / conc) := by rw [← het]; exact hdig'
  unfold step at hst hst'
  simp only [Prod.mk.injEq] at hst hst'
  obtain ⟨_, hvc, hw⟩ := hst
  obtain ⟨_, hvc', _⟩ := hst'
  rw [if_neg hnx] at hw
  rw [up_val hx] at het hnx
  simp only
  rw [up_val hx, up_val hx']
  by_cases hlast : digit dims k' s = D - 1
  · rw [if_pos hlast] at hw hvc het hnx
    rw [hw] at hvc'
    have : ¬ digit dims k' t = D - 1 := by omega
    rw [if_neg this, if_pos rfl] at hvc'
    subst hvc hvc'
    simp only [if_neg (show ¬ (1 : Nat) = 0 by omega)]
    rw [if_pos hlast, if_neg this]
    omega
  · rw [if_neg hlast] at hw hvc het hnx
    cases h with
    | true =>
      rw [if_pos rfl] at hvc
      have hlt := hinv rfl k' hkl hdig hbef
      have : ¬ digit dims k' t = D - 1 := by omega
      rw [hw, if_neg this, if_pos rfl] at hvc'
      subst hvc hvc'
      simp only [if_neg (show ¬ (1 : Nat) = 0 by omega)]
      rw [if_neg hlast, if_neg this]
      omega
    | false =>
      rw [if_neg (by simp)] at hvc
      rw [hw] at hvc'
      subst hvc
      rw [if_pos rfl]
      by_cases h2 : digit dims k' t = D - 1
      · rw [if_pos h2] at hvc'
        subst hvc'
        rw [if_neg (show ¬ (1 : Nat) = 0 by omega), if_pos h2]
        omega
      · rw [if_neg h2, if_neg (by simp)] at hvc'
        subst hvc'
        rw [if_pos rfl]
        omega

/-- A ring of three: a packet from the second switch to the first waits, on the first channel, for the second channel of the last switch. -/
example : route [3] 1 1 0 false = some (0, 0, false) ∧ route [3] 1 2 0 false = some (0, 1, false) ∧ (net [3] 1).conns 1 = [⟨1, 2, 0, 1⟩, ⟨1, 0, 1, 0⟩] := by decide

end SST.Topo.TorusPositive
