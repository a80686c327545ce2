import Verif.Topo.Hypercube
/-
C43; C48 and C49 for the hypercube.
-/
set_option autoImplicit false
namespace SST.Topo.Hypercube
open SST.Topo

/-! ### Links -/

theorem mem_connGo (src : Nat) (c : Conn) (ds : List Nat) : ∀ o st, c ∈ connGo src o st ds ↔
    ∃ (k D x : Nat), ds[k]? = some D ∧ x < D ∧ x ≠ (src / (st * stride ds k)) % D ∧
      c = { src := src
            dst := toU32 ((src : Int) + ((x : Int) - (((src / (st * stride ds k)) % D : Nat) : Int)) * ((st * stride ds k : Nat) : Int))
            outport := o + off ds k + x, inport := o + off ds k + (src / (st * stride ds k)) % D } := by
  induction ds with
  | nil => intro o st; simp [connGo]
  | cons E ds ih =>
    intro o st
    simp only [connGo, List.mem_append, ih, List.mem_map, List.mem_filter, List.mem_range]
    constructor
    · rintro (⟨x, ⟨hx, hne⟩, rfl⟩ | ⟨k, D, x, hk, h⟩)
      · exact ⟨0, E, x, rfl, hx, by simpa [stride] using hne, by simp [stride, off]⟩
      · refine ⟨k + 1, D, x, by simpa using hk, ?_⟩
        simp only [stride, off, Nat.mul_assoc, ← Nat.add_assoc] at h ⊢
        exact h
    · rintro ⟨k, D, x, hk, hx, hne, h⟩
      cases k with
      | zero =>
        simp only [List.getElem?_cons_zero, Option.some.injEq] at hk
        subst hk
        simp only [stride, off, Nat.mul_one, Nat.add_zero] at h hne
        exact Or.inl ⟨x, ⟨hx, by simpa using hne⟩, h.symm⟩
      | succ k =>
        refine Or.inr ⟨k, D, x, by simpa using hk, hx, ?_⟩
        simp only [stride, off, Nat.mul_assoc, ← Nat.add_assoc] at h hne ⊢
        exact ⟨hne, h⟩

/-- A switch has exactly the links to the switches that differ from it in one coordinate. -/
theorem link_iff {dims : List Nat} (hsz : size dims ≤ 4294967296) (conc : Nat)
    {s : Nat} (hs : s < size dims) (p t q : Nat) : (net dims conc).Link s p t q ↔
    ∃ (k D x : Nat), dims[k]? = some D ∧ x < D ∧ x ≠ digit dims k s ∧ t = setAt dims k x s ∧
      p = off dims k + x ∧ q = off dims k + digit dims k s := by
  have hdst : ∀ (k D x : Nat), dims[k]? = some D → x < D →
      toU32 ((s : Int) + ((x : Int) - ((digit dims k s : Nat) : Int)) * ((stride dims k : Nat) : Int)) = setAt dims k x s := by
    intro k D x hk hx
    apply toU32_of_lt
    · rw [setAt_int dims k _ s D hk]
    · exact Nat.lt_of_lt_of_le (setAt_lt dims k _ s D hk hx hs) hsz
  show _ ∈ connGo s 0 1 dims ↔ _
  rw [mem_connGo]
  constructor
  · rintro ⟨k, D, x, hk, hx, hne, h⟩
    rw [Nat.one_mul, ← digit_eq dims k s D hk] at hne h
    rw [hdst k D x hk hx] at h
    simp only [Conn.mk.injEq, Nat.zero_add] at h
    exact ⟨k, D, x, hk, hx, hne, h.2.1, h.2.2.1, h.2.2.2⟩
  · rintro ⟨k, D, x, hk, hx, hne, rfl, rfl, rfl⟩
    refine ⟨k, D, x, hk, hx, ?_, ?_⟩
    · rw [Nat.one_mul, ← digit_eq dims k s D hk]; exact hne
    · rw [Nat.one_mul, ← digit_eq dims k s D hk, hdst k D x hk hx]
      simp

theorem outports_go (src : Nat) (ds : List Nat) : ∀ o st,
    ((connGo src o st ds).map Conn.outport).Nodup ∧ ∀ p ∈ (connGo src o st ds).map Conn.outport,
      o ≤ p ∧ p < o + sum ds := by
  induction ds with
  | nil => intro i st; simp [connGo]
  | cons E ds ih =>
    intro o st
    obtain ⟨h1, h2⟩ := ih (o + E) (st * E)
    simp only [connGo, List.map_append, List.nodup_append, List.map_map, sum]
    refine ⟨⟨?_, h1, ?_⟩, ?_⟩
    · apply nodup_map
      · intro a b h; simp only [Function.comp] at h; omega
      · exact List.Nodup.sublist (List.filter_sublist) List.nodup_range
    · intro a ha b hb
      have := h2 b hb
      simp only [List.mem_map, List.mem_filter, List.mem_range, Function.comp] at ha
      obtain ⟨x, ⟨hx, _⟩, rfl⟩ := ha
      omega
    · intro p hp
      rcases List.mem_append.1 hp with hp | hp
      · simp only [List.mem_map, List.mem_filter, List.mem_range, Function.comp] at hp
        obtain ⟨x, ⟨hx, _⟩, rfl⟩ := hp
        omega
      · have := h2 p hp
        omega

theorem outport_lt {dims : List Nat} {conc s p t q : Nat} (h : (net dims conc).Link s p t q) : p < sum dims := by
  have h : _ ∈ connGo s 0 1 dims := h
  have := (outports_go s dims 0 1).2 p (List.mem_map.2 ⟨_, h, rfl⟩)
  omega

theorem link_unique {dims : List Nat} {conc s p t q t' q' : Nat} (h : (net dims conc).Link s p t q)
    (h' : (net dims conc).Link s p t' q') : t = t' ∧ q = q' := by
  have h : _ ∈ connGo s 0 1 dims := h
  have h' : _ ∈ connGo s 0 1 dims := h'
  have := conn_unique (outports_go s dims 0 1).1 h h' rfl
  simp only [Conn.mk.injEq] at this
  exact ⟨this.2.1, this.2.2.2⟩

/-- C43, links: each link has a link back between the same ports, no port is used twice and
no link leaves the network. -/
theorem C43_hypercube_links (dims : List Nat) (hpos : ∀ D ∈ dims, 0 < D) (hsz : size dims ≤ 4294967296) (conc : Nat) :
    WellWired (net dims conc) := by
  have hback : ∀ s p t q, s < size dims → (net dims conc).Link s p t q →
      t < size dims ∧ (net dims conc).Link t q s p := by
    intro s p t q hs h
    obtain ⟨k, D, x, hk, hx, hne, rfl, rfl, rfl⟩ := (link_iff hsz conc hs _ _ _).1 h
    have hD : 0 < D := hpos D (List.mem_of_getElem? hk)
    have hkl := (List.getElem?_eq_some_iff.1 hk).1
    have hlt := setAt_lt dims k x s D hk hx hs
    refine ⟨hlt, ?_⟩
    rw [link_iff hsz conc hlt]
    have hd := digit_lt (s := s) hk hD
    have e : digit dims k (setAt dims k x s) = x := by rw [digit_setAt hpos hk hx k hkl, if_pos rfl]
    exact ⟨k, D, digit dims k s, hk, hd, by rw [e]; exact Ne.symm hne,
      by rw [setAt_setAt hpos hk hx hd hs, setAt_digit], rfl, by rw [e]⟩
  refine ⟨?_, ?_, ?_, ?_, ?_⟩
  · intro s c _ hc
    have hc : c ∈ connGo s 0 1 dims := hc
    rw [mem_connGo] at hc
    obtain ⟨k, D, x, _, _, _, rfl⟩ := hc
    rfl
  · intro s p t q hs h
    exact (hback s p t q hs h).1
  · intro s p t q hs h
    exact (hback s p t q hs h).2
  · intro s _
    exact (outports_go s dims 0 1).1
  · intro s s' t q p p' hs hs' h h'
    exact link_unique (hback s p t q hs h).2 (hback s' p' t q hs' h').2

/-- C43, links: two switches are linked exactly when they differ in one coordinate. -/
theorem C43_hypercube_neighbours (dims : List Nat) (hpos : ∀ D ∈ dims, 0 < D) (hsz : size dims ≤ 4294967296)
    (conc s t : Nat) (hs : s < size dims) : (∃ p q, (net dims conc).Link s p t q) ↔
      t < size dims ∧ ∃ (k x : Nat), (switchCoords dims s)[k]? ≠ some x ∧ k < dims.length ∧
        switchCoords dims t = (switchCoords dims s).set k x := by
  rw [switchCoords_eq, switchCoords_eq]
  constructor
  · rintro ⟨p, q, h⟩
    obtain ⟨k, D, x, hk, hx, hne, rfl, rfl, rfl⟩ := (link_iff hsz conc hs _ _ _).1 h
    have hkl := (List.getElem?_eq_some_iff.1 hk).1
    refine ⟨setAt_lt dims k x s D hk hx hs, k, x, ?_, hkl, setAt_coords dims hpos k x s D hk hx⟩
    rw [digit_coords dims k s hkl]
    simpa using Ne.symm hne
  · rintro ⟨ht, k, x, hne, hkl, h⟩
    have hk : dims[k]? = some dims[k] := List.getElem?_eq_getElem hkl
    have hD := hpos _ (List.mem_of_getElem? hk)
    have hx : x < dims[k] := by
      have e1 := digit_coords dims k t hkl
      rw [h, List.getElem?_set, if_pos rfl, if_pos (by rw [coords_length]; exact hkl)] at e1
      simp only [Option.some.injEq] at e1
      rw [e1]
      exact digit_lt hk hD
    rw [digit_coords dims k s hkl] at hne
    refine ⟨off dims k + x, off dims k + digit dims k s, (link_iff hsz conc hs _ _ _).2
      ⟨k, dims[k], x, hk, hx, fun e => hne (by rw [e]), ?_, rfl, rfl⟩⟩
    rw [← setAt_coords dims hpos k x s _ hk hx] at h
    exact coords_inj ht (setAt_lt dims k x s _ hk hx hs) h

/-- C49 for the hypercube. -/
theorem C49_hypercube (dims : List Nat) (conc : Nat) (hc : 0 < conc) :
    Attached (net dims conc) (size dims * conc) (fun n => n / conc) := by
  apply attached_conc (net dims conc) conc (sum dims) hc (fun s => rfl)
  intro s _
  obtain ⟨h1, h2⟩ := outports_go s dims 0 1
  exact ⟨h1, fun p hp => by have := h2 p hp; omega⟩

/-! ### Distances -/

/-- 1 if different. -/
def df (a b : Nat) : Nat := if a ≠ b then 1 else 0

/-- Number of differing coordinates. -/
def dist : List Nat → Nat → Nat → Nat
  | [], _, _ => 0
  | D :: ds, s, d => df (s % D) (d % D) + dist ds (s / D) (d / D)

theorem distGo_eq (s d : Nat) (dims : List Nat) : ∀ div, distGo s d div dims = dist dims (s / div) (d / div) := by
  induction dims with
  | nil => intro div; rfl
  | cons D ds ih => intro div; simp only [distGo, dist, ih, Nat.div_div_eq_div_mul, df]

theorem minimalDistance_eq (dims : List Nat) (s d : Nat) : minimalDistance dims s d = dist dims s d := by
  simp [minimalDistance, distGo_eq]

theorem dist_setAt (dims : List Nat) : (∀ D ∈ dims, 0 < D) → ∀ k x s d (D : Nat), dims[k]? = some D → x < D →
    dist dims (setAt dims k x s) d + df (digit dims k s) (digit dims k d) =
      dist dims s d + df x (digit dims k d) := by
  induction dims with
  | nil => intro _ k x s d D h; simp at h
  | cons E ds ih =>
    intro hpos k x s d D h hx
    have hE : 0 < E := hpos E (by simp)
    cases k with
    | zero =>
      simp only [List.getElem?_cons_zero, Option.some.injEq] at h
      subst h
      simp only [setAt, dist, digit]
      rw [Nat.add_mul_mod_self_left, Nat.mod_eq_of_lt hx, Nat.add_mul_div_left _ _ (by omega),
        Nat.div_eq_of_lt hx, Nat.zero_add]
      omega
    | succ k =>
      simp only [List.getElem?_cons_succ] at h
      have := ih (fun d hd => hpos d (by simp [hd])) k x (s / E) (d / E) D h hx
      simp only [setAt, dist, digit]
      rw [Nat.add_mul_mod_self_left, Nat.mod_mod, Nat.add_mul_div_left _ _ hE,
        Nat.div_eq_of_lt (Nat.mod_lt _ hE), Nat.zero_add]
      omega

theorem dist_zero (dims : List Nat) : (∀ D ∈ dims, 0 < D) → ∀ s d, s < size dims → d < size dims →
    (dist dims s d = 0 ↔ s = d) := by
  induction dims with
  | nil => intro _ s d hs hd; simp [size] at hs hd; simp [dist, hs, hd]
  | cons E ds ih =>
    intro hpos s d hs hd
    have hE : 0 < E := hpos E (by simp)
    simp only [size] at hs hd
    have := ih (fun d hd => hpos d (by simp [hd])) _ _ (Nat.div_lt_of_lt_mul hs) (Nat.div_lt_of_lt_mul hd)
    simp only [dist]
    constructor
    · intro h
      have e1 : s % E = d % E := by
        apply Decidable.byContradiction
        intro hne
        rw [df, if_pos hne] at h
        omega
      have e2 := this.1 (by omega)
      rw [← Nat.mod_add_div s E, ← Nat.mod_add_div d E, e1, e2]
    · intro h
      subst h
      have := this.2 rfl
      simp [df]
      omega

/-- The number of differing coordinates, in terms of `switchCoords`. -/
theorem dist_coords (dims : List Nat) (s d : Nat) : dist dims s d =
    (((switchCoords dims s).zip (switchCoords dims d)).filter fun x => x.1 != x.2).length := by
  rw [switchCoords_eq, switchCoords_eq]
  induction dims generalizing s d with
  | nil => simp [dist, coords]
  | cons E ds ih =>
    simp only [dist, coords, List.zip_cons_cons, List.filter_cons, ih]
    by_cases h : s % E = d % E
    · simp [h, df]
    · simp [h, df]; omega

/-! ### Routing -/

theorem minimalGo_spec (s d : Nat) (dims : List Nat) : ∀ o st,
    (∃ (k D : Nat), dims[k]? = some D ∧ digit dims k (s / st) ≠ digit dims k (d / st) ∧
      (∀ j, j < k → digit dims j (s / st) = digit dims j (d / st)) ∧
      minimalGo s d o st dims = some (o + off dims k + digit dims k (d / st))) ∨
    (∀ j, j < dims.length → digit dims j (s / st) = digit dims j (d / st)) := by
  induction dims with
  | nil => intro o st; right; intro j hj; simp at hj
  | cons E ds ih =>
    intro o st
    by_cases hne : (s / st) % E = (d / st) % E
    · have := ih (o + E) (st * E)
      simp only [← Nat.div_div_eq_div_mul] at this
      rcases this with ⟨k, D, hk, h1, h2, h3⟩ | hall
      · left
        refine ⟨k + 1, D, by simpa using hk, by simpa [digit] using h1, ?_, ?_⟩
        · intro j hj
          cases j with
          | zero => simpa [digit] using hne
          | succ j => simpa [digit] using h2 j (by omega)
        · simp only [minimalGo, hne, ne_eq, not_true_eq_false, if_false, digit, off]
          rw [h3, ← Nat.add_assoc]
      · right
        intro j hj
        cases j with
        | zero => simpa [digit] using hne
        | succ j => simpa [digit] using hall j (by simpa using hj)
    · left
      refine ⟨0, E, rfl, by simpa [digit] using hne, by omega, ?_⟩
      simp only [minimalGo, ne_eq, hne, not_false_eq_true, if_true, digit, off, Nat.add_zero]

theorem route_step {dims : List Nat} (hpos : ∀ D ∈ dims, 0 < D) (hsz : size dims ≤ 4294967296) {conc s node : Nat}
    (hs : s < size dims) (hd : node / conc < size dims) (hne : s ≠ node / conc) :
    ∃ (k D : Nat) (t q : Nat), dims[k]? = some D ∧
      digit dims k s ≠ digit dims k (node / conc) ∧ (∀ j, j < k → digit dims j s = digit dims j (node / conc)) ∧
      route dims conc s node = some (off dims k + digit dims k (node / conc), 0) ∧
      (net dims conc).Link s (off dims k + digit dims k (node / conc)) t q ∧ t < size dims ∧
      t = setAt dims k (digit dims k (node / conc)) s ∧
      dist dims t (node / conc) + 1 = dist dims s (node / conc) := by
  have := minimalGo_spec s (node / conc) dims 0 1
  simp only [Nat.div_one, Nat.zero_add] at this
  rcases this with ⟨k, D, hk, hdig, hbef, hr⟩ | h
  · have hD : 0 < D := hpos D (List.mem_of_getElem? hk)
    have hy := digit_lt (s := node / conc) hk hD
    refine ⟨k, D, setAt dims k (digit dims k (node / conc)) s, off dims k + digit dims k s, hk, hdig, hbef, ?_, ?_,
      setAt_lt dims k _ s D hk hy hs, rfl, ?_⟩
    · unfold route
      rw [if_neg (Ne.symm hne), hr]
      rfl
    · rw [link_iff hsz conc hs]
      exact ⟨k, D, _, hk, hy, Ne.symm hdig, rfl, rfl, rfl⟩
    · have := dist_setAt dims hpos k _ s (node / conc) D hk hy
      simp only [df, hdig, ne_eq, not_true_eq_false, not_false_eq_true, if_true, if_false] at this
      omega
  · exact absurd (eq_of_digits hs hd h) hne

theorem eject_mem {dims : List Nat} {conc node : Nat} (hc : 0 < conc) :
    (node, node % conc + sum dims) ∈ (net dims conc).inj (node / conc) := by
  show _ ∈ inj dims conc _
  unfold inj
  rw [List.mem_map]
  refine ⟨node % conc, List.mem_range.2 (Nat.mod_lt _ hc), ?_⟩
  simp only [Prod.mk.injEq]
  refine ⟨?_, by omega⟩
  rw [Nat.mul_comm, Nat.div_add_mod]

/-- C43, routing: the minimal router delivers in exactly as many hops as coordinates differ,
on one virtual channel. -/
theorem C43_hypercube_minimal_routing (dims : List Nat) (hpos : ∀ D ∈ dims, 0 < D) (hsz : size dims ≤ 4294967296)
    (conc : Nat) (hc : 0 < conc) (s node : Nat) (hs : s < size dims) (hn : node < size dims * conc) :
    Delivers (net dims conc) (router dims conc) 1 node
      (((switchCoords dims s).zip (switchCoords dims (node / conc))).filter fun x => x.1 != x.2).length s () := by
  have hd : node / conc < size dims := Nat.div_lt_of_lt_mul (by rw [Nat.mul_comm]; exact hn)
  rw [← dist_coords]
  generalize hm : dist dims s (node / conc) = m
  induction m generalizing s with
  | zero =>
    have := (dist_zero dims hpos s (node / conc) hs hd).1 hm
    subst this
    have hr : route dims conc (node / conc) node = some (node % conc + sum dims, 0) := by
      simp [route]
    refine ⟨⟨_, _, (), hr⟩, ?_⟩
    intro p vc h' hr'
    have hr' : route dims conc (node / conc) node = some (p, vc) := hr'
    rw [hr] at hr'
    simp only [Option.some.injEq, Prod.mk.injEq] at hr'
    obtain ⟨rfl, rfl⟩ := hr'
    exact ⟨by omega, eject_mem hc⟩
  | succ m ih =>
    have hne : s ≠ node / conc := by
      intro e
      have := (dist_zero dims hpos s (node / conc) hs hd).2 e
      omega
    obtain ⟨k, D, t, q, _, _, _, hr, hl, ht, _, hdist⟩ := route_step hpos hsz hs hd hne
    refine ⟨⟨_, _, (), hr⟩, ?_⟩
    intro p2 vc2 h2 hr2
    have hr2 : route dims conc s node = some (p2, vc2) := hr2
    rw [hr] at hr2
    simp only [Option.some.injEq, Prod.mk.injEq] at hr2
    obtain ⟨rfl, rfl⟩ := hr2
    exact ⟨by omega, t, q, hl, ih t ht (by omega)⟩

/-- C48 for the hypercube: the reported distance is the length of a shortest path. -/
theorem C48_hypercube_distance (dims : List Nat) (hpos : ∀ D ∈ dims, 0 < D) (hsz : size dims ≤ 4294967296) (conc : Nat)
    (s d : Nat) (hs : s < size dims) (hd : d < size dims) :
    IsDist (net dims conc) s d (minimalDistance dims s d) := by
  rw [minimalDistance_eq]
  constructor
  · generalize hm : dist dims s d = m
    induction m generalizing s with
    | zero =>
      rw [(dist_zero dims hpos s d hs hd).1 hm]
      exact Walk.nil d
    | succ m ih =>
      have hne : s ≠ d := by
        intro e
        have := (dist_zero dims hpos s d hs hd).2 e
        omega
      obtain ⟨k, D, t, q, _, _, _, _, hl, ht, _, hdist⟩ :=
        route_step hpos hsz (conc := 1) (node := d) hs (by simpa using hd) (by simpa using hne)
      rw [Nat.div_one] at hdist
      exact Walk.cons (N := net dims conc) hl (ih t ht (by omega))
  · have key : ∀ s d m, Walk (net dims conc) s d m → s < size dims → d < size dims → dist dims s d ≤ m := by
      clear hs hd s d
      intro s d m w
      induction w with
      | nil s =>
        intro hs _
        have := (dist_zero dims hpos s s hs hs).2 rfl
        omega
      | @cons s p t q u n hl w ih =>
        intro hs hd
        obtain ⟨k, D, x, hk, hx, hne, rfl, rfl, rfl⟩ := (link_iff hsz conc hs _ _ _).1 hl
        have e1 := dist_setAt dims hpos k _ s u D hk hx
        have := ih (setAt_lt dims k _ s D hk hx hs) hd
        unfold df at e1
        split at e1 <;> split at e1 <;> omega
    exact fun m w => key s d m w hs hd

/-- Dimension of a port. -/
def portDim : List Nat → Nat → Nat
  | [], _ => 0
  | D :: ds, p => if p < D then 0 else portDim ds (p - D) + 1

theorem portDim_off (dims : List Nat) : ∀ (k D x : Nat), dims[k]? = some D → x < D → portDim dims (off dims k + x) = k := by
  induction dims with
  | nil => intro k D x h; simp at h
  | cons E ds ih =>
    intro k D x h hx
    cases k with
    | zero =>
      simp only [List.getElem?_cons_zero, Option.some.injEq] at h
      subst h
      simp [portDim, off, hx]
    | succ k =>
      simp only [List.getElem?_cons_succ] at h
      rw [show off (E :: ds) (k + 1) = E + off ds k from rfl, portDim, if_neg (by omega), show E + off ds k + x - E = off ds k + x by omega, ih k D x h hx]

/-- C43, deadlock: with one virtual channel no packets can wait for each other in a circle. -/
theorem C43_hypercube_deadlock_free (dims : List Nat) (hpos : ∀ D ∈ dims, 0 < D) (hsz : size dims ≤ 4294967296)
    (conc : Nat) : DeadlockFree (net dims conc) (router dims conc) () (size dims * conc) := by
  intro c
  apply acyclic_of_rank (fun c => (portDim dims c.2.1, 0))
  rintro _ _ ⟨node, s, h, p, vc, h', t, q, p', vc', h'', u, q', hn, hf, hr, hl, hr', hl', rfl, rfl⟩
  left
  have hd : node / conc < size dims := Nat.div_lt_of_lt_mul (by rw [Nat.mul_comm]; exact hn)
  have hstep : ∀ s h p vc h' t q, s < size dims → router dims conc s node h p vc h' → (net dims conc).Link s p t q →
      t < size dims ∧ ∃ (k D : Nat), dims[k]? = some D ∧ digit dims k s ≠ digit dims k (node / conc) ∧
        (∀ j, j < k → digit dims j s = digit dims j (node / conc)) ∧ p = off dims k + digit dims k (node / conc) ∧
        t = setAt dims k (digit dims k (node / conc)) s := by
    intro s h p vc h' t q hs hr hl
    have hr : route dims conc s node = some (p, vc) := hr
    by_cases hne : s = node / conc
    · exfalso
      unfold route at hr
      rw [if_pos hne.symm] at hr
      simp only [Option.some.injEq, Prod.mk.injEq] at hr
      have := outport_lt hl
      omega
    · obtain ⟨k, D, t0, q0, hk, hdig, hbef, hr0, hl0, ht0, ht, _⟩ := route_step hpos hsz hs hd hne
      rw [hr] at hr0
      simp only [Option.some.injEq, Prod.mk.injEq] at hr0
      obtain ⟨rfl, rfl⟩ := hr0
      obtain ⟨rfl, rfl⟩ := link_unique hl hl0
      exact ⟨ht0, k, D, hk, hdig, hbef, rfl, ht⟩
  have hs : s < size dims := by
    clear hr hl hr' hl'
    induction hf with
    | inject hs _ => exact hs
    | hop hf hr hl ih => exact (hstep _ _ _ _ _ _ _ ih hr hl).1
  obtain ⟨ht, k, D, hk, hdig, hbef, hp, hset⟩ := hstep _ _ _ _ _ _ _ hs hr hl
  obtain ⟨_, k', D', hk', hdig', _, hp', _⟩ := hstep _ _ _ _ _ _ _ ht hr' hl'
  have hkl := (List.getElem?_eq_some_iff.1 hk).1
  have hkl' := (List.getElem?_eq_some_iff.1 hk').1
  have hD : 0 < D := hpos D (List.mem_of_getElem? hk)
  have hD' : 0 < D' := hpos D' (List.mem_of_getElem? hk')
  simp only
  rw [hp, hp', portDim_off dims k D _ hk (digit_lt hk hD), portDim_off dims k' D' _ hk' (digit_lt hk' hD')]
  rw [hset, digit_setAt hpos hk (digit_lt hk hD) k' hkl'] at hdig'
  split at hdig'
  · rename_i e; subst e; exact absurd rfl hdig'
  · apply Decidable.byContradiction
    intro hlt
    exact hdig' (hbef k' (by omega))

/-- A 3x4x2 hypercube with two nodes per switch: from switch 0 to node 35, at switch 17 with
coordinates (2,1,1): three hops by way of switches 2 and 5. -/
example : switchCoords [3, 4, 2] 17 = [2, 1, 1] ∧ minimalDistance [3, 4, 2] 0 17 = 3 ∧
    route [3, 4, 2] 2 0 35 = some (2, 0) ∧ route [3, 4, 2] 2 2 35 = some (4, 0) ∧
    route [3, 4, 2] 2 5 35 = some (8, 0) ∧ route [3, 4, 2] 2 17 35 = some (10, 0) := by decide

end SST.Topo.Hypercube
