import Verif.Topo.Torus
/-
C39 (torus), C40, C41, C42, C48 (torus), C49 (torus).
-/
set_option autoImplicit false
namespace SST.Topo.Torus
open SST.Topo

theorem mod2 {z D : Nat} (h : z < 2 * D) : z % D = if z < D then z else z - D := by
  split
  · exact Nat.mod_eq_of_lt ‹_›
  · rw [Nat.mod_eq_sub_mod (by omega), Nat.mod_eq_of_lt (by omega)]

/-! ### Distances along one dimension -/

theorem sd_eq {D a b : Nat} (ha : a < D) (hb : b < D) :
    shortestDistance D a b = if a ≤ b then min (b - a) (D - (b - a)) else min (a - b) (D - (a - b)) := by
  unfold shortestDistance
  simp only
  rw [mod2 (z := a + D - b) (by omega), mod2 (z := b + D - a) (by omega)]
  repeat' split
  all_goals omega

theorem pos_eq {D a b : Nat} (ha : a < D) (hb : b < D) :
    shortestPathPositive D a b = true ↔ (if a < b then b - a ≤ a + D - b else b + D - a ≤ a - b) := by
  unfold shortestPathPositive
  simp only [decide_eq_true_eq]
  repeat' split
  all_goals omega

theorem up_val {D a : Nat} (ha : a < D) : (a + 1) % D = if a = D - 1 then 0 else a + 1 := by
  rw [mod2 (by omega)]
  split <;> split <;> omega

theorem down_val {D a : Nat} (ha : a < D) : (a + D - 1) % D = if a = 0 then D - 1 else a - 1 := by
  rw [mod2 (by omega)]
  split <;> split <;> omega

theorem sd_up {D a b : Nat} (ha : a < D) (hb : b < D) (h : shortestPathPositive D a b = true) :
    shortestDistance D ((a + 1) % D) b + 1 = shortestDistance D a b := by
  rw [pos_eq ha hb] at h
  rw [sd_eq (Nat.mod_lt _ (by omega)) hb, sd_eq ha hb, up_val ha]
  split at h <;> repeat' split
  all_goals omega

theorem sd_down {D a b : Nat} (ha : a < D) (hb : b < D) (hab : a ≠ b) (h : shortestPathPositive D a b = false) :
    shortestDistance D ((a + D - 1) % D) b + 1 = shortestDistance D a b := by
  have h := mt (pos_eq ha hb).2 (by simp [h])
  rw [sd_eq (Nat.mod_lt _ (by omega)) hb, sd_eq ha hb, down_val ha]
  split at h <;> repeat' split
  all_goals omega

theorem sd_lip_up {D a b : Nat} (ha : a < D) (hb : b < D) :
    shortestDistance D a b ≤ shortestDistance D ((a + 1) % D) b + 1 := by
  rw [sd_eq (Nat.mod_lt _ (by omega)) hb, sd_eq ha hb, up_val ha]
  repeat' split
  all_goals omega

theorem sd_lip_down {D a b : Nat} (ha : a < D) (hb : b < D) :
    shortestDistance D a b ≤ shortestDistance D ((a + D - 1) % D) b + 1 := by
  rw [sd_eq (Nat.mod_lt _ (by omega)) hb, sd_eq ha hb, down_val ha]
  repeat' split
  all_goals omega

theorem sd_zero {D a b : Nat} (ha : a < D) (hb : b < D) : shortestDistance D a b = 0 ↔ a = b := by
  rw [sd_eq ha hb]
  split <;> omega

theorem sd_half {D a b : Nat} (ha : a < D) (hb : b < D) : shortestDistance D a b ≤ D / 2 := by
  rw [sd_eq ha hb]
  split <;> omega

/-! ### Distances -/

/-- `minimalDistance` without the running product. -/
def dist : List Nat → Nat → Nat → Nat
  | [], _, _ => 0
  | D :: ds, s, d => shortestDistance D (s % D) (d % D) + dist ds (s / D) (d / D)

theorem distGo_eq (s d : Nat) (dims : List Nat) : ∀ div, distGo s d div dims = dist dims (s / div) (d / div) := by
  induction dims with
  | nil => intro div; rfl
  | cons D ds ih => intro div; simp only [distGo, dist, ih, Nat.div_div_eq_div_mul]

theorem minimalDistance_eq (dims : List Nat) (s d : Nat) : minimalDistance dims s d = dist dims s d := by
  simp [minimalDistance, distGo_eq]

theorem dist_setAt (dims : List Nat) : (∀ D ∈ dims, 0 < D) → ∀ k x s d (D : Nat), dims[k]? = some D → x < D →
    dist dims (setAt dims k x s) d + shortestDistance D (digit dims k s) (digit dims k d) =
      dist dims s d + shortestDistance D x (digit dims k d) := by
  induction dims with
  | nil => intro _ k x s d D h; simp at h
  | cons E ds ih =>
    intro hpos k x s d D h hx
    have hE : 0 < E := hpos E (by simp)
    cases k with
    | zero =>
      simp only [List.getElem?_cons_zero, Option.some.injEq] at h
      subst h
      simp only [setAt, dist, digit]
      rw [Nat.add_mul_mod_self_left, Nat.mod_eq_of_lt hx, Nat.add_mul_div_left _ _ (by omega),
        Nat.div_eq_of_lt hx, Nat.zero_add]
      omega
    | succ k =>
      simp only [List.getElem?_cons_succ] at h
      have := ih (fun d hd => hpos d (by simp [hd])) k x (s / E) (d / E) D h hx
      simp only [setAt, dist, digit]
      rw [Nat.add_mul_mod_self_left, Nat.mod_mod, Nat.add_mul_div_left _ _ hE,
        Nat.div_eq_of_lt (Nat.mod_lt _ hE), Nat.zero_add]
      omega

theorem dist_zero (dims : List Nat) : (∀ D ∈ dims, 0 < D) → ∀ s d, s < size dims → d < size dims →
    (dist dims s d = 0 ↔ s = d) := by
  induction dims with
  | nil => intro _ s d hs hd; simp [size] at hs hd; simp [dist, hs, hd]
  | cons E ds ih =>
    intro hpos s d hs hd
    have hE : 0 < E := hpos E (by simp)
    simp only [size] at hs hd
    have := ih (fun d hd => hpos d (by simp [hd])) _ _ (Nat.div_lt_of_lt_mul hs) (Nat.div_lt_of_lt_mul hd)
    have h0 := sd_zero (Nat.mod_lt s hE) (Nat.mod_lt d hE)
    simp only [dist]
    constructor
    · intro h
      have e1 := h0.1 (by omega)
      have e2 := this.1 (by omega)
      rw [← Nat.mod_add_div s E, ← Nat.mod_add_div d E, e1, e2]
    · intro h
      subst h
      have := this.2 rfl
      have := h0.2 rfl
      omega

theorem dist_diameter (dims : List Nat) : (∀ D ∈ dims, 0 < D) → ∀ s d, dist dims s d ≤ diameter dims := by
  induction dims with
  | nil => intro _ s d; simp [dist]
  | cons E ds ih =>
    intro hpos s d
    have hE : 0 < E := hpos E (by simp)
    have := ih (fun d hd => hpos d (by simp [hd])) (s / E) (d / E)
    have h0 := sd_half (Nat.mod_lt s hE) (Nat.mod_lt d hE)
    simp only [dist, diameter]
    omega

/-! ### Links -/

theorem mem_connGo (src : Nat) (c : Conn) (ds : List Nat) : ∀ i st, c ∈ connGo src i st ds ↔
    ∃ (k D : Nat), ds[k]? = some D ∧
      (c = { src := src
             dst := toU32 (src + plusJump D ((src / (st * stride ds k)) % D) * (st * stride ds k : Nat))
             outport := toPort (i + k) 0, inport := toPort (i + k) 1 } ∨
       c = { src := src
             dst := toU32 (src + minusJump D ((src / (st * stride ds k)) % D) * (st * stride ds k : Nat))
             outport := toPort (i + k) 1, inport := toPort (i + k) 0 }) := by
  induction ds with
  | nil => intro i st; simp [connGo]
  | cons E ds ih =>
    intro i st
    simp only [connGo, List.mem_cons, ih]
    constructor
    · rintro (h | h | ⟨k, D, hk, h⟩)
      · exact ⟨0, E, rfl, Or.inl (by simpa [stride] using h)⟩
      · exact ⟨0, E, rfl, Or.inr (by simpa [stride] using h)⟩
      · refine ⟨k + 1, D, by simpa using hk, ?_⟩
        simp only [stride, Nat.mul_assoc] at h ⊢
        rw [show i + (k + 1) = i + 1 + k by omega]
        exact h
    · rintro ⟨k, D, hk, h⟩
      cases k with
      | zero =>
        simp only [List.getElem?_cons_zero, Option.some.injEq] at hk
        subst hk
        simp only [stride, Nat.mul_one, Nat.add_zero] at h
        rcases h with h | h
        · exact Or.inl h
        · exact Or.inr (Or.inl h)
      | succ k =>
        refine Or.inr (Or.inr ⟨k, D, by simpa using hk, ?_⟩)
        simp only [stride, Nat.mul_assoc] at h ⊢
        rw [show i + (k + 1) = i + 1 + k by omega] at h
        exact h

theorem plusJump_eq {D x : Nat} (hx : x < D) : plusJump D x = (((x + 1) % D : Nat) : Int) - x := by
  rw [up_val hx]
  unfold plusJump
  split <;> omega

theorem minusJump_eq {D x : Nat} (hx : x < D) (hD : 2 ≤ D) : minusJump D x = (((x + D - 1) % D : Nat) : Int) - x := by
  rw [down_val hx]
  unfold minusJump
  repeat' split
  all_goals omega

section
variable {dims : List Nat} (hpos : ∀ D ∈ dims, 0 < D) (hsz : size dims ≤ 4294967296) (conc : Nat)
include hpos hsz

theorem plus_dst {s k D : Nat} (hs : s < size dims) (hk : dims[k]? = some D) :
    toU32 (s + plusJump D ((s / (1 * stride dims k)) % D) * (1 * stride dims k : Nat)) =
      setAt dims k ((digit dims k s + 1) % D) s := by
  have hD : 0 < D := hpos D (List.mem_of_getElem? hk)
  have hx := digit_lt (s := s) hk hD
  apply toU32_of_lt
  · rw [Nat.one_mul, ← digit_eq dims k s D hk, plusJump_eq hx, setAt_int dims k _ s D hk]
  · exact Nat.lt_of_lt_of_le (setAt_lt dims k _ s D hk (Nat.mod_lt _ hD) hs) hsz

theorem minus_dst {s k D : Nat} (hs : s < size dims) (hk : dims[k]? = some D) (h2 : 2 ≤ D) :
    toU32 (s + minusJump D ((s / (1 * stride dims k)) % D) * (1 * stride dims k : Nat)) =
      setAt dims k ((digit dims k s + D - 1) % D) s := by
  have hD : 0 < D := hpos D (List.mem_of_getElem? hk)
  have hx := digit_lt (s := s) hk hD
  apply toU32_of_lt
  · rw [Nat.one_mul, ← digit_eq dims k s D hk, minusJump_eq hx h2, setAt_int dims k _ s D hk]
  · exact Nat.lt_of_lt_of_le (setAt_lt dims k _ s D hk (Nat.mod_lt _ hD) hs) hsz

theorem link_up {s k D : Nat} (hs : s < size dims) (hk : dims[k]? = some D) :
    (net dims conc).Link s (2 * k) (setAt dims k ((digit dims k s + 1) % D) s) (2 * k + 1) := by
  show _ ∈ connGo s 0 1 dims
  rw [mem_connGo]
  refine ⟨k, D, hk, Or.inl ?_⟩
  rw [plus_dst hpos hsz hs hk]
  simp [toPort]

theorem link_down {s k D : Nat} (hs : s < size dims) (hk : dims[k]? = some D) (h2 : 2 ≤ D) :
    (net dims conc).Link s (2 * k + 1) (setAt dims k ((digit dims k s + D - 1) % D) s) (2 * k) := by
  show _ ∈ connGo s 0 1 dims
  rw [mem_connGo]
  refine ⟨k, D, hk, Or.inr ?_⟩
  rw [minus_dst hpos hsz hs hk h2]
  simp [toPort]

/-- Which port leads where; nothing is said of the minus port of a dimension of size 1. -/
theorem link_cases {s p t q : Nat} (hs : s < size dims) (h : (net dims conc).Link s p t q) :
    ∃ (k D : Nat), dims[k]? = some D ∧
      ((p = 2 * k ∧ q = 2 * k + 1 ∧ t = setAt dims k ((digit dims k s + 1) % D) s) ∨
       (p = 2 * k + 1 ∧ q = 2 * k ∧ (2 ≤ D → t = setAt dims k ((digit dims k s + D - 1) % D) s))) := by
  have h : _ ∈ connGo s 0 1 dims := h
  rw [mem_connGo] at h
  obtain ⟨k, D, hk, h⟩ := h
  refine ⟨k, D, hk, ?_⟩
  rcases h with h | h
  · rw [plus_dst hpos hsz hs hk] at h
    simp only [Conn.mk.injEq, toPort] at h
    omega
  · right
    simp only [Conn.mk.injEq, toPort] at h
    refine ⟨by omega, by omega, ?_⟩
    intro h2
    rw [minus_dst hpos hsz hs hk h2] at h
    exact h.2.1
end

/-! ### C39 -/

/-- C39 for the torus (and, with the same functions, the hypercube): a switch number gives
in-range coordinates and these give the number back; in-range coordinates give a switch
number, and its coordinates are the given ones. -/
theorem C39_torus (dims : List Nat) (hpos : ∀ D ∈ dims, 0 < D) :
    (∀ s, s < size dims → InRange dims (switchCoords dims s) ∧ switchAddr dims (switchCoords dims s) = s) ∧
    (∀ cs, InRange dims cs → switchAddr dims cs < size dims ∧ switchCoords dims (switchAddr dims cs) = cs) := by
  constructor
  · intro s hs
    rw [switchAddr_eq, switchCoords_eq]
    exact ⟨coords_inRange hpos s, addr_coords dims s hs⟩
  · intro cs h
    rw [switchAddr_eq, switchCoords_eq]
    exact ⟨addr_lt dims cs h, coords_addr dims cs h⟩

example : switchCoords [4, 3, 2] 17 = [1, 1, 1] ∧ switchAddr [4, 3, 2] [1, 1, 1] = 17 ∧ size [4, 3, 2] = 24 := by
  decide

/-! ### C40 -/

theorem outports_go (src : Nat) (ds : List Nat) : ∀ i st,
    ((connGo src i st ds).map Conn.outport).Nodup ∧ ∀ p ∈ (connGo src i st ds).map Conn.outport,
      2 * i ≤ p ∧ p < 2 * (i + ds.length) := by
  induction ds with
  | nil => intro i st; simp [connGo]
  | cons E ds ih =>
    intro i st
    obtain ⟨h1, h2⟩ := ih (i + 1) (st * E)
    simp only [connGo, List.map_cons, List.nodup_cons, List.mem_cons, toPort, List.length_cons]
    refine ⟨⟨?_, ?_, h1⟩, ?_⟩
    · rintro (h | h)
      · omega
      · have := h2 _ h; omega
    · intro h
      have := h2 _ h; omega
    · rintro p (h | h | h)
      · omega
      · omega
      · have := h2 p h; omega

/-- The outports of a switch are `0 .. 2*ndim-1`. -/
theorem outport_lt {dims : List Nat} {conc s p t q : Nat} (h : (net dims conc).Link s p t q) : p < 2 * dims.length := by
  have h : _ ∈ connGo s 0 1 dims := h
  have := (outports_go s dims 0 1).2 p (List.mem_map.2 ⟨_, h, rfl⟩)
  omega

/-- A port leads to one place. -/
theorem link_unique {dims : List Nat} {conc s p t q t' q' : Nat} (h : (net dims conc).Link s p t q)
    (h' : (net dims conc).Link s p t' q') : t = t' ∧ q = q' := by
  have h : _ ∈ connGo s 0 1 dims := h
  have h' : _ ∈ connGo s 0 1 dims := h'
  have nd := (outports_go s dims 0 1).1
  have := conn_unique nd h h' rfl
  simp only [Conn.mk.injEq] at this
  exact ⟨this.2.1, this.2.2.2⟩

theorem up_down {D x : Nat} (hx : x < D) : ((x + 1) % D + D - 1) % D = x := by
  rw [down_val (Nat.mod_lt _ (by omega)), up_val hx]
  repeat' split
  all_goals omega

theorem down_up {D x : Nat} (hx : x < D) : ((x + D - 1) % D + 1) % D = x := by
  rw [up_val (Nat.mod_lt _ (by omega)), down_val hx]
  repeat' split
  all_goals omega

/-- C40, where every dimension has at least two switches: every link has a link back between
the same two ports, no port is used twice, all links stay in the network. -/
theorem C40_torus_links_partial (dims : List Nat) (h2 : ∀ D ∈ dims, 2 ≤ D) (hsz : size dims ≤ 4294967296) (conc : Nat) :
    WellWired (net dims conc) := by
  have hpos : ∀ D ∈ dims, 0 < D := fun D hD => by have := h2 D hD; omega
  have hback : ∀ s p t q, s < size dims → (net dims conc).Link s p t q →
      t < size dims ∧ (net dims conc).Link t q s p := by
    intro s p t q hs h
    obtain ⟨k, D, hk, h⟩ := link_cases hpos hsz conc hs h
    have hD2 := h2 D (List.mem_of_getElem? hk)
    have hkl := (List.getElem?_eq_some_iff.1 hk).1
    have hx := digit_lt (s := s) hk (by omega)
    rcases h with ⟨rfl, rfl, rfl⟩ | ⟨rfl, rfl, ht⟩
    · have hm := Nat.mod_lt (digit dims k s + 1) (show D > 0 by omega)
      have hlt := setAt_lt dims k _ s D hk hm hs
      refine ⟨hlt, ?_⟩
      have := link_down hpos hsz conc hlt hk hD2
      rw [digit_setAt hpos hk hm k hkl, if_pos rfl, up_down hx, setAt_setAt hpos hk hm hx hs, setAt_digit] at this
      exact this
    · have ht := ht hD2
      subst ht
      have hm := Nat.mod_lt (digit dims k s + D - 1) (show D > 0 by omega)
      have hlt := setAt_lt dims k _ s D hk hm hs
      refine ⟨hlt, ?_⟩
      have := link_up hpos hsz conc hlt hk
      rw [digit_setAt hpos hk hm k hkl, if_pos rfl, down_up hx, setAt_setAt hpos hk hm hx hs, setAt_digit] at this
      exact this
  have hout : ∀ s p t q t' q', (net dims conc).Link s p t q → (net dims conc).Link s p t' q' → t = t' ∧ q = q' :=
    fun _ _ _ _ _ _ h h' => link_unique h h'
  refine ⟨?_, ?_, ?_, ?_, ?_⟩
  · intro s c _ hc
    have hc : c ∈ connGo s 0 1 dims := hc
    rw [mem_connGo] at hc
    obtain ⟨k, D, _, rfl | rfl⟩ := hc <;> rfl
  · intro s p t q hs h
    exact (hback s p t q hs h).1
  · intro s p t q hs h
    exact (hback s p t q hs h).2
  · intro s _
    exact (outports_go s dims 0 1).1
  · intro s s' t q p p' hs hs' h h'
    exact hout t q s p s' p' (hback s p t q hs h).2 (hback s' p' t q hs' h').2

/-- C40, the other half: a switch has exactly the links to its two neighbours in each
dimension, with wrap-around: port `2k` to the next, port `2k+1` to the previous coordinate of
dimension `k`. -/
theorem C40_torus_neighbours_partial (dims : List Nat) (h2 : ∀ D ∈ dims, 2 ≤ D) (hsz : size dims ≤ 4294967296)
    (conc s : Nat) (hs : s < size dims) (p t q : Nat) :
    (net dims conc).Link s p t q ↔ ∃ (k D x : Nat), dims[k]? = some D ∧ (switchCoords dims s)[k]? = some x ∧ t < size dims ∧
      ((p = 2 * k ∧ q = 2 * k + 1 ∧ switchCoords dims t = (switchCoords dims s).set k ((x + 1) % D)) ∨
       (p = 2 * k + 1 ∧ q = 2 * k ∧ switchCoords dims t = (switchCoords dims s).set k ((x + D - 1) % D))) := by
  have hpos : ∀ D ∈ dims, 0 < D := fun D hD => by have := h2 D hD; omega
  rw [switchCoords_eq, switchCoords_eq]
  constructor
  · intro h
    obtain ⟨k, D, hk, h⟩ := link_cases hpos hsz conc hs h
    have hD2 := h2 D (List.mem_of_getElem? hk)
    have hkl := (List.getElem?_eq_some_iff.1 hk).1
    have hm := Nat.mod_lt (digit dims k s + D - 1) (show D > 0 by omega)
    have hm' := Nat.mod_lt (digit dims k s + 1) (show D > 0 by omega)
    refine ⟨k, D, digit dims k s, hk, digit_coords dims k s hkl, ?_⟩
    rcases h with ⟨rfl, rfl, rfl⟩ | ⟨rfl, rfl, ht⟩
    · exact ⟨setAt_lt dims k _ s D hk hm' hs, Or.inl ⟨rfl, rfl, setAt_coords dims hpos k _ s D hk hm'⟩⟩
    · rw [ht hD2]
      exact ⟨setAt_lt dims k _ s D hk hm hs, Or.inr ⟨rfl, rfl, setAt_coords dims hpos k _ s D hk hm⟩⟩
  · rintro ⟨k, D, x, hk, hx, ht, h⟩
    have hD2 := h2 D (List.mem_of_getElem? hk)
    have hkl := (List.getElem?_eq_some_iff.1 hk).1
    rw [digit_coords dims k s hkl] at hx
    simp only [Option.some.injEq] at hx
    subst hx
    have hm := Nat.mod_lt (digit dims k s + D - 1) (show D > 0 by omega)
    have hm' := Nat.mod_lt (digit dims k s + 1) (show D > 0 by omega)
    rcases h with ⟨rfl, rfl, h⟩ | ⟨rfl, rfl, h⟩
    · have := link_up hpos hsz conc hs hk
      rw [← setAt_coords dims hpos k _ s D hk hm'] at h
      rw [coords_inj ht (setAt_lt dims k _ s D hk hm' hs) h]
      exact this
    · have := link_down hpos hsz conc hs hk hD2
      rw [← setAt_coords dims hpos k _ s D hk hm] at h
      rw [coords_inj ht (setAt_lt dims k _ s D hk hm hs) h]
      exact this

/-- C40 is false with a dimension of size 1: the minus port leads out of the network. -/
theorem C40_torus_links_refuted :
    ¬ ∀ (dims : List Nat) (conc : Nat), (∀ D ∈ dims, 0 < D) → size dims ≤ 4294967296 → WellWired (net dims conc) := by
  intro h
  have := (h [1, 4] 1 (by decide) (by decide)).range 0 1 4294967295 0 (by decide) (by unfold Net.Link; decide)
  revert this
  decide

/-- A 3x2 torus: switch 2 (the last of its row) and its six links. -/
example : (net [3, 2] 1).conns 2 =
    [⟨2, 0, 0, 1⟩, ⟨2, 1, 1, 0⟩, ⟨2, 5, 2, 3⟩, ⟨2, 5, 3, 2⟩] ∧ (∀ D ∈ [3, 2], 2 ≤ D) ∧ size [3, 2] ≤ 4294967296 := by
  decide

/-! ### C41 -/

/-- What the router decides: the first dimension in which the coordinates differ. -/
theorem minimalGo_spec (s d : Nat) (h : Hdr) (dims : List Nat) : ∀ i st,
    (∃ (k D : Nat), dims[k]? = some D ∧ digit dims k (s / st) ≠ digit dims k (d / st) ∧
      (∀ j, j < k → digit dims j (s / st) = digit dims j (d / st)) ∧
      minimalGo s d h i st dims =
        if shortestPathPositive D (digit dims k (s / st)) (digit dims k (d / st)) then
          some (upPath (i + k) D (digit dims k (s / st)) h) else some (downPath (i + k) (digit dims k (s / st)) h)) ∨
    (∀ j, j < dims.length → digit dims j (s / st) = digit dims j (d / st)) := by
  induction dims with
  | nil => intro i st; right; intro j hj; simp at hj
  | cons E ds ih =>
    intro i st
    by_cases hne : (s / st) % E = (d / st) % E
    · have := ih (i + 1) (st * E)
      simp only [← Nat.div_div_eq_div_mul] at this
      rcases this with ⟨k, D, hk, h1, h2, h3⟩ | hall
      · left
        refine ⟨k + 1, D, by simpa using hk, by simpa [digit] using h1, ?_, ?_⟩
        · intro j hj
          cases j with
          | zero => simpa [digit] using hne
          | succ j => simpa [digit] using h2 j (by omega)
        · simp only [minimalGo, hne, ne_eq, not_true_eq_false, if_false, digit]
          rw [h3, show i + (k + 1) = i + 1 + k by omega]
          split <;> simp_all
      · right
        intro j hj
        cases j with
        | zero => simpa [digit] using hne
        | succ j => simpa [digit] using hall j (by simpa using hj)
    · left
      refine ⟨0, E, rfl, by simpa [digit] using hne, by omega, ?_⟩
      simp only [minimalGo, ne_eq, hne, not_false_eq_true, if_true, digit, Nat.add_zero]
      split <;> simp_all

theorem minimalRoute_spec {dims : List Nat} {s d : Nat} (hs : s < size dims) (hd : d < size dims) (hne : s ≠ d) (h : Hdr) :
    ∃ (k D : Nat), dims[k]? = some D ∧ digit dims k s ≠ digit dims k d ∧
      (∀ j, j < k → digit dims j s = digit dims j d) ∧
      minimalRoute dims s d h =
        if shortestPathPositive D (digit dims k s) (digit dims k d) then
          some (upPath k D (digit dims k s) h) else some (downPath k (digit dims k s) h) := by
  have := minimalGo_spec s d h dims 0 1
  simp only [Nat.div_one, Nat.zero_add] at this
  rcases this with h | h
  · exact h
  · exact absurd (eq_of_digits hs hd h) hne

theorem upPath_port (k D x : Nat) (h : Hdr) : (upPath k D x h).1 = 2 * k ∧ (upPath k D x h).2.1 < 2 := by
  unfold upPath
  repeat' split
  all_goals simp [toPort]

theorem downPath_port (k x : Nat) (h : Hdr) : (downPath k x h).1 = 2 * k + 1 ∧ (downPath k x h).2.1 < 2 := by
  unfold downPath
  repeat' split
  all_goals simp [toPort]

/-- One routing step. -/
theorem route_step {dims : List Nat} (hpos : ∀ D ∈ dims, 0 < D) (hsz : size dims ≤ 4294967296) {conc s node : Nat}
    (hs : s < size dims) (hd : node / conc < size dims) (hne : s ≠ node / conc) (h : Hdr) :
    ∃ (k D p vc : Nat) (h' : Hdr) (t q : Nat), dims[k]? = some D ∧
      digit dims k s ≠ digit dims k (node / conc) ∧ (∀ j, j < k → digit dims j s = digit dims j (node / conc)) ∧
      route dims conc s node h = some (p, vc, h') ∧ vc < 2 ∧
      (net dims conc).Link s p t q ∧ t < size dims ∧
      dist dims t (node / conc) + 1 = dist dims s (node / conc) ∧
      ((shortestPathPositive D (digit dims k s) (digit dims k (node / conc)) = true ∧
          (p, vc, h') = upPath k D (digit dims k s) h ∧ t = setAt dims k ((digit dims k s + 1) % D) s) ∨
       (shortestPathPositive D (digit dims k s) (digit dims k (node / conc)) = false ∧
          (p, vc, h') = downPath k (digit dims k s) h ∧ t = setAt dims k ((digit dims k s + D - 1) % D) s)) := by
  obtain ⟨k, D, hk, hdig, hbef, hr⟩ := minimalRoute_spec hs hd hne h
  have hD : 0 < D := hpos D (List.mem_of_getElem? hk)
  have hx := digit_lt (s := s) hk hD
  have hy := digit_lt (s := node / conc) hk hD
  have h2 : 2 ≤ D := by omega
  have hroute : route dims conc s node h = minimalRoute dims s (node / conc) h := by
    unfold route
    rw [if_neg (by omega)]
  cases hp : shortestPathPositive D (digit dims k s) (digit dims k (node / conc)) with
  | true =>
    rw [hp, if_pos rfl] at hr
    obtain ⟨e1, e2⟩ := upPath_port k D (digit dims k s) h
    have hm := Nat.mod_lt (digit dims k s + 1) (show D > 0 by omega)
    refine ⟨k, D, 2 * k, (upPath k D (digit dims k s) h).2.1, (upPath k D (digit dims k s) h).2.2,
      setAt dims k ((digit dims k s + 1) % D) s, 2 * k + 1, hk, hdig, hbef, ?_, e2, link_up hpos hsz conc hs hk,
      setAt_lt dims k _ s D hk hm hs, ?_, Or.inl ⟨hp, ?_, rfl⟩⟩
    · rw [hroute, hr, ← e1]
    · have := dist_setAt dims hpos k _ s (node / conc) D hk hm
      have := sd_up hx hy hp
      omega
    · rw [← e1]
  | false =>
    rw [hp, if_neg (by simp)] at hr
    obtain ⟨e1, e2⟩ := downPath_port k (digit dims k s) h
    have hm := Nat.mod_lt (digit dims k s + D - 1) (show D > 0 by omega)
    refine ⟨k, D, 2 * k + 1, (downPath k (digit dims k s) h).2.1, (downPath k (digit dims k s) h).2.2,
      setAt dims k ((digit dims k s + D - 1) % D) s, 2 * k, hk, hdig, hbef, ?_, e2, link_down hpos hsz conc hs hk h2,
      setAt_lt dims k _ s D hk hm hs, ?_, Or.inr ⟨hp, ?_, rfl⟩⟩
    · rw [hroute, hr, ← e1]
    · have := dist_setAt dims hpos k _ s (node / conc) D hk hm
      have := sd_down hx hy hdig hp
      omega
    · rw [← e1]

theorem eject_mem {dims : List Nat} {conc node : Nat} (hc : 0 < conc) :
    (node, node % conc + 2 * dims.length) ∈ (net dims conc).inj (node / conc) := by
  show _ ∈ inj dims conc _
  unfold inj
  rw [List.mem_map]
  refine ⟨node % conc, List.mem_range.2 (Nat.mod_lt _ hc), ?_⟩
  simp only [Prod.mk.injEq]
  refine ⟨?_, by omega⟩
  rw [Nat.mul_comm, Nat.div_add_mod]

/-- C41, routing: from any switch, whatever header the packet has, the minimal router
delivers a packet in exactly `minimalDistance` hops on two virtual channels, and that is at
most the diameter. -/
theorem C41_torus_minimal_routing (dims : List Nat) (hpos : ∀ D ∈ dims, 0 < D) (hsz : size dims ≤ 4294967296)
    (conc : Nat) (hc : 0 < conc) (s node : Nat) (hs : s < size dims) (hn : node < size dims * conc) (h : Hdr) :
    Delivers (net dims conc) (router dims conc) 2 node (minimalDistance dims s (node / conc)) s h ∧
    minimalDistance dims s (node / conc) ≤ diameter dims := by
  have hd : node / conc < size dims := Nat.div_lt_of_lt_mul (by rw [Nat.mul_comm]; exact hn)
  rw [minimalDistance_eq]
  refine ⟨?_, dist_diameter dims hpos _ _⟩
  generalize hm : dist dims s (node / conc) = m
  induction m generalizing s h with
  | zero =>
    have := (dist_zero dims hpos s (node / conc) hs hd).1 hm
    subst this
    have hr : route dims conc (node / conc) node h = some (node % conc + 2 * dims.length, 0, h) := by
      simp [route]
    refine ⟨⟨_, _, _, hr⟩, ?_⟩
    intro p vc h' hr'
    have hr' : route dims conc (node / conc) node h = some (p, vc, h') := hr'
    rw [hr] at hr'
    simp only [Option.some.injEq, Prod.mk.injEq] at hr'
    obtain ⟨rfl, rfl, rfl⟩ := hr'
    exact ⟨by omega, eject_mem hc⟩
  | succ m ih =>
    have hne : s ≠ node / conc := by
      intro e
      have := (dist_zero dims hpos s (node / conc) hs hd).2 e
      omega
    obtain ⟨k, D, p, vc, h', t, q, _, _, _, hr, hvc, hl, ht, hdist, _⟩ := route_step hpos hsz hs hd hne h
    refine ⟨⟨p, vc, h', hr⟩, ?_⟩
    intro p2 vc2 h2 hr2
    have hr2 : route dims conc s node h = some (p2, vc2, h2) := hr2
    rw [hr] at hr2
    simp only [Option.some.injEq, Prod.mk.injEq] at hr2
    obtain ⟨rfl, rfl, rfl⟩ := hr2
    exact ⟨hvc, t, q, hl, ih t ht h' (by omega)⟩

/-- C41 and C48 for the torus: the reported distance is the length of a shortest path, where
every dimension has at least two switches. -/
theorem C41_torus_distance_partial (dims : List Nat) (h2 : ∀ D ∈ dims, 2 ≤ D) (hsz : size dims ≤ 4294967296) (conc : Nat)
    (s d : Nat) (hs : s < size dims) (hd : d < size dims) :
    IsDist (net dims conc) s d (minimalDistance dims s d) := by
  have hpos : ∀ D ∈ dims, 0 < D := fun D hD => by have := h2 D hD; omega
  rw [minimalDistance_eq]
  constructor
  · generalize hm : dist dims s d = m
    induction m generalizing s with
    | zero =>
      rw [(dist_zero dims hpos s d hs hd).1 hm]
      exact Walk.nil d
    | succ m ih =>
      have hne : s ≠ d := by
        intro e
        have := (dist_zero dims hpos s d hs hd).2 e
        omega
      obtain ⟨k, D, p, vc, h', t, q, _, _, _, _, _, hl, ht, hdist, _⟩ :=
        route_step hpos hsz (conc := 1) (node := d) hs (by simpa using hd) (by simpa using hne) {}
      rw [Nat.div_one] at hdist
      exact Walk.cons (N := net dims conc) hl (ih t ht (by omega))
  · have key : ∀ s d m, Walk (net dims conc) s d m → d < size dims → s < size dims → dist dims s d ≤ m := by
      clear hs hd s d
      intro s d m w
      induction w with
      | nil s =>
        intro hd hs
        have := (dist_zero dims hpos s s hs hs).2 rfl
        omega
      | @cons s p t q u n hl w ih =>
        intro hd hs
        obtain ⟨k, D, hk, hcase⟩ := link_cases hpos hsz conc hs hl
        have hD := h2 D (List.mem_of_getElem? hk)
        have hx := digit_lt (s := s) hk (by omega)
        have hy := digit_lt (s := u) hk (by omega)
        rcases hcase with ⟨_, _, rfl⟩ | ⟨_, _, ht⟩
        · have hm := Nat.mod_lt (digit dims k s + 1) (show D > 0 by omega)
          have e1 := dist_setAt dims hpos k _ s u D hk hm
          have e2 := sd_lip_up hx hy
          have := ih hd (setAt_lt dims k _ s D hk hm hs)
          omega
        · have ht := ht hD
          subst ht
          have hm := Nat.mod_lt (digit dims k s + D - 1) (show D > 0 by omega)
          have e1 := dist_setAt dims hpos k _ s u D hk hm
          have e2 := sd_lip_down hx hy
          have := ih hd (setAt_lt dims k _ s D hk hm hs)
          omega
    exact fun m w => key s d m w hd hs

/-- C41 is false with a dimension of size 1: its minus port can be a short cut that the reported
distance does not know of. -/
theorem C41_torus_distance_refuted :
    ¬ ∀ (dims : List Nat) (conc s d : Nat), (∀ D ∈ dims, 0 < D) → size dims ≤ 4294967296 → s < size dims →
      d < size dims → IsDist (net dims conc) s d (minimalDistance dims s d) := by
  intro h
  have := (h [1, 3, 3] 1 3 2 (by decide) (by decide) (by decide) (by decide)).2 1
    (Walk.cons (p := 1) (q := 0) (by unfold Net.Link; decide) (Walk.nil 2))
  revert this
  decide

/-- A 5x4 torus with two nodes per switch: switch 0 to node 33 (at switch 16, coordinates
(1,3)) takes one hop up in the first and one hop down in the second dimension. -/
example : minimalDistance [5, 4] 0 (33 / 2) = 2 ∧ route [5, 4] 2 0 33 {} = some (0, 0, { crossed := false, lastDim := 0 }) ∧
    route [5, 4] 2 1 33 { crossed := false, lastDim := 0 } = some (3, 1, { crossed := true, lastDim := 1 }) ∧
    route [5, 4] 2 16 33 { crossed := true, lastDim := 1 } = some (5, 0, { crossed := true, lastDim := 1 }) := by
  decide

/-! ### C42 -/

/-- Position of a channel: its dimension, and where it is on a path within the dimension. -/
def rank (dims : List Nat) (c : Nat × Nat × Nat) : Nat × Nat :=
  let k := c.2.1 / 2
  let D := dims.getD k 0
  let x := digit dims k c.1
  (k, if c.2.1 % 2 = 0 then (if c.2.2 = 0 then x else D + (x + 1) % D)
      else (if c.2.2 = 0 then D - 1 - x else D + (D - x) % D))

/-- A packet that has crossed the date line of the dimension it is in will not come to it
again. -/
def HInv (dims : List Nat) (d s : Nat) (h : Hdr) : Prop :=
  h.crossed = true → ∀ (D : Nat), dims[h.lastDim]? = some D → digit dims h.lastDim s ≠ digit dims h.lastDim d →
    (shortestPathPositive D (digit dims h.lastDim s) (digit dims h.lastDim d) = true ∧
      digit dims h.lastDim s < digit dims h.lastDim d) ∨
    (shortestPathPositive D (digit dims h.lastDim s) (digit dims h.lastDim d) = false ∧
      digit dims h.lastDim d < digit dims h.lastDim s)

/-- What the packet does at a switch on its way. -/
theorem hop_cases {dims : List Nat} (hpos : ∀ D ∈ dims, 0 < D) (hsz : size dims ≤ 4294967296) {conc node : Nat}
    (hd : node / conc < size dims) {s : Nat} (hs : s < size dims) {h h' : Hdr} {p vc t q : Nat}
    (hr : router dims conc s node h p vc h') (hl : (net dims conc).Link s p t q) :
    t < size dims ∧ ∃ (k D : Nat), dims[k]? = some D ∧
      digit dims k s ≠ digit dims k (node / conc) ∧ (∀ j, j < k → digit dims j s = digit dims j (node / conc)) ∧
      (∀ j, j < dims.length → j ≠ k → digit dims j t = digit dims j s) ∧
      digit dims k s < D ∧ digit dims k (node / conc) < D ∧
      ((shortestPathPositive D (digit dims k s) (digit dims k (node / conc)) = true ∧
          (p, vc, h') = upPath k D (digit dims k s) h ∧ digit dims k t = (digit dims k s + 1) % D) ∨
       (shortestPathPositive D (digit dims k s) (digit dims k (node / conc)) = false ∧
          (p, vc, h') = downPath k (digit dims k s) h ∧ digit dims k t = (digit dims k s + D - 1) % D)) := by
  have hr : route dims conc s node h = some (p, vc, h') := hr
  by_cases hne : s = node / conc
  · -- the router ejects, which is no link
    exfalso
    unfold route at hr
    rw [if_pos hne.symm] at hr
    simp only [Option.some.injEq, Prod.mk.injEq] at hr
    have := outport_lt hl
    omega
  · obtain ⟨k, D, p0, vc0, h0, t0, q0, hk, hdig, hbef, hr0, _, hl0, ht0, _, hc⟩ := route_step hpos hsz hs hd hne h
    rw [hr] at hr0
    simp only [Option.some.injEq, Prod.mk.injEq] at hr0
    obtain ⟨rfl, rfl, rfl⟩ := hr0
    obtain ⟨rfl, rfl⟩ := link_unique hl hl0
    have hkl := (List.getElem?_eq_some_iff.1 hk).1
    have hD : 0 < D := hpos D (List.mem_of_getElem? hk)
    have hx := digit_lt (s := s) hk hD
    have hy := digit_lt (s := node / conc) hk hD
    refine ⟨ht0, k, D, hk, hdig, hbef, ?_, hx, hy, ?_⟩
    · intro j hj hjk
      rcases hc with ⟨_, _, e⟩ | ⟨_, _, e⟩
      · rw [e, digit_setAt hpos hk (Nat.mod_lt _ hD) j hj, if_neg hjk]
      · rw [e, digit_setAt hpos hk (Nat.mod_lt _ hD) j hj, if_neg hjk]
    · rcases hc with ⟨e1, e2, e⟩ | ⟨e1, e2, e⟩
      · exact Or.inl ⟨e1, e2, by rw [e, digit_setAt hpos hk (Nat.mod_lt _ hD) k hkl, if_pos rfl]⟩
      · exact Or.inr ⟨e1, e2, by rw [e, digit_setAt hpos hk (Nat.mod_lt _ hD) k hkl, if_pos rfl]⟩

theorem flight_inv {dims : List Nat} (hpos : ∀ D ∈ dims, 0 < D) (hsz : size dims ≤ 4294967296) {conc node : Nat}
    (hd : node / conc < size dims) {s : Nat} {h : Hdr}
    (hf : InFlight (net dims conc) (router dims conc) {} node s h) :
    s < size dims ∧ HInv dims (node / conc) s h := by
  induction hf with
  | inject hs _ => exact ⟨hs, fun hc => by simp at hc⟩
  | @hop s h p vc h' t q hf hr hl ih =>
    obtain ⟨hs, hinv⟩ := ih
    obtain ⟨ht, k, D, hk, hdig, _, _, hx, hy, hc⟩ := hop_cases hpos hsz hd hs hr hl
    refine ⟨ht, ?_⟩
    have hposF : ∀ {a}, a < D → (shortestPathPositive D a (digit dims k (node / conc)) = false ↔
        ¬ (if a < digit dims k (node / conc) then digit dims k (node / conc) - a ≤ a + D - digit dims k (node / conc)
          else digit dims k (node / conc) + D - a ≤ a - digit dims k (node / conc))) := by
      intro a ha
      rw [← pos_eq ha hy]
      simp
    rcases hc with ⟨hp, e, et⟩ | ⟨hp, e, et⟩
    · have hlt : digit dims k t < D := by rw [et]; exact Nat.mod_lt _ (by omega)
      rw [up_val hx] at et
      unfold upPath at e
      split at e
      · simp only [Prod.mk.injEq] at e
        obtain ⟨_, _, rfl⟩ := e
        intro _ D' hk' hne
        simp only at hk' hne ⊢
        rw [hk] at hk'
        cases hk'
        rw [pos_eq hx hy] at hp
        rw [pos_eq hlt hy]
        left
        split at et <;> split at hp <;> split <;> omega
      · split at e
        · simp only [Prod.mk.injEq] at e
          obtain ⟨_, _, rfl⟩ := e
          intro hc; simp at hc
        · rename_i hlast
          simp only [ne_eq, Decidable.not_not] at hlast
          simp only [Prod.mk.injEq] at e
          obtain ⟨_, _, rfl⟩ := e
          intro hcr D' hk' hne
          simp only at hk' hne hcr ⊢
          rw [hk] at hk'
          cases hk'
          have := hinv hcr D (by rw [← hlast]; exact hk) (by rw [← hlast]; exact hdig)
          rw [← hlast, hp] at this
          simp only [true_and, Bool.true_eq_false, false_and, or_false] at this
          rw [pos_eq hx hy] at hp
          rw [pos_eq hlt hy]
          left
          split at et <;> split at hp <;> split <;> omega
    · have hlt : digit dims k t < D := by rw [et]; exact Nat.mod_lt _ (by omega)
      rw [down_val hx] at et
      unfold downPath at e
      split at e
      · simp only [Prod.mk.injEq] at e
        obtain ⟨_, _, rfl⟩ := e
        intro _ D' hk' hne
        simp only at hk' hne ⊢
        rw [hk] at hk'
        cases hk'
        rw [hposF hx] at hp
        rw [hposF hlt]
        right
        split at et <;> split at hp <;> split <;> omega
      · split at e
        · simp only [Prod.mk.injEq] at e
          obtain ⟨_, _, rfl⟩ := e
          intro hc; simp at hc
        · rename_i hlast
          simp only [ne_eq, Decidable.not_not] at hlast
          simp only [Prod.mk.injEq] at e
          obtain ⟨_, _, rfl⟩ := e
          intro hcr D' hk' hne
          simp only at hk' hne hcr ⊢
          rw [hk] at hk'
          cases hk'
          have := hinv hcr D (by rw [← hlast]; exact hk) (by rw [← hlast]; exact hdig)
          rw [← hlast, hp] at this
          simp only [true_and, Bool.false_eq_true, false_and, false_or] at this
          rw [hposF hx] at hp
          rw [hposF hlt]
          right
          split at et <;> split at hp <;> split <;> omega

theorem rank_up {dims : List Nat} {k D : Nat} (hk : dims[k]? = some D) (s vc : Nat) :
    rank dims (s, 2 * k, vc) = (k, if vc = 0 then digit dims k s else D + (digit dims k s + 1) % D) := by
  unfold rank
  simp only [Nat.mul_div_cancel_left k (show 0 < 2 by omega), Nat.mul_mod_right, if_true,
    List.getD_eq_getElem?_getD, hk, Option.getD_some]

theorem rank_down {dims : List Nat} {k D : Nat} (hk : dims[k]? = some D) (s vc : Nat) :
    rank dims (s, 2 * k + 1, vc) = (k, if vc = 0 then D - 1 - digit dims k s else D + (D - digit dims k s) % D) := by
  have e1 : (2 * k + 1) / 2 = k := by omega
  have e2 : (2 * k + 1) % 2 = 1 := by omega
  unfold rank
  simp only [e1, e2, List.getD_eq_getElem?_getD, hk, Option.getD_some]
  rw [if_neg (by omega)]

/-- C42: packets that the minimal router has in flight cannot wait for each other in a
circle, on any torus: the two virtual channels suffice. -/
theorem C42_torus_deadlock_free (dims : List Nat) (hpos : ∀ D ∈ dims, 0 < D) (hsz : size dims ≤ 4294967296)
    (conc : Nat) :
    DeadlockFree (net dims conc) (router dims conc) {} (size dims * conc) := by
  intro c
  apply acyclic_of_rank (rank dims)
  rintro _ _ ⟨node, s, h, p, vc, h', t, q, p', vc', h'', u, q', hn, hf, hr, hl, hr', hl', rfl, rfl⟩
  have hd : node / conc < size dims := Nat.div_lt_of_lt_mul (by rw [Nat.mul_comm]; exact hn)
  obtain ⟨hs, hinv⟩ := flight_inv hpos hsz hd hf
  obtain ⟨ht, k, D, hk, hdig, hbef, hoth, hx, hy, hc1⟩ := hop_cases hpos hsz hd hs hr hl
  obtain ⟨_, k', D', hk', hdig', hbef', _, hx', _, hc2⟩ := hop_cases hpos hsz hd ht hr' hl'
  have hkl := (List.getElem?_eq_some_iff.1 hk).1
  have hkl' := (List.getElem?_eq_some_iff.1 hk').1
  have hport : (rank dims (s, p, vc)).1 = k := by
    rcases hc1 with ⟨_, e, _⟩ | ⟨_, e, _⟩
    · have := (upPath_port k D (digit dims k s) h).1
      rw [← e] at this
      simp only at this
      rw [this, rank_up hk]
    · have := (downPath_port k (digit dims k s) h).1
      rw [← e] at this
      simp only at this
      rw [this, rank_down hk]
  have hport' : (rank dims (t, p', vc')).1 = k' := by
    rcases hc2 with ⟨_, e, _⟩ | ⟨_, e, _⟩
    · have := (upPath_port k' D' (digit dims k' t) h').1
      rw [← e] at this
      simp only at this
      rw [this, rank_up hk']
    · have := (downPath_port k' (digit dims k' t) h').1
      rw [← e] at this
      simp only at this
      rw [this, rank_down hk']
  have hle : k ≤ k' := by
    apply Decidable.byContradiction
    intro hlt
    exact hdig' (by rw [hoth k' hkl' (by omega), hbef k' (by omega)])
  rw [hport, hport']
  by_cases hkk : k < k'
  · exact Or.inl hkk
  right
  have hkk : k' = k := by omega
  subst hkk
  refine ⟨rfl, ?_⟩
  rw [hk] at hk'
  cases hk'
  rcases hc1 with ⟨hp, e, et⟩ | ⟨hp, e, et⟩
  · rw [up_val hx] at et
    have et1 : (digit dims k' s = D - 1 ∧ digit dims k' t = 0) ∨
        (digit dims k' s ≠ D - 1 ∧ digit dims k' t = digit dims k' s + 1) := by split at et <;> omega
    have hp0 := hp
    rw [pos_eq hx hy] at hp
    have hp2 : shortestPathPositive D (digit dims k' t) (digit dims k' (node / conc)) = true := by
      rw [pos_eq hx' hy]
      split at et <;> split at hp <;> split <;> omega
    rcases hc2 with ⟨hp', e', et'⟩ | ⟨hp', e', et'⟩
    · have ep := (upPath_port k' D (digit dims k' s) h).1
      have ep' := (upPath_port k' D (digit dims k' t) h').1
      rw [← e] at ep
      rw [← e'] at ep'
      simp only at ep ep'
      subst ep ep'
      rw [rank_up hk, rank_up hk, up_val hx, up_val hx']
      simp only
      unfold upPath at e e'
      split at e
      · -- crossing now
        simp only [Prod.mk.injEq] at e
        obtain ⟨_, rfl, rfl⟩ := e
        simp only [ne_eq, not_true_eq_false, if_false, if_true] at e'
        split at e'
        · omega
        · simp only [Prod.mk.injEq] at e'
          obtain ⟨_, rfl, _⟩ := e'
          repeat' split
          all_goals omega
      · -- not crossing: the flag is what it was
        have hlast : h'.lastDim = k' ∧ vc = (if h'.crossed then 1 else 0) ∧
            (h'.crossed = true → digit dims k' s < digit dims k' (node / conc)) := by
          split at e
          · simp only [Prod.mk.injEq] at e
            obtain ⟨_, rfl, rfl⟩ := e
            simp
          · rename_i hlast
            simp only [ne_eq, Decidable.not_not] at hlast
            simp only [Prod.mk.injEq] at e
            obtain ⟨_, rfl, rfl⟩ := e
            refine ⟨rfl, rfl, ?_⟩
            intro hcr
            have := hinv hcr D (by rw [← hlast]; exact hk) (by rw [← hlast]; exact hdig)
            rw [← hlast, hp0] at this
            simpa using this
        obtain ⟨hl1, hl2, hl3⟩ := hlast
        rw [hl1] at e'
        simp only [ne_eq, not_true_eq_false, if_false] at e'
        cases hcr : h'.crossed with
        | true =>
          have hl3 := hl3 hcr
          rw [hcr] at hl2 e'
          simp only [if_true] at hl2 e'
          split at e'
          · omega
          · simp only [Prod.mk.injEq] at e'
            obtain ⟨_, rfl, _⟩ := e'
            repeat' split
            all_goals omega
        | false =>
          rw [hcr] at hl2 e'
          simp only [Bool.false_eq_true, if_false] at hl2 e'
          split at e'
          · simp only [Prod.mk.injEq] at e'
            obtain ⟨_, rfl, _⟩ := e'
            repeat' split
            all_goals omega
          · simp only [Prod.mk.injEq] at e'
            obtain ⟨_, rfl, _⟩ := e'
            repeat' split
            all_goals omega
    · rw [hp2] at hp'; simp at hp'
  · rw [down_val hx] at et
    have et1 : (digit dims k' s = 0 ∧ digit dims k' t = D - 1) ∨
        (digit dims k' s ≠ 0 ∧ digit dims k' t = digit dims k' s - 1) := by split at et <;> omega
    have hp0 := hp
    have hnp := mt (pos_eq hx hy).2 (by simp [hp])
    have hp2 : shortestPathPositive D (digit dims k' t) (digit dims k' (node / conc)) = false := by
      rw [← Bool.not_eq_true, pos_eq hx' hy]
      split at et <;> split at hnp <;> split <;> omega
    rcases hc2 with ⟨hp', e', et'⟩ | ⟨hp', e', et'⟩
    · rw [hp2] at hp'; simp at hp'
    · have ep := (downPath_port k' (digit dims k' s) h).1
      have ep' := (downPath_port k' (digit dims k' t) h').1
      rw [← e] at ep
      rw [← e'] at ep'
      simp only at ep ep'
      subst ep ep'
      rw [rank_down hk, rank_down hk, mod2 (z := D - digit dims k' s) (by omega), mod2 (z := D - digit dims k' t) (by omega)]
      simp only
      unfold downPath at e e'
      split at e
      · simp only [Prod.mk.injEq] at e
        obtain ⟨_, rfl, rfl⟩ := e
        simp only [ne_eq, not_true_eq_false, if_false, if_true] at e'
        split at e'
        · omega
        · simp only [Prod.mk.injEq] at e'
          obtain ⟨_, rfl, _⟩ := e'
          repeat' split
          all_goals omega
      · have hlast : h'.lastDim = k' ∧ vc = (if h'.crossed then 1 else 0) ∧
            (h'.crossed = true → digit dims k' (node / conc) < digit dims k' s) := by
          split at e
          · simp only [Prod.mk.injEq] at e
            obtain ⟨_, rfl, rfl⟩ := e
            simp
          · rename_i hlast
            simp only [ne_eq, Decidable.not_not] at hlast
            simp only [Prod.mk.injEq] at e
            obtain ⟨_, rfl, rfl⟩ := e
            refine ⟨rfl, rfl, ?_⟩
            intro hcr
            have := hinv hcr D (by rw [← hlast]; exact hk) (by rw [← hlast]; exact hdig)
            rw [← hlast, hp0] at this
            simpa using this
        obtain ⟨hl1, hl2, hl3⟩ := hlast
        rw [hl1] at e'
        simp only [ne_eq, not_true_eq_false, if_false] at e'
        cases hcr : h'.crossed with
        | true =>
          have hl3 := hl3 hcr
          rw [hcr] at hl2 e'
          simp only [if_true] at hl2 e'
          split at e'
          · omega
          · simp only [Prod.mk.injEq] at e'
            obtain ⟨_, rfl, _⟩ := e'
            repeat' split
            all_goals omega
        | false =>
          rw [hcr] at hl2 e'
          simp only [Bool.false_eq_true, if_false] at hl2 e'
          split at e'
          · simp only [Prod.mk.injEq] at e'
            obtain ⟨_, rfl, _⟩ := e'
            repeat' split
            all_goals omega
          · simp only [Prod.mk.injEq] at e'
            obtain ⟨_, rfl, _⟩ := e'
            repeat' split
            all_goals omega

/-- On a ring of six, a packet to switch 1 is in flight at 5 after one hop from 4, and the
channel it holds waits for the one after the date line. -/
example : WaitsFor (net [6] 1) (router [6] 1) {} 6 (4, 0, 0) (5, 0, 1) :=
  ⟨1, 4, {}, 0, 0, {}, 5, 1, 0, 1, { crossed := true, lastDim := 0 }, 0, 1, by decide,
    InFlight.inject (by decide) (by decide), by unfold router; decide, by unfold Net.Link; decide,
    by unfold router; decide, by unfold Net.Link; decide, rfl, rfl⟩

/-! ### C49 -/

/-- C49 for the torus. -/
theorem C49_torus (dims : List Nat) (conc : Nat) (hc : 0 < conc) :
    Attached (net dims conc) (size dims * conc) (fun n => n / conc) := by
  apply attached_conc (net dims conc) conc (dims.length * 2) hc (fun s => rfl)
  intro s _
  obtain ⟨h1, h2⟩ := outports_go s dims 0 1
  exact ⟨h1, fun p hp => by have := h2 p hp; omega⟩

example : (net [3, 2] 2).inj 4 = [(8, 4), (9, 5)] := by decide

end SST.Topo.Torus
