import Verif.Apps.ComdCells
set_option autoImplicit false
/-
C159: lists of cells, neighbours, and what the layer around a domain holds after an exchange.
-/
namespace Verif.Apps.Comd

theorem mem_span {b e i : Int} : i ∈ span b e ↔ b ≤ i ∧ i < e := by
  unfold span
  rw [List.mem_map]
  constructor
  · rintro ⟨k, hk, rfl⟩
    rw [List.mem_range] at hk
    omega
  · intro h
    exact ⟨(i - b).toNat, List.mem_range.2 (by omega), by omega⟩

theorem mem_cells {xb xe yb ye zb ze : Int} {c : V3} :
    c ∈ cells xb xe yb ye zb ze ↔ (xb ≤ c.x ∧ c.x < xe) ∧ (yb ≤ c.y ∧ c.y < ye) ∧ (zb ≤ c.z ∧ c.z < ze) := by
  unfold cells
  simp only [List.mem_flatMap, List.mem_map, mem_span]
  constructor
  · rintro ⟨x, hx, y, hy, z, hz, rfl⟩
    exact ⟨hx, hy, hz⟩
  · rintro ⟨hx, hy, hz⟩
    exact ⟨c.x, hx, c.y, hy, c.z, hz, rfl⟩

theorem length_span (b e : Int) : (span b e).length = (e - b).toNat := by simp [span]

theorem length_flatMap_const {α β : Type} (f : α → List β) (n : Nat) (l : List α) (h : ∀ a, a ∈ l → (f a).length = n) : (l.flatMap f).length = l.length * n := by
  induction l with
  | nil => simp
  | cons a l ih =>
    rw [List.flatMap_cons, List.length_append, h a List.mem_cons_self, ih fun b hb => h b (List.mem_cons_of_mem _ hb), List.length_cons, Nat.add_mul]
    omega

theorem length_cells {xb xe yb ye zb ze : Int} (hx : xb ≤ xe) (hy : yb ≤ ye) (hz : zb ≤ ze) :
    ((cells xb xe yb ye zb ze).length : Int) = (xe - xb) * ((ye - yb) * (ze - zb)) := by
  unfold cells
  rw [length_flatMap_const _ ((ye - yb).toNat * (ze - zb).toNat) _ (fun x _ => ?_), length_span, Int.natCast_mul, Int.natCast_mul,
    Int.toNat_of_nonneg (by omega), Int.toNat_of_nonneg (by omega), Int.toNat_of_nonneg (by omega)]
  rw [length_flatMap_const _ (ze - zb).toNat _ (fun y _ => by rw [List.length_map, length_span]), length_span]

/-- The lists have as many cells as the counts say (the assertions of haloExchange.c:353, :499 and
:548 hold), and all of them are cells of the rank or of the layer around it. -/
theorem C159_lists {g : V3} (hg : Pos3 g) (f : Face) :
    ((atomCells g f).length : Int) = atomCount g f ∧ ((sendCells g f).length : Int) = forceCount g f ∧
      ((recvCells g f).length : Int) = forceCount g f ∧
      (∀ c, c ∈ atomCells g f ∨ c ∈ sendCells g f ∨ c ∈ recvCells g f → Cell g c) := by
  obtain ⟨gx, gy, gz⟩ := hg
  refine ⟨?_, ?_, ?_, ?_⟩
  · cases f <;> simp only [atomCells, atomCount] <;> rw [length_cells (by omega) (by omega) (by omega)] <;> grind
  · cases f <;> simp only [sendCells, forceCount] <;> rw [length_cells (by omega) (by omega) (by omega)] <;> grind
  · cases f <;> simp only [recvCells, forceCount] <;> rw [length_cells (by omega) (by omega) (by omega)] <;> grind
  · intro c hc
    unfold Cell
    cases f <;> simp only [atomCells, sendCells, recvCells, mem_cells] at hc <;> omega

/-- The atom lists are the two outermost planes of cells at the face. -/
theorem C159_planes {g c : V3} (hc : Cell g c) : (c ∈ atomCells g .xm ↔ c.x ≤ 0) ∧ (c ∈ atomCells g .xp ↔ g.x - 1 ≤ c.x) ∧
    (c ∈ atomCells g .ym ↔ c.y ≤ 0) ∧ (c ∈ atomCells g .yp ↔ g.y - 1 ≤ c.y) ∧
    (c ∈ atomCells g .zm ↔ c.z ≤ 0) ∧ (c ∈ atomCells g .zp ↔ g.z - 1 ≤ c.z) := by
  unfold Cell at hc
  refine ⟨?_, ?_, ?_, ?_, ?_, ?_⟩ <;> simp only [atomCells, mem_cells] <;> omega

theorem span_shift (b e k : Int) : (span b e).map (fun i => i + k) = span (b + k) (e + k) := by
  unfold span
  rw [List.map_map]
  have : e + k - (b + k) = e - b := by omega
  rw [this]
  apply List.map_congr_left
  intro i _
  simp only [Function.comp]
  omega

/-- A cell moved. -/
def move (k c : V3) : V3 := ⟨c.x + k.x, c.y + k.y, c.z + k.z⟩

theorem cells_shift (xb xe yb ye zb ze : Int) (k : V3) :
    (cells xb xe yb ye zb ze).map (move k) = cells (xb + k.x) (xe + k.x) (yb + k.y) (ye + k.y) (zb + k.z) (ze + k.z) := by
  unfold cells
  rw [← span_shift xb, List.map_flatMap, List.flatMap_map]
  congr 1
  funext x
  rw [← span_shift yb, List.map_flatMap, List.flatMap_map]
  congr 1
  funext y
  rw [← span_shift zb, List.map_map, List.map_map]
  rfl

theorem unload_map {α : Type} (v : V3 → α) (l : List V3) : ∀ (d : V3 → α) (c : V3), unload d l (l.map v) c = if c ∈ l then v c else d c := by
  induction l with
  | nil => intro d c; simp [unload]
  | cons a l ih =>
    intro d c
    rw [List.map_cons, unload, ih]
    by_cases h1 : c ∈ l
    · simp [h1]
    · by_cases h2 : c = a <;> simp [h1, h2]

theorem unload_shift {α : Type} (v d : V3 → α) (l m : List V3) (k k' : V3) (h : l.map (move k) = m) (hk : ∀ c, move k' (move k c) = c) (c : V3) :
    unload d m (l.map v) c = if c ∈ m then v (move k' c) else d c := by
  have : l.map v = m.map (fun c => v (move k' c)) := by
    rw [← h, List.map_map]
    apply List.map_congr_left
    intro a _
    simp only [Function.comp, hk]
  rw [this, unload_map]

theorem move_back (k c : V3) : move ⟨-k.x, -k.y, -k.z⟩ (move k c) = c := by
  unfold move
  cases c
  simp only [V3.mk.injEq]
  omega

/-- A rank from its coordinates. -/
def rankAt (p c : V3) : Int := c.x + p.x * (c.y + p.y * c.z)

/-- Coordinates in the grid of ranks. -/
def Within (p c : V3) : Prop := 0 ≤ c.x ∧ c.x < p.x ∧ 0 ≤ c.y ∧ c.y < p.y ∧ 0 ≤ c.z ∧ c.z < p.z

/-- Coordinates and ranks correspond. -/
theorem C159_coord {p c : V3} (h : Within p c) : coord p (rankAt p c) = c := by
  obtain ⟨x0, x1, y0, y1, z0, z1⟩ := h
  unfold coord rankAt
  obtain ⟨d1, d2⟩ := digit (a := p.x) (s := c.y + p.y * c.z) x0 x1
  obtain ⟨d3, d4⟩ := digit (a := p.y) (s := c.z) y0 y1
  have e1 : c.x + p.x * (c.y + p.y * c.z) = p.x * (c.y + p.y * c.z) + c.x := Int.add_comm _ _
  have e2 : c.y + p.y * c.z = p.y * c.z + c.y := Int.add_comm _ _
  rw [e1, d1, d2, e2, d3, d4]

theorem C159_rank {p : V3} {r : Int} (hp : Pos3 p) (h0 : 0 ≤ r) (h1 : r < p.x * p.y * p.z) :
    Within p (coord p r) ∧ rankAt p (coord p r) = r := by
  obtain ⟨px, py, pz⟩ := hp
  have a0 : 0 ≤ r / p.x := Int.ediv_nonneg h0 (by omega)
  have a1 : r / p.x < p.y * p.z := by
    rw [Int.ediv_lt_iff_lt_mul px, Int.mul_comm, ← Int.mul_assoc]; exact h1
  have e1 := split_mod p.x r
  have e2 := split_mod p.y (r / p.x)
  refine ⟨⟨Int.emod_nonneg _ (by omega), Int.emod_lt_of_pos _ px, Int.emod_nonneg _ (by omega), Int.emod_lt_of_pos _ py,
    Int.ediv_nonneg a0 (by omega), ?_⟩, ?_⟩
  · show r / p.x / p.y < p.z
    rw [Int.ediv_lt_iff_lt_mul py, Int.mul_comm]; exact a1
  · unfold rankAt coord
    dsimp only
    rw [Int.add_comm (r / p.x % p.y), ← e2, Int.add_comm, ← e1]

/-- One step along an axis with wrap-around. -/
def mv (p a d : Int) : Int := (a + d + p) % p

theorem mv_zero {p a : Int} (h0 : 0 ≤ a) (h1 : a < p) : mv p a 0 = a := by
  unfold mv
  rw [Int.add_zero, Int.add_emod_right, Int.emod_eq_of_lt h0 h1]

theorem mv_up {p a : Int} (h0 : 0 ≤ a) (h1 : a < p) : mv p a 1 = if a = p - 1 then 0 else a + 1 := by
  unfold mv
  rw [Int.add_emod_right]
  split
  · rename_i h
    have : a + 1 = p := by omega
    rw [this, Int.emod_self]
  · exact Int.emod_eq_of_lt (by omega) (by omega)

theorem mv_down {p a : Int} (h0 : 0 ≤ a) (h1 : a < p) : mv p a (-1) = if a = 0 then p - 1 else a - 1 := by
  unfold mv
  split
  · rename_i h
    subst h
    rw [Int.emod_eq_of_lt (by omega) (by omega)]
    omega
  · rw [Int.add_emod_right, Int.emod_eq_of_lt (by omega) (by omega)]
    omega

theorem mv_in {p a d : Int} (h : 0 < p) : 0 ≤ mv p a d ∧ mv p a d < p :=
  ⟨Int.emod_nonneg _ (by omega), Int.emod_lt_of_pos _ h⟩

theorem processorNum_at {p c d : V3} (h : Within p c) : processorNum p (rankAt p c) d = rankAt p ⟨mv p.x c.x d.x, mv p.y c.y d.y, mv p.z c.z d.z⟩ := by
  unfold processorNum
  rw [C159_coord h]
  rfl

/-- The neighbours in terms of coordinates. -/
theorem nbr_at {p c : V3} (h : Within p c) (f : Face) : nbrRank p (rankAt p c) f = rankAt p (match f with
    | .xm => ⟨mv p.x c.x (-1), c.y, c.z⟩
    | .xp => ⟨mv p.x c.x 1, c.y, c.z⟩
    | .ym => ⟨c.x, mv p.y c.y (-1), c.z⟩
    | .yp => ⟨c.x, mv p.y c.y 1, c.z⟩
    | .zm => ⟨c.x, c.y, mv p.z c.z (-1)⟩
    | .zp => ⟨c.x, c.y, mv p.z c.z 1⟩) := by
  have hh := h
  obtain ⟨x0, x1, y0, y1, z0, z1⟩ := h
  cases f <;> simp only [nbrRank] <;> rw [processorNum_at hh] <;> simp only [mv_zero x0 x1, mv_zero y0 y1, mv_zero z0 z1]

/-- Where a cell index along an axis lies: the coordinate of the rank and the index there. -/
def home (p n a x : Int) : Int × Int := if x = -1 then (mv p a (-1), n - 1) else if x = n then (mv p a 1, 0) else (a, x)

theorem home_in {p n a x : Int} (hn : 0 < n) (a0 : 0 ≤ a) (a1 : a < p) (x0 : -1 ≤ x) (x1 : x ≤ n) :
    (0 ≤ (home p n a x).1 ∧ (home p n a x).1 < p) ∧ 0 ≤ (home p n a x).2 ∧ (home p n a x).2 < n := by
  unfold home
  split
  · exact ⟨mv_in (by omega), by dsimp only; omega, by dsimp only; omega⟩
  · split
    · exact ⟨mv_in (by omega), by dsimp only; omega, by dsimp only; omega⟩
    · exact ⟨⟨a0, a1⟩, by dsimp only; omega, by dsimp only; omega⟩

theorem step_x {α : Type} {p g c e : V3} (d : Int → V3 → α) (hc : Within p c) (hg : Pos3 g) (x0 : -1 ≤ e.x) (x1 : e.x ≤ g.x)
    (y0 : 0 ≤ e.y) (y1 : e.y < g.y) (z0 : 0 ≤ e.z) (z1 : e.z < g.z) :
    exchangeData p g d .x (rankAt p c) e = d (rankAt p ⟨(home p.x g.x c.x e.x).1, c.y, c.z⟩) ⟨(home p.x g.x c.x e.x).2, e.y, e.z⟩ := by
  obtain ⟨gx, gy, gz⟩ := hg
  unfold exchangeData load
  dsimp only [Axis.faceM, Axis.faceP]
  rw [unload_shift _ _ (sendCells g .xm) (recvCells g .xp) ⟨g.x, 0, 0⟩ _ (by simp only [sendCells, recvCells, cells_shift]; congr 1 <;> omega) (move_back _),
    unload_shift _ _ (sendCells g .xp) (recvCells g .xm) ⟨-g.x, 0, 0⟩ _ (by simp only [sendCells, recvCells, cells_shift]; congr 1 <;> omega) (move_back _)]
  simp only [nbr_at hc, recvCells, mem_cells, move, home]
  by_cases h1 : e.x = -1
  · rw [if_neg (by omega), if_pos (by omega), if_pos h1]
    dsimp only
    congr 2 <;> omega
  · by_cases h2 : e.x = g.x
    · rw [if_pos (by omega), if_neg h1, if_pos h2]
      dsimp only
      congr 2 <;> omega
    · rw [if_neg (by omega), if_neg (by omega), if_neg h1, if_neg h2]

theorem step_y {α : Type} {p g c e : V3} (d : Int → V3 → α) (hc : Within p c) (hg : Pos3 g) (x0 : -1 ≤ e.x) (x1 : e.x ≤ g.x)
    (y0 : -1 ≤ e.y) (y1 : e.y ≤ g.y) (z0 : 0 ≤ e.z) (z1 : e.z < g.z) :
    exchangeData p g d .y (rankAt p c) e = d (rankAt p ⟨c.x, (home p.y g.y c.y e.y).1, c.z⟩) ⟨e.x, (home p.y g.y c.y e.y).2, e.z⟩ := by
  obtain ⟨gx, gy, gz⟩ := hg
  unfold exchangeData load
  dsimp only [Axis.faceM, Axis.faceP]
  rw [unload_shift _ _ (sendCells g .ym) (recvCells g .yp) ⟨0, g.y, 0⟩ _ (by simp only [sendCells, recvCells, cells_shift]; congr 1 <;> omega) (move_back _),
    unload_shift _ _ (sendCells g .yp) (recvCells g .ym) ⟨0, -g.y, 0⟩ _ (by simp only [sendCells, recvCells, cells_shift]; congr 1 <;> omega) (move_back _)]
  simp only [nbr_at hc, recvCells, mem_cells, move, home]
  by_cases h1 : e.y = -1
  · rw [if_neg (by omega), if_pos (by omega), if_pos h1]
    dsimp only
    congr 2 <;> omega
  · by_cases h2 : e.y = g.y
    · rw [if_pos (by omega), if_neg h1, if_pos h2]
      dsimp only
      congr 2 <;> omega
    · rw [if_neg (by omega), if_neg (by omega), if_neg h1, if_neg h2]

theorem step_z {α : Type} {p g c e : V3} (d : Int → V3 → α) (hc : Within p c) (hg : Pos3 g) (x0 : -1 ≤ e.x) (x1 : e.x ≤ g.x)
    (y0 : -1 ≤ e.y) (y1 : e.y ≤ g.y) (z0 : -1 ≤ e.z) (z1 : e.z ≤ g.z) :
    exchangeData p g d .z (rankAt p c) e = d (rankAt p ⟨c.x, c.y, (home p.z g.z c.z e.z).1⟩) ⟨e.x, e.y, (home p.z g.z c.z e.z).2⟩ := by
  obtain ⟨gx, gy, gz⟩ := hg
  unfold exchangeData load
  dsimp only [Axis.faceM, Axis.faceP]
  rw [unload_shift _ _ (sendCells g .zm) (recvCells g .zp) ⟨0, 0, g.z⟩ _ (by simp only [sendCells, recvCells, cells_shift]; congr 1 <;> omega) (move_back _),
    unload_shift _ _ (sendCells g .zp) (recvCells g .zm) ⟨0, 0, -g.z⟩ _ (by simp only [sendCells, recvCells, cells_shift]; congr 1 <;> omega) (move_back _)]
  simp only [nbr_at hc, recvCells, mem_cells, move, home]
  by_cases h1 : e.z = -1
  · rw [if_neg (by omega), if_pos (by omega), if_pos h1]
    dsimp only
    congr 2 <;> omega
  · by_cases h2 : e.z = g.z
    · rw [if_pos (by omega), if_neg h1, if_pos h2]
      dsimp only
      congr 2 <;> omega
    · rw [if_neg (by omega), if_neg (by omega), if_neg h1, if_neg h2]

/-- The index of a cell along an axis of the whole periodic domain: `a` is the coordinate of the rank,
`x` the index of the cell there, `n` the number of cells of a rank and `p` the number of ranks. -/
def globalIndex (p n a x : Int) : Int := (a * n + x) % (p * n)

theorem digit' {n k q : Int} (q0 : 0 ≤ q) (q1 : q < n) : (k * n + q) / n = k ∧ (k * n + q) % n = q := by
  rw [Int.mul_comm]; exact digit q0 q1

theorem home_global {p n a x : Int} (hn : 0 < n) (a0 : 0 ≤ a) (a1 : a < p) (x0 : -1 ≤ x) (x1 : x ≤ n) :
    home p n a x = (globalIndex p n a x / n, globalIndex p n a x % n) := by
  have inr : ∀ k q, 0 ≤ k → k < p → 0 ≤ q → q < n → (k * n + q) % (p * n) = k * n + q := by
    intro k q k0 k1 q0 q1
    have h := below (a := n) (s := k) (q := q) (n := p) q0 q1 k0 k1
    rw [Int.mul_comm n, Int.mul_comm n] at h
    exact Int.emod_eq_of_lt h.1 h.2
  suffices h : ∃ k q, 0 ≤ q ∧ q < n ∧ home p n a x = (k, q) ∧ globalIndex p n a x = k * n + q by
    obtain ⟨k, q, q0, q1, h1, h2⟩ := h
    rw [h1, h2, (digit' q0 q1).1, (digit' q0 q1).2]
  unfold home globalIndex
  by_cases h1 : x = -1
  · rw [if_pos h1, mv_down a0 a1]
    by_cases ha : a = 0
    · refine ⟨p - 1, n - 1, by omega, by omega, by rw [if_pos ha], ?_⟩
      rw [← inr (p - 1) (n - 1) (by omega) (by omega) (by omega) (by omega), h1, ha]
      have e : (p - 1) * n + (n - 1) = 0 * n + -1 + p * n := by rw [Int.sub_mul]; omega
      rw [e, Int.add_emod_right]
    · refine ⟨a - 1, n - 1, by omega, by omega, by rw [if_neg ha], ?_⟩
      rw [← inr (a - 1) (n - 1) (by omega) (by omega) (by omega) (by omega), h1]
      congr 1
      rw [Int.sub_mul]
      omega
  · rw [if_neg h1]
    by_cases h2 : x = n
    · rw [if_pos h2, mv_up a0 a1]
      by_cases ha : a = p - 1
      · refine ⟨0, 0, by omega, by omega, by rw [if_pos ha], ?_⟩
        have e : a * n + x = p * n := by rw [ha, h2, Int.sub_mul]; omega
        rw [e, Int.emod_self]
        omega
      · refine ⟨a + 1, 0, by omega, by omega, by rw [if_neg ha], ?_⟩
        rw [← inr (a + 1) 0 (by omega) (by omega) (by omega) (by omega), h2]
        congr 1
        rw [Int.add_mul]
        omega
    · rw [if_neg h2]
      exact ⟨a, x, by omega, by omega, rfl, inr a x a0 a1 (by omega) (by omega)⟩

/-- **The layer.** After the exchange, each cell of a rank and of the layer around it, faces, edges and
corners, holds what the owner of the cell had in it: the rank and the cell at the same place of the
periodic domain. -/
theorem C159_layer {α : Type} {p g e : V3} {r : Int} (hp : Pos3 p) (hg : Pos3 g) (d : Int → V3 → α) (h0 : 0 ≤ r)
    (h1 : r < p.x * p.y * p.z) (he : Cell g e) :
    haloExchange p g d r e =
      d (rankAt p ⟨globalIndex p.x g.x (coord p r).x e.x / g.x, globalIndex p.y g.y (coord p r).y e.y / g.y, globalIndex p.z g.z (coord p r).z e.z / g.z⟩)
        ⟨globalIndex p.x g.x (coord p r).x e.x % g.x, globalIndex p.y g.y (coord p r).y e.y % g.y, globalIndex p.z g.z (coord p r).z e.z % g.z⟩ := by
  obtain ⟨hw, hr⟩ := C159_rank hp h0 h1
  generalize hc : coord p r = c at *
  subst hr
  obtain ⟨x0, x1, y0, y1, z0, z1⟩ := he
  have hg' := hg
  obtain ⟨gx, gy, gz⟩ := hg'
  have hw' := hw
  obtain ⟨a0, a1, b0, b1, c0, c1⟩ := hw'
  have kx := home_in gx a0 a1 x0 x1
  have ky := home_in gy b0 b1 y0 y1
  have kz := home_in gz c0 c1 z0 z1
  unfold haloExchange
  rw [step_z _ hw hg x0 x1 y0 y1 z0 z1,
    step_y (c := ⟨c.x, c.y, (home p.z g.z c.z e.z).1⟩) (e := ⟨e.x, e.y, (home p.z g.z c.z e.z).2⟩) _ ⟨a0, a1, b0, b1, kz.1.1, kz.1.2⟩ hg x0 x1 y0 y1 kz.2.1 kz.2.2,
    step_x (c := ⟨c.x, (home p.y g.y c.y e.y).1, (home p.z g.z c.z e.z).1⟩) (e := ⟨e.x, (home p.y g.y c.y e.y).2, (home p.z g.z c.z e.z).2⟩) _ ⟨a0, a1, ky.1.1, ky.1.2, kz.1.1, kz.1.2⟩ hg x0 x1 ky.2.1 ky.2.2 kz.2.1 kz.2.2,
    home_global gx a0 a1 x0 x1, home_global gy b0 b1 y0 y1, home_global gz c0 c1 z0 z1]

/-- What a rank sends through one face is what its neighbour there takes through the opposite one. -/
theorem C159_neighbours {p : V3} {r : Int} (hp : Pos3 p) (h0 : 0 ≤ r) (h1 : r < p.x * p.y * p.z) (a : Axis) :
    nbrRank p (nbrRank p r a.faceM) a.faceP = r ∧ nbrRank p (nbrRank p r a.faceP) a.faceM = r ∧
      ∀ f, 0 ≤ nbrRank p r f ∧ nbrRank p r f < p.x * p.y * p.z := by
  obtain ⟨hw, hr⟩ := C159_rank hp h0 h1
  generalize coord p r = c at *
  subst hr
  obtain ⟨px, py, pz⟩ := hp
  have hw' := hw
  obtain ⟨a0, a1, b0, b1, c0, c1⟩ := hw'
  have ud : ∀ q k : Int, 0 ≤ k → k < q → mv q (mv q k (-1)) 1 = k ∧ mv q (mv q k 1) (-1) = k := by
    intro q k k0 k1
    have i1 := mv_in (p := q) (a := k) (d := -1) (by omega)
    have i2 := mv_in (p := q) (a := k) (d := 1) (by omega)
    rw [mv_up i1.1 i1.2, mv_down i2.1 i2.2, mv_down k0 k1, mv_up k0 k1]
    constructor <;> (repeat' split) <;> omega
  have rng : ∀ e, Within p e → 0 ≤ rankAt p e ∧ rankAt p e < p.x * p.y * p.z := by
    intro e he
    obtain ⟨x0, x1, y0, y1, z0, z1⟩ := he
    have b1 := below (a := p.y) (s := e.z) (q := e.y) (n := p.z) y0 y1 z0 z1
    have b2 := below (a := p.x) (s := p.y * e.z + e.y) (q := e.x) (n := p.y * p.z) x0 x1 b1.1 b1.2
    unfold rankAt
    rw [Int.add_comm e.y, Int.add_comm e.x, Int.mul_assoc p.x]
    exact b2
  have mx := fun d => mv_in (p := p.x) (a := c.x) (d := d) px
  have my := fun d => mv_in (p := p.y) (a := c.y) (d := d) py
  have mz := fun d => mv_in (p := p.z) (a := c.z) (d := d) pz
  refine ⟨?_, ?_, ?_⟩
  · cases a <;> simp only [Axis.faceM, Axis.faceP] <;> rw [nbr_at hw, nbr_at (by first | exact ⟨(mx _).1, (mx _).2, b0, b1, c0, c1⟩ | exact ⟨a0, a1, (my _).1, (my _).2, c0, c1⟩ | exact ⟨a0, a1, b0, b1, (mz _).1, (mz _).2⟩)] <;>
      simp only [(ud _ _ a0 a1).1, (ud _ _ b0 b1).1, (ud _ _ c0 c1).1]
  · cases a <;> simp only [Axis.faceM, Axis.faceP] <;> rw [nbr_at hw, nbr_at (by first | exact ⟨(mx _).1, (mx _).2, b0, b1, c0, c1⟩ | exact ⟨a0, a1, (my _).1, (my _).2, c0, c1⟩ | exact ⟨a0, a1, b0, b1, (mz _).1, (mz _).2⟩)] <;>
      simp only [(ud _ _ a0 a1).2, (ud _ _ b0 b1).2, (ud _ _ c0 c1).2]
  · intro f
    rw [nbr_at hw]
    apply rng
    cases f <;> first | exact ⟨(mx _).1, (mx _).2, b0, b1, c0, c1⟩ | exact ⟨a0, a1, (my _).1, (my _).2, c0, c1⟩ | exact ⟨a0, a1, b0, b1, (mz _).1, (mz _).2⟩

/-- Eight ranks with 3 by 3 by 3 cells: the corner below rank 0 is the last cell of rank 7. -/
example : haloExchange ⟨2, 2, 2⟩ ⟨3, 3, 3⟩ (fun r c => (r, c)) 0 ⟨-1, -1, -1⟩ = (7, ⟨2, 2, 2⟩) ∧
    haloExchange ⟨2, 2, 2⟩ ⟨3, 3, 3⟩ (fun r c => (r, c)) 5 ⟨3, 1, -1⟩ = (0, ⟨0, 1, 2⟩) := by decide +kernel

end Verif.Apps.Comd
