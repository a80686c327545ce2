import Verif.Apps.Pic
/-
C152: the particle-in-cell skeleton keeps its particles.
-/
set_option autoImplicit false
namespace Verif.Apps.Pic

/-! ### Partners -/

/-- A position inside a grid. -/
def Inside (n c : Box) : Prop := c.1 < n.1 ∧ c.2.1 < n.2.1 ∧ c.2.2 < n.2.2

theorem position_patchId {n c : Box} (h : Inside n c) : position n (patchId n c) = c := by
  obtain ⟨nx, ny, nz⟩ := n
  obtain ⟨x, y, z⟩ := c
  obtain ⟨hx, hy, hz⟩ := h
  simp only at hx hy hz
  have hn : 0 < nx := by omega
  have h1 : z * nx * ny + y * nx + x = (y * nx + x) + (nx * ny) * z := by
    rw [Nat.mul_comm (nx * ny) z, ← Nat.mul_assoc]; omega
  have h2 : y * nx + x < nx * ny := by
    have : (y + 1) * nx ≤ ny * nx := Nat.mul_le_mul_right _ hy
    rw [Nat.add_mul, Nat.one_mul, Nat.mul_comm ny nx] at this
    omega
  have h3 : y * nx + x = x + nx * y := by rw [Nat.mul_comm]; omega
  simp only [position, patchId, h1]
  rw [Nat.add_mul_mod_self_left, Nat.mod_eq_of_lt h2, Nat.add_mul_div_left _ _ (by omega), Nat.div_eq_of_lt h2, h3,
    Nat.add_mul_mod_self_left, Nat.mod_eq_of_lt hx, Nat.add_mul_div_left _ _ hn, Nat.div_eq_of_lt hx]
  simp

theorem patchId_lt {n c : Box} (h : Inside n c) : patchId n c < n.1 * n.2.1 * n.2.2 := by
  obtain ⟨nx, ny, nz⟩ := n
  obtain ⟨x, y, z⟩ := c
  obtain ⟨hx, hy, hz⟩ := h
  simp only at hx hy hz
  simp only [patchId]
  have h1 : (y + 1) * nx ≤ ny * nx := Nat.mul_le_mul_right _ hy
  have h2 : (z + 1) * (nx * ny) ≤ nz * (nx * ny) := Nat.mul_le_mul_right _ hz
  rw [Nat.add_mul, Nat.one_mul, Nat.mul_comm ny nx] at h1
  rw [Nat.add_mul, Nat.one_mul, Nat.mul_comm nz, ← Nat.mul_assoc] at h2
  omega

theorem position_inside {n : Box} {id : Nat} (h : id < n.1 * n.2.1 * n.2.2) : Inside n (position n id) := by
  obtain ⟨nx, ny, nz⟩ := n
  simp only at h
  have hp : 0 < nx * ny := by
    rcases Nat.eq_zero_or_pos (nx * ny) with h0 | h0
    · rw [h0] at h; omega
    · exact h0
  have hx : 0 < nx := Nat.pos_of_mul_pos_right hp
  exact ⟨Nat.mod_lt _ hx, Nat.div_lt_of_lt_mul (Nat.mod_lt _ hp), Nat.div_lt_of_lt_mul h⟩

theorem patchId_position {n : Box} (id : Nat) : patchId n (position n id) = id := by
  obtain ⟨nx, ny, nz⟩ := n
  simp only [position, patchId]
  have h1 := Nat.div_add_mod (id % (nx * ny)) nx
  have h2 := Nat.div_add_mod id (nx * ny)
  rw [Nat.mul_comm] at h1 h2
  rw [← Nat.mul_assoc] at h2
  omega

theorem plus_lt {n x : Nat} (h : x < n) : plus n x < n := Nat.mod_lt _ (by omega)
theorem minus_lt {n x : Nat} (h : x < n) : minus n x < n := Nat.mod_lt _ (by omega)

theorem plus_eq {n x : Nat} (h : x < n) : plus n x = if x + 1 = n then 0 else x + 1 := by
  unfold plus
  split
  · next e => rw [e, Nat.mod_self]
  · exact Nat.mod_eq_of_lt (by omega)

theorem minus_eq {n x : Nat} (h : x < n) : minus n x = if x = 0 then n - 1 else x - 1 := by
  unfold minus
  split
  · next e => rw [e, Nat.zero_add, Nat.mod_eq_of_lt (by omega)]
  · rw [show x + n - 1 = (x - 1) + n by omega, Nat.add_mod_right]; exact Nat.mod_eq_of_lt (by omega)

theorem plus_minus {n x : Nat} (h : x < n) : plus n (minus n x) = x := by
  rw [plus_eq (minus_lt h), minus_eq h]; split <;> split <;> omega

theorem minus_plus {n x : Nat} (h : x < n) : minus n (plus n x) = x := by
  rw [minus_eq (plus_lt h), plus_eq h]; split <;> split <;> omega

theorem fin6 (f : Fin 6) : f = 0 ∨ f = 1 ∨ f = 2 ∨ f = 3 ∨ f = 4 ∨ f = 5 := by
  revert f; decide

theorem out_in {n : Box} {p : Nat} (h : p < n.1 * n.2.1 * n.2.2) (f : Fin 6) :
    outgoing n p f < n.1 * n.2.1 * n.2.2 ∧ incoming n p f < n.1 * n.2.1 * n.2.2 ∧
      incoming n (outgoing n p f) f = p ∧ outgoing n (incoming n p f) f = p := by
  have hi := position_inside h
  obtain ⟨hx, hy, hz⟩ := hi
  have e : ∀ c, Inside n c → position n (patchId n c) = c := fun c => position_patchId
  rcases fin6 f with rfl | rfl | rfl | rfl | rfl | rfl <;> simp only [outgoing, incoming]
  all_goals
    refine ⟨patchId_lt ?_, patchId_lt ?_, ?_, ?_⟩
    · refine ⟨?_, ?_, ?_⟩ <;> simp only [plus_lt, minus_lt, hx, hy, hz]
    · refine ⟨?_, ?_, ?_⟩ <;> simp only [plus_lt, minus_lt, hx, hy, hz]
    · rw [e _ (by refine ⟨?_, ?_, ?_⟩ <;> simp only [plus_lt, minus_lt, hx, hy, hz])]
      simp only [plus_minus, minus_plus, hx, hy, hz]
      exact patchId_position p
    · rw [e _ (by refine ⟨?_, ?_, ?_⟩ <;> simp only [plus_lt, minus_lt, hx, hy, hz])]
      simp only [plus_minus, minus_plus, hx, hy, hz]
      exact patchId_position p

/-- C152: on all grids a patch sends by a face to a patch which expects it at that face, and the other way round. -/
theorem C152_partners {n : Box} {p q : Nat} (hp : p < n.1 * n.2.1 * n.2.2) (hq : q < n.1 * n.2.1 * n.2.2) (f : Fin 6) :
    outgoing n p f = q ↔ incoming n q f = p := by
  constructor
  · intro h; rw [← h]; exact (out_in hp f).2.2.1
  · intro h; rw [← h]; exact (out_in hq f).2.2.2

example : outgoing (3, 2, 4) 0 0 = 2 ∧ incoming (3, 2, 4) 2 0 = 0 ∧ outgoing (3, 2, 4) 23 5 = 5 := by decide

/-- C152: a face leads to the patch one further in its dimension, around the grid. -/
theorem C152_neighbours {n : Box} {p : Nat} (hp : p < n.1 * n.2.1 * n.2.2) (f : Fin 6) :
    let c := position n p
    let d := position n (outgoing n p f)
    (f ∉ [0, 1] → d.1 = c.1) ∧ (f ∉ [2, 3] → d.2.1 = c.2.1) ∧ (f ∉ [4, 5] → d.2.2 = c.2.2) ∧
      (f = 0 → c.1 = (d.1 + 1) % n.1) ∧ (f = 1 → d.1 = (c.1 + 1) % n.1) ∧
      (f = 2 → c.2.1 = (d.2.1 + 1) % n.2.1) ∧ (f = 3 → d.2.1 = (c.2.1 + 1) % n.2.1) ∧
      (f = 4 → c.2.2 = (d.2.2 + 1) % n.2.2) ∧ (f = 5 → d.2.2 = (c.2.2 + 1) % n.2.2) := by
  obtain ⟨hx, hy, hz⟩ := position_inside hp
  have e : ∀ c, Inside n c → position n (patchId n c) = c := fun c => position_patchId
  have px : (minus n.1 (position n p).1 + 1) % n.1 = (position n p).1 := plus_minus hx
  have py : (minus n.2.1 (position n p).2.1 + 1) % n.2.1 = (position n p).2.1 := plus_minus hy
  have pz : (minus n.2.2 (position n p).2.2 + 1) % n.2.2 = (position n p).2.2 := plus_minus hz
  rcases fin6 f with rfl | rfl | rfl | rfl | rfl | rfl <;> simp only [outgoing]
  all_goals
    rw [e _ (by refine ⟨?_, ?_, ?_⟩ <;> simp only [plus_lt, minus_lt, hx, hy, hz])]
    simp [plus, px, py, pz]

/-! ### Messages -/

/-- C152: also where both faces of a dimension lead to one patch, the size sent for a face is received for that face:
sends and receives between two ranks are posted in one order. -/
theorem C152_sizes {n : Box} {p q : Nat} (hp : p < n.1 * n.2.1 * n.2.2) (hq : q < n.1 * n.2.1 * n.2.2) :
    sizeSends n p q = sizeRecvs n q p := by
  unfold sizeSends sizeRecvs
  congr 1
  funext f
  exact decide_eq_decide.mpr (C152_partners hp hq f)

example : sizeSends (2, 3, 1) 0 1 = [0, 1] ∧ sizeSends (2, 3, 1) 0 0 = [4, 5] := by decide

/-- C152: particles sent by a face are received for that face if the sizes from one rank are reported in the order in
which they were sent. -/
theorem C152_parts_partial {n : Box} {p q : Nat} (hp : p < n.1 * n.2.1 * n.2.2) (hq : q < n.1 * n.2.1 * n.2.2)
    (size : Nat → Fin 6 → Nat) (order : List (Fin 6))
    (ho : order.filter (fun f => incoming n q f = p) = faces.filter (fun f => incoming n q f = p)) :
    partSends n size p q = partRecvs n size order q p := by
  have h : partRecvs n size order q p = (order.filter (fun f => incoming n q f = p)).filter (fun f => size p f > 0) := by
    unfold partRecvs
    rw [List.filter_filter]
    apply List.filter_congr
    intro f _
    by_cases h : incoming n q f = p
    · simp [h]
    · simp [h]
  rw [h, ho, List.filter_filter]
  unfold partSends
  apply List.filter_congr
  intro f _
  have := C152_partners hp hq f
  by_cases h : incoming n q f = p
  · simp [h, this.mpr h]
  · have h2 : ¬ outgoing n p f = q := fun h' => h (this.mp h')
    simp [h, h2]

example : let order : List (Fin 6) := [2, 0, 1, 3, 5, 4]
    order.filter (fun f => incoming (2, 1, 1) 1 f = 0) = faces.filter (fun f => incoming (2, 1, 1) 1 f = 0) ∧
      partSends (2, 1, 1) (fun _ f => f.val) 0 1 = [1] := by decide

/-- C152, refuted: if the sizes of two faces of one rank are reported in the other order, the receives of the particles
are posted in that order, and the particles of one face are received for the other, with another number. -/
theorem C152_parts_refuted : ∃ (n : Box) (size : Nat → Fin 6 → Nat) (order : List (Fin 6)) (p q : Nat),
    order.Perm faces ∧ p < n.1 * n.2.1 * n.2.2 ∧ q < n.1 * n.2.1 * n.2.2 ∧
      ∃ x ∈ (partSends n size p q).zip (partRecvs n size order q p), size p x.1 > size p x.2 :=
  ⟨(2, 1, 1), fun _ f => if f = 0 then 5 else 3, [1, 0, 2, 3, 4, 5], 0, 1, by decide, by decide, by decide, (0, 1), by decide,
    by decide⟩

theorem outgoing_inj {n : Box} {p : Nat} (hp : p < n.1 * n.2.1 * n.2.2) (hx3 : 3 ≤ n.1) (hy3 : 3 ≤ n.2.1) (hz3 : 3 ≤ n.2.2)
    {f g : Fin 6} (h : incoming n p f = incoming n p g) : f = g := by
  obtain ⟨hx, hy, hz⟩ := position_inside hp
  have e : ∀ c, Inside n c → position n (patchId n c) = c := fun c => position_patchId
  have h' := congrArg (position n) h
  have ne1 : ∀ {k x : Nat}, 3 ≤ k → x < k → plus k x ≠ x := fun h1 h2 => by rw [plus_eq h2]; split <;> omega
  have ne2 : ∀ {k x : Nat}, 3 ≤ k → x < k → minus k x ≠ x := fun h1 h2 => by rw [minus_eq h2]; split <;> omega
  have ne3 : ∀ {k x : Nat}, 3 ≤ k → x < k → plus k x ≠ minus k x := fun h1 h2 => by
    rw [minus_eq h2, plus_eq h2]; split <;> split <;> omega
  have a1 := ne1 hx3 hx
  have a2 := ne2 hx3 hx
  have a3 := ne3 hx3 hx
  have b1 := ne1 hy3 hy
  have b2 := ne2 hy3 hy
  have b3 := ne3 hy3 hy
  have c1 := ne1 hz3 hz
  have c2 := ne2 hz3 hz
  have c3 := ne3 hz3 hz
  clear h
  rcases fin6 f with rfl | rfl | rfl | rfl | rfl | rfl <;> rcases fin6 g with rfl | rfl | rfl | rfl | rfl | rfl <;>
    first
      | rfl
      | (exfalso
         simp only [incoming] at h'
         rw [e _ (by refine ⟨?_, ?_, ?_⟩ <;> simp only [plus_lt, minus_lt, hx, hy, hz]),
           e _ (by refine ⟨?_, ?_, ?_⟩ <;> simp only [plus_lt, minus_lt, hx, hy, hz])] at h'
         simp only [Prod.mk.injEq] at h'
         obtain ⟨h1, h2, h3⟩ := h'
         first
           | exact a1 h1 | exact a2 h1 | exact a3 h1 | exact b1 h2 | exact b2 h2 | exact b3 h2 | exact c1 h3 | exact c2 h3
           | exact c3 h3 | exact a1 h1.symm | exact a2 h1.symm | exact a3 h1.symm | exact b1 h2.symm | exact b2 h2.symm
           | exact b3 h2.symm | exact c1 h3.symm | exact c2 h3.symm | exact c3 h3.symm)

/-- C152: with three patches or more in each dimension the order of reports does not matter. -/
theorem C152_any_order {n : Box} {p q : Nat} (hp : p < n.1 * n.2.1 * n.2.2) (hq : q < n.1 * n.2.1 * n.2.2)
    (hx : 3 ≤ n.1) (hy : 3 ≤ n.2.1) (hz : 3 ≤ n.2.2) (size : Nat → Fin 6 → Nat) (order : List (Fin 6))
    (ho : order.Perm faces) : partSends n size p q = partRecvs n size order q p := by
  apply C152_parts_partial hp hq
  have hf := ho.filter (fun f => incoming n q f = p)
  have hone : ∀ l : List (Fin 6), l.Nodup → (∀ f ∈ l, incoming n q f = p) → l.length ≤ 1 := by
    intro l hn hl
    match l, hn, hl with
    | [], _, _ => simp
    | [_], _, _ => simp
    | a :: b :: r, hn, hl =>
      have := outgoing_inj hq hx hy hz ((hl a (by simp)).trans (hl b (by simp)).symm)
      simp [this] at hn
  have hl := hone (faces.filter (fun f => incoming n q f = p)) ((by decide : faces.Nodup).filter _)
    (fun f hf => by simpa using (List.mem_filter.mp hf).2)
  generalize h1 : faces.filter (fun f => incoming n q f = p) = l at hf hl
  match l, hl with
  | [], _ => exact hf.eq_nil
  | [a], _ => exact hf.eq_singleton

example : ([5, 0, 3, 1, 2, 4] : List (Fin 6)).Perm faces ∧ partSends (3, 3, 3) (fun _ _ => 2) 0 2 = [0] ∧
    partRecvs (3, 3, 3) (fun _ _ => 2) [5, 0, 3, 1, 2, 4] 2 0 = [0] := by decide

end Verif.Apps.Pic
