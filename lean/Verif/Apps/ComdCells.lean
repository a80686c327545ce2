import Verif.Apps.Comd
import Verif.Apps.HaloProps
set_option autoImplicit false
/-
C159: link cells and their numbers.
-/
namespace Verif.Apps.Comd

/-- A cell of the domain of a rank or of the layer around it. -/
def Cell (g c : V3) : Prop := -1 ≤ c.x ∧ c.x ≤ g.x ∧ -1 ≤ c.y ∧ c.y ≤ g.y ∧ -1 ≤ c.z ∧ c.z ≤ g.z

/-- A cell of the domain of a rank. -/
def Local (g c : V3) : Prop := 0 ≤ c.x ∧ c.x < g.x ∧ 0 ≤ c.y ∧ c.y < g.y ∧ 0 ≤ c.z ∧ c.z < g.z

/-- There are cells along each axis. -/
def Pos3 (g : V3) : Prop := 0 < g.x ∧ 0 < g.y ∧ 0 < g.z

theorem digit {a s q : Int} (q0 : 0 ≤ q) (q1 : q < a) : (a * s + q) / a = s ∧ (a * s + q) % a = q := by
  constructor
  · rw [Int.add_comm, Int.add_mul_ediv_left _ _ (by omega), Int.ediv_eq_zero_of_lt q0 q1]; omega
  · rw [Int.add_comm, Int.add_mul_emod_self_left, Int.emod_eq_of_lt q0 q1]

theorem below {a s q n : Int} (q0 : 0 ≤ q) (q1 : q < a) (s0 : 0 ≤ s) (s1 : s < n) : 0 ≤ a * s + q ∧ a * s + q < a * n := by
  have h0 : 0 ≤ a * s := Int.mul_nonneg (by omega) s0
  have h1 : a * s ≤ a * (n - 1) := Int.mul_le_mul_of_nonneg_left (by omega) (by omega)
  rw [Int.mul_sub, Int.mul_one] at h1
  omega

/-- The ranges of numbers: local cells, then the layers in x, in y and in z, each minus before plus. -/
theorem sizes (g : V3) : 2 * g.z * g.y = 2 * (g.y * g.z) ∧ 2 * g.y * g.z = 2 * (g.y * g.z) ∧ 2 * g.z * (g.x + 2) = 2 * ((g.x + 2) * g.z) ∧
    2 * g.z * (g.y + g.x + 2) = 2 * (g.y * g.z) + 2 * ((g.x + 2) * g.z) ∧ g.z * (g.x + 2) = (g.x + 2) * g.z ∧
    nHalo g = 2 * ((g.x + 2) * (g.y + 2)) + 2 * ((g.x + 2) * g.z) + 2 * (g.y * g.z) ∧ nLocal g = g.x * (g.y * g.z) := by
  unfold nHalo nLocal
  refine ⟨?_, ?_, ?_, ?_, ?_, ?_, ?_⟩ <;> grind

/-- **Cells.** Each cell has a number in the range; the numbers of the local cells come first; the
number gives the cell back. -/
theorem C159_cell {g c : V3} (hg : Pos3 g) (hc : Cell g c) :
    ∃ b, getBoxFromTuple g c = some b ∧ 0 ≤ b ∧ b < nTotal g ∧ (b < nLocal g ↔ Local g c) ∧ getTuple g b = c := by
  obtain ⟨gx, gy, gz⟩ := hg
  obtain ⟨x0, x1, y0, y1, z0, z1⟩ := hc
  obtain ⟨e1, e2, e3, e4, e5, e6, e7⟩ := sizes g
  have n1 : 0 < g.y * g.z := Int.mul_pos gy gz
  have n2 : 0 < (g.x + 2) * g.z := Int.mul_pos (by omega) gz
  have n3 : 0 < (g.x + 2) * (g.y + 2) := Int.mul_pos (by omega) (by omega)
  have n4 : 0 < nLocal g := by rw [e7]; exact Int.mul_pos gx n1
  suffices h : 0 ≤ boxNumber g c ∧ boxNumber g c < nTotal g ∧ (boxNumber g c < nLocal g ↔ Local g c) ∧ getTuple g (boxNumber g c) = c by
    refine ⟨boxNumber g c, ?_, h⟩
    unfold getBoxFromTuple
    rw [if_pos ⟨h.1, h.2.1⟩]
  obtain ⟨cx, cy, cz⟩ := c
  simp only at x0 x1 y0 y1 z0 z1
  unfold nTotal Local
  by_cases hzp : cz = g.z
  · have hb := below (a := g.x + 2) (q := cx + 1) (s := cy + 1) (n := g.y + 2) (by omega) (by omega) (by omega) (by omega)
    obtain ⟨d1, d2⟩ := digit (a := g.x + 2) (q := cx + 1) (s := cy + 1) (by omega) (by omega)
    have e : boxNumber g ⟨cx, cy, cz⟩ = nLocal g + 2 * (g.y * g.z) + 2 * ((g.x + 2) * g.z) + (g.x + 2) * (g.y + 2) + ((g.x + 2) * (cy + 1) + (cx + 1)) := by
      unfold boxNumber; simp only [hzp, if_true]; omega
    rw [e]
    refine ⟨by omega, by omega, by dsimp only; omega, ?_⟩
    unfold getTuple
    dsimp only
    rw [if_neg (by omega), if_neg (by omega), if_neg (by omega), if_neg (by omega), V3.mk.injEq]
    have i : nLocal g + 2 * (g.y * g.z) + 2 * ((g.x + 2) * g.z) + (g.x + 2) * (g.y + 2) + ((g.x + 2) * (cy + 1) + (cx + 1)) - nLocal g - 2 * g.z * (g.y + g.x + 2) - (g.x + 2) * (g.y + 2) = (g.x + 2) * (cy + 1) + (cx + 1) := by omega
    rw [i, d1, d2]
    omega
  by_cases hzm : cz = -1
  · have hb := below (a := g.x + 2) (q := cx + 1) (s := cy + 1) (n := g.y + 2) (by omega) (by omega) (by omega) (by omega)
    obtain ⟨d1, d2⟩ := digit (a := g.x + 2) (q := cx + 1) (s := cy + 1) (by omega) (by omega)
    have e : boxNumber g ⟨cx, cy, cz⟩ = nLocal g + 2 * (g.y * g.z) + 2 * ((g.x + 2) * g.z) + ((g.x + 2) * (cy + 1) + (cx + 1)) := by
      unfold boxNumber; simp only [hzp, hzm, if_true]; rw [if_neg (by omega)]; omega
    rw [e]
    refine ⟨by omega, by omega, by dsimp only; omega, ?_⟩
    unfold getTuple
    dsimp only
    rw [if_neg (by omega), if_neg (by omega), if_neg (by omega), if_pos (by omega), V3.mk.injEq]
    have i : nLocal g + 2 * (g.y * g.z) + 2 * ((g.x + 2) * g.z) + ((g.x + 2) * (cy + 1) + (cx + 1)) - nLocal g - 2 * g.z * (g.y + g.x + 2) = (g.x + 2) * (cy + 1) + (cx + 1) := by omega
    rw [i, d1, d2]
    omega
  by_cases hyp : cy = g.y
  · have hb := below (a := g.x + 2) (q := cx + 1) (s := cz) (n := g.z) (by omega) (by omega) (by omega) (by omega)
    obtain ⟨d1, d2⟩ := digit (a := g.x + 2) (q := cx + 1) (s := cz) (by omega) (by omega)
    have e : boxNumber g ⟨cx, cy, cz⟩ = nLocal g + 2 * (g.y * g.z) + (g.x + 2) * g.z + ((g.x + 2) * cz + (cx + 1)) := by
      unfold boxNumber; simp only [hzp, hzm, hyp, if_true, if_false]; omega
    rw [e]
    refine ⟨by omega, by omega, by dsimp only; omega, ?_⟩
    unfold getTuple
    dsimp only
    rw [if_neg (by omega), if_neg (by omega), if_pos (by omega), if_neg (by omega), V3.mk.injEq]
    have i : nLocal g + 2 * (g.y * g.z) + (g.x + 2) * g.z + ((g.x + 2) * cz + (cx + 1)) - nLocal g - 2 * g.z * g.y - (g.x + 2) * g.z = (g.x + 2) * cz + (cx + 1) := by omega
    rw [i, d1, d2]
    omega
  by_cases hym : cy = -1
  · have hb := below (a := g.x + 2) (q := cx + 1) (s := cz) (n := g.z) (by omega) (by omega) (by omega) (by omega)
    obtain ⟨d1, d2⟩ := digit (a := g.x + 2) (q := cx + 1) (s := cz) (by omega) (by omega)
    have e : boxNumber g ⟨cx, cy, cz⟩ = nLocal g + 2 * (g.y * g.z) + ((g.x + 2) * cz + (cx + 1)) := by
      have hm : cz * (g.x + 2) = (g.x + 2) * cz := Int.mul_comm _ _
      unfold boxNumber; simp only [hzp, hzm, if_false]; rw [if_neg hyp, if_pos hym]; omega
    rw [e]
    refine ⟨by omega, by omega, by dsimp only; omega, ?_⟩
    unfold getTuple
    dsimp only
    rw [if_neg (by omega), if_neg (by omega), if_pos (by omega), if_pos (by omega), V3.mk.injEq]
    have i : nLocal g + 2 * (g.y * g.z) + ((g.x + 2) * cz + (cx + 1)) - nLocal g - 2 * g.z * g.y = (g.x + 2) * cz + (cx + 1) := by omega
    rw [i, d1, d2]
    omega
  have hm : cz * g.y = g.y * cz := Int.mul_comm _ _
  have hb := below (a := g.y) (q := cy) (s := cz) (n := g.z) (by omega) (by omega) (by omega) (by omega)
  obtain ⟨d1, d2⟩ := digit (a := g.y) (q := cy) (s := cz) (by omega) (by omega)
  by_cases hxp : cx = g.x
  · have e : boxNumber g ⟨cx, cy, cz⟩ = nLocal g + g.y * g.z + (g.y * cz + cy) := by
      unfold boxNumber; simp only [hzp, hzm, hyp, hym, hxp, if_true, if_false]; omega
    rw [e]
    refine ⟨by omega, by omega, by dsimp only; omega, ?_⟩
    unfold getTuple
    dsimp only
    rw [if_neg (by omega), if_pos (by omega), if_neg (by omega), V3.mk.injEq]
    have i : nLocal g + g.y * g.z + (g.y * cz + cy) - nLocal g - g.y * g.z = g.y * cz + cy := by omega
    rw [i, d1, d2]
    omega
  by_cases hxm : cx = -1
  · have e : boxNumber g ⟨cx, cy, cz⟩ = nLocal g + (g.y * cz + cy) := by
      unfold boxNumber; simp only [hzp, hzm, hyp, hym, if_false]; rw [if_neg hxp, if_pos hxm]; omega
    rw [e]
    refine ⟨by omega, by omega, by dsimp only; omega, ?_⟩
    unfold getTuple
    dsimp only
    rw [if_neg (by omega), if_pos (by omega), if_pos (by omega), V3.mk.injEq]
    have i : nLocal g + (g.y * cz + cy) - nLocal g = g.y * cz + cy := by omega
    rw [i, d1, d2]
    omega
  · have e : boxNumber g ⟨cx, cy, cz⟩ = g.x * (g.y * cz + cy) + cx := by
      unfold boxNumber; simp only [hzp, hzm, hyp, hym, hxp, hxm, if_false]
      rw [Int.mul_add, Int.mul_assoc]; omega
    have hb' := below (a := g.x) (q := cx) (s := g.y * cz + cy) (n := g.y * g.z) (by omega) (by omega) hb.1 hb.2
    obtain ⟨d1', d2'⟩ := digit (a := g.x) (q := cx) (s := g.y * cz + cy) (by omega) (by omega)
    rw [e]
    refine ⟨by omega, by omega, by dsimp only; omega, ?_⟩
    unfold getTuple
    rw [if_pos (by omega), d1', d2', d1, d2]

theorem split_mod (a b : Int) : b = a * (b / a) + b % a := by
  have := Int.mul_ediv_add_emod b a
  omega

/-- Each number in the range is the number of a cell. -/
theorem C159_numbers {g : V3} {b : Int} (hg : Pos3 g) (h0 : 0 ≤ b) (h1 : b < nTotal g) :
    Cell g (getTuple g b) ∧ getBoxFromTuple g (getTuple g b) = some b := by
  suffices h : ∃ c, Cell g c ∧ boxNumber g c = b by
    obtain ⟨c, hc, hb⟩ := h
    obtain ⟨b', hb', _, _, _, ht⟩ := C159_cell hg hc
    have : b' = b := by
      unfold getBoxFromTuple at hb'
      split at hb'
      · simp only [Option.some.injEq] at hb'; omega
      · exact nomatch hb'
    subst this
    rw [ht]
    exact ⟨hc, hb'⟩
  obtain ⟨gx, gy, gz⟩ := hg
  obtain ⟨e1, e2, e3, e4, e5, e6, e7⟩ := sizes g
  have n1 : 0 < g.y * g.z := Int.mul_pos gy gz
  have n2 : 0 < (g.x + 2) * g.z := Int.mul_pos (by omega) gz
  have n3 : 0 < (g.x + 2) * (g.y + 2) := Int.mul_pos (by omega) (by omega)
  unfold nTotal at h1
  have dm : ∀ a m k : Int, 0 < a → 0 ≤ k → k < a * m → 0 ≤ k % a ∧ k % a < a ∧ 0 ≤ k / a ∧ k / a < m ∧ k = a * (k / a) + k % a := by
    intro a m k ha hk hkm
    refine ⟨Int.emod_nonneg _ (by omega), Int.emod_lt_of_pos _ ha, Int.ediv_nonneg hk (by omega), ?_, split_mod a k⟩
    rw [Int.ediv_lt_iff_lt_mul ha, Int.mul_comm]
    exact hkm
  by_cases c1 : b < nLocal g
  · obtain ⟨a1, a2, a3, a4, a5⟩ := dm g.x (g.y * g.z) b gx h0 (by omega)
    obtain ⟨b1, b2, b3, b4, b5⟩ := dm g.y g.z (b / g.x) gy a3 a4
    refine ⟨⟨b % g.x, b / g.x % g.y, b / g.x / g.y⟩, ⟨by dsimp only; omega, by dsimp only; omega, by dsimp only; omega, by dsimp only; omega, by dsimp only; omega, by dsimp only; omega⟩, ?_⟩
    unfold boxNumber
    dsimp only
    rw [if_neg (by omega), if_neg (by omega), if_neg (by omega), if_neg (by omega), if_neg (by omega), if_neg (by omega)]
    have : g.x * (b / g.x) = g.x * (g.y * (b / g.x / g.y) + b / g.x % g.y) := congrArg _ b5
    rw [Int.mul_add, ← Int.mul_assoc] at this
    omega
  by_cases c2 : b - nLocal g < g.y * g.z
  · obtain ⟨b1, b2, b3, b4, b5⟩ := dm g.y g.z (b - nLocal g) gy (by omega) c2
    refine ⟨⟨-1, (b - nLocal g) % g.y, (b - nLocal g) / g.y⟩, ⟨by dsimp only; omega, by dsimp only; omega, by dsimp only; omega, by dsimp only; omega, by dsimp only; omega, by dsimp only; omega⟩, ?_⟩
    unfold boxNumber
    dsimp only
    rw [if_neg (by omega), if_neg (by omega), if_neg (by omega), if_neg (by omega), if_neg (by omega), if_pos rfl, Int.mul_comm _ g.y]
    omega
  by_cases c3 : b - nLocal g - g.y * g.z < g.y * g.z
  · obtain ⟨b1, b2, b3, b4, b5⟩ := dm g.y g.z (b - nLocal g - g.y * g.z) gy (by omega) c3
    refine ⟨⟨g.x, (b - nLocal g - g.y * g.z) % g.y, (b - nLocal g - g.y * g.z) / g.y⟩, ⟨by dsimp only; omega, by dsimp only; omega, by dsimp only; omega, by dsimp only; omega, by dsimp only; omega, by dsimp only; omega⟩, ?_⟩
    unfold boxNumber
    dsimp only
    rw [if_neg (by omega), if_neg (by omega), if_neg (by omega), if_neg (by omega), if_pos rfl, Int.mul_comm _ g.y]
    omega
  by_cases c4 : b - nLocal g - 2 * (g.y * g.z) < (g.x + 2) * g.z
  · obtain ⟨b1, b2, b3, b4, b5⟩ := dm (g.x + 2) g.z (b - nLocal g - 2 * (g.y * g.z)) (by omega) (by omega) c4
    refine ⟨⟨(b - nLocal g - 2 * (g.y * g.z)) % (g.x + 2) - 1, -1, (b - nLocal g - 2 * (g.y * g.z)) / (g.x + 2)⟩, ⟨by dsimp only; omega, by dsimp only; omega, by dsimp only; omega, by dsimp only; omega, by dsimp only; omega, by dsimp only; omega⟩, ?_⟩
    unfold boxNumber
    dsimp only
    rw [if_neg (by omega), if_neg (by omega), if_neg (by omega), if_pos rfl, Int.mul_comm _ (g.x + 2)]
    omega
  by_cases c5 : b - nLocal g - 2 * (g.y * g.z) - (g.x + 2) * g.z < (g.x + 2) * g.z
  · obtain ⟨b1, b2, b3, b4, b5⟩ := dm (g.x + 2) g.z (b - nLocal g - 2 * (g.y * g.z) - (g.x + 2) * g.z) (by omega) (by omega) c5
    refine ⟨⟨(b - nLocal g - 2 * (g.y * g.z) - (g.x + 2) * g.z) % (g.x + 2) - 1, g.y, (b - nLocal g - 2 * (g.y * g.z) - (g.x + 2) * g.z) / (g.x + 2)⟩, ⟨by dsimp only; omega, by dsimp only; omega, by dsimp only; omega, by dsimp only; omega, by dsimp only; omega, by dsimp only; omega⟩, ?_⟩
    unfold boxNumber
    dsimp only
    rw [if_neg (by omega), if_neg (by omega), if_pos rfl]
    omega
  by_cases c6 : b - nLocal g - 2 * (g.y * g.z) - 2 * ((g.x + 2) * g.z) < (g.x + 2) * (g.y + 2)
  · generalize hk : b - nLocal g - 2 * (g.y * g.z) - 2 * ((g.x + 2) * g.z) = k at c6
    obtain ⟨b1, b2, b3, b4, b5⟩ := dm (g.x + 2) (g.y + 2) k (by omega) (by omega) c6
    refine ⟨⟨k % (g.x + 2) - 1, k / (g.x + 2) - 1, -1⟩, ⟨by dsimp only; omega, by dsimp only; omega, by dsimp only; omega, by dsimp only; omega, by dsimp only; omega, by dsimp only; omega⟩, ?_⟩
    unfold boxNumber
    dsimp only
    rw [if_neg (by omega), if_pos rfl, Int.sub_add_cancel, Int.sub_add_cancel]
    omega
  · generalize hk : b - nLocal g - 2 * (g.y * g.z) - 2 * ((g.x + 2) * g.z) - (g.x + 2) * (g.y + 2) = k
    obtain ⟨b1, b2, b3, b4, b5⟩ := dm (g.x + 2) (g.y + 2) k (by omega) (by omega) (by omega)
    refine ⟨⟨k % (g.x + 2) - 1, k / (g.x + 2) - 1, g.z⟩, ⟨by dsimp only; omega, by dsimp only; omega, by dsimp only; omega, by dsimp only; omega, by dsimp only; omega, by dsimp only; omega⟩, ?_⟩
    unfold boxNumber
    dsimp only
    rw [if_pos rfl, Int.sub_add_cancel, Int.sub_add_cancel]
    omega

example : getBoxFromTuple ⟨2, 3, 4⟩ ⟨2, 1, 3⟩ = some 46 ∧ getTuple ⟨2, 3, 4⟩ 46 = ⟨2, 1, 3⟩ ∧ nTotal ⟨2, 3, 4⟩ = 4 * 5 * 6 := by decide +kernel

end Verif.Apps.Comd
