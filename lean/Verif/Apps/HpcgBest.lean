import Verif.Apps.HpcgPrime
import Mathlib.Tactic.Ring
set_option autoImplicit false
/-
The shape of the HPCG skeleton has the smallest area.
-/
namespace Verif.Apps.Hpcg

theorem bern (q k : Nat) : 1 + q * k ≤ (q + 1) ^ k := by
  induction k with
  | zero => simp
  | succ k ih =>
    rw [Nat.pow_succ]
    have h := Nat.mul_le_mul_right (q + 1) ih
    have e : (1 + q * k) * (q + 1) = 1 + q * (k + 1) + q * (q * k) := by ring
    omega

/-- A line below the powers. -/
theorem line (q t u : Nat) (hq : 1 ≤ q) : (q + 1) ^ t * (1 + q * u) ≤ (q + 1) ^ u + (q + 1) ^ t * (q * t) := by
  rcases Nat.lt_or_ge u t with h | h
  · have h1 : q * (u + 1) ≤ q * t := Nat.mul_le_mul_left q h
    have h2 : 1 + q * u ≤ q * t := by rw [Nat.mul_add] at h1; omega
    exact Nat.le_trans (Nat.mul_le_mul_left _ h2) (Nat.le_add_left _ _)
  · obtain ⟨k, rfl⟩ : ∃ k, u = t + k := ⟨u - t, by omega⟩
    have h1 := Nat.mul_le_mul_left ((q + 1) ^ t) (bern q k)
    rw [Nat.pow_add]
    have e : (q + 1) ^ t * (1 + q * (t + k)) = (q + 1) ^ t * (1 + q * k) + (q + 1) ^ t * (q * t) := by ring
    omega

theorem three (q t r u v w : Nat) (hq : 1 ≤ q) (h : u + v + w = 3 * t + r) :
    (q + 1) ^ t * (3 + q * r) ≤ (q + 1) ^ u + (q + 1) ^ v + (q + 1) ^ w := by
  have h1 := line q t u hq
  have h2 := line q t v hq
  have h3 := line q t w hq
  have e : (q + 1) ^ t * (1 + q * u) + (q + 1) ^ t * (1 + q * v) + (q + 1) ^ t * (1 + q * w)
      = (q + 1) ^ t * (3 + q * (u + v + w)) := by ring
  rw [h] at e
  have e2 : (q + 1) ^ t * (3 + q * (3 * t + r)) = (q + 1) ^ t * (3 + q * r) + 3 * ((q + 1) ^ t * (q * t)) := by ring
  omega

/-- Powers of one prime. -/
theorem single_best (p c i j k : Nat) (hp : 2 ≤ p) (h : i + j + k = c) :
    Shape.area ⟨p ^ (c / 3 + (if c % 3 ≥ 1 then 1 else 0)), p ^ (c / 3 + (if c % 3 ≥ 2 then 1 else 0)), p ^ (c / 3)⟩
      ≤ Shape.area ⟨p ^ i, p ^ j, p ^ k⟩ := by
  obtain ⟨q, rfl⟩ : ∃ q, p = q + 1 := ⟨p - 1, by omega⟩
  simp only [Shape.area, ← Nat.pow_add]
  have hm : c % 3 = 0 ∨ c % 3 = 1 ∨ c % 3 = 2 := by omega
  rcases hm with hm | hm | hm
  · have := three q (2 * (c / 3)) 0 (i + j) (j + k) (i + k) (by omega) (by omega)
    simp only [hm]
    have e : (q + 1) ^ (2 * (c / 3)) * (3 + q * 0) = 3 * (q + 1) ^ (2 * (c / 3)) := by ring
    rw [e] at this
    simp only [ge_iff_le, show ¬ (1 ≤ 0) by omega, show ¬ (2 ≤ 0) by omega, if_false, Nat.add_zero, ← Nat.two_mul]
    omega
  · have := three q (2 * (c / 3)) 2 (i + j) (j + k) (i + k) (by omega) (by omega)
    simp only [hm]
    have e : (q + 1) ^ (2 * (c / 3)) * (3 + q * 2) = (q + 1) ^ (2 * (c / 3)) + 2 * (q + 1) ^ (2 * (c / 3) + 1) := by ring
    rw [e] at this
    have e1 : c / 3 + 1 + c / 3 = 2 * (c / 3) + 1 := by omega
    have e2 : c / 3 + c / 3 = 2 * (c / 3) := by omega
    simp only [ge_iff_le, Nat.le_refl, if_true, show ¬ (2 ≤ 1) by omega, if_false, Nat.add_zero, e1, e2]
    omega
  · have := three q (2 * (c / 3) + 1) 1 (i + j) (j + k) (i + k) (by omega) (by omega)
    simp only [hm]
    have e : (q + 1) ^ (2 * (c / 3) + 1) * (3 + q * 1) = 2 * (q + 1) ^ (2 * (c / 3) + 1) + (q + 1) ^ (2 * (c / 3) + 2) := by ring
    rw [e] at this
    have e1 : c / 3 + 1 + c / 3 = 2 * (c / 3) + 1 := by omega
    have e2 : c / 3 + 1 + (c / 3 + 1) = 2 * (c / 3) + 2 := by omega
    simp only [ge_iff_le, Nat.le_refl, if_true, show 1 ≤ 2 by omega, e1, e2]
    omega

/-- What is tried, with the third extent as a product too. -/
theorem tried_form (n : Nat) (m : FMap) (hg : Good m) (hn : prodOf m = n) (s : Shape) (hs : s ∈ tried n m) :
    ∃ c1 ∈ visited (m.map (·.2)), ∃ c2 ∈ visited (rest (m.map (·.2)) c1),
      s = ⟨powers (m.map (·.1)) c1, powers (m.map (·.1)) c2, powers (m.map (·.1)) (rest (rest (m.map (·.2)) c1) c2)⟩ := by
  have hsp := tried_spec n m hg hn s hs
  simp only [tried, List.mem_flatMap, List.mem_map] at hs
  obtain ⟨c1, h1, c2, h2, rfl⟩ := hs
  refine ⟨c1, h1, c2, h2, ?_⟩
  rw [mem_visited] at h1 h2
  have e1 := powers_rest (m.map (·.1)) _ _ h1.1
  have e2 := powers_rest (m.map (·.1)) _ _ h2.1
  simp only [product, h1.2, h2.2, Bool.false_eq_true, if_false] at hsp ⊢
  congr 1
  have e3 : n = powers (m.map (·.1)) c1 * (powers (m.map (·.1)) c2 * powers (m.map (·.1)) (rest (rest (m.map (·.2)) c1) c2)) := by
    rw [e2, e1]; exact hn.symm
  rw [e3, Nat.mul_div_cancel_left _ (by omega), Nat.mul_div_cancel_left _ (by omega)]

theorem area_perm1 (a b c : Nat) : Shape.area ⟨a, b, c⟩ = Shape.area ⟨b, c, a⟩ := by simp only [Shape.area]; ring

theorem area_perm2 (a b c : Nat) : Shape.area ⟨a, b, c⟩ = Shape.area ⟨a, c, b⟩ := by simp only [Shape.area]; ring

/-- A shape that is best of what is tried is best of all. -/
theorem best_of_all (n : Nat) (m : FMap) (hp : Primes m) (hn : prodOf m = n) (s0 : Shape)
    (h0 : s0.area < 2 * n + 1) (hb : ∀ s ∈ tried n m, s0.area ≤ s.area) (a b c : Nat) (h : a * b * c = n) (hpos : 0 < n) :
    s0.area ≤ Shape.area ⟨a, b, c⟩ := by
  have ha : 0 < a := Nat.pos_of_ne_zero (fun r => by rw [r] at h; simp only [Nat.mul_zero, Nat.zero_mul] at h; omega)
  have hb' : 0 < b := Nat.pos_of_ne_zero (fun r => by rw [r] at h; simp only [Nat.mul_zero, Nat.zero_mul] at h; omega)
  have hc : 0 < c := Nat.pos_of_ne_zero (fun r => by rw [r] at h; simp only [Nat.mul_zero, Nat.zero_mul] at h; omega)
  by_cases a2 : 2 ≤ a
  · by_cases b2 : 2 ≤ b
    · exact hb _ (tried_all n m hp hn ⟨a, b, c⟩ h a2 b2)
    · by_cases c2 : 2 ≤ c
      · rw [area_perm2 a b c]
        exact hb _ (tried_all n m hp hn ⟨a, c, b⟩ (by rw [← h]; ring) a2 c2)
      · have : b = 1 := by omega
        have : c = 1 := by omega
        subst_vars
        simp only [Shape.area] at *; omega
  · by_cases b2 : 2 ≤ b
    · by_cases c2 : 2 ≤ c
      · rw [area_perm1 a b c]
        exact hb _ (tried_all n m hp hn ⟨b, c, a⟩ (by rw [← h]; ring) b2 c2)
      · have : a = 1 := by omega
        have : c = 1 := by omega
        subst_vars
        simp only [Shape.area] at *; omega
    · have : a = 1 := by omega
      have : b = 1 := by omega
      subst_vars
      simp only [Shape.area] at *; omega

theorem merge (x y w : Nat) (hx : 1 ≤ x) (hy : 1 ≤ y) : x * y + y * w + x * w ≤ x * y * w + w + x * y := by
  obtain ⟨x, rfl⟩ : ∃ a, x = a + 1 := ⟨x - 1, by omega⟩
  obtain ⟨y, rfl⟩ : ∃ a, y = a + 1 := ⟨y - 1, by omega⟩
  have e : (x + 1) * (y + 1) * w + w + (x + 1) * (y + 1)
    = (x + 1) * (y + 1) + (y + 1) * w + (x + 1) * w + x * y * w := by ring
  omega

theorem v11 : visited [1, 1] = [[1, 0], [0, 1], [1, 1]] := by decide
theorem v01 : visited [0, 1] = [[0, 1]] := by decide
theorem v10 : visited [1, 0] = [[1, 0]] := by decide
theorem v00 : visited [0, 0] = [] := by decide
theorem v21 : visited [2, 1] = [[1, 0], [2, 0], [0, 1], [1, 1], [2, 1]] := by decide
theorem v12 : visited [1, 2] = [[1, 0], [0, 1], [1, 1], [0, 2], [1, 2]] := by decide
theorem v20 : visited [2, 0] = [[1, 0], [2, 0]] := by decide
theorem v02 : visited [0, 2] = [[0, 1], [0, 2]] := by decide
theorem v111 : visited [1, 1, 1] = [[1, 0, 0], [0, 1, 0], [1, 1, 0], [0, 0, 1], [1, 0, 1], [0, 1, 1], [1, 1, 1]] := by decide
theorem v011 : visited [0, 1, 1] = [[0, 1, 0], [0, 0, 1], [0, 1, 1]] := by decide
theorem v101 : visited [1, 0, 1] = [[1, 0, 0], [0, 0, 1], [1, 0, 1]] := by decide
theorem v110 : visited [1, 1, 0] = [[1, 0, 0], [0, 1, 0], [1, 1, 0]] := by decide
theorem v001 : visited [0, 0, 1] = [[0, 0, 1]] := by decide
theorem v010 : visited [0, 1, 0] = [[0, 1, 0]] := by decide
theorem v100 : visited [1, 0, 0] = [[1, 0, 0]] := by decide
theorem v000 : visited [0, 0, 0] = [] := by decide

theorem pq_best (x y : Nat) (s : Shape) (hg : Good [(x, 1), (y, 1)])
    (hs : s ∈ tried (prodOf [(x, 1), (y, 1)]) [(x, 1), (y, 1)]) : Shape.area ⟨x, y, 1⟩ ≤ s.area := by
  obtain ⟨c1, h1, c2, h2, rfl⟩ := tried_form _ _ hg rfl s hs
  simp only [List.map_cons, List.map_nil, v11, List.mem_cons, List.not_mem_nil, or_false] at h1
  rcases h1 with rfl | rfl | rfl <;>
    simp only [List.map_cons, List.map_nil, rest, List.zipWith, Nat.sub_zero, Nat.sub_self, v01, v10, v00, List.mem_cons, List.not_mem_nil, or_false] at h2 <;>
    subst h2 <;> simp only [List.map_cons, List.map_nil, rest, List.zipWith, powers, Shape.area, Nat.sub_zero, Nat.sub_self] <;> ring_nf <;> omega

theorem ppq_best (x y : Nat) (s : Shape) (hg : Good [(x, 2), (y, 1)])
    (hs : s ∈ tried (prodOf [(x, 2), (y, 1)]) [(x, 2), (y, 1)]) : Shape.area ⟨x, y, x⟩ ≤ s.area := by
  have gx := (hg (x, 2) (by simp)).1
  have gy := (hg (y, 1) (by simp)).1
  have m1 := merge x y x (by omega) (by dsimp only at gy; omega)
  have m2 := merge x x y (by omega) (by omega)
  obtain ⟨c1, h1, c2, h2, rfl⟩ := tried_form _ _ hg rfl s hs
  simp only [List.map_cons, List.map_nil, v21, List.mem_cons, List.not_mem_nil, or_false] at h1
  rcases h1 with rfl | rfl | rfl | rfl | rfl <;>
    simp only [List.map_cons, List.map_nil, rest, List.zipWith, Nat.sub_zero, Nat.sub_self, Nat.reduceSub, v11, v01, v20, v10, v00, List.mem_cons, List.not_mem_nil, or_false] at h2 <;>
    (try rcases h2 with rfl | rfl | rfl) <;> (try rcases h2 with rfl | rfl) <;> (try subst h2) <;>
    simp only [List.map_cons, List.map_nil, rest, List.zipWith, powers, Shape.area, Nat.sub_zero, Nat.sub_self, Nat.reduceSub] <;> ring_nf at m1 m2 ⊢ <;> omega

theorem pqq_best (x y : Nat) (s : Shape) (hg : Good [(x, 1), (y, 2)])
    (hs : s ∈ tried (prodOf [(x, 1), (y, 2)]) [(x, 1), (y, 2)]) : Shape.area ⟨x, y, y⟩ ≤ s.area := by
  have gx := (hg (x, 1) (by simp)).1
  have gy := (hg (y, 2) (by simp)).1
  have m1 := merge x y y (by dsimp only at gx; omega) (by omega)
  have m2 := merge y y x (by omega) (by omega)
  obtain ⟨c1, h1, c2, h2, rfl⟩ := tried_form _ _ hg rfl s hs
  simp only [List.map_cons, List.map_nil, v12, List.mem_cons, List.not_mem_nil, or_false] at h1
  rcases h1 with rfl | rfl | rfl | rfl | rfl <;>
    simp only [List.map_cons, List.map_nil, rest, List.zipWith, Nat.sub_zero, Nat.sub_self, Nat.reduceSub, v11, v01, v02, v10, v00, List.mem_cons, List.not_mem_nil, or_false] at h2 <;>
    (try rcases h2 with rfl | rfl | rfl) <;> (try rcases h2 with rfl | rfl) <;> (try subst h2) <;>
    simp only [List.map_cons, List.map_nil, rest, List.zipWith, powers, Shape.area, Nat.sub_zero, Nat.sub_self, Nat.reduceSub] <;> ring_nf at m1 m2 ⊢ <;> omega

theorem pqr_best (x y w : Nat) (s : Shape) (hg : Good [(x, 1), (y, 1), (w, 1)])
    (hs : s ∈ tried (prodOf [(x, 1), (y, 1), (w, 1)]) [(x, 1), (y, 1), (w, 1)]) : Shape.area ⟨x, y, w⟩ ≤ s.area := by
  have gx := (hg (x, 1) (by simp)).1
  have gy := (hg (y, 1) (by simp)).1
  have gw := (hg (w, 1) (by simp)).1
  have m1 := merge x y w (by dsimp only at gx; omega) (by dsimp only at gy; omega)
  have m2 := merge y w x (by dsimp only at gy; omega) (by dsimp only at gw; omega)
  have m3 := merge x w y (by dsimp only at gx; omega) (by dsimp only at gw; omega)
  obtain ⟨c1, h1, c2, h2, rfl⟩ := tried_form _ _ hg rfl s hs
  simp only [List.map_cons, List.map_nil, v111, List.mem_cons, List.not_mem_nil, or_false] at h1
  rcases h1 with rfl | rfl | rfl | rfl | rfl | rfl | rfl <;>
    simp only [List.map_cons, List.map_nil, rest, List.zipWith, Nat.sub_zero, Nat.sub_self, v011, v101, v110, v001, v010, v100, v000, List.mem_cons, List.not_mem_nil, or_false] at h2 <;>
    (try rcases h2 with rfl | rfl | rfl) <;> (try subst h2) <;>
    simp only [List.map_cons, List.map_nil, rest, List.zipWith, powers, Shape.area, Nat.sub_zero, Nat.sub_self] <;> ring_nf at m1 m2 m3 ⊢ <;> omega

/-- The shape of a number has the smallest area. -/
theorem shape_best (sq n z0 : Nat) (h : 0 < n) (hs : n < sq * sq) (a b c : Nat) (e : a * b * c = n) :
    (shape sq n z0).area ≤ Shape.area ⟨a, b, c⟩ := by
  obtain ⟨h1, h2, h3⟩ := primeFactors_spec sq n h
  have h4 := primeFactors_primes sq n h hs
  simp only [shape]
  generalize primeFactors sq n = m at *
  match m, h1, h2, h3, h4 with
  | [], _, h2, _, _ => exact absurd rfl h2
  | [(x, k)], h1, _, h3, h4 =>
    rcases h4 with h4 | h4
    · have hx : Nat.Prime x := h4 (x, k) (by simp)
      have hx2 := hx.two_le
      have hn : x ^ k = n := by simpa [prodOf, powers] using h1
      have da : a ∣ x ^ k := by rw [hn, ← e, Nat.mul_assoc]; exact Nat.dvd_mul_right _ _
      have db : b ∣ x ^ k := by rw [hn, ← e, Nat.mul_comm a b, Nat.mul_assoc]; exact Nat.dvd_mul_right _ _
      have dc : c ∣ x ^ k := by rw [hn, ← e]; exact Nat.dvd_mul_left _ _
      obtain ⟨i, _, rfl⟩ := (Nat.dvd_prime_pow hx).1 da
      obtain ⟨j, _, rfl⟩ := (Nat.dvd_prime_pow hx).1 db
      obtain ⟨l, _, rfl⟩ := (Nat.dvd_prime_pow hx).1 dc
      rw [← hn, ← Nat.pow_add, ← Nat.pow_add] at e
      have e' := Nat.pow_right_injective hx2 e
      simp only [powI_eq _ _ (Or.inl hx2)]
      exact single_best x k i j l hx2 e'
    · simp only [List.cons.injEq, Prod.mk.injEq, and_true] at h4
      obtain ⟨rfl, rfl⟩ := h4
      have hn : n = 1 := by simpa [prodOf, powers] using h1.symm
      subst hn
      have a1 := Nat.eq_one_of_mul_eq_one_right e
      have a2 := Nat.eq_one_of_mul_eq_one_left e
      have a3 := Nat.eq_one_of_mul_eq_one_right a1
      have a4 := Nat.eq_one_of_mul_eq_one_left a1
      subst_vars
      dsimp only
      decide
  | [(x, k), (y, l)], h1, _, h3, h4 =>
    have hg : Good [(x, k), (y, l)] := by rcases h3 with h3 | h3; exact h3; simp at h3
    have hp : Primes [(x, k), (y, l)] := by rcases h4 with h4 | h4; exact h4; simp at h4
    have gx := (hg (x, k) (by simp)).1
    have gy := (hg (y, l) (by simp)).1
    have ga := (hg (x, k) (by simp)).2
    have gb := (hg (y, l) (by simp)).2
    dsimp only at gx gy ga gb ⊢
    split
    · rename_i hc
      obtain ⟨rfl, rfl⟩ := hc
      subst h1
      exact best_of_all _ _ hp rfl _ (area_lt _ _ (by simp [prodOf, powers]) gx gy (by simp)) (fun s hs => pq_best x y s hg hs) a b c e h
    · split
      · rename_i hc
        have : (k = 1 ∧ l = 2) ∨ (k = 2 ∧ l = 1) := by omega
        subst h1
        rcases this with ⟨rfl, rfl⟩ | ⟨rfl, rfl⟩
        · exact best_of_all _ _ hp rfl _ (area_lt _ _ (by simp [prodOf, powers]; ring) gx gy (by simp; omega)) (fun s hs => pqq_best x y s hg hs) a b c e h
        · exact best_of_all _ _ hp rfl _ (area_lt _ _ (by simp [prodOf, powers]; ring) gx gy (by simp; omega)) (fun s hs => ppq_best x y s hg hs) a b c e h
      · have hsr := search_spec n _ ⟨x, y, z0⟩ hg h1 (tried_ne n _ _ _ hg)
        obtain ⟨q1, q2, q3, q4⟩ := tried_spec n _ hg h1 _ hsr.1
        exact best_of_all n _ hp h1 _ (area_lt _ _ q1 q2 q3 q4) hsr.2 a b c e h
  | (x, k) :: (y, l) :: (w, o) :: t, h1, _, h3, h4 =>
    have hg : Good ((x, k) :: (y, l) :: (w, o) :: t) := by rcases h3 with h3 | h3; exact h3; simp at h3
    have hp : Primes ((x, k) :: (y, l) :: (w, o) :: t) := by rcases h4 with h4 | h4; exact h4; simp at h4
    have gx := (hg (x, k) (by simp)).1
    have gy := (hg (y, l) (by simp)).1
    have gw := (hg (w, o) (by simp)).1
    dsimp only at gx gy gw ⊢
    split
    · rename_i hc
      obtain ⟨rfl, rfl, rfl, rfl⟩ := hc
      subst h1
      exact best_of_all _ _ hp rfl _ (area_lt _ _ (by simp [prodOf, powers]; ring) gx gy (by simp; omega)) (fun s hs => pqr_best x y w s hg hs) a b c e h
    · have hsr := search_spec n _ ⟨x, y, z0⟩ hg h1 (tried_ne n _ _ _ hg)
      obtain ⟨q1, q2, q3, q4⟩ := tried_spec n _ hg h1 _ hsr.1
      exact best_of_all n _ hp h1 _ (area_lt _ _ q1 q2 q3 q4) hsr.2 a b c e h

end Verif.Apps.Hpcg
