import Verif.Apps.HpcgBest
set_option autoImplicit false
/-
Properties of the grid of processes of the HPCG skeleton.
-/
namespace Verif.Apps.Hpcg

/-- The factors found for a number multiply to it, and they are primes that occur at least once; one has
the factor one. -/
theorem C160_factors (sq n : Nat) (h : 0 < n) (hs : n < sq * sq) :
    (primeFactors sq n).foldr (fun e t => e.1 ^ e.2 * t) 1 = n ∧
      (1 < n → ∀ e ∈ primeFactors sq n, Nat.Prime e.1 ∧ 1 ≤ e.2) ∧ (n = 1 → primeFactors sq n = [(1, 1)]) := by
  obtain ⟨h1, h2, h3⟩ := primeFactors_spec sq n h
  have h4 := primeFactors_primes sq n h hs
  have hf : ∀ m : FMap, m.foldr (fun e t => e.1 ^ e.2 * t) 1 = prodOf m := by
    intro m
    induction m with
    | nil => rfl
    | cons e m ih => rw [List.foldr_cons, ih]; rfl
  refine ⟨by rw [hf, h1], ?_, ?_⟩
  · intro hn e he
    have hne : primeFactors sq n ≠ [(1, 1)] := by
      intro hh; rw [hh] at h1; simp [prodOf, powers] at h1; omega
    exact ⟨(h4.resolve_right hne) e he, ((h3.resolve_right hne) e he).2⟩
  · intro hn
    rcases h3 with h3 | h3
    · exfalso
      cases hm : primeFactors sq n with
      | nil => exact h2 hm
      | cons e m =>
        rw [hm] at h3 h1
        have g := h3 e (by simp)
        have hp := powers_two ((e :: m).map (·.1)) ((e :: m).map (·.2))
          (by intro k hk; obtain ⟨e', he', rfl⟩ := List.mem_map.1 hk; exact (h3 e' he').1) (by simp)
          (by simp [isZero]; omega)
        have : powers ((e :: m).map (·.1)) ((e :: m).map (·.2)) = n := h1
        omega
    · exact h3

example : (0 < 360 ∧ 360 < 19 * 19) ∧ primeFactors 19 360 = [(2, 3), (3, 2), (5, 1)] := by decide +kernel

theorem le_iff : ∀ (c m : List Nat), Le c m ↔ c.length = m.length ∧ ∀ (i x y : Nat), c[i]? = some x → m[i]? = some y → x ≤ y
  | [], [] => by simp [Le]
  | c :: cs, m :: ms => by
    rw [Le, le_iff cs ms]
    constructor
    · rintro ⟨h, hl, hh⟩
      refine ⟨by simp [hl], ?_⟩
      intro i x y hx hy
      cases i with
      | zero => simp at hx hy; omega
      | succ i => exact hh i x y (by simpa using hx) (by simpa using hy)
    · rintro ⟨hl, hh⟩
      exact ⟨hh 0 c m rfl rfl, by simpa using hl, fun i x y hx hy => hh (i + 1) x y (by simpa using hx) (by simpa using hy)⟩
  | [], _ :: _ => by simp [Le]
  | _ :: _, [] => by simp [Le]

/-- A loop over a counter ends, and visits each choice of numbers of factors once, except none. -/
theorem C160_counter (m : List Nat) :
    (visited m).Nodup ∧ ∀ c, c ∈ visited m ↔
      c.length = m.length ∧ (∀ (i x y : Nat), c[i]? = some x → m[i]? = some y → x ≤ y) ∧ ∃ x ∈ c, x ≠ 0 := by
  refine ⟨visited_nodup m, fun c => ?_⟩
  rw [mem_visited, le_iff, and_assoc]
  have : isZero c = false ↔ ∃ x ∈ c, x ≠ 0 := by
    simp [isZero]
  rw [this]

/-- The bound on the iterations is not what ends the loop: more of them visit the same. -/
theorem C160_counter_ends (m : List Nat) (f : Nat) :
    visit m (total m + f) (next (List.replicate m.length 0) m) = visited m := by
  have key : ∀ (f g : Nat) (c : List Nat), Le c m → (0 < val c m → total m - val c m < f) → 0 < f →
      visit m (f + g) c = visit m f c := by
    intro f
    induction f with
    | zero => intro g c _ _ h; omega
    | succ f ih =>
      intro g c h hf _
      have e : f + 1 + g = (f + g) + 1 := by omega
      rw [e]
      simp only [visit]
      split
      · rfl
      · rename_i hz
        have hv : val c m ≠ 0 := fun e => hz ((isZero_iff c m h).2 e)
        have hf' := hf (by omega)
        have hlt := val_lt c m h
        have hn := next_val c m h
        rw [ih g (next c m) (next_le c m h) (fun h0 => by split at hn <;> omega) (by omega)]
  obtain ⟨h, h0⟩ := zero_le m
  have hn := next_val _ m h
  rw [h0] at hn
  exact key (total m) f _ (next_le _ m h) (fun h1 => by split at hn <;> omega) (total_pos m)

example : visited [2, 1] = [[1, 0], [2, 0], [0, 1], [1, 1], [2, 1]] := by decide

/-- The three extents of the grid of processes multiply to the number of processes, whatever `z` held
before. -/
theorem C160_grid (sq n z0 : Nat) (h : 0 < n) : (shape sq n z0).x * (shape sq n z0).y * (shape sq n z0).z = n :=
  shape_mul sq n z0 h

/-- No other grid of the same number of processes has a smaller surface. -/
theorem C160_grid_best (sq n z0 : Nat) (h : 0 < n) (hs : n < sq * sq) (a b c : Nat) (e : a * b * c = n) :
    (shape sq n z0).x * (shape sq n z0).y + (shape sq n z0).y * (shape sq n z0).z + (shape sq n z0).x * (shape sq n z0).z
      ≤ a * b + b * c + a * c :=
  shape_best sq n z0 h hs a b c e

example : (0 < 360 ∧ 360 < 19 * 19) ∧ shape 19 360 77 = ⟨6, 6, 10⟩ ∧ shape 12 121 7 = ⟨11, 11, 1⟩ ∧ shape 4 12 7 = ⟨2, 3, 2⟩ := by
  decide +kernel

/-- Ranks and positions of the grid correspond. -/
theorem C160_place (sq n z0 : Nat) (h : 0 < n) :
    (∀ r, r < n → (place (shape sq n z0) r).x < (shape sq n z0).x ∧ (place (shape sq n z0) r).y < (shape sq n z0).y ∧
      (place (shape sq n z0) r).z < (shape sq n z0).z) ∧
    ∀ x y z, x < (shape sq n z0).x → y < (shape sq n z0).y → z < (shape sq n z0).z →
      ∃ r, r < n ∧ place (shape sq n z0) r = ⟨x, y, z⟩ ∧ ∀ r', r' < n → place (shape sq n z0) r' = ⟨x, y, z⟩ → r' = r := by
  have hm := C160_grid sq n z0 h
  generalize shape sq n z0 = s at *
  obtain ⟨X, Y, Z⟩ := s
  dsimp only at hm
  have hX : 0 < X := Nat.pos_of_ne_zero (fun r => by rw [r] at hm; simp only [Nat.zero_mul] at hm; omega)
  have hY : 0 < Y := Nat.pos_of_ne_zero (fun r => by rw [r] at hm; simp only [Nat.mul_zero, Nat.zero_mul] at hm; omega)
  have hXY : 0 < X * Y := Nat.mul_pos hX hY
  have pl : ∀ r, place ⟨X, Y, Z⟩ r = ⟨r % X, r % (X * Y) / X, r / (X * Y)⟩ := by
    intro r
    have e : r - r / (X * Y) * X * Y = r % (X * Y) := by
      have := Nat.div_add_mod r (X * Y)
      have e2 : r / (X * Y) * X * Y = X * Y * (r / (X * Y)) := by ring
      omega
    simp only [place, e]
  have back : ∀ r, r = r % X + X * (r % (X * Y) / X) + X * Y * (r / (X * Y)) := by
    intro r
    have h1 := Nat.div_add_mod r (X * Y)
    have h2 := Nat.div_add_mod (r % (X * Y)) X
    have h3 : r % (X * Y) % X = r % X := Nat.mod_mul_right_mod r X Y
    omega
  refine ⟨?_, ?_⟩
  · intro r hr
    rw [pl]
    refine ⟨Nat.mod_lt _ hX, ?_, ?_⟩
    · exact (Nat.div_lt_iff_lt_mul hX).2 (by rw [Nat.mul_comm Y X]; exact Nat.mod_lt _ hXY)
    · exact (Nat.div_lt_iff_lt_mul hXY).2 (by rw [Nat.mul_comm Z, hm]; exact hr)
  · intro x y z hx hy hz
    dsimp only at hx hy hz
    have b1 : x + X * y < X * Y := by
      have : X * (y + 1) ≤ X * Y := Nat.mul_le_mul_left X hy
      rw [Nat.mul_add] at this; omega
    have b2 : x + X * y + X * Y * z < n := by
      have : X * Y * (z + 1) ≤ X * Y * Z := Nat.mul_le_mul_left (X * Y) hz
      rw [Nat.mul_add, hm] at this; omega
    refine ⟨x + X * y + X * Y * z, b2, ?_, ?_⟩
    · rw [pl, Nat.add_mul_mod_self_left, Nat.mod_eq_of_lt b1, Nat.add_mul_div_left _ _ hXY, Nat.div_eq_of_lt b1,
        Nat.add_mul_div_left _ _ hX, Nat.div_eq_of_lt hx, Nat.mul_assoc, Nat.add_mul_mod_self_left,
        Nat.add_mul_mod_self_left, Nat.mod_eq_of_lt hx]
      simp
    · intro r' _ hr'
      rw [pl] at hr'
      simp only [Shape.mk.injEq] at hr'
      have := back r'
      rw [hr'.1, hr'.2.1, hr'.2.2] at this
      exact this

example : place (shape 19 360 0) 100 = ⟨4, 4, 2⟩ := by decide +kernel

end Verif.Apps.Hpcg
