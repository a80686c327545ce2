import Verif.Apps.HpcgCount
set_option autoImplicit false
/-
The shapes of the HPCG skeleton: factors, powers, the search.
-/
namespace Verif.Apps.Hpcg

/-- The product of all factors. -/
def prodOf (m : FMap) : Nat := powers (m.map (·.1)) (m.map (·.2))

theorem inc_prod (k : Nat) (m : FMap) : prodOf (inc k m) = k * prodOf m := by
  induction m with
  | nil => simp [inc, prodOf, powers]
  | cons e m ih =>
    obtain ⟨a, c⟩ := e
    simp only [inc]
    split
    · rename_i h; subst h
      simp only [prodOf, List.map_cons, powers, Nat.pow_succ]
      ac_rfl
    · split
      · simp only [prodOf, List.map_cons, powers, Nat.pow_one]
      · simp only [prodOf, List.map_cons, powers] at ih ⊢
        rw [ih]; ac_rfl

theorem inc_ne (k : Nat) (m : FMap) : inc k m ≠ [] := by
  cases m with
  | nil => simp [inc]
  | cons e m => obtain ⟨a, c⟩ := e; simp only [inc]; split <;> (try split) <;> simp

/-- Every count is positive, every factor at least two. -/
def Good (m : FMap) : Prop := ∀ e ∈ m, 2 ≤ e.1 ∧ 1 ≤ e.2

theorem inc_good (k : Nat) (m : FMap) (hk : 2 ≤ k) (h : Good m) : Good (inc k m) := by
  induction m with
  | nil => intro e he; simp only [inc, List.mem_singleton] at he; subst he; exact ⟨hk, by simp⟩
  | cons e m ih =>
    obtain ⟨a, c⟩ := e
    have h1 := h (a, c) (by simp)
    have h2 : Good m := fun e he => h e (by simp [he])
    simp only [inc]
    split
    · intro e he
      rcases List.mem_cons.1 he with rfl | he
      · exact ⟨h1.1, by simp⟩
      · exact h2 e he
    · split
      · intro e he
        rcases List.mem_cons.1 he with rfl | he
        · exact ⟨hk, by simp⟩
        · exact h e he
      · intro e he
        rcases List.mem_cons.1 he with rfl | he
        · exact h1
        · exact ih h2 e he

theorem twos_spec : ∀ (f n : Nat) (m : FMap), 0 < n → Good m →
    0 < (twos f n m).1 ∧ Good (twos f n m).2 ∧ (twos f n m).1 * prodOf (twos f n m).2 = n * prodOf m := by
  intro f
  induction f with
  | zero => intro n m h hg; exact ⟨h, hg, rfl⟩
  | succ f ih =>
    intro n m h hg
    simp only [twos]
    split
    · rename_i hc
      obtain ⟨i1, i2, i3⟩ := ih (n / 2) (inc 2 m) (by omega) (inc_good 2 m (by omega) hg)
      refine ⟨i1, i2, ?_⟩
      rw [i3, inc_prod, ← Nat.mul_assoc]
      congr 1; omega
    · exact ⟨h, hg, rfl⟩

theorem removeAll_spec (d : Nat) (hd : 2 ≤ d) : ∀ (f n : Nat) (m : FMap), 0 < n → Good m →
    0 < (removeAll d f n m).1 ∧ Good (removeAll d f n m).2 ∧
      (removeAll d f n m).1 * prodOf (removeAll d f n m).2 = n * prodOf m := by
  intro f
  induction f with
  | zero => intro n m h hg; exact ⟨h, hg, rfl⟩
  | succ f ih =>
    intro n m h hg
    simp only [removeAll]
    split
    · rename_i hc
      have hdv : d ∣ n := Nat.dvd_of_mod_eq_zero hc
      have hp : 0 < n / d := Nat.div_pos (Nat.le_of_dvd h hdv) (by omega)
      obtain ⟨i1, i2, i3⟩ := ih (n / d) (inc d m) hp (inc_good d m hd hg)
      refine ⟨i1, i2, ?_⟩
      rw [i3, inc_prod, ← Nat.mul_assoc, Nat.div_mul_cancel hdv]
    · exact ⟨h, hg, rfl⟩

theorem odds_spec (sq : Nat) : ∀ (f d n : Nat) (m : FMap), 2 ≤ d → 0 < n → Good m →
    0 < (odds sq f d n m).1 ∧ Good (odds sq f d n m).2 ∧
      (odds sq f d n m).1 * prodOf (odds sq f d n m).2 = n * prodOf m := by
  intro f
  induction f with
  | zero => intro d n m _ h hg; exact ⟨h, hg, rfl⟩
  | succ f ih =>
    intro d n m hd h hg
    simp only [odds]
    split
    · obtain ⟨r1, r2, r3⟩ := removeAll_spec d hd n n m h hg
      obtain ⟨i1, i2, i3⟩ := ih (d + 2) _ _ (by omega) r1 r2
      exact ⟨i1, i2, i3.trans r3⟩
    · exact ⟨h, hg, rfl⟩

/-- The factors of a number multiply to it. -/
theorem primeFactors_spec (sq n : Nat) (h : 0 < n) :
    prodOf (primeFactors sq n) = n ∧ primeFactors sq n ≠ [] ∧ (Good (primeFactors sq n) ∨ primeFactors sq n = [(1, 1)]) := by
  have g0 : Good [] := by intro e he; simp at he
  obtain ⟨t1, t2, t3⟩ := twos_spec n n [] h g0
  obtain ⟨o1, o2, o3⟩ := odds_spec sq sq 3 _ _ (by omega) t1 t2
  have e : (odds sq sq 3 (twos n n []).1 (twos n n []).2).1 * prodOf (odds sq sq 3 (twos n n []).1 (twos n n []).2).2 = n := by
    rw [o3, t3]; simp [prodOf, powers]
  simp only [primeFactors]
  generalize odds sq sq 3 (twos n n []).1 (twos n n []).2 = o at *
  by_cases hc : 1 < o.1 ∨ o.2.length = 0
  · rw [if_pos hc]
    refine ⟨by rw [inc_prod, e], inc_ne _ _, ?_⟩
    by_cases h1 : 1 < o.1
    · exact Or.inl (inc_good _ _ h1 o2)
    · have h2 : o.2 = [] := by rcases hc with hc | hc; exact absurd hc h1; exact List.length_eq_zero_iff.1 hc
      have h3 : o.1 = 1 := by omega
      rw [h2, h3]; right; rfl
  · rw [if_neg hc]
    have h3 : o.1 = 1 := by omega
    rw [h3, Nat.one_mul] at e
    exact ⟨e, fun h => hc (Or.inr (by rw [h]; rfl)), Or.inl o2⟩

theorem powLoop_eq : ∀ (f v x p : Nat), p < f → powLoop f v x p = v * x ^ p := by
  intro f
  induction f with
  | zero => intro v x p h; omega
  | succ f ih =>
    intro v x p h
    simp only [powLoop]
    split
    · rename_i hp; subst hp; simp
    · rename_i hp
      rw [ih _ _ _ (by omega)]
      have e1 : (x * x) ^ (p / 2) = x ^ (2 * (p / 2)) := by
        rw [Nat.pow_mul, Nat.pow_two]
      rw [e1]
      split
      · rename_i ho
        have e2 : p = 2 * (p / 2) + 1 := by omega
        conv => rhs; rw [e2, Nat.pow_succ]
        ac_rfl
      · rename_i ho
        congr 2; omega

theorem powI_eq (x p : Nat) (h : 2 ≤ x ∨ x = 1) : powI x p = x ^ p := by
  simp only [powI]
  split
  · have : x = 1 := by omega
    subst this; simp
  · rw [powLoop_eq _ _ _ _ (by omega), Nat.one_mul]

theorem rest_nil_l (c : List Nat) : rest [] c = [] := rfl

/-- Powers of what is taken and of what remains. -/
theorem powers_rest : ∀ (ks m c : List Nat), Le c m → powers ks c * powers ks (rest m c) = powers ks m
  | [], m, c, _ => by cases m <;> cases c <;> simp [powers]
  | k :: ks, m :: ms, c :: cs, h => by
    have ih := powers_rest ks ms cs h.2
    have h1 := h.1
    show k ^ c * powers ks cs * (k ^ (m - c) * powers ks (rest ms cs)) = k ^ m * powers ks ms
    rw [← ih]
    have e : k ^ m = k ^ c * k ^ (m - c) := by rw [← Nat.pow_add]; congr 1; omega
    rw [e]; ac_rfl
  | _ :: _, [], [], _ => by simp [powers, rest]
  | _, [], _ :: _, h => absurd h (by simp [Le])
  | _, _ :: _, [], h => absurd h (by simp [Le])

theorem powers_pos : ∀ (ks c : List Nat), (∀ k ∈ ks, 2 ≤ k) → 0 < powers ks c
  | [], c, _ => by cases c <;> simp [powers]
  | _ :: _, [], _ => by simp [powers]
  | k :: ks, c :: cs, h => by
    have := powers_pos ks cs (fun a ha => h a (by simp [ha]))
    have hk := h k (by simp)
    exact Nat.mul_pos (Nat.pow_pos (by omega)) this

/-- A product of at least one factor is at least two. -/
theorem powers_two : ∀ (ks c : List Nat), (∀ k ∈ ks, 2 ≤ k) → c.length = ks.length → isZero c = false → 2 ≤ powers ks c
  | [], [], _, _, h => by simp [isZero] at h
  | [], _ :: _, _, h, _ => by simp at h
  | _ :: _, [], _, h, _ => by simp at h
  | k :: ks, c :: cs, h, hl, hz => by
    have hk := h k (by simp)
    have h' : ∀ a ∈ ks, 2 ≤ a := fun a ha => h a (by simp [ha])
    have hp := powers_pos ks cs h'
    show 2 ≤ k ^ c * powers ks cs
    cases c with
    | zero =>
      have hz' : isZero cs = false := by simpa [isZero] using hz
      have := powers_two ks cs h' (by simpa using hl) hz'
      simpa using this
    | succ c =>
      have h1 : 0 < k ^ c := Nat.pow_pos (by omega)
      have h2 : 2 ≤ k ^ (c + 1) := by
        rw [Nat.pow_succ]
        calc 2 = 1 * 2 := rfl
          _ ≤ k ^ c * k := Nat.mul_le_mul h1 hk
      calc 2 = 2 * 1 := rfl
        _ ≤ k ^ (c + 1) * powers ks cs := Nat.mul_le_mul h2 hp

theorem le_length : ∀ (c m : List Nat), Le c m → c.length = m.length
  | [], [], _ => rfl
  | _ :: cs, _ :: ms, h => by simp [le_length cs ms h.2]
  | [], _ :: _, h => absurd h (by simp [Le])
  | _ :: _, [], h => absurd h (by simp [Le])

theorem rest_length (m c : List Nat) (h : Le c m) : (rest m c).length = m.length := by
  have := le_length c m h
  simp [rest, this]

/-- The shapes tried: products of taken factors, and what remains. -/
theorem tried_spec (n : Nat) (m : FMap) (hg : Good m) (hn : prodOf m = n) (s : Shape) (hs : s ∈ tried n m) :
    s.x * s.y * s.z = n ∧ 2 ≤ s.x ∧ 2 ≤ s.y ∧ 1 ≤ s.z := by
  simp only [tried, List.mem_flatMap, List.mem_map] at hs
  obtain ⟨c1, h1, c2, h2, rfl⟩ := hs
  rw [mem_visited] at h1 h2
  have hk : ∀ k ∈ m.map (·.1), 2 ≤ k := by
    intro k hk
    obtain ⟨e, he, rfl⟩ := List.mem_map.1 hk
    exact (hg e he).1
  have hl1 : c1.length = (m.map (·.1)).length := by rw [le_length _ _ h1.1]; simp
  have hl2 : c2.length = (m.map (·.1)).length := by rw [le_length _ _ h2.1, rest_length _ _ h1.1]; simp
  have p1 := powers_two _ _ hk hl1 h1.2
  have p2 := powers_two _ _ hk hl2 h2.2
  have e1 := powers_rest (m.map (·.1)) _ _ h1.1
  have e2 := powers_rest (m.map (·.1)) _ _ h2.1
  have p3 := powers_pos (m.map (·.1)) (rest (rest (m.map (·.2)) c1) c2) hk
  simp only [product, h1.2, h2.2, Bool.false_eq_true, if_false]
  have e3 : n = powers (m.map (·.1)) c1 * (powers (m.map (·.1)) c2 * powers (m.map (·.1)) (rest (rest (m.map (·.2)) c1) c2)) := by
    rw [e2, e1]; exact hn.symm
  have e4 : n / powers (m.map (·.1)) c1 / powers (m.map (·.1)) c2 = powers (m.map (·.1)) (rest (rest (m.map (·.2)) c1) c2) := by
    rw [e3, Nat.mul_div_cancel_left _ (by omega), Nat.mul_div_cancel_left _ (by omega)]
  rw [e4]
  exact ⟨by rw [Nat.mul_assoc]; exact e3.symm, p1, p2, p3⟩

/-- The first area is above all areas. -/
theorem area_lt (s : Shape) (n : Nat) (h : s.x * s.y * s.z = n) (hx : 2 ≤ s.x) (hy : 2 ≤ s.y) (hz : 1 ≤ s.z) :
    s.area < 2 * n + 1 := by
  obtain ⟨a, b, c⟩ := s
  simp only [Shape.area] at *
  obtain ⟨a, rfl⟩ : ∃ a', a = a' + 2 := ⟨a - 2, by omega⟩
  obtain ⟨b, rfl⟩ : ∃ b', b = b' + 2 := ⟨b - 2, by omega⟩
  have h1 : (a + 2) + (b + 2) ≤ (a + 2) * (b + 2) := by
    have : (a + 2) * (b + 2) = a * b + 2 * a + 2 * b + 4 := by grind
    omega
  have h2 := Nat.mul_le_mul_right c h1
  have h3 := Nat.mul_le_mul_left ((a + 2) * (b + 2)) hz
  rw [Nat.add_mul] at h2
  omega

/-- The search keeps the smallest area. -/
theorem foldl_best : ∀ (l : List Shape) (st : Nat × Shape),
    (l.foldl try1 st).1 ≤ st.1 ∧ (∀ s ∈ l, (l.foldl try1 st).1 ≤ s.area) ∧
      ((l.foldl try1 st = st) ∨ ∃ s ∈ l, l.foldl try1 st = (s.area, s)) := by
  intro l
  induction l with
  | nil => intro st; exact ⟨Nat.le_refl _, by simp, Or.inl rfl⟩
  | cons a l ih =>
    intro st
    obtain ⟨i1, i2, i3⟩ := ih (try1 st a)
    rw [List.foldl_cons]
    have ht : (try1 st a).1 ≤ st.1 ∧ (try1 st a).1 ≤ a.area ∧ (try1 st a = st ∨ try1 st a = (a.area, a)) := by
      simp only [try1]
      split
      · exact ⟨by dsimp only; omega, by dsimp only; omega, Or.inr rfl⟩
      · exact ⟨Nat.le_refl _, by omega, Or.inl rfl⟩
    refine ⟨by omega, ?_, ?_⟩
    · intro s hs
      rcases List.mem_cons.1 hs with rfl | hs
      · omega
      · exact i2 s hs
    · rcases i3 with i3 | ⟨s, hs, i3⟩
      · rcases ht.2.2 with hh | hh
        · left; rw [i3, hh]
        · right; exact ⟨a, by simp, by rw [i3, hh]⟩
      · right; exact ⟨s, by simp [hs], i3⟩

theorem search_spec (n : Nat) (m : FMap) (init : Shape) (hg : Good m) (hn : prodOf m = n) (hne : tried n m ≠ []) :
    search n m init ∈ tried n m ∧ ∀ s ∈ tried n m, (search n m init).area ≤ s.area := by
  obtain ⟨h1, h2, h3⟩ := foldl_best (tried n m) (2 * n + 1, init)
  simp only [search]
  rcases h3 with h3 | ⟨s, hs, h3⟩
  · exfalso
    obtain ⟨s, hs⟩ := List.exists_mem_of_ne_nil _ hne
    have hh := h2 s hs
    rw [h3] at hh
    obtain ⟨a1, a2, a3, a4⟩ := tried_spec n m hg hn s hs
    have := area_lt s n a1 a2 a3 a4
    dsimp only at hh; omega
  · rw [h3] at h2 ⊢
    exact ⟨hs, h2⟩

theorem zeros_le (m : List Nat) : Le (List.replicate m.length 0) m := (zero_le m).1

/-- With two factors there is something to try. -/
theorem tried_ne (n : Nat) (e1 e2 : Nat × Nat) (l : FMap) (hg : Good (e1 :: e2 :: l)) : tried n (e1 :: e2 :: l) ≠ [] := by
  have g1 := (hg e1 (by simp)).2
  have g2 := (hg e2 (by simp)).2
  have m1 : (1 :: 0 :: List.replicate (l.map (·.2)).length 0) ∈ visited ((e1 :: e2 :: l).map (·.2)) := by
    rw [mem_visited]
    exact ⟨⟨g1, Nat.zero_le _, zeros_le _⟩, rfl⟩
  have hr : Le (List.replicate (l.map (·.2)).length 0) (rest (l.map (·.2)) (List.replicate (l.map (·.2)).length 0)) := by
    have := zeros_le (rest (l.map (·.2)) (List.replicate (l.map (·.2)).length 0))
    rwa [rest_length _ _ (zeros_le _)] at this
  have m2 : (0 :: 1 :: List.replicate (l.map (·.2)).length 0) ∈
      visited (rest ((e1 :: e2 :: l).map (·.2)) (1 :: 0 :: List.replicate (l.map (·.2)).length 0)) := by
    rw [mem_visited]
    exact ⟨⟨Nat.zero_le _, by show 1 ≤ e2.2 - 0; omega, hr⟩, rfl⟩
  intro h
  have : ∃ s, s ∈ tried n (e1 :: e2 :: l) := by
    simp only [tried]
    exact ⟨_, List.mem_flatMap.2 ⟨_, m1, List.mem_map.2 ⟨_, m2, rfl⟩⟩⟩
  rw [h] at this
  simp at this

/-- The shape of a number multiplies to it. -/
theorem shape_mul (sq n z0 : Nat) (h : 0 < n) :
    (shape sq n z0).x * (shape sq n z0).y * (shape sq n z0).z = n := by
  obtain ⟨h1, h2, h3⟩ := primeFactors_spec sq n h
  simp only [shape]
  generalize primeFactors sq n = m at *
  match m, h1, h2, h3 with
  | [], _, h2, _ => exact absurd rfl h2
  | [(x, c)], h1, _, h3 =>
    have hx : 2 ≤ x ∨ x = 1 := by
      rcases h3 with h3 | h3
      · exact Or.inl (h3 (x, c) (by simp)).1
      · simp at h3; exact Or.inr h3.1
    simp only [powI_eq _ _ hx, ← Nat.pow_add]
    simp only [prodOf, powers, List.map_cons, List.map_nil, Nat.mul_one] at h1
    rw [← h1]; congr 1
    split <;> split <;> omega
  | [(x, a), (y, b)], h1, _, h3 =>
    have hg : Good [(x, a), (y, b)] := by rcases h3 with h3 | h3; exact h3; simp at h3
    have ga := (hg (x, a) (by simp)).2
    have gb := (hg (y, b) (by simp)).2
    dsimp only
    split
    · rename_i hc
      rw [hc.1, hc.2] at h1
      simpa [prodOf, powers] using h1
    · split
      · rename_i hc
        have : (a = 1 ∧ b = 2) ∨ (a = 2 ∧ b = 1) := by dsimp only at ga gb; omega
        rcases this with ⟨rfl, rfl⟩ | ⟨rfl, rfl⟩
        · simp [prodOf, powers, Nat.pow_succ] at h1 ⊢; rw [← h1]; ac_rfl
        · simp [prodOf, powers, Nat.pow_succ] at h1 ⊢; rw [← h1]; ac_rfl
      · exact (tried_spec n _ hg h1 _ (search_spec n _ _ hg h1 (tried_ne n _ _ _ hg)).1).1
  | (x, a) :: (y, b) :: (w, c) :: l, h1, _, h3 =>
    have hg : Good ((x, a) :: (y, b) :: (w, c) :: l) := by rcases h3 with h3 | h3; exact h3; simp at h3
    dsimp only
    split
    · rename_i hc
      obtain ⟨rfl, rfl, rfl, rfl⟩ := hc
      simp [prodOf, powers] at h1 ⊢; rw [← h1]; ac_rfl
    · exact (tried_spec n _ hg h1 _ (search_spec n _ _ hg h1 (tried_ne n _ _ _ hg)).1).1

end Verif.Apps.Hpcg
