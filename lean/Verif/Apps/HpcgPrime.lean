import Verif.Apps.HpcgShape
import Mathlib.Data.Nat.Prime.Basic
set_option autoImplicit false
/-
The factors of the HPCG skeleton are primes, and the two loops try every shape.
-/
namespace Verif.Apps.Hpcg

/-- Every factor is a prime. -/
def Primes (m : FMap) : Prop := ∀ e ∈ m, Nat.Prime e.1

theorem inc_primes (k : Nat) (m : FMap) (hk : Nat.Prime k) (h : Primes m) : Primes (inc k m) := by
  induction m with
  | nil => intro e he; simp only [inc, List.mem_singleton] at he; subst he; exact hk
  | cons e m ih =>
    obtain ⟨a, c⟩ := e
    have h1 := h (a, c) (by simp)
    have h2 : Primes m := fun e he => h e (by simp [he])
    simp only [inc]
    split
    · intro e he
      rcases List.mem_cons.1 he with rfl | he
      · exact h1
      · exact h2 e he
    · split
      · intro e he
        rcases List.mem_cons.1 he with rfl | he
        · exact hk
        · exact h e he
      · intro e he
        rcases List.mem_cons.1 he with rfl | he
        · exact h1
        · exact ih h2 e he

theorem twos_primes : ∀ (f n : Nat) (m : FMap), 0 < n → n ≤ f → Primes m →
    ¬ 2 ∣ (twos f n m).1 ∧ (twos f n m).1 ∣ n ∧ Primes (twos f n m).2 := by
  intro f
  induction f with
  | zero => intro n m h hf; omega
  | succ f ih =>
    intro n m h hf hg
    simp only [twos]
    split
    · rename_i hc
      obtain ⟨i1, i2, i3⟩ := ih (n / 2) (inc 2 m) (by omega) (by omega) (inc_primes 2 m Nat.prime_two hg)
      exact ⟨i1, i2.trans (Nat.div_dvd_of_dvd (by omega)), i3⟩
    · exact ⟨by dsimp only; omega, Nat.dvd_refl _, hg⟩

theorem removeAll_primes (d : Nat) (hd : 2 ≤ d) : ∀ (f n : Nat) (m : FMap), 0 < n → n ≤ f →
    (d ∣ n → Nat.Prime d) → Primes m →
    ¬ d ∣ (removeAll d f n m).1 ∧ (removeAll d f n m).1 ∣ n ∧ Primes (removeAll d f n m).2 := by
  intro f
  induction f with
  | zero => intro n m h hf; omega
  | succ f ih =>
    intro n m h hf hp hg
    simp only [removeAll]
    split
    · rename_i hc
      have hdv : d ∣ n := Nat.dvd_of_mod_eq_zero hc
      have hpos : 0 < n / d := Nat.div_pos (Nat.le_of_dvd h hdv) (by omega)
      have hlt : n / d < n := Nat.div_lt_self h (by omega)
      obtain ⟨i1, i2, i3⟩ := ih (n / d) (inc d m) hpos (by omega) (fun _ => hp hdv) (inc_primes d m (hp hdv) hg)
      exact ⟨i1, i2.trans (Nat.div_dvd_of_dvd hdv), i3⟩
    · rename_i hc
      exact ⟨fun hh => hc (Nat.mod_eq_zero_of_dvd hh), Nat.dvd_refl _, hg⟩

/-- No prime below `d` divides `n`. -/
def Rough (d n : Nat) : Prop := ∀ p, Nat.Prime p → p < d → ¬ p ∣ n

theorem rough_prime (d n : Nat) (hd : 2 ≤ d) (hr : Rough d n) (h : d ∣ n) : Nat.Prime d := by
  have hm := Nat.minFac_prime (n := d) (by omega)
  have hdv := Nat.minFac_dvd d
  have hle := Nat.minFac_le (n := d) (by omega)
  rcases Nat.lt_or_ge (Nat.minFac d) d with hlt | hge
  · exact absurd (hdv.trans h) (hr _ hm hlt)
  · have : Nat.minFac d = d := by omega
    rwa [this] at hm

theorem odds_primes (sq : Nat) : ∀ (f d n : Nat) (m : FMap), 3 ≤ d → d % 2 = 1 → sq < d + 2 * f → 0 < n → Good m →
    Rough d n → Primes m →
    Rough (sq + 1) (odds sq f d n m).1 ∧ (odds sq f d n m).1 ∣ n ∧ Primes (odds sq f d n m).2 := by
  intro f
  induction f with
  | zero => intro d n m _ _ hf _ _ hr hg; exact ⟨fun p hp hl => hr p hp (by omega), Nat.dvd_refl _, hg⟩
  | succ f ih =>
    intro d n m hd ho hf h hgood hr hg
    simp only [odds]
    split
    · obtain ⟨q1, q2, q3⟩ := removeAll_primes d (by omega) n n m h (Nat.le_refl _) (rough_prime d n (by omega) hr) hg
      obtain ⟨r1, r2, _⟩ := removeAll_spec d (by omega) n n m h hgood
      have hr' : Rough (d + 2) (removeAll d n n m).1 := by
        intro p hp hl hdv
        rcases Nat.lt_or_ge p d with hlt | hge
        · exact hr p hp hlt (hdv.trans q2)
        · have : p = d ∨ p = d + 1 := by omega
          rcases this with rfl | rfl
          · exact q1 hdv
          · exact hr 2 Nat.prime_two (by omega) ((show 2 ∣ d + 1 by omega).trans (hdv.trans q2))
      obtain ⟨i1, i2, i3⟩ := ih (d + 2) _ _ (by omega) (by omega) (by omega) r1 r2 hr' q3
      exact ⟨i1, i2.trans q2, i3⟩
    · exact ⟨fun p hp hl => hr p hp (by omega), Nat.dvd_refl _, hg⟩

/-- The factors of a number above one are primes. -/
theorem primeFactors_primes (sq n : Nat) (h : 0 < n) (hs : n < sq * sq) :
    Primes (primeFactors sq n) ∨ primeFactors sq n = [(1, 1)] := by
  have g0 : Good [] := by intro e he; simp at he
  have p0 : Primes [] := by intro e he; simp at he
  obtain ⟨t1, t2, t3⟩ := twos_spec n n [] h g0
  obtain ⟨u1, u2, u3⟩ := twos_primes n n [] h (Nat.le_refl _) p0
  have hr : Rough 3 (twos n n []).1 := by
    intro p hp hl
    have := hp.two_le
    have : p = 2 := by omega
    rw [this]; exact u1
  obtain ⟨o1, o2, o3⟩ := odds_spec sq sq 3 _ _ (by omega) t1 t2
  obtain ⟨v1, v2, v3⟩ := odds_primes sq sq 3 _ _ (by omega) (by omega) (by omega) t1 t2 hr u3
  have hdv := v2.trans u2
  simp only [primeFactors]
  generalize odds sq sq 3 (twos n n []).1 (twos n n []).2 = o at *
  by_cases hc : 1 < o.1 ∨ o.2.length = 0
  · rw [if_pos hc]
    by_cases h1 : 1 < o.1
    · left
      refine inc_primes _ _ ?_ v3
      by_contra hnp
      have hm := Nat.minFac_prime (n := o.1) (by omega)
      have hsq := Nat.minFac_sq_le_self (n := o.1) (by omega) hnp
      have hle := Nat.le_of_dvd h hdv
      have hlt : Nat.minFac o.1 < sq := by
        by_contra hh
        have := Nat.mul_le_mul (Nat.le_of_not_lt hh) (Nat.le_of_not_lt hh)
        rw [Nat.pow_two] at hsq
        omega
      exact v1 _ hm (by omega) (Nat.minFac_dvd _)
    · have h2 : o.2 = [] := by
        rcases hc with hc | hc
        · exact absurd hc h1
        · exact List.length_eq_zero_iff.1 hc
      have h3 : o.1 = 1 := by omega
      rw [h2, h3]; right; rfl
  · rw [if_neg hc]; exact Or.inl v3

/-- A divisor of a product of prime powers is a product of smaller powers. -/
theorem dvd_powers : ∀ (ks m : List Nat) (a : Nat), ks.length = m.length → (∀ k ∈ ks, Nat.Prime k) → a ∣ powers ks m →
    ∃ c, Le c m ∧ a = powers ks c
  | [], [], a, _, _, h => ⟨[], trivial, by simpa [powers] using h⟩
  | k :: ks, m :: ms, a, hl, hp, h => by
    obtain ⟨a1, a2, h1, h2, e⟩ := (Nat.dvd_mul).1 (show a ∣ k ^ m * powers ks ms from h)
    obtain ⟨i, hi, e1⟩ := (Nat.dvd_prime_pow (hp k (by simp))).1 h1
    obtain ⟨c, hc, e2⟩ := dvd_powers ks ms a2 (by simpa using hl) (fun x hx => hp x (by simp [hx])) h2
    exact ⟨i :: c, ⟨hi, hc⟩, by rw [← e, e1, e2]; rfl⟩
  | [], _ :: _, _, hl, _, _ => by simp at hl
  | _ :: _, [], _, hl, _, _ => by simp at hl

theorem powers_zero : ∀ (ks c : List Nat), isZero c = true → powers ks c = 1
  | [], c, _ => by cases c <;> rfl
  | _ :: _, [], _ => rfl
  | k :: ks, c :: cs, h => by
    have h' : c = 0 ∧ isZero cs = true := by simpa [isZero] using h
    show k ^ c * powers ks cs = 1
    rw [h'.1, powers_zero ks cs h'.2]; rfl

/-- Every shape whose first two extents are above one is tried. -/
theorem tried_all (n : Nat) (m : FMap) (hg : Primes m) (hn : prodOf m = n) (s : Shape)
    (hs : s.x * s.y * s.z = n) (hx : 2 ≤ s.x) (hy : 2 ≤ s.y) : s ∈ tried n m := by
  have hk : ∀ k ∈ m.map (·.1), Nat.Prime k := by
    intro k hk
    obtain ⟨e, he, rfl⟩ := List.mem_map.1 hk
    exact hg e he
  obtain ⟨a, b, c⟩ := s
  dsimp only at hs hx hy
  obtain ⟨c1, l1, e1⟩ := dvd_powers (m.map (·.1)) (m.map (·.2)) a (by simp) hk
    (by rw [show powers (m.map (·.1)) (m.map (·.2)) = n from hn, ← hs, Nat.mul_assoc]; exact Nat.dvd_mul_right _ _)
  have hr := powers_rest (m.map (·.1)) _ _ l1
  rw [← e1, show powers (m.map (·.1)) (m.map (·.2)) = n from hn, ← hs, Nat.mul_assoc] at hr
  have hr' := Nat.eq_of_mul_eq_mul_left (by omega) hr
  obtain ⟨c2, l2, e2⟩ := dvd_powers (m.map (·.1)) (rest (m.map (·.2)) c1) b (by rw [rest_length _ _ l1]; simp) hk
    (by rw [hr']; exact Nat.dvd_mul_right _ _)
  have z1 : isZero c1 = false := by
    cases hz : isZero c1
    · rfl
    · rw [powers_zero _ _ hz] at e1; omega
  have z2 : isZero c2 = false := by
    cases hz : isZero c2
    · rfl
    · rw [powers_zero _ _ hz] at e2; omega
  simp only [tried]
  refine List.mem_flatMap.2 ⟨c1, (mem_visited _ _).2 ⟨l1, z1⟩, List.mem_map.2 ⟨c2, (mem_visited _ _).2 ⟨l2, z2⟩, ?_⟩⟩
  simp only [product, z1, z2, Bool.false_eq_true, if_false, ← e1, ← e2]
  congr 1
  rw [← hs, Nat.mul_assoc, Nat.mul_div_cancel_left _ (by omega), Nat.mul_div_cancel_left _ (by omega)]

end Verif.Apps.Hpcg
