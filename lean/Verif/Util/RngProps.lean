import Verif.Util.Rng
set_option autoImplicit false
/-
The random number generators: seeds determine the sequence; the recurrences of the
documentation hold for MWC and CONG, whose full period is proved; the period of SHR3, the lags of
LFIB4 and SWB and the intervals of the real numbers are refuted.
-/
namespace SST.Util.Rng

/-- After seeding, nothing of the earlier state is left: all generators of a kind with the same
seeds give the same numbers from then on. -/
theorem C110_seeded (seeds : List W) :
    (∀ a b : Mwc, a.reseed seeds = b.reseed seeds) ∧ (∀ a b : Shr3, a.reseed seeds = b.reseed seeds) ∧
    (∀ a b : Cong, a.reseed seeds = b.reseed seeds) ∧ (∀ a b : Simple, a.reseed seeds = b.reseed seeds) ∧
    (∀ a b : Table, a.reseed seeds = b.reseed seeds) ∧ (∀ a b : Swb, a.reseed seeds = b.reseed seeds) ∧
    (∀ a b : Combo, a.reseed seeds = b.reseed seeds) := by
  have h4 : ∀ (seeds : List W) (a b : Simple), a.reseed seeds = b.reseed seeds := fun _ _ _ => rfl
  have h5 : ∀ (seeds : List W) (a b : Table), a.reseed seeds = b.reseed seeds := by
    intro seeds a b
    unfold Table.reseed
    rw [h4 seeds a.seeder b.seeder]
  have h6 : ∀ (seeds : List W) (a b : Swb), a.reseed seeds = b.reseed seeds := by
    intro seeds a b
    unfold Swb.reseed
    rw [h5 seeds a.tab b.tab]
  refine ⟨fun _ _ => rfl, fun _ _ => rfl, fun _ _ => rfl, h4 seeds, h5 seeds, h6 seeds, ?_⟩
  intro a b
  unfold Combo.reseed
  rw [h6 _ a.swb b.swb, h4 _ a.simple b.simple]

/-- The low and the high half of a word. -/
def low (x : W) : Nat := x.toNat % 65536
/-- The high half. -/
def high (x : W) : Nat := x.toNat / 65536

theorem mwc_half (a : Nat) (ha : a < 65535) (x : W) :
    (BitVec.ofNat 32 a * (x &&& 65535#32) + (x >>> 16)).toNat = a * low x + high x := by
  have h1 : (x &&& 65535#32).toNat = low x := by
    rw [BitVec.toNat_and]
    have : (65535#32).toNat = 2 ^ 16 - 1 := by decide
    rw [this, Nat.and_two_pow_sub_one_eq_mod]
    rfl
  have h2 : (x >>> 16).toNat = high x := by
    rw [BitVec.toNat_ushiftRight, Nat.shiftRight_eq_div_pow]
    rfl
  have hl : low x < 65536 := Nat.mod_lt _ (by decide)
  have hh : high x < 65536 := by
    have := x.isLt
    unfold high
    omega
  have hm : a * low x ≤ 65534 * 65535 := Nat.mul_le_mul (by omega) (by omega)
  rw [BitVec.toNat_add, BitVec.toNat_mul, BitVec.toNat_ofNat, h1, h2]
  rw [Nat.mod_eq_of_lt (a := a) (by omega), Nat.mod_eq_of_lt (a := a * low x) (by omega), Nat.mod_eq_of_lt (by omega)]

/-- `MWC` concatenates two 16-bit generators `x(n) = 36969 x(n-1) + carry` and
`y(n) = 18000 y(n-1) + carry`, each with its carry. -/
theorem C110_mwc (s : Mwc) :
    low s.value.2.z = (36969 * low s.z + high s.z) % 65536 ∧ high s.value.2.z = (36969 * low s.z + high s.z) / 65536 ∧
    low s.value.2.w = (18000 * low s.w + high s.w) % 65536 ∧ high s.value.2.w = (18000 * low s.w + high s.w) / 65536 ∧
    s.value.1.toNat = 65536 * low s.value.2.z + low s.value.2.w := by
  have hz : s.value.2.z.toNat = 36969 * low s.z + high s.z := mwc_half 36969 (by decide) s.z
  have hw : s.value.2.w.toNat = 18000 * low s.w + high s.w := mwc_half 18000 (by decide) s.w
  refine ⟨by unfold low at *; rw [hz], by unfold high at *; rw [hz], by unfold low at *; rw [hw], by unfold high at *; rw [hw], ?_⟩
  have hv : s.value.1 = (s.value.2.z <<< 16) + (s.value.2.w &&& 65535#32) := rfl
  have h1 : (s.value.2.w &&& 65535#32).toNat = low s.value.2.w := by
    rw [BitVec.toNat_and]
    have : (65535#32).toNat = 2 ^ 16 - 1 := by decide
    rw [this, Nat.and_two_pow_sub_one_eq_mod]
    rfl
  rw [hv, BitVec.toNat_add, h1, BitVec.toNat_shiftLeft, Nat.shiftLeft_eq]
  unfold low
  have := s.value.2.z.isLt
  have := s.value.2.w.isLt
  omega

/-- The generator `CONG` after some numbers. -/
def Cong.after : Nat → Cong → Cong
  | 0, s => s
  | n + 1, s => (Cong.after n s).value.2

/-- The sum of the first powers of the multiplier. -/
def S : Nat → Nat
  | 0 => 0
  | n + 1 => 69069 * S n + 1

theorem S_add (m n : Nat) : S (m + n) = 69069 ^ n * S m + S n := by
  induction n with
  | zero => simp [S]
  | succ n ih =>
    rw [Nat.add_succ, S, ih, S, Nat.pow_succ]
    generalize 69069 ^ n = p
    grind

theorem pow_mod4 (n : Nat) : 69069 ^ n % 4 = 1 := by
  induction n with
  | zero => rfl
  | succ n ih => rw [Nat.pow_succ, Nat.mul_mod, ih]

theorem S_odd (n : Nat) : S n % 2 = n % 2 := by
  induction n with
  | zero => rfl
  | succ n ih => unfold S; omega

theorem coprime_odd (x : Nat) (h : x % 2 = 1) : Nat.Coprime 2 x := by
  unfold Nat.Coprime
  rw [Nat.gcd_rec, h]
  decide

theorem S_dvd (k n : Nat) : 2 ^ k ∣ S n ↔ 2 ^ k ∣ n := by
  induction k generalizing n with
  | zero => simp
  | succ k ih =>
    by_cases ho : n % 2 = 1
    · have h2 : ∀ x, 2 ^ (k + 1) ∣ x → x % 2 = 0 := by
        intro x hx
        have : 2 ∣ x := Nat.dvd_trans (by rw [Nat.pow_succ]; exact Nat.dvd_mul_left _ _) hx
        omega
      constructor
      · intro h; have := h2 _ h; have := S_odd n; omega
      · intro h; have := h2 _ h; omega
    · obtain ⟨m, rfl⟩ : ∃ m, n = m + m := ⟨n / 2, by omega⟩
      have hp := pow_mod4 m
      obtain ⟨q, hq⟩ : ∃ q, 69069 ^ m + 1 = 2 * (2 * q + 1) := ⟨69069 ^ m / 4, by omega⟩
      have hS : S (m + m) = 2 * (S m * (2 * q + 1)) := by
        rw [S_add]
        have : 69069 ^ m * S m + S m = (69069 ^ m + 1) * S m := by rw [Nat.add_mul, Nat.one_mul]
        rw [this, hq]
        grind
      have hm2 : m + m = 2 * m := by omega
      have hco : Nat.Coprime (2 ^ k) (2 * q + 1) := by
        exact Nat.Coprime.pow_left _ (coprime_odd _ (by omega))
      rw [hS, hm2, Nat.pow_succ, Nat.mul_comm (2 ^ k) 2, Nat.mul_dvd_mul_iff_left (by decide),
        Nat.mul_dvd_mul_iff_left (by decide), ← ih m]
      constructor
      · exact fun h => hco.dvd_of_dvd_mul_right h
      · exact fun h => Nat.dvd_trans h (Nat.dvd_mul_right _ _)

theorem cong_after (s : Cong) (n : Nat) :
    (Cong.after n s).jcong.toNat = (69069 ^ n * s.jcong.toNat + 1234567 * S n) % 2 ^ 32 := by
  induction n with
  | zero =>
    have := s.jcong.isLt
    simp only [Cong.after, S, Nat.pow_zero, Nat.one_mul, Nat.mul_zero, Nat.add_zero]
    rw [Nat.mod_eq_of_lt this]
  | succ n ih =>
    have h1 : (Cong.after (n + 1) s).jcong = 69069#32 * (Cong.after n s).jcong + 1234567#32 := rfl
    rw [h1, BitVec.toNat_add, BitVec.toNat_mul, ih]
    have h2 : (69069#32).toNat = 69069 := rfl
    have h3 : (1234567#32).toNat = 1234567 := rfl
    rw [h2, h3, S, Nat.pow_succ 69069 n]
    have h4 : 69069 ^ n * 69069 * s.jcong.toNat + 1234567 * (69069 * S n + 1) =
        69069 * (69069 ^ n * s.jcong.toNat + 1234567 * S n) + 1234567 := by grind
    rw [h4]
    simp only [Nat.add_mod, Nat.mul_mod, Nat.mod_mod]

theorem pow_S (n : Nat) : 69069 ^ n = 69068 * S n + 1 := by
  induction n with
  | zero => rfl
  | succ n ih => rw [Nat.pow_succ, ih, S]; grind

/-- `CONG` follows `x(n) = 69069 x(n-1) + 1234567` modulo 2^32 and has the full period: it
returns to its seed exactly after the multiples of 2^32 numbers. -/
theorem C110_cong_period (s : Cong) (n : Nat) :
    (s.value.1.toNat = (69069 * s.jcong.toNat + 1234567) % 2 ^ 32) ∧ (Cong.after n s = s ↔ 2 ^ 32 ∣ n) := by
  constructor
  · have h1 : s.value.1 = 69069#32 * s.jcong + 1234567#32 := rfl
    rw [h1, BitVec.toNat_add, BitVec.toNat_mul]
    have h2 : (69069#32).toNat = 69069 := rfl
    have h3 : (1234567#32).toNat = 1234567 := rfl
    rw [h2, h3, Nat.mod_add_mod]
  · have hx := s.jcong.isLt
    have he : Cong.after n s = s ↔ (Cong.after n s).jcong.toNat = s.jcong.toNat := by
      constructor
      · intro h; rw [h]
      · intro h
        cases hs : Cong.after n s with
        | mk a =>
          cases s with
          | mk b =>
            rw [hs] at h
            simp only at h
            rw [BitVec.eq_of_toNat_eq h]
    rw [he, cong_after, pow_S]
    generalize s.jcong.toNat = x at *
    have hodd : Nat.Coprime (2 ^ 32) (69068 * x + 1234567) := by
      exact Nat.Coprime.pow_left _ (coprime_odd _ (by omega))
    have hsum : (69068 * S n + 1) * x + 1234567 * S n = S n * (69068 * x + 1234567) + x := by grind
    rw [hsum, ← S_dvd 32 n]
    have hy : (S n * (69068 * x + 1234567) + x) % 2 ^ 32 = x ↔ 2 ^ 32 ∣ S n * (69068 * x + 1234567) := by
      generalize S n * (69068 * x + 1234567) = y
      omega
    rw [hy]
    constructor
    · exact fun h => hodd.dvd_of_dvd_mul_right h
    · exact fun h => Nat.dvd_trans h (Nat.dvd_mul_right _ _)

theorem cong_after_add (s : Cong) (i d : Nat) : Cong.after (i + d) s = Cong.after d (Cong.after i s) := by
  induction d with
  | zero => rfl
  | succ d ih => rw [Nat.add_succ, Cong.after, ih, Cong.after]

/-- `CONG` never repeats a number within 2^32 numbers. -/
theorem C110_cong_distinct (s : Cong) (i d : Nat) : Cong.after (i + d) s = Cong.after i s ↔ 2 ^ 32 ∣ d := by
  rw [cong_after_add]
  exact (C110_cong_period _ d).2

example : (Cong.value ⟨380116160#32⟩).1 ≠ 380116160#32 := by decide

/-- The generator `SHR3` after some numbers. -/
def Shr3.after : Nat → Shr3 → Shr3
  | 0, s => s
  | n + 1, s => (Shr3.after n s).value.2

/-- The documented period of `SHR3`, 2^32-1 numbers, is wrong: with the seed 0xaea21b8f it gives
the same number for ever. -/
theorem C110_shr3_period_refuted : ∃ s : Shr3, s.jsr ≠ 0 ∧ ∀ n, (Shr3.after n s).value.1 = s.jsr := by
  refine ⟨⟨0xaea21b8f#32⟩, by decide, ?_⟩
  have h : ∀ n, Shr3.after n ⟨0xaea21b8f#32⟩ = ⟨0xaea21b8f#32⟩ := by
    intro n
    induction n with
    | zero => rfl
    | succ n ih => rw [Shr3.after, ih]; decide
  intro n
  rw [h]
  decide

theorem xor_shl_zero (x : W) (k : Nat) (hk : 0 < k) (h : x ^^^ (x <<< k) = 0#32) : x = 0#32 := by
  have hb : ∀ i, i < 32 → x.getLsbD i = false := by
    intro i
    induction i using Nat.strongRecOn with
    | _ i ih =>
      intro hi
      have := congrArg (fun y => y.getLsbD i) h
      simp only [BitVec.getLsbD_xor, BitVec.getLsbD_shiftLeft, BitVec.getLsbD_zero] at this
      by_cases hlt : i < k
      · simpa [hlt] using this
      · have hz := ih (i - k) (by omega) (by omega)
        simpa [hi, hlt, hz] using this
  apply BitVec.eq_of_getLsbD_eq
  intro i hi
  rw [hb i hi]; simp

theorem xor_shr_zero (x : W) (k : Nat) (hk : 0 < k) (h : x ^^^ (x >>> k) = 0#32) : x = 0#32 := by
  have hb : ∀ j i, i = 31 - j → i < 32 → x.getLsbD i = false := by
    intro j
    induction j using Nat.strongRecOn with
    | _ j ih =>
      intro i hij hi
      have := congrArg (fun y => y.getLsbD i) h
      simp only [BitVec.getLsbD_xor, BitVec.getLsbD_ushiftRight, BitVec.getLsbD_zero] at this
      by_cases hlt : k + i < 32
      · have hz := ih (31 - (k + i)) (by omega) (k + i) (by omega) hlt
        simpa [hz] using this
      · have hz : x.getLsbD (k + i) = false := BitVec.getLsbD_of_ge _ _ (by omega)
        simpa [hz] using this
  apply BitVec.eq_of_getLsbD_eq
  intro i hi
  rw [hb (31 - i) i (by omega) hi]; simp

theorem shl_inj (k : Nat) (hk : 0 < k) (x y : W) (h : x ^^^ (x <<< k) = y ^^^ (y <<< k)) : x = y := by
  have : (x ^^^ y) ^^^ ((x ^^^ y) <<< k) = 0#32 := by
    rw [BitVec.shiftLeft_xor_distrib]
    have : x ^^^ y ^^^ (x <<< k ^^^ y <<< k) = (x ^^^ x <<< k) ^^^ (y ^^^ y <<< k) := by ac_rfl
    rw [this, h, BitVec.xor_self]
  exact BitVec.xor_eq_zero_iff.1 (xor_shl_zero _ k hk this)

theorem shr_inj (k : Nat) (hk : 0 < k) (x y : W) (h : x ^^^ (x >>> k) = y ^^^ (y >>> k)) : x = y := by
  have : (x ^^^ y) ^^^ ((x ^^^ y) >>> k) = 0#32 := by
    rw [BitVec.ushiftRight_xor_distrib]
    have : x ^^^ y ^^^ (x >>> k ^^^ y >>> k) = (x ^^^ x >>> k) ^^^ (y ^^^ y >>> k) := by ac_rfl
    rw [this, h, BitVec.xor_self]
  exact BitVec.xor_eq_zero_iff.1 (xor_shr_zero _ k hk this)

/-- `SHR3` never merges two sequences, and never reaches zero unless seeded with it. -/
theorem C110_shr3_injective (a b : Shr3) (h : a.value.1 = b.value.1) : a = b := by
  have h1 := shl_inj 5 (by decide) _ _ h
  have h2 := shr_inj 13 (by decide) _ _ h1
  have h3 := shl_inj 17 (by decide) _ _ h2
  cases a; cases b
  simp only at h3
  rw [h3]

/-- A number below the range is never zero-divided away: the result is below the range. -/
theorem C110_in_range (v range : W) (hr : range ≠ 0) : ∃ x, inRange v range = some x ∧ x.toNat < range.toNat ∧
    x.toNat = v.toNat % range.toNat := by
  refine ⟨v % range, by rw [inRange, if_neg hr], ?_, BitVec.toNat_umod ..⟩
  rw [BitVec.toNat_umod]
  have : range.toNat ≠ 0 := fun h => hr (BitVec.eq_of_toNat_eq (by simpa using h))
  exact Nat.mod_lt _ (by omega)

example : inRange 17#32 5#32 = some 2#32 := by decide

/-! ### The lagged generators -/

/-- `LFIB4` after some numbers. -/
def lfibAfter : Nat → Table → Table
  | 0, s => s
  | n + 1, s => (lfib4 (lfibAfter n s)).2

/-- The sequence of `LFIB4`: first the 256 numbers of the table from the current position on, then
the numbers it gives. -/
def lfibSeq (s : Table) (m : Nat) : W :=
  if m < 256 then s.t (s.c + BitVec.ofNat 8 m) else (lfib4 (lfibAfter (m - 256) s)).1

theorem lfib_c (s : Table) (n : Nat) : (lfibAfter n s).c = s.c + BitVec.ofNat 8 n := by
  induction n with
  | zero => simp [lfibAfter]
  | succ n ih =>
    simp only [lfibAfter, lfib4, ih]
    apply BitVec.eq_of_toNat_eq
    simp only [BitVec.ofNat_eq_ofNat, BitVec.toNat_add, BitVec.toNat_ofNat]
    omega

theorem lfib_tab (s : Table) (n k : Nat) (hk : k < 256) :
    (lfibAfter n s).t (s.c + BitVec.ofNat 8 (n + k)) = lfibSeq s (n + k) := by
  induction n generalizing k with
  | zero => simp only [lfibAfter, lfibSeq, Nat.zero_add, if_pos hk]
  | succ n ih =>
    have hstep : (lfibAfter (n + 1) s).t = put (lfibAfter n s).t (lfibAfter n s).c (lfib4 (lfibAfter n s)).1 := rfl
    rw [hstep, put, lfib_c]
    by_cases h : k = 255
    · subst h
      rw [if_pos]
      · rw [lfibSeq, if_neg (by omega), show n + 1 + 255 - 256 = n by omega]
      · apply BitVec.eq_of_toNat_eq
        simp only [BitVec.ofNat_eq_ofNat, BitVec.toNat_add, BitVec.toNat_ofNat]
        omega
    · rw [if_neg]
      · have := ih (k + 1) (by omega)
        rw [show n + (k + 1) = n + 1 + k by omega] at this
        exact this
      · intro he
        have := congrArg BitVec.toNat he
        simp only [BitVec.ofNat_eq_ofNat, BitVec.toNat_add, BitVec.toNat_ofNat] at this
        omega

/-- What `LFIB4` computes: `x(n) = x(n-256) + x(n-198) + x(n-137) + x(n-77)`.  Full property (the
documentation): lags 256, 179, 119 and 55. -/
theorem C110_lfib4_partial (s : Table) (n : Nat) :
    lfibSeq s (n + 256) = lfibSeq s n + lfibSeq s (n + 58) + lfibSeq s (n + 119) + lfibSeq s (n + 179) := by
  have h : lfibSeq s (n + 256) = (lfib4 (lfibAfter n s)).1 := by
    rw [lfibSeq, if_neg (by omega), Nat.add_sub_cancel]
  rw [h]
  have h0 := lfib_tab s n 0 (by decide)
  have h1 := lfib_tab s n 58 (by decide)
  have h2 := lfib_tab s n 119 (by decide)
  have h3 := lfib_tab s n 179 (by decide)
  rw [Nat.add_zero] at h0
  rw [← h0, ← h1, ← h2, ← h3]
  unfold lfib4
  simp only [lfib_c]
  have e : ∀ k : Nat, s.c + BitVec.ofNat 8 (n + k) = s.c + BitVec.ofNat 8 n + BitVec.ofNat 8 k := by
    intro k
    apply BitVec.eq_of_toNat_eq
    simp only [BitVec.ofNat_eq_ofNat, BitVec.toNat_add, BitVec.toNat_ofNat]
    omega
  have e3 : s.c + BitVec.ofNat 8 n + 1 + 178 = s.c + BitVec.ofNat 8 n + BitVec.ofNat 8 179 := by
    apply BitVec.eq_of_toNat_eq
    simp only [BitVec.ofNat_eq_ofNat, BitVec.toNat_add, BitVec.toNat_ofNat]
    omega
  rw [e, e, e, e3]
  rfl

/-- `SWB` after some numbers. -/
def swbAfter : Nat → Swb → Swb
  | 0, s => s
  | n + 1, s => (swbAfter n s).value.2

/-- The sequence of `SWB`: first the 256 numbers of the table in the order in which they will be
overwritten, then the numbers it gives. -/
def swbSeq (s : Swb) (m : Nat) : W :=
  if m < 256 then s.tab.t (s.tab.c + BitVec.ofNat 8 (237 + m)) else (swbAfter (m - 256) s).value.1

theorem swb_c (s : Swb) (n : Nat) : (swbAfter n s).tab.c = s.tab.c + BitVec.ofNat 8 n := by
  induction n with
  | zero => simp [swbAfter]
  | succ n ih =>
    simp only [swbAfter, Swb.value, ih]
    apply BitVec.eq_of_toNat_eq
    simp only [BitVec.ofNat_eq_ofNat, BitVec.toNat_add, BitVec.toNat_ofNat]
    omega

theorem swb_tab (s : Swb) (n k : Nat) (hk : k < 256) :
    (swbAfter n s).tab.t (s.tab.c + BitVec.ofNat 8 (237 + (n + k))) = swbSeq s (n + k) := by
  induction n generalizing k with
  | zero => simp only [swbAfter, swbSeq, Nat.zero_add, if_pos hk]
  | succ n ih =>
    have hstep : (swbAfter (n + 1) s).tab.t = put (swbAfter n s).tab.t ((swbAfter n s).tab.c + 237) (swbAfter n s).value.1 := rfl
    rw [hstep, put, swb_c]
    by_cases h : k = 255
    · subst h
      rw [if_pos]
      · rw [swbSeq, if_neg (by omega), show n + 1 + 255 - 256 = n by omega]
      · apply BitVec.eq_of_toNat_eq
        simp only [BitVec.ofNat_eq_ofNat, BitVec.toNat_add, BitVec.toNat_ofNat]
        omega
    · rw [if_neg]
      · have := ih (k + 1) (by omega)
        rw [show n + (k + 1) = n + 1 + k by omega] at this
        exact this
      · intro he
        have := congrArg BitVec.toNat he
        simp only [BitVec.ofNat_eq_ofNat, BitVec.toNat_add, BitVec.toNat_ofNat] at this
        omega

theorem swb_y (s : Swb) (n : Nat) : (swbAfter (n + 1) s).y = swbSeq s (n + 20) := by
  rw [← swb_tab s n 20 (by decide)]
  have : (swbAfter (n + 1) s).y = (swbAfter n s).tab.t ((swbAfter n s).tab.c + 1) := rfl
  rw [this, swb_c]
  congr 1
  apply BitVec.eq_of_toNat_eq
  simp only [BitVec.ofNat_eq_ofNat, BitVec.toNat_add, BitVec.toNat_ofNat]
  omega

/-- What `SWB` computes: `x(n) = x(n-222) - x(n-236) - b` where `b` is 1 if
`x(n-222) < x(n-237)`.  Full property (the documentation): `x(n-222) - x(n-237) - borrow`, where
the borrow is 1 if computing `x(n-1)` overflowed. -/
theorem C110_swb_partial (s : Swb) (n : Nat) :
    swbSeq s (n + 1 + 256) = swbSeq s (n + 1 + 34) - (swbSeq s (n + 1 + 20) +
      (if swbSeq s (n + 1 + 34) < swbSeq s (n + 1 + 19) then 1 else 0)) := by
  have h : swbSeq s (n + 1 + 256) = (swbAfter (n + 1) s).value.1 := by
    rw [swbSeq, if_neg (by omega), Nat.add_sub_cancel]
  have hy := swb_y s n
  rw [show n + 20 = n + 1 + 19 by omega] at hy
  have h1 := swb_tab s (n + 1) 34 (by decide)
  have h2 := swb_tab s (n + 1) 20 (by decide)
  rw [h, ← hy, ← h1, ← h2]
  have e1 : s.tab.c + BitVec.ofNat 8 (237 + (n + 1 + 34)) = (swbAfter (n + 1) s).tab.c + 15 := by
    rw [swb_c]
    apply BitVec.eq_of_toNat_eq
    simp only [BitVec.ofNat_eq_ofNat, BitVec.toNat_add, BitVec.toNat_ofNat]
    omega
  have e2 : s.tab.c + BitVec.ofNat 8 (237 + (n + 1 + 20)) = (swbAfter (n + 1) s).tab.c + 1 := by
    rw [swb_c]
    apply BitVec.eq_of_toNat_eq
    simp only [BitVec.ofNat_eq_ofNat, BitVec.toNat_add, BitVec.toNat_ofNat]
    omega
  rw [e1, e2]
  rfl

/-! ### Real numbers -/

/-- The interval asked for: `[0,1]`, `(0,1]`, `[0,1)` or `(0,1)`. -/
def InInterval (x : Rat) (includeZero includeOne : Bool) : Prop :=
  (if includeZero then 0 ≤ x else 0 < x) ∧ (if includeOne then x ≤ 1 else x < 1)

theorem div_pos_le (n : Nat) (c : Rat) (hc : 0 < c) : (n : Rat) / c ≤ 1 ↔ (n : Rat) ≤ c := by
  have h1 := Rat.lt_div_iff (a := 1) (b := (n : Rat)) hc
  constructor
  · intro h
    apply Rat.not_lt.1
    intro h'
    exact Rat.not_lt.2 h (h1.2 (by rw [Rat.one_mul]; exact h'))
  · intro h
    apply Rat.not_lt.1
    intro h'
    have := h1.1 h'
    rw [Rat.one_mul] at this
    exact Rat.not_lt.2 h this

theorem div_pos_lt (n : Nat) (c : Rat) (hc : 0 < c) : (n : Rat) / c < 1 ↔ (n : Rat) < c := by
  have h1 := Rat.div_lt_iff (a := (n : Rat)) (c := 1) hc
  rw [Rat.one_mul] at h1
  exact h1

theorem div_nonneg (n : Nat) (c : Rat) (hc : 0 < c) : 0 ≤ (n : Rat) / c := by
  have h1 := Rat.div_lt_iff (a := (n : Rat)) (c := 0) hc
  apply Rat.not_lt.1
  intro h
  have := h1.1 h
  rw [Rat.zero_mul] at this
  exact Rat.not_lt.2 (Rat.natCast_nonneg) this

/-- Real random numbers are in the interval asked for, except for the largest random integer (the
two largest ones for `(0,1]`); for `(0,1)` there is no exception.  Full property: no exception. -/
theorem C110_realvalue_partial (v : W) :
    (InInterval (realvalue v true true) true true ↔ v.toNat ≠ 2 ^ 32 - 1) ∧
    (InInterval (realvalue v true false) true false ↔ v.toNat ≠ 2 ^ 32 - 1) ∧
    (InInterval (realvalue v false true) false true ↔ v.toNat < 2 ^ 32 - 2) ∧
    InInterval (realvalue v false false) false false := by
  have hv := v.isLt
  have hpos : ∀ c : Rat, 0 < c → 0 < ((v.toNat / 2 + 1 : Nat) : Rat) / c := by
    intro c hc
    rw [Rat.lt_div_iff hc, Rat.zero_mul, show (0 : Rat) = ((0 : Nat) : Rat) from rfl, Rat.natCast_lt_natCast]
    omega
  have half : ∀ n m : Nat, (n : Rat) ≤ (m : Rat) / 2 ↔ 2 * n ≤ m := by
    intro n m
    have h2 := Rat.div_lt_iff (a := (m : Rat)) (c := (n : Rat)) (b := 2) (by decide)
    have e : (n : Rat) * 2 = ((2 * n : Nat) : Rat) := by rw [Rat.natCast_mul, Rat.mul_comm]; rfl
    rw [e, Rat.natCast_lt_natCast] at h2
    rw [← Rat.not_lt, h2]
    omega
  have halflt : ∀ n m : Nat, (n : Rat) < (m : Rat) / 2 ↔ 2 * n < m := by
    intro n m
    have h2 := Rat.lt_div_iff (a := (n : Rat)) (b := (m : Rat)) (c := 2) (by decide)
    have e : (n : Rat) * 2 = ((2 * n : Nat) : Rat) := by rw [Rat.natCast_mul, Rat.mul_comm]; rfl
    rw [e, Rat.natCast_lt_natCast] at h2
    exact h2
  refine ⟨?_, ?_, ?_, ?_⟩
  · have e : realvalue v true true = (v.toNat : Rat) / ((4294967294 : Nat) : Rat) := by
      simp only [realvalue, if_true]; congr 1; grind
    have hc : (0 : Rat) < ((4294967294 : Nat) : Rat) := by decide
    simp only [InInterval, if_true, e, div_nonneg _ _ hc, true_and, div_pos_le _ _ hc, Rat.natCast_le_natCast]
    omega
  · have e : realvalue v true false = (v.toNat : Rat) / ((4294967295 : Nat) : Rat) := by
      simp only [realvalue, if_true]; rfl
    have hc : (0 : Rat) < ((4294967295 : Nat) : Rat) := by decide
    simp only [InInterval, if_true, Bool.false_eq_true, if_false, e, div_nonneg _ _ hc, true_and, div_pos_lt _ _ hc,
      Rat.natCast_lt_natCast]
    omega
  · have e : realvalue v false true = ((v.toNat / 2 + 1 : Nat) : Rat) / (((4294967295 : Nat) : Rat) / 2) := by
      simp only [realvalue, Bool.false_eq_true, if_false, if_true]
      congr 1
      grind
    have hc : (0 : Rat) < ((4294967295 : Nat) : Rat) / 2 := by
      have := (halflt 0 4294967295).2 (by decide); exact this
    simp only [InInterval, if_true, Bool.false_eq_true, if_false, e, hpos _ hc, true_and, div_pos_le _ _ hc, half]
    omega
  · have e : realvalue v false false = ((v.toNat / 2 + 1 : Nat) : Rat) / (((4294967297 : Nat) : Rat) / 2) := by
      simp only [realvalue, Bool.false_eq_true, if_false]
      congr 1
      grind
    have hc : (0 : Rat) < ((4294967297 : Nat) : Rat) / 2 := by
      have := (halflt 0 4294967297).2 (by decide); exact this
    simp only [InInterval, Bool.false_eq_true, if_false, e, hpos _ hc, true_and, div_pos_lt _ _ hc, halflt]
    omega

/-- The largest random integer does occur, so that a number asked for in `[0,1)` can be 1 and one
asked for in `[0,1]` can be more than 1. -/
theorem C110_realvalue_refuted : ∃ s : Mwc,
    ¬ InInterval (realvalue s.value.1 true true) true true ∧ ¬ InInterval (realvalue s.value.1 true false) true false ∧
    ¬ InInterval (realvalue s.value.1 false true) false true := by
  refine ⟨⟨39, 4294901760⟩, ?_⟩
  have hv : ((⟨39, 4294901760⟩ : Mwc).value.1).toNat = 2 ^ 32 - 1 := by decide
  have h := C110_realvalue_partial ((⟨39, 4294901760⟩ : Mwc).value.1)
  refine ⟨fun h' => h.1.1 h' hv, fun h' => h.2.1.1 h' hv, fun h' => ?_⟩
  have := h.2.2.1.1 h'
  rw [hv] at this
  omega

/-! ### Random routing -/

/-- With a seed parameter a router's random choice depends on nothing but that seed, the packet's
seed and the attempt, whatever numbers were drawn before, and is below the number of choices. -/
theorem C110_router_partial (r r' : Router) (s max attempt seed : W) (hr : r.seed = some s) (hr' : r'.seed = some s)
    (hm : max ≠ 0) (ha : attempt.toNat < 27) :
    ∃ x, (r.randomNumber max attempt seed).map (·.1) = some x ∧ (r'.randomNumber max attempt seed).map (·.1) = some x ∧
      x.toNat < max.toNat ∧ ∀ y q, r.randomNumber max attempt seed = some (y, q) → q.seed = some s := by
  obtain ⟨x, hx, hlt, _⟩ := C110_in_range
    (Mwc.reseed r.rng [(seed + 5) * 7 + 0 * attempt * 42 + 3, (s * (seed + 31)) <<< (attempt.toNat + 5)]).value.1 max hm
  have hsame : r'.rng.reseed [(seed + 5) * 7 + 0 * attempt * 42 + 3, (s * (seed + 31)) <<< (attempt.toNat + 5)] =
      r.rng.reseed [(seed + 5) * 7 + 0 * attempt * 42 + 3, (s * (seed + 31)) <<< (attempt.toNat + 5)] := rfl
  refine ⟨x, ?_, ?_, hlt, ?_⟩
  · simp only [Router.randomNumber, hr]
    rw [if_pos (by omega), hx]; rfl
  · simp only [Router.randomNumber, hr', hsame]
    rw [if_pos (by omega), hx]; rfl
  · intro y q hq
    simp only [Router.randomNumber, hr] at hq
    rw [if_pos (by omega), hx] at hq
    injection hq with hq
    injection hq with _ hq
    rw [← hq]

example : (Router.randomNumber ⟨some 1, ⟨1, 1⟩⟩ 8 2 5).isSome = true := by decide

/-- From the 28th attempt on there is no defined choice at all, and without a seed parameter the
choice depends on the numbers drawn before. -/
theorem C110_router_refuted :
    (∀ r s max attempt seed, Router.seed r = some s → 27 ≤ attempt.toNat → r.randomNumber max attempt seed = none) ∧
    ∃ r r' : Router, r.seed = none ∧ r'.seed = none ∧ (r.randomNumber 1000 0 5).isSome = true ∧
      (r.randomNumber 1000 0 5).map (·.2) = some r' ∧
      (r.randomNumber 1000 0 5).map (·.1) ≠ (r'.randomNumber 1000 0 5).map (·.1) := by
  constructor
  · intro r s max attempt seed hr ha
    simp only [Router.randomNumber, hr]
    rw [if_neg (by omega)]
  · refine ⟨⟨none, ⟨12345, 6789⟩⟩, ⟨none, (Mwc.value ⟨12345, 6789⟩).2⟩, rfl, rfl, by decide, rfl, by decide⟩

/-! ### Combined generators -/

/-- The `n`-th number of a generator given by its step. -/
def nth {S : Type} (step : S → W × S) : Nat → S → W
  | 0, s => (step s).1
  | n + 1, s => nth step n (step s).2

theorem nth_succ {S : Type} (step : S → W × S) (n : Nat) (s : S) : nth step (n + 1) s = nth step n (step s).2 := rfl

/-- `SimpleCombo` seeded with four numbers gives, for ever, `(MWC ^ CONG) + SHR3` of the three
generators run by themselves with seeds 1 and 2, 4, and 3. -/
theorem C110_simple (a b c d : W) (s : Simple) (m : Mwc) (g : Cong) (h : Shr3) (n : Nat) :
    nth Simple.value n (s.reseed [a, b, c, d]) =
      (nth Mwc.value n (m.reseed [a, b]) ^^^ nth Cong.value n (g.reseed [d])) + nth Shr3.value n (h.reseed [c]) := by
  have key : ∀ n (q : Simple), nth Simple.value n q =
      (nth Mwc.value n q.mwc ^^^ nth Cong.value n q.cong) + nth Shr3.value n q.shr3 := by
    intro n
    induction n with
    | zero => intro q; rfl
    | succ n ih =>
      intro q
      have e1 : q.value.2.mwc = q.mwc.value.2 := rfl
      have e2 : q.value.2.cong = q.cong.value.2 := rfl
      have e3 : q.value.2.shr3 = q.shr3.value.2 := rfl
      rw [nth_succ, nth_succ, nth_succ, nth_succ, ih, e1, e2, e3]
  have e : s.reseed [a, b, c, d] = ⟨m.reseed [a, b], g.reseed [d], h.reseed [c]⟩ := by
    simp [Simple.reseed, Mwc.reseed, Cong.reseed, Shr3.reseed]
  rw [e, key]

/-- `Combo` seeded with eight numbers gives, for ever, the sum of `SWB` seeded with the first four
and `SimpleCombo` seeded with the last four, its first 256 numbers skipped. -/
theorem C110_combo (s1 s2 : List W) (h1 : s1.length = 4) (h2 : s2.length = 4) (s : Combo) (b : Swb) (k : Simple) (n : Nat) :
    nth Combo.value n (s.reseed (s1 ++ s2)) =
      nth Swb.value n (b.reseed s1) + nth Simple.value (n + 256) (k.reseed s2) := by
  have key : ∀ n (q : Combo), nth Combo.value n q = nth Swb.value n q.swb + nth Simple.value n q.simple := by
    intro n
    induction n with
    | zero => intro q; exact BitVec.add_comm _ _
    | succ n ih => intro q; exact ih _
  have skip : ∀ j n (q : Simple), nth Simple.value n (q.take j).2 = nth Simple.value (n + j) q := by
    intro j
    induction j with
    | zero => intro n q; rfl
    | succ j ih => intro n q; exact ih n q.value.2
  have e1 : (s1 ++ s2).take 4 = s1 := by rw [← h1, List.take_left]
  have e2 : ((s1 ++ s2).drop 4).take 4 = s2 := by
    rw [show (s1 ++ s2).drop 4 = s2 by rw [← h1, List.drop_left], ← h2, List.take_length]
  have hsw : ∀ l, (s.reseed l).swb = s.swb.reseed (l.take 4) := fun _ => rfl
  have hsi : ∀ l, (s.reseed l).simple = ((s.simple.reseed ((l.drop 4).take 4)).take 256).2 := by
    intro l
    simp only [Combo.reseed]
  rw [key, hsw, hsi, skip, e1, e2]
  rw [(C110_seeded s1).2.2.2.2.2.1 s.swb b, (C110_seeded s2).2.2.2.1 s.simple k]

theorem table_entry (seeds : List W) (s : Table) (k : Simple) (i : BitVec 8) :
    (s.reseed seeds).t i = nth Simple.value i.toNat (k.reseed seeds) := by
  have key : ∀ j (q : Simple) i, i < j → (q.take j).1.getD i 0 = nth Simple.value i q := by
    intro j
    induction j with
    | zero => intro q i h; omega
    | succ j ih =>
      intro q i h
      cases i with
      | zero => rfl
      | succ i => exact ih q.value.2 i (by omega)
  have hk : (s.seeder.reseed seeds).take 256 = (k.reseed seeds).take 256 := by
    rw [(C110_seeded seeds).2.2.2.1 s.seeder k]
  have ht : ∀ x, (s.reseed seeds).t x = ((s.seeder.reseed seeds).take 256).1.getD x.toNat 0 := by
    intro x
    simp only [Table.reseed]
  rw [ht, hk]
  exact key 256 _ _ i.isLt

/-- The tables of `LFIB4` and `SWB` start with the first 256 numbers of `SimpleCombo`. -/
theorem C110_table (seeds : List W) (s : Table) (b : Swb) (k : Simple) (i : Nat) (hi : i < 256) :
    lfibSeq (s.reseed seeds) i = nth Simple.value i (k.reseed seeds) ∧
    swbSeq (b.reseed seeds) i = nth Simple.value ((i + 237) % 256) (k.reseed seeds) := by
  have hc : ∀ s : Table, (s.reseed seeds).c = 0#8 := fun _ => rfl
  constructor
  · rw [lfibSeq, if_pos hi, hc, table_entry seeds s k, BitVec.zero_add, BitVec.toNat_ofNat, Nat.mod_eq_of_lt (by omega)]
  · have ht : (b.reseed seeds).tab = b.tab.reseed seeds := rfl
    rw [swbSeq, if_pos hi, ht, hc, table_entry seeds b.tab k, BitVec.zero_add, BitVec.toNat_ofNat, Nat.add_comm 237]

theorem simple_zero (k : Simple) (n : Nat) : (nth Simple.value n (k.reseed [0, 0, 0, 0])).toNat = 1234567 * S (n + 1) % 2 ^ 32 := by
  rw [C110_simple 0 0 0 0 k ⟨0, 0⟩ ⟨0⟩ ⟨0⟩ n]
  have h1 : ∀ n, nth Mwc.value n ⟨0, 0⟩ = 0 := by
    intro n
    induction n with
    | zero => decide
    | succ n ih =>
      have : (Mwc.value ⟨0, 0⟩).2 = ⟨0, 0⟩ := by decide
      rw [nth, this, ih]
  have h2 : ∀ n, nth Shr3.value n ⟨0⟩ = 0 := by
    intro n
    induction n with
    | zero => decide
    | succ n ih =>
      have : (Shr3.value ⟨0⟩).2 = ⟨0⟩ := by decide
      rw [nth, this, ih]
  have h3 : ∀ n g, nth Cong.value n g = (Cong.after (n + 1) g).jcong := by
    intro n
    induction n with
    | zero => intro g; rfl
    | succ n ih =>
      intro g
      rw [nth, ih]
      have := cong_after_add g 1 (n + 1)
      rw [show 1 + (n + 1) = n + 1 + 1 by omega] at this
      rw [this]
      rfl
  have e1 : Mwc.reseed ⟨0, 0⟩ [0, 0] = ⟨0, 0⟩ := rfl
  have e2 : Shr3.reseed ⟨0⟩ [0] = ⟨0⟩ := rfl
  have e3 : Cong.reseed ⟨0⟩ [0] = ⟨0⟩ := rfl
  have e4 : ∀ x : W, (0 : W) ^^^ x + 0 = x := by intro x; simp
  rw [e1, e2, e3, h1, h2, h3]
  have := cong_after ⟨0⟩ (n + 1)
  simp only [BitVec.ofNat_eq_ofNat, BitVec.zero_xor, BitVec.add_zero]
  simp only [BitVec.ofNat_eq_ofNat, BitVec.toNat_ofNat, Nat.zero_mod, Nat.mul_zero, Nat.zero_add] at this
  exact this

/-- Already the first numbers of `LFIB4` and `SWB` need not be those of the documented
recurrences; the seeds of this run are four zeros. -/
theorem C110_lags_refuted (s : Table) (b : Swb) :
    lfibSeq (s.reseed [0, 0, 0, 0]) 256 ≠ lfibSeq (s.reseed [0, 0, 0, 0]) (256 - 256) +
      lfibSeq (s.reseed [0, 0, 0, 0]) (256 - 179) + lfibSeq (s.reseed [0, 0, 0, 0]) (256 - 119) +
      lfibSeq (s.reseed [0, 0, 0, 0]) (256 - 55) ∧
    swbSeq (b.reseed [0, 0, 0, 0]) 256 ≠
      swbSeq (b.reseed [0, 0, 0, 0]) (256 - 222) - swbSeq (b.reseed [0, 0, 0, 0]) (256 - 237) := by
  let k : Simple := ⟨⟨0, 0⟩, ⟨0⟩, ⟨0⟩⟩
  have hl := fun i hi => (C110_table [0, 0, 0, 0] s b k i hi).1
  have hs := fun i hi => (C110_table [0, 0, 0, 0] s b k i hi).2
  have hz := simple_zero k
  constructor
  · have h := C110_lfib4_partial (s.reseed [0, 0, 0, 0]) 0
    rw [Nat.zero_add] at h
    rw [h]
    simp only [Nat.zero_add, Nat.reduceSub]
    rw [hl 0 (by decide), hl 58 (by decide), hl 119 (by decide), hl 179 (by decide), hl 77 (by decide), hl 137 (by decide),
      hl 201 (by decide)]
    intro he
    have := congrArg BitVec.toNat he
    simp only [BitVec.toNat_add, hz] at this
    revert this
    decide +kernel
  · have h : swbSeq (b.reseed [0, 0, 0, 0]) 256 = (b.reseed [0, 0, 0, 0]).value.1 := rfl
    have ht : (b.reseed [0, 0, 0, 0]).value.1 = (b.tab.reseed [0, 0, 0, 0]).t 15#8 - ((b.tab.reseed [0, 0, 0, 0]).t 1#8 +
        if (b.tab.reseed [0, 0, 0, 0]).t 15#8 < 0 then 1 else 0) := rfl
    rw [h, ht, table_entry _ _ k, table_entry _ _ k, hs (256 - 222) (by decide), hs (256 - 237) (by decide)]
    have hlt : ∀ x : W, ¬ x < 0 := by
      intro x hx
      have : x.toNat < 0 := hx
      omega
    rw [if_neg (hlt _)]
    intro he
    have := congrArg BitVec.toNat he
    simp only [BitVec.toNat_add, BitVec.toNat_sub, hz] at this
    revert this
    decide +kernel

example : nth Mwc.value 3 ((⟨0, 0⟩ : Mwc).reseed []) ≠ nth Mwc.value 4 ((⟨0, 0⟩ : Mwc).reseed []) := by decide

end SST.Util.Rng
