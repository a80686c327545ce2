import Verif.Util.Mersenne
set_option autoImplicit false

/-!
# Theorems about the Mersenne twister
-/

namespace Verif.Util.Mersenne

/-! ### Specification -/

/-- The recurrence of the 64 bit Mersenne twister (Nishimura, Matsumoto): each word from those 312, 311 and 156 before it. -/
def Recurrence (x : Nat → W) : Prop :=
  ∀ k, x (k + 312) = x (k + 156) ^^^
    (let y := (x k &&& 0xFFFFFFFF80000000#64) ||| (x (k + 1) &&& 0x7FFFFFFF#64)
     (y >>> 1) ^^^ if y &&& 1#64 = 1#64 then 0xB5026F5AA96619E9#64 else 0#64)

/-- The first words for a seed. -/
def Seeded (x : Nat → W) (seed : W) : Prop :=
  x 0 = seed ∧ ∀ k, k < 311 → x (k + 1) = 6364136223846793005#64 * (x k ^^^ (x k >>> 62)) + BitVec.ofNat 64 (k + 1)

/-- The output for a word: four reference steps of scrambling, then the lowest 32 bits. -/
def output (x : W) : BitVec 32 :=
  let y1 := x ^^^ (x >>> 29 &&& 0x5555555555555555#64)
  let y2 := y1 ^^^ (y1 <<< 17 &&& 0x71D67FFFEDA60000#64)
  let y3 := y2 ^^^ (y2 <<< 37 &&& 0xFFF7EEE000000000#64)
  BitVec.setWidth 32 (y3 ^^^ (y3 >>> 43))

/-- The word written before the word number `k` of a mixing of 311 words `x 1`, …, `x 311` that starts after `x 0`. -/
def prev (x z : Nat → W) (k : Nat) : W := if k = 0 then x 0 else z (k - 1)

/-- The word that number `k` replaces. -/
def old (x z : Nat → W) (k : Nat) : W := if k < 311 then x (k + 1) else z (k - 311)

/-- The words that are written one after the other for a list of seeds: first one for each of the 312 words and of the seeds, whichever are more,
then 311. -/
def Mixed (x z : Nat → W) (seeds : List (BitVec 32)) : Prop :=
  ∀ k, z k = if k < max 312 seeds.length
    then (old x z k ^^^ ((prev x z k ^^^ (prev x z k >>> 62)) * 3935559000370003845#64)) + (seeds.getD (k % seeds.length) 0#32).setWidth 64 + BitVec.ofNat 64 (k % seeds.length)
    else (old x z k ^^^ ((prev x z k ^^^ (prev x z k >>> 62)) * 2862933555777941757#64)) - BitVec.ofNat 64 (1 + k % 311)

/-- The words of the recurrence. -/
def word (first : Nat → W) (k : Nat) : W :=
  if _ : k < 312 then first k
  else word first (k - 312 + 156) ^^^ twist (word first (k - 312)) (word first (k - 312 + 1))
termination_by k

/-! ### Proofs -/

theorem low_bit (y : W) : (y &&& 1#64 = 1#64 ↔ y &&& 1#64 ≠ 0#64) := by
  constructor
  · intro h h'; rw [h] at h'; exact absurd h' (by decide)
  · intro h
    have hlt : (y &&& 1#64).toNat < 2 := by
      rw [BitVec.toNat_and]
      exact Nat.lt_of_le_of_lt Nat.and_le_right (by decide)
    apply BitVec.eq_of_toNat_eq
    have h0 : (y &&& 1#64).toNat ≠ 0 := fun e => h (BitVec.eq_of_toNat_eq (by rw [e]; rfl))
    show _ = 1
    omega

theorem rec_twist {x : Nat → W} (h : Recurrence x) (k : Nat) : x (k + N) = x (k + M) ^^^ twist (x k) (x (k + 1)) := by
  have := h k
  rw [show k + N = k + 312 from rfl, this]
  unfold twist
  simp only
  congr 2
  by_cases hy : (x k &&& 0xFFFFFFFF80000000#64 ||| x (k + 1) &&& 0x7FFFFFFF#64) &&& 1#64 = 0#64
  · rw [if_pos hy, if_neg]
    rw [low_bit]
    exact fun h => h hy
  · rw [if_neg hy, if_pos]
    rw [low_bit]
    exact hy

theorem put_same (f : Nat → W) (i : Nat) (v : W) : put f i v i = v := if_pos rfl
theorem put_other (f : Nat → W) (i j : Nat) (v : W) (h : j ≠ i) : put f i v j = f j := if_neg h

/-- The first `i` words have been replaced. -/
def Half (x : Nat → W) (b i : Nat) (f : Nat → W) : Prop := ∀ j, j < N → f j = if j < i then x (b + N + j) else x (b + j)

theorem half_step {x : Nat → W} {b i : Nat} {f : Nat → W} (v : W) (hf : Half x b i f) (hv : v = x (b + N + i)) : Half x b (i + 1) (put f i v) := by
  intro j hj
  by_cases hji : j = i
  · subst hji
    rw [put_same, if_pos (by omega), hv]
  · rw [put_other f i j v hji, hf j hj]
    by_cases h : j < i
    · rw [if_pos h, if_pos (by omega)]
    · rw [if_neg h, if_neg (by omega)]

theorem loop1_half {x : Nat → W} (hx : Recurrence x) (b c : Nat) : ∀ (i : Nat) (f : Nat → W), Half x b i f → i + c ≤ N - M → Half x b (i + c) (loop1 f i c) := by
  induction c with
  | zero => intro i f hf _; exact hf
  | succ c ih =>
    intro i f hf hi
    have hN : N = 312 := rfl
    have hM : M = 156 := rfl
    have := ih (i + 1) _ (half_step (i := i) (f (i + M) ^^^ twist (f i) (f (i + 1))) hf ?_) (by omega)
    · rw [show i + 1 + c = i + (c + 1) by omega] at this
      exact this
    · rw [hf (i + M) (by omega), hf i (by omega), hf (i + 1) (by omega), if_neg (by omega), if_neg (by omega), if_neg (by omega)]
      have := rec_twist hx (b + i)
      rw [show b + N + i = b + i + N by omega, this]
      rfl

theorem loop2_half {x : Nat → W} (hx : Recurrence x) (b c : Nat) : ∀ (i : Nat) (f : Nat → W), Half x b i f → N - M ≤ i → i + c ≤ N - 1 → Half x b (i + c) (loop2 f i c) := by
  induction c with
  | zero => intro i f hf _ _; exact hf
  | succ c ih =>
    intro i f hf hi hc
    have hN : N = 312 := rfl
    have hM : M = 156 := rfl
    have := ih (i + 1) _ (half_step (i := i) (f (i + M - N) ^^^ twist (f i) (f (i + 1))) hf ?_) (by omega) (by omega)
    · rw [show i + 1 + c = i + (c + 1) by omega] at this
      exact this
    · rw [hf (i + M - N) (by omega), hf i (by omega), hf (i + 1) (by omega), if_pos (by omega), if_neg (by omega), if_neg (by omega)]
      have := rec_twist hx (b + i)
      rw [show b + N + i = b + i + N by omega, this, show b + N + (i + M - N) = b + i + M by omega]
      rfl

theorem regen_half {x : Nat → W} (hx : Recurrence x) (b : Nat) (f : Nat → W) (hf : Half x b 0 f) : Half x b N (regen f) := by
  have hN : N = 312 := rfl
  have hM : M = 156 := rfl
  have h1 := loop1_half hx b (N - M) 0 f hf (by omega)
  have h2 := loop2_half hx b (M - 1) (0 + (N - M)) _ h1 (by omega) (by omega)
  have h3 := half_step (i := N - 1) (x := x) (b := b) (f := loop2 (loop1 f 0 (N - M)) (0 + (N - M)) (M - 1))
    ((loop2 (loop1 f 0 (N - M)) (0 + (N - M)) (M - 1)) (M - 1) ^^^ twist ((loop2 (loop1 f 0 (N - M)) (0 + (N - M)) (M - 1)) (N - 1)) ((loop2 (loop1 f 0 (N - M)) (0 + (N - M)) (M - 1)) 0)) h2 ?_
  · exact h3
  · rw [h2 (M - 1) (by omega), h2 (N - 1) (by omega), h2 0 (by omega), if_pos (by omega), if_neg (by omega), if_pos (by omega)]
    have := rec_twist hx (b + (N - 1))
    rw [show b + N + (N - 1) = b + (N - 1) + N by omega, this, show b + (N - 1) + M = b + N + (M - 1) by omega, show b + (N - 1) + 1 = b + N + 0 by omega]

/-- The state before the value number `n`. -/
def Before (x : Nat → W) (n : Nat) (s : St) : Prop := ∃ b, Half x b 0 s.mt ∧ b + s.mti = N + n ∧ s.mti ≤ N

theorem value_before {x : Nat → W} (hx : Recurrence x) (n : Nat) (s : St) (hs : Before x n s) : (value s).1 = temper (x (312 + n)) ∧ Before x (n + 1) (value s).2 := by
  obtain ⟨b, hf, hb, hm⟩ := hs
  have hN : N = 312 := rfl
  unfold value
  simp only
  by_cases h : N ≤ s.mti
  · rw [if_pos h]
    have hr := regen_half hx b s.mt hf
    have hr' : Half x (b + N) 0 (regen s.mt) := fun j hj => by rw [hr j hj, if_pos hj, if_neg (by omega)]
    refine ⟨?_, b + N, hr', by simp only; omega, by simp only; omega⟩
    simp only
    rw [hr' 0 (by omega), if_neg (by omega)]
    congr 2; omega
  · rw [if_neg h]
    refine ⟨?_, b, hf, by simp only; omega, by simp only; omega⟩
    rw [hf s.mti (by omega), if_neg (by omega), show b + s.mti = 312 + n by omega]

theorem take_before {x : Nat → W} (hx : Recurrence x) (c : Nat) : ∀ (n : Nat) (s : St), Before x n s → take c s = (List.range' n c).map fun k => temper (x (312 + k)) := by
  induction c with
  | zero => intro n s _; rfl
  | succ c ih =>
    intro n s hs
    have hv := value_before hx n s hs
    rw [take, hv.1, ih (n + 1) _ hv.2, List.range'_succ]
    rfl

theorem fill_seeded {x : Nat → W} {seed : W} (h : Seeded x seed) (c : Nat) : ∀ (i : Nat) (f : Nat → W), 0 < i → i + c ≤ 312 → (∀ j, j < i → f j = x j) → ∀ j, j < i + c → fill f i c j = x j := by
  induction c with
  | zero => intro i f _ _ hf; exact hf
  | succ c ih =>
    intro i f hi hc hf j hj
    refine ih (i + 1) _ (by omega) (by omega) (fun j hj => ?_) j (by omega)
    by_cases hji : j = i
    · subst hji
      rw [put_same, hf (j - 1) (by omega)]
      have := h.2 (j - 1) (by omega)
      rw [show j - 1 + 1 = j by omega] at this
      rw [this]
    · rw [put_other _ _ _ _ hji, hf j (by omega)]

theorem reseed_mti (seed : W) : (reseed seed).mti = N := by rw [reseed]
theorem reseed_mt (seed : W) : (reseed seed).mt = fill (put (fun _ => 0#64) 0 seed) 1 (N - 1) := by rw [reseed]

theorem reseed_words {x : Nat → W} {seed : W} (h : Seeded x seed) (j : Nat) (hj : j < 312) : (reseed seed).mt j = x j := by
  rw [reseed_mt]
  refine fill_seeded h (N - 1) 1 _ (by omega) (by decide) (fun j hj => ?_) j (by have : N = 312 := rfl; omega)
  have : j = 0 := by omega
  subst this
  rw [put_same, h.1]

theorem reseed_before {x : Nat → W} {seed : W} (h : Seeded x seed) : Before x 0 (reseed seed) := by
  refine ⟨0, fun j hj => ?_, by rw [reseed_mti]; omega, by rw [reseed_mti]; exact Nat.le_refl _⟩
  rw [if_neg (by omega), Nat.zero_add]
  exact reseed_words h j hj

theorem word_first (f : Nat → W) (k : Nat) (h : k < 312) : word f k = f k := by rw [word, dif_pos h]

theorem word_rec (f : Nat → W) : Recurrence (word f) := by
  intro k
  rw [word, dif_neg (by omega), show k + 312 - 312 = k by omega]
  unfold twist
  simp only
  congr 2
  by_cases hy : (word f k &&& 0xFFFFFFFF80000000#64 ||| word f (k + 1) &&& 0x7FFFFFFF#64) &&& 1#64 = 0#64
  · rw [if_pos hy, if_neg]
    rw [low_bit]
    exact fun h => h hy
  · rw [if_neg hy, if_pos]
    rw [low_bit]
    exact hy

/-- Words as in `Mixed`. -/
def mixed (x : Nat → W) (seeds : List (BitVec 32)) (k : Nat) : W :=
  let o := if _ : k < 311 then x (k + 1) else mixed x seeds (k - 311)
  let p := if _ : k = 0 then x 0 else mixed x seeds (k - 1)
  if k < max 312 seeds.length
    then (o ^^^ ((p ^^^ (p >>> 62)) * 3935559000370003845#64)) + (seeds.getD (k % seeds.length) 0#32).setWidth 64 + BitVec.ofNat 64 (k % seeds.length)
    else (o ^^^ ((p ^^^ (p >>> 62)) * 2862933555777941757#64)) - BitVec.ofNat 64 (1 + k % 311)
termination_by k

/-- The vector before the word number `k` is written. -/
def Inv (x z : Nat → W) (k : Nat) (f : Nat → W) : Prop := f (k % 311) = prev x z k ∧ ∀ m, m < 311 → f (1 + (k + m) % 311) = old x z (k + m)

theorem inv_step {x z : Nat → W} {k : Nat} {f : Nat → W} (h : Inv x z k f) (v : W) (hv : v = z k) :
    Inv x z (k + 1) (if N ≤ 1 + k % 311 + 1 then put (put f (1 + k % 311) v) 0 (put f (1 + k % 311) v (N - 1)) else put f (1 + k % 311) v) := by
  have hN : N = 312 := rfl
  have hold : ∀ m, m < 311 → put f (1 + k % 311) v (1 + (k + 1 + m) % 311) = old x z (k + 1 + m) := by
    intro m hm
    by_cases h310 : m = 310
    · subst h310
      rw [show k + 1 + 310 = k + 311 by omega, Nat.add_mod_right, put_same, old, if_neg (by omega), hv, show k + 311 - 311 = k by omega]
    · rw [put_other _ _ _ _ (by omega), show k + 1 + m = k + (m + 1) by omega]
      exact h.2 (m + 1) (by omega)
  by_cases hw : N ≤ 1 + k % 311 + 1
  · rw [if_pos hw]
    refine ⟨?_, fun m hm => ?_⟩
    · rw [show (k + 1) % 311 = 0 by omega, put_same, show N - 1 = 1 + k % 311 by omega, put_same, prev, if_neg (by omega), hv]
      rfl
    · rw [put_other _ _ _ _ (by omega)]
      exact hold m hm
  · rw [if_neg hw]
    refine ⟨?_, hold⟩
    rw [show (k + 1) % 311 = 1 + k % 311 by omega, put_same, prev, if_neg (by omega), hv]
    rfl

theorem mod_next (k n : Nat) (hn : 0 < n) : (k + 1) % n = if n ≤ k % n + 1 then 0 else k % n + 1 := by
  have hk := Nat.mod_lt k hn
  have hd := Nat.div_add_mod k n
  split
  · rename_i h
    have e : k + 1 = n * (k / n + 1) := by rw [Nat.mul_add, Nat.mul_one]; omega
    rw [e, Nat.mul_mod_right]
  · rename_i h
    have e : k + 1 = n * (k / n) + (k % n + 1) := by omega
    rw [e, Nat.mul_add_mod, Nat.mod_eq_of_lt (by omega)]

theorem mix1_inv {x z : Nat → W} {seeds : List (BitVec 32)} (hz : Mixed x z seeds) (hne : seeds ≠ []) (c : Nat) : ∀ (k : Nat) (f : Nat → W), Inv x z k f →
    k + c ≤ max 312 seeds.length → Inv x z (k + c) (mix1 seeds f (1 + k % 311) (k % seeds.length) c).1 ∧ (mix1 seeds f (1 + k % 311) (k % seeds.length) c).2 = 1 + (k + c) % 311 := by
  induction c with
  | zero => intro k f hf _; exact ⟨hf, rfl⟩
  | succ c ih =>
    intro k f hf hc
    have hN : N = 312 := rfl
    have hlen : 0 < seeds.length := List.length_pos_iff.mpr hne
    have hk := hz k
    rw [if_pos (by omega)] at hk
    have hcur : f (1 + k % 311) = old x z k := hf.2 0 (by omega)
    have hst := inv_step hf ((f (1 + k % 311) ^^^ ((f (k % 311) ^^^ (f (k % 311) >>> 62)) * 3935559000370003845#64)) + (seeds.getD (k % seeds.length) 0#32).setWidth 64 + BitVec.ofNat 64 (k % seeds.length))
      (by rw [hcur, hf.1, hk])
    have := ih (k + 1) _ hst (by omega)
    rw [show k + 1 + c = k + (c + 1) by omega] at this
    rw [mix1]
    rw [show 1 + k % 311 - 1 = k % 311 by omega, ← mod_next k _ hlen]
    by_cases hw : N ≤ 1 + k % 311 + 1
    · rw [if_pos hw] at this ⊢
      rw [show (k + 1) % 311 = 0 by omega] at this
      exact this
    · rw [if_neg hw] at this ⊢
      rw [show 1 + (k + 1) % 311 = 1 + k % 311 + 1 by omega] at this
      exact this

theorem mix2_inv {x z : Nat → W} {seeds : List (BitVec 32)} (hz : Mixed x z seeds) (c : Nat) : ∀ (k : Nat) (f : Nat → W), Inv x z k f →
    max 312 seeds.length ≤ k → Inv x z (k + c) (mix2 f (1 + k % 311) c) := by
  induction c with
  | zero => intro k f hf _; exact hf
  | succ c ih =>
    intro k f hf hc
    have hN : N = 312 := rfl
    have hk := hz k
    rw [if_neg (by omega)] at hk
    have hcur : f (1 + k % 311) = old x z k := hf.2 0 (by omega)
    have hst := inv_step hf ((f (1 + k % 311) ^^^ ((f (k % 311) ^^^ (f (k % 311) >>> 62)) * 2862933555777941757#64)) - BitVec.ofNat 64 (1 + k % 311))
      (by rw [hcur, hf.1, hk])
    have := ih (k + 1) _ hst (by omega)
    rw [show k + 1 + c = k + (c + 1) by omega] at this
    rw [mix2]
    rw [show 1 + k % 311 - 1 = k % 311 by omega]
    by_cases hw : N ≤ 1 + k % 311 + 1
    · rw [if_pos hw] at this ⊢
      rw [show (k + 1) % 311 = 0 by omega] at this
      exact this
    · rw [if_neg hw] at this ⊢
      rw [show 1 + (k + 1) % 311 = 1 + k % 311 + 1 by omega] at this
      exact this

/-! ### Theorems -/

/-- For every seed there are words that satisfy the recurrence and start with the words for the seed, and the values are theirs, scrambled, in
order, for all numbers of values. -/
theorem C140_values (seed : W) : ∃ x, Recurrence x ∧ Seeded x seed ∧ ∀ n, take n (reseed seed) = (List.range n).map fun k => output (x (312 + k)) := by
  refine ⟨word (reseed seed).mt, word_rec _, ?_, ?_⟩
  case refine_1 =>
    have key : ∀ (c i : Nat) (f : Nat → W), 0 < i → i + c ≤ 312 → (∀ k, k + 1 < i → f (k + 1) = 6364136223846793005#64 * (f k ^^^ (f k >>> 62)) + BitVec.ofNat 64 (k + 1)) →
        (∀ k, k + 1 < i + c → fill f i c (k + 1) = 6364136223846793005#64 * (fill f i c k ^^^ (fill f i c k >>> 62)) + BitVec.ofNat 64 (k + 1)) ∧ fill f i c 0 = f 0 := by
      intro c
      induction c with
      | zero => intro i f _ _ hf; exact ⟨hf, rfl⟩
      | succ c ih =>
        intro i f hi hc hf
        have := ih (i + 1) (put f i (6364136223846793005#64 * (f (i - 1) ^^^ (f (i - 1) >>> 62)) + BitVec.ofNat 64 i)) (by omega) (by omega) (fun k hk => ?_)
        · refine ⟨fun k hk => this.1 k (by omega), ?_⟩
          rw [show fill f i (c + 1) = fill (put f i (6364136223846793005#64 * (f (i - 1) ^^^ (f (i - 1) >>> 62)) + BitVec.ofNat 64 i)) (i + 1) c from rfl, this.2, put_other _ _ _ _ (by omega)]
        · by_cases hki : k + 1 = i
          · subst hki
            rw [put_same, put_other _ _ _ _ (by omega), show k + 1 - 1 = k by omega]
          · rw [put_other _ _ _ _ hki, put_other _ _ _ _ (by omega), hf k (by omega)]
    have hN : N = 312 := rfl
    have := key (N - 1) 1 (put (fun _ => 0#64) 0 seed) (by omega) (by omega) (fun k hk => absurd hk (by omega))
    have e := reseed_mt seed
    refine ⟨by rw [word_first _ _ (by omega), e, this.2, put_same], fun k hk => ?_⟩
    rw [word_first _ _ (by omega), word_first _ _ (by omega), e]
    exact this.1 k (by omega)
  case refine_2 =>
    intro n
    rw [List.range_eq_range']
    refine take_before (word_rec _) n 0 _ ⟨0, fun j hj => ?_, by rw [reseed_mti]; omega, by rw [reseed_mti]; exact Nat.le_refl _⟩
    rw [if_neg (by omega), Nat.zero_add, word_first _ _ hj]

/-- Any words that satisfy the recurrence and start with those for the seed are the ones whose values are returned. -/
theorem C140_unique (seed : W) (x : Nat → W) (h1 : Recurrence x) (h2 : Seeded x seed) (n : Nat) : take n (reseed seed) = (List.range n).map fun k => output (x (312 + k)) := by
  rw [List.range_eq_range']
  exact take_before h1 n 0 _ (reseed_before h2)

/-- No seed gives the state of zeros, from which all values would be zero, neither one word nor a list of seeds; and a list must not be empty. -/
theorem C140_not_zero (seed : W) (seeds : List (BitVec 32)) : ((reseed seed).mt 0 ≠ 0#64 ∨ (reseed seed).mt 1 ≠ 0#64) ∧
    (vecReseed seeds = none ↔ seeds = []) ∧ ∀ s, vecReseed seeds = some s → s.mt 0 = 1#64 <<< 63 ∧ s.mti = 312 := by
  refine ⟨?_, ?_, ?_⟩
  · obtain ⟨x, _, hx, _⟩ := C140_values seed
    have e0 : (reseed seed).mt 0 = x 0 := reseed_words hx 0 (by omega)
    have e1 : (reseed seed).mt 1 = x 1 := reseed_words hx 1 (by omega)
    rw [e0, e1]
    by_cases hz : x 0 = 0#64
    · right
      have := hx.2 0 (by omega)
      rw [Nat.zero_add] at this
      rw [this, hz]
      decide
    · exact Or.inl hz
  · unfold vecReseed
    by_cases h : seeds = []
    · simp [h]
    · simp [h]
  · intro s hs
    unfold vecReseed at hs
    split at hs
    · cases hs
    · cases hs
      refine ⟨?_, ?_⟩
      · simp only; exact put_same _ _ _
      · simp only; exact reseed_mti _

/-- The state after a list of seeds: the words written last, 311 of them, and a first word that is not zero. -/
theorem C140_list_words (seeds : List (BitVec 32)) (s : St) (h : vecReseed seeds = some s) (x z : Nat → W) (hx : Seeded x 19650218#64) (hz : Mixed x z seeds) :
    s.mt 0 = 1#64 <<< 63 ∧ ∀ k, k < 311 → s.mt (1 + (max 312 seeds.length + k) % 311) = z (max 312 seeds.length + k) := by
  refine ⟨((C140_not_zero 0 seeds).2.2 s h).1, fun k hk => ?_⟩
  unfold vecReseed at h
  by_cases hne : seeds = []
  · rw [if_pos hne] at h; cases h
  · rw [if_neg hne] at h
    cases h
    simp only
    have i0 : Inv x z 0 (reseed 19650218#64).mt := by
      refine ⟨reseed_words hx 0 (by omega), fun m hm => ?_⟩
      rw [Nat.zero_add, Nat.mod_eq_of_lt hm, reseed_words hx (1 + m) (by omega), old, if_pos hm, Nat.add_comm]
    have i1 := mix1_inv hz hne (max 312 seeds.length) 0 _ i0 (by omega)
    rw [Nat.zero_mod, Nat.zero_mod, Nat.zero_add] at i1
    have i2 := mix2_inv hz 311 (max 312 seeds.length) _ i1.1 (Nat.le_refl _)
    rw [show (max N seeds.length) = max 312 seeds.length from rfl, show N - 1 = 311 from rfl, i1.2]
    rw [put_other _ _ _ _ (by omega)]
    have := i2.2 k hk
    rw [show max 312 seeds.length + 311 + k = max 312 seeds.length + k + 311 by omega, Nat.add_mod_right] at this
    rw [this, old, if_neg (by omega), show max 312 seeds.length + k + 311 - 311 = max 312 seeds.length + k by omega]

/-- Such words exist for all lists. -/
theorem C140_list_exists (x : Nat → W) (seeds : List (BitVec 32)) : ∃ z, Mixed x z seeds := by
  refine ⟨mixed x seeds, fun k => ?_⟩
  have ho : old x (mixed x seeds) k = if _ : k < 311 then x (k + 1) else mixed x seeds (k - 311) := by
    unfold old; split <;> rfl
  have hp : prev x (mixed x seeds) k = if _ : k = 0 then x 0 else mixed x seeds (k - 1) := by
    unfold prev; split <;> rfl
  rw [ho, hp, mixed]

/-- The values after a list of seeds follow the recurrence, from these words. -/
theorem C140_list_values (seeds : List (BitVec 32)) (s : St) (h : vecReseed seeds = some s) : ∃ x, Recurrence x ∧ (∀ j, j < 312 → x j = s.mt j) ∧
    ∀ n, take n s = (List.range n).map fun k => output (x (312 + k)) := by
  have h0 := (C140_not_zero 0 seeds).2.2 s h
  refine ⟨word s.mt, word_rec _, fun j hj => word_first _ _ hj, fun n => ?_⟩
  rw [List.range_eq_range']
  refine take_before (word_rec _) n 0 _ ⟨0, fun j hj => ?_, by rw [h0.2]; rfl, by rw [h0.2]; exact Nat.le_refl _⟩
  rw [if_neg (by omega), Nat.zero_add, word_first _ _ hj]

example : ∃ s, vecReseed [1#32, 2#32] = some s := ⟨_, rfl⟩

/-- For the seed 5489 the first word of the state is 5489 and the second is as in the reference implementation. -/
example : (reseed 5489#64).mt 0 = 5489#64 ∧ (reseed 5489#64).mt 1 = 6364136223846793005#64 * 5489#64 + 1#64 := by
  obtain ⟨x, _, hx, _⟩ := C140_values 5489#64
  have e0 : (reseed 5489#64).mt 0 = x 0 := reseed_words hx 0 (by omega)
  have e1 : (reseed 5489#64).mt 1 = x 1 := reseed_words hx 1 (by omega)
  rw [e0, e1, hx.1, hx.2 0 (by omega), hx.1]
  decide

end Verif.Util.Mersenne
