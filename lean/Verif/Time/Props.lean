import Verif.Time.Model
/-
Properties C01, C02, C03 (and C68) about time arithmetic.

The specification side is plain arithmetic on natural numbers: the instant a
time stamp denotes is `instant`, and "before" is `<` on instants.
-/
set_option autoImplicit false
namespace SST.Time

/-- Specification: the position of a time stamp on the (unbounded) time line, an
epoch being one full turn of the 64-bit tick counter. -/
def instant (t : Timestamp) : Nat := t.epochs.toNat * 2 ^ 64 + t.time.ticks.toNat

theorem Timestamp.add_eq (a : Timestamp) (b : TimeDelta) :
    a.add b = ⟨a.epochs, ⟨a.time.ticks + b.ticks⟩⟩ := by
  have h : remainderBitsMask = BitVec.allOnes 64 := by decide
  simp only [Timestamp.add, carryBitsMask, carryBitsShift, h, BitVec.and_allOnes]
  simp

theorem instant_inj {a b : Timestamp} (h : instant a = instant b) : a = b := by
  obtain ⟨ae, ⟨at_⟩⟩ := a
  obtain ⟨be, ⟨bt⟩⟩ := b
  simp only [instant] at h
  have h1 := at_.isLt
  have h2 := bt.isLt
  have he : ae.toNat = be.toNat := by omega
  have ht : at_.toNat = bt.toNat := by omega
  rw [BitVec.eq_of_toNat_eq he, BitVec.eq_of_toNat_eq ht]

/-! ### C01 -/

/-- C01: as long as the tick counter does not wrap, adding a delay moves the
instant forward by exactly that delay. -/
theorem C01_add_exact_partial (t : Timestamp) (d : TimeDelta)
    (h : t.time.ticks.toNat + d.ticks.toNat < 2 ^ 64) :
    instant (t.add d) = instant t + d.ticks.toNat := by
  simp only [Timestamp.add_eq, instant, BitVec.toNat_add]
  rw [Nat.mod_eq_of_lt h]; omega

example : ((⟨3, ⟨5⟩⟩ : Timestamp).time.ticks.toNat + (⟨7⟩ : TimeDelta).ticks.toNat < 2 ^ 64) := by
  decide

/-- C01: adding a delay never moves time backwards (no-wrap case). Missing from
the full property: the wrapping case, which is false, see
`C01_add_monotone_refuted`. -/
theorem C01_add_monotone_partial (t : Timestamp) (d : TimeDelta)
    (h : t.time.ticks.toNat + d.ticks.toNat < 2 ^ 64) :
    instant t ≤ instant (t.add d) ∧ (t.add d).lt t = false ∧ (t.add d).ge t = true := by
  refine ⟨by rw [C01_add_exact_partial t d h]; omega, ?_, ?_⟩
  · simp only [Timestamp.add_eq, Timestamp.lt, TimeDelta.lt, if_true]
    simp only [BitVec.ult, BitVec.toNat_add, decide_eq_false_iff_not]
    rw [Nat.mod_eq_of_lt h]; omega
  · simp only [Timestamp.add_eq, Timestamp.ge, TimeDelta.ge, if_true]
    simp only [BitVec.ule, BitVec.toNat_add, decide_eq_true_eq]
    rw [Nat.mod_eq_of_lt h]; omega

/-- C01, full strength: adding two delays one after the other is the same as adding
their sum, for *all* 64-bit values (also when the counter wraps). -/
theorem C01_add_assoc (t : Timestamp) (d e : TimeDelta) :
    (t.add d).add e = t.add (d.add e) := by
  simp [Timestamp.add_eq, TimeDelta.add, BitVec.add_assoc]

/-- C01: delays on both sides of a comparison preserve strict order, for stamps of
one epoch and as long as neither sum wraps. -/
theorem C01_add_strict_mono_partial (s t : Timestamp) (d : TimeDelta)
    (hs : s.time.ticks.toNat + d.ticks.toNat < 2 ^ 64)
    (ht : t.time.ticks.toNat + d.ticks.toNat < 2 ^ 64) :
    (s.add d).lt (t.add d) = s.lt t := by
  simp only [Timestamp.add_eq, Timestamp.lt, TimeDelta.lt, BitVec.ult, BitVec.toNat_add,
    Nat.mod_eq_of_lt hs, Nat.mod_eq_of_lt ht]
  split
  · simp
  · rfl

/-- C01 is false of the code without the no-wrap condition: the epoch counter never
receives the carry (the carry mask is zero), so time jumps back to the start. -/
theorem C01_add_monotone_refuted :
    ∃ (t : Timestamp) (d : TimeDelta), instant (t.add d) < instant t ∧ (t.add d).lt t = true :=
  ⟨⟨0, ⟨BitVec.allOnes 64⟩⟩, ⟨1⟩, by decide, by decide⟩

/-- Addition never changes the epoch (consequence of the zero carry mask): every
time reached from an epoch-0 stamp by adding delays is again in epoch 0. -/
theorem C01_epoch_constant (t : Timestamp) (ds : List TimeDelta) :
    (ds.foldl Timestamp.add t).epochs = t.epochs := by
  induction ds generalizing t with
  | nil => rfl
  | cons d ds ih => simp only [List.foldl_cons]; rw [ih]; simp [Timestamp.add_eq]

/-! ### C02 -/

/-- C02: `<` is exactly "earlier instant", for all time stamps. -/
theorem C02_lt_iff_instant (a b : Timestamp) : a.lt b = true ↔ instant a < instant b := by
  have h1 := a.time.ticks.isLt
  have h2 := b.time.ticks.isLt
  simp only [Timestamp.lt, TimeDelta.lt, instant]
  split
  · rename_i h; rw [h]; simp [BitVec.ult]
  · rename_i h
    have hne : a.epochs.toNat ≠ b.epochs.toNat := fun hh => h (BitVec.eq_of_toNat_eq hh)
    simp only [BitVec.ult, decide_eq_true_eq]; omega

/-- C02: `==` is exactly "same instant", for all time stamps. -/
theorem C02_eq_iff_instant (a b : Timestamp) : a.eq b = true ↔ instant a = instant b := by
  constructor
  · intro h
    simp only [Timestamp.eq, TimeDelta.eq, Bool.and_eq_true, beq_iff_eq] at h
    simp [instant, h.1, h.2]
  · intro h; rw [instant_inj h]; simp [Timestamp.eq, TimeDelta.eq]

/-- C02: `>=` is exactly "not an earlier instant", for all time stamps. -/
theorem C02_ge_iff_instant (a b : Timestamp) : a.ge b = true ↔ instant b ≤ instant a := by
  have h1 := a.time.ticks.isLt
  have h2 := b.time.ticks.isLt
  simp only [Timestamp.ge, TimeDelta.ge, instant]
  split
  · rename_i h; rw [h]; simp [BitVec.ule]
  · rename_i h
    have hne : a.epochs.toNat ≠ b.epochs.toNat := fun hh => h (BitVec.eq_of_toNat_eq hh)
    simp only [BitVec.ule, decide_eq_true_eq]; omega

/-- C02: `!=` is the negation of `==`, `>` the mirror image of `<`. -/
theorem C02_ne_gt (a b : Timestamp) :
    a.ne b = !(a.eq b) ∧ (a.gt b = true ↔ instant b < instant a) := by
  refine ⟨?_, C02_lt_iff_instant b a⟩
  simp only [Timestamp.ne, Timestamp.eq, TimeDelta.eq]
  split <;> simp_all

/-- C02: exactly one of `<`, `==`, `>` holds, for all time stamps. -/
theorem C02_trichotomy (a b : Timestamp) :
    (a.lt b = true ∧ a.eq b = false ∧ a.gt b = false) ∨
    (a.lt b = false ∧ a.eq b = true ∧ a.gt b = false) ∨
    (a.lt b = false ∧ a.eq b = false ∧ a.gt b = true) := by
  have h1 := C02_lt_iff_instant a b
  have h2 := C02_eq_iff_instant a b
  have h3 := (C02_ne_gt a b).2
  cases hl : a.lt b <;> cases he : a.eq b <;> cases hg : a.gt b <;>
    simp only [hl, he, hg, true_iff, reduceCtorEq, false_iff, Bool.false_eq_true] at h1 h2 h3 ⊢ <;>
    first | omega | simp_all

/-- C02: `<` is transitive. -/
theorem C02_lt_trans (a b c : Timestamp) (h : a.lt b = true) (h' : b.lt c = true) :
    a.lt c = true := by
  rw [C02_lt_iff_instant] at *; omega

example : (⟨0, ⟨5⟩⟩ : Timestamp).lt ⟨1, ⟨2⟩⟩ = true ∧ (⟨1, ⟨2⟩⟩ : Timestamp).lt ⟨1, ⟨3⟩⟩ = true := by decide

/-- C02: `<=` is "not later" for stamps of the same epoch. Missing from the full
property: stamps of different epochs, where it is false of the code, see
`C02_le_refuted`. -/
theorem C02_le_iff_instant_partial (a b : Timestamp) (h : a.epochs = b.epochs) :
    a.le b = true ↔ instant a ≤ instant b := by
  simp [Timestamp.le, TimeDelta.le, instant, h, BitVec.ule]

example : (⟨4, ⟨1⟩⟩ : Timestamp).epochs = (⟨4, ⟨9⟩⟩ : Timestamp).epochs := rfl

/-- C02 is false of the code for `<=` across epochs: there are stamps with `a < b`
but not `a <= b`. -/
theorem C02_le_refuted :
    ∃ a b : Timestamp, a.lt b = true ∧ a.le b = false ∧ b.le a = true :=
  ⟨⟨0, ⟨5⟩⟩, ⟨1, ⟨2⟩⟩, by decide, by decide, by decide⟩

/-! ### C03 -/

/-- C03: the difference of two stamps of one epoch undoes an addition, for all
64-bit values; the abort outcome is not taken. -/
theorem C03_diff_add (t : Timestamp) (d : TimeDelta) :
    (t.add d).diff t = some d := by
  simp only [Timestamp.add_eq, Timestamp.diff, TimeDelta.sub, if_true]
  congr 2
  rw [BitVec.add_comm, BitVec.add_sub_cancel]

/-- C03: the difference of two instants aborts exactly when they are in different
epochs. -/
theorem C03_diff_abort_iff (a b : Timestamp) :
    a.diff b = none ↔ a.epochs ≠ b.epochs := by
  simp only [Timestamp.diff]; split <;> simp_all

/-- C03: subtracting a delay undoes adding it when `t` is not at the very start of
its epoch and the sum does not wrap. Missing: `t` at tick 0, which is false. -/
theorem C03_sub_add_partial (t : Timestamp) (d : TimeDelta)
    (h0 : t.time.ticks ≠ 0) (h : t.time.ticks.toNat + d.ticks.toNat < 2 ^ 64) :
    (t.add d).subDelta d = t := by
  have hpos : 0 < t.time.ticks.toNat := by
    rcases Nat.eq_zero_or_pos t.time.ticks.toNat with h' | h'
    · exact absurd (BitVec.eq_of_toNat_eq (by simpa using h')) h0
    · exact h'
  have hg : (t.add d).time.gt d = true := by
    simp only [Timestamp.add_eq, TimeDelta.gt, BitVec.ult, BitVec.toNat_add, decide_eq_true_eq]
    rw [Nat.mod_eq_of_lt h]; omega
  simp only [Timestamp.subDelta, hg, if_true]
  simp only [Timestamp.add_eq, TimeDelta.sub, BitVec.add_sub_cancel]

example : (⟨0, ⟨3⟩⟩ : Timestamp).time.ticks ≠ 0 ∧
    (⟨0, ⟨3⟩⟩ : Timestamp).time.ticks.toNat + (⟨10⟩ : TimeDelta).ticks.toNat < 2 ^ 64 := by decide

/-- C03 is false of the code at the start of an epoch: `(t + d) - d` for `t` the
origin is a stamp in epoch 2^64-1 instead of the origin. -/
theorem C03_sub_add_refuted :
    ∃ (t : Timestamp) (d : TimeDelta), t.time.ticks.toNat + d.ticks.toNat < 2 ^ 64 ∧
      (t.add d).subDelta d ≠ t ∧ instant t < instant ((t.add d).subDelta d) :=
  ⟨⟨0, ⟨0⟩⟩, ⟨7⟩, by decide, by decide, by decide⟩

/-- C03: more generally the borrow branch forgets the minuend: whenever the ticks do
not exceed the delay, the result does not depend on the ticks of `a` at all. -/
theorem C03_borrow_forgets_minuend (e x y d : BitVec 64)
    (hx : x.toNat ≤ d.toNat) (hy : y.toNat ≤ d.toNat) :
    Timestamp.subDelta ⟨e, ⟨x⟩⟩ ⟨d⟩ = Timestamp.subDelta ⟨e, ⟨y⟩⟩ ⟨d⟩ := by
  simp [Timestamp.subDelta, TimeDelta.gt, BitVec.ult, Nat.not_lt.mpr hx, Nat.not_lt.mpr hy]

example : (3 : BitVec 64).toNat ≤ (9 : BitVec 64).toNat ∧ (5 : BitVec 64).toNat ≤ (9 : BitVec 64).toNat := by decide

/-! ### C68 -/

/-- C68: rounding division returns the ceiling when both operands fit in 32 bits.
Missing: larger operands, where the narrowing makes it false. -/
theorem C68_divideUp_ceil_partial (n d : TimeDelta)
    (hn : n.ticks.toNat < 2 ^ 32) (hd : d.ticks.toNat < 2 ^ 32) (hd0 : 0 < d.ticks.toNat) :
    ∃ q, TimeDelta.divideUp n d = some q ∧
      n.ticks.toNat ≤ q.toNat * d.ticks.toNat ∧
      q.toNat * d.ticks.toNat < n.ticks.toNat + d.ticks.toNat := by
  have hx : (n.ticks.setWidth 32).toNat = n.ticks.toNat := by
    simp only [BitVec.toNat_setWidth]; exact Nat.mod_eq_of_lt hn
  have hy : (d.ticks.setWidth 32).toNat = d.ticks.toNat := by
    simp only [BitVec.toNat_setWidth]; exact Nat.mod_eq_of_lt hd
  have hy0 : d.ticks.setWidth 32 ≠ 0 := by
    intro hc; rw [hc] at hy; simp at hy; omega
  have hdm := Nat.div_add_mod n.ticks.toNat d.ticks.toNat
  have hml := Nat.mod_lt n.ticks.toNat hd0
  simp only [TimeDelta.divideUp, hy0, if_false]
  refine ⟨_, rfl, ?_⟩
  split
  · rename_i hz
    have hz' : n.ticks.toNat % d.ticks.toNat = 0 := by
      have := congrArg BitVec.toNat hz
      rw [BitVec.toNat_umod, hx, hy] at this; simpa using this
    rw [BitVec.toNat_udiv, hx, hy, Nat.mul_comm]
    omega
  · rename_i hz
    have hz' : n.ticks.toNat % d.ticks.toNat ≠ 0 := by
      intro hc; apply hz; apply BitVec.eq_of_toNat_eq
      rw [BitVec.toNat_umod, hx, hy, hc]; rfl
    have hlt : n.ticks.toNat / d.ticks.toNat + 1 < 2 ^ 32 := by
      have hd2 : 2 ≤ d.ticks.toNat := by
        rcases Nat.lt_or_ge d.ticks.toNat 2 with h | h
        · have : d.ticks.toNat = 1 := by omega
          rw [this, Nat.mod_one] at hz'; exact absurd rfl hz'
        · exact h
      have : n.ticks.toNat / d.ticks.toNat ≤ n.ticks.toNat / 2 := Nat.div_le_div_left hd2 (by omega)
      omega
    rw [BitVec.toNat_add, BitVec.toNat_udiv, hx, hy]
    rw [show (1 : BitVec 32).toNat = 1 from rfl, Nat.mod_eq_of_lt hlt, Nat.add_mul, Nat.one_mul,
      Nat.mul_comm]
    omega

example : (10 : BitVec 64).toNat < 2 ^ 32 ∧ (3 : BitVec 64).toNat < 2 ^ 32 ∧ 0 < (3 : BitVec 64).toNat ∧
    TimeDelta.divideUp ⟨10⟩ ⟨3⟩ = some 4 := by decide

/-- C68 is false of the code for deltas of 2^32 ticks or more (0.43 microseconds at
the default 100 as tick): the quotient of 2^32 by 1 is reported as 0, and a
denominator of 2^32 ticks divides by zero. -/
theorem C68_divideUp_refuted :
    TimeDelta.divideUp ⟨4294967296⟩ ⟨1⟩ = some 0 ∧
    TimeDelta.divideUp ⟨8589934592⟩ ⟨4294967296⟩ = none := by decide

end SST.Time
