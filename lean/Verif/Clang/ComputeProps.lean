import Verif.Clang.Compute
set_option autoImplicit false

/-!
# Theorems about the cost of a block under `#pragma sst compute`
-/

namespace Verif.Clang.Compute

/-! ### Specification -/

/-- The value of the variable of a loop after `k` rounds. -/
def Ctl.value (c : Ctl) (k : Nat) : Int :=
  match c.inc with
  | .up => c.lo + k
  | .down => c.lo - k
  | .add s => c.lo + s * k
  | .sub s => c.lo - s * k
  | .mul s => c.lo * s ^ k

/-- The condition of a loop. -/
def Rel.holds : Rel → Int → Int → Prop
  | .lt, x, y => x < y
  | .le, x, y => x ≤ y
  | .gt, x, y => x > y
  | .ge, x, y => x ≥ y
  | .ne, x, y => x ≠ y

/-- A loop makes `n` rounds: its condition holds before each of them and no longer after the last. -/
def Rounds (c : Ctl) (n : Nat) : Prop := (∀ k, k < n → c.rel.holds (c.value k) c.hi) ∧ ¬ c.rel.holds (c.value n) c.hi

/-- The numbers of floating point operations and of integer operations that a statement executes: arithmetic, assignments, steps and indices in
the bodies of loops, functions and the branches that are taken.  The control of a loop is free.  A branch with a hint goes where the hint says;
without one or with a probability either branch may run. -/
inductive Runs : S → Nat → Nat → Prop
  | skip : Runs .skip 0 0
  | float {l r : S} {a b c d : Nat} : Runs l a b → Runs r c d → Runs (.arith .float l r) (a + c + 1) (b + d)
  | int {t : Ty} {l r : S} {a b c d : Nat} : t = .int ∨ t = .pointer → Runs l a b → Runs r c d → Runs (.arith t l r) (a + c) (b + d + 1)
  | bin {l r : S} {a b c d : Nat} : Runs l a b → Runs r c d → Runs (.bin l r) (a + c) (b + d)
  | stepFloat {e : S} {a b : Nat} : Runs e a b → Runs (.step .float e) (a + 1) b
  | stepInt {t : Ty} {e : S} {a b : Nat} : t = .int ∨ t = .pointer → Runs e a b → Runs (.step t e) a (b + 1)
  | un {e : S} {a b : Nat} : Runs e a b → Runs (.un e) a b
  | index {l r : S} {a b c d : Nat} : Runs l a b → Runs r c d → Runs (.index l r) (a + c) (b + d + 1)
  | decl {e : S} {a b : Nat} : Runs e a b → Runs (.decl e) a b
  | decls {e : S} {a b : Nat} : Runs e a b → Runs (.decls e) a b
  | seq {l r : S} {a b c d : Nat} : Runs l a b → Runs r c d → Runs (.seq l r) (a + c) (b + d)
  | loop {k : Ctl} {s : S} {n a b : Nat} : Rounds k n → Runs s a b → Runs (.loop k s) (n * a) (n * b)
  | yes {h : Hint} {x t e : S} {a b c d : Nat} : h ≠ .never → Runs x a b → Runs t c d → Runs (.ite h x t e) (a + c) (b + d)
  | no {h : Hint} {x t e : S} {a b c d : Nat} : h ≠ .always → Runs x a b → Runs e c d → Runs (.ite h x t e) (a + c) (b + d)
  | call {l r : S} {a b c d : Nat} : Runs l a b → Runs r c d → Runs (.call l r) (a + c) (b + d)
  | other {e : S} {a b : Nat} : Runs e a b → Runs (.other e) a b
  /-- The chosen case of a switch, with the statements at and after its label. -/
  | switch {x l : S} {a b c d : Nat} : Runs x a b → Runs l c d → Runs (.switch x l) (a + c) (b + d + 1)
  | this {f r n : S} {a b c d : Nat} : Runs f a b → Runs r c d → Runs (.case f r n) (a + c) (b + d)
  | next {f r n : S} {a b : Nat} : Runs n a b → Runs (.case f r n) a b

/-- Loops whose control the compiler reads right. -/
def Straight (c : Ctl) : Prop :=
  match c.inc with
  | .up => c.rel = .lt ∧ c.lo ≤ c.hi ∨ c.rel = .ne
  | .down => c.rel = .gt ∧ c.hi ≤ c.lo ∨ c.rel = .ne
  | .add s => 0 < s ∧ s ∣ c.hi - c.lo ∧ (c.rel = .lt ∧ c.lo ≤ c.hi ∨ c.rel = .ne)
  | _ => False

/-- Blocks whose operations the compiler sees: straight loops, one variable in a declaration, branches that always go one way, known functions, and
no operations in conditions, arguments and nodes of other classes. -/
def Good : S → Prop
  | .skip => True
  | .arith t l r => t ≠ .template ∧ Good l ∧ Good r
  | .bin l r => Good l ∧ Good r
  | .step _ e => Good e
  | .un e => Good e
  | .index l r => Good l ∧ Good r
  | .decl e => Good e
  | .decls e => ∀ a b, Runs e a b → a = 0 ∧ b = 0
  | .seq l r => Good l ∧ Good r
  | .loop c s => Straight c ∧ Good s
  | .while _ => False
  | .ite h x t e => (h = .always ∨ h = .never) ∧ Good t ∧ Good e ∧ ∀ a b, Runs x a b → a = 0 ∧ b = 0
  | .switch _ _ => False
  | .case _ _ _ => False
  | .call x s => Good s ∧ ∀ a b, Runs x a b → a = 0 ∧ b = 0
  | .extern _ => False
  | .other e => ∀ a b, Runs e a b → a = 0 ∧ b = 0

/-! ### Proofs -/

/-- What a body adds in `o` executions. -/
def total (o : W) (b : Body) : W × W := (o * BitVec.ofNat 64 b.flops + (b.subs.eval o).1, o * BitVec.ofNat 64 b.intops + (b.subs.eval o).2)

theorem eval_snoc (o : W) (t : Trip) (x : Body) (l : Loops) : (l.snoc t x).eval o = ((l.eval o).1 + (total (t.times o) x).1, (l.eval o).2 + (total (t.times o) x).2) := by
  induction l generalizing o with
  | nil => simp only [Loops.snoc, Loops.eval, total]; ext1 <;> simp only <;> grind
  | cons t' f i s r _ ih => simp only [Loops.snoc, Loops.eval]; rw [ih]; ext1 <;> simp only <;> grind

theorem rounds_up (c : Ctl) (n : Nat) (h : Straight c) (hn : Rounds c n) : tripCount c = n := by
  obtain ⟨lo, rel, hi, inc⟩ := c
  obtain ⟨h1, h2⟩ := hn
  cases inc with
  | up =>
    simp only [Straight] at h
    simp only [tripCount]
    rcases h with ⟨hr, hl⟩ | hr
    · subst hr
      simp only [Rel.holds, Ctl.value] at h1 h2
      cases n with
      | zero => omega
      | succ n => have := h1 n (by omega); omega
    · subst hr
      simp only [Rel.holds, Ctl.value] at h1 h2
      omega
  | down =>
    simp only [Straight] at h
    simp only [tripCount]
    rcases h with ⟨hr, hl⟩ | hr
    · subst hr
      simp only [Rel.holds, Ctl.value] at h1 h2
      cases n with
      | zero => omega
      | succ n => have := h1 n (by omega); omega
    · subst hr
      simp only [Rel.holds, Ctl.value] at h1 h2
      omega
  | add s =>
    simp only [Straight] at h
    simp only [tripCount]
    obtain ⟨hs, ⟨q, hq⟩, hr⟩ := h
    have hq' : hi = lo + s * q := by omega
    have key : q = (n : Int) := by
      rcases hr with ⟨hr, hl⟩ | hr
      · subst hr
        simp only [Rel.holds, Ctl.value] at h1 h2
        have h2' : s * q ≤ s * n := by omega
        have h2'' : q ≤ n := Int.le_of_mul_le_mul_left h2' hs
        cases n with
        | zero =>
          have : 0 ≤ q := by
            have : s * 0 ≤ s * q := by omega
            exact Int.le_of_mul_le_mul_left this hs
          omega
        | succ n =>
          have := h1 n (by omega)
          have h3 : s * n < s * q := by omega
          have := Int.lt_of_mul_lt_mul_left h3 (by omega)
          omega
      · subst hr
        simp only [Rel.holds, Ctl.value] at h1 h2
        have h2' : s * q = s * n := by omega
        exact Int.eq_of_mul_eq_mul_left (by omega) h2'
    rw [hq, Int.mul_tdiv_cancel_left _ (by omega), key]
  | sub s => exact h.elim
  | mul s => exact h.elim

theorem add_runs {s : S} {f i : Nat} (h : Runs s f i) : Good s → ∀ b : Body, ∃ b', add s b = some b' ∧
    ∀ o, total o b' = ((total o b).1 + o * BitVec.ofNat 64 f, (total o b).2 + o * BitVec.ofNat 64 i) := by
  induction h with
  | skip => intro _ b; exact ⟨b, rfl, fun o => by ext1 <;> simp only <;> grind⟩
  | float _ _ ih1 ih2 =>
    intro hg b
    obtain ⟨b1, e1, t1⟩ := ih1 hg.2.1 { b with flops := b.flops + 1 }
    obtain ⟨b2, e2, t2⟩ := ih2 hg.2.2 b1
    refine ⟨b2, by simp only [add, Body.op, Option.bind_some, e1, e2], fun o => ?_⟩
    rw [t2, t1]
    simp only [total, BitVec.ofNat_add]
    ext1 <;> simp only <;> grind
  | int ht _ _ ih1 ih2 =>
    intro hg b
    obtain ⟨b1, e1, t1⟩ := ih1 hg.2.1 { b with intops := b.intops + 1 }
    obtain ⟨b2, e2, t2⟩ := ih2 hg.2.2 b1
    refine ⟨b2, by rcases ht with rfl | rfl <;> simp only [add, Body.op, Option.bind_some, e1, e2], fun o => ?_⟩
    rw [t2, t1]
    simp only [total, BitVec.ofNat_add]
    ext1 <;> simp only <;> grind
  | bin _ _ ih1 ih2 =>
    intro hg b
    obtain ⟨b1, e1, t1⟩ := ih1 hg.1 b
    obtain ⟨b2, e2, t2⟩ := ih2 hg.2 b1
    refine ⟨b2, by simp only [add, Option.bind_some, e1, e2], fun o => ?_⟩
    rw [t2, t1]
    simp only [total, BitVec.ofNat_add]
    ext1 <;> simp only <;> grind
  | stepFloat _ ih =>
    intro hg b
    obtain ⟨b1, e1, t1⟩ := ih hg { b with flops := b.flops + 1 }
    refine ⟨b1, by simp only [add, Body.inc, e1], fun o => ?_⟩
    rw [t1]
    simp only [total, BitVec.ofNat_add]
    ext1 <;> simp only <;> grind
  | stepInt ht _ ih =>
    intro hg b
    obtain ⟨b1, e1, t1⟩ := ih hg { b with intops := b.intops + 1 }
    refine ⟨b1, by rcases ht with rfl | rfl <;> simp only [add, Body.inc, e1], fun o => ?_⟩
    rw [t1]
    simp only [total, BitVec.ofNat_add]
    ext1 <;> simp only <;> grind
  | un _ ih => intro hg b; exact ih hg b
  | index _ _ ih1 ih2 =>
    intro hg b
    obtain ⟨b1, e1, t1⟩ := ih2 hg.2 { b with intops := b.intops + 1 }
    obtain ⟨b2, e2, t2⟩ := ih1 hg.1 b1
    refine ⟨b2, by simp only [add, Option.bind_some, e1, e2], fun o => ?_⟩
    rw [t2, t1]
    simp only [total, BitVec.ofNat_add]
    ext1 <;> simp only <;> grind
  | decl _ ih => intro hg b; exact ih hg b
  | decls hr _ =>
    intro hg b
    obtain ⟨rfl, rfl⟩ := hg _ _ hr
    exact ⟨b, rfl, fun o => by ext1 <;> simp only <;> grind⟩
  | seq _ _ ih1 ih2 =>
    intro hg b
    obtain ⟨b1, e1, t1⟩ := ih1 hg.1 b
    obtain ⟨b2, e2, t2⟩ := ih2 hg.2 b1
    refine ⟨b2, by simp only [add, Option.bind_some, e1, e2], fun o => ?_⟩
    rw [t2, t1]
    simp only [total, BitVec.ofNat_add]
    ext1 <;> simp only <;> grind
  | @loop k s n a b' hn _ ih =>
    intro hg b
    obtain ⟨x, e1, t1⟩ := ih hg.2 .new
    refine ⟨_, by rw [add, e1]; rfl, fun o => ?_⟩
    have hk := rounds_up k n hg.1 hn
    have hx := t1 (o * BitVec.ofInt 64 (tripCount k))
    have h0 : total (o * BitVec.ofInt 64 (tripCount k)) .new = (0#64, 0#64) := by
      simp only [total, Body.new, Loops.eval]; ext1 <;> simp only <;> grind
    rw [h0, hk, BitVec.ofInt_natCast] at hx
    unfold total
    simp only
    rw [eval_snoc]
    simp only [Trip.times]
    rw [hk, BitVec.ofInt_natCast, hx, BitVec.ofNat_mul, BitVec.ofNat_mul]
    ext1 <;> simp only <;> grind
  | @yes h x t e a b c d hh hx _ _ ih =>
    intro hg b
    obtain ⟨rfl, rfl⟩ := hg.2.2.2 _ _ hx
    have : h = .always := hg.1.resolve_right hh
    subst this
    obtain ⟨b1, e1, t1⟩ := ih hg.2.1 b
    exact ⟨b1, e1, fun o => by rw [t1, Nat.zero_add, Nat.zero_add]⟩
  | @no h x t e a b c d hh hx _ _ ih =>
    intro hg b
    obtain ⟨rfl, rfl⟩ := hg.2.2.2 _ _ hx
    have : h = .never := hg.1.resolve_left hh
    subst this
    obtain ⟨b1, e1, t1⟩ := ih hg.2.2.1 b
    exact ⟨b1, e1, fun o => by rw [t1, Nat.zero_add, Nat.zero_add]⟩
  | call hx _ _ ih =>
    intro hg b
    obtain ⟨rfl, rfl⟩ := hg.2 _ _ hx
    obtain ⟨b1, e1, t1⟩ := ih hg.1 b
    exact ⟨b1, e1, fun o => by rw [t1, Nat.zero_add, Nat.zero_add]⟩
  | other hx _ =>
    intro hg b
    obtain ⟨rfl, rfl⟩ := hg _ _ hx
    exact ⟨b, rfl, fun o => by ext1 <;> simp only <;> grind⟩
  | switch _ _ _ _ => intro hg; exact hg.elim
  | this _ _ _ _ => intro hg; exact hg.elim
  | next _ _ => intro hg; exact hg.elim

theorem eval_one (t : Trip) (x : Body) : (Loops.cons t x.flops x.intops x.subs .nil).eval 1#64 = total (t.times 1#64) x := by
  simp only [Loops.eval, total]
  ext1 <;> simp only <;> grind

/-- The charge of a statement is that of its body executed once; loops are no exception. -/
theorem charge_eq (s : S) : charge s = (add s .new).map (total 1#64) := by
  have h1 : (1#64 * BitVec.ofInt 64 1 : W) = 1#64 := by decide
  cases s with
  | loop c body =>
    simp only [charge, add, Option.map_map]
    congr 1
    funext x
    simp only [Function.comp, eval_one]
    simp only [total, Body.new, Loops.snoc, Loops.eval, Trip.times]
    ext1 <;> simp only <;> grind
  | _ =>
    simp only [charge]
    congr 1
    funext x
    rw [eval_one, Trip.times, h1]

theorem total_new (o : W) : total o .new = (0#64, 0#64) := by
  simp only [total, Body.new, Loops.eval]; ext1 <;> simp only <;> grind

/-! ### Theorems -/

/-- For all blocks of the kind that the compiler reads right, nested to any depth, the cost is exactly the number of operations that the block
executes, as numbers of 64 bits. -/
theorem C141_charges_partial (s : S) (f i : Nat) (h : Runs s f i) (hg : Good s) : charge s = some (BitVec.ofNat 64 f, BitVec.ofNat 64 i) := by
  obtain ⟨b', e, t⟩ := add_runs h hg .new
  rw [charge_eq, e, Option.map_some, t, total_new]
  congr 1
  ext1 <;> simp only <;> grind

/-- A double loop with an operation of each kind, and a loop by steps. -/
example : Good (.loop ⟨0, .lt, 10, .up⟩ (.seq (.loop ⟨3, .gt, 0, .down⟩ (.arith .float (.index .skip .skip) .skip)) (.loop ⟨0, .lt, 8, .add 2⟩ (.step .int .skip)))) := by
  refine ⟨Or.inl ⟨rfl, by decide⟩, ⟨Or.inl ⟨rfl, by decide⟩, by decide, ⟨trivial, trivial⟩, trivial⟩, ⟨by decide, ⟨4, rfl⟩, Or.inl ⟨rfl, by decide⟩⟩, trivial⟩

example : charge (.loop ⟨0, .lt, 10, .up⟩ (.seq (.loop ⟨3, .gt, 0, .down⟩ (.arith .float (.index .skip .skip) .skip)) (.loop ⟨0, .lt, 8, .add 2⟩ (.step .int .skip)))) = some (30#64, 70#64) := by decide

/-- A loop that makes no round is charged for nearly `2^64` rounds if it ends below its start. -/
theorem C141_empty_refuted (lo hi : Int) (h : hi < lo) : Rounds ⟨lo, .lt, hi, .up⟩ 0 ∧
    charge (.loop ⟨lo, .lt, hi, .up⟩ (.arith .float .skip .skip)) = some (BitVec.ofInt 64 (hi - lo), 0#64) := by
  refine ⟨⟨fun k hk => absurd hk (by omega), ?_⟩, ?_⟩
  · simp only [Rel.holds, Ctl.value]; omega
  · simp only [charge, add, Body.op, Option.bind_some, Option.map_some, Loops.eval, Body.new, Trip.times, tripCount]
    congr 1
    ext1 <;> simp only <;> grind

example : (BitVec.ofInt 64 (3 - 5)).toNat = 2 ^ 64 - 2 := by decide

/-- A loop up to and with its limit is charged for one round less than it makes. -/
theorem C141_limit_refuted (lo : Int) (n : Nat) : Rounds ⟨lo, .le, lo + n, .up⟩ (n + 1) ∧
    charge (.loop ⟨lo, .le, lo + n, .up⟩ (.arith .float .skip .skip)) = some (BitVec.ofNat 64 n, 0#64) := by
  refine ⟨⟨fun k hk => ?_, ?_⟩, ?_⟩
  · simp only [Rel.holds, Ctl.value]; omega
  · simp only [Rel.holds, Ctl.value]; omega
  · simp only [charge, add, Body.op, Option.bind_some, Option.map_some, Loops.eval, Body.new, Trip.times, tripCount, show lo + (n : Int) - lo = n by omega, BitVec.ofInt_natCast]
    congr 1
    ext1 <;> simp only <;> grind

/-- A loop with a step is charged for whole steps only: the last, shorter one is missing. -/
theorem C141_step_refuted (lo : Int) (q s r : Nat) (hr : 0 < r) (hs : r < s) : Rounds ⟨lo, .lt, lo + (s * q + r : Nat), .add s⟩ (q + 1) ∧
    charge (.loop ⟨lo, .lt, lo + (s * q + r : Nat), .add s⟩ (.arith .float .skip .skip)) = some (BitVec.ofNat 64 q, 0#64) := by
  refine ⟨⟨fun k hk => ?_, ?_⟩, ?_⟩
  · simp only [Rel.holds, Ctl.value]
    have : s * k ≤ s * q := Nat.mul_le_mul_left s (by omega)
    rw [show (s : Int) * (k : Int) = ((s * k : Nat) : Int) from (Int.natCast_mul s k).symm]
    omega
  · simp only [Rel.holds, Ctl.value]
    rw [show (s : Int) * ((q + 1 : Nat) : Int) = ((s * q + s : Nat) : Int) by rw [← Int.natCast_mul, Nat.mul_add, Nat.mul_one]]
    omega
  · have : (((s * q + r : Nat) : Int)).tdiv (s : Int) = (q : Int) := by
      rw [← Int.ofNat_tdiv, Nat.mul_add_div (by omega), Nat.div_eq_of_lt hs, Nat.add_zero]
    simp only [charge, add, Body.op, Option.bind_some, Option.map_some, Loops.eval, Body.new, Trip.times, tripCount, show lo + ((s * q + r : Nat) : Int) - lo = ((s * q + r : Nat) : Int) by omega, this, BitVec.ofInt_natCast]
    congr 1
    ext1 <;> simp only <;> grind

/-- A loop down by steps is charged for the negative of its rounds, nearly `2^64`. -/
theorem C141_down_refuted (hi : Int) (q s : Nat) (hs : 0 < s) : Rounds ⟨hi + (s * q : Nat), .gt, hi, .sub s⟩ q ∧
    charge (.loop ⟨hi + (s * q : Nat), .gt, hi, .sub s⟩ (.arith .float .skip .skip)) = some (BitVec.ofInt 64 (-q), 0#64) := by
  refine ⟨⟨fun k hk => ?_, ?_⟩, ?_⟩
  · simp only [Rel.holds, Ctl.value]
    have : s * k < s * q := Nat.mul_lt_mul_of_pos_left hk hs
    rw [show (s : Int) * (k : Int) = ((s * k : Nat) : Int) from (Int.natCast_mul s k).symm]
    omega
  · simp only [Rel.holds, Ctl.value]
    rw [show (s : Int) * (q : Int) = ((s * q : Nat) : Int) from (Int.natCast_mul s q).symm]
    omega
  · have : (hi - (hi + ((s * q : Nat) : Int))).tdiv (s : Int) = -(q : Int) := by
      rw [show hi - (hi + ((s * q : Nat) : Int)) = (s : Int) * (-(q : Int)) by rw [Int.mul_neg, ← Int.natCast_mul]; omega, Int.mul_tdiv_cancel_left _ (by omega)]
    simp only [charge, add, Body.op, Option.bind_some, Option.map_some, Loops.eval, Body.new, Trip.times, tripCount, this]
    congr 1
    ext1 <;> simp only <;> grind

/-- In a loop of `n` rounds, a branch predicted to be taken with the probability `a / b` is charged for its share of the rounds; its else is charged
for all rounds but one, whatever the probability. -/
theorem C141_else_refuted (n a b : Nat) (hn : 0 < n) (ha : 0 < a) (hb : a ≤ b) (hw : n < 2 ^ 64) :
    charge (.loop ⟨0, .lt, n, .up⟩ (.ite (.part a b) .skip (.arith .float .skip .skip) (.arith .int .skip .skip))) =
      some (BitVec.ofNat 64 (n * a / b), BitVec.ofNat 64 (n - 1)) := by
  have h1 : (n * b - a) / b = n - 1 := by
    obtain ⟨m, rfl⟩ : ∃ m, n = m + 1 := ⟨n - 1, by omega⟩
    rw [Nat.add_mul, Nat.one_mul, show m * b + b - a = b * m + (b - a) by rw [Nat.mul_comm]; omega, Nat.mul_add_div (by omega), Nat.div_eq_of_lt (by omega)]
    rfl
  have h2 : (1#64 * BitVec.ofInt 64 ((n : Int) - 0) : W).toNat = n := by
    rw [Int.sub_zero, BitVec.ofInt_natCast, BitVec.one_mul, BitVec.toNat_ofNat, Nat.mod_eq_of_lt hw]
  simp only [charge, add, Body.op, Option.bind_some, Option.map_some, Loops.eval, Body.new, Loops.snoc, Trip.times, tripCount, h1, h2]
  congr 1
  ext1 <;> simp only <;> grind

example : charge (.loop ⟨0, .lt, 100, .up⟩ (.ite (.part 9 10) .skip (.arith .float .skip .skip) (.arith .int .skip .skip))) = some (90#64, 99#64) := by decide

/-- A branch without a hint is charged for its else only, also when the other branch is taken. -/
theorem C141_no_hint_refuted (t e : S) (a b c d : Nat) (ht : Runs t a b) (he : Runs e c d) (hg : Good e) : Runs (.ite .none .skip t e) (0 + a) (0 + b) ∧
    charge (.ite .none .skip t e) = some (BitVec.ofNat 64 c, BitVec.ofNat 64 d) := by
  refine ⟨.yes (by decide) .skip ht, ?_⟩
  rw [charge_eq, show add (.ite .none .skip t e) .new = add e .new from rfl, ← charge_eq]
  exact C141_charges_partial e c d he hg

/-- A switch is charged for the first statements of all its cases, and for none of the statements that follow them, whichever case runs. -/
theorem C141_switch_refuted (x r y q : S) (a b c d a' b' c' d' : Nat) (hx : Runs x a b) (hr : Runs r c d) (hy : Runs y a' b') (hq : Runs q c' d') (gx : Good x) (gy : Good y) :
    Runs (.switch .skip (.case x r (.case y q .skip))) (0 + (a + c)) (0 + (b + d) + 1) ∧ Runs (.switch .skip (.case x r (.case y q .skip))) (0 + (a' + c')) (0 + (b' + d') + 1) ∧
    charge (.switch .skip (.case x r (.case y q .skip))) = some (BitVec.ofNat 64 (a + a'), BitVec.ofNat 64 (b + b' + 1)) := by
  refine ⟨.switch .skip (.this hx hr), .switch .skip (.next (.this hy hq)), ?_⟩
  obtain ⟨b1, e1, t1⟩ := add_runs hx gx { Body.new with intops := 0 + 1 }
  obtain ⟨b2, e2, t2⟩ := add_runs hy gy b1
  rw [charge_eq]
  have : add (.switch .skip (.case x r (.case y q .skip))) .new = some b2 := by
    simp only [add]
    rw [show ({ Body.new with intops := Body.new.intops + 1 } : Body) = { Body.new with intops := 0 + 1 } from rfl, e1, Option.bind_some, e2]
    rfl
  rw [this, Option.map_some, t2, t1]
  simp only [total, Body.new, Loops.eval, BitVec.ofNat_add]
  congr 1
  ext1 <;> simp only <;> grind

/-- One case of two runs; both are charged. -/
example : Runs (.switch .skip (.case (.arith .float .skip .skip) .skip (.case (.arith .float .skip .skip) .skip .skip))) 1 1 ∧
    charge (.switch .skip (.case (.arith .float .skip .skip) .skip (.case (.arith .float .skip .skip) .skip .skip))) = some (2#64, 1#64) :=
  ⟨.switch .skip (.this (.float .skip .skip) .skip), by decide⟩

/-- Declarations of more than one variable, the arguments of calls, conditions, and everything in a `return`, a `do` and other nodes that the visitor
has no case for are free, whatever they execute. -/
theorem C141_unseen_refuted (e s : S) (a b : Nat) (he : Runs e a b) (h : s = .decls e ∨ s = .call e .skip ∨ s = .ite .always e .skip .skip ∨ s = .other e) :
    Runs s a b ∧ charge s = some (0#64, 0#64) := by
  have z : total 1#64 .new = (0#64, 0#64) := total_new _
  rcases h with rfl | rfl | rfl | rfl
  · exact ⟨.decls he, by rw [charge_eq, show add (.decls e) .new = some .new from rfl, Option.map_some, z]⟩
  · exact ⟨.call he .skip, by rw [charge_eq, show add (.call e .skip) .new = some .new from rfl, Option.map_some, z]⟩
  · exact ⟨.yes (by decide) he .skip, by rw [charge_eq, show add (.ite .always e .skip .skip) .new = some .new from rfl, Option.map_some, z]⟩
  · exact ⟨.other he, by rw [charge_eq, show add (.other e) .new = some .new from rfl, Option.map_some, z]⟩

/-- A function that returns the product of its arguments costs nothing. -/
example : Runs (.call .skip (.other (.arith .float .skip .skip))) 1 0 ∧ charge (.call .skip (.other (.arith .float .skip .skip))) = some (0#64, 0#64) :=
  ⟨.call .skip (.other (.float .skip .skip)), by decide⟩

/-- Statements in which the visitor meets a `while`: not those that are hidden in what it does not visit. -/
def Meets : S → Prop
  | .arith _ l r => Meets l ∨ Meets r
  | .bin l r => Meets l ∨ Meets r
  | .step _ e => Meets e
  | .un e => Meets e
  | .index l r => Meets l ∨ Meets r
  | .decl e => Meets e
  | .seq l r => Meets l ∨ Meets r
  | .loop _ s => Meets s
  | .while _ => True
  | .ite h _ t e => (h = .always ∧ Meets t) ∨ ((h = .never ∨ h = .none) ∧ Meets e) ∨ ((∃ a b, h = .part a b) ∧ (Meets t ∨ Meets e))
  | .switch _ l => Meets l
  | .case f _ n => Meets f ∨ Meets n
  | .call _ s => Meets s
  | _ => False

theorem meets_none (s : S) : Meets s → ∀ b, add s b = none := by
  induction s with
  | skip => intro h; exact h.elim
  | arith t l r ih1 ih2 =>
    intro h b
    rw [add]
    cases hb : b.op t with
    | none => rfl
    | some b1 =>
      rw [Option.bind_some]
      rcases h with h | h
      · rw [ih1 h]; rfl
      · cases add l b1 with
        | none => rfl
        | some b2 => exact ih2 h b2
  | bin l r ih1 ih2 =>
    intro h b
    rw [add]
    rcases h with h | h
    · rw [ih1 h]; rfl
    · cases add l b with
      | none => rfl
      | some b2 => exact ih2 h b2
  | step t e ih => intro h b; exact ih h _
  | un e ih => intro h b; exact ih h _
  | index l r ih1 ih2 =>
    intro h b
    rw [add]
    rcases h with h | h
    · cases add r { b with intops := b.intops + 1 } with
      | none => rfl
      | some b2 => exact ih1 h b2
    · rw [ih2 h]; rfl
  | decl e ih => intro h b; exact ih h _
  | decls e _ => intro h; exact h.elim
  | seq l r ih1 ih2 =>
    intro h b
    rw [add]
    rcases h with h | h
    · rw [ih1 h]; rfl
    · cases add l b with
      | none => rfl
      | some b2 => exact ih2 h b2
  | loop c s ih => intro h b; rw [add, ih h]; rfl
  | «while» s _ => intro _ b; rfl
  | ite h x t e _ ih1 ih2 =>
    intro hm b
    rcases hm with ⟨rfl, hm⟩ | ⟨hh, hm⟩ | ⟨⟨p, q, rfl⟩, hm⟩
    · exact ih1 hm b
    · rcases hh with rfl | rfl <;> exact ih2 hm b
    · simp only [add]
      rcases hm with hm | hm
      · rw [ih1 hm]; rfl
      · cases add t .new with
        | none => rfl
        | some x => rw [Option.bind_some, ih2 hm]; rfl
  | switch c l _ ih => intro h b; exact ih h _
  | case f r n ih1 _ ih3 =>
    intro h b
    rw [add]
    rcases h with h | h
    · rw [ih1 h]; rfl
    · cases add f b with
      | none => rfl
      | some b2 => exact ih3 h b2
  | call x s _ ih => intro h b; exact ih h _
  | extern e _ => intro h; exact h.elim
  | other e _ => intro h; exact h.elim

/-- A block with a `while` that the visitor meets is refused when the program is compiled, never charged wrongly. -/
theorem C141_while (s : S) (h : Meets s) : charge s = none := by
  rw [charge_eq, meets_none s h]; rfl

example : Meets (.loop ⟨0, .lt, 3, .up⟩ (.seq .skip (.while .skip))) := Or.inr trivial

end Verif.Clang.Compute
