import Verif.Mpi.OpsLemmas
/-!
C119: reductions with predefined and with user-defined operators.
-/
set_option autoImplicit false
namespace SST.Mpi.Ops

/-! ### Specification: the MPI standard, section 6.9.2 (MPI 4) -/

/-- The groups of predefined datatypes. -/
inductive Class
  | cInteger | fInteger | floating | logical | complex | byte | pair | other
deriving DecidableEq, Repr

/-- The group of each datatype. -/
def cls : Builtin → Class
  | .int | .long | .short | .unsignedShort | .unsigned | .unsignedLong | .longLongInt | .unsignedLongLong
  | .signedChar | .unsignedChar | .int8 | .int16 | .int32 | .int64 | .uint8 | .uint16 | .uint32 | .uint64 => .cInteger
  | .integer | .integer1 | .integer2 | .integer4 | .integer8 => .fInteger
  | .float | .double | .longDouble | .real | .doublePrecision | .real4 | .real8 | .real16 => .floating
  | .logical | .cxxBool => .logical
  | .complex | .doubleComplex | .complex8 | .complex16 => .complex
  | .byte => .byte
  | .floatInt | .doubleInt | .longInt | .twoInt | .shortInt | .longDoubleInt
  | .twoReal | .twoDoublePrecision | .twoInteger => .pair
  | .null | .char | .packed | .ub | .lb | .wchar | .character => .other

/-- The operators the standard defines for a group. -/
def allowed : Class → Op → Bool
  | .cInteger, k => k ∈ [.max, .min, .sum, .prod, .land, .lor, .lxor, .band, .bor, .bxor]
  | .fInteger, k => k ∈ [.max, .min, .sum, .prod, .band, .bor, .bxor]
  | .floating, k => k ∈ [.max, .min, .sum, .prod]
  | .logical, k => k ∈ [.land, .lor, .lxor]
  | .complex, k => k ∈ [.sum, .prod]
  | .byte, k => k ∈ [.band, .bor, .bxor]
  | .pair, k => k ∈ [.maxloc, .minloc]
  | .other, _ => false

/-- The type of C (or C++) whose values a datatype of integers holds; a byte is read as a signed
number. -/
def cType : Builtin → Option CT
  | .signedChar | .int8 | .integer1 | .byte => some (.int true 8)
  | .unsignedChar | .uint8 => some (.int false 8)
  | .short | .int16 | .integer2 => some (.int true 16)
  | .unsignedShort | .uint16 => some (.int false 16)
  | .int | .int32 | .integer | .integer4 => some (.int true 32)
  | .unsigned | .uint32 => some (.int false 32)
  | .long | .longLongInt | .int64 | .integer8 => some (.int true 64)
  | .unsignedLong | .unsignedLongLong | .uint64 => some (.int false 64)
  | .cxxBool => some .bool
  | _ => none

/-- The product. -/
def product (l : List Int) : Int := l.foldr (· * ·) 1

/-- `v` is the result of the operator on the contributions `l`; `w` is the number of bits.  The
logical operators give a truth value; of a single contribution it is the contribution itself. -/
def Means (w : Nat) (l : List Int) (v : Int) : Op → Prop
  | .max => v ∈ l ∧ ∀ x ∈ l, x ≤ v
  | .min => v ∈ l ∧ ∀ x ∈ l, v ≤ x
  | .sum => v = l.sum
  | .prod => v = product l
  | .land => (v ≠ 0 ↔ ∀ x ∈ l, x ≠ 0) ∧ (2 ≤ l.length → v = 0 ∨ v = 1)
  | .lor => (v ≠ 0 ↔ ∃ x ∈ l, x ≠ 0) ∧ (2 ≤ l.length → v = 0 ∨ v = 1)
  | .lxor => (v ≠ 0 ↔ l.countP (fun x => x ≠ 0) % 2 = 1) ∧ (2 ≤ l.length → v = 0 ∨ v = 1)
  | .band => ∀ i, i < w → (bit v i ↔ ∀ x ∈ l, bit x i)
  | .bor => ∀ i, i < w → (bit v i ↔ ∃ x ∈ l, bit x i)
  | .bxor => ∀ i, i < w → (bit v i ↔ l.countP (fun x => x / 2 ^ i % 2 = 1) % 2 = 1)
  | _ => False

/-- All ranks of the tree contribute `n` values of the type. -/
def Given (t : CT) (n : Nat) (d : Nat → List Int) (T : Tree) : Prop :=
  ∀ r ∈ T.ranks, (d r).length = n ∧ ∀ x ∈ d r, t.Fits x

/-! ### The tables -/

/-- The template of an operator. -/
def tmplOf : Op → Option Tmpl
  | .max => some .max
  | .min => some .min
  | .sum => some .add
  | .prod => some .prod
  | .land => some .and
  | .lor => some .or
  | .lxor => some .lxor
  | .band => some .band
  | .bor => some .bor
  | .bxor => some .bxor
  | _ => none

theorem op_found {b : Builtin} {t : CT} {k : Op} {f : Tmpl} (ht : cType b = some t) (hf : tmplOf k = some f) :
    (table b).bind (·.op k) = some (.int t f) := by
  cases b <;> simp only [cType, reduceCtorEq, Option.some.injEq] at ht <;> subst ht <;>
    cases k <;> simp only [tmplOf, reduceCtorEq, Option.some.injEq] at hf <;> subst hf <;> rfl

theorem reduce_eq {s : Api} {b : Builtin} {t : CT} {k : Op} {f : Tmpl} (ht : cType b = some t) (hf : tmplOf k = some f)
    (n : Nat) (d : Nat → List Int) (T : Tree) :
    reduce s b (.pre k) n d T = T.eval (Fxn.run n (.int t f)) d := by
  have h := op_found ht hf
  cases hb : table b with
  | none => rw [hb] at h; cases h
  | some o =>
    rw [hb] at h
    have h' : o.op k = some (.int t f) := h
    simp only [reduce, getFxn, hb, h', if_true]

theorem cType_cases {b : Builtin} {t : CT} (ht : cType b = some t) :
    t = .bool ∨ ∃ s w, t = .int s w ∧ (w = 8 ∨ w = 16 ∨ w = 32 ∨ w = 64) := by
  cases b <;> simp only [cType, reduceCtorEq, Option.some.injEq] at ht <;> subst ht <;> simp

theorem w_pos {b : Builtin} {t : CT} (ht : cType b = some t) : 0 < t.w := by
  rcases cType_cases ht with rfl | ⟨s, w, rfl, h⟩
  · decide
  · show 0 < w; omega

theorem fits01 {t : CT} (hw : 0 < t.w) (h1 : ∀ s, t ≠ .int s 1) (b : Bool) : t.Fits (ofBool b) := by
  match t with
  | .bool => cases b <;> exact ⟨by decide, by decide⟩
  | .int false w =>
    have hw' : 0 < w := hw
    have := two_pow_half hw'
    have := two_pow_pos (w - 1)
    show (0 : Int) ≤ ofBool b ∧ ofBool b ≤ 2 ^ w - 1
    cases b <;> simp only [ofBool, if_true, Bool.false_eq_true, if_false] <;> omega
  | .int true w =>
    have hw' : 0 < w := hw
    have hne : w ≠ 1 := fun h => h1 true (by rw [h])
    have := two_pow_half (w := w - 1) (by omega)
    have := two_pow_pos (w - 1 - 1)
    show -(2 : Int) ^ (w - 1) ≤ ofBool b ∧ ofBool b ≤ 2 ^ (w - 1) - 1
    cases b <;> simp only [ofBool, if_true, Bool.false_eq_true, if_false] <;> omega

theorem not_one {b : Builtin} {t : CT} (ht : cType b = some t) : ∀ s, t ≠ .int s 1 := by
  intro s hs
  rcases cType_cases ht with h | ⟨s', w, h, hw⟩
  · rw [hs] at h; cases h
  · rw [hs] at h; cases h; omega

theorem conv_bool {b : Builtin} {t : CT} (ht : cType b = some t) (c : Bool) : conv t (ofBool c) = ofBool c :=
  conv_id (w_pos ht) (fits01 (w_pos ht) (not_one ht) c)

theorem ofBool_ne (c : Bool) : ofBool c ≠ 0 ↔ c = true := by cases c <;> decide

theorem ofBool_01 (c : Bool) : ofBool c = 0 ∨ ofBool c = 1 := by cases c <;> decide

/-- One step of a reduction keeps the meaning. -/
theorem means_step {b : Builtin} {t : CT} {k : Op} {f : Tmpl} (ht : cType b = some t) (hf : tmplOf k = some f)
    (hk : k ≠ .sum ∧ k ≠ .prod) (hbit : t ≠ .bool ∨ k ∈ [.land, .lor, .lxor])
    {l m : List Int} {x y c : Int} (hx : t.Fits x) (hy : t.Fits y)
    (hl : l ≠ [] ∧ Means t.w l x k) (hm : m ≠ [] ∧ Means t.w m y k) (hc : apply t f x y = some c) :
    t.Fits c ∧ (l ++ m ≠ [] ∧ Means t.w (l ++ m) c k) := by
  have hne : l ++ m ≠ [] := by simp [hl.1]
  replace hl := hl.2
  replace hm := hm.2
  cases k <;> simp only [tmplOf, reduceCtorEq, Option.some.injEq] at hf <;> subst hf <;>
    simp only [apply, Option.some.injEq] at hc
  case sum => exact absurd rfl hk.1
  case prod => exact absurd rfl hk.2
  case max =>
    subst hc
    split
    · exact ⟨hy, hne, List.mem_append_right _ hm.1, fun z hz => (List.mem_append.1 hz).elim
        (fun h => by have := hl.2 z h; omega) (fun h => hm.2 z h)⟩
    · exact ⟨hx, hne, List.mem_append_left _ hl.1, fun z hz => (List.mem_append.1 hz).elim
        (fun h => hl.2 z h) (fun h => by have := hm.2 z h; omega)⟩
  case min =>
    subst hc
    split
    · exact ⟨hx, hne, List.mem_append_left _ hl.1, fun z hz => (List.mem_append.1 hz).elim
        (fun h => hl.2 z h) (fun h => by have := hm.2 z h; omega)⟩
    · exact ⟨hy, hne, List.mem_append_right _ hm.1, fun z hz => (List.mem_append.1 hz).elim
        (fun h => by have := hl.2 z h; omega) (fun h => hm.2 z h)⟩
  case land =>
    rw [conv_bool ht] at hc
    subst hc
    refine ⟨fits01 (w_pos ht) (not_one ht) _, hne, ?_, fun _ => ofBool_01 _⟩
    rw [ofBool_ne]
    simp only [Bool.and_eq_true, bne_iff_ne, List.mem_append]
    rw [hl.1, hm.1]
    exact ⟨fun h z hz => hz.elim (h.1 z) (h.2 z), fun h => ⟨fun z hz => h z (.inl hz), fun z hz => h z (.inr hz)⟩⟩
  case lor =>
    rw [conv_bool ht] at hc
    subst hc
    refine ⟨fits01 (w_pos ht) (not_one ht) _, hne, ?_, fun _ => ofBool_01 _⟩
    rw [ofBool_ne]
    simp only [Bool.or_eq_true, bne_iff_ne, List.mem_append]
    rw [hl.1, hm.1]
    constructor
    · rintro (⟨z, h, h'⟩ | ⟨z, h, h'⟩)
      · exact ⟨z, .inl h, h'⟩
      · exact ⟨z, .inr h, h'⟩
    · rintro ⟨z, h | h, h'⟩
      · exact .inl ⟨z, h, h'⟩
      · exact .inr ⟨z, h, h'⟩
  case lxor =>
    rw [conv_bool ht] at hc
    subst hc
    refine ⟨fits01 (w_pos ht) (not_one ht) _, hne, ?_, fun _ => ofBool_01 _⟩
    have h1 := hl.1
    have h2 := hm.1
    rw [ofBool_ne, List.countP_append]
    generalize List.countP (fun x => decide (x ≠ 0)) l = p at h1 ⊢
    generalize List.countP (fun x => decide (x ≠ 0)) m = q at h2 ⊢
    by_cases hx0 : x = 0 <;> by_cases hy0 : y = 0
    · rw [show (x != 0) = false by simp [hx0], show (y != 0) = false by simp [hy0]]
      simp only [Bool.xor_false, Bool.false_eq_true, false_iff]
      omega
    · rw [show (x != 0) = false by simp [hx0], show (y != 0) = true by simp [hy0]]
      simp only [Bool.false_xor, true_iff]
      omega
    · rw [show (x != 0) = true by simp [hx0], show (y != 0) = false by simp [hy0]]
      simp only [Bool.xor_false, true_iff]
      omega
    · rw [show (x != 0) = true by simp [hx0], show (y != 0) = true by simp [hy0]]
      simp only [Bool.xor_self, Bool.false_eq_true, false_iff]
      omega
  case band =>
    match t with
    | .bool => exact absurd hbit (by simp)
    | .int s w =>
      have hw : 0 < w := w_pos ht
      subst hc
      refine ⟨conv_fits (.int s w) hw _, hne, fun i hi => ?_⟩
      have hi' : i < (prom (.int s w)).2 := Nat.lt_of_lt_of_le hi (prom_w s w)
      rw [bit_conv hw _ hi, Nat.testBit_and, Bool.and_eq_true, bits_bit _ _ hi', bits_bit _ _ hi', hl i hi, hm i hi]
      simp only [List.mem_append]
      exact ⟨fun h z hz => hz.elim (h.1 z) (h.2 z), fun h => ⟨fun z hz => h z (.inl hz), fun z hz => h z (.inr hz)⟩⟩
  case bor =>
    match t with
    | .bool => exact absurd hbit (by simp)
    | .int s w =>
      have hw : 0 < w := w_pos ht
      subst hc
      refine ⟨conv_fits (.int s w) hw _, hne, fun i hi => ?_⟩
      have hi' : i < (prom (.int s w)).2 := Nat.lt_of_lt_of_le hi (prom_w s w)
      rw [bit_conv hw _ hi, Nat.testBit_or, Bool.or_eq_true, bits_bit _ _ hi', bits_bit _ _ hi', hl i hi, hm i hi]
      simp only [List.mem_append]
      constructor
      · rintro (⟨z, h, h'⟩ | ⟨z, h, h'⟩)
        · exact ⟨z, .inl h, h'⟩
        · exact ⟨z, .inr h, h'⟩
      · rintro ⟨z, h | h, h'⟩
        · exact .inl ⟨z, h, h'⟩
        · exact .inr ⟨z, h, h'⟩
  case bxor =>
    match t with
    | .bool => exact absurd hbit (by simp)
    | .int s w =>
      have hw : 0 < w := w_pos ht
      subst hc
      refine ⟨conv_fits (.int s w) hw _, hne, fun i hi => ?_⟩
      have hi' : i < (prom (.int s w)).2 := Nat.lt_of_lt_of_le hi (prom_w s w)
      have h1 := hl i hi
      have h2 := hm i hi
      rw [← bits_bit _ _ hi'] at h1 h2
      rw [bit_conv hw _ hi, Nat.testBit_xor, List.countP_append]
      cases hu : (bits (.int s w) x).testBit i <;> cases hv : (bits (.int s w) y).testBit i <;> rw [hu] at h1 <;> rw [hv] at h2 <;>
        simp only [Bool.false_eq_true, false_iff, true_iff] at h1 h2 <;> simp only [Bool.xor_false, Bool.false_xor, Bool.xor_self,
          Bool.false_eq_true, false_iff, true_iff] <;> omega

theorem means_one {t : CT} {k : Op} {f : Tmpl} (hf : tmplOf k = some f) {x : Int} : [x] ≠ [] ∧ Means t.w [x] x k := by
  refine ⟨by simp, ?_⟩
  cases k <;> simp only [tmplOf, reduceCtorEq] at hf <;> simp only [Means, product]
  case sum => simp
  case prod => simp
  case max => simp
  case min => simp
  case land => simp
  case lor => simp
  case lxor => refine ⟨?_, by simp⟩; by_cases h : x = 0 <;> simp [h]
  case band => simp
  case bor => simp
  case bxor => intro i _; by_cases h : x / 2 ^ i % 2 = 1 <;> simp [bit, h]

/-- **C119 (maximum, minimum, logical and bitwise operators).** Reducing any number of contributions of
integers, whatever the order and grouping, gives in each element what the standard says. -/
theorem C119_integers (s : Api) (b : Builtin) (t : CT) (k : Op) (n : Nat) (d : Nat → List Int) (T : Tree)
    (ht : cType b = some t) (ha : allowed (cls b) k = true) (hk : k ≠ .sum ∧ k ≠ .prod) (hd : Given t n d T) :
    ∃ res, reduce s b (.pre k) n d T = .ok res ∧ res.length = n ∧
      ∀ i, i < n → t.Fits res[i]! ∧ Means t.w (T.ranks.map (fun r => (d r)[i]!)) res[i]! k := by
  obtain ⟨f, hf⟩ : ∃ f, tmplOf k = some f := by
    cases b <;> simp only [cType, reduceCtorEq] at ht <;> cases k <;>
      first | exact ⟨_, rfl⟩ | (simp [allowed, cls] at ha)
  have hbit : t ≠ .bool ∨ k ∈ [Op.land, .lor, .lxor] := by
    by_cases h : t = .bool
    · subst h
      have hb : b = .cxxBool := by cases b <;> simp [cType] at ht ⊢
      subst hb
      right
      simpa [allowed, cls] using ha
    · exact .inl h
  have h2 : ∀ l m x y c, t.Fits x → t.Fits y → (l ≠ [] ∧ Means t.w l x k) → (m ≠ [] ∧ Means t.w m y k) → apply t f x y = some c →
      t.Fits c ∧ (l ++ m ≠ [] ∧ Means t.w (l ++ m) c k) := fun l m x y c hx hy hl hm hc => means_step ht hf hk hbit hx hy hl hm hc
  obtain ⟨res, hr⟩ := eval_ok (n := n) (d := d) (fun l v => l ≠ [] ∧ Means t.w l v k) (fun _ => True) (fun _ _ _ => ⟨trivial, trivial⟩)
    (fun x _ => means_one hf) h2
    (fun l m x y _ _ _ _ _ => by
      cases k <;> simp only [tmplOf, reduceCtorEq, Option.some.injEq] at hf <;> subst hf <;> simp_all [apply])
    T hd (fun _ _ => trivial)
  have hi := eval_inv (fun l v => l ≠ [] ∧ Means t.w l v k) (fun x _ => means_one hf) h2 T hd hr
  exact ⟨res, by rw [reduce_eq ht hf, hr], hi.1, fun i hi' => ⟨(hi.2 i hi').1, (hi.2 i hi').2.2⟩⟩

/-- Three ranks, two elements each. -/
def demo : Nat → List Int := fun r => [[12, -7], [10, 5], [9, 5]].getD r []

/-- Rank 2 with rank 0, then rank 1. -/
def demoTree : Tree := .node (.node (.leaf 2) (.leaf 0)) (.leaf 1)

example : Given (.int true 8) 2 demo demoTree ∧
    (reduce .init .int8 (.pre .max) 2 demo demoTree).toOption = some [12, 5] ∧
    (reduce .init .int8 (.pre .band) 2 demo demoTree).toOption = some [8, 1] ∧
    (reduce .init .int8 (.pre .bor) 2 demo demoTree).toOption = some [15, -3] ∧
    (reduce .init .int8 (.pre .bxor) 2 demo demoTree).toOption = some [15, -7] ∧
    (reduce .init .int8 (.pre .lxor) 2 demo demoTree).toOption = some [1, 1] := by
  refine ⟨?_, by decide +kernel⟩
  intro r hr
  have : r = 2 ∨ r = 0 ∨ r = 1 := by simpa [demoTree, Tree.ranks] using hr
  rcases this with rfl | rfl | rfl <;> refine ⟨rfl, ?_⟩ <;> simp [demo, CT.Fits, CT.lo, CT.hi]

/-! ### Sums and products -/

theorem arith_eq {t : CT} {r c : Int} (h : arith t r = some c) : c = conv t r := by
  unfold arith at h
  split at h
  · split at h
    · cases h; rfl
    · cases h
  · cases h; rfl

theorem arith_small {s : Bool} {w : Nat} (hw : w = 8 ∨ w = 16 ∨ w = 32 ∨ w = 64) {r : Int} (hr : (CT.int s w).Fits r) :
    (arith (.int s w) r).isSome := by
  have h1 : (CT.int s w).lo ≤ r := hr.1
  have h2 : r ≤ (CT.int s w).hi := hr.2
  rcases hw with rfl | rfl | rfl | rfl <;> cases s <;> simp [CT.lo, CT.hi] at h1 h2 <;> simp [arith, prom] <;>
    first | omega | (rw [if_pos (by omega)]; rfl)

/-- The exact result. -/
def exact (k : Op) (l : List Int) : Int := if k = .sum then l.sum else product l

theorem product_append (l m : List Int) : product (l ++ m) = product l * product m := by
  induction l with
  | nil => simp [product]
  | cons x l ih =>
    show x * product (l ++ m) = x * product l * product m
    rw [ih, Int.mul_assoc]

theorem modular_step {s : Bool} {w : Nat} {k : Op} {f : Tmpl} (hw : 0 < w) (hf : tmplOf k = some f) (hk : k = .sum ∨ k = .prod)
    {l m : List Int} {x y c : Int} (hl : x % 2 ^ w = exact k l % 2 ^ w) (hm : y % 2 ^ w = exact k m % 2 ^ w)
    (hc : apply (.int s w) f x y = some c) :
    (CT.int s w).Fits c ∧ c % 2 ^ w = exact k (l ++ m) % 2 ^ w := by
  rcases hk with rfl | rfl
  · cases hf
    have := arith_eq (show arith (.int s w) (x + y) = some c from hc)
    subst this
    refine ⟨conv_fits (.int s w) hw _, ?_⟩
    have hl' : x % 2 ^ w = l.sum % 2 ^ w := hl
    have hm' : y % 2 ^ w = m.sum % 2 ^ w := hm
    show _ = (l ++ m).sum % 2 ^ w
    rw [conv_mod s hw, List.sum_append, Int.add_emod, hl', hm', ← Int.add_emod]
  · cases hf
    have h : arith (.int s w) (x * y) = some c := by simpa [apply] using hc
    have := arith_eq h
    subst this
    refine ⟨conv_fits (.int s w) hw _, ?_⟩
    have hl' : x % 2 ^ w = product l % 2 ^ w := hl
    have hm' : y % 2 ^ w = product m % 2 ^ w := hm
    show _ = product (l ++ m) % 2 ^ w
    rw [conv_mod s hw, product_append, Int.mul_emod, hl', hm', ← Int.mul_emod]

theorem exact_one (k : Op) (x : Int) : exact k [x] = x := by
  unfold exact; split <;> simp [product]

/-- **C119 (sums and products, modulo).** Whenever a sum or a product of integers has a result, it is
the exact one modulo `2 ^ w`, in each element, whatever the order and grouping. -/
theorem C119_modular (s : Api) (b : Builtin) (sg : Bool) (w : Nat) (k : Op) (n : Nat) (d : Nat → List Int) (T : Tree) (res : List Int)
    (ht : cType b = some (.int sg w)) (hk : k = .sum ∨ k = .prod) (hd : Given (.int sg w) n d T)
    (hr : reduce s b (.pre k) n d T = .ok res) :
    res.length = n ∧ ∀ i, i < n → (CT.int sg w).Fits res[i]! ∧
      res[i]! % 2 ^ w = exact k (T.ranks.map (fun r => (d r)[i]!)) % 2 ^ w := by
  obtain ⟨f, hf⟩ : ∃ f, tmplOf k = some f := by rcases hk with rfl | rfl <;> exact ⟨_, rfl⟩
  rw [reduce_eq ht hf] at hr
  exact eval_inv (fun l v => v % 2 ^ w = exact k l % 2 ^ w) (fun x _ => by rw [exact_one])
    (fun l m x y c _ _ hl hm hc => modular_step (w_pos ht) hf hk hl hm hc) T hd hr

theorem exact_perm {k : Op} {l m : List Int} (h : l.Perm m) : exact k l = exact k m := by
  unfold exact
  split
  · induction h with
    | nil => rfl
    | cons x _ ih => simp only [List.sum_cons, ih]
    | swap x y l => simp only [List.sum_cons]; omega
    | trans _ _ h1 h2 => rw [h1, h2]
  · induction h with
    | nil => rfl
    | cons x _ ih => show x * product _ = x * product _; rw [ih]
    | swap x y l =>
      show y * (x * product l) = x * (y * product l)
      rw [← Int.mul_assoc, ← Int.mul_assoc, Int.mul_comm x y]
    | trans _ _ h1 h2 => rw [h1, h2]

/-- **C119 (order).** Two orders of the same ranks that have results have the same. -/
theorem C119_order_partial (s : Api) (b : Builtin) (sg : Bool) (w : Nat) (k : Op) (n : Nat) (d : Nat → List Int) (T T' : Tree)
    (res res' : List Int) (ht : cType b = some (.int sg w)) (hk : k = .sum ∨ k = .prod) (hd : Given (.int sg w) n d T)
    (hp : T.ranks.Perm T'.ranks)
    (hr : reduce s b (.pre k) n d T = .ok res) (hr' : reduce s b (.pre k) n d T' = .ok res') : res = res' := by
  have hd' : Given (.int sg w) n d T' := fun r h => hd r (hp.mem_iff.2 h)
  have h1 := C119_modular s b sg w k n d T res ht hk hd hr
  have h2 := C119_modular s b sg w k n d T' res' ht hk hd' hr'
  apply List.ext_getElem (by rw [h1.1, h2.1])
  intro i hi hi'
  have a1 := h1.2 i (by omega)
  have a2 := h2.2 i (by omega)
  rw [getElem!_pos res i hi] at a1
  rw [getElem!_pos res' i hi'] at a2
  refine eq_of_mod (show 0 < w from w_pos ht) a1.1 a2.1 ?_
  rw [a1.2, a2.2, exact_perm (hp.map _)]

/-- A bound that no order of combination can exceed: the sum of the absolute values, or the product of
those that are not zero. -/
def Small (t : CT) (k : Op) (l : List Int) : Prop :=
  if k = .sum then ((l.map (fun x => (x.natAbs : Int))).sum ≤ t.hi)
  else product (l.map (fun x => max 1 (x.natAbs : Int))) ≤ t.hi

theorem absSum (l : List Int) : (l.sum.natAbs : Int) ≤ (l.map (fun x => (x.natAbs : Int))).sum := by
  induction l with
  | nil => simp
  | cons x l ih => simp only [List.sum_cons, List.map_cons]; omega

theorem absSum_nonneg (l : List Int) : 0 ≤ (l.map (fun x => (x.natAbs : Int))).sum := by
  have := absSum l; omega

theorem absProd_pos (l : List Int) : 1 ≤ product (l.map (fun x => max 1 (x.natAbs : Int))) := by
  induction l with
  | nil => simp [product]
  | cons x l ih =>
    show 1 ≤ max 1 (x.natAbs : Int) * product (l.map (fun x => max 1 (x.natAbs : Int)))
    have := Int.mul_le_mul (show (1 : Int) ≤ max 1 (x.natAbs : Int) by omega) ih (by omega) (by omega)
    omega

theorem absProd (l : List Int) : ((product l).natAbs : Int) ≤ product (l.map (fun x => max 1 (x.natAbs : Int))) := by
  induction l with
  | nil => simp [product]
  | cons x l ih =>
    show ((x * product l).natAbs : Int) ≤ max 1 (x.natAbs : Int) * product (l.map (fun x => max 1 (x.natAbs : Int)))
    rw [Int.natAbs_mul, Int.natCast_mul]
    exact Int.mul_le_mul (by omega) ih (by omega) (by omega)

theorem small_split {t : CT} {k : Op} (l m : List Int) (h : Small t k (l ++ m)) : Small t k l ∧ Small t k m := by
  unfold Small at h ⊢
  split at h
  · next hk =>
    rw [if_pos hk, if_pos hk]
    rw [List.map_append, List.sum_append] at h
    have := absSum_nonneg l
    have := absSum_nonneg m
    omega
  · next hk =>
    rw [if_neg hk, if_neg hk]
    rw [List.map_append, product_append] at h
    have hl := absProd_pos l
    have hm := absProd_pos m
    have h1 := Int.mul_le_mul_of_nonneg_left hm (show 0 ≤ product (l.map (fun x => max 1 (x.natAbs : Int))) by omega)
    have h2 := Int.mul_le_mul_of_nonneg_right hl (show 0 ≤ product (m.map (fun x => max 1 (x.natAbs : Int))) by omega)
    omega

theorem exact_small {sg : Bool} {w : Nat} {k : Op} (hw : 0 < w) {l : List Int} (hl : ∀ x ∈ l, (CT.int sg w).Fits x)
    (h : Small (.int sg w) k l) : (CT.int sg w).Fits (exact k l) := by
  have habs : ((exact k l).natAbs : Int) ≤ (CT.int sg w).hi := by
    unfold Small at h
    unfold exact
    split at h
    · next hk => rw [if_pos hk]; exact Int.le_trans (absSum l) h
    · next hk => rw [if_neg hk]; exact Int.le_trans (absProd l) h
  refine ⟨?_, by omega⟩
  cases sg with
  | true =>
    have h1 : ((exact k l).natAbs : Int) ≤ 2 ^ (w - 1) - 1 := habs
    show -(2 : Int) ^ (w - 1) ≤ _
    omega
  | false =>
    show (0 : Int) ≤ exact k l
    have h0 : ∀ x ∈ l, (0 : Int) ≤ x := fun x hx => (hl x hx).1
    clear hl h habs
    unfold exact
    split
    · induction l with
      | nil => simp
      | cons x l ih =>
        simp only [List.mem_cons, forall_eq_or_imp] at h0
        have := ih h0.2
        simp only [List.sum_cons]; omega
    · induction l with
      | nil => simp [product]
      | cons x l ih =>
        simp only [List.mem_cons, forall_eq_or_imp] at h0
        exact Int.mul_nonneg h0.1 (ih h0.2)

/-- **C119 (sums and products).** If the contributions are so small that no order can overflow, every
order gives the exact sum or product. -/
theorem C119_sum_prod_partial (s : Api) (b : Builtin) (sg : Bool) (w : Nat) (k : Op) (n : Nat) (d : Nat → List Int) (T : Tree)
    (ht : cType b = some (.int sg w)) (hk : k = .sum ∨ k = .prod) (hd : Given (.int sg w) n d T)
    (hs : ∀ i, i < n → Small (.int sg w) k (T.ranks.map (fun r => (d r)[i]!))) :
    ∃ res, reduce s b (.pre k) n d T = .ok res ∧ res.length = n ∧
      ∀ i, i < n → Means w (T.ranks.map (fun r => (d r)[i]!)) res[i]! k := by
  have hw : w = 8 ∨ w = 16 ∨ w = 32 ∨ w = 64 := by
    rcases cType_cases ht with h | ⟨s', w', h, hw⟩
    · cases h
    · cases h; exact hw
  obtain ⟨f, hf⟩ : ∃ f, tmplOf k = some f := by rcases hk with rfl | rfl <;> exact ⟨_, rfl⟩
  have h2 : ∀ l m x y c, (CT.int sg w).Fits x → (CT.int sg w).Fits y →
      (x % 2 ^ w = exact k l % 2 ^ w ∧ ∀ z ∈ l, (CT.int sg w).Fits z) → (y % 2 ^ w = exact k m % 2 ^ w ∧ ∀ z ∈ m, (CT.int sg w).Fits z) →
      apply (.int sg w) f x y = some c →
      (CT.int sg w).Fits c ∧ (c % 2 ^ w = exact k (l ++ m) % 2 ^ w ∧ ∀ z ∈ l ++ m, (CT.int sg w).Fits z) := by
    intro l m x y c _ _ hl hm hc
    have := modular_step (w_pos ht) hf hk hl.1 hm.1 hc
    exact ⟨this.1, this.2, fun z hz => (List.mem_append.1 hz).elim (hl.2 z) (hm.2 z)⟩
  have h1 : ∀ x, (CT.int sg w).Fits x → (x % 2 ^ w = exact k [x] % 2 ^ w ∧ ∀ z ∈ [x], (CT.int sg w).Fits z) :=
    fun x hx => ⟨by rw [exact_one], fun z hz => by rw [List.mem_singleton.1 hz]; exact hx⟩
  obtain ⟨res, hr⟩ := eval_ok (n := n) (d := d) (fun l v => v % 2 ^ w = exact k l % 2 ^ w ∧ ∀ z ∈ l, (CT.int sg w).Fits z)
    (Small (.int sg w) k) small_split h1 h2
    (fun l m x y hx hy hl hm hP => by
      have hsp := small_split l m hP
      have ex := eq_of_mod (w_pos ht) hx (exact_small (w_pos ht) hl.2 hsp.1) hl.1
      have ey := eq_of_mod (w_pos ht) hy (exact_small (w_pos ht) hm.2 hsp.2) hm.1
      have hall := exact_small (w_pos ht) (fun z hz => (List.mem_append.1 hz).elim (hl.2 z) (hm.2 z)) hP
      rcases hk with rfl | rfl
      · cases hf
        show (arith (.int sg w) (x + y)).isSome
        apply arith_small hw
        have : exact .sum (l ++ m) = x + y := by
          rw [ex, ey]; show (l ++ m).sum = l.sum + m.sum; exact List.sum_append
        rw [← this]; exact hall
      · cases hf
        have h : (arith (.int sg w) (x * y)).isSome := by
          apply arith_small hw
          have : exact .prod (l ++ m) = x * y := by
            rw [ex, ey]; show product (l ++ m) = product l * product m; exact product_append l m
          rw [← this]; exact hall
        simpa [apply] using h)
    T hd hs
  have hr' : reduce s b (.pre k) n d T = .ok res := by rw [reduce_eq ht hf, hr]
  have hmod := C119_modular s b sg w k n d T res ht hk hd hr'
  refine ⟨res, hr', hmod.1, fun i hi => ?_⟩
  have hfit : ∀ z ∈ T.ranks.map (fun r => (d r)[i]!), (CT.int sg w).Fits z := by
    intro z hz
    obtain ⟨r, hr0, rfl⟩ := List.mem_map.1 hz
    have := hd r hr0
    exact this.2 _ (by rw [getElem!_pos (d r) i (by omega)]; exact List.getElem_mem _)
  have := eq_of_mod (w_pos ht) (hmod.2 i hi).1 (exact_small (w_pos ht) hfit (hs i hi)) (hmod.2 i hi).2
  rw [this]
  rcases hk with rfl | rfl <;> rfl

example : Small (.int true 8) .sum [9, 12, 10] ∧ Small (.int true 8) .prod [5, -7, 3] ∧
    reduce .init .int8 (.pre .sum) 2 demo demoTree = .ok [31, 3] := by
  refine ⟨by simp [Small, CT.hi], ?_, rfl⟩
  simp only [Small, product, CT.hi]; decide

/-- Types and operators for which no contributions overflow in the arithmetic of C++. -/
def NoOverflow : CT → Op → Bool
  | .int false w, k => 32 ≤ w || k == .sum || w == 8
  | .int true w, _ => w < 32
  | .bool, _ => true

/-- **C119 (no undefined behaviour).** Sums and products of unsigned types of 32 and 64 bits, sums of the
narrower types, and products of those but `unsigned short` always have a result. -/
theorem C119_defined_arith_partial (s : Api) (b : Builtin) (sg : Bool) (w : Nat) (k : Op) (n : Nat) (d : Nat → List Int) (T : Tree)
    (ht : cType b = some (.int sg w)) (hk : k = .sum ∨ k = .prod) (hd : Given (.int sg w) n d T)
    (hn : NoOverflow (.int sg w) k = true) : ∃ res, reduce s b (.pre k) n d T = .ok res := by
  have hw : w = 8 ∨ w = 16 ∨ w = 32 ∨ w = 64 := by
    rcases cType_cases ht with h | ⟨s', w', h, hw⟩
    · cases h
    · cases h; exact hw
  obtain ⟨f, hf⟩ : ∃ f, tmplOf k = some f := by rcases hk with rfl | rfl <;> exact ⟨_, rfl⟩
  rw [reduce_eq ht hf]
  refine eval_ok (fun _ _ => True) (fun _ => True) (fun _ _ _ => ⟨trivial, trivial⟩) (fun _ _ => trivial)
    (fun l m x y c _ _ _ _ hc => ⟨(modular_step (l := [x]) (m := [y]) (show 0 < w from w_pos ht) hf hk (by rw [exact_one]) (by rw [exact_one]) hc).1, trivial⟩)
    ?_ T hd (fun _ _ => trivial)
  intro l m x y hx hy _ _ _
  have a1 : (CT.int sg w).lo ≤ x := hx.1
  have a2 : x ≤ (CT.int sg w).hi := hx.2
  have b1 : (CT.int sg w).lo ≤ y := hy.1
  have b2 : y ≤ (CT.int sg w).hi := hy.2
  have key : ∀ r : Int, (prom (.int sg w)).1 = false ∨ (-(2 : Int) ^ ((prom (.int sg w)).2 - 1) ≤ r ∧ r < 2 ^ ((prom (.int sg w)).2 - 1)) →
      (arith (.int sg w) r).isSome := by
    intro r hr
    unfold arith
    rcases hr with hr | hr
    · rw [hr]; rfl
    · rw [if_pos hr]; split <;> rfl
  rcases hk with rfl | rfl
  · cases hf
    show (arith (.int sg w) (x + y)).isSome
    apply key
    rcases hw with rfl | rfl | rfl | rfl <;> cases sg <;> simp [CT.lo, CT.hi, NoOverflow] at a1 a2 b1 b2 hn <;> simp [prom] <;> omega
  · cases hf
    have h : (arith (.int sg w) (x * y)).isSome := by
      apply key
      rcases hw with rfl | rfl | rfl | rfl <;> cases sg <;> simp [CT.lo, CT.hi, NoOverflow] at a1 a2 b1 b2 hn <;> simp [prom]
      · have h1 := Int.mul_le_mul a2 b2 b1 (by omega)
        have h2 := Int.mul_nonneg a1 b1
        omega
      · have : (x * y).natAbs ≤ 128 * 128 := by rw [Int.natAbs_mul]; exact Nat.mul_le_mul (by omega) (by omega)
        omega
      · have : (x * y).natAbs ≤ 32768 * 32768 := by rw [Int.natAbs_mul]; exact Nat.mul_le_mul (by omega) (by omega)
        omega
    simpa [apply] using h

example : reduce .init .uint32 (.pre .prod) 1 (fun _ => [4294967295]) (.node (.leaf 0) (.leaf 1)) = .ok [1] ∧
    reduce .init .short (.pre .sum) 1 (fun _ => [32767]) (.node (.leaf 0) (.leaf 1)) = .ok [-2] := ⟨rfl, rfl⟩

/-- **C119 refuted (order of sums).** For every signed type of 32 or 64 bits there are contributions
whose sum is a value of the type, and the reduction gives it in one order but has undefined behaviour
in another. -/
theorem C119_order_refuted (s : Api) (b : Builtin) (w : Nat) (ht : cType b = some (.int true w)) (hw : 32 ≤ w) :
    ∃ (d : Nat → List Int) (v : Int), Given (.int true w) 1 d (.node (.leaf 0) (.node (.leaf 1) (.leaf 2))) ∧
      reduce s b (.pre .sum) 1 d (.node (.leaf 0) (.node (.leaf 1) (.leaf 2))) = .ok [v] ∧ Means w [(d 0)[0]!, (d 1)[0]!, (d 2)[0]!] v .sum ∧
      reduce s b (.pre .sum) 1 d (.node (.node (.leaf 0) (.leaf 1)) (.leaf 2)) = .error .undef := by
  have hw' : w = 32 ∨ w = 64 := by
    rcases cType_cases ht with h | ⟨s', w', h, hw'⟩
    · cases h
    · cases h; omega
  refine ⟨fun r => [[2 ^ (w - 1) - 1], [1], [-1]].getD r [], 2 ^ (w - 1) - 1, ?_, ?_, ?_, ?_⟩
  · intro r hr
    have : r = 0 ∨ r = 1 ∨ r = 2 := by simpa [Tree.ranks] using hr
    rcases hw' with rfl | rfl <;> rcases this with rfl | rfl | rfl <;> refine ⟨rfl, ?_⟩ <;> simp [CT.Fits, CT.lo, CT.hi]
  · rw [reduce_eq ht rfl]; rcases hw' with rfl | rfl <;> rfl
  · simp [Means]
  · rw [reduce_eq ht rfl]; rcases hw' with rfl | rfl <;> rfl

example : cType .longLongInt = some (.int true 64) := rfl

/-- **C119 refuted (products of `unsigned short`).** Such a product is computed in `int`: it has
undefined behaviour as soon as it reaches 2³¹, although unsigned arithmetic is modulo 2¹⁶. -/
theorem C119_unsigned_short_refuted (s : Api) (x y : Int) (hxy : 2147483648 ≤ x * y) :
    reduce s .unsignedShort (.pre .prod) 1 (fun r => if r = 0 then [x] else [y]) (.node (.leaf 0) (.leaf 1)) = .error .undef := by
  rw [reduce_eq (t := .int false 16) (f := .prod) rfl rfl]
  have : arith (.int false 16) (x * y) = none := by
    simp [arith, prom]
    omega
  simp [Tree.eval, Fxn.run, reduceOp, apply, this]

example : (2147483648 : Int) ≤ 65535 * 65535 ∧ (CT.int false 16).Fits 65535 := by
  refine ⟨by decide, ?_⟩; simp [CT.Fits, CT.lo, CT.hi]

/-! ### MAXLOC and MINLOC -/

/-- The pair is an extreme value and the lowest index that comes with it. -/
def LocMeans (mx : Bool) (l : List (Int × Int)) (v : Int × Int) : Prop :=
  v ∈ l ∧ ∀ x ∈ l, (if mx then x.1 ≤ v.1 else v.1 ≤ x.1) ∧ (x.1 = v.1 → v.2 ≤ x.2)

theorem loc_step {mx : Bool} {l m : List (Int × Int)} {x y c : Int × Int} (hl : LocMeans mx l x) (hm : LocMeans mx m y)
    (hc : (if mx then maxLoc else minLoc) x y = some c) : LocMeans mx (l ++ m) c := by
  have hmem : ∀ z, z ∈ l → z ∈ l ++ m := fun z => List.mem_append_left _
  have hmem' : ∀ z, z ∈ m → z ∈ l ++ m := fun z => List.mem_append_right _
  obtain ⟨x1, x2⟩ := x
  obtain ⟨y1, y2⟩ := y
  cases mx <;> simp only [if_true, Bool.false_eq_true, if_false, maxLoc, minLoc, Option.some.injEq] at hc <;> subst hc
  all_goals
    have h1 := hl.2
    have h2 := hm.2
    simp only [if_true, Bool.false_eq_true, if_false] at h1 h2
    split
    · refine ⟨hmem' _ hm.1, fun z hz => (List.mem_append.1 hz).elim (fun h => ?_) (fun h => ?_)⟩
      · have := h1 z h
        simp only [if_true, Bool.false_eq_true, if_false] at *
        omega
      · exact hm.2 z h
    · split
      · next he =>
        refine ⟨?_, fun z hz => (List.mem_append.1 hz).elim (fun h => ?_) (fun h => ?_)⟩
        · split
          · exact hmem _ hl.1
          · rw [← he]; exact hmem' _ hm.1
        · have := h1 z h
          simp only [if_true, Bool.false_eq_true, if_false] at *
          split <;> omega
        · have := h2 z h
          simp only [if_true, Bool.false_eq_true, if_false] at *
          split <;> omega
      · refine ⟨hmem _ hl.1, fun z hz => (List.mem_append.1 hz).elim (fun h => ?_) (fun h => ?_)⟩
        · exact hl.2 z h
        · have := h2 z h
          simp only [if_true, Bool.false_eq_true, if_false] at *
          omega

theorem locEval_ok (mx : Bool) (n : Nat) (d : Nat → List (Int × Int)) : ∀ (T : Tree), (∀ r ∈ T.ranks, (d r).length = n) →
    ∃ res, T.locEval mx n d = some res ∧ res.length = n ∧ ∀ i, i < n → LocMeans mx (T.col d i) res[i]!
  | .leaf r, hd => by
    have hr := hd r (by simp [Tree.ranks])
    refine ⟨d r, rfl, hr, fun i hi => ?_⟩
    have : (Tree.leaf r).col d i = [(d r)[i]!] := rfl
    rw [this]
    refine ⟨by simp, fun x hx => ?_⟩
    rw [List.mem_singleton.1 hx]
    cases mx <;> simp
  | .node l r, hd => by
    simp only [Tree.ranks, List.mem_append] at hd
    obtain ⟨a, ha, la, ma⟩ := locEval_ok mx n d l (fun q hq => hd q (.inl hq))
    obtain ⟨b, hb, lb, mb⟩ := locEval_ok mx n d r (fun q hq => hd q (.inr hq))
    obtain ⟨c, hc⟩ := reduceOp_isSome (f := if mx then maxLoc else minLoc) la lb (fun i _ => by cases mx <;> rfl)
    have hs := reduceOp_some la lb hc
    refine ⟨c, by rw [Tree.locEval, ha, hb]; exact hc, hs.1, fun i hi => ?_⟩
    have : (Tree.node l r).col d i = l.col d i ++ r.col d i := by simp [Tree.col, Tree.ranks]
    rw [this]
    exact loc_step (ma i hi) (mb i hi) (hs.2 i hi)

/-- **C119 (MAXLOC, MINLOC).** With the six pair types of C, in each element: the largest (smallest) value
and the lowest index among the contributions that have it, whatever the order and grouping. -/
theorem C119_loc (b : Builtin) (mx : Bool) (n : Nat) (d : Nat → List (Int × Int)) (T : Tree)
    (hb : b ∈ [.twoInt, .doubleInt, .floatInt, .longInt, .shortInt, .longDoubleInt]) (hd : ∀ r ∈ T.ranks, (d r).length = n) :
    ∃ res, reduceLoc b (if mx then .maxloc else .minloc) n d T = some res ∧ res.length = n ∧
      ∀ i, i < n → LocMeans mx (T.ranks.map (fun r => (d r)[i]!)) res[i]! := by
  obtain ⟨res, h1, h2⟩ := locEval_ok mx n d T hd
  refine ⟨res, ?_, h2⟩
  rw [← h1]
  simp only [List.mem_cons, List.not_mem_nil, or_false] at hb
  rcases hb with rfl | rfl | rfl | rfl | rfl | rfl <;> cases mx <;> rfl

example : reduceLoc .twoInt .maxloc 1 (fun r => [[(7, 3)], [(9, 8)], [(9, 4)]].getD r []) demoTree = some [(9, 4)] ∧
    reduceLoc .twoInt .minloc 1 (fun r => [[(7, 3)], [(9, 8)], [(9, 4)]].getD r []) demoTree = some [(7, 3)] := ⟨rfl, rfl⟩

/-! ### Which operators exist -/

/-- The datatypes whose reductions are missing. -/
def missing : List Builtin :=
  [.logical, .twoInteger, .twoReal, .twoDoublePrecision, .real16, .complex, .doubleComplex, .complex8, .complex16]

/-- **C119 (operators exist).** For all other predefined datatypes every operator of the standard is
there, as the template of that name (pairs: MAXLOC and MINLOC). -/
theorem C119_operators_partial (b : Builtin) (k : Op) (ha : allowed (cls b) k = true) (hb : b ∉ missing) :
    (∃ f, tmplOf k = some f ∧ ((table b).bind (·.op k) = some (.flt f) ∨ ∃ t, cType b = some t ∧ (table b).bind (·.op k) = some (.int t f))) ∨
      (k = .maxloc ∧ (table b).bind (·.op k) = some .maxLoc) ∨ (k = .minloc ∧ (table b).bind (·.op k) = some .minLoc) := by
  cases b <;> cases k <;>
    first
    | exact absurd ha (by decide)
    | exact absurd (by decide) hb
    | exact .inl ⟨_, rfl, .inl rfl⟩
    | exact .inl ⟨_, rfl, .inr ⟨_, rfl, rfl⟩⟩
    | exact .inr (.inl ⟨rfl, rfl⟩)
    | exact .inr (.inr ⟨rfl, rfl⟩)

example : allowed (cls .double) .sum = true ∧ Builtin.double ∉ missing := by decide

/-- **C119 refuted (complex numbers, Fortran).** With the datatypes of the list no reduction that the
standard defines has a result: complex numbers have no sums and products, the others are unknown. -/
theorem C119_operators_refuted (s : Api) (b : Builtin) (k : Op) (hb : b ∈ missing) (n : Nat) (d : Nat → List Int) (T : Tree) :
    reduce s b (.pre k) n d T = .error .noType ∨ reduce s b (.pre k) n d T = .error .noOp := by
  simp only [missing, List.mem_cons, List.not_mem_nil, or_false] at hb
  rcases hb with rfl | rfl | rfl | rfl | rfl | rfl | rfl | rfl | rfl <;> first | exact .inl rfl | exact .inr rfl

example : allowed (cls .doubleComplex) .sum = true ∧ reduce .init .doubleComplex (.pre .sum) 1 demo demoTree = .error .noOp := ⟨rfl, rfl⟩

/-- **C119 refuted (NaN).** The maximum with NaN depends on the order. -/
theorem C119_nan_refuted (x : Int) : fmax (some x) none = some x ∧ fmax none (some x) = none := ⟨rfl, rfl⟩

/-! ### Sizes -/

/-- `MPI_Type_size` by the standard on a machine with 64-bit `long` and pointers, Linux: the bytes of the
values, without padding. -/
def stdSize : Builtin → Nat
  | .null | .lb | .ub => 0
  | .char | .byte | .unsignedChar | .signedChar | .packed | .character | .int8 | .uint8 | .integer1 | .cxxBool => 1
  | .short | .unsignedShort | .int16 | .uint16 | .integer2 => 2
  | .int | .unsigned | .float | .real | .real4 | .integer | .integer4 | .int32 | .uint32 | .logical | .wchar => 4
  | .long | .unsignedLong | .longLongInt | .unsignedLongLong | .double | .doublePrecision | .real8
  | .int64 | .uint64 | .integer8 | .complex | .complex8 => 8
  | .longDouble | .doubleComplex | .complex16 | .real16 => 16
  | .shortInt => 6
  | .twoInt | .floatInt | .twoInteger | .twoReal => 8
  | .doubleInt | .longInt => 12
  | .twoDoublePrecision => 16
  | .longDoubleInt => 20

/-- **C119 (sizes).** The sizes of the known datatypes are right, except for wide characters and the
pairs with padding. -/
theorem C119_sizes_partial (b : Builtin) (o : TyObj) (h : table b = some o)
    (hb : b ∉ [.wchar, .shortInt, .doubleInt, .longInt, .longDoubleInt]) : o.size = stdSize b := by
  revert hb
  cases b <;> simp only [table, Option.some.injEq, reduceCtorEq] at h <;> subst h <;> simp [stdSize, initInteger, initWithOps, initIndex, initNoOps]

/-- **C119 refuted (sizes).** Those five have another size. -/
theorem C119_sizes_refuted (b : Builtin) (hb : b ∈ [.wchar, .shortInt, .doubleInt, .longInt, .longDoubleInt]) :
    ∃ o, table b = some o ∧ o.size ≠ stdSize b := by
  simp only [List.mem_cons, List.not_mem_nil, or_false] at hb
  rcases hb with rfl | rfl | rfl | rfl | rfl <;> exact ⟨_, rfl, by decide⟩

/-! ### Operators of the program -/

/-- What a program does with operators. -/
inductive Call
  | create (f : UserFn)
  | free (id : Nat)

/-- One call. -/
def Call.run (s : Api) : Call → Option Api
  | .create f => (opCreate s f true).map (·.2)
  | .free k => some (opFree s k)

/-- Calls one after the other. -/
def runs (s : Api) : List Call → Option Api
  | [] => some s
  | c :: cs => (c.run s).bind (fun s' => runs s' cs)

/-- A program may do calls with the handles it got. -/
def frees (h : Nat) : List Call → Bool
  | [] => false
  | .create _ :: cs => frees h cs
  | .free k :: cs => k == h || frees h cs

theorem lookup_filter_ne {k h : Nat} (hne : k ≠ h) : ∀ (l : List (Nat × UserFn)), (l.filter (fun e => e.1 != k)).lookup h = l.lookup h
  | [] => rfl
  | (j, f) :: l => by
    by_cases hj : j = k
    · subst hj
      rw [List.filter_cons_of_neg (by simp), lookup_filter_ne hne l, List.lookup_cons]
      have : (h == j) = false := by simp; omega
      rw [this]
    · rw [List.filter_cons_of_pos (by simp [hj]), List.lookup_cons, List.lookup_cons, lookup_filter_ne hne l]

theorem lookup_filter_eq {k : Nat} : ∀ (l : List (Nat × UserFn)), (l.filter (fun e => e.1 != k)).lookup k = none
  | [] => rfl
  | (j, f) :: l => by
    by_cases hj : j = k
    · subst hj
      rw [List.filter_cons_of_neg (by simp), lookup_filter_eq l]
    · rw [List.filter_cons_of_pos (by simp [hj]), List.lookup_cons, lookup_filter_eq l]
      have : (k == j) = false := by simp; omega
      rw [this]

theorem runs_next : ∀ {cs : List Call} {s s' : Api}, runs s cs = some s' → s.nextOp ≤ s'.nextOp
  | [], s, s', h => by cases h; exact Nat.le_refl _
  | .create f :: cs, s, s', h => by
    simp only [runs, Call.run, opCreate, if_true, Option.map_some, Option.bind_some] at h
    have := runs_next h
    simp only at this
    omega
  | .free k :: cs, s, s', h => by
    simp only [runs, Call.run, Option.bind_some] at h
    exact runs_next (s := opFree s k) h

theorem runs_lookup {s s' : Api} {h : Nat} (hs : h < s.nextOp) : ∀ {cs : List Call}, runs s cs = some s' → frees h cs = false →
    s'.custom.lookup h = s.custom.lookup h := by
  intro cs
  induction cs generalizing s with
  | nil => intro hr _; cases hr; rfl
  | cons c cs ih =>
    intro hr hf
    cases c with
    | create f =>
      simp only [runs, Call.run, opCreate, if_true, Option.map_some, Option.bind_some] at hr
      rw [ih (by simp only; omega) hr hf]
      have : (h == s.nextOp) = false := by simp; omega
      simp only [List.lookup_cons, this]
      exact lookup_filter_ne (by omega) _
    | free k =>
      simp only [runs, Call.run, Option.bind_some] at hr
      simp only [frees, Bool.or_eq_false_iff, beq_eq_false_iff_ne] at hf
      rw [ih (by exact hs) hr hf.2]
      exact lookup_filter_ne hf.1 _

/-- **C119 (operators of the program).** An operator made by the program keeps calling its function, with
the incoming data as first argument and its own as second, whatever other operators are made or freed,
until it is freed; no two operators get the same handle; a freed one is refused. -/
theorem C119_user (s s1 s2 : Api) (f : UserFn) (h : Nat) (cs : List Call) (b : Builtin) (o : TyObj) (n : Nat) (d : Nat → List Int) (T : Tree)
    (hb : table b = some o) (hc : opCreate s f true = some (h, s1)) (hr : runs s1 cs = some s2) (hf : frees h cs = false) :
    reduce s2 b (.user h) n d T = T.eval (fun dst src => .ok (f src dst n)) d ∧
    (∀ g h' s3, opCreate s2 g true = some (h', s3) → h' ≠ h) ∧
    reduce (opFree s2 h) b (.user h) n d T = .error .badOp := by
  simp only [opCreate, if_true, Option.some.injEq, Prod.mk.injEq] at hc
  obtain ⟨rfl, rfl⟩ := hc
  have hl : s2.custom.lookup s.nextOp = some f := by
    rw [runs_lookup (by simp only; omega) hr hf]; simp [List.lookup_cons]
  refine ⟨?_, ?_, ?_⟩
  · simp only [reduce, getFxn, hb, hl]
  · intro g h' s3 hg
    simp only [opCreate, if_true, Option.some.injEq, Prod.mk.injEq] at hg
    have := runs_next hr
    simp only at this
    omega
  · have hn : (opFree s2 s.nextOp).custom.lookup s.nextOp = none := lookup_filter_eq _
    simp only [reduce, getFxn, hb, hn]

example : ∃ s1 s2, opCreate .init (fun a b n => (List.range n).map (fun i => a[i]! - b[i]!)) true = some (1000, s1) ∧
    runs s1 [.create (fun a _ _ => a), .free 1001] = some s2 ∧
    reduce s2 .int (.user 1000) 1 demo (.node (.leaf 0) (.leaf 1)) = .ok [-2] := ⟨_, _, rfl, rfl, rfl⟩

/-- Combine with a total function. -/
def Tree.fold {α : Type} (op : α → α → α) (d : Nat → α) : Tree → α
  | .leaf r => d r
  | .node l r => op (l.fold op d) (r.fold op d)

theorem eval_fold (op : List Int → List Int → List Int) (d : Nat → List Int) : ∀ T : Tree,
    T.eval (fun dst src => .ok (op dst src)) d = .ok (T.fold op d)
  | .leaf _ => rfl
  | .node l r => by rw [Tree.eval, eval_fold op d l, eval_fold op d r]; rfl

/-- One more contribution. -/
def cons {α : Type} (op : α → α → α) (x : α) : Option α → Option α
  | none => some x
  | some a => some (op x a)

theorem cons_append {α : Type} (op : α → α → α) (assoc : ∀ a b c, op (op a b) c = op a (op b c)) (d : Nat → α) (l : List Nat) (a : α) :
    l.foldr (fun r => cons op (d r)) (some a) = match l.foldr (fun r => cons op (d r)) none with | none => some a | some x => some (op x a) := by
  induction l with
  | nil => rfl
  | cons r l ih =>
    simp only [List.foldr_cons, ih]
    cases List.foldr (fun r => cons op (d r)) none l with
    | none => rfl
    | some x => simp only [cons, assoc]

theorem fold_eq {α : Type} (op : α → α → α) (assoc : ∀ a b c, op (op a b) c = op a (op b c)) (d : Nat → α) :
    ∀ T : Tree, T.ranks.foldr (fun r => cons op (d r)) none = some (T.fold op d)
  | .leaf r => rfl
  | .node l r => by
    rw [Tree.ranks, List.foldr_append, fold_eq op assoc d r, cons_append op assoc, fold_eq op assoc d l]
    rfl

/-- **C119 (order, operators of the program).** If the function is associative and commutative, as the
standard asks, the result does not depend on the order and grouping. -/
theorem C119_user_order (s : Api) (f : UserFn) (h : Nat) (b : Builtin) (o : TyObj) (n : Nat) (d : Nat → List Int) (T T' : Tree)
    (hb : table b = some o) (hl : s.custom.lookup h = some f)
    (comm : ∀ x y, f x y n = f y x n) (assoc : ∀ x y z, f (f x y n) z n = f x (f y z n) n) (hp : T.ranks.Perm T'.ranks) :
    reduce s b (.user h) n d T = reduce s b (.user h) n d T' := by
  have hr : ∀ T : Tree, reduce s b (.user h) n d T = .ok (T.fold (fun dst src => f src dst n) d) := by
    intro T
    simp only [reduce, getFxn, hb, hl]
    exact eval_fold (fun dst src => f src dst n) d T
  rw [hr, hr]
  have as : ∀ a b c, f c (f b a n) n = f (f c b n) a n := fun a b c => (assoc c b a).symm
  have e1 := fold_eq (fun dst src => f src dst n) as d T
  have e2 := fold_eq (fun dst src => f src dst n) as d T'
  have : T.ranks.foldr (fun r => cons (fun dst src => f src dst n) (d r)) none =
      T'.ranks.foldr (fun r => cons (fun dst src => f src dst n) (d r)) none := by
    refine hp.foldr_eq' ?_ none
    intro x _ y _ z
    cases z with
    | none => simp only [cons]; rw [comm]
    | some a => simp only [cons]; rw [assoc, assoc, comm (d x) (d y)]
  rw [e1, e2] at this
  rw [Option.some.inj this]

/-- **C119 refuted (operators that do not commute).** They cannot be made, although the standard allows
them. -/
theorem C119_noncommutative_refuted (s : Api) (f : UserFn) : opCreate s f false = none := rfl

end SST.Mpi.Ops
