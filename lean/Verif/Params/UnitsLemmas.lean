import Verif.Params.Units
import Verif.Params.UnitsSpec
set_option autoImplicit false
/-
Reading back a written number.
-/
namespace SST.Params.Units

theorem digit_char {d : Nat} (h : d < 10) : digit? (digitChar d) = some d := by
  have : ∀ d < 10, digit? (digitChar d) = some d := by decide
  exact this d h

theorem digit_not_space {d : Nat} (h : d < 10) : isSpace (digitChar d) = false := by
  have : ∀ d < 10, isSpace (digitChar d) = false := by decide
  exact this d h

theorem digit_ne {d : Nat} (h : d < 10) :
    digitChar d ≠ '-' ∧ digitChar d ≠ '+' ∧ digitChar d ≠ '.' ∧ lower (digitChar d) ≠ 'x' ∧
      lower (digitChar d) ≠ 'i' ∧ lower (digitChar d) ≠ 'n' ∧ lower (digitChar d) ≠ 'e' := by
  have : ∀ d < 10, digitChar d ≠ '-' ∧ digitChar d ≠ '+' ∧ digitChar d ≠ '.' ∧ lower (digitChar d) ≠ 'x' ∧
      lower (digitChar d) ≠ 'i' ∧ lower (digitChar d) ≠ 'n' ∧ lower (digitChar d) ≠ 'e' := by decide
  exact this d h

/-- `digits` reads all digits in front of something else. -/
theorem digits_read (ds : List Nat) (r : List Char) (hd : ∀ d ∈ ds, d < 10)
    (hr : ∀ c ∈ r.head?, digit? c = none) : digits (ds.map digitChar ++ r) = (ds, r) := by
  induction ds with
  | nil =>
    cases r with
    | nil => rfl
    | cons c cs => simp only [List.map_nil, List.nil_append, digits, hr c (by simp)]
  | cons d ds ih =>
    have := ih fun x hx => hd x (List.mem_cons_of_mem _ hx)
    simp only [List.map_cons, List.cons_append, digits, digit_char (hd d List.mem_cons_self), this]

theorem decimal_foldl (ds : List Nat) (a : Nat) :
    ds.foldl (fun a d => 10 * a + d) a = a * 10 ^ ds.length + value ds := by
  induction ds generalizing a with
  | nil => simp [value]
  | cons d ds ih =>
    simp only [List.foldl_cons, ih, value, List.length_cons, Nat.pow_succ]
    grind

theorem decimal_value (ds : List Nat) : decimal ds = value ds := by
  unfold decimal; rw [decimal_foldl]; omega

theorem value_append (a b : List Nat) : value (a ++ b) = value a * 10 ^ b.length + value b := by
  induction a with
  | nil => simp [value]
  | cons d a ih =>
    simp only [List.cons_append, value, ih, List.length_append, Nat.pow_add]
    grind

/-- Ten to a natural power, as a rational number. -/
def P (n : Nat) : Rat := ((10 ^ n : Nat) : Rat)

theorem P_add (a b : Nat) : P (a + b) = P a * P b := by
  unfold P; rw [Nat.pow_add, Rat.natCast_mul]

theorem P_ne (n : Nat) : P n ≠ 0 := by
  have h : 0 < 10 ^ n := Nat.pow_pos (by decide)
  intro he
  have : ((10 ^ n : Nat) : Rat) = ((0 : Nat) : Rat) := he
  have := Rat.natCast_inj.1 this
  omega

theorem pow10_nat (n : Nat) : pow10 (n : Int) = P n := by
  simp [pow10, P]

theorem pow10_neg (n : Nat) : pow10 (-(n : Int)) = 1 / P n := by
  unfold pow10 P
  by_cases h : n = 0
  · subst h; simp; grind
  · rw [if_neg (by omega)]; simp

theorem pow10_sub (a : Int) (k : Nat) : pow10 (a - k) = pow10 a / P k := by
  rcases Int.eq_nat_or_neg a with ⟨n, rfl | rfl⟩
  · by_cases h : k ≤ n
    · obtain ⟨j, rfl⟩ := Nat.exists_eq_add_of_le h
      have : ((k + j : Nat) : Int) - k = (j : Nat) := by omega
      rw [this, pow10_nat, pow10_nat, P_add]
      have := P_ne k
      grind
    · obtain ⟨j, rfl⟩ := Nat.exists_eq_add_of_le (Nat.le_of_not_le h)
      have : (n : Int) - ((n + j : Nat) : Int) = -(j : Nat) := by omega
      rw [this, pow10_neg, pow10_nat, P_add]
      have := P_ne n
      have := P_ne j
      grind
  · have : -(n : Int) - (k : Int) = -((n + k : Nat) : Int) := by omega
    rw [this, pow10_neg, pow10_neg, P_add]
    have := P_ne n
    have := P_ne k
    grind

theorem frac_read (fp : List Nat) (r : List Char) (hd : ∀ d ∈ fp, d < 10)
    (hr : ∀ c ∈ r.head?, digit? c = none ∧ c ≠ '.') :
    fraction ((if fp = [] then [] else '.' :: fp.map digitChar) ++ r) = (fp, r) := by
  by_cases h : fp = []
  · subst h
    simp only [if_true, List.nil_append]
    cases r with
    | nil => rfl
    | cons c cs =>
      have := (hr c (by simp)).2
      unfold fraction
      split
      · rename_i heq; injection heq with h1 h2; exact absurd h1 this
      · rfl
  · rw [if_neg h]
    simp only [List.cons_append, fraction]
    exact digits_read fp r hd fun c hc => (hr c hc).1

theorem exp_none (r : List Char) (hr : ∀ c ∈ r.head?, lower c ≠ 'e') : exponent r = (0, r) := by
  cases r with
  | nil => rfl
  | cons c cs =>
    have h := hr c (by simp)
    have h1 : ¬ (c = 'e' ∨ c = 'E') := by
      rintro (rfl | rfl) <;> exact h (by decide)
    simp only [exponent, if_neg h1]

theorem sign_digit (neg : Bool) (ds : List Nat) (r : List Char) (hd : ∀ d ∈ ds, d < 10) (hne : ds ≠ []) :
    sign ((if neg then ['-'] else []) ++ ds.map digitChar ++ r) = (neg, ds.map digitChar ++ r) := by
  cases neg with
  | true => rfl
  | false =>
    cases ds with
    | nil => exact absurd rfl hne
    | cons d ds =>
      have := digit_ne (hd d List.mem_cons_self)
      simp only [Bool.false_eq_true, if_false, List.nil_append, List.map_cons, List.cons_append]
      unfold sign
      split
      · rename_i heq; injection heq with h1 h2; exact absurd h1 this.1
      · rename_i heq; injection heq with h1 h2; exact absurd h1 this.2.1
      · rfl

theorem exp_some (s : Bool) (ds : List Nat) (r : List Char) (hd : ∀ d ∈ ds, d < 10) (hne : ds ≠ [])
    (hr : ∀ c ∈ r.head?, digit? c = none) :
    exponent ('e' :: (if s then ['-'] else []) ++ ds.map digitChar ++ r) =
      ((if s then -(value ds : Int) else value ds), r) := by
  have h1 := sign_digit s ds r hd hne
  have h2 := digits_read ds r hd hr
  simp only [List.cons_append, exponent, true_or, if_true, h1, h2]
  cases ds with
  | nil => exact absurd rfl hne
  | cons d ds => simp only [decimal_value]

/-- The exponent of a number as an integer. -/
def Lit.e (l : Lit) : Int :=
  match l.exp with
  | none => 0
  | some (s, ds) => if s then -(value ds : Int) else value ds

/-- The text of the exponent. -/
def Lit.expText (l : Lit) : List Char :=
  match l.exp with
  | none => []
  | some (s, ds) => 'e' :: (if s then ['-'] else []) ++ ds.map digitChar

theorem exp_read (l : Lit) (r : List Char) (hl : l.Ok) (hr : Stops r) :
    exponent (l.expText ++ r) = (l.e, r) := by
  obtain ⟨_, _, _, he⟩ := hl
  unfold Lit.expText Lit.e
  cases hx : l.exp with
  | none => exact exp_none r fun c hc => (hr c hc).2.2.1
  | some sd =>
    obtain ⟨s, ds⟩ := sd
    obtain ⟨h1, h2⟩ := he s ds hx
    exact exp_some s ds r h2 h1 fun c hc => (hr c hc).1

theorem expText_head (l : Lit) (r : List Char) (hr : Stops r) :
    ∀ c ∈ (l.expText ++ r).head?, digit? c = none ∧ c ≠ '.' ∧ lower c ≠ 'x' := by
  intro c hc
  unfold Lit.expText at hc
  cases hx : l.exp with
  | none => rw [hx] at hc; exact ⟨(hr c hc).1, (hr c hc).2.1, (hr c hc).2.2.2⟩
  | some sd =>
    obtain ⟨s, ds⟩ := sd
    rw [hx] at hc
    simp only [List.cons_append, List.head?_cons, Option.mem_def, Option.some.injEq] at hc
    subst hc
    decide

theorem not_special (t : List Char) (h1 : ∀ c ∈ t.head?, lower c ≠ 'i' ∧ lower c ≠ 'n')
    (h2 : ∀ c ∈ t.tail.head?, lower c ≠ 'x') : isSpecial t = false := by
  unfold isSpecial
  split
  · rename_i a b c r
    have ha := h1 a (by simp)
    have hb := h2 b (by simp)
    simp [ha.1, ha.2, hb]
  · rename_i a b
    have hb := h2 b (by simp)
    simp [hb]
  · rfl

theorem tail_head_digits (ds : List Nat) (t : List Char) (hd : ∀ d ∈ ds, d < 10)
    (ht : ∀ c ∈ t.head?, lower c ≠ 'x') : ∀ c ∈ (ds.map digitChar ++ t).head?, lower c ≠ 'x' := by
  cases ds with
  | nil => exact ht
  | cons d ds =>
    intro c hc
    simp only [List.map_cons, List.cons_append, List.head?_cons, Option.mem_def, Option.some.injEq] at hc
    subst hc
    exact (digit_ne (hd d List.mem_cons_self)).2.2.2.1

theorem value_lit (l : Lit) :
    (if l.neg then -(((decimal (l.whole ++ l.frac) : Nat) : Rat) * pow10 (l.e - l.frac.length))
      else ((decimal (l.whole ++ l.frac) : Nat) : Rat) * pow10 (l.e - l.frac.length)) = l.val := by
  have hm : ((decimal (l.whole ++ l.frac) : Nat) : Rat) * pow10 (l.e - l.frac.length) =
      match l.exp with
      | none => (value l.whole : Rat) + (value l.frac : Rat) / P l.frac.length
      | some (false, ds) => ((value l.whole : Rat) + (value l.frac : Rat) / P l.frac.length) * P (value ds)
      | some (true, ds) => ((value l.whole : Rat) + (value l.frac : Rat) / P l.frac.length) / P (value ds) := by
    rw [decimal_value, value_append, pow10_sub, Rat.natCast_add, Rat.natCast_mul]
    have hk := P_ne l.frac.length
    have hP : ((10 ^ l.frac.length : Nat) : Rat) = P l.frac.length := rfl
    rw [hP]
    unfold Lit.e
    cases l.exp with
    | none =>
      have : pow10 0 = 1 := by decide
      simp only [this]
      grind
    | some sd =>
      obtain ⟨s, ds⟩ := sd
      have hd := P_ne (value ds)
      cases s with
      | false => simp only [Bool.false_eq_true, if_false, pow10_nat]; grind
      | true => simp only [if_true, pow10_neg]; grind
  rw [hm]
  unfold Lit.val
  rfl

theorem strtod_read (ws : List Char) (l : Lit) (r : List Char) (hw : ∀ c ∈ ws, isSpace c = true)
    (hl : l.Ok) (hr : Stops r) : strtod (ws ++ l.text ++ r) = .ok l.val r := by
  have hdrop : (ws ++ l.text ++ r).dropWhile isSpace = l.text ++ r := by
    rw [List.append_assoc, List.dropWhile_append_of_pos hw]
    obtain ⟨h1, h2, h3, _⟩ := hl
    have hs : ∀ c ∈ (l.text ++ r).head?, isSpace c = false := by
      intro c hc
      unfold Lit.text at hc
      cases hn : l.neg with
      | true => rw [hn] at hc; simp at hc; subst hc; decide
      | false =>
        rw [hn] at hc
        cases hwh : l.whole with
        | cons d ds => rw [hwh] at hc; simp at hc; subst hc; exact digit_not_space (h1 d (by rw [hwh]; simp))
        | nil =>
          cases hf : l.frac with
          | nil => exact absurd ⟨hwh, hf⟩ h3
          | cons d ds => rw [hwh, hf] at hc; simp at hc; subst hc; decide
    cases ht : l.text ++ r with
    | nil => rfl
    | cons c cs => rw [ht] at hs; simp only [List.dropWhile, hs c (by simp)]
  have hx := expText_head l r hr
  have htext : l.text ++ r = (if l.neg then ['-'] else []) ++ (l.whole.map digitChar ++
      ((if l.frac = [] then [] else '.' :: l.frac.map digitChar) ++ (l.expText ++ r))) := by
    simp only [Lit.text, Lit.expText, List.append_assoc]
    rfl
  obtain ⟨h1, h2, h3, h4⟩ := id hl
  -- the text after the sign
  have hpt : ∀ c ∈ ((if l.frac = [] then [] else '.' :: l.frac.map digitChar) ++ (l.expText ++ r)).head?,
      digit? c = none ∧ lower c ≠ 'x' := by
    by_cases hf : l.frac = []
    · rw [if_pos hf]; exact fun c hc => ⟨(hx c hc).1, (hx c hc).2.2⟩
    · rw [if_neg hf]
      intro c hc
      simp only [List.cons_append, List.head?_cons, Option.mem_def, Option.some.injEq] at hc
      subst hc; decide
  have hsign : sign ((if l.neg then ['-'] else []) ++ (l.whole.map digitChar ++
      ((if l.frac = [] then [] else '.' :: l.frac.map digitChar) ++ (l.expText ++ r)))) =
      (l.neg, l.whole.map digitChar ++
      ((if l.frac = [] then [] else '.' :: l.frac.map digitChar) ++ (l.expText ++ r))) := by
    by_cases hwh : l.whole = []
    · have hf : l.frac ≠ [] := fun hf => h3 ⟨hwh, hf⟩
      rw [hwh, if_neg hf]
      cases l.neg <;> rfl
    · rw [← List.append_assoc]; exact sign_digit l.neg l.whole _ h1 hwh
  have hspec : isSpecial (l.whole.map digitChar ++
      ((if l.frac = [] then [] else '.' :: l.frac.map digitChar) ++ (l.expText ++ r))) = false := by
    apply not_special
    · intro c hc
      cases hwh : l.whole with
      | cons d ds =>
        rw [hwh] at hc
        simp at hc
        subst hc
        have := digit_ne (h1 d (by rw [hwh]; simp))
        exact ⟨this.2.2.2.2.1, this.2.2.2.2.2.1⟩
      | nil =>
        have hf : l.frac ≠ [] := fun hf => h3 ⟨hwh, hf⟩
        rw [hwh, if_neg hf] at hc
        simp at hc
        subst hc; decide
    · cases hwh : l.whole with
      | cons d ds =>
        simp only [List.map_cons, List.cons_append, List.tail_cons]
        exact tail_head_digits ds _ (fun x hx => h1 x (by rw [hwh]; exact List.mem_cons_of_mem _ hx))
          fun c hc => (hpt c hc).2
      | nil =>
        have hf : l.frac ≠ [] := fun hf => h3 ⟨hwh, hf⟩
        rw [if_neg hf]
        simp only [List.map_nil, List.nil_append, List.cons_append, List.tail_cons]
        exact tail_head_digits l.frac _ h2 fun c hc => (hx c hc).2.2
  have hdig := digits_read l.whole _ h1 fun c hc => (hpt c hc).1
  have hfr := frac_read l.frac (l.expText ++ r) h2 fun c hc => ⟨(hx c hc).1, (hx c hc).2.1⟩
  have hex := exp_read l r hl hr
  unfold strtod
  rw [hdrop, htext]
  simp only [hsign, hspec, hdig, hfr, if_neg h3, hex, Bool.false_eq_true, if_false, value_lit]

end SST.Params.Units
