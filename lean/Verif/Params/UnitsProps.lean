import Verif.Params.Units
import Verif.Params.UnitsLemmas
set_option autoImplicit false
/-
Quantities with units: times, frequencies and sizes mean what their units say and nothing else
is accepted; bandwidths do except for the units listed here, which are read as the wrong factor.
-/
namespace SST.Params.Units

/-- Short bandwidth units that are misread: the unit, the bits per second it is read as, and
the bits per second it means. -/
def wrongShort : List (List Char × Nat × Nat) := [
  (['g', 'i', 'b', 'p', 's'], 1125899906842624, 1073741824),
  (['G', 'i', 'b', 'p', 's'], 1125899906842624, 1073741824),
  (['g', 'i', 'b', '/', 's'], 1125899906842624, 1073741824),
  (['G', 'i', 'b', '/', 's'], 1125899906842624, 1073741824),
  (['t', 'B', 'p', 's'], 8000000000000000, 8000000000000),
  (['T', 'B', 'p', 's'], 8000000000000000, 8000000000000),
  (['t', 'B', '/', 's'], 8000000000000000, 8000000000000),
  (['T', 'B', '/', 's'], 8000000000000000, 8000000000000),
  (['t', 'i', 'B', 'p', 's'], 8589934592, 8796093022208),
  (['T', 'i', 'B', 'p', 's'], 8589934592, 8796093022208),
  (['t', 'i', 'B', '/', 's'], 8589934592, 8796093022208),
  (['T', 'i', 'B', '/', 's'], 8589934592, 8796093022208),
  (['p', 'i', 'B', 'p', 's'], 8589934592, 9007199254740992),
  (['P', 'i', 'B', 'p', 's'], 8589934592, 9007199254740992),
  (['p', 'i', 'B', '/', 's'], 8589934592, 9007199254740992),
  (['P', 'i', 'B', '/', 's'], 8589934592, 9007199254740992)]

/-- The same for written-out units (in lower case). -/
def wrongLong : List (List Char × Nat × Nat) := [
  (['t', 'b', 'y', 't', 'e', 's', '/', 's'], 8000000000000000, 8000000000000),
  (['t', 'b', 'y', 't', 'e', 's', '/', 's', 'e', 'c'], 8000000000000000, 8000000000000),
  (['t', 'b', 'y', 't', 'e', 's', '/', 's', 'e', 'c', 'o', 'n', 'd'], 8000000000000000, 8000000000000),
  (['t', 'i', 'b', 'y', 't', 'e', 's', '/', 's'], 8589934592, 8796093022208),
  (['t', 'i', 'b', 'y', 't', 'e', 's', '/', 's', 'e', 'c'], 8589934592, 8796093022208),
  (['t', 'i', 'b', 'y', 't', 'e', 's', '/', 's', 'e', 'c', 'o', 'n', 'd'], 8589934592, 8796093022208),
  (['t', 'e', 'b', 'i', 'b', 'y', 't', 'e', 's', '/', 's'], 8589934592, 8796093022208),
  (['t', 'e', 'b', 'i', 'b', 'y', 't', 'e', 's', '/', 's', 'e', 'c'], 8589934592, 8796093022208),
  (['t', 'e', 'b', 'i', 'b', 'y', 't', 'e', 's', '/', 's', 'e', 'c', 'o', 'n', 'd'], 8589934592, 8796093022208),
  (['t', 'e', 'b', 'i', 'b', 'y', 't', 'e', 's', ' ', 'p', 'e', 'r', ' ', 's', 'e', 'c', 'o', 'n', 'd'], 8589934592, 8796093022208),
  (['p', 'i', 'b', 'y', 't', 'e', 's', '/', 's'], 8589934592, 9007199254740992),
  (['p', 'i', 'b', 'y', 't', 'e', 's', '/', 's', 'e', 'c'], 8589934592, 9007199254740992),
  (['p', 'i', 'b', 'y', 't', 'e', 's', '/', 's', 'e', 'c', 'o', 'n', 'd'], 8589934592, 9007199254740992),
  (['p', 'e', 'b', 'i', 'b', 'y', 't', 'e', 's', '/', 's'], 8589934592, 9007199254740992),
  (['p', 'e', 'b', 'i', 'b', 'y', 't', 'e', 's', '/', 's', 'e', 'c'], 8589934592, 9007199254740992),
  (['p', 'e', 'b', 'i', 'b', 'y', 't', 'e', 's', '/', 's', 'e', 'c', 'o', 'n', 'd'], 8589934592, 9007199254740992),
  (['p', 'e', 'b', 'i', 'b', 'y', 't', 'e', 's', ' ', 'p', 'e', 'r', ' ', 's', 'e', 'c', 'o', 'n', 'd'], 8589934592, 9007199254740992)]

theorem find_mem (t : List (List (List Char) × Nat)) (u : List Char) (m : Nat) (h : find t u = some m) :
    u ∈ t.flatMap (·.1) := by
  suffices ∀ acc, t.foldl (fun acc row => if u ∈ row.1 then some row.2 else acc) acc = some m →
      u ∈ t.flatMap (·.1) ∨ acc = some m by
    rcases this none h with h | h
    · exact h
    · cases h
  clear h
  induction t with
  | nil => intro acc h; exact .inr h
  | cons row t ih =>
    intro acc h
    rw [List.foldl_cons] at h
    rw [List.flatMap_cons]
    by_cases hu : u ∈ row.1
    · exact .inl (List.mem_append_left _ hu)
    · rw [if_neg hu] at h
      rcases ih acc h with h | h
      · exact .inl (List.mem_append_right _ h)
      · exact .inr h

/-- A text with a number, blanks and a unit. -/
structure Written (ws : List Char) (l : Lit) (bl u : List Char) : Prop where
  spaces : ∀ c ∈ ws, isSpace c = true
  number : l.Ok
  blanks : ∀ c ∈ bl, c = ' '
  unit : Stops u ∧ u.head? ≠ some ' '

theorem withUnit_read {ws : List Char} {l : Lit} {bl u : List Char} (h : Written ws l bl u)
    (f : Rat → List Char → Res) : withUnit (ws ++ l.text ++ bl ++ u) f = f l.val u := by
  have hstop : Stops (bl ++ u) := by
    cases bl with
    | nil => exact h.unit.1
    | cons b bs =>
      intro c hc
      simp at hc
      subst hc
      rw [h.blanks b List.mem_cons_self]
      decide
  have hs := strtod_read ws l (bl ++ u) h.spaces h.number hstop
  rw [← List.append_assoc] at hs
  have hd : (bl ++ u).dropWhile (· == ' ') = u := by
    rw [List.dropWhile_append_of_pos (fun c hc => by simp [h.blanks c hc])]
    cases u with
    | nil => rfl
    | cons c cs =>
      have : (c == ' ') = false := by
        have := h.unit.2
        simp at this
        simp [this]
      simp only [List.dropWhile, this]
  simp only [withUnit, hs, hd]

theorem safe_of_lower {u : List Char} (h : ∀ c ∈ (u.map lower).head?, c ≠ ' ' ∧ c ≠ '.' ∧ digit? c = none ∧ c ≠ 'e' ∧ c ≠ 'x') :
    Stops u ∧ u.head? ≠ some ' ' := by
  cases u with
  | nil => exact ⟨by intro c hc; simp at hc, by simp⟩
  | cons c cs =>
    have hh := h (lower c) (by simp)
    have hl : ∀ x ∈ [' ', '.', '0', '1', '2', '3', '4', '5', '6', '7', '8', '9'], lower x = x := by decide
    refine ⟨?_, ?_⟩
    · intro x hx
      simp at hx; subst hx
      refine ⟨?_, ?_, hh.2.2.2.1, hh.2.2.2.2⟩
      · by_cases hd : digit? c = none
        · exact hd
        · exfalso
          have hlc : lower c = c := by
            unfold digit? at hd
            unfold lower
            by_cases h1 : 48 ≤ c.toNat ∧ c.toNat ≤ 57
            · rw [if_neg (by omega)]
            · rw [if_neg h1] at hd; exact absurd rfl hd
          rw [hlc] at hh
          exact hd hh.2.2.1
      · rintro rfl
        exact hh.2.1 (by decide)
    · intro hx
      simp at hx; subst hx
      exact hh.1 (by decide)

theorem time_iff (u : List Char) (k : Nat) : TimeUnit u k ↔ find timeTable (u.map lower) = some k := by
  constructor
  · rintro (⟨p, hp, w, hw, he, rfl⟩ | ⟨p, hp, he, rfl⟩)
    · rw [he]
      have : ∀ p ∈ timePrefixes, ∀ w ∈ timeWords, find timeTable (p.1 ++ w) = some p.2 := by decide +kernel
      exact this p hp w hw
    · rw [he]
      have : ∀ p ∈ timeLongPrefixes, find timeTable (p.1 ++ ['s', 'e', 'c', 'o', 'n', 'd', 's']) = some p.2 := by
        decide +kernel
      exact this p hp
  · intro h
    have hm := find_mem _ _ _ h
    have : ∀ n ∈ timeTable.flatMap (·.1),
        (∃ p ∈ timePrefixes, ∃ w ∈ timeWords, n = p.1 ++ w ∧ find timeTable n = some p.2) ∨
        (∃ p ∈ timeLongPrefixes, n = p.1 ++ ['s', 'e', 'c', 'o', 'n', 'd', 's'] ∧ find timeTable n = some p.2) := by
      decide +kernel
    rcases this _ hm with ⟨p, hp, w, hw, he, hf⟩ | ⟨p, hp, he, hf⟩
    · rw [h] at hf; exact .inl ⟨p, hp, w, hw, he, Option.some.inj hf⟩
    · rw [h] at hf; exact .inr ⟨p, hp, he, Option.some.inj hf⟩

theorem freq_iff (u : List Char) (f : Nat) : FreqUnit u f ↔ find freqTable (u.map lower) = some f := by
  constructor
  · rintro ⟨p, hp, he, rfl⟩
    rw [he]
    have : ∀ p ∈ decPrefixes, find freqTable (p.1 ++ ['h', 'z']) = some p.2 := by decide +kernel
    exact this p hp
  · intro h
    have hm := find_mem _ _ _ h
    -- the names with capital letters in the table are never looked up
    have hlow : ∀ c ∈ u.map lower, lower c = c := by
      intro c hc
      obtain ⟨x, _, rfl⟩ := List.mem_map.1 hc
      unfold lower
      by_cases h1 : 65 ≤ x.toNat ∧ x.toNat ≤ 90
      · rw [if_pos h1]
        have : ∀ n : Fin 26, lower (Char.ofNat (n.val + 65 + 32)) = Char.ofNat (n.val + 65 + 32) := by decide
        have := this ⟨x.toNat - 65, by omega⟩
        simp only at this
        rw [show x.toNat - 65 + 65 + 32 = x.toNat + 32 by omega] at this
        unfold lower at this
        exact this
      · rw [if_neg h1, if_neg h1]
    have : ∀ n ∈ freqTable.flatMap (·.1), (∀ c ∈ n, lower c = c) →
        ∃ p ∈ decPrefixes, n = p.1 ++ ['h', 'z'] ∧ find freqTable n = some p.2 := by decide +kernel
    obtain ⟨p, hp, he, hf⟩ := this _ hm hlow
    rw [h] at hf
    exact ⟨p, hp, he, Option.some.inj hf⟩

theorem size_iff (u : List Char) (b : Nat) : SizeUnit u b ↔ find lengthTable u = some b := by
  constructor
  · rintro ⟨p, hp, w, hw, rfl, rfl⟩
    have : ∀ p ∈ sizePrefixes, ∀ w ∈ sizeWords, find lengthTable (p.1 ++ w) = some p.2 := by decide +kernel
    exact this p hp w hw
  · intro h
    have hm := find_mem _ _ _ h
    have : ∀ n ∈ lengthTable.flatMap (·.1),
        ∃ p ∈ sizePrefixes, ∃ w ∈ sizeWords, n = p.1 ++ w ∧ find lengthTable n = some p.2 := by decide +kernel
    obtain ⟨p, hp, w, hw, he, hf⟩ := this _ hm
    rw [h] at hf
    exact ⟨p, hp, w, hw, he, Option.some.inj hf⟩

/-- A time is its number times the unit of time, and no other unit is accepted. -/
theorem C108_time (ws : List Char) (l : Lit) (bl u : List Char) (v : Rat) (h : Written ws l bl u) :
    getTimeDelta (ws ++ l.text ++ bl ++ u) = .ok v ↔
      (u = [] ∧ v = l.val) ∨ ∃ k, TimeUnit u k ∧ v = l.val / ((10 ^ k : Nat) : Rat) := by
  unfold getTimeDelta
  rw [withUnit_read h]
  by_cases hu : u = []
  · subst hu
    simp only [if_true, Res.ok.injEq, true_and]
    constructor
    · exact fun h => .inl h.symm
    · rintro (h | ⟨k, hk, _⟩)
      · exact h.symm
      · rw [time_iff] at hk
        exact absurd hk (by simp [show find timeTable [] = none by decide +kernel])
  · simp only [hu, if_false, false_and, false_or]
    cases hf : find timeTable (u.map lower) with
    | none =>
      simp only [reduceCtorEq, false_iff]
      rintro ⟨k, hk, _⟩
      rw [time_iff, hf] at hk
      cases hk
    | some k =>
      have hv : l.val * pow10 (-(k : Int)) = l.val / ((10 ^ k : Nat) : Rat) := by
        rw [pow10_neg]; unfold P; grind
      simp only [Res.ok.injEq, hv]
      constructor
      · exact fun h => ⟨k, (time_iff u k).2 hf, h.symm⟩
      · rintro ⟨k', hk, he⟩
        rw [time_iff, hf] at hk
        injection hk with hk
        subst hk
        exact he.symm

/-- A frequency is its number times the unit in hertz, and no other unit is accepted. -/
theorem C108_frequency (ws : List Char) (l : Lit) (bl u : List Char) (v : Rat) (h : Written ws l bl u) :
    getFrequency (ws ++ l.text ++ bl ++ u) = .ok v ↔
      (u = [] ∧ v = l.val) ∨ ∃ f : Nat, FreqUnit u f ∧ v = l.val * (f : Rat) := by
  unfold getFrequency
  rw [withUnit_read h]
  by_cases hu : u = []
  · subst hu
    simp only [if_true, Res.ok.injEq, true_and]
    constructor
    · exact fun h => .inl h.symm
    · rintro (h | ⟨k, hk, _⟩)
      · exact h.symm
      · rw [freq_iff] at hk
        exact absurd hk (by simp [show find freqTable [] = none by decide +kernel])
  · simp only [hu, if_false, false_and, false_or]
    cases hf : find freqTable (u.map lower) with
    | none =>
      simp only [reduceCtorEq, false_iff]
      rintro ⟨k, hk, _⟩
      rw [freq_iff, hf] at hk
      cases hk
    | some k =>
      simp only [Res.ok.injEq]
      constructor
      · exact fun h => ⟨k, (freq_iff u k).2 hf, h.symm⟩
      · rintro ⟨k', hk, he⟩
        rw [freq_iff, hf] at hk
        injection hk with hk
        subst hk
        exact he.symm

/-- `n` is `v` without its fraction. -/
def WithoutFraction (v : Rat) (n : Int) : Prop :=
  (0 ≤ v → (n : Rat) ≤ v ∧ v < n + 1) ∧ (v < 0 → (n : Rat) - 1 < v ∧ v ≤ n)

theorem trunc_spec (v : Rat) : WithoutFraction v (trunc v) := by
  unfold trunc
  constructor
  · intro h
    rw [if_pos h]
    have h2 := Rat.lt_floor (x := v)
    have h1 := Rat.floor_le v
    exact ⟨h1, by grind⟩
  · intro h
    have hn : ¬ 0 ≤ v := by grind
    rw [if_neg hn]
    have h2 := Rat.lt_floor (x := -v)
    have h1 := Rat.floor_le (-v)
    rw [Rat.intCast_neg]
    constructor <;> grind

theorem withoutFraction_unique {v : Rat} {a b : Int} (ha : WithoutFraction v a) (hb : WithoutFraction v b) : a = b := by
  have key : ∀ x y : Int, (x : Rat) < (y : Rat) + 1 → x ≤ y := by
    intro x y h
    have h' : (x : Rat) < ((y + 1 : Int) : Rat) := by rw [Rat.intCast_add]; exact h
    have := Rat.intCast_lt_intCast.1 h'
    omega
  by_cases h : 0 ≤ v
  · have h1 := ha.1 h
    have h2 := hb.1 h
    have := key a b (by grind)
    have := key b a (by grind)
    omega
  · have h1 := ha.2 (by grind)
    have h2 := hb.2 (by grind)
    have := key a b (by grind)
    have := key b a (by grind)
    omega

/-- A size is its number times the unit in bytes, without the fraction of a byte, and no other
unit is accepted. -/
theorem C108_size (ws : List Char) (l : Lit) (bl u : List Char) (n : Int) (h : Written ws l bl u) :
    byteLength (ws ++ l.text ++ bl ++ u) = .ok n ↔
      (u = [] ∧ WithoutFraction l.val n) ∨ ∃ b : Nat, SizeUnit u b ∧ WithoutFraction (l.val * (b : Rat)) n := by
  have inj : ∀ (v : Rat), Res.ok (trunc v) = Res.ok n ↔ WithoutFraction v n := by
    intro v
    rw [Res.ok.injEq, Rat.intCast_inj]
    constructor
    · rintro rfl; exact trunc_spec v
    · exact fun h => withoutFraction_unique (trunc_spec v) h
  unfold byteLength
  rw [withUnit_read h]
  by_cases hu : u = []
  · subst hu
    simp only [if_true, true_and, inj]
    constructor
    · exact fun h => .inl h
    · rintro (h | ⟨k, hk, _⟩)
      · exact h
      · rw [size_iff] at hk
        exact absurd hk (by simp [show find lengthTable [] = none by decide +kernel])
  · simp only [hu, if_false, false_and, false_or]
    cases hf : find lengthTable u with
    | none =>
      simp only [reduceCtorEq, false_iff]
      rintro ⟨k, hk, _⟩
      rw [size_iff, hf] at hk
      cases hk
    | some k =>
      simp only [inj]
      constructor
      · exact fun h => ⟨k, (size_iff u k).2 hf, h⟩
      · rintro ⟨k', hk, he⟩
        rw [size_iff, hf] at hk
        injection hk with hk
        subst hk
        exact he

/-- No text is a unit of two different rates, times, frequencies or sizes. -/
theorem C108_units_unique (u : List Char) :
    (∀ r r', BitRate u r → BitRate u r' → r = r') ∧ (∀ k k', TimeUnit u k → TimeUnit u k' → k = k') ∧
    (∀ f f', FreqUnit u f → FreqUnit u f' → f = f') ∧ (∀ b b', SizeUnit u b → SizeUnit u b' → b = b') := by
  refine ⟨?_, ?_, ?_, ?_⟩
  · have hss : ∀ p ∈ shortPrefixes, ∀ w ∈ shortWords, ∀ s ∈ shortPer, ∀ p' ∈ shortPrefixes, ∀ w' ∈ shortWords, ∀ s' ∈ shortPer,
        p.1 ++ w.1 ++ s = p'.1 ++ w'.1 ++ s' → p.2 * w.2 = p'.2 * w'.2 := by decide +kernel
    have hsl : ∀ p ∈ shortPrefixes, ∀ w ∈ shortWords, ∀ s ∈ shortPer, ∀ p' ∈ longPrefixes, ∀ w' ∈ longWords, ∀ s' ∈ longPer,
        (p.1 ++ w.1 ++ s).map lower ≠ p'.1 ++ w'.1 ++ s' := by decide +kernel
    have hll : ∀ p ∈ longPrefixes, ∀ w ∈ longWords, ∀ s ∈ longPer, ∀ p' ∈ longPrefixes, ∀ w' ∈ longWords, ∀ s' ∈ longPer,
        p.1 ++ w.1 ++ s = p'.1 ++ w'.1 ++ s' → p.2 * w.2 = p'.2 * w'.2 := by decide +kernel
    rintro r r' (⟨p, hp, w, hw, s, hs, he, rfl⟩ | ⟨p, hp, w, hw, s, hs, he, rfl⟩)
      (⟨p', hp', w', hw', s', hs', he', rfl⟩ | ⟨p', hp', w', hw', s', hs', he', rfl⟩)
    · exact hss p hp w hw s hs p' hp' w' hw' s' hs' (he ▸ he')
    · subst he; exact absurd he' (hsl p hp w hw s hs p' hp' w' hw' s' hs')
    · subst he'; exact absurd he (hsl p' hp' w' hw' s' hs' p hp w hw s hs)
    · exact hll p hp w hw s hs p' hp' w' hw' s' hs' (he ▸ he')
  · intro k k' h h'
    rw [time_iff] at h h'
    exact Option.some.inj (h.symm.trans h')
  · intro k k' h h'
    rw [freq_iff] at h h'
    exact Option.some.inj (h.symm.trans h')
  · intro k k' h h'
    rw [size_iff] at h h'
    exact Option.some.inj (h.symm.trans h')

/-- A bandwidth with one of the units that are read correctly is its number times the unit in
bytes per second; no unit outside the meaning of rates is accepted.  Full property: without
the lists of misread units. -/
theorem C108_bandwidth_partial (ws : List Char) (l : Lit) (bl u : List Char) (v : Rat) (h : Written ws l bl u)
    (hs : ∀ x ∈ wrongShort, x.1 ≠ u) (hl : ∀ x ∈ wrongLong, x.1 ≠ u.map lower)
    (hv : getBandwidth (ws ++ l.text ++ bl ++ u) = .ok v) :
    (u = [] ∧ v = l.val) ∨ ∃ r : Nat, BitRate u r ∧ v = l.val * (r : Rat) / 8 := by
  unfold getBandwidth at hv
  rw [withUnit_read h] at hv
  by_cases hu : u = []
  · simp only [if_pos hu, Res.ok.injEq] at hv
    exact .inl ⟨hu, hv.symm⟩
  · right
    simp only [if_neg hu] at hv
    cases hf : find abbrTable u with
    | some m =>
      simp only [hf, Res.ok.injEq] at hv
      have : ∀ n ∈ abbrTable.flatMap (·.1), (∀ x ∈ wrongShort, x.1 ≠ n) →
          ∃ p ∈ shortPrefixes, ∃ w ∈ shortWords, ∃ s ∈ shortPer, n = p.1 ++ w.1 ++ s ∧ find abbrTable n = some (p.2 * w.2) := by
        decide +kernel
      obtain ⟨p, hp, w, hw, s, hs, he, hf'⟩ := this u (find_mem _ _ _ hf) hs
      rw [hf] at hf'
      exact ⟨m, .inl ⟨p, hp, w, hw, s, hs, he, Option.some.inj hf'⟩, hv.symm⟩
    | none =>
      simp only [hf] at hv
      cases hg : find fullTable (u.map lower) with
      | none => simp [hg] at hv
      | some m =>
        simp only [hg, Res.ok.injEq] at hv
        have : ∀ n ∈ fullTable.flatMap (·.1), (∀ x ∈ wrongLong, x.1 ≠ n) →
            ∃ p ∈ longPrefixes, ∃ w ∈ longWords, ∃ s ∈ longPer, n = p.1 ++ w.1 ++ s ∧ find fullTable n = some (p.2 * w.2) := by
          decide +kernel
        obtain ⟨p, hp, w, hw, s, hs, he, hf'⟩ := this _ (find_mem _ _ _ hg) hl
        rw [hg] at hf'
        exact ⟨m, .inr ⟨p, hp, w, hw, s, hs, he, Option.some.inj hf'⟩, hv.symm⟩

/-- Bits and bytes per second with short prefixes up to a thousand million, and written out up
to 2^30, are accepted and mean what they say. -/
theorem C108_bandwidth_accepted (ws : List Char) (l : Lit) (bl : List Char) (hws : ∀ c ∈ ws, isSpace c = true)
    (hl : l.Ok) (hbl : ∀ c ∈ bl, c = ' ') :
    (∀ p ∈ shortPrefixes, p.2 ≤ 10 ^ 9 → ∀ w ∈ shortWords, ∀ s ∈ [['p', 's'], ['/', 's']],
      getBandwidth (ws ++ l.text ++ bl ++ (p.1 ++ w.1 ++ s)) = .ok (l.val * ((p.2 * w.2 : Nat) : Rat) / 8)) ∧
    (∀ p ∈ longPrefixes, p.2 ≤ 2 ^ 30 → ∀ w ∈ longWords,
      ∀ s ∈ [['/', 's'], ['/', 's', 'e', 'c'], ['/', 's', 'e', 'c', 'o', 'n', 'd']],
      ∀ u, u.map lower = p.1 ++ w.1 ++ s →
      getBandwidth (ws ++ l.text ++ bl ++ u) = .ok (l.val * ((p.2 * w.2 : Nat) : Rat) / 8)) := by
  constructor
  · intro p hp hle w hw s hs
    have hsafe : ∀ p ∈ shortPrefixes, ∀ w ∈ shortWords, ∀ s ∈ [['p', 's'], ['/', 's']],
        ∀ c ∈ ((p.1 ++ w.1 ++ s).map lower).head?, c ≠ ' ' ∧ c ≠ '.' ∧ digit? c = none ∧ c ≠ 'e' ∧ c ≠ 'x' := by
      decide +kernel
    have hf : ∀ p ∈ shortPrefixes, p.2 ≤ 10 ^ 9 → ∀ w ∈ shortWords, ∀ s ∈ [['p', 's'], ['/', 's']],
        p.1 ++ w.1 ++ s ≠ [] ∧ find abbrTable (p.1 ++ w.1 ++ s) = some (p.2 * w.2) := by
      decide +kernel
    have hW : Written ws l bl (p.1 ++ w.1 ++ s) := ⟨hws, hl, hbl, safe_of_lower (hsafe p hp w hw s hs)⟩
    obtain ⟨h1, h2⟩ := hf p hp hle w hw s hs
    unfold getBandwidth
    rw [withUnit_read hW]
    simp only [if_neg h1, h2]
  · intro p hp hle w hw s hs u hu
    have hsafe : ∀ p ∈ longPrefixes, ∀ w ∈ longWords,
        ∀ s ∈ [['/', 's'], ['/', 's', 'e', 'c'], ['/', 's', 'e', 'c', 'o', 'n', 'd']],
        ∀ c ∈ (p.1 ++ w.1 ++ s).head?, c ≠ ' ' ∧ c ≠ '.' ∧ digit? c = none ∧ c ≠ 'e' ∧ c ≠ 'x' := by
      decide +kernel
    have hf : ∀ p ∈ longPrefixes, p.2 ≤ 2 ^ 30 → ∀ w ∈ longWords,
        ∀ s ∈ [['/', 's'], ['/', 's', 'e', 'c'], ['/', 's', 'e', 'c', 'o', 'n', 'd']],
        p.1 ++ w.1 ++ s ≠ [] ∧ find fullTable (p.1 ++ w.1 ++ s) = some (p.2 * w.2) := by
      decide +kernel
    have hno : ∀ p ∈ longPrefixes, ∀ w ∈ longWords,
        ∀ s ∈ [['/', 's'], ['/', 's', 'e', 'c'], ['/', 's', 'e', 'c', 'o', 'n', 'd']],
        ∀ n ∈ abbrTable.flatMap (·.1), n.map lower ≠ p.1 ++ w.1 ++ s := by
      decide +kernel
    have hW : Written ws l bl u := ⟨hws, hl, hbl, safe_of_lower (by rw [hu]; exact hsafe p hp w hw s hs)⟩
    obtain ⟨h1, h2⟩ := hf p hp hle w hw s hs
    have h3 : u ≠ [] := by
      rintro rfl
      exact h1 (by rw [← hu]; rfl)
    have h4 : find abbrTable u = none := by
      cases hq : find abbrTable u with
      | none => rfl
      | some m => exact absurd hu (hno p hp w hw s hs u (find_mem _ _ _ hq))
    unfold getBandwidth
    rw [withUnit_read hW]
    simp only [if_neg h3, h4, hu, h2]

theorem wrong_facts : (∀ x ∈ wrongShort, find abbrTable x.1 = some x.2.1 ∧ x.2.1 ≠ x.2.2 ∧ x.1 ≠ [] ∧
      (∃ p ∈ shortPrefixes, ∃ w ∈ shortWords, ∃ s ∈ shortPer, x.1 = p.1 ++ w.1 ++ s ∧ x.2.2 = p.2 * w.2) ∧
      ∀ c ∈ (x.1.map lower).head?, c ≠ ' ' ∧ c ≠ '.' ∧ digit? c = none ∧ c ≠ 'e' ∧ c ≠ 'x') := by
  decide +kernel

theorem wrong_facts_long : (∀ x ∈ wrongLong, find abbrTable x.1 = none ∧ find fullTable x.1 = some x.2.1 ∧ x.2.1 ≠ x.2.2 ∧
      x.1 ≠ [] ∧ x.1.map lower = x.1 ∧
      (∃ p ∈ longPrefixes, ∃ w ∈ longWords, ∃ s ∈ longPer, x.1 = p.1 ++ w.1 ++ s ∧ x.2.2 = p.2 * w.2) ∧
      ∀ c ∈ x.1.head?, c ≠ ' ' ∧ c ≠ '.' ∧ digit? c = none ∧ c ≠ 'e' ∧ c ≠ 'x') := by
  decide +kernel

/-- Each of the listed units is accepted but read as another rate than it means: `Gib/s` as
2^50 bits per second, `TB/s` as 10^15 bytes, `TiB/s` and `PiB/s` as 2^30 bytes. -/
theorem C108_bandwidth_refuted (ws : List Char) (l : Lit) (bl : List Char) (hws : ∀ c ∈ ws, isSpace c = true)
    (hl : l.Ok) (hbl : ∀ c ∈ bl, c = ' ') (hne : l.val ≠ 0) :
    ∀ x ∈ wrongShort ++ wrongLong, BitRate x.1 x.2.2 ∧ ∃ v,
      getBandwidth (ws ++ l.text ++ bl ++ x.1) = .ok v ∧ v = l.val * (x.2.1 : Rat) / 8 ∧
      ∀ r, BitRate x.1 r → v ≠ l.val * (r : Rat) / 8 := by
  intro x hx
  have main : BitRate x.1 x.2.2 ∧ x.2.1 ≠ x.2.2 ∧ (Stops x.1 ∧ x.1.head? ≠ some ' ') ∧ x.1 ≠ [] ∧
      ((find abbrTable x.1 = some x.2.1) ∨ (find abbrTable x.1 = none ∧ find fullTable (x.1.map lower) = some x.2.1)) := by
    rcases List.mem_append.1 hx with h | h
    · obtain ⟨a, b, c, d, e⟩ := wrong_facts x h
      exact ⟨.inl d, b, safe_of_lower e, c, .inl a⟩
    · obtain ⟨a, b, c, d, e, f, g⟩ := wrong_facts_long x h
      exact ⟨.inr (by rw [e]; exact f), c, safe_of_lower (by rw [e]; exact g), d, .inr ⟨a, by rw [e]; exact b⟩⟩
  obtain ⟨h1, h2, h3, h4, h5⟩ := main
  have hW : Written ws l bl x.1 := ⟨hws, hl, hbl, h3⟩
  refine ⟨h1, l.val * (x.2.1 : Rat) / 8, ?_, rfl, ?_⟩
  · unfold getBandwidth
    rw [withUnit_read hW]
    rcases h5 with h5 | ⟨h5, h6⟩
    · simp only [if_neg h4, h5]
    · simp only [if_neg h4, h5, h6]
  · intro r hr he
    have := (C108_units_unique x.1).1 _ _ hr h1
    subst this
    have he' : l.val * (x.2.1 : Rat) = l.val * (x.2.2 : Rat) := by grind
    have : (x.2.1 : Rat) = (x.2.2 : Rat) := by
      grind
    exact h2 (Rat.natCast_inj.1 this)

theorem quantity_cases {ws : List Char} {l : Lit} {bl u : List Char} (h : Written ws l bl u) (hu : u ≠ []) :
    getQuantity (ws ++ l.text ++ bl ++ u) =
      match find timeTable (u.map lower) with
      | some k => .ok (l.val * pow10 (-(k : Int)))
      | none => match find abbrTable u with
        | some m => .ok (l.val * (m : Rat) / 8)
        | none => match find fullTable (u.map lower) with
          | some m => .ok (l.val * (m : Rat) / 8)
          | none => match find freqTable (u.map lower) with
            | some m => .ok (l.val * (m : Rat))
            | none => match find lengthTable u with
              | some m => .ok (trunc (l.val * (m : Rat)))
              | none => .bad := by
  have hlast : (match strtod (ws ++ l.text ++ bl ++ u) with
          | .none => Res.bad
          | .special => .special
          | .ok v rest => if rest.dropWhile (· == ' ') = [] then .ok v else .bad) = .bad := by
    have := withUnit_read h fun v r => if r = [] then .ok v else .bad
    rw [if_neg hu] at this
    exact this
  unfold getQuantity getTimeDelta getBandwidth getFrequency byteLength
  simp only [withUnit_read h, if_neg hu]
  cases find timeTable (u.map lower) with
  | some k => rfl
  | none =>
    cases find abbrTable u with
    | some k => rfl
    | none =>
      cases find fullTable (u.map lower) with
      | some k => rfl
      | none =>
        cases find freqTable (u.map lower) with
        | some k => rfl
        | none =>
          cases find lengthTable u with
          | some k => rfl
          | none => exact hlast

/-- A quantity without a unit is its number; with a unit of time, frequency or size it is what
that unit says, whatever the other readers accept; with any other unit it is a bandwidth or an
error. -/
theorem C108_quantity (ws : List Char) (l : Lit) (bl u : List Char) (h : Written ws l bl u) :
    (u = [] → getQuantity (ws ++ l.text ++ bl ++ u) = .ok l.val) ∧
    (∀ k, TimeUnit u k → getQuantity (ws ++ l.text ++ bl ++ u) = .ok (l.val / ((10 ^ k : Nat) : Rat))) ∧
    (∀ f : Nat, FreqUnit u f → getQuantity (ws ++ l.text ++ bl ++ u) = .ok (l.val * (f : Rat))) ∧
    (∀ b : Nat, SizeUnit u b → ∃ n : Int, getQuantity (ws ++ l.text ++ bl ++ u) = .ok n ∧ WithoutFraction (l.val * (b : Rat)) n) ∧
    (u ≠ [] → (∀ k, ¬ TimeUnit u k) → (∀ f, ¬ FreqUnit u f) → (∀ b, ¬ SizeUnit u b) →
      getQuantity (ws ++ l.text ++ bl ++ u) = getBandwidth (ws ++ l.text ++ bl ++ u)) := by
  refine ⟨?_, ?_, ?_, ?_, ?_⟩
  · rintro rfl
    have := (C108_time ws l bl [] l.val h).2 (.inl ⟨rfl, rfl⟩)
    simp only [getQuantity, this]
  · intro k hk
    have := (C108_time ws l bl u _ h).2 (.inr ⟨k, hk, rfl⟩)
    simp only [getQuantity, this]
  · intro f hf
    have hno : ∀ p ∈ decPrefixes, p.1 ++ ['h', 'z'] ≠ [] ∧ find timeTable (p.1 ++ ['h', 'z']) = none ∧
        find fullTable (p.1 ++ ['h', 'z']) = none ∧ ∀ n ∈ abbrTable.flatMap (·.1), n.map lower ≠ p.1 ++ ['h', 'z'] := by
      decide +kernel
    obtain ⟨p, hp, he, _⟩ := id hf
    obtain ⟨h0, h1, h2, h3⟩ := hno p hp
    have hu : u ≠ [] := by
      rintro rfl
      exact h0 he.symm
    have h4 : find abbrTable u = none := by
      cases hq : find abbrTable u with
      | none => rfl
      | some m => exact absurd he (h3 u (find_mem _ _ _ hq))
    have hff := (freq_iff u f).1 hf
    rw [quantity_cases h hu]
    rw [← he] at h1 h2
    simp only [h1, h4, h2, hff]
  · intro b hb
    have hno : ∀ p ∈ sizePrefixes, ∀ w ∈ sizeWords, p.1 ++ w ≠ [] ∧ find timeTable ((p.1 ++ w).map lower) = none ∧
        find fullTable ((p.1 ++ w).map lower) = none ∧ find abbrTable (p.1 ++ w) = none ∧
        find freqTable ((p.1 ++ w).map lower) = none := by
      decide +kernel
    obtain ⟨p, hp, w, hw, he, _⟩ := id hb
    obtain ⟨h0, h1, h2, h3, h4⟩ := hno p hp w hw
    rw [← he] at h0 h1 h2 h3 h4
    have hbb := (size_iff u b).1 hb
    refine ⟨trunc (l.val * (b : Rat)), ?_, trunc_spec _⟩
    rw [quantity_cases h h0]
    simp only [h1, h3, h2, h4, hbb]
  · intro hu ht hf hb
    have h1 : find timeTable (u.map lower) = none := by
      cases hq : find timeTable (u.map lower) with
      | none => rfl
      | some k => exact absurd ((time_iff u k).2 hq) (ht k)
    have h2 : find freqTable (u.map lower) = none := by
      cases hq : find freqTable (u.map lower) with
      | none => rfl
      | some k => exact absurd ((freq_iff u k).2 hq) (hf k)
    have h3 : find lengthTable u = none := by
      cases hq : find lengthTable u with
      | none => rfl
      | some k => exact absurd ((size_iff u k).2 hq) (hb k)
    rw [quantity_cases h hu]
    unfold getBandwidth
    rw [withUnit_read h]
    simp only [h1, h2, h3, if_neg hu]
    cases find abbrTable u with
    | some m => rfl
    | none => cases find fullTable (u.map lower) <;> rfl

/-- Text that starts with anything but a sign, a digit, a point, or the first letter of
"infinity" or "nan" is an error for every reader. -/
theorem C108_no_number (ws : List Char) (c : Char) (r : List Char) (hws : ∀ c ∈ ws, isSpace c = true)
    (hc : isSpace c = false ∧ c ≠ '-' ∧ c ≠ '+' ∧ c ≠ '.' ∧ digit? c = none ∧ lower c ≠ 'i' ∧ lower c ≠ 'n') :
    getQuantity (ws ++ c :: r) = .bad ∧ getTimeDelta (ws ++ c :: r) = .bad ∧ getBandwidth (ws ++ c :: r) = .bad ∧
    getFrequency (ws ++ c :: r) = .bad ∧ byteLength (ws ++ c :: r) = .bad := by
  obtain ⟨h1, h2, h3, h4, h5, h6, h7⟩ := hc
  have hs : strtod (ws ++ c :: r) = .none := by
    have hd : (ws ++ c :: r).dropWhile isSpace = c :: r := by
      rw [List.dropWhile_append_of_pos hws]
      simp only [List.dropWhile, h1]
    have hg : sign (c :: r) = (false, c :: r) := by
      unfold sign
      split
      · rename_i heq; injection heq with h _; exact absurd h h2
      · rename_i heq; injection heq with h _; exact absurd h h3
      · rfl
    have h0 : c ≠ '0' := by rintro rfl; exact absurd h5 (by decide)
    have hsp : isSpecial (c :: r) = false := by
      unfold isSpecial
      split
      · rename_i heq; injection heq with ha _; subst ha; simp [h6, h7, h0]
      · rename_i heq; injection heq with ha _; subst ha; simp [h0]
      · rfl
    have hdg : digits (c :: r) = ([], c :: r) := by
      unfold digits; simp only [h5]
    have hfr : fraction (c :: r) = ([], c :: r) := by
      unfold fraction
      split
      · rename_i heq; injection heq with h _; exact absurd h h4
      · rfl
    unfold strtod
    simp only [hd, hg, hsp, hdg, hfr, Bool.false_eq_true, if_false, and_self, if_true]
  unfold getQuantity getTimeDelta getBandwidth getFrequency byteLength withUnit
  simp only [hs, and_self]

/-- 1.5 -/
def demo : Lit := ⟨false, [1], [5], none⟩

theorem demo_ok : demo.Ok := by
  refine ⟨by decide, by decide, by decide, ?_⟩
  intro s ds h
  cases h

/-- `1.5 Us`, `1.5us` are units of time; `2.5e3 GHz` a frequency; the hypotheses of the
theorems are met, and the readers compute. -/
example : Written [' '] demo [' '] ['U', 's'] ∧ TimeUnit ['U', 's'] 6 ∧ FreqUnit ['G', 'H', 'z'] (10 ^ 9) ∧
    SizeUnit ['K', 'B'] 1000 ∧ BitRate ['G', 'B', '/', 's'] (8 * 10 ^ 9) ∧
    BitRate ['M', 'e', 'g', 'a', 'B', 'i', 't', 's', '/', 's', 'e', 'c'] (10 ^ 6) ∧ demo.val ≠ 0 := by
  refine ⟨⟨by decide, demo_ok, by decide, ?_⟩, ?_, ?_, ?_, ?_, ?_, ?_⟩
  · exact safe_of_lower (by decide)
  · exact .inl ⟨(['u'], 6), by decide, ['s'], by decide, by decide, rfl⟩
  · exact ⟨(['g'], 10 ^ 9), by decide, by decide, rfl⟩
  · exact ⟨(['K'], 10 ^ 3), by decide, ['B'], by decide, rfl, rfl⟩
  · exact .inl ⟨(['G'], 10 ^ 9), by decide, (['B'], 8), by decide, ['/', 's'], by decide, rfl, rfl⟩
  · exact .inr ⟨(['m', 'e', 'g', 'a'], 10 ^ 6), by decide, (['b', 'i', 't', 's'], 1), by decide, ['/', 's', 'e', 'c'], by decide, by decide, rfl⟩
  · decide +kernel

example : getQuantity [' ', '1', '.', '5', ' ', 'U', 's'] = .ok (15 / 10000000) ∧
    getQuantity ['2', 'G', 'B', '/', 's'] = .ok 2000000000 ∧ getQuantity ['2', 'T', 'B', '/', 's'] = .ok 2000000000000000 ∧
    getQuantity ['1', '.', '5', 'B'] = .ok 1 ∧ getQuantity ['2', 'P', 'B', '/', 's'] = .bad ∧
    getQuantity ['f', 'a', 's', 't'] = .bad := by decide +kernel

end SST.Params.Units
