import Verif.Params.Props
/-!
# Parameter files: lines and trimming
-/
set_option autoImplicit false

namespace Params

/-- The text without leading blanks. -/
def ltrim (s : Str) : Str := s.dropWhile blank
/-- The text without trailing blanks. -/
def rtrim (s : Str) : Str := (s.reverse.dropWhile blank).reverse

theorem trim_eq (s : Str) : trim s = rtrim (ltrim s) := rfl

theorem ltrim_sep (a b : Str) (x : Char) (hx : blank x = false) :
    ltrim (a ++ x :: b) = ltrim a ++ x :: b := by
  unfold ltrim
  induction a with
  | nil => simp [List.dropWhile, hx]
  | cons c a ih =>
    cases hc : blank c with
    | true => simp [hc, ih]
    | false => simp [hc]

theorem rtrim_sep (a b : Str) (x : Char) (hx : blank x = false) :
    rtrim (a ++ x :: b) = a ++ x :: rtrim b := by
  unfold rtrim
  have h := ltrim_sep b.reverse a.reverse x hx
  unfold ltrim at h
  simp only [List.reverse_append, List.reverse_cons, List.append_assoc, List.singleton_append]
  rw [h]
  simp

theorem ltrim_nil_or (s : Str) :
    (ltrim s = [] ∧ ∀ c ∈ s, blank c = true) ∨
    ∃ p x q, s = p ++ x :: q ∧ (∀ c ∈ p, blank c = true) ∧ blank x = false ∧ ltrim s = x :: q := by
  induction s with
  | nil => left; simp [ltrim]
  | cons c s ih =>
    cases hc : blank c with
    | false => right; exact ⟨[], c, s, rfl, by simp, hc, by simp [ltrim, hc]⟩
    | true =>
      have he : ltrim (c :: s) = ltrim s := by simp [ltrim, hc]
      rcases ih with ⟨h1, h2⟩ | ⟨p, x, q, h1, h2, h3, h4⟩
      · left
        refine ⟨by rw [he, h1], ?_⟩
        intro d hd
        simp only [List.mem_cons] at hd
        rcases hd with rfl | hd
        · exact hc
        · exact h2 d hd
      · right
        refine ⟨c :: p, x, q, by rw [h1]; rfl, ?_, h3, by rw [he, h4]⟩
        intro d hd
        simp only [List.mem_cons] at hd
        rcases hd with rfl | hd
        · exact hc
        · exact h2 d hd

theorem ltrim_all {s : Str} (h : ∀ c ∈ s, blank c = true) : ltrim s = [] := by
  induction s with
  | nil => rfl
  | cons c s ih =>
    have := h c (by simp)
    simp only [ltrim, List.dropWhile, this]
    exact ih fun d hd => h d (by simp [hd])

theorem rtrim_all {s : Str} (h : ∀ c ∈ s, blank c = true) : rtrim s = [] := by
  have := ltrim_all (s := s.reverse) (fun c hc => h c (by simpa using hc))
  unfold ltrim at this
  simp [rtrim, this]

theorem ltrim_ltrim (s : Str) : ltrim (ltrim s) = ltrim s := by
  rcases ltrim_nil_or s with ⟨h, _⟩ | ⟨p, x, q, _, _, h3, h4⟩
  · rw [h]; rfl
  · rw [h4]; exact ltrim_sep [] q x h3

theorem rtrim_rtrim (s : Str) : rtrim (rtrim s) = rtrim s := by
  have := ltrim_ltrim s.reverse
  unfold ltrim at this
  simp [rtrim, this]

theorem trim_comm (s : Str) : ltrim (rtrim s) = rtrim (ltrim s) := by
  rcases ltrim_nil_or s with ⟨h1, h2⟩ | ⟨p, x, q, h1, h2, h3, h4⟩
  · rw [h1, rtrim_all h2]; rfl
  · rw [h4, h1, rtrim_sep p q x h3, ltrim_sep p _ x h3, ltrim_all h2]
    exact (rtrim_sep [] q x h3).symm

theorem trim_ltrim (s : Str) : trim (ltrim s) = trim s := by
  simp only [trim_eq, ltrim_ltrim]

theorem trim_rtrim (s : Str) : trim (rtrim s) = trim s := by
  simp only [trim_eq, trim_comm, rtrim_rtrim]

theorem trim_trim (s : Str) : trim (trim s) = trim s := by
  rw [trim_eq s, trim_rtrim, trim_ltrim]; rfl

theorem trim_sep (a b : Str) (x : Char) (hx : blank x = false) :
    trim (a ++ x :: b) = ltrim a ++ x :: rtrim b := by
  rw [trim_eq, ltrim_sep _ _ _ hx, rtrim_sep _ _ _ hx]

theorem ltrim_append_blank {a b : Str} (h : ∀ c ∈ a, blank c = true) : ltrim (a ++ b) = ltrim b := by
  induction a with
  | nil => rfl
  | cons c a ih =>
    have hc := h c (by simp)
    have : ltrim (c :: a ++ b) = ltrim (a ++ b) := by simp [ltrim, hc]
    rw [this]
    exact ih fun d hd => h d (by simp [hd])

theorem rtrim_append_blank {a b : Str} (h : ∀ c ∈ b, blank c = true) : rtrim (a ++ b) = rtrim a := by
  have := ltrim_append_blank (a := b.reverse) (b := a.reverse) (fun c hc => h c (by simpa using hc))
  unfold ltrim at this
  simp [rtrim, this]

theorem trim_append_blank {a b : Str} (h : ∀ c ∈ b, blank c = true) : trim (a ++ b) = trim a := by
  rw [← trim_rtrim, rtrim_append_blank h, trim_rtrim]

theorem trim_blank_append {a b : Str} (h : ∀ c ∈ a, blank c = true) : trim (a ++ b) = trim b := by
  rw [← trim_ltrim, ltrim_append_blank h, trim_ltrim]

theorem mem_ltrim {s : Str} {c : Char} (h : c ∈ ltrim s) : c ∈ s :=
  (List.dropWhile_sublist _).subset h

theorem mem_rtrim {s : Str} {c : Char} (h : c ∈ rtrim s) : c ∈ s := by
  unfold rtrim at h
  rw [List.mem_reverse] at h
  have := (List.dropWhile_sublist _).subset h
  simpa using this

theorem mem_trim {s : Str} {c : Char} (h : c ∈ trim s) : c ∈ s := mem_ltrim (mem_rtrim h)

/-- A trimmed text does not begin with a blank. -/
theorem head_trim {s : Str} {c : Char} (h : (trim s).head? = some c) : blank c = false := by
  rw [trim_eq, ← trim_comm] at h
  rcases ltrim_nil_or (rtrim s) with ⟨h1, _⟩ | ⟨p, x, q, _, _, h3, h4⟩
  · rw [h1] at h; simp at h
  · rw [h4] at h; simp at h; rw [← h]; exact h3

/-- A trimmed text does not end with a blank. -/
theorem last_trim {s : Str} {c : Char} (h : (trim s).getLast? = some c) : blank c = false := by
  rw [trim_eq] at h
  unfold rtrim at h
  rw [List.getLast?_reverse] at h
  rcases ltrim_nil_or (ltrim s).reverse with ⟨h1, _⟩ | ⟨p, x, q, _, _, h3, h4⟩
  · unfold ltrim at h1 h; rw [h1] at h; simp at h
  · unfold ltrim at h4 h; rw [h4] at h; simp at h; rw [← h]; exact h3

/-! ## Searching -/

theorem contains_iff (w s : Str) : contains w s = true ↔ w <:+: s := by
  induction s with
  | nil => simp [contains]
  | cons c s ih =>
    simp only [contains, Bool.or_eq_true, ih, List.isPrefixOf_iff_prefix]
    rw [List.infix_cons_iff]

theorem contains_mono {w s t : Str} (h : s <:+: t) (hc : contains w s = true) :
    contains w t = true := by
  rw [contains_iff] at hc ⊢
  exact hc.trans h

theorem ltrim_infix (s : Str) : ltrim s <:+: s := (List.dropWhile_suffix _).isInfix

theorem rtrim_infix (s : Str) : rtrim s <:+: s := by
  unfold rtrim
  have h : s.reverse.dropWhile blank <:+: s.reverse := (List.dropWhile_suffix _).isInfix
  have := List.reverse_infix.mpr h
  simpa using this

theorem trim_infix (s : Str) : trim s <:+: s := (rtrim_infix _).trans (ltrim_infix _)

/-! ## Lines -/

theorem takeWhile_sep (a b : Str) (h : '=' ∉ a) :
    (a ++ '=' :: b).takeWhile (fun c => !(c == '=')) = a ∧
    ((a ++ '=' :: b).dropWhile fun c => !(c == '=')) = '=' :: b := by
  induction a with
  | nil => simp
  | cons c a ih =>
    simp only [List.mem_cons, not_or] at h
    have hc : c ≠ '=' := Ne.symm h.1
    have := ih h.2
    simp [hc, this]

theorem splitLine_trim (a b : Str) (h : '=' ∉ a) :
    splitLine (trim (a ++ '=' :: b)) = (trim a, trim b) := by
  rw [trim_sep a b '=' (by decide)]
  have hl : '=' ∉ ltrim a := fun hh => h (mem_ltrim hh)
  obtain ⟨h1, h2⟩ := takeWhile_sep (ltrim a) (rtrim b) hl
  unfold splitLine
  rw [if_pos (by simp), h1, h2]
  simp [trim_ltrim, trim_rtrim]

theorem head_ltrim_sep (a b : Str) (x : Char) :
    (ltrim a ++ x :: b).head? = some ((trim a).head?.getD x) := by
  rcases ltrim_nil_or a with ⟨h1, h2⟩ | ⟨p, y, q, h1, h2, h3, h4⟩
  · rw [trim_eq, h1]; simp [rtrim]
  · rw [trim_eq, h4]
    have := rtrim_sep [] q y h3
    simp only [List.nil_append] at this
    rw [this]; simp

theorem last_sep_rtrim (a b : Str) (x : Char) :
    (a ++ x :: rtrim b).getLast? = some ((trim b).getLast?.getD x) := by
  rw [List.getLast?_append, List.getLast?_cons]
  have hl : (rtrim b).getLast? = (trim b).getLast? := by
    rw [trim_eq, ← trim_comm]
    rcases ltrim_nil_or (rtrim b) with ⟨h1, h2⟩ | ⟨p, y, q, h1, h2, h3, h4⟩
    · have : rtrim b = [] := by
        have := rtrim_all h2
        rwa [rtrim_rtrim] at this
      rw [this]; rfl
    · rw [h4, h1, List.getLast?_append]
      cases hq : (y :: q).getLast? with
      | none => simp at hq
      | some z => rfl
  rw [hl]; simp

/-- The characters that make a line a comment or the end of a namespace. -/
def Starts (s : Str) : Prop := s.head? = some '#' ∨ s.head? = some '}'

theorem classify_assign (a b : Str) (ha : '=' ∉ a) (hs : ¬ Starts (trim a))
    (hb : (trim b).getLast? ≠ some '{') (hv : contains setVar (a ++ '=' :: b) = false) :
    classify (trim (a ++ '=' :: b)) = .assign (trim a) (trim b) := by
  have hsp := splitLine_trim a b ha
  have hv' : contains setVar (trim (a ++ '=' :: b)) = false := by
    cases hh : contains setVar (trim (a ++ '=' :: b)) with
    | false => rfl
    | true => rw [contains_mono (trim_infix _) hh] at hv; simp at hv
  have hm : '=' ∈ trim (a ++ '=' :: b) := by rw [trim_sep a b '=' (by decide)]; simp
  have hh : (trim (a ++ '=' :: b)).head? = some ((trim a).head?.getD '=') := by
    rw [trim_sep a b '=' (by decide)]; exact head_ltrim_sep a _ '='
  have hl : (trim (a ++ '=' :: b)).getLast? = some ((trim b).getLast?.getD '=') := by
    rw [trim_sep a b '=' (by decide)]; exact last_sep_rtrim _ b '='
  have hl' : (trim (a ++ '=' :: b)).getLast? ≠ some '{' := by
    rw [hl]
    cases hc : (trim b).getLast? with
    | none => simp
    | some z => rw [hc] at hb; simpa using hb
  generalize trim (a ++ '=' :: b) = l at hsp hv' hm hh hl'
  unfold classify
  cases l with
  | nil => simp at hm
  | cons c l =>
    simp only [List.head?_cons, Option.some.injEq] at hh
    unfold Starts at hs
    have h1 : c ≠ '#' := by
      intro hc; rw [hc] at hh
      cases hx : (trim a).head? with
      | none => rw [hx] at hh; simp at hh
      | some y => rw [hx] at hh; simp at hh; rw [hx, hh] at hs; simp at hs
    have h2 : c ≠ '}' := by
      intro hc; rw [hc] at hh
      cases hx : (trim a).head? with
      | none => rw [hx] at hh; simp at hh
      | some y => rw [hx] at hh; simp at hh; rw [hx, hh] at hs; simp at hs
    simp only [h1, h2, if_false, hl', hv', Bool.false_eq_true, hm, if_true, hsp]

theorem classify_opn (a b : Str) (hb : ∀ c ∈ b, blank c = true) (hs : ¬ Starts (trim a)) :
    classify (trim (a ++ '{' :: b)) = .opn (trim a) := by
  have hh := head_ltrim_sep a (rtrim b) '{'
  rw [trim_sep a b '{' (by decide), rtrim_all hb]
  rw [rtrim_all hb] at hh
  cases hl : ltrim a ++ ['{'] with
  | nil => simp at hl
  | cons c l =>
    rw [hl] at hh
    simp only [List.head?_cons, Option.some.injEq] at hh
    unfold Starts at hs
    have h1 : c ≠ '#' := by
      intro hc; rw [hc] at hh
      cases hx : (trim a).head? with
      | none => rw [hx] at hh; simp at hh
      | some y => rw [hx] at hh; simp at hh; rw [hx, hh] at hs; simp at hs
    have h2 : c ≠ '}' := by
      intro hc; rw [hc] at hh
      cases hx : (trim a).head? with
      | none => rw [hx] at hh; simp at hh
      | some y => rw [hx] at hh; simp at hh; rw [hx, hh] at hs; simp at hs
    have h3 : (c :: l).getLast? = some '{' := by rw [← hl]; simp
    have h4 : (c :: l).dropLast = ltrim a := by rw [← hl]; simp
    simp only [classify, h1, h2, if_false, h3, if_true, h4, trim_ltrim]

theorem classify_close (a b : Str) (ha : ∀ c ∈ a, blank c = true) :
    classify (trim (a ++ '}' :: b)) = .close := by
  rw [trim_sep a b '}' (by decide), ltrim_all ha]
  simp [classify]

theorem classify_comment (a b : Str) (ha : ∀ c ∈ a, blank c = true) :
    classify (trim (a ++ '#' :: b)) = .nothing := by
  rw [trim_sep a b '#' (by decide), ltrim_all ha]
  simp [classify]

theorem textLines_ne (s : Str) : textLines s ≠ [] := by
  cases s with
  | nil => simp [textLines]
  | cons c s =>
    unfold textLines
    split
    · simp
    · split <;> simp

theorem textLines_line (l r : Str) (h : '\n' ∉ l) :
    textLines (l ++ '\n' :: r) = l :: textLines r := by
  induction l with
  | nil => simp [textLines]
  | cons c l ih =>
    simp only [List.mem_cons, not_or] at h
    simp [textLines, ih h.2, Ne.symm h.1]

theorem mem_textLines {s l : Str} (h : l ∈ textLines s) : '\n' ∉ l := by
  induction s generalizing l with
  | nil => simp [textLines] at h; subst h; simp
  | cons c s ih =>
    unfold textLines at h
    split at h
    · simp only [List.mem_cons] at h
      rcases h with rfl | h
      · simp
      · exact ih h
    · next hc =>
      split at h
      · simp only [List.mem_cons, List.not_mem_nil, or_false] at h
        subst h
        simp [Ne.symm hc]
      · next l' r hr =>
        simp only [List.mem_cons] at h
        rcases h with rfl | h
        · have := ih (l := l') (by rw [hr]; simp)
          simp [Ne.symm hc, this]
        · exact ih (by rw [hr]; simp [h])

end Params
