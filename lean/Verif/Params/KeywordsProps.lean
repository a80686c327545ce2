import Verif.Params.Keywords
set_option autoImplicit false
/-
Properties of keywords and search paths.
-/
namespace Verif.Params.Keywords

theorem find_append (t u : Table) (n : Str) : find (t ++ u) n = (find t n).or (find u n) := by
  induction t with
  | nil => simp [find]
  | cons e t ih =>
    obtain ⟨k, b⟩ := e
    simp only [List.cons_append, find]
    split <;> simp [ih]

theorem find_register (t : Table) (e : Str × Bool) (n : Str) : find (register t e) n = (find t n).or (find [e] n) := by
  simp only [register]
  split
  · rename_i h
    by_cases hn : e.1 = n
    · rw [hn] at h
      cases hf : find t n with
      | none => rw [hf] at h; simp at h
      | some b => rfl
    · simp [find, hn]
  · exact find_append t [e] n

theorem find_foldl (l : List (Str × Bool)) : ∀ (t : Table) (n : Str), find (l.foldl register t) n = (find t n).or (find l n) := by
  induction l with
  | nil => intro t n; simp [find]
  | cons e l ih =>
    intro t n
    rw [List.foldl_cons, ih, find_register, Option.or_assoc]
    congr 1
    obtain ⟨k, b⟩ := e
    simp only [find]
    split <;> simp

theorem find_all (l : List (Str × Bool)) (n : Str) : find (registerAll l) n = find l n := by
  rw [registerAll, find_foldl]; simp [find]

theorem find_mem (l : List (Str × Bool)) (n : Str) (b : Bool) (h : find l n = some b) : (n, b) ∈ l := by
  induction l with
  | nil => simp [find] at h
  | cons e l ih =>
    obtain ⟨k, c⟩ := e
    simp only [find] at h
    split at h
    · rename_i hk
      simp only [Option.some.injEq] at h
      subst hk; subst h; simp
    · exact List.mem_cons_of_mem _ (ih h)

theorem find_none (l : List (Str × Bool)) (n : Str) (h : find l n = none) (b : Bool) : (n, b) ∉ l := by
  induction l with
  | nil => simp
  | cons e l ih =>
    obtain ⟨k, c⟩ := e
    simp only [find] at h
    split at h
    · simp at h
    · rename_i hk
      intro hm
      rcases List.mem_cons.1 hm with hm | hm
      · simp only [Prod.mk.injEq] at hm; exact hk hm.1.symm
      · exact ih h hm

/-- No name is registered both as a plain and as a numbered keyword. -/
def Consistent (l : List (Str × Bool)) : Prop := ∀ n, ¬ ((n, true) ∈ l ∧ (n, false) ∈ l)

theorem find_iff (l : List (Str × Bool)) (hc : Consistent l) (n : Str) (b : Bool) : find l n = some b ↔ (n, b) ∈ l := by
  constructor
  · exact find_mem l n b
  · intro h
    cases hf : find l n with
    | none => exact absurd h (find_none l n hf b)
    | some c =>
      have hm := find_mem l n c hf
      cases b <;> cases c
      · rfl
      · exact absurd ⟨hm, h⟩ (hc n)
      · exact absurd ⟨h, hm⟩ (hc n)
      · rfl

theorem takeWhile_prefix (p s : Str) (hp : ∀ c ∈ p, isDigit c = false) (d : Char) (hd : isDigit d = true) :
    before (p ++ d :: s) = p := by
  have h1 : (p ++ d :: s).any isDigit = true := by simp [hd]
  simp only [before, h1, if_true]
  induction p with
  | nil => simp [hd]
  | cons a p ih =>
    have ha := hp a (by simp)
    have := ih (fun c hc => hp c (by simp [hc])) (by simp [hd])
    simp [ha, this]

/-- The digits are the decimal digits. -/
theorem isDigit_eq (c : Char) : isDigit c = c.isDigit := by
  simp only [isDigit, Char.isDigit, Char.toNat]
  have e : ∀ a b : UInt32, decide (a ≥ b) = decide (b.toNat ≤ a.toNat) := fun a b => by
    simp only [ge_iff_le, UInt32.le_iff_toNat_le]
  have e' : ∀ a b : UInt32, decide (a ≤ b) = decide (a.toNat ≤ b.toNat) := fun a b => by
    simp only [UInt32.le_iff_toNat_le]
  rw [e, e']
  rfl

/-- A registered keyword is accepted, a numbered one with any suffix that begins with a digit (unless the
name is itself registered), a numbered one without suffix ends the program. -/
theorem C161_registered (l : List (Str × Bool)) (hc : Consistent l) (n : Str) :
    ((n, false) ∈ l → isValid (registerAll l) n = .yes) ∧
    ((n, true) ∈ l → isValid (registerAll l) n = .abort) ∧
    ((n, true) ∈ l → (∀ c ∈ n, c.isDigit = false) → ∀ d s, d.isDigit = true → (∀ b, (n ++ d :: s, b) ∉ l) →
      isValid (registerAll l) (n ++ d :: s) = .yes) := by
  simp only [← isDigit_eq]
  refine ⟨fun h => ?_, fun h => ?_, fun h hn d s hd hs => ?_⟩
  · simp only [isValid, find_all, (find_iff l hc n false).2 h]
  · simp only [isValid, find_all, (find_iff l hc n true).2 h]
  · have hf : find l (n ++ d :: s) = none := by
      cases hf : find l (n ++ d :: s) with
      | none => rfl
      | some b => exact absurd (find_mem l _ b hf) (hs b)
    simp only [isValid, find_all, hf, takeWhile_prefix n s hn d hd, (find_iff l hc n true).2 h]

/-- What is accepted is registered, or is a registered numbered keyword with a suffix that begins with a
digit, or the empty name is registered as numbered. -/
theorem C161_unknown (l : List (Str × Bool)) (n : Str) (h : isValid (registerAll l) n = .yes) :
    (n, false) ∈ l ∨ (∃ p d s, n = p ++ d :: s ∧ d.isDigit = true ∧ (∀ c ∈ p, c.isDigit = false) ∧ (p, true) ∈ l) ∨ ([], true) ∈ l := by
  simp only [← isDigit_eq]
  simp only [isValid, find_all] at h
  cases hf : find l n with
  | some b =>
    cases b with
    | true => rw [hf] at h; simp at h
    | false => exact Or.inl (find_mem l n _ hf)
  | none =>
    rw [hf] at h
    simp only at h
    cases hg : find l (before n) with
    | none => rw [hg] at h; simp at h
    | some b =>
      cases b with
      | false => rw [hg] at h; simp at h
      | true =>
        have hm := find_mem l _ _ hg
        right
        by_cases ha : n.any isDigit = true
        · left
          have key : ∀ m : Str, m.any isDigit = true → ∃ d s, m = m.takeWhile (fun c => !isDigit c) ++ d :: s ∧ isDigit d = true ∧
              ∀ c ∈ m.takeWhile (fun c => !isDigit c), isDigit c = false := by
            intro m
            induction m with
            | nil => intro h; simp at h
            | cons a m ih =>
              intro h
              by_cases hd : isDigit a = true
              · exact ⟨a, m, by simp [hd], hd, by simp [hd]⟩
              · have hd' : isDigit a = false := by simpa using hd
                obtain ⟨d, s, e, hdd, hall⟩ := ih (by simpa [hd'] using h)
                refine ⟨d, s, ?_, hdd, ?_⟩
                · simp only [List.takeWhile_cons, hd', Bool.not_false, if_true, List.cons_append]
                  rw [← e]
                · intro c hcm
                  simp only [List.takeWhile_cons, hd', Bool.not_false, if_true] at hcm
                  rcases List.mem_cons.1 hcm with rfl | hcm
                  · exact hd'
                  · exact hall c hcm
          obtain ⟨d, s, e, hd, hall⟩ := key n ha
          simp only [before, ha, if_true] at hm
          exact ⟨_, d, s, e, hd, hall, hm⟩
        · right
          simpa [before, ha] using hm

/-- The order of the static constructors does not matter, nor how often a keyword is registered. -/
theorem C161_order (l l' : List (Str × Bool)) (hc : Consistent l) (h : ∀ e, e ∈ l ↔ e ∈ l') (n : Str) :
    isValid (registerAll l) n = isValid (registerAll l') n := by
  have hc' : Consistent l' := fun n hh => hc n ⟨(h _).2 hh.1, (h _).2 hh.2⟩
  have : ∀ m, find l m = find l' m := by
    intro m
    cases hf : find l m with
    | some b => exact ((find_iff l' hc' m b).2 ((h _).1 ((find_iff l hc m b).1 hf))).symm
    | none =>
      cases hg : find l' m with
      | none => rfl
      | some b => exact absurd ((h _).2 (find_mem l' m b hg)) (find_none l m hf b)
  simp only [isValid, find_all, this]

/-- A name registered in both ways: the first constructor decides. -/
theorem C161_order_refuted : ∃ (l l' : List (Str × Bool)) (n : Str), l.Perm l' ∧
    isValid (registerAll l) n = .yes ∧ isValid (registerAll l') n = .abort :=
  ⟨[(['a'], false), (['a'], true)], [(['a'], true), (['a'], false)], ['a'], List.Perm.swap _ _ _, by decide, by decide⟩

/-- A numbered keyword with a digit in its name is not accepted with its number, and characters after the
first digit are not looked at. -/
theorem C161_suffix_refuted :
    (∃ l n d, Consistent l ∧ (n, true) ∈ l ∧ d.isDigit = true ∧ isValid (registerAll l) (n ++ [d]) = .no) ∧
    (∀ l, Consistent l → ∀ n, (n, true) ∈ l → (∀ c ∈ n, c.isDigit = false) → (∀ s b, (n ++ '1' :: s, b) ∉ l) →
      ∀ s, isValid (registerAll l) (n ++ '1' :: s) = .yes) := by
  simp only [← isDigit_eq]
  refine ⟨⟨[(['l', '2', 'b'], true)], ['l', '2', 'b'], '0', ?_, by decide, by decide, by decide⟩, ?_⟩
  · intro n h; simp at h
  · intro l hc n h hn hs s
    exact (C161_registered l hc n).2.2 h hn '1' s (by decide) (hs s)

/-- With validation a run goes on exactly with accepted keywords and with the removed one, which is ignored;
without validation with all. -/
theorem C161_validate (t : Table) (n : Str) :
    (validate true t n = .accepted ↔ isValid t n = .yes) ∧
    (validate true t n = .ignored ↔ isValid t n = .no ∧ n = "launch_name".toList) ∧
    validate false t n = .accepted := by
  refine ⟨?_, ?_, rfl⟩
  · simp only [validate, if_true]
    cases isValid t n <;> simp
    split <;> simp
  · simp only [validate, if_true, removed, List.mem_singleton]
    generalize "launch_name".toList = w
    cases isValid t n <;> simp

/-- The keywords of the launcher: numbered, accepted with a number, not without. -/
example : Consistent [("launch_app".toList, true), ("topology".toList, false)] ∧
    isValid (registerAll [("launch_app".toList, true), ("topology".toList, false)]) "launch_app12".toList = .yes ∧
    isValid (registerAll [("launch_app".toList, true), ("topology".toList, false)]) "launch_app".toList = .abort ∧
    isValid (registerAll [("launch_app".toList, true), ("topology".toList, false)]) "topolgy".toList = .no := by
  refine ⟨?_, by decide +kernel, by decide +kernel, by decide +kernel⟩
  intro n h
  simp only [List.mem_cons, Prod.mk.injEq, List.not_mem_nil, or_false, Bool.true_eq_false, Bool.false_eq_true, and_false, and_true, false_or] at h
  rw [h.1] at h
  exact absurd h.2 (by decide +kernel)

/-- Of the name itself and then the directories added, latest first, the first that can be opened is. -/
theorem C161_files (opens : Str → Bool) (added : List Str) (name : Str) :
    (∀ f, openFile opens (added.foldl addPath []) name = some f ↔
      opens f = true ∧ ((f = name) ∨ (opens name = false ∧ ∃ older p newer, added = older ++ p :: newer ∧ f = p ++ '/' :: name ∧
        ∀ q ∈ newer, opens (q ++ '/' :: name) = false))) ∧
    (openFile opens (added.foldl addPath []) name = none ↔ opens name = false ∧ ∀ q ∈ added, opens (q ++ '/' :: name) = false) := by
  have hrev : ∀ (l acc : List Str), l.foldl addPath acc = l.reverse ++ acc := by
    intro l
    induction l with
    | nil => intro acc; rfl
    | cons a l ih => intro acc; rw [List.foldl_cons, ih]; simp [addPath]
  have hin : ∀ (ps : List Str) f, openIn opens name ps = some f ↔
      opens f = true ∧ ∃ a p b, ps = a ++ p :: b ∧ f = p ++ '/' :: name ∧ ∀ q ∈ a, opens (q ++ '/' :: name) = false := by
    intro ps
    induction ps with
    | nil => intro f; simp [openIn]
    | cons p ps ih =>
      intro f
      simp only [openIn]
      split
      · rename_i hp
        constructor
        · intro e
          simp only [Option.some.injEq] at e
          exact ⟨e ▸ hp, [], p, ps, rfl, e.symm, by simp⟩
        · rintro ⟨ho, a, q, b, e, ef, ha⟩
          cases a with
          | nil => simp only [List.nil_append, List.cons.injEq] at e; rw [ef, e.1]
          | cons x a =>
            simp only [List.cons_append, List.cons.injEq] at e
            have := ha x (by simp)
            rw [← e.1, hp] at this; cases this
      · rename_i hp
        rw [ih f]
        constructor
        · rintro ⟨ho, a, q, b, e, ef, ha⟩
          refine ⟨ho, p :: a, q, b, by rw [e]; rfl, ef, ?_⟩
          intro x hx
          rcases List.mem_cons.1 hx with rfl | hx
          · simpa using hp
          · exact ha x hx
        · rintro ⟨ho, a, q, b, e, ef, ha⟩
          cases a with
          | nil =>
            simp only [List.nil_append, List.cons.injEq] at e
            rw [ef, ← e.1] at ho; exact absurd ho hp
          | cons x a =>
            simp only [List.cons_append, List.cons.injEq] at e
            exact ⟨ho, a, q, b, e.2, ef, fun y hy => ha y (by simp [hy])⟩
  have hnone : ∀ ps : List Str, openIn opens name ps = none ↔ ∀ q ∈ ps, opens (q ++ '/' :: name) = false := by
    intro ps
    induction ps with
    | nil => simp [openIn]
    | cons p ps ih =>
      simp only [openIn]
      split
      · rename_i hp; simp [hp]
      · rename_i hp; simp [ih, hp]
  rw [hrev, List.append_nil]
  refine ⟨fun f => ?_, ?_⟩
  · simp only [openFile]
    split
    · rename_i hn
      constructor
      · intro e; simp only [Option.some.injEq] at e; exact ⟨e ▸ hn, Or.inl e.symm⟩
      · rintro ⟨_, h | h⟩
        · rw [h]
        · rw [hn] at h; exact absurd h.1 (by simp)
    · rename_i hn
      have hn' : opens name = false := by simpa using hn
      rw [hin]
      constructor
      · rintro ⟨ho, a, p, b, e, ef, ha⟩
        refine ⟨ho, Or.inr ⟨hn', b.reverse, p, a.reverse, ?_, ef, by simpa using ha⟩⟩
        have := congrArg List.reverse e
        simpa using this
      · rintro ⟨ho, h | ⟨_, a, p, b, e, ef, hb⟩⟩
        · rw [h] at ho; exact absurd ho hn
        · exact ⟨ho, b.reverse, p, a.reverse, by rw [e]; simp, ef, by simpa using hb⟩
  · simp only [openFile]
    split
    · rename_i hn; simp [hn]
    · rename_i hn
      have hn' : opens name = false := by simpa using hn
      rw [hnone]; simp [hn']

example : openFile (fun f => f == "b/x".toList || f == "a/x".toList) (["a".toList, "b".toList].foldl addPath []) "x".toList = some "b/x".toList := by
  decide +kernel

end Verif.Params.Keywords
