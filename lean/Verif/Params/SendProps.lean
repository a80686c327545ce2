import Verif.Params.Text
/-!
# Parameters sent as text
-/
set_option autoImplicit false

namespace Params

/-! ## Specification -/

/-- A namespace name that survives being written as a line: no blanks around it, no line
break in it, and not beginning like a comment or the end of a namespace. -/
def CleanName (n : Str) : Prop := trim n = n ∧ '\n' ∉ n ∧ ¬ Starts n

/-- A parameter that survives being written as a line. -/
def CleanPar (k v : Str) : Prop :=
  CleanName k ∧ '=' ∉ k ∧ '.' ∉ k ∧ trim v = v ∧ '\n' ∉ v ∧ v.getLast? ≠ some '{' ∧
  v.head? ≠ some '$' ∧ contains setVar (k ++ eqSign ++ v) = false

/-- The names of the namespaces. -/
def Forest.names : Forest → List Str
  | .nil => []
  | .cons n _ r => n :: r.names

mutual
/-- All parameters satisfy `P`, all names of namespaces satisfy `Q`, and no name occurs
twice in a scope (the scopes are maps). -/
def Tree.All (P : Str → Str → Prop) (Q : Str → Prop) : Tree → Prop
  | .node ps fs => (∀ e ∈ ps, P e.1 e.2) ∧ (ps.map (·.1)).Nodup ∧ fs.All P Q
/-- The same for all namespaces. -/
def Forest.All (P : Str → Str → Prop) (Q : Str → Prop) : Forest → Prop
  | .nil => True
  | .cons n t r => Q n ∧ n ∉ r.names ∧ t.All P Q ∧ r.All P Q
end

/-- All names and values survive being written as lines. -/
abbrev Tree.Clean (t : Tree) : Prop := t.All CleanPar CleanName
/-- All names and values survive being written as lines. -/
abbrev Forest.Clean (fs : Forest) : Prop := fs.All CleanPar CleanName

/-! ## The text of clean parameters -/

/-- Two lists of namespaces one after the other. -/
def Forest.append : Forest → Forest → Forest
  | .nil, b => b
  | .cons n t r, b => .cons n t (r.append b)

theorem aset_new {k v : Str} {ps : List (Str × Str)} (h : k ∉ ps.map (·.1)) :
    aset k v ps = ps ++ [(k, v)] := by
  induction ps with
  | nil => rfl
  | cons e r ih =>
    obtain ⟨a, b⟩ := e
    simp only [List.map_cons, List.mem_cons, not_or] at h
    simp [aset, Ne.symm h.1, ih h.2]

theorem aget_new {k : Str} {ps : List (Str × Str)} (h : k ∉ ps.map (·.1)) : aget k ps = none := by
  induction ps with
  | nil => rfl
  | cons e r ih =>
    obtain ⟨a, b⟩ := e
    simp only [List.map_cons, List.mem_cons, not_or] at h
    simp [aget, Ne.symm h.1, ih h.2]

theorem get_new {n : Str} : ∀ {fs : Forest}, n ∉ fs.names → fs.get? n = none
  | .nil, _ => rfl
  | .cons a t r, h => by
    simp only [Forest.names, List.mem_cons, not_or] at h
    simp [Forest.get?, Ne.symm h.1, get_new h.2]

theorem put_new {n : Str} {t : Tree} : ∀ {fs : Forest}, n ∉ fs.names →
    fs.put n t = fs.append (.cons n t .nil)
  | .nil, _ => rfl
  | .cons a u r, h => by
    simp only [Forest.names, List.mem_cons, not_or] at h
    simp [Forest.put, Forest.append, Ne.symm h.1, put_new h.2]

theorem append_nil : ∀ (fs : Forest), fs.append .nil = fs
  | .nil => rfl
  | .cons n t r => by simp [Forest.append, append_nil r]

theorem append_assoc : ∀ (a b c : Forest), (a.append b).append c = a.append (b.append c)
  | .nil, _, _ => rfl
  | .cons n t r, b, c => by simp [Forest.append, append_assoc r b c]

theorem names_append : ∀ (a b : Forest), (a.append b).names = a.names ++ b.names
  | .nil, _ => rfl
  | .cons n t r, b => by simp [Forest.append, Forest.names, names_append r b]

theorem run_ps (fuel : Nat) (rest : Str) (vars : List (Str × Str)) (fs : Forest)
    (up : List (Str × Tree)) (ps : List (Str × Str)) : ∀ (done : List (Str × Str)),
    (∀ e ∈ ps, CleanPar e.1 e.2) → ((done ++ ps).map (·.1)).Nodup →
    run over fuel (textLines (printPs ps ++ rest)) ⟨vars, .node done fs, up⟩
      = run over fuel (textLines rest) ⟨vars, .node (done ++ ps) fs, up⟩ := by
  induction ps with
  | nil => intro done _ _; simp [printPs]
  | cons e r ih =>
    intro done hc hn
    obtain ⟨k, v⟩ := e
    obtain ⟨⟨hk1, hk2, hk3⟩, hk4, hk5, hv1, hv2, hv3, hv4, hv5⟩ := hc (k, v) (by simp)
    have hnl : '\n' ∉ k ++ eqSign ++ v := by
      simp only [List.mem_append, not_or]
      exact ⟨⟨hk2, by decide⟩, hv2⟩
    have htx : printPs ((k, v) :: r) ++ rest = (k ++ eqSign ++ v) ++ '\n' :: (printPs r ++ rest) := by
      simp [printPs]
    have hline : k ++ eqSign ++ v = (k ++ [' ']) ++ '=' :: (' ' :: v) := by simp [eqSign]
    have htk : trim (k ++ [' ']) = k := by
      rw [trim_append_blank (by simp [blank]), hk1]
    have htv : trim (' ' :: v) = v := by
      have := trim_blank_append (a := [' ']) (b := v) (by simp [blank])
      simp only [List.singleton_append] at this
      rw [this, hv1]
    have hcl : classify (trim (k ++ eqSign ++ v)) = .assign k v := by
      rw [hline] at hv5 ⊢
      have := classify_assign (k ++ [' ']) (' ' :: v)
        (by simp only [List.mem_append, not_or]; exact ⟨hk4, by decide⟩)
        (by rw [htk]; exact hk3) (by rw [htv]; exact hv3) hv5
      rw [this, htk, htv]
    have hknew : k ∉ done.map (·.1) := by
      simp only [List.map_append, List.map_cons] at hn
      intro hh
      have := (List.nodup_append.mp hn).2.2 k hh k (by simp)
      exact this rfl
    rw [htx, textLines_line _ _ hnl]
    simp only [run, hcl, exec, parseKeyval, resolve_nd _ _ _ hv4, splitDots_last hk5, addAt, put,
      aget_new hknew, aset_new hknew]
    rw [ih (done ++ [(k, v)]) (fun e he => hc e (by simp [he])) (by simpa using hn)]
    simp

mutual
theorem run_tree (fuel : Nat) (vars : List (Str × Str)) : ∀ (t : Tree) (rest : Str)
    (up : List (Str × Tree)), t.Clean →
    run over fuel (textLines (t.reproduce ++ rest)) ⟨vars, .empty, up⟩
      = run over fuel (textLines rest) ⟨vars, t, up⟩
  | .node ps fs, rest, up, h => by
    simp only [Tree.All] at h
    simp only [Tree.reproduce, List.append_assoc, Tree.empty]
    rw [run_ps fuel _ vars .nil up ps [] h.1 (by simpa using h.2.1)]
    rw [run_forest fuel vars fs rest up ([] ++ ps) .nil h.2.2 (by simp [Forest.names])]
    simp [Forest.append]
theorem run_forest (fuel : Nat) (vars : List (Str × Str)) : ∀ (fs : Forest) (rest : Str)
    (up : List (Str × Tree)) (ps : List (Str × Str)) (done : Forest), fs.Clean →
    (∀ n ∈ fs.names, n ∉ done.names) →
    run over fuel (textLines (fs.reproduce ++ rest)) ⟨vars, .node ps done, up⟩
      = run over fuel (textLines rest) ⟨vars, .node ps (done.append fs), up⟩
  | .nil, rest, up, ps, done, _, _ => by simp [Forest.reproduce, append_nil]
  | .cons n t r, rest, up, ps, done, h, hd => by
    simp only [Forest.All] at h
    obtain ⟨⟨hn1, hn2, hn3⟩, hn4, ht, hr⟩ := h
    have hnew : n ∉ done.names := hd n (by simp [Forest.names])
    have htx : (Forest.cons n t r).reproduce ++ rest
        = (n ++ [' ', '{']) ++ '\n' :: (t.reproduce ++ (['}'] ++ '\n' :: (r.reproduce ++ rest))) := by
      simp [Forest.reproduce]
    have hnl : '\n' ∉ n ++ [' ', '{'] := by
      simp only [List.mem_append, not_or]
      exact ⟨hn2, by decide⟩
    have htn : trim (n ++ [' ']) = n := by
      rw [trim_append_blank (by simp [blank]), hn1]
    have hcl : classify (trim (n ++ [' ', '{'])) = .opn n := by
      have := classify_opn (n ++ [' ']) [] (by simp) (by rw [htn]; exact hn3)
      rw [htn] at this
      simpa using this
    rw [htx, textLines_line _ _ hnl]
    simp only [run, hcl, exec, Tree.sub, get_new hnew, Option.getD_none]
    rw [run_tree fuel vars t _ ((n, .node ps done) :: up) ht, textLines_line _ _ (by decide)]
    have hc2 : classify (trim ['}']) = .close := by decide
    simp only [run, hc2, exec, Tree.setSub, put_new hnew]
    rw [run_forest fuel vars r rest up ps (done.append (.cons n t .nil)) hr ?_]
    · rw [append_assoc]; rfl
    · intro x hx
      rw [names_append]
      simp only [Forest.names, List.mem_append, List.mem_cons, List.not_mem_nil, or_false, not_or]
      refine ⟨hd x (by simp [Forest.names, hx]), ?_⟩
      intro hh; rw [hh] at hx; exact hn4 hx
end

/-- **Parameters sent as text arrive.**  If all names and values are clean, the text
written for the parameters reads back as the same parameters. -/
theorem C104_resend_partial (fuel : Nat) (t : Tree) (h : t.Clean) : resend fuel t = .ok t := by
  unfold resend parseStream
  have := run_tree fuel [] t [] [] h
  rw [List.append_nil] at this
  rw [this]
  have hc : classify (trim []) = .nothing := by decide
  simp [textLines, run, hc, exec, closeAll]

/-! ## Which files give clean parameters -/

/-- The words that begin the definition of a variable, without the last blank. -/
def setVar7 : Str := ['s', 'e', 't', ' ', 'v', 'a', 'r']

/-- A line that keeps the parameters clean: the pieces of a dotted key have no blanks
around them and none begins like a comment or the end of a namespace; the words of a
variable definition occur neither at the end of a key nor in the value of a variable. -/
def Tame : Dir → Prop
  | .assign key _ => ∀ (ns : List Str) (k : Str), Dotted key ns k →
      (∀ n ∈ ns, trim n = n ∧ ¬ Starts n) ∧ trim k = k ∧ ¬ Starts k ∧ contains setVar7 k = false
  | .var _ v => contains setVar v = false
  | .unset key => ∀ (ns : List Str) (k : Str), Dotted key ns k →
      ∀ n ∈ ns, trim n = n ∧ ¬ Starts n
  | _ => True

theorem names_put (n : Str) (t : Tree) : ∀ (fs : Forest) (x : Str),
    x ∈ (fs.put n t).names ↔ x = n ∨ x ∈ fs.names
  | .nil, x => by simp [Forest.put, Forest.names]
  | .cons a u r, x => by
    by_cases h : a = n
    · subst h; simp [Forest.put, Forest.names]
    · simp only [Forest.put, h, if_false, Forest.names, List.mem_cons, names_put n t r x]
      constructor
      · rintro (h | h | h) <;> simp [h]
      · rintro (h | h | h) <;> simp [h]

theorem clean_put {P : Str → Str → Prop} {Q : Str → Prop} {n : Str} {t : Tree} (hn : Q n) (ht : t.All P Q) : ∀ {fs : Forest},
    fs.All P Q → (fs.put n t).All P Q
  | .nil, _ => by simp [Forest.put, Forest.All, Forest.names, hn, ht]
  | .cons a u r, h => by
    simp only [Forest.All] at h
    by_cases ha : a = n
    · subst ha
      simp only [Forest.put, if_true, Forest.All]
      exact ⟨h.1, h.2.1, ht, h.2.2.2⟩
    · simp only [Forest.put, ha, if_false, Forest.All]
      refine ⟨h.1, ?_, h.2.2.1, clean_put hn ht h.2.2.2⟩
      rw [names_put]
      simp only [not_or]
      exact ⟨ha, h.2.1⟩

theorem clean_get {P : Str → Str → Prop} {Q : Str → Prop} {n : Str} {t : Tree} : ∀ {fs : Forest}, fs.All P Q → fs.get? n = some t → t.All P Q
  | .nil, _, h => by simp [Forest.get?] at h
  | .cons a u r, hc, h => by
    simp only [Forest.All] at hc
    simp only [Forest.get?] at h
    split at h
    · cases h; exact hc.2.2.1
    · exact clean_get hc.2.2.2 h

theorem clean_empty {P : Str → Str → Prop} {Q : Str → Prop} : Tree.empty.All P Q := by simp [Tree.empty, Tree.All, Forest.All]

theorem clean_sub {P : Str → Str → Prop} {Q : Str → Prop} {n : Str} {t : Tree} (h : t.All P Q) : (t.sub n).All P Q := by
  cases t with
  | node ps fs =>
    simp only [Tree.All] at h
    simp only [Tree.sub]
    cases hg : fs.get? n with
    | none => exact clean_empty
    | some u => exact clean_get h.2.2 hg

theorem clean_setSub {P : Str → Str → Prop} {Q : Str → Prop} {n : Str} {t u : Tree} (hn : Q n) (h : t.All P Q) (hu : u.All P Q) :
    (t.setSub n u).All P Q := by
  cases t with
  | node ps fs =>
    simp only [Tree.All] at h
    simp only [Tree.setSub, Tree.All]
    exact ⟨h.1, h.2.1, clean_put hn hu h.2.2⟩

theorem keys_aset (k v x : Str) (ps : List (Str × Str)) :
    x ∈ (aset k v ps).map (·.1) ↔ x = k ∨ x ∈ ps.map (·.1) := by
  induction ps with
  | nil => simp [aset]
  | cons e r ih =>
    obtain ⟨a, b⟩ := e
    by_cases h : a = k
    · subst h; simp [aset]
    · simp only [aset, h, if_false, List.map_cons, List.mem_cons, ih]
      constructor
      · rintro (h | h | h) <;> simp [h]
      · rintro (h | h | h) <;> simp [h]

theorem clean_aset {P : Str → Str → Prop} {k v : Str} (hkv : P k v) (ps : List (Str × Str))
    (h1 : ∀ e ∈ ps, P e.1 e.2) (h2 : (ps.map (·.1)).Nodup) :
    (∀ e ∈ aset k v ps, P e.1 e.2) ∧ ((aset k v ps).map (·.1)).Nodup := by
  induction ps with
  | nil =>
    refine ⟨?_, by simp [aset]⟩
    intro e he
    simp only [aset, List.mem_cons, List.not_mem_nil, or_false] at he
    subst he; exact hkv
  | cons e r ih =>
    obtain ⟨a, b⟩ := e
    simp only [List.map_cons, List.nodup_cons] at h2
    by_cases h : a = k
    · subst h
      simp only [aset, if_true, List.map_cons, List.nodup_cons]
      refine ⟨?_, h2⟩
      intro e he
      simp only [List.mem_cons] at he
      rcases he with rfl | he
      · exact hkv
      · exact h1 e (by simp [he])
    · obtain ⟨i1, i2⟩ := ih (fun e he => h1 e (by simp [he])) h2.2
      simp only [aset, h, if_false, List.map_cons, List.nodup_cons, keys_aset]
      refine ⟨?_, ?_, i2⟩
      case refine_2 =>
        rintro (hh | hh)
        · exact hh
        · exact h2.1 hh
      intro e he
      simp only [List.mem_cons] at he
      rcases he with rfl | he
      · exact h1 _ (by simp)
      · exact i1 e he

theorem clean_addAt {P : Str → Str → Prop} {Q : Str → Prop} (m : Mode) (ns : List Str) : ∀ {k v : Str} {t t' : Tree},
    (∀ n ∈ ns, Q n) → P k v → t.All P Q → addAt m ns k v t = .ok t' → t'.All P Q := by
  induction ns with
  | nil =>
    intro k v t t' _ hkv ht h
    cases t with
    | node ps fs =>
      simp only [Tree.All] at ht
      obtain ⟨c1, c2⟩ := clean_aset hkv ps ht.1 ht.2.1
      simp only [addAt, put] at h
      have key : t' = .node (aset k v ps) fs ∨ t' = .node ps fs := by
        split at h
        · simp at h
        · next ps' hp =>
          simp only [Except.ok.injEq] at h
          subst h
          split at hp
          · split at hp
            · simp at hp
            · split at hp
              · simp only [Except.ok.injEq] at hp; subst hp; exact .inl rfl
              · simp only [Except.ok.injEq] at hp; subst hp; exact .inr rfl
          · simp only [Except.ok.injEq] at hp; subst hp; exact .inl rfl
      rcases key with rfl | rfl
      · simp only [Tree.All]; exact ⟨c1, c2, ht.2.2⟩
      · simp only [Tree.All]; exact ht
  | cons n ns ih =>
    intro k v t t' hns hkv ht h
    simp only [addAt] at h
    split at h
    · simp at h
    · next u hu =>
      simp only [Except.ok.injEq] at h
      subst h
      exact clean_setSub (hns n (by simp)) ht
        (ih (fun x hx => hns x (by simp [hx])) hkv (clean_sub ht) hu)

theorem clean_removeAt {P : Str → Str → Prop} {Q : Str → Prop} (ns : List Str) : ∀ {k : Str} {t : Tree},
    (∀ n ∈ ns, Q n) → t.All P Q → (removeAt ns k t).All P Q := by
  induction ns with
  | nil =>
    intro k t _ ht
    cases t with
    | node ps fs =>
      simp only [Tree.All] at ht
      simp only [removeAt, Tree.All, adel]
      refine ⟨fun e he => ht.1 e (List.mem_filter.mp he).1, ?_, ht.2.2⟩
      exact (List.Sublist.map _ List.filter_sublist).nodup ht.2.1
  | cons n ns ih =>
    intro k t hns ht
    simp only [removeAt]
    exact clean_setSub (hns n (by simp)) ht (ih (fun x hx => hns x (by simp [hx])) (clean_sub ht))

/-! ### What the reader can hand over -/

/-- A text free of line breaks and blanks at its ends that does not end in a brace. -/
def OkVal (v : Str) : Prop := trim v = v ∧ '\n' ∉ v ∧ v.getLast? ≠ some '{'

theorem takeWhile_dropWhile_parts (l : Str) (h : '=' ∈ l) :
    ∃ a b, l = a ++ '=' :: b ∧ '=' ∉ a := by
  have := List.append_of_mem h
  induction l with
  | nil => simp at h
  | cons c l ih =>
    by_cases hc : c = '='
    · exact ⟨[], l, by simp [hc], by simp⟩
    · have hm : '=' ∈ l := by
        simp only [List.mem_cons] at h
        rcases h with h | h
        · exact absurd h.symm hc
        · exact h
      obtain ⟨a, b, h1, h2⟩ := ih hm (List.append_of_mem hm)
      refine ⟨c :: a, b, by simp [h1], ?_⟩
      simp only [List.mem_cons, not_or]
      exact ⟨Ne.symm hc, h2⟩

theorem splitLine_parts (a b : Str) (h : '=' ∉ a) : splitLine (a ++ '=' :: b) = (trim a, trim b) := by
  obtain ⟨h1, h2⟩ := takeWhile_sep a b h
  unfold splitLine
  rw [if_pos (by simp), h1, h2]
  simp

theorem last_of_trim {b : Str} {c : Char} (h : (trim b).getLast? = some c) (hb : rtrim b = b) :
    b.getLast? = some c := by
  have := last_sep_rtrim [] b 'x'
  rw [hb, h] at this
  simp only [List.nil_append, Option.getD_some] at this
  rw [List.getLast?_cons] at this
  cases hl : b.getLast? with
  | none =>
    rw [List.getLast?_eq_none_iff] at hl
    subst hl
    simp [trim] at h
  | some d => rw [hl] at this; simpa using this

theorem suffix_rtrim {l b : Str} {x : Char} (h : l = x :: b) (hl : rtrim l = l) : rtrim b = b := by
  rcases ltrim_nil_or b.reverse with ⟨h1, h2⟩ | ⟨p, y, q, h1, h2, h3, h4⟩
  · have h2' : ∀ c ∈ b, blank c = true := fun c hc => h2 c (by simpa using hc)
    rw [rtrim_all h2']
    have : rtrim (x :: b) = rtrim [x] := by
      have := rtrim_append_blank (a := [x]) (b := b) h2'
      simpa using this
    rw [h, this] at hl
    have hlen := congrArg List.length hl
    have : (rtrim [x]).length ≤ 1 := by
      unfold rtrim
      have := (List.dropWhile_sublist (p := blank) (l := [x].reverse)).length_le
      simpa using this
    simp only [List.length_cons] at hlen
    have : b.length = 0 := by omega
    exact (List.length_eq_zero_iff.mp this).symm
  · have hb : b = q.reverse ++ y :: p.reverse := by
      have := congrArg List.reverse h1
      simpa using this
    have e1 : rtrim b = q.reverse ++ [y] := by
      rw [hb, rtrim_sep _ _ _ h3, rtrim_all (fun c hc => h2 c (by simpa using hc))]
    have e2 : rtrim (x :: b) = x :: (q.reverse ++ [y]) := by
      rw [hb, ← List.cons_append, rtrim_sep _ _ _ h3, rtrim_all (fun c hc => h2 c (by simpa using hc))]
      rfl
    rw [h, e2] at hl
    simp only [List.cons.injEq, true_and] at hl
    rw [e1, hl]

theorem suffix_rtrim' {a b : Str} (h : rtrim (a ++ b) = a ++ b) : rtrim b = b := by
  induction a with
  | nil => simpa using h
  | cons c a ih => exact ih (suffix_rtrim rfl h)

theorem rtrim_trim (s : Str) : rtrim (trim s) = trim s := by rw [trim_eq, rtrim_rtrim]

theorem splitLine_ok {l : Str} (hl : '\n' ∉ l) (hr : rtrim l = l) (hb : l.getLast? ≠ some '{') :
    OkVal (splitLine l).2 ∧ '\n' ∉ (splitLine l).1 ∧ trim (splitLine l).1 = (splitLine l).1 := by
  by_cases h : '=' ∈ l
  · obtain ⟨a, b, h1, h2⟩ := takeWhile_dropWhile_parts l h
    subst h1
    rw [splitLine_parts a b h2]
    have hrb : rtrim b = b := suffix_rtrim' (a := a ++ ['=']) (by simpa using hr)
    refine ⟨⟨trim_trim b, fun hh => hl (by simp [mem_trim hh]), ?_⟩,
      fun hh => hl (by simp [mem_trim hh]), trim_trim a⟩
    intro hh
    have := last_of_trim hh hrb
    apply hb
    rw [List.getLast?_append, List.getLast?_cons, this]
    rfl
  · unfold splitLine
    rw [if_neg h]
    refine ⟨⟨trim_trim l, fun hh => hl (mem_trim hh), ?_⟩, fun hh => hl (mem_trim hh), trim_trim l⟩
    intro hh
    exact hb (last_of_trim hh hr)

theorem getLast_drop {l : Str} {n : Nat} {c : Char} (h : (l.drop n).getLast? = some c) :
    l.getLast? = some c := by
  have he : l = l.take n ++ l.drop n := (List.take_append_drop n l).symm
  rw [he, List.getLast?_append, h]; rfl

/-- What the reader knows of a line before carrying it out. -/
def Handed : Dir → Prop
  | .opn n => CleanName n
  | .assign key v => '\n' ∉ key ∧ '=' ∉ key ∧ OkVal v ∧ contains setVar v = false
  | .var _ v => OkVal v
  | .unset key => '\n' ∉ key
  | _ => True

theorem classify_ok {l : Str} (hl : '\n' ∉ l) (htr : trim l = l) : Handed (classify l) := by
  have hr : rtrim l = l := by rw [← htr]; exact rtrim_trim l
  unfold classify
  cases l with
  | nil => trivial
  | cons c l' =>
    simp only
    by_cases h1 : c = '#'
    · rw [if_pos h1]; trivial
    rw [if_neg h1]
    by_cases h2 : c = '}'
    · rw [if_pos h2]; trivial
    rw [if_neg h2]
    by_cases h3 : (c :: l').getLast? = some '{'
    · rw [if_pos h3]
      refine ⟨trim_trim _, fun hh => hl (List.dropLast_subset _ (mem_trim hh)), ?_⟩
      have hcb : blank c = false := head_trim (s := c :: l') (by rw [htr]; rfl)
      unfold Starts
      cases l' with
      | nil => simp [trim]
      | cons d l'' =>
        have := trim_sep [] (d :: l'').dropLast c hcb
        simp only [List.nil_append] at this
        rw [List.dropLast_cons_cons, this]
        simp [ltrim, h1, h2]
    rw [if_neg h3]
    by_cases h4 : contains setVar (c :: l') = true
    · rw [if_pos h4]
      have hd : (c :: l').drop 8 = (c :: l').drop 8 := rfl
      have hr8 : rtrim ((c :: l').drop 8) = (c :: l').drop 8 :=
        suffix_rtrim' (a := (c :: l').take 8) (by rw [List.take_append_drop]; exact hr)
      exact (splitLine_ok (fun hh => hl (List.mem_of_mem_drop hh)) hr8
        (fun hh => h3 (getLast_drop hh))).1
    rw [if_neg h4]
    by_cases h5 : '=' ∈ c :: l'
    · rw [if_pos h5]
      obtain ⟨o1, o2, o3⟩ := splitLine_ok hl hr h3
      refine ⟨o2, ?_, o1, ?_⟩
      · obtain ⟨a, b, e1, e2⟩ := takeWhile_dropWhile_parts _ h5
        rw [e1, splitLine_parts a b e2]
        exact fun hh => e2 (mem_trim hh)
      · obtain ⟨a, b, e1, e2⟩ := takeWhile_dropWhile_parts _ h5
        cases hcc : contains setVar (splitLine (c :: l')).2 with
        | false => rfl
        | true =>
          exfalso
          apply h4
          rw [e1, splitLine_parts a b e2] at hcc
          rw [e1]
          refine contains_mono ((trim_infix b).trans ?_) hcc
          exact (List.suffix_append (a ++ ['=']) b).isInfix.trans (by simp)
    rw [if_neg h5]
    by_cases h6 : contains includeW (c :: l') = true
    · rw [if_pos h6]; trivial
    rw [if_neg h6]
    by_cases h7 : contains unsetW (c :: l') = true
    · rw [if_pos h7]
      exact fun hh => hl (List.mem_of_mem_drop (mem_trim hh))
    rw [if_neg h7]; trivial

theorem dotted_mem {key : Str} {ns : List Str} {k : Str} (h : Dotted key ns k) :
    (∀ c ∈ k, c ∈ key) ∧ (∀ n ∈ ns, ∀ c ∈ n, c ∈ key) ∧ '.' ∉ k := by
  induction h with
  | last h => exact ⟨fun c hc => hc, by simp, h⟩
  | @cons n rest ns k hn _ ih =>
    refine ⟨fun c hc => by simp [ih.1 c hc], ?_, ih.2.2⟩
    intro m hm c hc
    simp only [List.mem_cons] at hm
    rcases hm with rfl | hm
    · simp [hc]
    · simp [ih.2.1 m hm c hc]

theorem prefix_sep {w a b : Str} (hw : '=' ∉ w) (h : w <+: a ++ '=' :: b) : w <+: a := by
  induction w generalizing a with
  | nil => exact List.nil_prefix
  | cons x w ih =>
    simp only [List.mem_cons, not_or] at hw
    cases a with
    | nil =>
      simp only [List.nil_append, List.cons_prefix_cons] at h
      exact absurd h.1.symm hw.1
    | cons c a =>
      simp only [List.cons_append, List.cons_prefix_cons] at h ⊢
      exact ⟨h.1, ih hw.2 h.2⟩

theorem infix_sep {w a b : Str} (hw : '=' ∉ w) (hne : w ≠ []) (h : w <:+: a ++ '=' :: b) :
    w <:+: a ∨ w <:+: b := by
  induction a with
  | nil =>
    simp only [List.nil_append, List.infix_cons_iff] at h
    rcases h with h | h
    · have := prefix_sep (a := []) hw h
      rw [List.prefix_nil] at this
      exact absurd this hne
    · exact .inr h
  | cons c a ih =>
    rw [List.cons_append, List.infix_cons_iff] at h
    rcases h with h | h
    · left
      rw [← List.cons_append] at h
      exact (prefix_sep hw h).isInfix
    · rcases ih h with h | h
      · exact .inl (h.trans (List.suffix_cons c a).isInfix)
      · exact .inr h

theorem infix_snoc {w k : Str} {x y : Char} (h : w ++ [x] <:+: k ++ [y]) : w <:+: k := by
  obtain ⟨p, q, h⟩ := h
  rcases List.eq_nil_or_concat q with rfl | ⟨q', z, rfl⟩
  · have : (p ++ w) ++ [x] = k ++ [y] := by simpa using h
    have := (List.append_inj' this rfl).1
    exact ⟨p, [], by simpa using this⟩
  · have : (p ++ (w ++ [x]) ++ q') ++ [z] = k ++ [y] := by simpa using h
    have := (List.append_inj' this rfl).1
    exact ⟨p, x :: q', by simpa using this⟩

theorem no_setVar {k v : Str} (hk : contains setVar7 k = false) (hv : contains setVar v = false) :
    contains setVar (k ++ eqSign ++ v) = false := by
  cases hc : contains setVar (k ++ eqSign ++ v) with
  | false => rfl
  | true =>
    exfalso
    rw [contains_iff] at hc
    have he : k ++ eqSign ++ v = (k ++ [' ']) ++ '=' :: (' ' :: v) := by simp [eqSign]
    rw [he] at hc
    rcases infix_sep (by decide) (by decide) hc with h | h
    · have h' : setVar7 <:+: k := infix_snoc (w := setVar7) (x := ' ') (y := ' ') h
      rw [(contains_iff _ _).mpr h'] at hk
      simp at hk
    · rw [List.infix_cons_iff] at h
      rcases h with h | h
      · have : setVar = 's' :: ['e', 't', ' ', 'v', 'a', 'r', ' '] := rfl
        rw [this, List.cons_prefix_cons] at h
        exact absurd h.1 (by decide)
      · rw [(contains_iff _ _).mpr h] at hv
        simp at hv

/-! ### Reading keeps the parameters clean -/

/-- Every scope the reader holds is clean and so is every variable. -/
def StOk (s : St) : Prop :=
  s.cur.Clean ∧ (∀ e ∈ s.up, CleanName e.1 ∧ e.2.Clean) ∧
  ∀ n v, aget n s.vars = some v → OkVal v ∧ contains setVar v = false

theorem means_ok {var : Str → Option Str} {v w : Str} (h : Means var v w)
    (hvars : ∀ n v, var n = some v → OkVal v ∧ contains setVar v = false)
    (hv : OkVal v ∧ contains setVar v = false) :
    OkVal w ∧ contains setVar w = false ∧ w.head? ≠ some '$' := by
  induction h with
  | plain hp => exact ⟨hv.1, hv.2, hp⟩
  | var hg _ ih => exact ih (hvars _ _ hg)

theorem exec_clean {m : Mode} {fuel : Nat} {d : Dir} {s s' : St} (hd : Handed d) (ht : Tame d)
    (hs : StOk s) (h : exec m fuel d s = .ok s') : StOk s' := by
  obtain ⟨h1, h2, h3⟩ := hs
  unfold exec at h
  cases d with
  | nothing => simp only [Except.ok.injEq] at h; subst h; exact ⟨h1, h2, h3⟩
  | close =>
    simp only at h
    cases hu : s.up with
    | nil => rw [hu] at h; simp at h
    | cons e r =>
      obtain ⟨n, par⟩ := e
      rw [hu] at h h2
      simp only [Except.ok.injEq] at h
      subst h
      obtain ⟨e1, e2⟩ := h2 (n, par) (by simp)
      exact ⟨clean_setSub e1 e2 h1, fun e he => h2 e (by simp [he]), h3⟩
  | opn n =>
    simp only [Except.ok.injEq] at h
    subst h
    refine ⟨clean_sub h1, ?_, h3⟩
    intro e he
    simp only [List.mem_cons] at he
    rcases he with rfl | he
    · exact ⟨hd, h1⟩
    · exact h2 e he
  | var n v =>
    simp only [Except.ok.injEq] at h
    subst h
    refine ⟨h1, h2, ?_⟩
    intro x y hxy
    simp only [aget_aset] at hxy
    split at hxy
    · cases hxy; exact ⟨hd, ht⟩
    · exact h3 x y hxy
  | assign key val =>
    simp only [parseKeyval] at h
    obtain ⟨d1, d2, d3, d4⟩ := hd
    have hdot := splitDots_dotted key
    obtain ⟨t1, t2, t3, t4⟩ := ht _ _ hdot
    obtain ⟨m1, m2, m3⟩ := dotted_mem hdot
    cases hr : resolve fuel s.vars val with
    | error e => rw [hr] at h; simp at h
    | ok w =>
      rw [hr] at h
      simp only at h
      obtain ⟨w1, w2, w3⟩ := means_ok (resolve_means fuel s.vars val w hr) h3 ⟨d3, d4⟩
      split at h
      · simp at h
      · next t' ha =>
        simp only [Except.ok.injEq] at h
        subst h
        refine ⟨clean_addAt m _ ?_ ?_ h1 ha, h2, h3⟩
        · intro n hn
          exact ⟨(t1 n hn).1, fun hh => d1 (m2 n hn _ hh), (t1 n hn).2⟩
        · exact ⟨⟨t2, fun hh => d1 (m1 _ hh), t3⟩, fun hh => d2 (m1 _ hh), m3, w1.1, w1.2.1, w1.2.2,
            w3, no_setVar t4 w2⟩
  | incl => simp at h
  | unset key =>
    simp only [Except.ok.injEq] at h
    subst h
    have hdot := splitDots_dotted key
    obtain ⟨m1, m2, m3⟩ := dotted_mem hdot
    have ht' := ht _ _ hdot
    refine ⟨clean_removeAt _ ?_ h1, h2, h3⟩
    intro n hn
    exact ⟨(ht' n hn).1, fun hh => hd (m2 n hn _ hh), (ht' n hn).2⟩
  | bad => simp at h

theorem run_clean {m : Mode} {fuel : Nat} (ls : List Str) : ∀ {s s' : St},
    (∀ l ∈ ls, '\n' ∉ l ∧ Tame (classify (trim l))) → StOk s → run m fuel ls s = .ok s' →
    StOk s' := by
  induction ls with
  | nil => intro s s' _ hs h; simp only [run, Except.ok.injEq] at h; subst h; exact hs
  | cons l r ih =>
    intro s s' hl hs h
    simp only [run] at h
    cases he : exec m fuel (classify (trim l)) s with
    | error e => rw [he] at h; simp at h
    | ok s1 =>
      rw [he] at h
      obtain ⟨l1, l2⟩ := hl l (by simp)
      have hh := classify_ok (l := trim l) (fun hh => l1 (mem_trim hh)) (trim_trim l)
      exact ih (fun x hx => hl x (by simp [hx])) (exec_clean hh l2 hs he) h

theorem closeAll_clean (up : List (Str × Tree)) : ∀ {t : Tree}, t.Clean →
    (∀ e ∈ up, CleanName e.1 ∧ e.2.Clean) → (closeAll t up).Clean := by
  induction up with
  | nil => intro t h _; exact h
  | cons e r ih =>
    intro t h hu
    obtain ⟨n, par⟩ := e
    obtain ⟨e1, e2⟩ := hu (n, par) (by simp)
    exact ih (clean_setSub e1 e2 h) fun x hx => hu x (by simp [hx])

/-- Reading a file whose lines are tame gives clean parameters. -/
theorem parse_clean (m : Mode) (fuel : Nat) (text : Str) (t t' : Tree) (ht : t.Clean)
    (hd : ∀ d ∈ directives text, Tame d) (h : parseStream m fuel text t = .ok t') : t'.Clean := by
  unfold parseStream at h
  split at h
  · simp at h
  · next s hs =>
    simp only [Except.ok.injEq] at h
    subst h
    have := run_clean (textLines text)
      (fun l hl => ⟨mem_textLines hl, hd _ (by simp only [directives, List.mem_map]; exact ⟨l, hl, rfl⟩)⟩)
      (s := ⟨[], t, []⟩) ⟨ht, by simp, by simp [aget]⟩ hs
    exact closeAll_clean _ this.1 this.2.1

/-- **Every process gets the parameters of the file.**  If process 0 reads a file whose
lines are tame, what it sends to the other processes reads there as the same
parameters, whatever the depths of their stacks. -/
theorem C104_parallel_partial (fuel fuel' : Nat) (text : Str) (t : Tree)
    (h : parseStream over fuel text .empty = .ok t) (hd : ∀ d ∈ directives text, Tame d) :
    resend fuel' t = .ok t :=
  C104_resend_partial fuel' t (parse_clean over fuel text .empty t clean_empty hd h)

end Params
