import Verif.Params.SendProps
/-!
# Parameter files: lines, blocks, the command line, and where they go wrong
-/
set_option autoImplicit false

namespace Params

/-! ## Lines -/

/-- **How a line is read.**  Blanks around names and values do not matter; text after a
closing brace does not matter; a line whose first character is `#` is a comment.  A line
with an equals sign is an assignment unless its value ends in an opening brace or it has
the words of a variable definition in it. -/
theorem C104_lines (a b sp : Str) (hsp : ∀ c ∈ sp, blank c = true) :
    classify (trim sp) = .nothing ∧
    classify (trim (sp ++ '#' :: b)) = .nothing ∧
    classify (trim (sp ++ '}' :: b)) = .close ∧
    (¬ Starts (trim a) → classify (trim (a ++ '{' :: sp)) = .opn (trim a)) ∧
    ('=' ∉ a → ¬ Starts (trim a) → (trim b).getLast? ≠ some '{' →
      contains setVar (a ++ '=' :: b) = false →
      classify (trim (a ++ '=' :: b)) = .assign (trim a) (trim b)) := by
  refine ⟨?_, classify_comment sp b hsp, classify_close sp b hsp,
    classify_opn a sp hsp, classify_assign a b⟩
  rw [trim_eq, ltrim_all hsp]
  rfl

/-- **How a line with words is read.**  `set var n = v` defines a variable; `unset key`
removes a key, unless the key has an equals sign, the word `include` or the words of a
variable definition in it or ends in an opening brace. -/
theorem C104_words (n v key : Str) :
    ('=' ∉ n → (trim v).getLast? ≠ some '{' →
      classify (trim (setVar ++ n ++ '=' :: v)) = .var (trim n) (trim v)) ∧
    ('=' ∉ key → (trim key).getLast? ≠ some '{' → trim key ≠ [] →
      contains setVar (unsetW ++ ' ' :: key) = false →
      contains includeW (unsetW ++ ' ' :: key) = false →
      classify (trim (unsetW ++ ' ' :: key)) = .unset (trim key)) := by
  constructor
  · intro hn hv
    have hsplit : trim (setVar ++ n ++ '=' :: v) = setVar ++ n ++ '=' :: rtrim v := by
      rw [trim_sep _ _ '=' (by decide)]
      rfl
    have hl := last_sep_rtrim (setVar ++ n) v '='
    have hl' : (setVar ++ n ++ '=' :: rtrim v).getLast? ≠ some '{' := by
      rw [hl]
      cases hc : (trim v).getLast? with
      | none => simp
      | some z => rw [hc] at hv; simpa using hv
    have hc : contains setVar (setVar ++ n ++ '=' :: rtrim v) = true := by
      rw [contains_iff, List.append_assoc]
      exact (List.prefix_append _ _).isInfix
    have hd : (setVar ++ n ++ '=' :: rtrim v).drop 8 = n ++ '=' :: rtrim v := by
      rw [List.append_assoc]; rfl
    rw [hsplit]
    generalize hL : setVar ++ n ++ '=' :: rtrim v = L at hl' hc hd
    cases L with
    | nil => simp at hd
    | cons c L =>
      have hcs : c = 's' := by
        have : setVar = 's' :: setVar.tail := rfl
        rw [this] at hL
        simp only [List.cons_append, List.cons.injEq] at hL
        exact hL.1.symm
      subst hcs
      unfold classify
      simp only [hl', hc, if_true, if_false, hd, splitLine_parts n _ hn, trim_rtrim]
      simp
  · intro he hb hne hs hi
    have hsplit : trim (unsetW ++ ' ' :: key) = unsetW ++ rtrim (' ' :: key) := by
      have : unsetW ++ ' ' :: key = ['u', 'n', 's', 'e'] ++ 't' :: ' ' :: key := rfl
      rw [this, trim_sep _ _ 't' (by decide)]
      rfl
    have htk : trim (' ' :: key) = trim key := trim_blank_append (a := [' ']) (by simp [blank])
    have hinf : unsetW ++ rtrim (' ' :: key) <:+: unsetW ++ ' ' :: key := by
      rw [← hsplit]; exact trim_infix _
    have hs' : contains setVar (unsetW ++ rtrim (' ' :: key)) = false := by
      cases hh : contains setVar (unsetW ++ rtrim (' ' :: key)) with
      | false => rfl
      | true => rw [contains_mono hinf hh] at hs; simp at hs
    have hi' : contains includeW (unsetW ++ rtrim (' ' :: key)) = false := by
      cases hh : contains includeW (unsetW ++ rtrim (' ' :: key)) with
      | false => rfl
      | true => rw [contains_mono hinf hh] at hi; simp at hi
    have hu : contains unsetW (unsetW ++ rtrim (' ' :: key)) = true := by
      rw [contains_iff]
      exact (List.prefix_append _ _).isInfix
    have he' : '=' ∉ unsetW ++ rtrim (' ' :: key) := by
      rw [List.mem_append, not_or]
      refine ⟨by decide, fun hh => ?_⟩
      have := mem_rtrim hh
      simp only [List.mem_cons] at this
      rcases this with this | this
      · exact absurd this (by decide)
      · exact he this
    have hl' : (unsetW ++ rtrim (' ' :: key)).getLast? ≠ some '{' := by
      have hl := last_sep_rtrim ['u', 'n', 's', 'e'] (' ' :: key) 't'
      rw [htk] at hl
      have e : unsetW ++ rtrim (' ' :: key) = ['u', 'n', 's', 'e'] ++ 't' :: rtrim (' ' :: key) := rfl
      rw [e, hl]
      cases hc : (trim key).getLast? with
      | none => simp
      | some z => rw [hc] at hb; simpa using hb
    have hd : (unsetW ++ rtrim (' ' :: key)).drop 5 = rtrim (' ' :: key) := rfl
    rw [hsplit]
    generalize hL : unsetW ++ rtrim (' ' :: key) = L at hs' hi' hu he' hl' hd
    cases L with
    | nil => simp [unsetW] at hL
    | cons c L =>
      have hcs : c = 'u' := by
        have : unsetW = 'u' :: unsetW.tail := rfl
        rw [this] at hL
        simp only [List.cons_append, List.cons.injEq] at hL
        exact hL.1.symm
      subst hcs
      unfold classify
      simp only [hl', hs', hi', hu, he', if_true, if_false, hd, trim_rtrim, htk]
      simp

/-- **Refuted: any key can be unset.**  `unset include_x` asks for
another file to be read instead. -/
theorem C104_unset_refuted :
    classify (trim (unsetW ++ ' ' :: (includeW ++ ['_', 'x']))) = .incl := by decide +kernel

/-! ## Blocks and dotted keys -/

/-- The text `k = v` and a line break. -/
def assignLine (k v : Str) : Str := k ++ eqSign ++ v ++ ['\n']

/-- The text `n {`, a body, `}` and a line break. -/
def block (n body : Str) : Str := n ++ [' ', '{', '\n'] ++ body ++ ['}', '\n']

theorem classify_clean {k v : Str} (h : CleanPar k v) (pre : Str)
    (hp : pre = [] ∨ ∃ n, pre = n ++ ['.'] ∧ CleanName (n ++ '.' :: k) ∧ '=' ∉ n ∧
      contains setVar7 (n ++ '.' :: k) = false ∧ contains setVar v = false) :
    classify (trim ((pre ++ k) ++ eqSign ++ v)) = .assign (pre ++ k) v := by
  obtain ⟨⟨hk1, hk2, hk3⟩, hk4, hk5, hv1, hv2, hv3, hv4, hv5⟩ := h
  have key : ∀ q : Str, trim q = q → ¬ Starts q → '=' ∉ q → contains setVar (q ++ eqSign ++ v) = false →
      classify (trim (q ++ eqSign ++ v)) = .assign q v := by
    intro q q1 q2 q3 q4
    have hline : q ++ eqSign ++ v = (q ++ [' ']) ++ '=' :: (' ' :: v) := by simp [eqSign]
    have htk : trim (q ++ [' ']) = q := by
      rw [trim_append_blank (by simp [blank]), q1]
    have htv : trim (' ' :: v) = v := by
      have := trim_blank_append (a := [' ']) (b := v) (by simp [blank])
      simp only [List.singleton_append] at this
      rw [this, hv1]
    rw [hline] at q4 ⊢
    have := classify_assign (q ++ [' ']) (' ' :: v)
      (by simp only [List.mem_append, not_or]; exact ⟨q3, by decide⟩)
      (by rw [htk]; exact q2) (by rw [htv]; exact hv3) q4
    rw [this, htk, htv]
  rcases hp with rfl | ⟨n, rfl, ⟨c1, c2, c3⟩, c4, c5, c6⟩
  · simpa using key k hk1 hk3 hk4 hv5
  · have he : n ++ ['.'] ++ k = n ++ '.' :: k := by simp
    rw [he]
    refine key _ c1 c3 ?_ (no_setVar c5 c6)
    simp only [List.mem_append, List.mem_cons, not_or]
    exact ⟨c4, by decide, hk4⟩

/-- **A block is a dotted key.**  An assignment in a block named `n` and an assignment to
`n.k` give, in any scope, the same values: the one assigned, and all others as before. -/
theorem C104_block (fuel : Nat) (t : Tree) (n k v : Str) (hn : CleanName n) (hd : '.' ∉ n)
    (he : '=' ∉ n) (hk : CleanPar k v) (hnk : CleanName (n ++ '.' :: k))
    (hs : contains setVar7 (n ++ '.' :: k) = false) (hv : contains setVar v = false) :
    ∃ t1 t2, parseStream over fuel (block n (assignLine k v)) t = .ok t1 ∧
      parseStream over fuel (assignLine (n ++ '.' :: k) v) t = .ok t2 ∧
      (∀ p x, t1.lookup p x = if p = [n] ∧ x = k then some v else t.lookup p x) ∧
      (∀ p x, t2.lookup p x = if p = [n] ∧ x = k then some v else t.lookup p x) := by
  have hcn : classify (trim []) = .nothing := by decide
  have hcc : classify (trim ['}']) = .close := by decide
  have htn : trim (n ++ [' ']) = n := by
    rw [trim_append_blank (by simp [blank]), hn.1]
  have hco : classify (trim (n ++ [' ', '{'])) = .opn n := by
    have := classify_opn (n ++ [' ']) [] (by simp) (by rw [htn]; exact hn.2.2)
    rw [htn] at this
    simpa using this
  have hca := classify_clean hk [] (.inl rfl)
  simp only [List.nil_append] at hca
  have hcd := classify_clean hk (n ++ ['.']) (.inr ⟨n, rfl, hnk, he, hs, hv⟩)
  have hnd : n ++ ['.'] ++ k = n ++ '.' :: k := by simp
  rw [hnd] at hcd
  have hpar := hk
  obtain ⟨⟨hk1, hk2, hk3⟩, hk4, hk5, hv1, hv2, hv3, hv4, hv5⟩ := hk
  have hl1 : textLines (block n (assignLine k v))
      = [n ++ [' ', '{'], k ++ eqSign ++ v, ['}'], []] := by
    have : block n (assignLine k v)
        = (n ++ [' ', '{']) ++ '\n' :: ((k ++ eqSign ++ v) ++ '\n' :: (['}'] ++ '\n' :: [])) := by
      simp [block, assignLine]
    rw [this, textLines_line, textLines_line, textLines_line]
    · rfl
    · decide
    · simp only [List.mem_append, not_or]; exact ⟨⟨hk2, by decide⟩, hv2⟩
    · simp only [List.mem_append, not_or]; exact ⟨hn.2.1, by decide⟩
  have hl2 : textLines (assignLine (n ++ '.' :: k) v) = [(n ++ '.' :: k) ++ eqSign ++ v, []] := by
    have : assignLine (n ++ '.' :: k) v = ((n ++ '.' :: k) ++ eqSign ++ v) ++ '\n' :: [] := by
      simp [assignLine]
    rw [this, textLines_line]
    · rfl
    · have h0 := hnk.2.1
      intro hh
      rw [List.mem_append, List.mem_append] at hh
      rcases hh with (hh | hh) | hh
      · exact h0 hh
      · exact absurd hh (by decide)
      · exact hv2 hh
  have hnv : ∀ o : Option Str, newVal over o v = some (some v) := by
    intro o; cases o <;> rfl
  obtain ⟨u1, ha1, hp1⟩ := addAt_some over [] k v (t.sub n) _ (hnv _)
  obtain ⟨u2, ha2, hp2⟩ := addAt_some over [n] k v t _ (hnv _)
  refine ⟨t.setSub n u1, u2, ?_, ?_, ?_, ?_⟩
  · simp only [parseStream, hl1, run, hco, hca, hcc, hcn, exec, parseKeyval, resolve_nd _ _ _ hv4,
      splitDots_last hk5, ha1, closeAll]
  · simp only [parseStream, hl2, run, hcd, hcn, exec, parseKeyval, resolve_nd _ _ _ hv4,
      splitDots_cons hd, splitDots_last hk5, ha2, closeAll]
  · exact point_sub hp1
  · exact hp2

/-! ## The command line -/

/-- A parameter as it is stored: the key has no dot and the value is not a variable. -/
def PlainPar (k v : Str) : Prop := '.' ∉ k ∧ v.head? ≠ some '$'

/-- A scope as reading and adding parameters make it. -/
abbrev Tree.Plain (t : Tree) : Prop := t.All PlainPar fun _ => True

/-- The options `-p key=value` in turn (sstmac/main/parseopts.cc:198-203,
sprockit/sprockit/sim_parameters.cc:1035-1044). -/
def options (fuel : Nat) : List (Str × Str) → Tree → Except Err Tree
  | [], t => .ok t
  | (k, v) :: r, t =>
    match parseKeyval over fuel [] k v t with
    | .error e => .error e
    | .ok t' => options fuel r t'

/-- The value the last option for a place gives, if there is one. -/
def lastOption : List (Str × Str) → List Str → Str → Option Str
  | [], _, _ => none
  | (key, v) :: r, p, k =>
    match lastOption r p k with
    | some w => some w
    | none => if splitDots key = (p, k) then some v else none

theorem parse_plain (m : Mode) (fuel : Nat) (vars : List (Str × Str)) {k v : Str} {t t' : Tree}
    (ht : t.Plain) (h : parseKeyval m fuel vars k v t = .ok t') : t'.Plain := by
  unfold parseKeyval at h
  cases hr : resolve fuel vars v with
  | error e => rw [hr] at h; simp at h
  | ok w =>
    rw [hr] at h
    refine clean_addAt m _ (fun _ _ => trivial) ?_ ht h
    refine ⟨(dotted_mem (splitDots_dotted k)).2.2, ?_⟩
    have := resolve_means fuel vars v w hr
    clear hr h ht
    induction this with
    | plain hp => exact hp
    | var _ _ ih => exact ih

theorem options_spec (fuel : Nat) (opts : List (Str × Str)) : ∀ (t : Tree), t.Plain →
    (∀ e ∈ opts, e.2.head? ≠ some '$') →
    ∃ t', options fuel opts t = .ok t' ∧ t'.Plain ∧
      ∀ p k, t'.lookup p k = (lastOption opts p k).or (t.lookup p k) := by
  induction opts with
  | nil => intro t ht _; exact ⟨t, rfl, ht, fun p k => rfl⟩
  | cons e r ih =>
    intro t ht hd
    obtain ⟨key, v⟩ := e
    have hv := hd (key, v) (by simp)
    have hnv : ∀ o : Option Str, newVal over o v = some (some v) := by
      intro o; cases o <;> rfl
    obtain ⟨u, h1, h2⟩ := addAt_some over (splitDots key).1 (splitDots key).2 v t _ (hnv _)
    have hp : parseKeyval over fuel [] key v t = .ok u := by
      simp only [parseKeyval, resolve_nd _ _ _ hv, h1]
    obtain ⟨t', i1, i2, i3⟩ := ih u (parse_plain over fuel [] ht hp) (fun e he => hd e (by simp [he]))
    refine ⟨t', by simp only [options, hp, i1], i2, ?_⟩
    intro p k
    rw [i3 p k, h2 p k]
    simp only [lastOption]
    cases hl : lastOption r p k with
    | some w => rfl
    | none =>
      simp only [Option.none_or]
      by_cases hs : splitDots key = (p, k)
      · rw [if_pos hs, if_pos (by rw [hs]; exact ⟨rfl, rfl⟩)]; rfl
      · rw [if_neg hs, if_neg ?_]; · rfl
        rintro ⟨rfl, rfl⟩
        exact hs rfl

/-- Which of two values is kept: the new one when overriding, else the old one. -/
def pick (m : Mode) (new old : Option Str) : Option Str :=
  if m.over then new.or old else old.or new

theorem pick_none (m : Mode) (o : Option Str) : pick m none o = o := by
  unfold pick; split <;> simp

theorem combinePs_spec (m : Mode) (hf : m.fail = false) (fuel : Nat) (vars : List (Str × Str))
    (ps : List (Str × Str)) : ∀ (d : Tree), (∀ e ∈ ps, PlainPar e.1 e.2) → (ps.map (·.1)).Nodup →
    ∃ d', combinePs m fuel vars ps d = .ok d' ∧
      (∀ k, d'.lookup [] k = pick m (aget k ps) (d.lookup [] k)) ∧
      ∀ n p k, d'.lookup (n :: p) k = d.lookup (n :: p) k := by
  induction ps with
  | nil => intro d _ _; exact ⟨d, rfl, fun k => (pick_none m _).symm, fun n p k => rfl⟩
  | cons e r ih =>
    intro d hp hn
    obtain ⟨k0, v⟩ := e
    obtain ⟨hdot, hv⟩ := hp (k0, v) (by simp)
    simp only [List.map_cons, List.nodup_cons] at hn
    have hx : newVal m (d.lookup [] k0) v = some (pick m (some v) (d.lookup [] k0)) := by
      unfold newVal pick
      cases d.lookup [] k0 with
      | none => simp
      | some w =>
        simp only [hf, Bool.false_eq_true, if_false]
        split <;> rfl
    obtain ⟨u, h1, h2⟩ := addAt_some m [] k0 v d _ hx
    obtain ⟨d', i1, i2, i3⟩ := ih u (fun e he => hp e (by simp [he])) hn.2
    refine ⟨d', ?_, ?_, ?_⟩
    · simp only [combinePs, parseKeyval, resolve_nd _ _ _ hv, splitDots_last hdot, h1, i1]
    · intro k
      rw [i2 k, h2 [] k]
      by_cases hk : k = k0
      · subst hk
        rw [aget_new hn.1]
        simp [pick_none, aget]
      · simp [hk, aget, Ne.symm hk]
    · intro n p k
      rw [i3 n p k, h2 (n :: p) k]
      simp

mutual
theorem combine_spec (m : Mode) (hf : m.fail = false) (fuel : Nat) (vars : List (Str × Str)) :
    ∀ (t d : Tree), t.Plain →
    ∃ d', t.combineInto m fuel vars d = .ok d' ∧
      ∀ p k, d'.lookup p k = pick m (t.lookup p k) (d.lookup p k)
  | .node ps fs, d, h => by
    simp only [Tree.All] at h
    obtain ⟨d1, a1, a2, a3⟩ := combinePs_spec m hf fuel vars ps d h.1 h.2.1
    obtain ⟨d2, b1, b2⟩ := combineF_spec m hf fuel vars fs d1 h.2.2
    refine ⟨d2, by simp only [Tree.combineInto, a1, b1], ?_⟩
    intro p k
    rw [b2 p k]
    cases p with
    | nil => simp only [Tree.lookup, aget, pick_none]; rw [a2 k]
    | cons n p => rw [a3 n p k]; rfl
theorem combineF_spec (m : Mode) (hf : m.fail = false) (fuel : Nat) (vars : List (Str × Str)) :
    ∀ (fs : Forest) (d : Tree), fs.All PlainPar (fun _ => True) →
    ∃ d', fs.combineInto m fuel vars d = .ok d' ∧
      ∀ p k, d'.lookup p k = pick m ((Tree.node [] fs).lookup p k) (d.lookup p k)
  | .nil, d, _ => by
    refine ⟨d, rfl, ?_⟩
    intro p k
    have : (Tree.node [] .nil).lookup p k = none := lookup_empty p k
    rw [this, pick_none]
  | .cons n t r, d, h => by
    simp only [Forest.All] at h
    obtain ⟨t', a1, a2⟩ := combine_spec m hf fuel vars t (d.sub n) h.2.2.1
    obtain ⟨d', b1, b2⟩ := combineF_spec m hf fuel vars r (d.setSub n t') h.2.2.2
    refine ⟨d', by simp only [Forest.combineInto, a1, b1], ?_⟩
    intro p k
    rw [b2 p k]
    cases p with
    | nil => simp only [Tree.lookup, aget, pick_none, lookup_setSub_nil]
    | cons x p =>
      rw [lookup_setSub_cons]
      by_cases hx : x = n
      · subst hx
        have : (Tree.node [] r).lookup (x :: p) k = none := by
          simp only [Tree.lookup, get_new h.2.1]
        rw [this, pick_none, if_pos rfl, a2 p k, lookup_sub]
        simp only [Tree.lookup, Forest.get?, if_true]
      · rw [if_neg hx]
        simp only [Tree.lookup, Forest.get?, Ne.symm hx, if_false]
end

/-- **The command line wins.**  Options `-p key=value` whose values are not variables,
combined into the parameters of a file: the value at each place is the one of the last
option for that place, and if there is none the one of the file. -/
theorem C104_command_line (fuel : Nat) (opts : List (Str × Str)) (file : Tree)
    (h : ∀ e ∈ opts, e.2.head? ≠ some '$') :
    ∃ cmd final, options fuel opts .empty = .ok cmd ∧
      cmd.combineInto over fuel [] file = .ok final ∧
      ∀ p k, final.lookup p k = (lastOption opts p k).or (file.lookup p k) := by
  obtain ⟨cmd, h1, h2, h3⟩ := options_spec fuel opts .empty clean_empty h
  obtain ⟨final, h4, h5⟩ := combine_spec over rfl fuel [] cmd file h2
  refine ⟨cmd, final, h1, h4, ?_⟩
  intro p k
  rw [h5 p k, h3 p k, lookup_empty]
  simp [pick, over]

/-- **Defaults lose.**  Combining without overriding keeps every value that is there and
adds the others. -/
theorem C104_defaults (fuel : Nat) (vars : List (Str × Str)) (defaults params : Tree)
    (h : defaults.Plain) :
    ∃ final, defaults.combineInto keep fuel vars params = .ok final ∧
      ∀ p k, final.lookup p k = (params.lookup p k).or (defaults.lookup p k) := by
  obtain ⟨final, h4, h5⟩ := combine_spec keep rfl fuel vars defaults params h
  exact ⟨final, h4, fun p k => by rw [h5 p k]; simp [pick, keep]⟩

/-! ## Where it goes wrong

Texts are lists of characters; each is shown in the comment beside it. -/

/-- A result that passes a test. -/
theorem ok_of {e : Except Err Tree} (f : Tree → Bool)
    (h : (match e with | .ok t => f t | .error _ => false) = true) : ∃ t, e = .ok t ∧ f t = true := by
  cases e with
  | ok t => exact ⟨t, rfl, h⟩
  | error _ => simp at h

/-- **Refuted: every process gets the parameters of the file.**  The file `a. b = 1`: a
blank after a dot stays in the key that process 0 stores, but is trimmed when the other
processes read the text that process 0 sends. -/
theorem C104_parallel_refuted :
    ∃ (text : Str) (t t' : Tree), parseStream over 0 text .empty = .ok t ∧
      resend 0 t = .ok t' ∧ t.lookup [['a']] [' ', 'b'] = some ['1'] ∧
      t'.lookup [['a']] [' ', 'b'] = none := by
  obtain ⟨t, h1, h2⟩ := ok_of (e := parseStream over 0 ['a', '.', ' ', 'b', ' ', '=', ' ', '1', '\n'] .empty)
    (fun t => t.lookup [['a']] [' ', 'b'] == some ['1'] &&
      match resend 0 t with
      | .ok t' => t'.lookup [['a']] [' ', 'b'] == none
      | .error _ => false) (by decide +kernel)
  rw [Bool.and_eq_true, beq_iff_eq] at h2
  obtain ⟨t', h3, h4⟩ := ok_of (e := resend 0 t) _ h2.2
  exact ⟨_, t, t', h1, h3, h2.1, eq_of_beq h4⟩

/-- **Refuted: every process gets the parameters of the file.**  The file `x.#a.b = 1`: a
namespace that begins with `#`, made by a dotted key, is a comment in the text the other
processes read, and its closing brace closes the outermost scope. -/
theorem C104_comment_refuted :
    ∃ (text : Str) (t : Tree), parseStream over 0 text .empty = .ok t ∧
      t.lookup [['x'], ['#', 'a']] ['b'] = some ['1'] ∧ resend 0 t = .error .ub := by
  obtain ⟨t, h1, h2⟩ := ok_of (e := parseStream over 0 ['x', '.', '#', 'a', '.', 'b', ' ', '=', ' ', '1', '\n'] .empty)
    (fun t => t.lookup [['x'], ['#', 'a']] ['b'] == some ['1'] &&
      match resend 0 t with
      | .ok _ => false
      | .error e => e == .ub) (by decide +kernel)
  rw [Bool.and_eq_true, beq_iff_eq] at h2
  refine ⟨_, t, h1, h2.1, ?_⟩
  have h3 := h2.2
  cases hr : resend 0 t with
  | ok _ => rw [hr] at h3; simp at h3
  | error e => rw [hr] at h3; rw [eq_of_beq h3]

/-- **Refuted: every process gets the parameters of the file.**  The file
`set var v = set var w`, `x = $v`: a variable whose value has the words of a variable
definition in it is a value on process 0 and a definition on the others. -/
theorem C104_variable_refuted :
    ∃ (text : Str) (t t' : Tree), parseStream over 1 text .empty = .ok t ∧
      resend 1 t = .ok t' ∧ t.lookup [] ['x'] = some ['s', 'e', 't', ' ', 'v', 'a', 'r', ' ', 'w'] ∧
      t'.lookup [] ['x'] = none := by
  obtain ⟨t, h1, h2⟩ := ok_of (e := parseStream over 1 ['s', 'e', 't', ' ', 'v', 'a', 'r', ' ', 'v', ' ', '=', ' ', 's', 'e', 't', ' ', 'v', 'a', 'r', ' ', 'w', '\n', 'x', ' ', '=', ' ', '$', 'v', '\n'] .empty)
    (fun t => t.lookup [] ['x'] == some ['s', 'e', 't', ' ', 'v', 'a', 'r', ' ', 'w'] &&
      match resend 1 t with
      | .ok t' => t'.lookup [] ['x'] == none
      | .error _ => false) (by decide +kernel)
  rw [Bool.and_eq_true, beq_iff_eq] at h2
  obtain ⟨t', h3, h4⟩ := ok_of (e := resend 1 t) _ h2.2
  exact ⟨_, t, t', h1, h3, h2.1, eq_of_beq h4⟩

/-- **Refuted: parameters sent with a launch request arrive.**  The option `argv={`: a
value from the command line that ends in an opening brace is not a value where it
arrives. -/
theorem C104_brace_refuted :
    ∃ (cmd t' : Tree), options 0 [(['a', 'r', 'g', 'v'], ['{'])] .empty = .ok cmd ∧
      cmd.lookup [] ['a', 'r', 'g', 'v'] = some ['{'] ∧ resend 0 cmd = .ok t' ∧
      t'.lookup [] ['a', 'r', 'g', 'v'] = none := by
  obtain ⟨t, h1, h2⟩ := ok_of (e := options 0 [(['a', 'r', 'g', 'v'], ['{'])] .empty)
    (fun t => t.lookup [] ['a', 'r', 'g', 'v'] == some ['{'] &&
      match resend 0 t with
      | .ok t' => t'.lookup [] ['a', 'r', 'g', 'v'] == none
      | .error _ => false) (by decide +kernel)
  rw [Bool.and_eq_true, beq_iff_eq] at h2
  obtain ⟨t', h3, h4⟩ := ok_of (e := resend 0 t) _ h2.2
  exact ⟨t, t', h1, h2.1, h3, eq_of_beq h4⟩

/-- **Refuted: a block with a dotted name is a dotted key.**  A block named `a.b` that
assigns `c` is one namespace whose name has a dot in it, and `a.b.c` is not assigned. -/
theorem C104_dotted_block_refuted :
    ∃ (t1 t2 : Tree),
      parseStream over 0 (block ['a', '.', 'b'] (assignLine ['c'] ['1'])) .empty = .ok t1 ∧
      parseStream over 0 (assignLine ['a', '.', 'b', '.', 'c'] ['1']) .empty = .ok t2 ∧
      t2.lookup [['a'], ['b']] ['c'] = some ['1'] ∧
      t1.lookup [['a'], ['b']] ['c'] = none := by
  obtain ⟨t1, h1, h2⟩ := ok_of
    (e := parseStream over 0 (block ['a', '.', 'b'] (assignLine ['c'] ['1'])) .empty)
    (fun t => t.lookup [['a'], ['b']] ['c'] == none) (by decide +kernel)
  obtain ⟨t2, h3, h4⟩ := ok_of
    (e := parseStream over 0 (assignLine ['a', '.', 'b', '.', 'c'] ['1']) .empty)
    (fun t => t.lookup [['a'], ['b']] ['c'] == some ['1']) (by decide +kernel)
  exact ⟨t1, t2, h1, h3, eq_of_beq h4, eq_of_beq h2⟩

/-- **Refuted: indentation does not matter.**  A tab before a key becomes part of the
key. -/
theorem C104_tab_refuted :
    ∃ (t1 t2 : Tree), parseStream over 0 (block ['a'] [' ', ' ', 'b', ' ', '=', ' ', '1', '\n']) .empty = .ok t1 ∧
      parseStream over 0 (block ['a'] ['\t', 'b', ' ', '=', ' ', '1', '\n']) .empty = .ok t2 ∧
      t1.lookup [['a']] ['b'] = some ['1'] ∧ t2.lookup [['a']] ['b'] = none := by
  obtain ⟨t1, h1, h2⟩ := ok_of (e := parseStream over 0 (block ['a'] [' ', ' ', 'b', ' ', '=', ' ', '1', '\n']) .empty)
    (fun t => t.lookup [['a']] ['b'] == some ['1']) (by decide +kernel)
  obtain ⟨t2, h3, h4⟩ := ok_of (e := parseStream over 0 (block ['a'] ['\t', 'b', ' ', '=', ' ', '1', '\n']) .empty)
    (fun t => t.lookup [['a']] ['b'] == none) (by decide +kernel)
  exact ⟨t1, t2, h1, h3, eq_of_beq h2, eq_of_beq h4⟩

/-- **Refuted: reading a file ends.**  The file `set var v = $v`, `x = $v`: a variable
defined by itself makes the reader recurse deeper than any stack. -/
theorem C104_cycle_refuted (fuel : Nat) :
    parseStream over fuel ['s', 'e', 't', ' ', 'v', 'a', 'r', ' ', 'v', ' ', '=', ' ', '$', 'v', '\n', 'x', ' ', '=', ' ', '$', 'v', '\n'] .empty = .error .deep := by
  have hr : ∀ f : Nat, resolve f [(['v'], ['$', 'v'])] ['$', 'v'] = .error .deep := by
    intro f
    induction f with
    | zero => rfl
    | succ f ih =>
      unfold resolve
      simp only [aget, if_true]
      exact ih
  have h1 : classify (trim ['s', 'e', 't', ' ', 'v', 'a', 'r', ' ', 'v', ' ', '=', ' ', '$', 'v']) = .var ['v'] ['$', 'v'] := by decide +kernel
  have h2 : classify (trim ['x', ' ', '=', ' ', '$', 'v']) = .assign ['x'] ['$', 'v'] := by decide +kernel
  have hl : textLines ['s', 'e', 't', ' ', 'v', 'a', 'r', ' ', 'v', ' ', '=', ' ', '$', 'v', '\n', 'x', ' ', '=', ' ', '$', 'v', '\n'] = [['s', 'e', 't', ' ', 'v', 'a', 'r', ' ', 'v', ' ', '=', ' ', '$', 'v'], ['x', ' ', '=', ' ', '$', 'v'], []] := by
    decide +kernel
  simp only [parseStream, hl, run, h1, exec, aset, h2, parseKeyval, hr fuel]

/-- **Refuted: a misformed file is reported.**  In the file `a = 1`, `}`, `b = 2` there
is a closing brace too many, and the behaviour is undefined. -/
theorem C104_brace_count_refuted :
    ∀ fuel : Nat, parseStream over fuel ['a', ' ', '=', ' ', '1', '\n', '}', '\n', 'b', ' ', '=', ' ', '2', '\n'] .empty = .error .ub := by
  intro fuel
  have h1 : classify (trim ['a', ' ', '=', ' ', '1']) = .assign ['a'] ['1'] := by decide +kernel
  have h2 : classify (trim ['}']) = .close := by decide +kernel
  have hl : textLines ['a', ' ', '=', ' ', '1', '\n', '}', '\n', 'b', ' ', '=', ' ', '2', '\n'] = [['a', ' ', '=', ' ', '1'], ['}'], ['b', ' ', '=', ' ', '2'], []] := by
    decide +kernel
  simp only [parseStream, hl, run, h1, h2, exec, parseKeyval, resolve_nd fuel [] ['1'] (by decide),
    splitDots_last (k := ['a']) (by decide), addAt, put, aget, aset, Tree.empty]

/-- **Refuted: an option without a value is reported.**  It gives the parameter its own
name as value. -/
theorem C104_option_refuted (k : Str) (h : '=' ∉ k) : splitLine k = (trim k, trim k) := by
  unfold splitLine; rw [if_neg h]

/-! ## Non-vacuity -/

/-- A file with a variable, a comment, a block in a block, a dotted key that overrides,
and an `unset`: `set var lat = 1us`, `# c`, `top {`, `  name = torus`, `  link {`,
`    latency = $lat`, `  }`, `}`, `top.name = mesh`, `z = 4`, `unset z`. -/
def demo : Str := ['s', 'e', 't', ' ', 'v', 'a', 'r', ' ', 'l', 'a', 't', ' ', '=', ' ', '1', 'u', 's', '\n', '#', ' ', 'c', '\n', 't', 'o', 'p', ' ', '{', '\n', ' ', ' ', 'n', 'a', 'm', 'e', ' ', '=', ' ', 't', 'o', 'r', 'u', 's', '\n', ' ', ' ', 'l', 'i', 'n', 'k', ' ', '{', '\n', ' ', ' ', ' ', ' ', 'l', 'a', 't', 'e', 'n', 'c', 'y', ' ', '=', ' ', '$', 'l', 'a', 't', '\n', ' ', ' ', '}', '\n', '}', '\n', 't', 'o', 'p', '.', 'n', 'a', 'm', 'e', ' ', '=', ' ', 'm', 'e', 's', 'h', '\n', 'z', ' ', '=', ' ', '4', '\n', 'u', 'n', 's', 'e', 't', ' ', 'z', '\n']

example : ∃ t, parseStream over 3 demo .empty = .ok t ∧
    (t.lookup [['t', 'o', 'p']] ['n', 'a', 'm', 'e'] == some ['m', 'e', 's', 'h'] &&
    t.lookup [['t', 'o', 'p'], ['l', 'i', 'n', 'k']] ['l', 'a', 't', 'e', 'n', 'c', 'y'] == some ['1', 'u', 's'] &&
    t.lookup [] ['z'] == none &&
    match resend 0 t with
    | .ok t' => t'.lookup [['t', 'o', 'p'], ['l', 'i', 'n', 'k']] ['l', 'a', 't', 'e', 'n', 'c', 'y'] == some ['1', 'u', 's']
    | .error _ => false) = true :=
  ok_of _ (by decide +kernel)

/-- The hypotheses of the block theorem hold for `top`, `name`, `mesh`. -/
example := C104_block 0 .empty ['t', 'o', 'p'] ['n', 'a', 'm', 'e'] ['m', 'e', 's', 'h'] (by unfold CleanName Starts; decide +kernel)
    (by decide) (by decide) (by unfold CleanPar CleanName Starts; decide +kernel)
    (by unfold CleanName Starts; decide +kernel) (by decide +kernel) (by decide +kernel)

/-- A test for tame lines. -/
def tame : Dir → Bool
  | .assign key _ => (splitDots key).1.all (fun n => trim n == n && n.head? != some '#' && n.head? != some '}') &&
      trim (splitDots key).2 == (splitDots key).2 && (splitDots key).2.head? != some '#' &&
      (splitDots key).2.head? != some '}' && !contains setVar7 (splitDots key).2
  | .var _ v => !contains setVar v
  | .unset key => (splitDots key).1.all (fun n => trim n == n && n.head? != some '#' && n.head? != some '}')
  | _ => true

theorem tame_iff (d : Dir) (h : tame d = true) : Tame d := by
  cases d with
  | assign key v =>
    intro ns k hd
    simp only [tame, dotted_eq hd, Bool.and_eq_true, List.all_eq_true, beq_iff_eq, bne_iff_ne,
      Bool.not_eq_true'] at h
    exact ⟨fun n hn => ⟨(h.1.1.1.1 n hn).1.1, fun hs => hs.elim (h.1.1.1.1 n hn).1.2 (h.1.1.1.1 n hn).2⟩,
      h.1.1.1.2, fun hs => hs.elim h.1.1.2 h.1.2, h.2⟩
  | var n v => simpa [tame, Tame] using h
  | unset key =>
    intro ns k hd
    simp only [tame, dotted_eq hd, Bool.and_eq_true, List.all_eq_true, beq_iff_eq, bne_iff_ne] at h
    exact fun n hn => ⟨(h n hn).1.1, fun hs => hs.elim (h n hn).1.2 (h n hn).2⟩
  | _ => trivial

/-- The other processes get the parameters of the file above. -/
example : ∃ t, parseStream over 3 demo .empty = .ok t ∧ ∀ fuel, resend fuel t = .ok t := by
  obtain ⟨t, h, _⟩ := ok_of (e := parseStream over 3 demo .empty) (fun _ => true) (by decide +kernel)
  refine ⟨t, h, fun fuel => C104_parallel_partial 3 fuel demo t h ?_⟩
  have : (directives demo).all tame = true := by decide +kernel
  intro d hd
  exact tame_iff d (List.all_eq_true.mp this d hd)

/-- Options override the file, the last one first. -/
example : ∃ cmd final, options 0 [(['t', 'o', 'p', '.', 'n', 'a', 'm', 'e'], ['a']), (['t', 'o', 'p', '.', 'n', 'a', 'm', 'e'], ['b'])] .empty = .ok cmd ∧
    cmd.combineInto over 0 [] (.node [(['z'], ['1'])] .nil) = .ok final ∧
    final.lookup [['t', 'o', 'p']] ['n', 'a', 'm', 'e'] = some ['b'] ∧ final.lookup [] ['z'] = some ['1'] := by
  obtain ⟨cmd, final, h1, h2, h3⟩ := C104_command_line 0
    [(['t', 'o', 'p', '.', 'n', 'a', 'm', 'e'], ['a']), (['t', 'o', 'p', '.', 'n', 'a', 'm', 'e'], ['b'])] (.node [(['z'], ['1'])] .nil) (by decide)
  refine ⟨cmd, final, h1, h2, ?_, ?_⟩
  · rw [h3]; decide +kernel
  · rw [h3]; decide +kernel

/-! ## Lists -/

/-- `[a,b,c]`: items separated by commas, in brackets. -/
def listOf : List Str → Str
  | [] => ['[', ']']
  | x :: r => '[' :: (x ++ r.flatMap fun y => ',' :: y) ++ [']']

theorem idxOf_notMem {c : Char} {a b : Str} (h : c ∉ a) : (a ++ c :: b).idxOf c = a.length := by
  induction a with
  | nil => simp
  | cons d a ih =>
    simp only [List.mem_cons, not_or] at h
    have hd : d ≠ c := Ne.symm h.1
    rw [List.cons_append, List.idxOf_cons, ih h.2]
    simp [beq_eq_false_iff_ne.mpr hd]

theorem tokens_item (x : Str) : ∀ (acc s : Str), ',' ∉ x → tokens acc (x ++ s) = tokens (acc ++ x) s := by
  induction x with
  | nil => intro acc s _; simp
  | cons c x ih =>
    intro acc s h
    simp only [List.mem_cons, not_or] at h
    simp only [List.cons_append, tokens, Ne.symm h.1, if_false]
    rw [ih _ _ h.2]
    simp

theorem tokens_rest (r : List Str) : ∀ (x : Str), x ≠ [] → (∀ y ∈ r, y ≠ [] ∧ ',' ∉ y) →
    tokens x (r.flatMap fun y => ',' :: y) = x :: r := by
  induction r with
  | nil => intro x hx _; simp [tokens, hx]
  | cons y r ih =>
    intro x hx h
    obtain ⟨h1, h2⟩ := h y (by simp)
    simp only [List.flatMap_cons, List.cons_append, tokens, if_true, hx, if_false]
    rw [tokens_item y [] _ h2, List.nil_append, ih y h1 fun z hz => h z (by simp [hz])]

/-- **A list parameter has the items written between the brackets**, in order, for any
number of items that are not empty and contain neither commas nor brackets, whatever
follows the closing bracket. -/
theorem C105_items_partial (items : List Str) (tail : Str)
    (h : ∀ x ∈ items, x ≠ [] ∧ ',' ∉ x ∧ '[' ∉ x ∧ ']' ∉ x) :
    listParam (listOf items ++ tail) = .ok items := by
  have key : ∀ body : Str, ']' ∉ body → listText ('[' :: body ++ [']'] ++ tail) = .ok body := by
    intro body hb
    unfold listText
    rw [if_pos (by simp)]
    have h1 : ('[' :: body ++ [']'] ++ tail).idxOf '[' = 0 := by simp
    have h2 : ('[' :: body ++ [']'] ++ tail).idxOf ']' = body.length + 1 := by
      have := idxOf_notMem (c := ']') (a := '[' :: body) (b := tail)
        (by simp only [List.mem_cons, not_or]; exact ⟨by decide, hb⟩)
      simpa using this
    rw [h1, h2, if_neg (by omega)]
    simp
  unfold listParam
  cases items with
  | nil =>
    have := key [] (by simp)
    simp only [List.append_nil, listOf] at this ⊢
    rw [show ['[', ']'] ++ tail = '[' :: [] ++ [']'] ++ tail from rfl, this]
    simp [tokens]
  | cons x r =>
    obtain ⟨x1, x2, x3, x4⟩ := h x (by simp)
    have hb : ']' ∉ x ++ r.flatMap fun y => ',' :: y := by
      simp only [List.mem_append, List.mem_flatMap, not_or, not_exists, not_and]
      refine ⟨x4, ?_⟩
      intro y hy
      simp only [List.mem_cons, not_or]
      exact ⟨by decide, (h y (by simp [hy])).2.2.2⟩
    have := key _ hb
    simp only [listOf] at this ⊢
    rw [this]
    simp only
    rw [tokens_item x [] _ x2, List.nil_append,
      tokens_rest r x x1 fun y hy => ⟨(h y (by simp [hy])).1, (h y (by simp [hy])).2.1⟩]

/-- **Refuted: text before the opening bracket does not matter.**  The length of the text
taken is the position of the closing bracket, so with one character before the opening
bracket the closing bracket becomes part of the last item, for every list. -/
theorem C105_prefix_refuted (c : Char) (hc : c ≠ '[' ∧ c ≠ ']') (x : Str) (hx : x ≠ [])
    (h : ',' ∉ x ∧ '[' ∉ x ∧ ']' ∉ x) :
    listParam (c :: listOf [x]) = .ok [x ++ [']']] ∧ x ++ [']'] ≠ x := by
  refine ⟨?_, by simp⟩
  have hl : c :: listOf [x] = (c :: '[' :: x) ++ ']' :: [] := by simp [listOf]
  have h1 : (c :: listOf [x]).idxOf '[' = 1 := by
    rw [List.idxOf_cons]; simp [listOf, beq_eq_false_iff_ne.mpr hc.1]
  have h2 : (c :: listOf [x]).idxOf ']' = x.length + 2 := by
    rw [hl, idxOf_notMem]
    · simp
    · simp only [List.mem_cons, not_or]
      exact ⟨Ne.symm hc.2, by decide, h.2.2⟩
  have h3 : listText (c :: listOf [x]) = .ok (x ++ [']']) := by
    unfold listText
    rw [if_pos (by simp [listOf]), h1, h2, if_neg (by omega)]
    simp only [listOf, List.flatMap_nil, List.append_nil]
    have : (x ++ [']']).take (x.length + 1) = x ++ [']'] := List.take_of_length_le (by simp)
    simpa using this
  unfold listParam
  rw [h3]
  simp only
  rw [tokens_item x [] _ h.1, List.nil_append]
  simp [tokens]

/-- **Refuted: a value that is not a list is reported.**  With a closing bracket as its
first character any text after the first opening bracket is taken as items. -/
theorem C105_order_refuted (a x : Str) (ha : '[' ∉ a) (hx : x ≠ []) (hc : ',' ∉ x) :
    listParam (']' :: a ++ '[' :: x) = .ok [x] := by
  have h1 : (']' :: a ++ '[' :: x).idxOf '[' = a.length + 1 := by
    have := idxOf_notMem (c := '[') (a := ']' :: a) (b := x)
      (by simp only [List.mem_cons, not_or]; exact ⟨by decide, ha⟩)
    simpa using this
  have h2 : (']' :: a ++ '[' :: x).idxOf ']' = 0 := by simp
  have h3 : listText (']' :: a ++ '[' :: x) = .ok x := by
    unfold listText
    rw [if_pos (by simp), h1, h2, if_pos rfl]
    simp
  unfold listParam
  rw [h3]
  simp only
  have := tokens_item x [] [] hc
  simp only [List.append_nil, List.nil_append] at this
  rw [this]
  simp [tokens, hx]

/-- A list with three items. -/
example : listParam (listOf [['4'], ['2'], ['8']] ++ []) = .ok [['4'], ['2'], ['8']] :=
  C105_items_partial _ [] (by decide)

example : listParam ['x', '[', '4', ']'] = .ok [['4', ']']] := by rfl

end Params
