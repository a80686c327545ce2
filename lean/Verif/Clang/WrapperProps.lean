import Verif.Clang.Wrapper
/-
C148: the compiler wrapper passes on what it is given, compiles every source to an object of its
own, links all objects, stops at the first failure and cleans up.
-/
set_option autoImplicit false
namespace SST.Clang.Wrapper

/-! ### Specification -/

/-- The user's options that concern the compilation of a source file. -/
def wanted (a : Args) : List Tok :=
  a.D.map .define ++ a.I.map .incDir ++ a.W.map .warn ++ a.O.toList.map .opt ++ (if a.g then [.debug] else [])

/-- The words of a command. -/
def Cmd.words : Cmd → List Tok
  | .run _ _ w _ => w
  | .word x => [x]

/-- A command that produces a file from another one: by an option or by its output. -/
def Makes (cmd : Cmd) (src dst : Path) : Prop :=
  ∃ pipe prog w t, cmd = .run pipe prog w t ∧ .file src ∈ w ∧ (pipe = some dst ∨ .out dst ∈ w)

/-! ### Words -/

theorem dropWhile_none {p : Char → Bool} : ∀ {s : Str}, (∀ c ∈ s, p c = false) → s.dropWhile p = s := by
  intro s h
  cases s with
  | nil => rfl
  | cons c s => rw [List.dropWhile_cons, h c (by simp)]; rfl

theorem strip_none {p : Char → Bool} {s : Str} (h : ∀ c ∈ s, p c = false) : strip p s = s := by
  unfold strip
  rw [dropWhile_none h, dropWhile_none (by intro c hc; exact h c (List.mem_reverse.mp hc)), List.reverse_reverse]

/-- C148, words (partial: without blanks and quotes): a word that the wrapper does not know reaches the
compiler unchanged. -/
theorem C148_words_partial (s : Str) (h : ∀ c ∈ s, isSpace c = false ∧ c ≠ '\'' ∧ c ≠ '"') :
    clean s = s ∧ ∀ a : Args, s ∈ a.extra → kind s = .other → .flag s ∈ others a := by
  refine (fun hs => ⟨hs, fun a ha hk => List.mem_filterMap.mpr ⟨s, List.mem_map.mpr ⟨s, ha, hs⟩, by rw [hk]⟩⟩) ?_
  unfold clean
  rw [strip_none (fun c hc => (h c hc).1), strip_none (fun c hc => by simpa using (h c hc).2.1)]
  induction s with
  | nil => rfl
  | cons c s ih =>
    have hc := h c (by simp)
    have hs : c ≠ ' ' := by intro e; subst e; exact absurd hc.1 (by decide)
    rw [List.flatMap_cons, if_neg hc.2.2, if_neg hs, ih (fun c hc => h c (List.mem_cons_of_mem _ hc))]
    rfl

/-- A usual word meets the hypothesis, and is a source file. -/
example : (∀ c ∈ ['d', '/', 'a', '.', 'c', 'c'], isSpace c = false ∧ c ≠ '\'' ∧ c ≠ '"') ∧ sources { extra := [['d', '/', 'a', '.', 'c', 'c']] } = [⟨['d'], ['a', '.', 'c', 'c']⟩]
    ∧ kind ['-', 's', 't', 'd', '=', 'c'] = .other := ⟨by decide, by decide, by decide⟩

/-- C148 refuted for words with a blank: the file `a b.cc` is compiled as `a\ b.cc`, a name that does not
exist, since no shell removes the backslash. -/
theorem C148_words_refuted : sources { extra := [['a', ' ', 'b', '.', 'c', 'c']] } = [⟨[], ['a', '\\', ' ', 'b', '.', 'c', 'c']⟩] := by decide

/-! ### The options of the user -/

/-- C148, options (partial: default mode with the source-to-source tool and without passes, all options
but `-W`).  For every source file there is a chain of commands from the file to its object;
definitions and folders reach the command that preprocesses it, `-O` and `-g` the one that
compiles what the tool makes of it, all other words both. -/
theorem C148_options_partial (c : Conf) (a : Args) (l : List Cmd) (h : plan c a = .cmds l)
    (hc : c.clang = true) (hm : mode a = some .skeletonize) (he : a.preprocess = false) (hp : a.skeletonize.getD [] = [])
    (s : Path) (hs : s ∈ sources a) :
    ∃ pp repl tmp c1 c2 c3 c4, c1 ∈ l ∧ c2 ∈ l ∧ c3 ∈ l ∧ c4 ∈ l
      ∧ Makes c1 s pp ∧ (∃ t, c2 = .run none .clangTool [.file pp] t ∧ repl ∈ t) ∧ Makes c3 repl tmp ∧ Makes c4 tmp (target a s)
      ∧ (∀ d ∈ a.D, .define d ∈ c1.words) ∧ (∀ i ∈ a.I, .incDir i ∈ c1.words)
      ∧ (∀ o, a.O = some o → .opt o ∈ c3.words) ∧ (a.g = true → .debug ∈ c3.words)
      ∧ ∀ x ∈ others a, x ∈ c1.words ∧ x ∈ c3.words := by
  have hl : ∀ x ∈ addSrc2Src c a s (target a s), x ∈ l := by
    intro x hx
    unfold plan at h
    split at h
    · cases h
    · rw [hm] at h
      simp only at h
      split at h
      · cases h
      · rw [he] at h
        simp only [Bool.false_eq_true, if_false] at h
        cases h
        refine List.mem_append_left _ (List.mem_flatMap.mpr ⟨s, hs, ?_⟩)
        rw [hc]
        exact hx
  have h3 : compileTransformed c a (rebase sstPrefix s (target a s).dir) (addPrefix tmpPrefix (target a s))
      = [.run none .cxx (compilerFlags c a ++ [.out (addPrefix tmpPrefix (target a s)), .comp, .file (rebase sstPrefix s (target a s).dir)] ++ optTok a ++ dbgTok a) [addPrefix tmpPrefix (target a s)]] := by
    unfold compileTransformed
    rw [hp]
    rfl
  refine ⟨rebase ppPrefix s (target a s).dir, rebase sstPrefix s (target a s).dir, addPrefix tmpPrefix (target a s),
    .run (some (rebase ppPrefix s (target a s).dir)) .cxx ((forced c .skeletonize).map .force ++ c.defines.map .define ++ a.D.map .define ++ (incs c a .skeletonize).map .incDir
      ++ c.cpp.map .flag ++ compilerFlags c a ++ [.pre, .file s] ++ optTok a) [],
    .run none .clangTool [.file (rebase ppPrefix s (target a s).dir)] [rebase ppPrefix s (target a s).dir, rebase sstPrefix s (target a s).dir, { rebase globPrefix s (target a s).dir with base := globPrefix ++ s.base ++ ['.', 'c', 'p', 'p'] }],
    .run none .cxx (compilerFlags c a ++ [.out (addPrefix tmpPrefix (target a s)), .comp, .file (rebase sstPrefix s (target a s).dir)] ++ optTok a ++ dbgTok a) [addPrefix tmpPrefix (target a s)],
    .run none .merge [.file (addPrefix tmpPrefix (target a s)), .file (addPrefix globObj (target a s)), .out (target a s)] [],
    hl _ ?_, hl _ ?_, hl _ ?_, hl _ ?_, ?_, ?_, ?_, ?_, ?_, ?_, ?_, ?_, ?_⟩
  · simp [addSrc2Src, addPreprocess]
  · simp [addSrc2Src, addPreprocess]
  · simp [addSrc2Src, h3]
  · simp [addSrc2Src]
  · exact ⟨_, _, _, _, rfl, by simp, Or.inl rfl⟩
  · exact ⟨_, rfl, by simp⟩
  · exact ⟨_, _, _, _, rfl, by simp, Or.inr (by simp)⟩
  · exact ⟨_, _, _, _, rfl, by simp, Or.inr (by simp)⟩
  · intro d hd; simp [Cmd.words, hd]
  · intro i hi; simp [Cmd.words, incs, hi]
  · intro o ho; simp [Cmd.words, optTok, ho]
  · intro hg; simp [Cmd.words, dbgTok, hg]
  · intro x hx; simp [Cmd.words, compilerFlags, hx]

/-- An installation. -/
def conf : Conf := { clang := true, cpp := [], cxx := [['-', 'f', 'P', 'I', 'C']], link := [['-', 's', 'h', 'a', 'r', 'e', 'd']], repl := [['r']], sumi := ['m'], forced := [['h']], defines := [['E']] }

/-- A call: `sst++ -DX -Iinc -O2 -g -Wall -lm a.cc b.o`. -/
def call : Args := { D := [['X']], I := [['i', 'n', 'c']], O := some ['2'], g := true, W := [['a', 'l', 'l']], l := [['m']], extra := [['a', '.', 'c', 'c'], ['b', '.', 'o']] }

/-- The hypotheses are met. -/
example : (∃ l, plan conf call = .cmds l) ∧ conf.clang = true ∧ mode call = some .skeletonize ∧ call.preprocess = false
    ∧ call.skeletonize.getD [] = [] ∧ sources call = [⟨[], ['a', '.', 'c', 'c']⟩] ∧ call.D = [['X']] :=
  ⟨⟨_, rfl⟩, rfl, by decide, rfl, rfl, by decide, rfl⟩

theorem others_plain (a : Args) : ∀ x ∈ others a, x = .debug ∨ ∃ s, x = .flag s := by
  intro x hx
  obtain ⟨s, _, h⟩ := List.mem_filterMap.mp hx
  split at h
  · cases h; exact Or.inl rfl
  · cases h; exact Or.inr ⟨_, rfl⟩
  · cases h

theorem flags_plain (c : Conf) (a : Args) : ∀ x ∈ compilerFlags c a, x = .debug ∨ ∃ s, x = .flag s := by
  intro x hx
  rcases List.mem_append.mp hx with hx | hx
  · exact others_plain a x hx
  · obtain ⟨s, _, rfl⟩ := List.mem_map.mp hx; exact Or.inr ⟨s, rfl⟩

theorem plan_cmds {c : Conf} {a : Args} {l : List Cmd} (h : plan c a = .cmds l) : ∃ m, mode a = some m ∧
    l = if a.preprocess then (sources a).flatMap (fun s => addPreprocess c a m s none)
      else (sources a).flatMap (fun s => if c.clang && m = .skeletonize then addSrc2Src c a s (target a s) else addPlain c a m s (target a s))
        ++ (if a.compile then [] else addLink c a ((sources a).map (target a) ++ objects a)) := by
  unfold plan at h
  split at h
  · cases h
  · cases hm : mode a with
    | none => rw [hm] at h; cases h
    | some m =>
      rw [hm] at h
      simp only at h
      split at h
      · cases h
      · refine ⟨m, rfl, ?_⟩
        split at h
        · next hp => cases h; rw [if_pos hp]
        · next hp => cases h; rw [if_neg hp]

/-- C148 refuted for other modes: when a component or a memoizing program is compiled, no command
has any of the user's definitions (unless the wrapper defines the same) or the optimisation, and `-g`
is lost. -/
theorem C148_options_refuted (c : Conf) (a : Args) (l : List Cmd) (h : plan c a = .cmds l)
    (hm : mode a = some .component ∨ mode a = some .memoize) (he : a.preprocess = false) :
    ∀ cmd ∈ l, (∀ d, d ∉ c.defines → .define d ∉ cmd.words) ∧ (∀ o, .opt o ∉ cmd.words) ∧ (.debug ∉ others a → .debug ∉ cmd.words) := by
  obtain ⟨m, hm', rfl⟩ := plan_cmds h
  have hns : m ≠ .skeletonize := by rcases hm with h | h <;> (rw [h] at hm'; cases hm'; decide)
  have hf := flags_plain c a
  have hd : .debug ∉ others a → .debug ∉ compilerFlags c a := by
    intro h1 h2
    rcases List.mem_append.mp h2 with h2 | h2
    · exact h1 h2
    · obtain ⟨s, _, h3⟩ := List.mem_map.mp h2; cases h3
  have hf1 : ∀ d, .define d ∉ compilerFlags c a := fun d hx => by rcases hf _ hx with h | ⟨s, h⟩ <;> cases h
  have hf2 : ∀ d, .opt d ∉ compilerFlags c a := fun d hx => by rcases hf _ hx with h | ⟨s, h⟩ <;> cases h
  intro cmd hcmd
  rw [he] at hcmd
  simp only [Bool.false_eq_true, if_false] at hcmd
  rcases List.mem_append.mp hcmd with hx | hx
  · obtain ⟨s, _, hx⟩ := List.mem_flatMap.mp hx
    rw [if_neg (by simp [hns])] at hx
    simp only [addPlain, List.mem_singleton] at hx
    subst hx
    simp only [Cmd.words, forced, if_neg hns]
    refine ⟨fun d hd' => ?_, fun o => ?_, fun hd' => ?_⟩
    · simp [hf1, hd']
    · simp [hf2]
    · simp [hd hd']
  · split at hx
    · cases hx
    · simp only [addLink, List.mem_singleton] at hx
      subst hx
      simp only [Cmd.words]
      refine ⟨fun d hd' => ?_, fun o => ?_, fun hd' => ?_⟩
      · simp [hf1]
      · simp [hf2]
      · simp [hd hd']

/-- The case occurs: a component with a definition. -/
example : ∃ l, plan conf { call with component := true } = .cmds l ∧ l.length = 2 ∧ ['X'] ∉ conf.defines := ⟨_, rfl, by decide, by decide⟩

/-- C148 refuted for `-W`: no command has any word that begins with it, in any mode; with it go
the folders of `-Wl,-rpath`. -/
theorem C148_warnings_refuted (c : Conf) (a : Args) (l : List Cmd) (h : plan c a = .cmds l) :
    ∀ cmd ∈ l, ∀ x, .warn x ∉ cmd.words := by
  obtain ⟨m, _, rfl⟩ := plan_cmds h
  have hf : ∀ x, .warn x ∉ compilerFlags c a := fun x hx => by rcases flags_plain c a _ hx with h | ⟨s, h⟩ <;> cases h
  have hpre : ∀ m s o, ∀ cmd ∈ addPreprocess c a m s o, ∀ x, .warn x ∉ cmd.words := by
    intro m s o cmd hc x
    simp only [addPreprocess, List.mem_singleton] at hc
    subst hc
    simp [Cmd.words, hf, optTok]
  intro cmd hc x
  split at hc
  · obtain ⟨s, _, hc⟩ := List.mem_flatMap.mp hc
    exact hpre _ _ _ cmd hc x
  · rcases List.mem_append.mp hc with hc | hc
    · obtain ⟨s, _, hc⟩ := List.mem_flatMap.mp hc
      split at hc
      · simp only [addSrc2Src, List.mem_append, List.mem_singleton] at hc
        rcases hc with (((hc | hc) | hc) | hc) | hc
        · exact hpre _ _ _ cmd hc x
        · subst hc; simp [Cmd.words]
        · unfold compileTransformed at hc
          simp only at hc
          split at hc
          · simp only [List.mem_append, List.mem_singleton, List.mem_map] at hc
            rcases hc with ((⟨t, ht, hc⟩ | hc) | ⟨p, _, hc⟩) | hc
            · subst hc
              simp only [optTok, List.mem_map] at ht
              obtain ⟨o, _, rfl⟩ := ht
              simp [Cmd.words]
            · subst hc; simp [Cmd.words]
            · subst hc; simp [Cmd.words]
            · subst hc; simp [Cmd.words, hf]
          · simp only [List.mem_singleton] at hc
            subst hc
            simp only [Cmd.words, optTok, dbgTok]
            split <;> simp [hf]
        · subst hc
          simp only [Cmd.words, optTok, dbgTok]
          split <;> simp [hf]
        · subst hc; simp [Cmd.words]
      · simp only [addPlain, List.mem_singleton] at hc
        subst hc
        simp [Cmd.words, hf]
    · split at hc
      · cases hc
      · simp only [addLink, List.mem_singleton] at hc
        subst hc
        simp [Cmd.words, hf]

/-- The call asks for a warning. -/
example : .warn ['a', 'l', 'l'] ∈ wanted call := by decide

/-! ### Objects and linking -/

theorem filterMap_nothing {α β : Type} (l : List α) : l.filterMap (fun _ => (none : Option β)) = [] := by
  rw [List.filterMap_eq_nil_iff]; intro _ _; rfl

/-- C148, linking: without `-c` and `-E` the last command links the objects of all sources and the given
objects, in order, with all `-L` and `-l`, into the target. -/
theorem C148_link (c : Conf) (a : Args) (l : List Cmd) (h : plan c a = .cmds l) (hc : a.compile = false) (he : a.preprocess = false) :
    ∃ pipe prog w t, l.getLast? = some (.run pipe prog w t)
      ∧ w.filterMap (fun x => match x with | .file p => some p | _ => none) = (sources a).map (target a) ++ objects a
      ∧ (∀ x ∈ a.L, .libDir x ∈ w) ∧ w.filterMap (fun x => match x with | .lib p => some p | _ => none) = a.l
      ∧ (∀ o, a.output = some o → .out o ∈ w) := by
  obtain ⟨m, _, rfl⟩ := plan_cmds h
  rw [he, hc]
  simp only [Bool.false_eq_true, if_false, addLink]
  have h1 : (compilerFlags c a).filterMap (fun x => match x with | .file p => some p | _ => none) = [] := by
    rw [List.filterMap_eq_nil_iff]
    intro x hx
    rcases flags_plain c a x hx with rfl | ⟨s, rfl⟩ <;> rfl
  have h2 : (compilerFlags c a).filterMap (fun x => match x with | .lib p => some p | _ => none) = [] := by
    rw [List.filterMap_eq_nil_iff]
    intro x hx
    rcases flags_plain c a x hx with rfl | ⟨s, rfl⟩ <;> rfl
  refine ⟨_, _, _, _, List.getLast?_concat .., ?_, ?_, ?_, ?_⟩
  · simp only [List.filterMap_append, h1, List.filterMap_map, List.filterMap_cons, List.filterMap_nil]
    simp [Function.comp_def, filterMap_nothing]
  · intro x hx; simp [hx]
  · simp only [List.filterMap_append, h2, List.filterMap_map, List.filterMap_cons, List.filterMap_nil]
    simp [Function.comp_def, filterMap_nothing]
  · intro o ho; simp [ho]

/-- What is linked in the call. -/
example : ∃ l, plan conf call = .cmds l ∧ (sources call).map (target call) ++ objects call = [⟨[], ['a', '.', 'o']⟩, ⟨[], ['b', '.', 'o']⟩] :=
  ⟨_, rfl, by decide⟩

/-- C148 refuted for the order: in the link command every library comes before every object, so that
a static library is searched before anything needs it. -/
theorem C148_order_refuted (c : Conf) (a : Args) (objs : List Path) (pipe : Option Path) (prog : Prog) (w : List Tok) (t : List Path)
    (h : addLink c a objs = [.run pipe prog w t]) (x : Str) (p : Path) (hx : .lib x ∈ w) (hp : p ∈ objs) :
    ∃ w1 w2, w = w1 ++ w2 ∧ .lib x ∈ w1 ∧ .lib x ∉ w2 ∧ .file p ∈ w2 ∧ .file p ∉ w1 := by
  simp only [addLink, List.cons.injEq, Cmd.run.injEq, and_true] at h
  obtain ⟨rfl, rfl, rfl, rfl⟩ := h
  have h1 : .file p ∉ compilerFlags c a := fun hx => by rcases flags_plain c a _ hx with h | ⟨s, h⟩ <;> cases h
  have h2 : .lib x ∉ compilerFlags c a := fun hx => by rcases flags_plain c a _ hx with h | ⟨s, h⟩ <;> cases h
  refine ⟨c.link.map .flag ++ compilerFlags c a ++ a.L.map .libDir ++ a.l.map .lib, objs.map .file ++ [.out (a.output.getD ⟨[], ['a', '.', 'o', 'u', 't']⟩)], by simp, ?_, ?_, ?_, ?_⟩
  · simp [h2] at hx ⊢; exact hx
  · simp
  · simp [hp]
  · simp [h1]

/-- The case occurs. -/
example : ∃ w, addLink conf call [⟨[], ['a', '.', 'o']⟩] = [.run none .cxx w []] ∧ .lib ['m'] ∈ w := ⟨_, rfl, by decide⟩

theorem swapSuffix_stem (suf st e : Str) (h : '.' ∉ e) : swapSuffix suf (st ++ '.' :: e) = st ++ '.' :: suf := by
  unfold swapSuffix
  have : (st ++ '.' :: e).reverse.dropWhile (· ≠ '.') = '.' :: st.reverse := by
    rw [List.reverse_append, List.reverse_cons, List.append_assoc]
    have h' : ∀ c ∈ e.reverse, c ≠ '.' := fun c hc he => h (he ▸ List.mem_reverse.mp hc)
    generalize e.reverse = r at h'
    induction r with
    | nil => rfl
    | cons c r ih =>
      rw [List.cons_append, List.dropWhile_cons, if_pos (by simpa using h' c (by simp))]
      exact ih (fun c hc => h' c (List.mem_cons_of_mem _ hc))
  rw [this]
  simp

/-- C148, objects (partial: names that differ before the last dot): without `-c`, or with it and without
`-o`, two sources have objects of their own. -/
theorem C148_objects_partial (a : Args) (hc : a.compile = false ∨ a.output = none) (d1 d2 st1 st2 e1 e2 : Str)
    (h1 : '.' ∉ e1) (h2 : '.' ∉ e2) (hst : st1 ≠ st2) : target a ⟨d1, st1 ++ '.' :: e1⟩ ≠ target a ⟨d2, st2 ++ '.' :: e2⟩ := by
  have ht : ∀ s, target a s = ⟨[], swapSuffix ['o'] s.base⟩ := by
    intro s
    unfold target
    rcases hc with hc | hc
    · rw [hc]; split <;> simp
    · rw [hc]
  rw [ht, ht]
  intro h
  have := (Path.mk.inj h).2
  rw [swapSuffix_stem _ _ _ h1, swapSuffix_stem _ _ _ h2] at this
  exact hst (List.append_inj_left' this rfl)

/-- Two such sources. -/
example : '.' ∉ ['c', 'c'] ∧ (['x', '.', 'y'] : Str) ≠ ['x'] := by decide

/-- C148 refuted for objects: sources with one name in two folders, or with two endings, get one object,
which is linked twice; so do all sources of a call with `-c` and `-o`. -/
theorem C148_objects_refuted :
    (∃ l, plan conf { extra := [['x', '/', 'a', '.', 'c', 'c'], ['y', '/', 'a', '.', 'c', 'c']] } = .cmds l)
    ∧ (sources { extra := [['x', '/', 'a', '.', 'c', 'c'], ['y', '/', 'a', '.', 'c', 'c']] }).map (target {}) = [⟨[], ['a', '.', 'o']⟩, ⟨[], ['a', '.', 'o']⟩]
    ∧ target {} ⟨[], ['a', '.', 'c']⟩ = target {} ⟨[], ['a', '.', 'c', 'c']⟩
    ∧ (∀ o s1 s2, target { compile := true, output := some o } s1 = target { compile := true, output := some o } s2) :=
  ⟨⟨_, rfl⟩, by decide, by decide, fun _ _ _ => rfl⟩

/-! ### Running -/

/-- C148, failures: the commands that run are the first ones; if the result is not 0 it is what the last of
them returned, and all before returned 0; if it is 0 all ran and returned 0. -/
theorem C148_run (code : Cmd → Nat) (l : List Cmd) (r : Nat) (h : (runAll code l).1 = some r) :
    ∃ rest, l = (runAll code l).2.1 ++ rest
      ∧ (r = 0 → rest = [] ∧ ∀ c ∈ l, code c = 0)
      ∧ (r ≠ 0 → ∃ before last, (runAll code l).2.1 = before ++ [last] ∧ code last = r ∧ ∀ c ∈ before, code c = 0) := by
  induction l with
  | nil =>
    simp only [runAll, Option.some.injEq] at h
    exact ⟨[], rfl, fun _ => ⟨rfl, by simp⟩, fun hr => absurd h.symm hr⟩
  | cons c l ih =>
    cases c with
    | word x => simp [runAll] at h
    | run p g w t =>
      by_cases hz : code (.run p g w t) = 0
      · simp only [runAll, if_pos hz] at h ⊢
        obtain ⟨rest, h1, h2, h3⟩ := ih h
        refine ⟨rest, by rw [List.cons_append, ← h1], ?_, ?_⟩
        · intro hr
          refine ⟨(h2 hr).1, ?_⟩
          intro c hc
          rcases List.mem_cons.mp hc with rfl | hc
          · exact hz
          · exact (h2 hr).2 c hc
        · intro hr
          obtain ⟨b, la, h4, h5, h6⟩ := h3 hr
          refine ⟨.run p g w t :: b, la, by rw [h4]; rfl, h5, ?_⟩
          intro c hc
          rcases List.mem_cons.mp hc with rfl | hc
          · exact hz
          · exact h6 c hc
      · simp only [runAll, if_neg hz, Option.some.injEq] at h ⊢
        refine ⟨l, rfl, fun hr => absurd (h.trans hr) hz, fun _ => ⟨[], _, rfl, h, by simp⟩⟩

/-- The files that a command declares as temporary. -/
def Cmd.temps : Cmd → List Path
  | .run _ _ _ t => t
  | .word _ => []

/-- C148, temporary files (partial: when all commands succeed): all of them are removed. -/
theorem C148_temps_partial (code : Cmd → Nat) (l : List Cmd) (h : (runAll code l).1 = some 0) (c : Cmd) (hc : c ∈ l) (f : Path) (hf : f ∈ c.temps) :
    f ∈ removed true true (runAll code l).2.2 := by
  have : f ∈ (runAll code l).2.2 := by
    induction l with
    | nil => cases hc
    | cons d l ih =>
      cases d with
      | word x => simp [runAll] at h
      | run p g w t =>
        by_cases hz : code (.run p g w t) = 0
        · simp only [runAll, if_pos hz] at h ⊢
          rcases List.mem_cons.mp hc with rfl | hc
          · exact List.mem_append_left _ hf
          · exact List.mem_append_right _ (ih h hc)
        · simp only [runAll, if_neg hz, Option.some.injEq] at h
          exact absurd h hz
  unfold removed
  rw [List.mem_filter]
  exact ⟨this, by split <;> rfl⟩

/-- The temporary files of the call. -/
example : ∃ l, plan conf call = .cmds l ∧ (runAll (fun _ => 0) l).1 = some 0 ∧ (removed true true (runAll (fun _ => 0) l).2.2).length = 5 :=
  ⟨_, rfl, rfl, by decide⟩

/-- C148 refuted for temporary files: when the source-to-source tool fails, the preprocessed file that the
command before has written stays. -/
theorem C148_temps_refuted : ∃ l pp, plan conf call = .cmds l
    ∧ (∃ c ∈ (runAll (fun c => if c.temps.length = 3 then 1 else 0) l).2.1, Makes c ⟨[], ['a', '.', 'c', 'c']⟩ pp)
    ∧ (∃ c ∈ l, pp ∈ c.temps)
    ∧ pp ∉ removed true true (runAll (fun c => if c.temps.length = 3 then 1 else 0) l).2.2 :=
  ⟨_, rebase ppPrefix ⟨[], ['a', '.', 'c', 'c']⟩ [], rfl,
    ⟨_, List.mem_cons_self .., ⟨_, _, _, _, rfl, by decide, Or.inl (by decide)⟩⟩, ⟨_, List.mem_cons_of_mem _ (List.mem_cons_self ..), by decide⟩, by decide⟩

/-- C148 refuted for passes with `-O`: the option itself stands in the list of commands, and the wrapper
ends with an error when it gets there. -/
theorem C148_passes_refuted : ∃ l, plan conf { call with skeletonize := some [['p']] } = .cmds l
    ∧ .word (.opt ['2']) ∈ l ∧ (runAll (fun _ => 0) l).1 = none := ⟨_, rfl, by decide, rfl⟩

/-- C148 refuted for visibility: every value but `hidden` makes the wrapper crash. -/
theorem C148_visibility_refuted (c : Conf) (a : Args) (v : Str) (h : a.visibility = some v) (hv : v ≠ ['h', 'i', 'd', 'd', 'e', 'n']) : plan c a = .crash := by
  unfold plan
  rw [h]
  simp [hv]

/-- A usual value. -/
example : (['d', 'e', 'f', 'a', 'u', 'l', 't'] : Str) ≠ ['h', 'i', 'd', 'd', 'e', 'n'] := by decide

/-- C148 refuted for `-E` with `-o`: no command writes the file. -/
theorem C148_preprocess_refuted (c : Conf) (a : Args) (l : List Cmd) (o : Path) (h : plan c a = .cmds l) (he : a.preprocess = true) :
    ∀ cmd ∈ l, ∀ src, ¬ Makes cmd src o := by
  obtain ⟨m, _, rfl⟩ := plan_cmds h
  rw [if_pos he]
  intro cmd hc src hm
  obtain ⟨s, _, hc⟩ := List.mem_flatMap.mp hc
  simp only [addPreprocess, List.mem_singleton] at hc
  subst hc
  obtain ⟨_, _, _, _, h1, _, h3⟩ := hm
  simp only [Cmd.run.injEq] at h1
  obtain ⟨rfl, _, rfl, _⟩ := h1
  have hf : .out o ∉ compilerFlags c a := fun hx => by rcases flags_plain c a _ hx with h | ⟨s, h⟩ <;> cases h
  rcases h3 with h3 | h3
  · cases h3
  · simp [hf, optTok] at h3

/-- The case occurs. -/
example : ∃ l, plan conf { call with preprocess := true, output := some ⟨[], ['o']⟩ } = .cmds l ∧ l.length = 1 := ⟨_, rfl, by decide⟩

end SST.Clang.Wrapper
