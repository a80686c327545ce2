import Verif.Os.AppEnv
set_option autoImplicit false

/-!
# Theorems about what a simulated process starts with
-/

namespace Verif.Os.AppEnv

/-! ### Arguments -/

/-- The words of a string: what lies between separators. -/
inductive Words (sep : Char) : Str → List Str → Prop
  | nil : Words sep [] []
  | gap {s : Str} {ws : List Str} : Words sep s ws → Words sep (sep :: s) ws
  | last {w : Str} : w ≠ [] → sep ∉ w → Words sep w [w]
  | word {w s : Str} {ws : List Str} : w ≠ [] → sep ∉ w → Words sep s ws → Words sep (w ++ sep :: s) (w :: ws)

theorem words_gaps {sep : Char} {ws : List Str} (s : Str) (h : Words sep (s.dropWhile (· = sep)) ws) : Words sep s ws := by
  induction s with
  | nil => exact h
  | cons c s ih =>
    rw [List.dropWhile_cons] at h
    by_cases e : c = sep
    · rw [if_pos (by simpa using e)] at h
      rw [e]; exact .gap (ih h)
    · rw [if_neg (by simpa using e)] at h
      exact h

theorem dropWhile_le {α : Type} (p : α → Bool) (l : List α) : (l.dropWhile p).length ≤ l.length := by
  induction l with
  | nil => exact Nat.le_refl _
  | cons a l ih => rw [List.dropWhile_cons]; split <;> simp <;> omega

theorem not_mem_takeWhile {sep : Char} (s : Str) : sep ∉ s.takeWhile (· ≠ sep) := by
  induction s with
  | nil => intro h; cases h
  | cons c s ih =>
    rw [List.takeWhile_cons]
    by_cases e : c = sep
    · rw [if_neg (by simpa using e)]; intro h; cases h
    · rw [if_pos (by simpa using e)]
      intro h
      rcases List.mem_cons.mp h with h | h
      · exact e h.symm
      · exact ih h

theorem head_dropWhile {sep : Char} (s : Str) : s.dropWhile (· ≠ sep) = [] ∨ ∃ r, s.dropWhile (· ≠ sep) = sep :: r := by
  induction s with
  | nil => left; rfl
  | cons c s ih =>
    rw [List.dropWhile_cons]
    by_cases e : c = sep
    · right; rw [if_neg (by simpa using e), e]; exact ⟨s, rfl⟩
    · rw [if_pos (by simpa using e)]; exact ih

theorem tokensN_words (sep : Char) (n : Nat) (s : Str) (hn : s.length ≤ n) : Words sep s (tokensN sep n s) := by
  induction n generalizing s with
  | zero =>
    cases s with
    | nil => exact .nil
    | cons c s => simp at hn
  | succ n ih =>
    cases s with
    | nil => exact .nil
    | cons c s =>
      unfold tokensN
      by_cases e : c = sep
      · rw [if_pos e]
        apply words_gaps
        apply ih
        rw [List.dropWhile_cons, if_pos (by simpa using e)]
        have := dropWhile_le (· = sep) s
        simp at hn; omega
      · rw [if_neg e]
        have hne : (c :: s).takeWhile (· ≠ sep) ≠ [] := by
          rw [List.takeWhile_cons, if_pos (by simpa using e)]; simp
        have hl : ((c :: s).dropWhile (· ≠ sep)).length ≤ n := by
          rw [List.dropWhile_cons, if_pos (by simpa using e)]
          have := dropWhile_le (· ≠ sep) s
          simp at hn; omega
        have hs : (c :: s).takeWhile (· ≠ sep) ++ (c :: s).dropWhile (· ≠ sep) = c :: s := List.takeWhile_append_dropWhile
        have hi := ih _ hl
        rcases head_dropWhile (sep := sep) (c :: s) with hd | ⟨r, hd⟩
        · rw [hd] at hs hi ⊢
          rw [List.append_nil] at hs
          have e2 : tokensN sep n [] = [] := by cases n <;> rfl
          rw [e2]
          have := Words.last hne (not_mem_takeWhile (sep := sep) (c :: s))
          rw [hs] at this ⊢
          exact this
        · rw [hd] at hs hi ⊢
          have hr : Words sep r (tokensN sep n (sep :: r)) := by
            generalize tokensN sep n (sep :: r) = ws at hi
            generalize hq : sep :: r = q at hi
            cases hi with
            | nil => cases hq
            | gap h => cases hq; exact h
            | last h1 h2 => subst hq; simp at h2
            | @word w s ws h1 h2 h3 =>
              cases w with
              | nil => exact absurd rfl h1
              | cons a w => simp at hq; obtain ⟨rfl, _⟩ := hq; simp at h2
          have := Words.word hne (not_mem_takeWhile (sep := sep) (c :: s)) hr
          rw [hs] at this
          exact this

/-- The words of a string are determined. -/
theorem words_unique {sep : Char} {s : Str} {a b : List Str} (ha : Words sep s a) (hb : Words sep s b) : a = b := by
  induction ha generalizing b with
  | nil =>
    generalize hq : ([] : Str) = q at hb
    cases hb with
    | nil => rfl
    | gap h => cases hq
    | last h1 h2 => exact absurd hq.symm h1
    | word h1 h2 h3 => simp at hq
  | @gap s ws h ih =>
    generalize hq : sep :: s = q at hb
    cases hb with
    | nil => cases hq
    | gap h => cases hq; exact ih h
    | last h1 h2 => subst hq; simp at h2
    | @word w s ws h1 h2 h3 =>
      cases w with
      | nil => exact absurd rfl h1
      | cons x w => simp at hq; obtain ⟨rfl, _⟩ := hq; simp at h2
  | @last w h1 h2 =>
    cases hb with
    | nil => exact absurd rfl h1
    | gap h => simp at h2
    | last _ _ => rfl
    | word _ _ _ => simp at h2
  | @word w s ws h1 h2 h3 ih =>
    generalize hq : w ++ sep :: s = q at hb
    cases hb with
    | nil => simp at hq
    | gap h =>
      cases w with
      | nil => exact absurd rfl h1
      | cons x w => simp at hq; obtain ⟨rfl, _⟩ := hq; simp at h2
    | last g1 g2 => subst hq; simp at g2
    | @word v t vs g1 g2 g3 =>
      have key : ∀ (w v : Str), sep ∉ w → sep ∉ v → w ++ sep :: s = v ++ sep :: t → w = v ∧ s = t := by
        intro w
        induction w with
        | nil =>
          intro v _ hv e
          cases v with
          | nil => cases e; exact ⟨rfl, rfl⟩
          | cons x v => simp at e; obtain ⟨rfl, _⟩ := e; simp at hv
        | cons y w ihw =>
          intro v hw hv e
          cases v with
          | nil => simp at e; obtain ⟨rfl, _⟩ := e; simp at hw
          | cons x v =>
            simp at e hw hv
            obtain ⟨rfl, e⟩ := e
            obtain ⟨rfl, rfl⟩ := ihw v hw.2 hv.2 e
            exact ⟨rfl, rfl⟩
      obtain ⟨rfl, rfl⟩ := key w v h2 g2 hq
      rw [ih g3]

/-- The tokens of a string are its words. -/
theorem C129_words (sep : Char) (s : Str) (ws : List Str) : Words sep s ws ↔ tokens sep s = ws :=
  ⟨fun h => words_unique (tokensN_words sep s.length s (Nat.le_refl _)) h, fun h => h ▸ tokensN_words sep s.length s (Nat.le_refl _)⟩

/-- Two words between blanks. -/
example : tokens ' ' "  -n 20 ".toList = ["-n".toList, "20".toList] := by decide

/-- The event changes no argument. -/
def Ev.keeps : Ev → Prop
  | .permute _ _ => False
  | _ => True

theorem run_append (c : Conf) (s : St) (h g : List Ev) : run c s (h ++ g) = (run c s h).bind fun s => run c s g := by
  induction h generalizing s with
  | nil => rfl
  | cons e h ih =>
    show (match step c s e with | none => none | some s => run c s (h ++ g)) = (match step c s e with | none => none | some s => run c s h).bind _
    cases step c s e with
    | none => rfl
    | some s' => exact ih s'

theorem run_snoc (c : Conf) {s t : St} {h : List Ev} {e : Ev} (hr : run c s (h ++ [e]) = some t) : ∃ u, run c s h = some u ∧ step c u e = some t := by
  rw [run_append] at hr
  cases hu : run c s h with
  | none => rw [hu] at hr; cases hr
  | some u =>
    rw [hu] at hr
    refine ⟨u, rfl, ?_⟩
    replace hr : run c u [e] = some t := hr
    unfold run at hr
    cases hs : step c u e with
    | none => rw [hs] at hr; cases hr
    | some v => rw [hs] at hr; exact hr

/-- Induction on the last element. -/
theorem snoc {α : Type} {P : List α → Prop} (h0 : P []) (h1 : ∀ (l : List α) (a : α), P l → P (l ++ [a])) (l : List α) : P l := by
  have : ∀ (l : List α), P l.reverse := by
    intro l
    induction l with
    | nil => exact h0
    | cons a l ih => rw [List.reverse_cons]; exact h1 _ _ ih
  rw [← List.reverse_reverse l]; exact this _

/-- Every process that has entered `main` has the name of its application and the words of the parameter `argv` as its
arguments, as long as no process has changed its arguments. -/
theorem C129_args_partial (c : Conf) (h : List Ev) (s : St) (hr : run c .init h = some s) (hk : ∀ e, e ∈ h → e.keeps) (p : Proc) (hp : .main p ∈ h) :
    ∃ ws, Words ' ' (c.argv p.1) ws ∧ s.argvs p.1 = some (c.name p.1 :: ws) := by
  refine ⟨tokens ' ' (c.argv p.1), (C129_words _ _ _).mpr rfl, ?_⟩
  have inv : ∀ (h : List Ev) (s : St), run c .init h = some s → (∀ e, e ∈ h → e.keeps) →
      (∀ a v, s.argvs a = some v → v = c.name a :: tokens ' ' (c.argv a)) ∧ (∀ p : Proc, .main p ∈ h → s.argvs p.1 ≠ none) := by
    intro h
    induction h using snoc with
    | h0 =>
      intro s hr _
      cases hr
      exact ⟨fun a v h => (by cases h), fun p hp => (by cases hp)⟩
    | h1 l e ih =>
      intro s hr hk
      obtain ⟨u, hu, hs⟩ := run_snoc c hr
      obtain ⟨i1, i2⟩ := ih u hu fun e he => hk e (List.mem_append_left _ he)
      have hke := hk e (by simp)
      cases e with
      | permute p v => exact hke.elim
      | setenv p k v ow =>
        cases hs
        exact ⟨i1, fun q hq => i2 q (by simpa using hq)⟩
      | ends p rc =>
        cases hs
        exact ⟨i1, fun q hq => i2 q (by simpa using hq)⟩
      | main p =>
        unfold step at hs
        simp only at hs
        cases ha : u.argvs p.1 with
        | some a =>
          rw [ha] at hs
          cases hs
          refine ⟨i1, fun q hq => ?_⟩
          rcases List.mem_append.mp hq with hq | hq
          · exact i2 q hq
          · simp at hq; subst hq; show u.argvs q.1 ≠ none; rw [ha]; simp
        | none =>
          rw [ha] at hs
          simp only at hs
          cases hi : initArgv (c.name p.1) (c.argv p.1) with
          | none => rw [hi] at hs; cases hs
          | some a =>
            rw [hi] at hs
            cases hs
            have ea : a = c.name p.1 :: tokens ' ' (c.argv p.1) := by
              unfold initArgv at hi
              simp only at hi
              split at hi
              · cases hi
              · cases hi; rfl
            constructor
            · intro b v hb
              by_cases e : b = p.1
              · subst e
                simp [upd] at hb; rw [← hb]; exact ea
              · simp [upd, e] at hb; exact i1 b v hb
            · intro q hq
              by_cases e : q.1 = p.1
              · simp [upd, e]
              · simp only [upd, if_neg e]
                rcases List.mem_append.mp hq with hq | hq
                · exact i2 q hq
                · simp at hq; subst hq; exact absurd rfl e
  obtain ⟨h1, h2⟩ := inv h s hr hk
  cases ha : s.argvs p.1 with
  | none => exact absurd ha (h2 p hp)
  | some v => rw [h1 _ _ ha]

/-- No buffer is overrun if the name and the words have at most 255 characters each. -/
theorem C129_args_fit (name argv : Str) (hn : name.length ≤ 255) (hw : ∀ w, w ∈ tokens ' ' argv → w.length ≤ 255) : initArgv name argv = some (name :: tokens ' ' argv) := by
  unfold initArgv
  simp only
  rw [if_neg]
  have : ∀ l : List Str, (∀ w, w ∈ l → w.length ≤ 255) → argvBytes l ≤ 256 * l.length := by
    intro l
    induction l with
    | nil => intro _; exact Nat.le_refl _
    | cons a l ih =>
      intro h
      have h1 := h a (by simp)
      have h2 := ih fun w hw => h w (by simp [hw])
      unfold argvBytes at h2 ⊢
      rw [List.map_cons, List.sum_cons, List.length_cons]
      omega
  have := this (name :: tokens ' ' argv) (by intro w h; rcases List.mem_cons.mp h with rfl | h; exact hn; exact hw w h)
  omega

/-- One long argument overruns the buffer. -/
theorem C129_args_refuted : ∃ (name argv : Str), argv.length = 600 ∧ Words ' ' argv [argv] ∧ initArgv name argv = none := by
  refine ⟨"a".toList, List.replicate 600 'x', by decide +kernel, ?_, by decide +kernel⟩
  apply Words.last
  · decide +kernel
  · intro h; have := List.eq_of_mem_replicate h; revert this; decide

/-- A configuration with one application that has two options. -/
def duo : Conf := ⟨fun _ => "a".toList, fun _ => "-x y".toList, fun _ => [("A".toList, "1".toList)], [("A".toList, "2".toList), ("OMP_NUM_THREADS".toList, "8".toList)]⟩

/-- A process that sorts its arguments changes those of another process of its application, before that one starts. -/
theorem C129_args_shared_refuted : ∃ (h : List Ev) (s : St), run duo .init h = some s ∧ .main (0, 1) ∈ h ∧ (∀ v, .permute (0, 1) v ∉ h) ∧
    s.argvs 0 ≠ some ["a".toList, "-x".toList, "y".toList] := by
  refine ⟨[.main (0, 0), .permute (0, 0) ["a".toList, "y".toList, "-x".toList], .main (0, 1)], _, rfl, by simp, by simp, ?_⟩
  decide

/-- A history that the theorem covers. -/
example : ∃ s, run duo .init [.main (0, 0), .setenv (0, 0) "B".toList "3".toList false, .main (0, 1), .ends (0, 1) 4] = some s ∧
    s.argvs 0 = some ["a".toList, "-x".toList, "y".toList] ∧ exitStatus true s = 4 := ⟨_, rfl, by decide, by decide⟩

/-! ### Environment -/

theorem find_put {α : Type} (m : List (Str × α)) (k : Str) (v : α) (x : Str) : find (put m k v) x = if x = k then some v else find m x := by
  unfold put
  show (if k = x then some v else find _ x) = _
  by_cases e : x = k
  · rw [if_pos e, if_pos e.symm]
  · rw [if_neg e, if_neg (fun h => e h.symm)]
    induction m with
    | nil => rfl
    | cons a m ih =>
      obtain ⟨a, b⟩ := a
      by_cases ea : a = k
      · rw [List.filter_cons, if_neg (by simpa using ea), ih]
        show _ = if a = x then some b else find m x
        rw [if_neg (fun h => e (by rw [← h, ea]))]
      · rw [List.filter_cons, if_pos (by simpa using ea)]
        show (if a = x then some b else _) = if a = x then some b else find m x
        rw [ih]

/-- What an environment holds that is read from parameters: the last of equal names. -/
def lastOf (l : List (Str × Str)) (k : Str) : Option Str := (l.reverse.find? fun kv => kv.1 = k).map (·.2)

/-- What process `p` should read under name `k` after a history: the value that it set last, counting a call without
overwriting only if there was none, at the start its own environment, and for what that lacks the environment of the node. -/
def envSpec (own os : Str → Option Str) (p : Proc) (k : Str) : List Ev → Option Str
  | [] => none
  | e :: h =>
    match e with
    | .main q => if q = p then (match own k with | some v => some v | none => os k) else envSpec own os p k h
    | .setenv q k' v ow => if q = p ∧ k' = k ∧ (ow = true ∨ envSpec own os p k h = none) then some v else envSpec own os p k h
    | _ => envSpec own os p k h

theorem find_own (own : List (Str × Str)) (k : Str) : find (own.foldl (fun m kv => put m kv.1 kv.2) []) k = lastOf own k := by
  induction own using snoc with
  | h0 => rfl
  | h1 l a ih =>
    rw [List.foldl_append, List.foldl_cons, List.foldl_nil, find_put, ih]
    unfold lastOf
    rw [List.reverse_append, List.reverse_singleton, List.singleton_append, List.find?_cons]
    by_cases e : k = a.1
    · rw [if_pos e]; simp [e]
    · rw [if_neg e]
      have : ¬ a.1 = k := fun h => e h.symm
      simp [this]

theorem find_os (os m : List (Str × Str)) (k : Str) :
    find (os.foldl addOs m) k =
      match find m k with | some v => some v | none => (os.find? fun kv => kv.1 = k).map (·.2) := by
  induction os generalizing m with
  | nil => cases h : find m k <;> simp [h]
  | cons a os ih =>
    rw [List.foldl_cons, ih, List.find?_cons]
    unfold addOs
    by_cases e : a.1 = k
    · subst e
      cases h : find m a.1 with
      | some v => simp [h]
      | none => simp [find_put]
    · cases h : find m a.1 with
      | some v => simp [e]
      | none =>
        have : ¬ k = a.1 := fun h => e h.symm
        simp [find_put, this, e]

/-- Each process reads from its environment what it should, whatever other processes do. -/
theorem C129_env (c : Conf) (h : List Ev) (s : St) (hr : run c .init h = some s) (p : Proc) (k : Str) :
    find (s.env p) k = envSpec (lastOf (c.appEnv p.1)) (fun k => (c.osEnv.find? fun kv => kv.1 = k).map (·.2)) p k h.reverse := by
  induction h using snoc generalizing s k with
  | h0 => cases hr; rfl
  | h1 l e ih =>
    obtain ⟨u, hu, hs⟩ := run_snoc c hr
    have ih := fun k => ih u hu k
    rw [List.reverse_append, List.reverse_singleton, List.singleton_append]
    unfold envSpec
    cases e with
    | permute q v => cases hs; exact ih k
    | ends q rc => cases hs; exact ih k
    | setenv q k' v ow =>
      cases hs
      simp only [upd]
      by_cases e : q = p
      · subst e
        rw [if_pos rfl, ← ih]
        unfold setenv
        by_cases ek : k' = k
        · subst ek
          cases ow with
          | true => simp [find_put]
          | false =>
            cases hf : find (u.env q) k' with
            | none => simp [find_put]
            | some x => simp [hf]
        · have : ¬ k = k' := fun h => ek h.symm
          cases ow with
          | true => simp [find_put, this, ek]
          | false => cases hf : find (u.env q) k' <;> simp [find_put, this, ek]
      · have : ¬ p = q := fun h => e h.symm
        rw [if_neg this]
        simp [e, ih]
    | main q =>
      have he : s.env = upd u.env q (startEnv (c.appEnv q.1) c.osEnv) := by
        unfold step at hs
        simp only at hs
        split at hs
        · cases hs; rfl
        · split at hs
          · cases hs
          · cases hs; rfl
      rw [he]
      simp only [upd]
      by_cases e : q = p
      · subst e
        rw [if_pos rfl, if_pos rfl]
        unfold startEnv
        rw [find_os, find_own]
      · rw [if_neg e, if_neg (fun h => e h.symm)]
        exact ih k

/-- `getenv` returns the value if it has less than 64 characters, and nothing if there is none. -/
theorem C129_getenv_partial (m : List (Str × Str)) (k : Str) (h : ∀ v, find m k = some v → v.length < 64) : getenv m k = .ok (find m k) := by
  unfold getenv
  cases hf : find m k with
  | none => rfl
  | some v => have := h v hf; simp only; rw [if_neg (by omega)]

/-- `getenv` of a longer value ends the simulation. -/
theorem C129_getenv_refuted : ∃ (m : List (Str × Str)) (k v : Str), find (setenv m k v true) k = some v ∧ getenv (setenv m k v true) k = .error () :=
  ⟨[], "PATH".toList, List.replicate 64 'x', by decide +kernel, by rfl⟩

/-- The environment of the nodes gives a number of threads that the process can read, but OpenMP does not use it. -/
theorem C129_omp_refuted : ∃ (c : Conf) (p : Proc) (s : St) (parse : Str → Int), run c .init [.main p] = some s ∧
    find (s.env p) "OMP_NUM_THREADS".toList = some "8".toList ∧ parse "8".toList = 8 ∧ ompThreads parse (c.appEnv p.1) = 1 :=
  ⟨duo, (0, 0), _, fun _ => 8, rfl, by decide, rfl, rfl⟩

/-- In the environment of the application it does. -/
theorem C129_omp_partial (parse : Str → Int) (own : List (Str × Str)) (v : Str) (h : find own "OMP_NUM_THREADS".toList = some v) : ompThreads parse own = parse v := by
  unfold ompThreads; rw [h]

/-- Precedence and `setenv` in a run. -/
example : ∃ s, run duo .init [.main (0, 0), .main (0, 1), .setenv (0, 0) "A".toList "5".toList false, .setenv (0, 1) "B".toList "6".toList false] = some s ∧
    find (s.env (0, 0)) "A".toList = some "1".toList ∧ find (s.env (0, 1)) "B".toList = some "6".toList ∧ find (s.env (0, 0)) "B".toList = none :=
  ⟨_, rfl, by decide, by decide, by decide⟩

/-! ### The exit status -/

/-- What the processes returned, in order. -/
def returned (h : List Ev) : List Int := h.filterMap fun | .ends _ rc => some rc | _ => none

/-- The exit status is what the process returned that ended last. -/
theorem C129_status (c : Conf) (h : List Ev) (s : St) (hr : run c .init h = some s) : exitStatus true s = (returned h).getLast?.getD 0 := by
  show s.rc = _
  induction h using snoc generalizing s with
  | h0 => cases hr; rfl
  | h1 l e ih =>
    obtain ⟨u, hu, hs⟩ := run_snoc c hr
    unfold returned
    rw [List.filterMap_append]
    cases e with
    | ends q rc => cases hs; simp
    | permute q v => cases hs; simpa [returned] using ih u hu
    | setenv q k v ow => cases hs; simpa [returned] using ih u hu
    | main q =>
      have he : s.rc = u.rc := by
        unfold step at hs
        simp only at hs
        split at hs
        · cases hs; rfl
        · split at hs
          · cases hs
          · cases hs; rfl
      rw [he]
      simpa [returned] using ih u hu

/-- If all processes return the same, that is the exit status. -/
theorem C129_status_partial (c : Conf) (h : List Ev) (s : St) (hr : run c .init h = some s) (rc : Int) (hne : returned h ≠ []) (ha : ∀ x, x ∈ returned h → x = rc) :
    exitStatus true s = rc := by
  rw [C129_status c h s hr]
  rw [List.getLast?_eq_some_getLast hne]
  exact ha _ (List.getLast_mem hne)

/-- The failure of a process is lost if another one ends well after it. -/
theorem C129_status_refuted : ∃ (h : List Ev) (s : St), run duo .init h = some s ∧ 1 ∈ returned h ∧ exitStatus true s = 0 :=
  ⟨[.main (0, 0), .main (0, 1), .ends (0, 1) 1, .ends (0, 0) 0], _, rfl, by decide, by decide⟩

/-! ### APIs -/

/-- The entries of a list of APIs do not contradict each other: a name that stands for an API stands for one kind. -/
def Consistent (l : List (Str × Str)) : Prop := ∀ e, e ∈ l → ∀ f, f ∈ l → (e.1 = f.1 ∨ e.1 = f.2) → e.2 = f.2

/-- The entry `alias:name`. -/
theorem C129_api_entry (a n : Str) (h : ':' ∉ a) : parseApi (a ++ ':' :: n) = (a, n) := by
  unfold parseApi
  rw [if_pos (by simp)]
  have h1 : ∀ x, x ∈ a → (decide (x ≠ ':')) = true := by intro x hx; simp; rintro rfl; exact h hx
  rw [List.takeWhile_append_of_pos h1, List.dropWhile_append_of_pos h1]
  simp

theorem C129_api_plain (n : Str) (h : ':' ∉ n) : parseApi n = (n, n) := by unfold parseApi; rw [if_neg h]

/-- What holds of the table while entries are added. -/
structure ApiInv (l : List (Str × Str)) (s : Apis) : Prop where
  keys : ∀ k i, find s.map k = some i → ∃ e, e ∈ l ∧ (k = e.1 ∨ k = e.2) ∧ s.objs[i]? = some e.2
  done : ∀ e, e ∈ l → ∃ i, find s.map e.1 = some i ∧ find s.map e.2 = some i ∧ s.objs[i]? = some e.2
  nodup : s.objs.Nodup
  made : ∀ n, n ∈ s.objs → ∃ e, e ∈ l ∧ e.2 = n

theorem idx_eq {α : Type} {l : List α} (h : l.Nodup) {i j : Nat} {a : α} (hi : l[i]? = some a) (hj : l[j]? = some a) : i = j := by
  have h1 := (List.getElem?_eq_some_iff.mp hi).1
  exact (List.getElem?_inj h1 h).mp (hi.trans hj.symm)

theorem addApi_inv {l : List (Str × Str)} {s : Apis} {e : Str × Str} (inv : ApiInv l s) (hc : Consistent (l ++ [e])) : ApiInv (l ++ [e]) (addApi s e) := by
  have me : e ∈ l ++ [e] := by simp
  -- the object of the name
  have mid : ∃ s' : Apis, makeApi s e.2 = s' ∧
      (∀ k i, find s'.map k = some i → ∃ f, f ∈ l ++ [e] ∧ (k = f.1 ∨ k = f.2) ∧ s'.objs[i]? = some f.2) ∧
      (∀ f, f ∈ l → ∃ i, find s'.map f.1 = some i ∧ find s'.map f.2 = some i ∧ s'.objs[i]? = some f.2) ∧
      s'.objs.Nodup ∧ (∀ n, n ∈ s'.objs → ∃ f, f ∈ l ++ [e] ∧ f.2 = n) ∧ ∃ j, find s'.map e.2 = some j ∧ s'.objs[j]? = some e.2 := by
    unfold makeApi
    cases hf : find s.map e.2 with
    | some j =>
      refine ⟨s, rfl, ?_, inv.done, inv.nodup, ?_, j, hf, ?_⟩
      · intro k i hk
        obtain ⟨f, h1, h2⟩ := inv.keys k i hk
        exact ⟨f, List.mem_append_left _ h1, h2⟩
      · intro n hn
        obtain ⟨f, h1, h2⟩ := inv.made n hn
        exact ⟨f, List.mem_append_left _ h1, h2⟩
      · obtain ⟨f, h1, h2, h3⟩ := inv.keys e.2 j hf
        rw [h3]
        rcases h2 with h2 | h2
        · rw [hc f (List.mem_append_left _ h1) e me (Or.inr h2.symm)]
        · rw [h2]
    | none =>
      refine ⟨_, rfl, ?_, ?_, ?_, ?_, s.objs.length, ?_, ?_⟩
      · intro k i hk
        simp only [find_put] at hk
        by_cases ek : k = e.2
        · rw [if_pos ek] at hk
          cases hk
          exact ⟨e, me, Or.inr ek, by simp⟩
        · rw [if_neg ek] at hk
          obtain ⟨f, h1, h2, h3⟩ := inv.keys k i hk
          refine ⟨f, List.mem_append_left _ h1, h2, ?_⟩
          have := (List.getElem?_eq_some_iff.mp h3).1
          simp only [List.getElem?_append_left this]
          exact h3
      · intro f hf'
        obtain ⟨i, h1, h2, h3⟩ := inv.done f hf'
        have e1 : ¬ f.1 = e.2 := by intro h; rw [h, hf] at h1; cases h1
        have e2 : ¬ f.2 = e.2 := by intro h; rw [h, hf] at h2; cases h2
        have := (List.getElem?_eq_some_iff.mp h3).1
        refine ⟨i, ?_, ?_, ?_⟩
        · simp only [find_put, if_neg e1]; exact h1
        · simp only [find_put, if_neg e2]; exact h2
        · simp only [List.getElem?_append_left this]; exact h3
      · have hn : e.2 ∉ s.objs := by
          intro h
          obtain ⟨f, h1, h2⟩ := inv.made _ h
          obtain ⟨i, _, h3, _⟩ := inv.done f h1
          rw [h2, hf] at h3; cases h3
        rw [List.nodup_append]
        refine ⟨inv.nodup, by simp, ?_⟩
        intro a ha b hb
        simp at hb
        subst hb
        rintro rfl
        exact hn ha
      · intro n hn
        rcases List.mem_append.mp hn with hn | hn
        · obtain ⟨f, h1, h2⟩ := inv.made n hn
          exact ⟨f, List.mem_append_left _ h1, h2⟩
        · simp at hn; exact ⟨e, me, hn.symm⟩
      · simp only [find_put, if_pos]
      · simp
  obtain ⟨s', hs', hk, hd, hnd, hm, j, hj, ho⟩ := mid
  have ha : addApi s e = ⟨put s'.map e.1 j, s'.objs⟩ := by
    unfold addApi
    rw [hs', hj]
  -- the alias has no other meaning
  have same : ∀ x, find (put s'.map e.1 j) x = if x = e.1 then some j else find s'.map x := fun x => find_put _ _ _ _
  have old : ∀ i, find s'.map e.1 = some i → i = j := by
    intro i hi
    obtain ⟨f, h1, h2, h3⟩ := hk e.1 i hi
    have : e.2 = f.2 := hc e me f h1 h2
    rw [← this] at h3
    exact idx_eq hnd h3 ho
  rw [ha]
  refine ⟨?_, ?_, hnd, hm⟩
  · intro k i h
    simp only [same] at h
    by_cases ek : k = e.1
    · rw [if_pos ek] at h
      cases h
      exact ⟨e, me, Or.inl ek, ho⟩
    · rw [if_neg ek] at h
      exact hk k i h
  · intro f hf
    have look : ∀ x i, find s'.map x = some i → find (put s'.map e.1 j) x = some i := by
      intro x i hx
      rw [same]
      by_cases ex : x = e.1
      · rw [if_pos ex]; rw [ex] at hx; rw [old i hx]
      · rw [if_neg ex]; exact hx
    rcases List.mem_append.mp hf with hf | hf
    · obtain ⟨i, h1, h2, h3⟩ := hd f hf
      exact ⟨i, look _ _ h1, look _ _ h2, h3⟩
    · simp at hf
      subst hf
      refine ⟨j, ?_, look _ _ hj, ho⟩
      show find (put s'.map f.1 j) f.1 = some j
      rw [same, if_pos rfl]

theorem addApis_inv (l : List (Str × Str)) (hc : Consistent l) : ApiInv l (addApis l) := by
  induction l using snoc with
  | h0 => exact ⟨fun k i h => (by cases h), fun e h => (by cases h), List.nodup_nil, fun n h => (by cases h)⟩
  | h1 l e ih =>
    unfold addApis
    rw [List.foldl_append, List.foldl_cons, List.foldl_nil]
    exact addApi_inv (ih fun a ha b hb => hc a (List.mem_append_left _ ha) b (List.mem_append_left _ hb)) hc

theorem find_mem {α : Type} (m : List (Str × α)) (k : Str) (i : α) (h : find m k = some i) : i ∈ m.map (·.2) := by
  induction m with
  | nil => cases h
  | cons a m ih =>
    obtain ⟨a, b⟩ := a
    unfold find at h
    split at h
    · cases h; simp
    · simp only [List.map_cons, List.mem_cons]; right; exact ih h

theorem mem_find {α : Type} (m : List (Str × α)) (hn : (m.map (·.1)).Nodup) (k : Str) (i : α) (h : (k, i) ∈ m) : find m k = some i := by
  induction m with
  | nil => cases h
  | cons a m ih =>
    obtain ⟨a, b⟩ := a
    rw [List.map_cons, List.nodup_cons] at hn
    unfold find
    rcases List.mem_cons.mp h with h | h
    · cases h; rw [if_pos rfl]
    · rw [if_neg, ih hn.2 h]
      rintro rfl
      exact hn.1 (List.mem_map.mpr ⟨_, h, rfl⟩)

theorem put_keys {α : Type} (m : List (Str × α)) (k : Str) (v : α) (hn : (m.map (·.1)).Nodup) : ((put m k v).map (·.1)).Nodup := by
  unfold put
  rw [List.map_cons, List.nodup_cons]
  constructor
  · intro h
    obtain ⟨a, h1, h2⟩ := List.mem_map.mp h
    have := (List.mem_filter.mp h1).2
    simp at this
    exact this h2
  · exact hn.sublist (List.filter_sublist.map _)

theorem addApi_keys (s : Apis) (e : Str × Str) (h : (s.map.map (·.1)).Nodup) : ((addApi s e).map.map (·.1)).Nodup := by
  have h1 : ((makeApi s e.2).map.map (·.1)).Nodup := by
    unfold makeApi
    split
    · exact h
    · exact put_keys _ _ _ h
  unfold addApi
  split
  · exact put_keys _ _ _ h1
  · exact h1

theorem addApis_keys (l : List (Str × Str)) : ((addApis l).map.map (·.1)).Nodup := by
  induction l using snoc with
  | h0 => simp [addApis]
  | h1 l e ih =>
    unfold addApis at ih ⊢
    rw [List.foldl_append, List.foldl_cons, List.foldl_nil]
    exact addApi_keys _ _ ih

theorem toSet_nodup (l : List Nat) : (toSet l).Nodup := by
  induction l with
  | nil => exact List.nodup_nil
  | cons a l ih =>
    unfold toSet
    rw [List.nodup_cons]
    exact ⟨fun h => by simpa using (List.mem_filter.mp h).2, ih.sublist List.filter_sublist⟩

theorem mem_toSet (l : List Nat) (i : Nat) : i ∈ toSet l ↔ i ∈ l := by
  induction l with
  | nil => exact Iff.rfl
  | cons a l ih =>
    unfold toSet
    rw [List.mem_cons, List.mem_cons, List.mem_filter, ih]
    by_cases e : i = a <;> simp [e]

/-- In a list of APIs without contradictions each alias gives the API of the name beside it, one API serves all aliases of a
name, no two APIs of a process have the same name, and at the end each is deleted exactly once. -/
theorem C129_apis_partial (l : List (Str × Str)) (hc : Consistent l) :
    (∀ e, e ∈ l → ∃ i, find (addApis l).map e.1 = some i ∧ find (addApis l).map e.2 = some i ∧ (addApis l).objs[i]? = some e.2) ∧
    (addApis l).objs.Nodup ∧ (deleted (addApis l)).Nodup ∧ ∀ i, i ∈ deleted (addApis l) ↔ i < (addApis l).objs.length := by
  have inv := addApis_inv l hc
  refine ⟨inv.done, inv.nodup, toSet_nodup _, fun i => ?_⟩
  unfold deleted
  rw [mem_toSet]
  constructor
  · intro h
    obtain ⟨a, h1, h2⟩ := List.mem_map.mp h
    obtain ⟨a, b⟩ := a
    have := mem_find _ (addApis_keys l) a b h1
    obtain ⟨f, _, _, h3⟩ := inv.keys a b this
    replace h2 : b = i := h2
    rw [← h2]
    exact (List.getElem?_eq_some_iff.mp h3).1
  · intro h
    obtain ⟨e, h1, h2⟩ := inv.made (addApis l).objs[i] (List.getElem_mem h)
    obtain ⟨j, h3, _, h4⟩ := inv.done e h1
    have : j = i := idx_eq inv.nodup (by rw [h4, h2]) (List.getElem?_eq_getElem h)
    rw [← this]
    exact find_mem _ _ _ h3

/-- The default list: both names give the one object. -/
example : Consistent (["mpi".toList, "sumi:mpi".toList].map parseApi) ∧ (addApis (["mpi".toList, "sumi:mpi".toList].map parseApi)).objs = ["mpi".toList] ∧
    find (addApis (["mpi".toList, "sumi:mpi".toList].map parseApi)).map "sumi".toList = some 0 :=
  ⟨by unfold Consistent; decide, by decide, by decide⟩

/-- An alias that is used as a name later gives the wrong API. -/
theorem C129_apis_refuted : ∃ (l : List Str) (i : Nat), "x".toList ∈ l ∧ parseApi "x".toList = ("x".toList, "x".toList) ∧
    find (addApis (l.map parseApi)).map "x".toList = some i ∧ (addApis (l.map parseApi)).objs[i]? = some "mpi".toList :=
  ⟨["x:mpi".toList, "x".toList], 0, by decide, by decide, by decide, by decide⟩

/-- An API whose name is used as an alias of another is never deleted. -/
theorem C129_apis_leak_refuted : ∃ (l : List Str) (i : Nat), i < (addApis (l.map parseApi)).objs.length ∧ i ∉ deleted (addApis (l.map parseApi)) :=
  ⟨["a".toList, "b".toList, "a:b".toList], 0, by decide, by decide⟩

/-! ### Main functions -/

/-- An application that is registered with a `main` with arguments runs it. -/
theorem C129_main_partial (integrated : Bool) (full empty : List Str) (name : Str) (h : name ∈ full) : launch integrated full empty name = .full := by
  unfold launch; rw [if_pos h]

/-- Within SST core one with a `main` without arguments runs that; no application runs a function of another name. -/
theorem C129_main_core (full empty : List Str) (name : Str) :
    (launch true full empty name = .full ↔ name ∈ full) ∧ (launch true full empty name = .empty ↔ name ∉ full ∧ name ∈ empty) := by
  unfold launch
  by_cases h : name ∈ full
  · simp [h]
  · by_cases g : name ∈ empty
    · simp [h, g]
    · simp [h, g]

/-- In the simulator by itself it never runs. -/
theorem C129_main_refuted (full empty : List Str) (name : Str) (h : name ∈ empty) : launch false full empty name ≠ .empty := by
  unfold launch
  by_cases g : name ∈ full
  · simp [g]
  · by_cases f : full = [] <;> simp [g, h, f]

/-- The two ways it ends. -/
example : launch false [] ["a".toList] "a".toList = .nullPointer ∧ launch false ["b".toList] ["a".toList] "a".toList = .valueError ∧ launch true [] ["a".toList] "a".toList = .empty := by decide

/-! ### The loaded executable -/

/-- The state after some calls. -/
def libRun (h : List LibEv) : Option Lib := h.foldl libStep none

/-- No process ends before it starts and no job ends before it is locked. -/
def Orderly (h : List LibEv) : Prop := ∀ (g : List LibEv), g <+: h → g.count .closes ≤ g.count .opens ∧ g.count .unlock ≤ g.count .lock

theorem lib_inv (h : List LibEv) (ho : Orderly h) :
    match libRun h with
    | none => h.count .opens = h.count .closes ∧ h.count .lock = h.count .unlock
    | some e => e.refcount = h.count .opens + h.count .lock - h.count .closes - h.count .unlock ∧ (e.loaded = false → h.count .opens = h.count .closes) ∧
        (e.refcount = 0 → e.loaded = false) := by
  induction h using snoc with
  | h0 => exact ⟨rfl, rfl⟩
  | h1 l e ih =>
    have hp : Orderly l := fun g hg => ho g (hg.trans (List.prefix_append _ _))
    have hl := hp l (List.prefix_refl _)
    have hle := ho (l ++ [e]) (List.prefix_refl _)
    have ih := ih hp
    have er : libRun (l ++ [e]) = libStep (libRun l) e := by unfold libRun; rw [List.foldl_append]; rfl
    rw [er]
    simp only [List.count_append] at hle ⊢
    cases hs : libRun l with
    | none =>
      rw [hs] at ih
      simp only at ih
      cases e with
      | lock => simp [libStep] ; omega
      | opens => simp [libStep]; omega
      | unlock => simp at hle; omega
      | closes => simp at hle; omega
    | some x =>
      rw [hs] at ih
      simp only at ih
      obtain ⟨i1, i2, i3⟩ := ih
      obtain ⟨rc, ld⟩ := x
      simp only at i1 i2 i3
      cases e with
      | lock =>
        simp [libStep]
        refine ⟨by omega, i2, ?_⟩
        intro h
        cases ld with
        | false => rfl
        | true => omega
      | opens =>
        simp [libStep]
        refine ⟨by omega, ?_, ?_⟩
        · intro _ h1 h2; rw [h1] at h2; cases h2
        · intro h; omega
      | unlock =>
        simp at hle
        simp only [libStep]
        by_cases h0 : rc - 1 = 0
        · cases ld with
          | true => simp [h0]; omega
          | false => simp [h0]; have := i2 rfl; omega
        · simp [h0]
          exact ⟨by omega, i2⟩
      | closes =>
        simp at hle
        simp only [libStep]
        by_cases h0 : rc - 1 = 0
        · cases ld with
          | true => simp [h0]; omega
          | false => have := i2 rfl; omega
        · simp [h0]
          refine ⟨by omega, ?_⟩
          intro h; have := i2 h; omega

/-- While a process of an application runs, its executable is loaded; when all have ended and the job is unlocked, nothing is
kept. -/
theorem C129_loaded (h : List LibEv) (ho : Orderly h) :
    (h.count .closes < h.count .opens → ∃ n, libRun h = some ⟨n, true⟩) ∧
    (0 < h.count .opens → h.count .closes = h.count .opens → h.count .unlock = h.count .lock → ∀ e, libRun h = some e → e.loaded = false) := by
  have inv := lib_inv h ho
  constructor
  · intro hc
    cases hs : libRun h with
    | none => rw [hs] at inv; simp only at inv; omega
    | some e =>
      rw [hs] at inv
      obtain ⟨n, ld⟩ := e
      simp only at inv
      cases ld with
      | true => exact ⟨n, rfl⟩
      | false => have := inv.2.1 rfl; omega
  · intro _ h1 h2 e he
    rw [he] at inv
    simp only at inv
    exact inv.2.2 (by omega)

/-- A job with two processes. -/
example : libRun [.lock, .opens, .opens, .closes] = some ⟨2, true⟩ ∧ libRun [.lock, .opens, .opens, .closes, .closes, .unlock] = none := by decide

/-- The simulator exits with status zero, whatever its processes return, unless it is asked for their status. -/
theorem C129_status_zero (c : Conf) (h : List Ev) (s : St) (_hr : run c .init h = some s) : exitStatus false s = 0 := rfl

/-- A process that fails. -/
example : ∃ s, run ⟨fun _ => [], fun _ => [], fun _ => [], []⟩ .init [.main (1, 0), .ends (1, 0) 3] = some s ∧ exitStatus false s = 0 ∧ exitStatus true s = 3 := ⟨_, rfl, rfl, rfl⟩

end Verif.Os.AppEnv
