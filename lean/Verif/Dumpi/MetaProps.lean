import Verif.Dumpi.Meta
import Verif.Launch.RequestProps
/-
C150: the metafile of a trace gives the number of ranks and the files; every rank reads its own file.
-/
set_option autoImplicit false
namespace Verif.Dumpi.Meta

open Verif.Os.AppEnv (Str tokens Words C129_words)
open Verif.Launch.Request (atoi C131_atoi)

/-! ### Specification -/

/-- The text of a metafile with the given settings, one on each line. -/
def render (kvs : List (Str × Str)) : Str := kvs.flatMap (fun p => p.1 ++ '=' :: p.2 ++ ['\n'])

/-- Texts without separators. -/
def Plain (s : Str) : Prop := s ≠ [] ∧ '=' ∉ s ∧ '\n' ∉ s

/-- The last value of a name. -/
def lastOf (k : Str) (kvs : List (Str × Str)) : Option Str := ((kvs.filter (fun p => p.1 = k)).map Prod.snd).getLast?

/-! ### The metafile -/

theorem lines_line (l s : Str) (h : '\n' ∉ l) : ∀ acc, lines acc (l ++ '\n' :: s) = (acc ++ l) :: lines [] s := by
  induction l with
  | nil => intro acc; simp [lines]
  | cons c l ih =>
    intro acc
    have hc : c ≠ '\n' := fun e => h (by rw [e]; simp)
    rw [List.cons_append, lines, if_neg hc, ih (fun hm => h (List.mem_cons_of_mem _ hm)), List.append_assoc]
    rfl

theorem lines_render (kvs : List (Str × Str)) (hp : ∀ p ∈ kvs, Plain p.1 ∧ Plain p.2) : lines [] (render kvs) = kvs.map (fun p => p.1 ++ '=' :: p.2) := by
  induction kvs with
  | nil => rfl
  | cons p kvs ih =>
    have h := hp p (by simp)
    have : render (p :: kvs) = (p.1 ++ '=' :: p.2) ++ '\n' :: render kvs := by simp [render]
    rw [this, lines_line _ _ (by simp [h.1.2.2, h.2.2.2]), ih (fun q hq => hp q (List.mem_cons_of_mem _ hq))]
    rfl

theorem tokens_pair {k v : Str} (hk : Plain k) (hv : Plain v) : tokens '=' (k ++ '=' :: v) = [k, v] :=
  (C129_words _ _ _).mp (.word hk.1 hk.2.1 (.last hv.1 hv.2.1))

theorem lastOf_snoc (k : Str) (kvs : List (Str × Str)) (p : Str × Str) : lastOf k (kvs ++ [p]) = if p.1 = k then some p.2 else lastOf k kvs := by
  unfold lastOf
  rw [List.filter_append, List.map_append]
  by_cases h : p.1 = k
  · simp [h]
  · simp [h]

/-- C150, metafile: for every list of settings, what is read from the file with one setting on each line is the
last number of processes, as a number, and the last prefix, in the folder of the metafile unless it is absolute. -/
theorem C150_meta (metafile : Str) (kvs : List (Str × Str)) (hp : ∀ p ∈ kvs, Plain p.1 ∧ Plain p.2) :
    (parse metafile (render kvs)).procs = (lastOf kProcs kvs).map atoi
    ∧ (parse metafile (render kvs)).root = (lastOf kPrefix kvs).map (withFolder metafile) := by
  unfold parse
  rw [lines_render kvs hp]
  have key : ∀ (kvs : List (Str × Str)), (∀ p ∈ kvs, Plain p.1 ∧ Plain p.2) →
      (kvs.map (fun p => p.1 ++ '=' :: p.2)).foldl (line metafile) {} = ⟨(lastOf kProcs kvs).map atoi, (lastOf kPrefix kvs).map (withFolder metafile)⟩ := by
    intro kvs
    have : ∀ r : List (Str × Str), (∀ p ∈ r.reverse, Plain p.1 ∧ Plain p.2) →
        (r.reverse.map (fun p => p.1 ++ '=' :: p.2)).foldl (line metafile) {} = ⟨(lastOf kProcs r.reverse).map atoi, (lastOf kPrefix r.reverse).map (withFolder metafile)⟩ := by
      intro r
      induction r with
      | nil => intro _; rfl
      | cons p r ih =>
        intro hp
        rw [List.reverse_cons] at hp ⊢
        have h := hp p (by simp)
        rw [List.map_append, List.foldl_append, ih (fun q hq => hp q (List.mem_append_left _ hq)), lastOf_snoc, lastOf_snoc]
        simp only [List.map_cons, List.map_nil, List.foldl_cons, List.foldl_nil, line, tokens_pair h.1 h.2]
        by_cases h1 : p.1 = kProcs
        · have h2 : p.1 ≠ kPrefix := by rw [h1]; decide
          simp [h1, if_neg (show kProcs ≠ kPrefix by decide)]
        · by_cases h2 : p.1 = kPrefix
          · simp [h2, if_neg (show kPrefix ≠ kProcs by decide)]
          · simp [h1, h2]
    have h := this kvs.reverse
    rwa [List.reverse_reverse] at h
  rw [key kvs hp]
  exact ⟨rfl, rfl⟩

/-- A metafile with three settings. -/
example : (∀ p ∈ [(['h'], ['x']), (kProcs, ['1', '6']), (kPrefix, ['t'])], Plain p.1 ∧ Plain p.2)
    ∧ parse ['d', '/', 'm'] (render [(['h'], ['x']), (kProcs, ['1', '6']), (kPrefix, ['t'])]) = ⟨some 16, some ['d', '/', 't']⟩ :=
  ⟨by unfold Plain; decide, by decide⟩

/-- C150, number: the number is written in decimals. -/
theorem C150_number (metafile : Str) (kvs : List (Str × Str)) (hp : ∀ p ∈ kvs, Plain p.1 ∧ Plain p.2) (n : Nat) (h : lastOf kProcs kvs = some (Nat.toDigits 10 n)) :
    (parse metafile (render kvs)).procs = some (n : Int) := by
  rw [(C150_meta metafile kvs hp).1, h]
  exact congrArg some (C131_atoi n).1

/-- C150, folder: an absolute prefix is used as it is; another one is looked for where the metafile is. -/
theorem C150_folder (dir base pre : Str) (hb : '/' ∉ base) :
    withFolder (dir ++ '/' :: base) ('/' :: pre) = '/' :: pre
    ∧ (pre.head? ≠ some '/' → withFolder (dir ++ '/' :: base) pre = dir ++ '/' :: pre ∧ withFolder base pre = pre) := by
  have hd : ∀ (b t : Str), '/' ∉ b → (b ++ t).dropWhile (· ≠ '/') = t.dropWhile (· ≠ '/') := by
    intro b t
    induction b with
    | nil => intro _; rfl
    | cons c b ih =>
      intro h
      have hc : c ≠ '/' := fun e => h (by rw [e]; simp)
      rw [List.cons_append, List.dropWhile_cons, if_pos (by simpa using hc)]
      exact ih (fun hm => h (List.mem_cons_of_mem _ hm))
  have hr : '/' ∉ base.reverse := fun h => hb (List.mem_reverse.mp h)
  refine ⟨by simp [withFolder], fun hp => ⟨?_, ?_⟩⟩
  · unfold withFolder folder
    rw [if_neg hp, List.reverse_append, List.reverse_cons, List.append_assoc, hd _ _ hr]
    simp
  · unfold withFolder folder
    have := hd base.reverse [] hr
    rw [List.append_nil] at this
    rw [if_neg hp, this]
    rfl

/-- Two prefixes. -/
example : withFolder ['d', '/', 'm'] ['t'] = ['d', '/', 't'] ∧ withFolder ['d', '/', 'm'] ['/', 't'] = ['/', 't'] := by decide

/-- C150 refuted for a last line without a line end: whatever it says is not read. -/
theorem C150_last_refuted (metafile text l : Str) (h : '\n' ∉ l) (ht : text = [] ∨ text.getLast? = some '\n') : parse metafile (text ++ l) = parse metafile text := by
  have hl : ∀ acc, lines acc l = [] := by
    induction l with
    | nil => intro _; rfl
    | cons c l ih =>
      intro acc
      rw [lines, if_neg (fun e => h (by rw [e]; simp))]
      exact ih (fun hm => h (List.mem_cons_of_mem _ hm)) _
  have key : ∀ t acc, (t = [] ∨ t.getLast? = some '\n') → lines acc (t ++ l) = lines acc t := by
    intro t
    induction t with
    | nil => intro acc _; rw [List.nil_append, hl]; rfl
    | cons c t ih =>
      intro acc ht
      have ht' : t = [] ∨ t.getLast? = some '\n' := by
        cases t with
        | nil => exact Or.inl rfl
        | cons d t => right; rcases ht with ht | ht; cases ht; rwa [List.getLast?_cons_cons] at ht
      rw [List.cons_append, lines, lines]
      split
      · rw [ih _ ht']
      · rw [ih _ ht']
  unfold parse
  rw [key text [] ht]

/-- So a metafile whose last line is the number of processes has none, and is accepted. -/
example : load ['m'] (render [(kPrefix, ['t'])] ++ kProcs ++ ['=', '4']) = some ⟨none, some ['t']⟩ := by decide

/-- C150 refuted for missing settings: a metafile with one of the two is accepted; the number of processes is then
arbitrary, or the prefix empty.  Only one with neither is refused. -/
theorem C150_missing_refuted (metafile : Str) (kvs : List (Str × Str)) (hp : ∀ p ∈ kvs, Plain p.1 ∧ Plain p.2) :
    load metafile (render kvs) = none ↔ lastOf kProcs kvs = none ∧ lastOf kPrefix kvs = none := by
  have h := C150_meta metafile kvs hp
  unfold load
  simp only [h.1, h.2]
  cases lastOf kProcs kvs <;> cases lastOf kPrefix kvs <;> simp

/-- C150 refuted for values with an equals sign: such a line is not read. -/
theorem C150_equals_refuted (metafile : Str) (m : Info) (k v w : Str) (hk : Plain k) (hv : Plain v) (hw : Plain w) :
    line metafile m (k ++ '=' :: (v ++ '=' :: w)) = m := by
  have : tokens '=' (k ++ '=' :: (v ++ '=' :: w)) = [k, v, w] :=
    (C129_words _ _ _).mp (.word hk.1 hk.2.1 (.word hv.1 hv.2.1 (.last hw.1 hw.2.1)))
  unfold line
  rw [this]

/-- A prefix that says what varies. -/
example : Plain kPrefix ∧ Plain ['n'] ∧ Plain ['4'] := by unfold Plain; decide

/-! ### The files -/

theorem pad_value (w rank : Nat) : Nat.ofDigitChars 10 (pad w rank) 0 = rank := by
  unfold pad
  rw [Nat.ofDigitChars_append, Nat.ofDigitChars_replicate_zero, Nat.mul_zero, Nat.ofDigitChars_ten_toDigits]

theorem pad_length (w rank : Nat) : (pad w rank).length ≤ w + (Nat.toDigits 10 rank).length := by
  unfold pad
  rw [List.length_append, List.length_replicate]
  omega

theorem search_file {fs : Str → Open} {root : Str} {rank : Nat} {ws : List Nat} {f : Str} (h : search fs root rank ws = .file f) :
    ∃ w ∈ ws, f = name root w rank ∧ fs f = .found := by
  induction ws with
  | nil => cases h
  | cons w ws ih =>
    rw [search] at h
    split at h
    · next hf => cases h; exact ⟨w, by simp, rfl, hf⟩
    · cases h
    · obtain ⟨w', hw, h'⟩ := ih h; exact ⟨w', List.mem_cons_of_mem _ hw, h'⟩

/-- C150, files (partial: names of at most 254 characters): the file of a rank exists, its name is the prefix, a
dash, the rank with leading zeros and `.bin`; no two ranks have the same file. -/
theorem C150_files_partial (fs : Str → Open) (root : Str) (r : Nat) (f : Str) (h : fileName fs root r = .file f)
    (hl : root.length + (Nat.toDigits 10 r).length + 14 ≤ 254) :
    fs f = .found ∧ (∃ k, f = root ++ '-' :: (List.replicate k '0' ++ Nat.toDigits 10 r) ++ ['.', 'b', 'i', 'n'])
    ∧ ∀ r', root.length + (Nat.toDigits 10 r').length + 14 ≤ 254 → r' ≠ r → fileName fs root r' ≠ .file f := by
  have hn : ∀ w q, w ≤ 9 → root.length + (Nat.toDigits 10 q).length + 14 ≤ 254 → name root w q = root ++ '-' :: pad w q ++ ['.', 'b', 'i', 'n'] := by
    intro w q hw hq
    unfold name
    apply List.take_of_length_le
    have := pad_length w q
    simp only [List.length_append, List.length_cons, List.length_nil]
    omega
  have h9 : ∀ w, w ∈ [1, 2, 3, 4, 5, 6, 7, 8, 9] → w ≤ 9 := by decide
  obtain ⟨w, hw, rfl, hf⟩ := search_file h
  refine ⟨hf, ⟨w - (Nat.toDigits 10 r).length, hn w r (h9 w hw) hl⟩, ?_⟩
  intro r' hl' hne h'
  obtain ⟨w', hw', heq, _⟩ := search_file h'
  rw [hn w r (h9 w hw) hl, hn w' r' (h9 w' hw') hl'] at heq
  have h1 := List.append_cancel_right heq
  have h2 := List.append_cancel_left h1
  have h3 : pad w r = pad w' r' := (List.cons.inj h2).2
  have := pad_value w r
  rw [h3, pad_value] at this
  exact hne this

/-- C150, search: if a file with one to nine digits exists and no name fails to open, one is found. -/
theorem C150_found (fs : Str → Open) (root : Str) (r w : Nat) (hw : 1 ≤ w ∧ w ≤ 9) (hf : fs (name root w r) = .found) (hok : ∀ f, fs f ≠ .failed) :
    ∃ f, fileName fs root r = .file f := by
  have key : ∀ ws : List Nat, w ∈ ws → ∃ f, search fs root r ws = .file f := by
    intro ws
    induction ws with
    | nil => intro h; cases h
    | cons v ws ih =>
      intro hm
      rw [search]
      cases hv : fs (name root v r) with
      | found => exact ⟨_, rfl⟩
      | failed => exact absurd hv (hok _)
      | absent =>
        rcases List.mem_cons.mp hm with rfl | hm
        · rw [hf] at hv; cases hv
        · exact ih hm
  apply key
  have : w = 1 ∨ w = 2 ∨ w = 3 ∨ w = 4 ∨ w = 5 ∨ w = 6 ∨ w = 7 ∨ w = 8 ∨ w = 9 := by omega
  simpa using this

/-- A folder with the files of two ranks. -/
def dir2 : Str → Open := fun f => if f ∈ [['t', '-', '0', '0', '0', '0', '.', 'b', 'i', 'n'], ['t', '-', '0', '0', '0', '1', '.', 'b', 'i', 'n']] then .found else .absent

/-- The hypotheses are met. -/
example : fileName dir2 ['t'] 1 = .file ['t', '-', '0', '0', '0', '1', '.', 'b', 'i', 'n'] ∧ fileName dir2 ['t'] 2 = .missing
    ∧ (['t'] : Str).length + (Nat.toDigits 10 1).length + 14 ≤ 254 ∧ dir2 (name ['t'] 4 1) = .found := by decide

/-- C150, order: of several files of a rank the one with the fewest digits is read. -/
theorem C150_shortest (fs : Str → Open) (root : Str) (r : Nat) (hf : fs (name root 1 r) = .found) : fileName fs root r = .file (name root 1 r) := by
  unfold fileName
  rw [search, hf]

/-- C150 refuted for two traces with one prefix: rank 1 is read from one, rank 0 from the other. -/
theorem C150_mixed_refuted : ∃ fs : Str → Open, (∀ r, r < 2 → fs (name ['t'] 4 r) = .found)
    ∧ fileName fs ['t'] 0 = .file (name ['t'] 4 0) ∧ fileName fs ['t'] 1 = .file (name ['t'] 1 1) ∧ name ['t'] 1 1 ≠ name ['t'] 4 1 :=
  ⟨fun f => if f = ['t', '-', '1', '.', 'b', 'i', 'n'] then .found else dir2 f, by decide, by decide, by decide, by decide⟩

/-- C150 refuted for long names: with a prefix of 254 characters or more all ranks read one file. -/
theorem C150_long_refuted (fs : Str → Open) (root : Str) (hl : 254 ≤ root.length) (hf : fs (root.take 254) = .found) (r : Nat) :
    fileName fs root r = .file (root.take 254) := by
  have hn : name root 1 r = root.take 254 := by
    unfold name
    rw [List.append_assoc, List.take_append_of_le_length hl]
  have := C150_shortest fs root r (by rw [hn]; exact hf)
  rwa [hn] at this

/-- Such prefixes exist. -/
example : 254 ≤ (List.replicate 300 'a').length := by rw [List.length_replicate]; decide

end Verif.Dumpi.Meta
