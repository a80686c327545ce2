import Verif.Launch.Request
import Verif.Os.AppEnvProps
set_option autoImplicit false

/-!
# Theorems about requests to launch applications
-/

namespace Verif.Launch.Request

open Verif.Os.AppEnv (Str find put tokens Words C129_words find_put snoc)

/-- Equality of outcomes is decidable. -/
instance {ε α : Type} [DecidableEq ε] [DecidableEq α] : DecidableEq (Except ε α)
  | .ok a, .ok b => if h : a = b then .isTrue (by rw [h]) else .isFalse (fun e => h (by cases e; rfl))
  | .error a, .error b => if h : a = b then .isTrue (by rw [h]) else .isFalse (fun e => h (by cases e; rfl))
  | .ok _, .error _ => .isFalse (fun e => by cases e)
  | .error _, .ok _ => .isFalse (fun e => by cases e)

/-! ### Commands -/

/-- A number in decimals. -/
def dec (n : Nat) : Str := Nat.toDigits 10 n

theorem dec_digits (n : Nat) : ∀ c, c ∈ dec n → c.isDigit := fun _ hc => Nat.isDigit_of_mem_toDigits (by omega) (by omega) hc

theorem takeWhile_all {α : Type} (p : α → Bool) (l : List α) (h : ∀ a, a ∈ l → p a = true) : l.takeWhile p = l := by
  induction l with
  | nil => rfl
  | cons a l ih => rw [List.takeWhile_cons, if_pos (h a (by simp)), ih fun b hb => h b (by simp [hb])]

/-- `atoi` reads numbers. -/
theorem C131_atoi (n : Nat) : atoi (dec n) = n ∧ atoi ('-' :: dec n) = - (n : Int) := by
  have ht := takeWhile_all Char.isDigit (dec n) fun c hc => dec_digits n c hc
  have hv : Nat.ofDigitChars 10 (dec n) 0 = n := Nat.ofDigitChars_ten_toDigits
  constructor
  · unfold atoi
    split
    · rename_i r e
      have := dec_digits n '-' (by rw [e]; simp)
      exact absurd this (by decide)
    · rename_i r e
      have := dec_digits n '+' (by rw [e]; simp)
      exact absurd this (by decide)
    · rw [ht, hv]
  · show - ((Nat.ofDigitChars 10 ((dec n).takeWhile Char.isDigit) 0 : Nat) : Int) = _
    rw [ht, hv]

/-- The options of a command. -/
inductive Opt where
  | n (k : Nat)
  | perNode (k : Nat)
  | ss
  | cc (v : Str)
  | socket (k : Nat)

/-- The words of an option. -/
def Opt.words : Opt → List Str
  | .n k => [['-', 'n'], dec k]
  | .perNode k => [['-', 'N'], dec k]
  | .ss => [['-', 's', 's']]
  | .cc v => [['-', 'c', 'c'], v]
  | .socket k => [['-', 'S'], dec k]

/-- Values that are one word. -/
def Opt.Plain : Opt → Prop
  | .cc v => v ≠ [] ∧ ' ' ∉ v
  | _ => True

/-- The last value of `-n`. -/
def lastN (os : List Opt) : Option Nat := (os.filterMap fun | .n k => some k | _ => none).getLast?

/-- The last value of `-N`. -/
def lastPerNode (os : List Opt) : Option Nat := (os.filterMap fun | .perNode k => some k | _ => none).getLast?

/-- The last value of `-cc`. -/
def lastCc (os : List Opt) : Option Str := (os.filterMap fun | .cc v => some v | _ => none).getLast?

/-- The command: `aprun` and its options with blanks between them. -/
def command (os : List Opt) : Str := (os.flatMap Opt.words).foldl (fun s w => s ++ ' ' :: w) ['a', 'p', 'r', 'u', 'n']

theorem words_snoc {s : Str} {ws : List Str} {w : Str} (h : Words ' ' s ws) (hne : w ≠ []) (hw : ' ' ∉ w) : Words ' ' (s ++ ' ' :: w) (ws ++ [w]) := by
  induction h with
  | nil => exact .gap (.last hne hw)
  | gap _ ih => exact .gap ih
  | last h1 h2 => exact .word h1 h2 (.last hne hw)
  | @word v s ws h1 h2 _ ih => rw [List.append_assoc]; exact .word h1 h2 ih

theorem no_space {n : Nat} : ' ' ∉ dec n := fun h => absurd (dec_digits n ' ' h) (by decide)

theorem dec_ne (n : Nat) : dec n ≠ [] := Nat.toDigits_ne_nil

theorem word_ok {os : List Opt} (hp : ∀ o, o ∈ os → o.Plain) : ∀ w, w ∈ os.flatMap Opt.words → w ≠ [] ∧ ' ' ∉ w := by
  intro w hw
  obtain ⟨o, ho, hw⟩ := List.mem_flatMap.mp hw
  have := hp o ho
  cases o with
  | n k => simp [Opt.words] at hw; rcases hw with rfl | rfl; exact ⟨by decide, by decide⟩; exact ⟨dec_ne k, no_space⟩
  | perNode k => simp [Opt.words] at hw; rcases hw with rfl | rfl; exact ⟨by decide, by decide⟩; exact ⟨dec_ne k, no_space⟩
  | ss => simp [Opt.words] at hw; subst hw; exact ⟨by decide, by decide⟩
  | cc v => simp [Opt.words] at hw; rcases hw with rfl | rfl; exact ⟨by decide, by decide⟩; exact this
  | socket k => simp [Opt.words] at hw; rcases hw with rfl | rfl; exact ⟨by decide, by decide⟩; exact ⟨dec_ne k, no_space⟩

theorem command_words (os : List Opt) (hp : ∀ o, o ∈ os → o.Plain) : tokens ' ' (command os) = ['a', 'p', 'r', 'u', 'n'] :: os.flatMap Opt.words := by
  apply (C129_words _ _ _).mp
  have hw := word_ok hp
  unfold command
  generalize os.flatMap Opt.words = l at hw
  induction l using snoc with
  | h0 => exact .last (by decide) (by decide)
  | h1 l w ih =>
    rw [List.foldl_append, List.foldl_cons, List.foldl_nil]
    have := hw w (by simp)
    exact words_snoc (ih fun v hv => hw v (by simp [hv])) this.1 this.2

theorem options_n (v : Str) (ws : List Str) (g : Got) : options (['-', 'n'] :: v :: ws) g = options ws { g with n := atoi v } := by
  simp [options]

theorem options_perNode (v : Str) (ws : List Str) (g : Got) : options (['-', 'N'] :: v :: ws) g = options ws { g with perNode := atoi v } := by
  simp [options]

theorem options_ss (ws : List Str) (g : Got) : options (['-', 's', 's'] :: ws) g = options ws g := by
  cases ws <;> simp [options]

theorem options_cc (v : Str) (ws : List Str) (g : Got) : options (['-', 'c', 'c'] :: v :: ws) g = options ws { g with cc := v } := by
  simp [options]

theorem options_S (v : Str) (ws : List Str) (g : Got) : options (['-', 'S'] :: v :: ws) g = options ws g := by
  simp [options]

theorem options_d (ws : List Str) (g : Got) : options (['-', 'd'] :: ws) g = .error .option := by
  cases ws <;> simp [options]

theorem options_words (os : List Opt) (g : Got) : options (os.flatMap Opt.words) g =
    .ok ⟨match lastN os with | some k => k | none => g.n, match lastPerNode os with | some k => k | none => g.perNode, match lastCc os with | some v => v | none => g.cc⟩ := by
  induction os generalizing g with
  | nil => rfl
  | cons o os ih =>
    have c1 : ∀ (k : Nat) (l : List Nat), ((k :: l).getLast?) = some (l.getLast?.getD k) := by intro k l; rw [List.getLast?_cons]
    have c2 : ∀ (k : Str) (l : List Str), ((k :: l).getLast?) = some (l.getLast?.getD k) := by intro k l; rw [List.getLast?_cons]
    rw [List.flatMap_cons]
    cases o with
    | n k =>
      simp only [Opt.words, List.cons_append, List.nil_append]
      rw [options_n]
      rw [ih, (C131_atoi k).1]
      simp only [lastN, lastPerNode, lastCc, List.filterMap_cons, c1]
      cases ((os.filterMap fun | .n k => some k | _ => none).getLast?) <;> rfl
    | perNode k =>
      simp only [Opt.words, List.cons_append, List.nil_append]
      rw [options_perNode]
      rw [ih, (C131_atoi k).1]
      simp only [lastN, lastPerNode, lastCc, List.filterMap_cons, c1]
      cases ((os.filterMap fun | .perNode k => some k | _ => none).getLast?) <;> rfl
    | ss =>
      simp only [Opt.words, List.cons_append, List.nil_append]
      rw [options_ss]
      rw [ih]
      simp only [lastN, lastPerNode, lastCc, List.filterMap_cons]
    | cc v =>
      simp only [Opt.words, List.cons_append, List.nil_append]
      rw [options_cc]
      rw [ih]
      simp only [lastN, lastPerNode, lastCc, List.filterMap_cons, c2]
      cases ((os.filterMap fun | .cc k => some k | _ => none).getLast?) <;> rfl
    | socket k =>
      simp only [Opt.words, List.cons_append, List.nil_append]
      rw [options_S]
      rw [ih]
      simp only [lastN, lastPerNode, lastCc, List.filterMap_cons]

theorem foldl_prefix (l : List Str) (s : Str) : ∃ t, l.foldl (fun s w => s ++ ' ' :: w) s = s ++ t ∧ (t = [] ∨ ∃ r, t = ' ' :: r) := by
  induction l generalizing s with
  | nil => exact ⟨[], by simp, Or.inl rfl⟩
  | cons w l ih =>
    obtain ⟨t, ht, _⟩ := ih (s ++ ' ' :: w)
    exact ⟨' ' :: w ++ t, by rw [List.foldl_cons, ht]; simp, Or.inr ⟨w ++ t, rfl⟩⟩

/-- A command `aprun` with options `-n`, `-N`, `-ss`, `-cc` and `-S` in any order and number gives the last number of processes, the
last number per node, or as many as fit on a node if that is not given, and the cores of the last list, if the
numbers are valid and the command has less than 200 characters and at most 50 words. -/
theorem C131_aprun_partial (os : List Opt) (hp : ∀ o, o ∈ os → o.Plain) (hl : (command os).length < 200) (hw : (os.flatMap Opt.words).length < 50) (nodeCores : Int) (k : Nat) (hk : 0 < k)
    (hn : lastN os = some k) (hN : ∀ j, lastPerNode os = some j → 1 ≤ j ∧ j ≤ k) :
    parseLaunchCmd (command os) nodeCores [] = .ok (k, match lastPerNode os with | some j => (j : Int) | none => min nodeCores k,
      match lastCc os with | some v => (tokens ',' v).map atoi | none => []) := by
  have hfirst : (command os).takeWhile (· ≠ ' ') = ['a', 'p', 'r', 'u', 'n'] := by
    obtain ⟨t, ht, h⟩ := foldl_prefix (os.flatMap Opt.words) ['a', 'p', 'r', 'u', 'n']
    unfold command
    rw [ht]
    rcases h with rfl | ⟨r, rfl⟩
    · decide
    · rfl
  unfold parseLaunchCmd parseAprun
  rw [if_pos hfirst, command_words os hp, if_neg (by simp only [List.length_cons, Bool.or_eq_true, decide_eq_true_eq]; omega), List.tail_cons, options_words]
  simp only [hn]
  rw [if_neg (by omega)]
  have hcc : ∀ v, lastCc os = some v → v ≠ [] := by
    intro v hv
    have := List.mem_of_getLast? hv
    obtain ⟨o, ho, hm⟩ := List.mem_filterMap.mp this
    have hpo := hp o ho
    cases o with
    | cc u => cases hm; exact hpo.1
    | n k => cases hm
    | perNode k => cases hm
    | ss => cases hm
    | socket k => cases hm
  cases hj : lastPerNode os with
  | some j =>
    have := hN j hj
    simp only
    rw [if_neg (by simp only [Bool.or_eq_true, decide_eq_true_eq]; omega)]
    cases hc : lastCc os with
    | none =>
      simp only
      rw [if_pos trivial]
      simp only
      rw [if_neg (by omega)]
    | some v =>
      simp only
      rw [if_neg (hcc v hc), if_neg (by simp)]
      simp only
      rw [if_neg (by omega)]
  | none =>
    simp only
    rw [if_neg (by simp only [Bool.or_eq_true, decide_eq_true_eq]; omega)]
    have hm : (if nodeCores > (k : Int) then (k : Int) else nodeCores) = min nodeCores k := by
      rw [Int.min_def]; split <;> split <;> omega
    cases hc : lastCc os with
    | none =>
      simp only
      rw [if_pos trivial]
      simp only [if_pos, hm]
    | some v =>
      simp only
      rw [if_neg (hcc v hc), if_neg (by simp)]
      simp only [if_pos, hm]

/-- A command that the theorem covers. -/
example : command [.n 8, .ss, .perNode 2, .cc ['0', ',', '1']] = ['a', 'p', 'r', 'u', 'n', ' ', '-', 'n', ' ', '8', ' ', '-', 's', 's', ' ', '-', 'N', ' ', '2', ' ', '-', 'c', 'c', ' ', '0', ',', '1'] ∧
    parseLaunchCmd ['a', 'p', 'r', 'u', 'n', ' ', '-', 'n', ' ', '8', ' ', '-', 's', 's', ' ', '-', 'N', ' ', '2', ' ', '-', 'c', 'c', ' ', '0', ',', '1'] 4 [] = .ok (8, 2, [0, 1]) ∧ parseLaunchCmd ['a', 'p', 'r', 'u', 'n', ' ', '-', 'n', ' ', '8'] 4 [] = .ok (8, 4, []) :=
  by decide +kernel

/-- A command without a positive number of processes is refused, and so is one with no process per node or more per node than there are. -/
theorem C131_invalid (os : List Opt) (hp : ∀ o, o ∈ os → o.Plain) (hl : (command os).length < 200) (hw : (os.flatMap Opt.words).length < 50) (nodeCores : Int) :
    ((lastN os = none ∨ lastN os = some 0) → parseLaunchCmd (command os) nodeCores [] = .error .procs) ∧
    (∀ k j, lastN os = some k → 0 < k → lastPerNode os = some j → (j = 0 ∨ k < j) → parseLaunchCmd (command os) nodeCores [] = .error .perNode) := by
  have hfirst : (command os).takeWhile (· ≠ ' ') = ['a', 'p', 'r', 'u', 'n'] := by
    obtain ⟨t, ht, h⟩ := foldl_prefix (os.flatMap Opt.words) ['a', 'p', 'r', 'u', 'n']
    unfold command
    rw [ht]
    rcases h with rfl | ⟨r, rfl⟩
    · decide
    · rfl
  unfold parseLaunchCmd parseAprun
  rw [if_pos hfirst, command_words os hp, if_neg (by simp only [List.length_cons, Bool.or_eq_true, decide_eq_true_eq]; omega), List.tail_cons, options_words]
  constructor
  · rintro (h | h)
    · simp only [h]
      rw [if_pos (by decide)]
    · simp only [h]
      rw [if_pos (by decide)]
  · intro k j h1 h2 h3 h4
    simp only [h1, h3]
    rw [if_neg (by omega), if_pos (by simp only [Bool.or_eq_true, decide_eq_true_eq]; omega)]

/-- Commands of other launchers are refused. -/
theorem C131_launcher (cmd : Str) (nodeCores : Int) (cores : List Int) (w : Str) (ws : List Str) (hc : cmd.head? ≠ some ' ') (h : tokens ' ' cmd = w :: ws) (hw : w ≠ ['a', 'p', 'r', 'u', 'n']) :
    parseLaunchCmd cmd nodeCores cores = .error .launcher := by
  have : cmd.takeWhile (· ≠ ' ') = w := by
    have hW := (C129_words ' ' cmd _).mpr h
    cases hW with
    | gap _ => simp at hc
    | last _ h2 =>
      exact takeWhile_all _ _ fun a ha => by
        have : a ≠ ' ' := fun e => h2 (e ▸ ha)
        simpa using this
    | word _ h2 _ =>
      rw [List.takeWhile_append_of_pos]
      · simp
      · intro a ha
        have : a ≠ ' ' := fun e => h2 (e ▸ ha)
        simpa using this
  unfold parseLaunchCmd
  rw [this, if_neg hw]

example : parseLaunchCmd ['s', 'r', 'u', 'n', ' ', '-', 'n', ' ', '4'] 1 [] = .error .launcher := by decide +kernel

/-- Without a command the parameters `size` and `tasks_per_node` say how many processes there are. -/
theorem C131_size (a : AppPar) (h : a.cmd = none) : request a = .ok (a.size, a.tasksPerNode, a.cores) := by
  unfold request; rw [h]

/-- The option `-d`, which the table of options has, ends the simulation. -/
theorem C131_depth_refuted (ws us : List Str) (g : Got) (os : List Opt) (h : ws = os.flatMap Opt.words) : options (ws ++ ['-', 'd'] :: us) g = .error .option := by
  subst h
  induction os generalizing g with
  | nil => exact options_d us g
  | cons o os ih =>
    rw [List.flatMap_cons, List.append_assoc]
    cases o with
    | n k =>
      simp only [Opt.words, List.cons_append, List.nil_append]
      rw [options_n]
      exact ih _
    | perNode k =>
      simp only [Opt.words, List.cons_append, List.nil_append]
      rw [options_perNode]
      exact ih _
    | ss =>
      simp only [Opt.words, List.cons_append, List.nil_append]
      rw [options_ss]
      exact ih _
    | cc v =>
      simp only [Opt.words, List.cons_append, List.nil_append]
      rw [options_cc]
      exact ih _
    | socket k =>
      simp only [Opt.words, List.cons_append, List.nil_append]
      rw [options_S]
      exact ih _

/-- A negative number of processes per node is accepted, and no node is asked for. -/
theorem C131_per_node_refuted : ∃ (cmd : Str) (p : Int) (c : List Int), parseLaunchCmd cmd 4 [] = .ok (8, p, c) ∧ p < 0 ∧ numNodes 8 p = 0 :=
  ⟨['a', 'p', 'r', 'u', 'n', ' ', '-', 'n', ' ', '8', ' ', '-', 'N', ' ', '-', '5'], -5, [], by decide +kernel, by decide, by decide⟩

/-- Options of the program are taken for options of `aprun`. -/
theorem C131_program_refuted : parseLaunchCmd ['a', 'p', 'r', 'u', 'n', ' ', '-', 'n', ' ', '4', ' ', 'a', '.', 'o', 'u', 't', ' ', '-', 'n', ' ', '1', '0', '0'] 1 [] = .ok (100, 1, []) := by decide +kernel

/-- A long command overruns an array. -/
theorem C131_long_refuted : ∃ cmd : Str, ['a', 'p', 'r', 'u', 'n', ' ', '-', 'n', ' ', '8', ' '] <+: cmd ∧ parseLaunchCmd cmd 1 [] = .error .overrun :=
  ⟨['a', 'p', 'r', 'u', 'n', ' ', '-', 'n', ' ', '8', ' '] ++ List.replicate 189 'x', List.prefix_append _ _, by decide +kernel⟩

/-- Cores that are asked for have no effect. -/
theorem C131_cores_refuted : ∃ (cmd : Str) (n p : Int) (c : List Int), parseLaunchCmd cmd 1 [] = .ok (n, p, c) ∧ c = [2, 3] ∧ ∀ i, coreAffinity c i = none :=
  ⟨['a', 'p', 'r', 'u', 'n', ' ', '-', 'n', ' ', '2', ' ', '-', 'N', ' ', '2', ' ', '-', 'c', 'c', ' ', '2', ',', '3'], 2, 2, [2, 3], by decide +kernel, rfl, fun _ => rfl⟩

/-- The nodes of a request have room for its processes and there is none too many. -/
theorem C131_nodes (n p : Int) (hn : 0 < n) (hp : 0 < p) : n ≤ numNodes n p * p ∧ (numNodes n p - 1) * p < n := by
  unfold numNodes
  rw [Int.tdiv_eq_ediv_of_nonneg (by omega), Int.tmod_eq_emod_of_nonneg (by omega)]
  have h1 := Int.mul_ediv_add_emod n p
  have h2 := Int.emod_nonneg n (show p ≠ 0 by omega)
  have h3 := Int.emod_lt_of_pos n hp
  rw [Int.mul_comm] at h1
  split
  · constructor
    · rw [Int.add_mul]; omega
    · rw [Int.add_sub_cancel]; omega
  · rename_i h
    have h : n % p = 0 := by simpa using h
    rw [Int.add_zero, Int.sub_mul]
    constructor <;> omega

/-! ### Which applications are launched -/

theorem scan_mem (has : Nat → Bool) (f aid : Nat) (keep : Bool) (a : Nat) :
    a ∈ scan has f aid keep ↔ has a = true ∧ aid ≤ a ∧ a < aid + f ∧ ∀ b, aid ≤ b → b ≤ a → (b < 10 ∨ (if b = aid then keep = true else has (b - 1) = true)) := by
  induction f generalizing aid keep with
  | zero => simp [scan]; omega
  | succ f ih =>
    unfold scan
    by_cases hk : (keep || decide (aid < 10)) = true
    · rw [if_pos hk]
      have hk' : aid < 10 ∨ keep = true := by simp at hk; rcases hk with h | h; exact Or.inr h; exact Or.inl h
      have step : ∀ x : Bool, has aid = x → (a ∈ scan has f (aid + 1) x ↔ has a = true ∧ aid + 1 ≤ a ∧ a < aid + (f + 1) ∧
          ∀ b, aid ≤ b → b ≤ a → (b < 10 ∨ (if b = aid then keep = true else has (b - 1) = true))) := by
        intro x hx
        rw [ih]
        constructor
        · rintro ⟨h1, h2, h3, h4⟩
          refine ⟨h1, h2, by omega, fun b hb1 hb2 => ?_⟩
          by_cases e : b = aid
          · rw [if_pos e, e]; exact hk'
          · rw [if_neg e]
            have := h4 b (by omega) hb2
            by_cases e2 : b = aid + 1
            · rw [if_pos e2] at this
              rw [e2, Nat.add_sub_cancel, hx]
              rw [e2] at this; exact this
            · rw [if_neg e2] at this; exact this
        · rintro ⟨h1, h2, h3, h4⟩
          refine ⟨h1, h2, by omega, fun b hb1 hb2 => ?_⟩
          have := h4 b (by omega) hb2
          rw [if_neg (by omega)] at this
          by_cases e2 : b = aid + 1
          · rw [if_pos e2]
            rw [e2, Nat.add_sub_cancel, hx] at this
            rw [e2]; exact this
          · rw [if_neg e2]; exact this
      cases hh : has aid with
      | true =>
        rw [if_pos rfl, List.mem_cons, step true hh]
        constructor
        · rintro (rfl | ⟨h1, h2, h3, h4⟩)
          · refine ⟨hh, Nat.le_refl _, by omega, fun b hb1 hb2 => ?_⟩
            have : b = a := by omega
            rw [if_pos this, this]; exact hk'
          · exact ⟨h1, by omega, h3, h4⟩
        · rintro ⟨h1, h2, h3, h4⟩
          by_cases e : a = aid
          · exact Or.inl e
          · exact Or.inr ⟨h1, by omega, h3, h4⟩
      | false =>
        rw [if_neg (by simp), step false hh]
        constructor
        · rintro ⟨h1, h2, h3, h4⟩; exact ⟨h1, by omega, h3, h4⟩
        · rintro ⟨h1, h2, h3, h4⟩
          have : a ≠ aid := by intro e; rw [e, hh] at h1; cases h1
          exact ⟨h1, by omega, h3, h4⟩
    · rw [if_neg hk]
      simp at hk
      constructor
      · intro h; cases h
      · rintro ⟨_, h2, _, h4⟩
        have := h4 aid (Nat.le_refl _) h2
        rw [if_pos rfl, hk.1] at this
        rcases this with h | h
        · omega
        · cases h

theorem le_foldr_max (l : List Nat) (a : Nat) (h : a ∈ l) : a ≤ l.foldr max 0 := by
  induction l with
  | nil => cases h
  | cons b l ih =>
    rw [List.foldr_cons]
    rcases List.mem_cons.mp h with h | h
    · rw [h]; exact Nat.le_max_left _ _
    · exact Nat.le_trans (ih h) (Nat.le_max_right _ _)

/-- The applications that are launched: those with parameters, numbered from 1, for which there is no gap from number 9 on. -/
theorem C131_apps (apps : List Nat) (a : Nat) : a ∈ launched apps ↔ a ∈ apps ∧ 1 ≤ a ∧ ∀ b, 9 ≤ b → b < a → b ∈ apps := by
  unfold launched
  rw [scan_mem]
  simp only [List.contains_iff_mem]
  constructor
  · rintro ⟨h1, h2, _, h4⟩
    refine ⟨h1, h2, fun b hb1 hb2 => ?_⟩
    have := h4 (b + 1) (by omega) (by omega)
    rw [if_neg (by omega), Nat.add_sub_cancel] at this
    rcases this with h | h
    · omega
    · exact h
  · rintro ⟨h1, h2, h3⟩
    have := le_foldr_max apps a h1
    refine ⟨h1, h2, by omega, fun b hb1 hb2 => ?_⟩
    by_cases h : b < 10
    · exact Or.inl h
    · right
      rw [if_neg (by omega)]
      exact h3 (b - 1) (by omega) (by omega)

theorem scan_sorted (has : Nat → Bool) (f aid : Nat) (keep : Bool) : (scan has f aid keep).Pairwise (· < ·) := by
  induction f generalizing aid keep with
  | zero => exact List.Pairwise.nil
  | succ f ih =>
    unfold scan
    split
    · split
      · refine List.pairwise_cons.mpr ⟨fun b hb => ?_, ih _ _⟩
        have := ((scan_mem _ _ _ _ _).mp hb).2.1
        omega
      · exact ih _ _
    · exact List.Pairwise.nil

/-- Each is launched once, in the order of the numbers. -/
theorem C131_apps_once (apps : List Nat) : (launched apps).Pairwise (· < ·) := scan_sorted _ _ _ _

/-- All applications are launched if their numbers are from 1 to 9. -/
theorem C131_apps_partial (apps : List Nat) (h : ∀ a, a ∈ apps → 1 ≤ a ∧ a ≤ 9) (a : Nat) : a ∈ launched apps ↔ a ∈ apps := by
  rw [C131_apps]
  constructor
  · exact fun h => h.1
  · intro ha
    have := h a ha
    exact ⟨ha, this.1, fun b h1 h2 => by omega⟩

/-- Number 10 is left out if there is no number 9, and number 0 always is. -/
theorem C131_apps_refuted : 10 ∉ launched [1, 10] ∧ ∀ apps, 0 ∉ launched apps :=
  ⟨by decide, fun apps h => by have := ((C131_apps apps 0).mp h).2.1; omega⟩

/-- Eleven applications in a row are launched. -/
example : launched [1, 2, 3, 4, 5, 6, 7, 8, 9, 10, 11] = [1, 2, 3, 4, 5, 6, 7, 8, 9, 10, 11] ∧ launched [2, 7] = [2, 7] ∧ serviceIds [2, 7] 2 = [8, 9] := by decide

/-- Applications and services have different numbers. -/
theorem C131_services (apps : List Nat) (k : Nat) : (launched apps ++ serviceIds apps k).Nodup := by
  rw [List.nodup_append]
  refine ⟨(C131_apps_once apps).imp fun h => Nat.ne_of_lt h, ?_, ?_⟩
  · unfold serviceIds
    rw [List.Nodup, List.pairwise_map]
    exact List.nodup_range.imp fun h => by omega
  · intro a ha b hb
    unfold serviceIds at hb
    obtain ⟨i, _, rfl⟩ := List.mem_map.mp hb
    have : a ≤ (launched apps).getLast?.getD 0 := by
      have hs := C131_apps_once apps
      generalize launched apps = l at ha hs
      induction l using snoc with
      | h0 => cases ha
      | h1 l c _ =>
        rw [List.getLast?_append]
        simp only [List.getLast?_singleton, Option.some_or, Option.getD_some]
        rcases List.mem_append.mp ha with h | h
        · have := (List.pairwise_append.mp hs).2.2 a h c (by simp); omega
        · simp at h; omega
    omega

/-- What a parameter of an application is. -/
theorem C131_params (common own : List (Str × Str)) (hn : (common.map (·.1)).Nodup) (k : Str) :
    find (appParams common own) k = match find common k with | some v => some v | none => find own k := by
  unfold appParams
  induction common generalizing own with
  | nil => rfl
  | cons a l ih =>
    obtain ⟨a, b⟩ := a
    rw [List.map_cons, List.nodup_cons] at hn
    rw [List.foldl_cons, ih _ hn.2, find_put]
    have hf : find ((a, b) :: l) k = if a = k then some b else find l k := rfl
    rw [hf]
    by_cases e : k = a
    · subst e
      rw [if_pos rfl, if_pos rfl]
      have : find l k = none := by
        cases hx : find l k with
        | none => rfl
        | some v =>
          exfalso
          apply hn.1
          have : ∀ l : List (Str × Str), find l k = some v → k ∈ l.map (·.1) := by
            intro l
            induction l with
            | nil => intro h; cases h
            | cons c l ihl =>
              obtain ⟨c, d⟩ := c
              intro h
              unfold find at h
              split at h
              · rename_i e; simp [e]
              · rw [List.map_cons, List.mem_cons]; right; exact ihl h
          exact this l hx
      rw [this]
    · rw [if_neg e, if_neg (fun h => e h.symm)]

/-- A parameter of one application is lost if it is given for all applications as well. -/
theorem C131_params_refuted (common own : List (Str × Str)) (hn : (common.map (·.1)).Nodup) (k v w : Str) (h1 : find common k = some v) (_h2 : find own k = some w) :
    find (appParams common own) k = some v := by rw [C131_params common own hn, h1]

example : find (appParams [(['a', 'r', 'g', 'v'], ['1'])] [(['a', 'r', 'g', 'v'], ['2']), (['s', 'i', 'z', 'e'], ['4'])]) ['a', 'r', 'g', 'v'] = some ['1'] := by decide

/-! ### A network to measure -/

/-- The network has a node for each process of the largest application. -/
theorem C131_auto_partial (as : List AppPar) (m : Int) (h : autoNodes as = .ok m) (a : AppPar) (ha : a ∈ as) : ∃ n, autoProcs a = .ok n ∧ n ≤ m := by
  induction as generalizing m with
  | nil => cases ha
  | cons b l ih =>
    unfold autoNodes at h
    cases hb : autoProcs b with
    | error e => rw [hb] at h; cases h
    | ok n =>
      cases hl : autoNodes l with
      | error e => rw [hb, hl] at h; cases h
      | ok k =>
        rw [hb, hl] at h
        cases h
        rcases List.mem_cons.mp ha with rfl | ha
        · exact ⟨n, hb, Int.le_max_left _ _⟩
        · obtain ⟨n', h1, h2⟩ := ih k hl ha
          exact ⟨n', h1, Int.le_trans h2 (Int.le_max_right _ _)⟩

/-- With a size instead of a command it fails, whatever the size. -/
theorem C131_auto_size_refuted (size perNode : Int) : autoProcs { size := size, tasksPerNode := perNode } = .error .procs := by
  have : parseLaunchCmd ['a', 'p', 'r', 'u', 'n', ' ', '-', 'n', ' ', '0', ' ', '-', 'N', ' ', '1'] 1 [] = .error .procs := by decide +kernel
  unfold autoProcs
  simp only [Option.getD_none, this]

/-- Two applications at a time need more nodes than it has. -/
theorem C131_auto_refuted : autoNodes [{ cmd := some ['a', 'p', 'r', 'u', 'n', ' ', '-', 'n', ' ', '4', ' ', '-', 'N', ' ', '1'] }, { cmd := some ['a', 'p', 'r', 'u', 'n', ' ', '-', 'n', ' ', '4', ' ', '-', 'N', ' ', '1'] }] = .ok 4 ∧ numNodes 4 1 + numNodes 4 1 = 8 :=
  by decide +kernel

/-! ### The table of mappings -/

/-- Is an addition. -/
def MapEv.isAdd {M : Type} : MapEv M → Bool
  | .add _ => true
  | _ => false

/-- Is a removal. -/
def MapEv.isRemove {M : Type} : MapEv M → Bool
  | .remove => true
  | _ => false

/-- All calls are about one mapping, and no more is removed than was added. -/
def MapOk {M : Type} (m : M) (h : List (MapEv M)) : Prop :=
  (∀ e, e ∈ h → e = .add m ∨ e = .remove ∨ e = .unpack m) ∧ ∀ g, g <+: h → g.countP MapEv.isRemove ≤ g.countP MapEv.isAdd

theorem map_inv {M : Type} (m : M) (h : List (MapEv M)) (ho : MapOk m h) :
    (mapRun h).refs = h.countP MapEv.isAdd - h.countP MapEv.isRemove ∧ ((mapRun h).mapping = none ∨ (mapRun h).mapping = some m) ∧ (0 < (mapRun h).refs → (mapRun h).mapping = some m) := by
  induction h using snoc with
  | h0 => exact ⟨rfl, Or.inl rfl, fun h => by cases h⟩
  | h1 l e ih =>
    have hp : MapOk m l := ⟨fun e he => ho.1 e (by simp [he]), fun g hg => ho.2 g (hg.trans (List.prefix_append _ _))⟩
    obtain ⟨i1, i2, i3⟩ := ih hp
    have hle := ho.2 (l ++ [e]) (List.prefix_refl _)
    have er : mapRun (l ++ [e]) = mapStep (mapRun l) e := by unfold mapRun; rw [List.foldl_append]; rfl
    rw [er]
    simp only [List.countP_append] at hle ⊢
    rcases ho.1 e (by simp) with rfl | rfl | rfl
    · simp [mapStep, MapEv.isAdd, MapEv.isRemove]; omega
    · have c1 : [(MapEv.remove : MapEv M)].countP MapEv.isAdd = 0 := rfl
      have c2 : [(MapEv.remove : MapEv M)].countP MapEv.isRemove = 1 := rfl
      rw [c1, c2] at hle ⊢
      unfold mapStep
      by_cases h0 : (mapRun l).refs - 1 = 0
      · simp only [if_pos h0]
        exact ⟨by omega, Or.inl trivial, fun h => absurd h (by omega)⟩
      · simp only [if_neg h0]
        exact ⟨by omega, i2, fun h => i3 (by omega)⟩
    · have c1 : [(MapEv.unpack m : MapEv M)].countP MapEv.isAdd = 0 := rfl
      have c2 : [(MapEv.unpack m : MapEv M)].countP MapEv.isRemove = 0 := rfl
      rw [c1, c2]
      unfold mapStep
      cases hm : (mapRun l).mapping with
      | none =>
        simp only
        exact ⟨by omega, Or.inr trivial, fun _ => trivial⟩
      | some x =>
        simp only
        exact ⟨by omega, i2, i3⟩

/-- While a process of an application runs in a simulator process, or its job is not cleaned up there, the mapping of its ranks is found. -/
theorem C131_mapping_partial {M : Type} (m : M) (h : List (MapEv M)) (ho : MapOk m h) (hr : h.countP MapEv.isRemove < h.countP MapEv.isAdd) : globalMapping (mapRun h) = some m := by
  obtain ⟨h1, _, h3⟩ := map_inv m h ho
  exact h3 (by omega)

/-- A mapping that is found is the right one. -/
theorem C131_mapping_right {M : Type} (m : M) (h : List (MapEv M)) (ho : MapOk m h) (x : M) (hx : globalMapping (mapRun h) = some x) : x = m := by
  obtain ⟨_, h2, _⟩ := map_inv m h ho
  unfold globalMapping at hx
  rcases h2 with h2 | h2 <;> rw [h2] at hx <;> cases hx
  rfl

/-- When the only process of an application in a simulator process has ended, the message that starts the next process can no longer be
packed there. -/
theorem C131_mapping_refuted : MapOk 7 [.unpack 7, .add 7, .remove] ∧ globalMapping (mapRun [.unpack 7, .add 7, .remove]) = none := by
  refine ⟨⟨by simp, ?_⟩, rfl⟩
  intro g hg
  simp [List.prefix_cons_iff] at hg
  rcases hg with rfl | ⟨_, rfl, rfl | ⟨_, rfl, rfl | rfl⟩⟩ <;> simp [MapEv.isAdd, MapEv.isRemove]

/-- Two processes, of which one has ended. -/
example : globalMapping (mapRun [.unpack 7, .add 7, .unpack 7, .add 7, .remove]) = some 7 := rfl

end Verif.Launch.Request
