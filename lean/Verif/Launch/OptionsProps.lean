import Verif.Launch.Options
import Verif.Os.AppEnvProps
set_option autoImplicit false

/-!
# Theorems about options of the command line
-/

namespace Verif.Launch.Options

open Verif.Os.AppEnv (Str snoc)

/-! ### Specification -/

/-- Whether an option is `-e`. -/
def isExe : Opt → Bool
  | .exe _ => true
  | _ => false

/-- The value that one option gives to a parameter; `n` is the number of the application if it is `-e`. -/
def says (files : Str → P) (n : Nat) (k : Str) : Opt → Option Str
  | .exe v => if k = kExe n then some v else none
  | .nproc v => if k = kLaunch then some (launchCmd v) else none
  | .app v => if k = kName then some v else none
  | .argv v => if k = kArgv then some v else none
  | .param k' v => if k = k' then some v else none
  | .affinity v => if k = kAffinity then some v else none
  | .auto => files fDebug k
  | .incl v => files v k
  | _ => none

/-- The value from the last option that gives one; the options are given from the last one to the first one. -/
def latest (files : Str → P) (k : Str) : List Opt → Option Str
  | [] => none
  | o :: earlier => (says files (earlier.countP isExe + 1) k o).or (latest files k earlier)

/-- The value of the last option of a kind. -/
def lastOf (g : Opt → Option Str) (opts : List Opt) : Option Str := opts.reverse.findSome? g

/-- The file of `-f`. -/
def fileOf : Opt → Option Str
  | .file v => some v
  | _ => none

/-- The value that a flag forces, or that the files of `--inf` give. -/
def forced (files : Str → P) (opts : List Opt) (k : Str) : Option Str :=
  if k = kName ∧ .flag .printNodes ∈ opts then some aNodes
  else if k = kName ∧ .flag .pingAll ∈ opts then some aPing
  else if k = kArb ∧ .flag .noCongestion ∈ opts then some vNull
  else if k = kName ∧ .flag .dumpi ∈ opts then some aDumpi
  else if k = kName ∧ .flag .otf2 ∈ opts then some aOtf2
  else if .flag .inf ∈ opts then files fInf k
  else none

/-- The value from the file that replays of traces read if there is no machine. -/
def traceDefault (files : Str → P) (opts : List Opt) (k : Str) : Option Str :=
  if (.flag .dumpi ∈ opts ∨ .flag .otf2 ∈ opts) ∧ .auto ∉ opts ∧ .flag .inf ∉ opts then files fDebug k else none

/-- The configuration file that is read. -/
def config (opts : List Opt) : Option Str :=
  match lastOf fileOf opts with
  | none => none
  | some f => some (if .flag .mpitest ∈ opts then fMpitest else if .flag .macrels ∈ opts then fMacrels else if .flag .pisces ∈ opts then fPisces else f)

/-- An option that ends the loop. -/
def stops : Opt → Option Res
  | .help => some .success
  | .other _ => some .fail
  | _ => none

/-- A machine is chosen by `-a`, `--inf`, `--dumpi` or `--otf2`. -/
def Machine (opts : List Opt) : Prop := .auto ∈ opts ∨ .flag .inf ∈ opts ∨ .flag .dumpi ∈ opts ∨ .flag .otf2 ∈ opts

/-! ### Proofs -/

theorem loop_cons (files : Str → P) (a : Acc) (o : Opt) (r : List Opt) (h : stops o = none) : loop files a (o :: r) = loop files (step files a o) r := by
  cases o <;> first | rfl | cases h

theorem loop_stop (files : Str → P) (a : Acc) (o : Opt) (r : List Opt) (x : Res) (h : stops o = some x) : loop files a (o :: r) = .inl x := by
  cases o <;> first | (cases h; rfl) | cases h

theorem loop_fold (files : Str → P) (a : Acc) (opts : List Opt) (h : ∀ o, o ∈ opts → stops o = none) : loop files a opts = .inr (opts.foldl (step files) a) := by
  induction opts generalizing a with
  | nil => rfl
  | cons o r ih =>
    rw [loop_cons files a o r (h o (by simp)), ih _ fun x hx => h x (by simp [hx])]
    rfl

/-- The accumulated options. -/
structure After (files : Str → P) (opts : List Opt) (a : Acc) : Prop where
  flags : ∀ f, a.flags f = true ↔ .flag f ∈ opts
  need : a.need = false ↔ .auto ∈ opts ∨ ∃ v, .benchmark v ∈ opts
  machine : a.machine = true ↔ .auto ∈ opts
  exes : a.exes = opts.countP isExe + 1
  file : a.o.configfile = (lastOf fileOf opts).getD []
  got : a.o.got = (lastOf fileOf opts).isSome
  params : ∀ k, a.o.params k = latest files k opts.reverse
  bench : a.o.benchmark = (lastOf (fun | .benchmark v => some v | _ => none) opts).getD []
  graph : a.o.graph = (lastOf (fun | .graph v => some v | _ => none) opts).getD []
  xyz : a.o.xyz = (lastOf (fun | .xyz v => some v | _ => none) opts).getD []
  dump : a.o.dump = (lastOf (fun | .dump v => some v | _ => none) opts).getD []

theorem lastOf_snoc (g : Opt → Option Str) (l : List Opt) (e : Opt) : lastOf g (l ++ [e]) = (g e).or (lastOf g l) := by
  unfold lastOf
  rw [List.reverse_append, List.reverse_singleton, List.singleton_append, List.findSome?_cons]
  cases g e <;> rfl

theorem latest_snoc (files : Str → P) (k : Str) (l : List Opt) (e : Opt) : latest files k (l ++ [e]).reverse = (says files (l.countP isExe + 1) k e).or (latest files k l.reverse) := by
  rw [List.reverse_append, List.reverse_singleton, List.singleton_append]
  show (says files (l.reverse.countP isExe + 1) k e).or _ = _
  rw [List.countP_reverse]

theorem after_fold (files : Str → P) (opts : List Opt) : After files opts (opts.foldl (step files) .init) := by
  induction opts using snoc with
  | h0 => exact ⟨fun f => by simp [Acc.init], by simp [Acc.init], by simp [Acc.init], rfl, rfl, rfl, fun k => rfl, rfl, rfl, rfl, rfl⟩
  | h1 l e ih =>
    rw [List.foldl_append, List.foldl_cons, List.foldl_nil]
    generalize l.foldl (step files) .init = a at ih
    have hset : ∀ k v k', (a.o.params.set k v) k' = (if k' = k then some v else none).or (latest files k' l.reverse) := by
      intro k v k'
      unfold P.set
      rw [ih.params]
      split <;> rfl
    have hover : ∀ f k', (a.o.params.over (files f)) k' = (files f k').or (latest files k' l.reverse) := by
      intro f k'
      unfold P.over
      rw [ih.params]
      cases files f k' <;> rfl
    cases e <;> refine ⟨fun g => ?_, ?_, ?_, ?_, ?_, ?_, fun k => ?_, ?_, ?_, ?_, ?_⟩ <;>
      first
        | (rw [latest_snoc]; first | exact hset _ _ k | exact hover _ k | exact ih.params k | (show (a.o.params.set (kExe a.exes) _) k = _; rw [hset, ih.exes]; rfl))
        | (rw [lastOf_snoc]; first | exact ih.file | exact ih.got | exact ih.bench | exact ih.graph | exact ih.xyz | exact ih.dump | rfl)
        | (rw [List.countP_append]; first | exact ih.exes | (show a.exes + 1 = _; rw [ih.exes]; rfl))
        | (simp only [step, Acc.put, List.mem_append, List.mem_singleton, ih.need, ih.machine, ih.flags, reduceCtorEq, or_false, exists_or, exists_const]; try simp; try (rw [ih.flags]; exact or_comm))

theorem flags_inf (files : Str → P) (a : Acc) : (afterInf files a).flags = a.flags := by unfold afterInf; split <;> rfl

theorem flags_trace (files : Str → P) (a : Acc) : (afterTrace files a).flags = a.flags := by unfold afterTrace; split <;> rfl

theorem file_inf (files : Str → P) (a : Acc) : (afterInf files a).o.configfile = a.o.configfile := by unfold afterInf; split <;> rfl

theorem file_trace (files : Str → P) (a : Acc) : (afterTrace files a).o.configfile = a.o.configfile := by unfold afterTrace; split <;> rfl

theorem got_inf (files : Str → P) (a : Acc) : (afterInf files a).o.got = a.o.got := by unfold afterInf; split <;> rfl

theorem got_trace (files : Str → P) (a : Acc) : (afterTrace files a).o.got = a.o.got := by unfold afterTrace; split <;> rfl

theorem need_trace (files : Str → P) (a : Acc) : (afterTrace files (afterInf files a)).need = (a.need && !a.flags .inf && !(a.flags .dumpi || a.flags .otf2)) := by
  unfold afterTrace
  rw [flags_inf]
  cases h : (a.flags .dumpi || a.flags .otf2) with
  | true => simp
  | false => unfold afterInf; cases hi : a.flags .inf <;> simp

theorem machine_trace (files : Str → P) (a : Acc) : (afterTrace files (afterInf files a)).machine = (a.machine || a.flags .inf || a.flags .dumpi || a.flags .otf2) := by
  unfold afterTrace
  rw [flags_inf]
  cases h : (a.flags .dumpi || a.flags .otf2) with
  | true => rw [Bool.or_assoc (a.machine || _), h]; simp
  | false => rw [Bool.or_assoc (a.machine || _), h]; unfold afterInf; cases hi : a.flags .inf <;> simp

/-! ### Theorems -/

/-- The command line is refused, asked to print something, or accepted, exactly as follows: the first option that asks for help or is not known
decides; then `--debug-flags`; then two machines; then no configuration file; then a machine with `--pisces` or `--macrels`; then `--mpitest`
with a configuration file. -/
theorem C137_outcome (files : Str → P) (opts : List Opt) :
    (∀ a o b r, opts = a ++ o :: b → (∀ x, x ∈ a → stops x = none) → stops o = some r → parse files opts = r) ∧
    ((∀ x, x ∈ opts → stops x = none) →
      (.flag .debugFlags ∈ opts → parse files opts = .success) ∧
      (.flag .debugFlags ∉ opts → .auto ∈ opts ∧ .flag .inf ∈ opts → parse files opts = .abort) ∧
      (.flag .debugFlags ∉ opts → ¬ (.auto ∈ opts ∧ .flag .inf ∈ opts) →
        ((lastOf fileOf opts).getD [] = [] ∧ ¬ Machine opts ∧ (∀ v, .benchmark v ∉ opts) → parse files opts = .fail) ∧
        (Machine opts ∧ (.flag .pisces ∈ opts ∨ .flag .macrels ∈ opts) → parse files opts = .abort) ∧
        (¬ ((lastOf fileOf opts).getD [] = [] ∧ ¬ Machine opts ∧ ∀ v, .benchmark v ∉ opts) → ¬ (Machine opts ∧ (.flag .pisces ∈ opts ∨ .flag .macrels ∈ opts)) →
          (.flag .mpitest ∈ opts ∧ ((lastOf fileOf opts).getD [] ≠ [] ∨ .flag .pisces ∈ opts ∨ .flag .macrels ∈ opts) → parse files opts = .fail) ∧
          (¬ (.flag .mpitest ∈ opts ∧ ((lastOf fileOf opts).getD [] ≠ [] ∨ .flag .pisces ∈ opts ∨ .flag .macrels ∈ opts)) → ∃ o, parse files opts = .ok o)))) := by
  constructor
  · intro a o b r ho ha hr
    subst ho
    unfold parse
    have : ∀ c : Acc, loop files c (a ++ o :: b) = .inl r := by
      induction a with
      | nil => intro c; exact loop_stop files c o b r hr
      | cons x a ih =>
        intro c
        rw [List.cons_append, loop_cons files c x _ (ha x (by simp))]
        exact ih (fun y hy => ha y (by simp [hy])) _
    rw [this]
  · intro hs
    have hp : parse files opts = finish files (opts.foldl (step files) .init) := by
      unfold parse
      rw [loop_fold files _ opts hs]
    have hA := after_fold files opts
    generalize opts.foldl (step files) .init = a at hp hA
    rw [hp]
    unfold finish
    simp only [flags_trace, flags_inf, file_trace, file_inf, need_trace, machine_trace]
    have hm : (a.machine || a.flags .inf || a.flags .dumpi || a.flags .otf2) = true ↔ Machine opts := by
      simp only [Bool.or_eq_true, hA.machine, hA.flags, Machine, or_assoc]
    have hn : (a.need && !a.flags .inf && !(a.flags .dumpi || a.flags .otf2)) = true ↔ ¬ Machine opts ∧ ∀ v, .benchmark v ∉ opts := by
      rw [Bool.and_eq_true, Bool.and_eq_true, Bool.not_eq_true', Bool.not_eq_true', ← Bool.not_eq_false, hA.need, ← Bool.not_eq_true, ← Bool.not_eq_true, hA.flags, Bool.or_eq_true, hA.flags, hA.flags]
      unfold Machine
      constructor
      · rintro ⟨⟨h1, h2⟩, h3⟩
        exact ⟨fun h => h.elim (fun h => h1 (Or.inl h)) fun h => h.elim h2 h3, fun v hv => h1 (Or.inr ⟨v, hv⟩)⟩
      · rintro ⟨h1, h2⟩
        exact ⟨⟨fun h => h.elim (fun h => h1 (Or.inl h)) fun ⟨v, hv⟩ => h2 v hv, fun h => h1 (Or.inr (Or.inl h))⟩, fun h => h1 (Or.inr (Or.inr h))⟩
    refine ⟨fun h => ?_, fun h1 h2 => ?_, fun h1 h2 => ?_⟩
    · rw [if_pos ((hA.flags _).mpr h)]
    · rw [if_neg (by rw [hA.flags]; exact h1), if_pos (by rw [Bool.and_eq_true, hA.flags, hA.machine]; exact ⟨h2.2, h2.1⟩)]
    · rw [if_neg (by rw [hA.flags]; exact h1), if_neg (by rw [Bool.and_eq_true, hA.flags, hA.machine]; exact fun h => h2 ⟨h.2, h.1⟩)]
      have hc1 : (decide (a.o.configfile = []) && (a.need && !a.flags .inf && !(a.flags .dumpi || a.flags .otf2))) = true ↔ (lastOf fileOf opts).getD [] = [] ∧ ¬ Machine opts ∧ ∀ v, .benchmark v ∉ opts := by
        rw [Bool.and_eq_true, hn, decide_eq_true_iff, hA.file]
      have hc2 : ((a.flags .pisces || a.flags .macrels) && (a.machine || a.flags .inf || a.flags .dumpi || a.flags .otf2)) = true ↔ Machine opts ∧ (.flag .pisces ∈ opts ∨ .flag .macrels ∈ opts) := by
        rw [Bool.and_eq_true, hm, Bool.or_eq_true, hA.flags, hA.flags, and_comm]
      have hc3 : (a.flags .mpitest && !(decide (a.o.configfile = []) && !a.flags .pisces && !a.flags .macrels)) = true ↔ .flag .mpitest ∈ opts ∧ ((lastOf fileOf opts).getD [] ≠ [] ∨ .flag .pisces ∈ opts ∨ .flag .macrels ∈ opts) := by
        rw [Bool.and_eq_true, hA.flags, hA.file, Bool.not_and, Bool.not_and, Bool.not_not, Bool.not_not, Bool.or_eq_true, Bool.or_eq_true, hA.flags, hA.flags, or_assoc]
        simp
      refine ⟨fun h => ?_, fun h => ?_, fun h3 h4 => ⟨fun h => ?_, fun h => ?_⟩⟩
      · rw [if_pos (hc1.mpr h)]
      · rw [if_neg (fun h' => (hc1.mp h').2.1 h.1), if_pos (hc2.mpr h)]
      · rw [if_neg (fun h' => h3 (hc1.mp h')), if_neg (fun h' => h4 (hc2.mp h')), if_pos (hc3.mpr h)]
      · rw [if_neg (fun h' => h3 (hc1.mp h')), if_neg (fun h' => h4 (hc2.mp h')), if_neg (fun h' => h (hc3.mp h'))]
        exact ⟨_, rfl⟩

theorem parse_ok {files : Str → P} {opts : List Opt} {o : Opts} (h : parse files opts = .ok o) :
    ∃ a, After files opts a ∧ o = afterFlags (afterTrace files (afterInf files a)) ∧ (.auto ∈ opts → .flag .inf ∉ opts) := by
  have hs : ∀ x, x ∈ opts → stops x = none := by
    apply Classical.byContradiction
    intro hn
    have : ∃ a x b r, opts = a ++ x :: b ∧ (∀ y, y ∈ a → stops y = none) ∧ stops x = some r := by
      clear h
      induction opts with
      | nil => exact absurd (fun x hx => (by cases hx)) hn
      | cons y l ih =>
        cases hy : stops y with
        | some r => exact ⟨[], y, l, r, rfl, fun z hz => (by cases hz), hy⟩
        | none =>
          obtain ⟨a, x, b, r, h1, h2, h3⟩ := ih fun h => hn fun x hx => (by
            rcases List.mem_cons.mp hx with hx | hx
            · subst hx; exact hy
            · exact h x hx)
          refine ⟨y :: a, x, b, r, by rw [h1]; rfl, fun z hz => ?_, h3⟩
          rcases List.mem_cons.mp hz with hz | hz
          · subst hz; exact hy
          · exact h2 z hz
    obtain ⟨a, x, b, r, h1, h2, h3⟩ := this
    have := (C137_outcome files opts).1 a x b r h1 h2 h3
    rw [h] at this
    subst this
    cases x <;> cases h3
  have hA := after_fold files opts
  unfold parse at h
  rw [loop_fold files _ opts hs] at h
  simp only at h
  generalize opts.foldl (step files) .init = a at h hA
  unfold finish at h
  split at h
  · cases h
  · split at h
    · cases h
    · next hni =>
      simp only at h
      split at h
      · cases h
      · split at h
        · cases h
        · split at h
          · cases h
          · cases h
            refine ⟨a, hA, rfl, fun h1 h2 => hni ?_⟩
            rw [Bool.and_eq_true, hA.flags, hA.machine]
            exact ⟨h2, h1⟩

/-- The value of every parameter: from the flags, then from the last option that gives one, then the machine of replays, then the
configuration file. -/
theorem C137_values (files : Str → P) (opts : List Opt) (o : Opts) (h : parse files opts = .ok o) (rank nproc k : Str) (h1 : k ≠ kRank) (h2 : k ≠ kNproc) :
    initParams files o rank nproc k = (forced files opts k).or ((latest files k opts.reverse).or ((traceDefault files opts k).or ((config opts).bind fun f => files f k))) := by
  obtain ⟨a, hA, rfl, hex⟩ := parse_ok h
  have hcfg : (if a.o.got = true then files (if a.flags .mpitest = true then fMpitest else if a.flags .macrels = true then fMacrels else if a.flags .pisces = true then fPisces else a.o.configfile) else P.empty) k =
      (config opts).bind fun f => files f k := by
    unfold config
    rw [hA.got, hA.file]
    simp only [hA.flags]
    cases lastOf fileOf opts with
    | none => rfl
    | some f => rfl
  have hinit : initParams files (afterFlags (afterTrace files (afterInf files a))) rank nproc k =
      ((afterFlags (afterTrace files (afterInf files a))).params k).or ((config opts).bind fun f => files f k) := by
    unfold initParams P.set
    rw [if_neg h2, if_neg h1]
    unfold P.over
    have e1 : (afterFlags (afterTrace files (afterInf files a))).got = a.o.got := by
      show (afterTrace files (afterInf files a)).o.got = _
      rw [got_trace, got_inf]
    have e2 : (afterFlags (afterTrace files (afterInf files a))).configfile = (if a.flags .mpitest = true then fMpitest else if a.flags .macrels = true then fMacrels else if a.flags .pisces = true then fPisces else a.o.configfile) := by
      unfold afterFlags
      simp only [flags_trace, flags_inf, file_trace, file_inf]
    rw [e1, e2, hcfg]
    cases (afterFlags (afterTrace files (afterInf files a))).params k <;> rfl
  rw [hinit, ← Option.or_assoc, ← Option.or_assoc]
  congr 1
  -- the parameters of the options
  have hinf : (afterInf files a).o.params k = (if .flag .inf ∈ opts then files fInf k else none).or (latest files k opts.reverse) := by
    unfold afterInf
    by_cases hi : a.flags .inf = true
    · rw [if_pos hi, if_pos ((hA.flags _).mp hi)]
      show (a.o.params.over (files fInf)) k = _
      unfold P.over
      rw [hA.params]
      cases files fInf k <;> rfl
    · rw [if_neg hi, if_neg (fun h => hi ((hA.flags _).mpr h)), hA.params]; rfl
  have hmach : (afterInf files a).machine = true ↔ .auto ∈ opts ∨ .flag .inf ∈ opts := by
    unfold afterInf
    by_cases hi : a.flags .inf = true
    · rw [if_pos hi]; exact ⟨fun _ => Or.inr ((hA.flags _).mp hi), fun _ => rfl⟩
    · rw [if_neg hi, hA.machine]
      exact ⟨Or.inl, fun h => h.elim id fun h => absurd ((hA.flags _).mpr h) hi⟩
  have htr : (afterTrace files (afterInf files a)).o.params k =
      ((if k = kName ∧ .flag .dumpi ∈ opts then some aDumpi else if k = kName ∧ .flag .otf2 ∈ opts then some aOtf2 else if .flag .inf ∈ opts then files fInf k else none).or (latest files k opts.reverse)).or (traceDefault files opts k) := by
    unfold afterTrace traceDefault
    rw [flags_inf]
    by_cases hd : (a.flags .dumpi || a.flags .otf2) = true
    · rw [if_pos hd]
      have hd' : .flag .dumpi ∈ opts ∨ .flag .otf2 ∈ opts := by rwa [Bool.or_eq_true, hA.flags, hA.flags] at hd
      simp only [P.set]
      by_cases hk : k = kName
      · rw [if_pos hk]
        by_cases hdu : .flag .dumpi ∈ opts
        · rw [if_pos ((hA.flags _).mpr hdu), if_pos ⟨hk, hdu⟩]; rfl
        · rw [if_neg (fun h => hdu ((hA.flags _).mp h)), if_neg (fun h => hdu h.2), if_pos ⟨hk, hd'.resolve_left hdu⟩]; rfl
      · rw [if_neg hk, if_neg (show ¬ (k = kName ∧ Opt.flag .dumpi ∈ opts) from fun h => hk h.1), if_neg (show ¬ (k = kName ∧ Opt.flag .otf2 ∈ opts) from fun h => hk h.1)]
        by_cases hm : (afterInf files a).machine = true
        · rw [if_pos hm, hinf]
          rw [if_neg (show ¬ ((Opt.flag .dumpi ∈ opts ∨ Opt.flag .otf2 ∈ opts) ∧ Opt.auto ∉ opts ∧ Opt.flag .inf ∉ opts) from fun h => (hmach.mp hm).elim h.2.1 h.2.2)]
          simp
        · rw [if_neg hm]
          have hm' : Opt.auto ∉ opts ∧ Opt.flag .inf ∉ opts := ⟨fun h => hm (hmach.mpr (Or.inl h)), fun h => hm (hmach.mpr (Or.inr h))⟩
          rw [if_pos (show (Opt.flag .dumpi ∈ opts ∨ Opt.flag .otf2 ∈ opts) ∧ Opt.auto ∉ opts ∧ Opt.flag .inf ∉ opts from ⟨hd', hm'⟩)]
          unfold P.keep
          rw [hinf]
          cases (if Opt.flag .inf ∈ opts then files fInf k else none).or (latest files k opts.reverse) <;> rfl
    · rw [if_neg hd, hinf]
      have hd' : ¬ (Opt.flag .dumpi ∈ opts ∨ Opt.flag .otf2 ∈ opts) := by rwa [Bool.or_eq_true, hA.flags, hA.flags] at hd
      rw [if_neg (show ¬ (k = kName ∧ Opt.flag .dumpi ∈ opts) from fun h => hd' (Or.inl h.2)), if_neg (show ¬ (k = kName ∧ Opt.flag .otf2 ∈ opts) from fun h => hd' (Or.inr h.2)),
        if_neg (show ¬ ((Opt.flag .dumpi ∈ opts ∨ Opt.flag .otf2 ∈ opts) ∧ Opt.auto ∉ opts ∧ Opt.flag .inf ∉ opts) from fun h => hd' h.1)]
      simp
  unfold afterFlags forced
  simp only [flags_trace, flags_inf, hA.flags]
  have step1 : ∀ (p : P) (c : Prop) [Decidable c] (key v : Str), (if c then p.set key v else p) k = if k = key ∧ c then some v else p k := by
    intro p c _ key v
    by_cases hc : c
    · rw [if_pos hc]
      unfold P.set
      by_cases hk : k = key
      · rw [if_pos hk, if_pos ⟨hk, hc⟩]
      · rw [if_neg hk, if_neg (fun h => hk h.1)]
    · rw [if_neg hc, if_neg (fun h => hc h.2)]
  rw [step1, step1, step1, htr]
  split
  · rfl
  · split
    · rfl
    · split
      · rfl
      · rfl

/-- Without `-f` no configuration file is read, whatever the flags. -/
theorem C137_no_file (opts : List Opt) (h : ∀ v, .file v ∉ opts) : config opts = none := by
  unfold config
  have : lastOf fileOf opts = none := by
    unfold lastOf
    rw [List.findSome?_eq_none_iff]
    intro x hx
    have hx := List.mem_reverse.mp hx
    cases x <;> first | rfl | exact absurd hx (h _)
  rw [this]

/-- The last value of `-p`, `-n`, `--app`, `-V` and `-c` wins over all before it and over the configuration file. -/
example (files : Str → P) : ∃ o, parse files [.app ['a'], .file ['f'], .param kName ['b'], .exe ['x'], .exe ['y']] = .ok o ∧ (∀ r n, initParams files o r n kName = some ['b']) ∧
    (∀ r n, initParams files o r n (kExe 2) = some ['y']) ∧ ∀ r n, initParams files o r n kArb = files ['f'] kArb := by
  have e1 : kExe 1 = ['n', 'o', 'd', 'e', '.', 'a', 'p', 'p', '1', '.', 'e', 'x', 'e'] := by decide
  have e2 : kExe 2 = ['n', 'o', 'd', 'e', '.', 'a', 'p', 'p', '2', '.', 'e', 'x', 'e'] := by decide
  refine ⟨_, rfl, fun r n => ?_, fun r n => ?_, fun r n => ?_⟩ <;>
  · rw [C137_values files [.app ['a'], .file ['f'], .param kName ['b'], .exe ['x'], .exe ['y']] _ rfl r n _ (by decide) (by decide)]
    simp only [latest, List.reverse_cons, List.reverse_nil, List.nil_append, List.cons_append, says, List.countP_cons, List.countP_nil, isExe, Nat.zero_add, Nat.add_zero, if_true, Bool.false_eq_true, if_false, Nat.reduceAdd, e1, e2]
    rfl

/-- `--pisces`, `--macrels` and `--mpitest` name configuration files of the simulator, but alone they fail; `--mpitest` fails with a
configuration file too; and with `-f` the other two replace the user's file. -/
theorem C137_flags_refuted (files : Str → P) (f : Str) (hf : f ≠ []) :
    parse files [.flag .pisces] = .fail ∧ parse files [.flag .macrels] = .fail ∧ parse files [.flag .mpitest] = .fail ∧ parse files [.file f, .flag .mpitest] = .fail ∧
    ∃ o, parse files [.file f, .flag .pisces] = .ok o ∧ o.configfile = fPisces := by
  refine ⟨rfl, rfl, rfl, ?_, ?_⟩
  · cases f with
    | nil => exact absurd rfl hf
    | cons c f => rfl
  · cases f with
    | nil => exact absurd rfl hf
    | cons c f => exact ⟨_, rfl, rfl⟩

/-- With `-a` and another choice of a machine the program stops, but `--pisces` and `--macrels` together are accepted, and so are `-a` and a
configuration file. -/
theorem C137_conflict_refuted (files : Str → P) (f : Str) (hf : f ≠ []) :
    (∃ o, parse files [.file f, .flag .pisces, .flag .macrels] = .ok o ∧ o.configfile = fMacrels) ∧ ∃ o, parse files [.auto, .file f] = .ok o := by
  cases f with
  | nil => exact absurd rfl hf
  | cons c f => exact ⟨⟨_, rfl, rfl⟩, _, rfl⟩

/-- In a replay of a trace the machine that comes with the simulator replaces that of the configuration file. -/
theorem C137_replay_refuted : ∃ (files : Str → P) (f k : Str) (o : Opts), parse files [.file f, .flag .dumpi] = .ok o ∧ files f k = some ['1'] ∧ initParams files o [] [] k = some ['2'] :=
  ⟨fun x _ => if x = ['f'] then some ['1'] else some ['2'], ['f'], ['k'], _, rfl, rfl, rfl⟩

/-- `-m`, which the help text, help.cc:81-82, describes, is refused, as are `--srun` and others that are accepted as options. -/
theorem C137_help_refuted (files : Str → P) (f : Str) : parse files [.file f, .other 'm'] = .fail ∧ parse files [.file f, .other 's'] = .fail := ⟨rfl, rfl⟩

/-- Parameters keep their names: the table of old names is not used. -/
theorem C137_old_names_refuted : ∃ (p q : P), p kOld ≠ none ∧ remap p none = some q ∧ q kNew = none :=
  ⟨P.empty.set kOld ['t'], _, by decide, rfl, by decide⟩

/-- The other options have the value of the last one, and flags may stand anywhere. -/
theorem C137_others (files : Str → P) (opts : List Opt) (o : Opts) (h : parse files opts = .ok o) :
    (o.useAppRc = true ↔ .flag .useAppRc ∈ opts) ∧ (o.printWall = true ↔ .flag .noWallTime ∉ opts) ∧ (o.printParams = true ↔ .flag .printParams ∈ opts) ∧ (o.lowRes = true ↔ .flag .lowRes ∈ opts) ∧
    o.benchmark = (lastOf (fun | .benchmark v => some v | _ => none) opts).getD [] ∧ o.graph = (lastOf (fun | .graph v => some v | _ => none) opts).getD [] ∧
    o.xyz = (lastOf (fun | .xyz v => some v | _ => none) opts).getD [] ∧ o.dump = (lastOf (fun | .dump v => some v | _ => none) opts).getD [] := by
  obtain ⟨a, hA, rfl, _⟩ := parse_ok h
  have e : ∀ g : Opts → Str, (∀ (q : Opts) (p : P), g { q with params := p } = g q) → g (afterTrace files (afterInf files a)).o = g a.o := by
    intro g hg
    unfold afterTrace
    have hi : g (afterInf files a).o = g a.o := by
      unfold afterInf
      split
      · exact hg _ _
      · rfl
    split
    · exact (hg _ _).trans hi
    · exact hi
  unfold afterFlags
  simp only [flags_trace, flags_inf, hA.flags]
  refine ⟨trivial, ?_, trivial, trivial, ?_, ?_, ?_, ?_⟩
  · rw [Bool.not_eq_true', ← Bool.not_eq_true, hA.flags]
  · exact (e Opts.benchmark fun _ _ => rfl).trans hA.bench
  · exact (e Opts.graph fun _ _ => rfl).trans hA.graph
  · exact (e Opts.xyz fun _ _ => rfl).trans hA.xyz
  · exact (e Opts.dump fun _ _ => rfl).trans hA.dump

example (files : Str → P) : ∃ o, parse files [.graph ['a'], .file ['f'], .flag .lowRes, .graph ['b']] = .ok o ∧ o.graph = ['b'] ∧ o.lowRes = true := ⟨_, rfl, rfl, rfl⟩

end Verif.Launch.Options
