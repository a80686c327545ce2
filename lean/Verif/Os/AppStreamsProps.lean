import Verif.Os.AppStreams
import Verif.Os.AppEnvProps
set_option autoImplicit false

/-!
# Theorems about the output of simulated processes
-/

namespace Verif.Os.AppStreams

open Verif.Os.AppEnv (snoc)

/-- The parameter of a stream. -/
def Opt.of (o : Opt) : Stream → String
  | .out => o.stdout
  | .err => o.stderr
  | .cout => o.cout
  | .cerr => o.cerr

/-- Where a stream should go by its parameter: `none` is the screen. -/
def wanted (o : Opt) (p : Proc) (st : Stream) : Option Name :=
  if o.of st = st.word then none
  else if o.of st = "app" then some (.app st p.1)
  else if o.of st = "rank" then some (.rank st p.1 p.2)
  else some (.given (o.of st))

/-- Where it goes. -/
def Target.name : Target → Option Name
  | .screen => none
  | .file n _ => some n

/-- `stdout` and `std::cout` go where their parameters say; `std::cerr` does except for `rank`; `stderr` does if it is left alone, if
its parameter is that of `stdout`, or if both name files. -/
theorem C130_where_partial (o : Opt) (p : Proc) :
    (target o p .out).name = wanted o p .out ∧ (target o p .cout).name = wanted o p .cout ∧ (o.cerr ≠ "rank" → (target o p .cerr).name = wanted o p .cerr) ∧
    (o.stderr = "stderr" ∨ o.stderr = o.stdout ∨ (o.stdout ≠ "app" ∧ o.stdout ≠ "rank" ∧ o.stderr ≠ "app" ∧ o.stderr ≠ "rank") →
      (target o p .err).name = wanted o p .err) := by
  refine ⟨?_, ?_, ?_, ?_⟩
  · unfold target wanted Opt.of Stream.word
    simp only
    repeat' split
    all_goals rfl
  · unfold target wanted Opt.of Stream.word
    simp only
    repeat' split
    all_goals rfl
  · intro h
    unfold target wanted Opt.of Stream.word
    simp only [if_neg h]
    repeat' split
    all_goals rfl
  · intro h
    unfold target wanted Opt.of Stream.word
    simp only
    rcases h with h | h | ⟨h1, h2, h3, h4⟩
    · rw [if_pos h, if_pos h]; rfl
    · rw [h]
      repeat' split
      all_goals rfl
    · rw [if_neg h1, if_neg h2, if_neg h3, if_neg h4]
      split <;> rfl

/-- `stderr` by rank goes to a file called `rank`, unless `stdout` goes by rank too. -/
theorem C130_stderr_refuted (o : Opt) (p : Proc) (h : o.stderr = "rank") (h1 : o.stdout ≠ "app") (h2 : o.stdout ≠ "rank") :
    target o p .err = .file (.given "rank") true ∧ wanted o p .err = some (.rank .err p.1 p.2) := by
  constructor
  · unfold target; simp only [h, if_neg h1, if_neg h2]; rfl
  · unfold wanted Opt.of; simp only [h]; rfl

/-- A file for `stderr` is not used if `stdout` goes by application. -/
theorem C130_stderr_file_refuted (p : Proc) : target { stdout := "app", stderr := "errors" } p .err = .file (.app .err p.1) true := rfl

/-- `std::cerr` by rank goes to one file for all. -/
theorem C130_cerr_refuted (o : Opt) (p q : Proc) (h : o.cerr = "rank") : target o p .cerr = .file (.given "rank") false ∧ target o q .cerr = target o p .cerr := by
  constructor <;> (unfold target; simp only [h]; rfl)

/-- What a stream has printed since its process was made. -/
def said (h : List Ev) (w : Owner) : Option (List Char) :=
  h.foldl (fun acc e => match e with
    | .start p => if p = w.1 then some [] else acc
    | .write v text => if v = w then acc.map (· ++ text) else acc
    | .flush _ => acc) none

/-- The processes that are made. -/
def starts (h : List Ev) : List Proc := h.filterMap fun | .start p => some p | _ => none

/-- The characters of a stream in a file. -/
def mine (w : Owner) (l : Content) : List Char := (l.filter fun x => x.1 = some w).map (·.2)

/-- Streams that share a file all append to it. -/
def Safe (opts : Proc → Opt) (ps : List Proc) : Prop :=
  ∀ v w : Owner, v.1 ∈ ps → w.1 ∈ ps → v ≠ w → ∀ n a b, target (opts v.1) v.1 v.2 = .file n a → target (opts w.1) w.1 w.2 = .file n b → a = true ∧ b = true

/-- What holds of one stream in state `s`, with what it has said. -/
def Good (opts : Proc → Opt) (s : St) (w : Owner) (text : Option (List Char)) : Prop :=
  match text with
  | none => s.handles w = none
  | some t => ∃ h, s.handles w = some h ∧
    ∀ n a, target (opts w.1) w.1 w.2 = .file n a → mine w (s.files n) ++ h.buf = t ∧ (a = false → (s.files n).length = h.pos ∧ ∀ x, x ∈ s.files n → x.1 = some w)

theorem mine_append (w : Owner) (a b : Content) : mine w (a ++ b) = mine w a ++ mine w b := by unfold mine; rw [List.filter_append, List.map_append]

theorem mine_own (w : Owner) (t : List Char) : mine w (t.map fun c => (some w, c)) = t := by
  unfold mine
  rw [List.filter_eq_self.mpr (by intro x hx; obtain ⟨c, _, rfl⟩ := List.mem_map.mp hx; simp), List.map_map]
  exact List.map_id _

theorem mine_other (w v : Owner) (h : v ≠ w) (t : List Char) : mine w (t.map fun c => (some v, c)) = [] := by
  unfold mine
  rw [List.filter_eq_nil_iff.mpr, List.map_nil]
  intro x hx
  obtain ⟨c, _, rfl⟩ := List.mem_map.mp hx
  simpa using h

/-- Opening a stream of process `p` sets that stream up. -/
theorem openOne_handles (opts : Proc → Opt) (p : Proc) (s : St) (st : Stream) : (openOne opts p s st).handles = upd s.handles (p, st) (some ⟨[], 0⟩) := by
  unfold openOne; split <;> rfl

theorem openOne_files (opts : Proc → Opt) (p : Proc) (s : St) (st : Stream) (n : Name) :
    (openOne opts p s st).files n = s.files n ∨ (target (opts p) p st = .file n false ∧ (openOne opts p s st).files n = []) := by
  unfold openOne
  split
  · rename_i m he
    by_cases e : n = m
    · subst e; right; exact ⟨he, by simp [upd]⟩
    · left; simp [upd, e]
  · left; rfl

/-- A stream is not touched when another one that is safe with it is opened. -/
theorem openOne_other {opts : Proc → Opt} {p : Proc} {s : St} {st : Stream} {w : Owner} {text : Option (List Char)} (hw : w ≠ (p, st))
    (hs : ∀ n a b, target (opts p) p st = .file n a → target (opts w.1) w.1 w.2 = .file n b → a = true ∧ b = true) (hg : Good opts s w text) : Good opts (openOne opts p s st) w text := by
  have hh : (openOne opts p s st).handles w = s.handles w := by rw [openOne_handles]; simp [upd, hw]
  unfold Good at hg ⊢
  cases text with
  | none => simp only at hg ⊢; rw [hh]; exact hg
  | some t =>
    simp only at hg ⊢
    rw [hh]
    obtain ⟨h, h1, h2⟩ := hg
    refine ⟨h, h1, fun n a ht => ?_⟩
    rcases openOne_files opts p s st n with e | ⟨e1, e2⟩
    · rw [e]; exact h2 n a ht
    · have := (hs n false a e1 ht).1; cases this

/-- A stream that is opened for the first time is empty, if nothing of it is in the files. -/
theorem openOne_self {opts : Proc → Opt} {p : Proc} {s : St} {st : Stream} (hf : ∀ n, mine (p, st) (s.files n) = []) : Good opts (openOne opts p s st) (p, st) (some []) := by
  refine ⟨⟨[], 0⟩, by rw [openOne_handles]; simp [upd], fun n a ht => ?_⟩
  replace ht : target (opts p) p st = .file n a := ht
  unfold openOne
  rw [ht]
  cases a with
  | true => exact ⟨by rw [List.append_nil]; exact hf n, fun h => by cases h⟩
  | false => simp [upd, mine]

theorem openOne_mine (opts : Proc → Opt) (p : Proc) (s : St) (st : Stream) (w : Owner) (hf : ∀ n, mine w (s.files n) = []) (n : Name) : mine w ((openOne opts p s st).files n) = [] := by
  rcases openOne_files opts p s st n with e | ⟨_, e⟩
  · rw [e]; exact hf n
  · rw [e]; rfl

/-- Before a stream is opened nothing of it is in the files. -/
def Clean (s : St) : Prop := ∀ w, s.handles w = none → ∀ n, mine w (s.files n) = []

theorem overwrite_end (l : Content) (t : Content) : overwrite l l.length t = l ++ t := by
  unfold overwrite
  rw [List.take_length, Nat.sub_self, List.drop_eq_nil_of_le (by omega)]
  simp

theorem said_snoc (h : List Ev) (e : Ev) (w : Owner) : said (h ++ [e]) w = match e with
    | .start p => if p = w.1 then some [] else said h w
    | .write v text => if v = w then (said h w).map (· ++ text) else said h w
    | .flush _ => said h w := by
  unfold said; rw [List.foldl_append]; rfl

theorem mem_starts {h : List Ev} {w : Owner} (hs : said h w ≠ none) : w.1 ∈ starts h := by
  induction h using snoc with
  | h0 => exact absurd rfl hs
  | h1 l e ih =>
    rw [said_snoc] at hs
    unfold starts
    rw [List.filterMap_append, List.mem_append]
    cases e with
    | start p =>
      simp only at hs
      by_cases e : p = w.1
      · right; simp [e]
      · rw [if_neg e] at hs; left; exact ih hs
    | write v text =>
      left; apply ih
      intro h; rw [h] at hs
      simp at hs
    | flush v => left; exact ih hs

theorem step_other {opts : Proc → Opt} {s : St} {v w : Owner} {text : Option (List Char)} (hvw : w ≠ v) (e : Ev) (he : e = .flush v ∨ ∃ t, e = .write v t)
    (hs : ∀ n a b, target (opts v.1) v.1 v.2 = .file n a → target (opts w.1) w.1 w.2 = .file n b → a = true ∧ b = true) (hg : Good opts s w text) : Good opts (step opts s e) w text := by
  rcases he with rfl | ⟨t, rfl⟩
  · unfold step
    simp only
    cases hv : s.handles v with
    | none => exact hg
    | some h =>
      simp only
      cases ht : target (opts v.1) v.1 v.2 with
      | screen =>
        unfold Good at hg ⊢
        simp only [upd, if_neg hvw]
        exact hg
      | file n a =>
        cases a with
        | true =>
          simp only
          unfold Good at hg ⊢
          cases text with
          | none => simp only [upd, if_neg hvw] at hg ⊢; exact hg
          | some t =>
            simp only [upd, if_neg hvw] at hg ⊢
            obtain ⟨h', h1, h2⟩ := hg
            refine ⟨h', h1, fun m a hm => ?_⟩
            by_cases e : m = n
            · subst e
              have ha := (hs m true a ht hm).2
              subst ha
              rw [if_pos rfl, mine_append, mine_other w v (fun h => hvw h.symm), List.append_nil]
              exact ⟨(h2 m true hm).1, fun h => by cases h⟩
            · rw [if_neg e]; exact h2 m a hm
        | false =>
          simp only
          unfold Good at hg ⊢
          cases text with
          | none => simp only [upd, if_neg hvw] at hg ⊢; exact hg
          | some t =>
            simp only [upd, if_neg hvw] at hg ⊢
            obtain ⟨h', h1, h2⟩ := hg
            refine ⟨h', h1, fun m a hm => ?_⟩
            by_cases e : m = n
            · subst e
              have := (hs m false a ht hm).1
              cases this
            · rw [if_neg e]; exact h2 m a hm
  · unfold step
    simp only
    cases hv : s.handles v with
    | none => exact hg
    | some h =>
      simp only
      unfold Good at hg ⊢
      simp only [upd, if_neg hvw]
      exact hg

/-- Each stream keeps what it has said, in its file and its buffer. -/
theorem good_run (opts : Proc → Opt) (s0 : St) (hclean : Clean s0) (hnone : ∀ w, s0.handles w = none) (h : List Ev) (hn : (starts h).Nodup) (hs : Safe opts (starts h)) :
    (∀ w, Good opts (run opts s0 h) w (said h w)) ∧ Clean (run opts s0 h) := by
  induction h using snoc with
  | h0 => exact ⟨fun w => hnone w, hclean⟩
  | h1 l e ih =>
    have er : run opts s0 (l ++ [e]) = step opts (run opts s0 l) e := by unfold run; rw [List.foldl_append]; rfl
    have sub : ∀ p, p ∈ starts l → p ∈ starts (l ++ [e]) := by intro p hp; unfold starts at hp ⊢; rw [List.filterMap_append]; exact List.mem_append_left _ hp
    have hn' : (starts l).Nodup := by unfold starts at hn ⊢; rw [List.filterMap_append] at hn; exact (List.nodup_append.mp hn).1
    obtain ⟨ig, ic⟩ := ih hn' fun v w hv hw => hs v w (sub _ hv) (sub _ hw)
    rw [er]
    generalize run opts s0 l = s at ig ic ⊢
    cases e with
    | start p =>
      have hp : p ∉ starts l := by
        intro h
        unfold starts at hn h
        rw [List.filterMap_append, List.nodup_append] at hn
        exact hn.2.2 p h p (by simp) rfl
      have hps : p ∈ starts (l ++ [.start p]) := by unfold starts; rw [List.filterMap_append]; simp
      have fresh : ∀ st, s.handles (p, st) = none := by
        intro st
        have := ig (p, st)
        cases hsd : said l (p, st) with
        | none => rw [hsd] at this; exact this
        | some t => exact absurd (mem_starts (w := (p, st)) (by rw [hsd]; simp)) hp
      -- streams one after the other
      have go : ∀ (sts : List Stream) (s : St), sts.Nodup → (∀ st, st ∈ sts → ∀ n, mine (p, st) (s.files n) = []) →
          (∀ w, w.1 ≠ p → Good opts s w (said l w)) → (∀ st, st ∉ sts → Good opts s (p, st) (some [])) → Clean s →
          (∀ w, w.1 ≠ p → Good opts (sts.foldl (openOne opts p) s) w (said l w)) ∧ (∀ st, Good opts (sts.foldl (openOne opts p) s) (p, st) (some [])) ∧
            Clean (sts.foldl (openOne opts p) s) := by
        intro sts
        induction sts with
        | nil => intro s _ _ h1 h2 h3; exact ⟨h1, fun st => h2 st (by simp), h3⟩
        | cons st sts ihs =>
          intro s hnd hm h1 h2 h3
          rw [List.nodup_cons] at hnd
          rw [List.foldl_cons]
          apply ihs _ hnd.2
          · intro st' hst' n
            exact openOne_mine opts p s st (p, st') (hm st' (by simp [hst'])) n
          · intro w hw
            cases hsd : said l w with
            | none =>
              have := h1 w hw
              rw [hsd] at this
              show (openOne opts p s st).handles w = none
              rw [openOne_handles]
              have hne : w ≠ (p, st) := fun h => hw (by rw [h])
              simp only [upd, if_neg hne]
              exact this
            | some t =>
              have := h1 w hw
              rw [hsd] at this
              refine openOne_other (fun h => hw (by rw [h])) ?_ this
              intro n a b ha hb
              exact hs (p, st) w hps (sub _ (mem_starts (by rw [hsd]; simp))) (fun h => hw (by rw [← h])) n a b ha hb
          · intro st' hst'
            by_cases e : st' = st
            · subst e; exact openOne_self (hm st' (by simp))
            · have : st' ∉ st :: sts := by simp [e, hst']
              refine openOne_other (by simp [e]) ?_ (h2 st' this)
              intro n a b ha hb
              exact hs (p, st) (p, st') hps hps (by simp; exact fun h => e h.symm) n a b ha hb
          · intro w hw n
            rw [openOne_handles] at hw
            have hne : w ≠ (p, st) := by
              intro h; simp only [upd, if_pos h] at hw; cases hw
            simp only [upd, if_neg hne] at hw
            exact openOne_mine opts p s st w (h3 w hw) n
      obtain ⟨g1, g2, g3⟩ := go [Stream.out, .err, .cout, .cerr] s (by decide) (fun st _ => ic (p, st) (fresh st)) (fun w _ => ig w)
        (fun st hst => absurd (show st ∈ [Stream.out, .err, .cout, .cerr] by cases st <;> simp) hst) ic
      refine ⟨fun w => ?_, g3⟩
      rw [said_snoc]
      simp only
      by_cases e : p = w.1
      · rw [if_pos e, show w = (p, w.2) by rw [e]]; exact g2 w.2
      · rw [if_neg e]; exact g1 w (fun h => e h.symm)
    | write v t =>
      constructor
      · intro w
        rw [said_snoc]
        simp only
        by_cases e : v = w
        · subst e
          rw [if_pos rfl]
          have := ig v
          unfold Good step at *
          simp only
          cases hsd : said l v with
          | none =>
            rw [hsd] at this
            simp only at this
            simp only [this, Option.map_none]
          | some t0 =>
            rw [hsd] at this
            simp only at this
            obtain ⟨h, h1, h2⟩ := this
            simp only [h1, Option.map_some, upd, if_pos]
            refine ⟨_, rfl, fun n a ht => ?_⟩
            obtain ⟨h3, h4⟩ := h2 n a ht
            exact ⟨by simp only; rw [← List.append_assoc, h3], h4⟩
        · rw [if_neg e]
          have hg := ig w
          unfold step
          simp only
          cases hv : s.handles v with
          | none => exact hg
          | some h =>
            simp only
            unfold Good at hg ⊢
            simp only [upd, if_neg (fun h => e h.symm : ¬ w = v)]
            exact hg
      · intro w hw n
        unfold step at hw ⊢
        simp only at hw ⊢
        cases hv : s.handles v with
        | none => rw [hv] at hw; exact ic w hw n
        | some h =>
          rw [hv] at hw
          simp only at hw ⊢
          apply ic
          simp only [upd] at hw
          split at hw
          · cases hw
          · exact hw
    | flush v =>
      constructor
      · intro w
        rw [said_snoc]
        simp only
        by_cases e : w = v
        · subst e
          have hg := ig w
          unfold Good at hg ⊢
          cases hsd : said l w with
          | none =>
            rw [hsd] at hg
            simp only at hg
            unfold step
            simp only [hg]
          | some t0 =>
            rw [hsd] at hg
            simp only at hg
            obtain ⟨h, h1, h2⟩ := hg
            unfold step
            simp only [h1]
            cases ht : target (opts w.1) w.1 w.2 with
            | screen => exact ⟨⟨[], h.pos⟩, by simp [upd], fun n a hx => by cases hx⟩
            | file m b =>
              obtain ⟨h3, h4⟩ := h2 m b ht
              cases b with
              | true =>
                refine ⟨⟨[], h.pos⟩, by simp [upd], fun n a hx => ?_⟩
                cases hx
                refine ⟨?_, fun h => by cases h⟩
                simp only [upd, if_pos]
                rw [mine_append, mine_own, List.append_nil]
                exact h3
              | false =>
                obtain ⟨h5, h6⟩ := h4 rfl
                refine ⟨⟨[], h.pos + h.buf.length⟩, by simp [upd], fun n a hx => ?_⟩
                cases hx
                simp only [upd, if_pos]
                rw [← h5, overwrite_end]
                refine ⟨by rw [mine_append, mine_own, List.append_nil]; exact h3, fun _ => ⟨by simp, ?_⟩⟩
                intro x hx
                rcases List.mem_append.mp hx with hx | hx
                · exact h6 x hx
                · obtain ⟨c, _, rfl⟩ := List.mem_map.mp hx; rfl
        · cases hsd : said l w with
          | none =>
            have hg := ig w
            rw [hsd] at hg
            show (step opts s (.flush v)).handles w = none
            unfold step
            simp only
            cases hv : s.handles v with
            | none => exact hg
            | some h =>
              simp only
              split <;> (simp only [upd, if_neg e]; exact hg)
          | some t =>
            have hg := ig w
            rw [hsd] at hg
            cases hsv : said l v with
            | none =>
              have := ig v
              rw [hsv] at this
              unfold step
              have this : s.handles v = none := this
              simp only [this]
              exact hg
            | some t' =>
              refine step_other e (.flush v) (Or.inl rfl) ?_ hg
              intro n a b ha hb
              exact hs v w (sub _ (mem_starts (by rw [hsv]; simp))) (sub _ (mem_starts (by rw [hsd]; simp))) (fun h => e h.symm) n a b ha hb
      · intro w hw n
        have key : s.handles w = none ∧ w ≠ v ∨ s.handles v = none ∧ s.handles w = none := by
          unfold step at hw
          simp only at hw
          cases hv : s.handles v with
          | none => rw [hv] at hw; right; exact ⟨rfl, hw⟩
          | some h =>
            rw [hv] at hw
            left
            simp only at hw
            split at hw <;> (simp only [upd] at hw; split at hw; · cases hw
                             · rename_i hne; exact ⟨hw, hne⟩)
        rcases key with ⟨k1, k2⟩ | ⟨k1, k2⟩
        · have base := ic w k1
          unfold step
          simp only
          cases hv : s.handles v with
          | none => exact base n
          | some h =>
            simp only
            have hvw : v ≠ w := fun h => k2 h.symm
            split
            · exact base n
            · rename_i m ht
              simp only [upd]
              split
              · rename_i em; subst em; rw [mine_append, base, mine_other w v hvw]; rfl
              · exact base n
            · rename_i m ht
              simp only [upd]
              split
              · rename_i em
                subst em
                unfold overwrite
                have hb := base n
                have tk : mine w ((s.files n).take h.pos) = [] := by
                  unfold mine at hb ⊢
                  have := (List.take_sublist h.pos (s.files n)).filter (fun x => x.1 = some w)
                  exact List.map_eq_nil_iff.mpr (List.eq_nil_of_sublist_nil (List.map_eq_nil_iff.mp hb ▸ this))
                have dr : ∀ k, mine w ((s.files n).drop k) = [] := by
                  intro k
                  unfold mine at hb ⊢
                  have := (List.drop_sublist k (s.files n)).filter (fun x => x.1 = some w)
                  exact List.map_eq_nil_iff.mpr (List.eq_nil_of_sublist_nil (List.map_eq_nil_iff.mp hb ▸ this))
                have hole : ∀ k, mine w (List.replicate k (none, Char.ofNat 0)) = [] := by
                  intro k
                  unfold mine
                  rw [List.filter_eq_nil_iff.mpr, List.map_nil]
                  intro x hx
                  rw [List.eq_of_mem_replicate hx]; simp
                rw [mine_append, mine_append, mine_append, tk, hole, mine_other w v hvw, dr]; rfl
              · exact base n
        · unfold step
          simp only [k1]
          exact ic w k2 n

/-- If the streams that share a file all append to it, the text of each stream is in its file, complete, once and in order, up to
what is in its buffer. -/
theorem C130_text_partial (opts : Proc → Opt) (s0 : St) (hclean : Clean s0) (hnone : ∀ w, s0.handles w = none) (h : List Ev) (hn : (starts h).Nodup) (hs : Safe opts (starts h))
    (w : Owner) (t : List Char) (ht : said h w = some t) (n : Name) (a : Bool) (hf : target (opts w.1) w.1 w.2 = .file n a) :
    ∃ b, (run opts s0 h).handles w = some b ∧ mine w ((run opts s0 h).files n) ++ b.buf = t := by
  have := (good_run opts s0 hclean hnone h hn hs).1 w
  rw [ht] at this
  obtain ⟨b, h1, h2⟩ := this
  exact ⟨b, h1, (h2 n a hf).1⟩

/-- It is so whatever `stdout` is set to, for all processes together. -/
theorem C130_stdout (x : String) (s0 : St) (hclean : Clean s0) (hnone : ∀ w, s0.handles w = none) (h : List Ev) (hn : (starts h).Nodup)
    (p : Proc) (t : List Char) (ht : said h (p, .out) = some t) (n : Name) (a : Bool) (hf : target { stdout := x } p .out = .file n a) :
    ∃ b, (run (fun _ => { stdout := x }) s0 h).handles (p, .out) = some b ∧ mine (p, .out) ((run (fun _ => { stdout := x }) s0 h).files n) ++ b.buf = t := by
  refine C130_text_partial _ s0 hclean hnone h hn ?_ (p, .out) t ht n a hf
  rintro ⟨⟨p1, p2⟩, st⟩ ⟨⟨q1, q2⟩, su⟩ _ _ hne n a b ha hb
  cases st with
  | err => cases ha
  | cout => cases ha
  | cerr => cases ha
  | out =>
    cases su with
    | err => cases hb
    | cout => cases hb
    | cerr => cases hb
    | out =>
      replace ha : target { stdout := x } (p1, p2) .out = .file n a := ha
      replace hb : target { stdout := x } (q1, q2) .out = .file n b := hb
      unfold target at ha hb
      simp only at ha hb
      by_cases h1 : x = "stdout"
      · rw [if_pos h1] at ha; cases ha
      · rw [if_neg h1] at ha hb
        by_cases h2 : x = "app"
        · rw [if_pos h2] at ha hb
          cases ha; cases hb; exact ⟨rfl, rfl⟩
        · rw [if_neg h2] at ha hb
          by_cases h3 : x = "rank"
          · rw [if_pos h3] at ha hb
            cases ha; cases hb
            exact absurd rfl hne
          · rw [if_neg h3] at ha hb
            cases ha; cases hb; exact ⟨rfl, rfl⟩

/-- `std::cout` by rank keeps all text as well. -/
theorem C130_cout_rank (s0 : St) (hclean : Clean s0) (hnone : ∀ w, s0.handles w = none) (h : List Ev) (hn : (starts h).Nodup)
    (p : Proc) (t : List Char) (ht : said h (p, .cout) = some t) :
    ∃ b, (run (fun _ => { cout := "rank" }) s0 h).handles (p, .cout) = some b ∧ mine (p, .cout) ((run (fun _ => { cout := "rank" }) s0 h).files (.rank .cout p.1 p.2)) ++ b.buf = t := by
  refine C130_text_partial _ s0 hclean hnone h hn ?_ (p, .cout) t ht _ false rfl
  rintro ⟨⟨p1, p2⟩, st⟩ ⟨⟨q1, q2⟩, su⟩ _ _ hne n a b ha hb
  cases st with
  | err => cases ha
  | out => cases ha
  | cerr => cases ha
  | cout =>
    cases su with
    | err => cases hb
    | out => cases hb
    | cerr => cases hb
    | cout =>
      replace ha : Target.file (.rank .cout p1 p2) false = .file n a := ha
      replace hb : Target.file (.rank .cout q1 q2) false = .file n b := hb
      cases ha; cases hb; exact absurd rfl hne

/-- No file and no stream. -/
def St.init : St := ⟨fun _ => [], fun _ => none⟩

/-- Two processes print through `std::cout`, which goes to one file for the application. -/
def twoPrint : List Ev := [.start (0, 0), .start (0, 1), .write ((0, 0), .cout) "ab".toList, .write ((0, 1), .cout) "c".toList, .flush ((0, 0), .cout), .flush ((0, 1), .cout)]

/-- Output of one process is overwritten by that of another. -/
theorem C130_cout_refuted : (starts twoPrint).Nodup ∧ said twoPrint ((0, 0), .cout) = some "ab".toList ∧
    (run (fun _ => { cout := "app" }) .init twoPrint).files (.app .cout 0) = [(some ((0, 1), .cout), 'c'), (some ((0, 0), .cout), 'b')] :=
  ⟨by decide, by decide, by decide⟩

/-- A history that the theorem covers: the same through `stdout`. -/
example : Clean St.init ∧ (run (fun _ => { stdout := "app" }) .init
    [.start (0, 0), .start (0, 1), .write ((0, 0), .out) "ab".toList, .write ((0, 1), .out) "c".toList, .flush ((0, 0), .out), .flush ((0, 1), .out)]).files (.app .out 0) =
      [(some ((0, 0), .out), 'a'), (some ((0, 0), .out), 'b'), (some ((0, 1), .out), 'c')] := ⟨fun _ _ _ => rfl, by decide⟩

end Verif.Os.AppStreams
