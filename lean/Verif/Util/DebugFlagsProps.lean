import Verif.Util.DebugFlags
import Verif.Os.AppEnvProps
set_option autoImplicit false

/-!
# Theorems about debug flags
-/

namespace Verif.Util.DebugFlags

open Verif.Os.AppEnv (Str find put find_put tokens Words C129_words snoc)

/-! ### Specification -/

/-- The flag that was registered under a name last. -/
def flagOf (regs : List (Str × Nat)) (n : Str) : Option Nat := (regs.reverse.find? fun p => p.1 = n).map (·.2)

/-- The flag that an event turns on. -/
def asked (regs : List (Str × Nat)) : Ev → Option Nat
  | .on f => some f
  | .onName n => flagOf regs n
  | _ => none

/-- The flag was turned on by name or number. -/
def Wanted (regs : List (Str × Nat)) (ops : List Ev) (f : Nat) : Prop := ∃ e, e ∈ ops ∧ asked regs e = some f

/-- The flag was turned on, by itself or with all that were turned on before, and output was not turned off after that. -/
def On (regs : List (Str × Nat)) (ops : List Ev) (f : Nat) : Prop :=
  ∃ a e b, ops = a ++ e :: b ∧ (∀ x, x ∈ b → x ≠ .offAll) ∧ (asked regs e = some f ∨ (e = .onAll ∧ Wanted regs a f))

/-- The event neither registers a flag nor turns a single one off. -/
def Ev.simple : Ev → Prop
  | .register _ _ => False
  | .off _ => False
  | _ => True

/-- A program that registers its flags and then uses them. -/
def prog (regs : List (Str × Nat)) (ops : List Ev) : List Ev := regs.map (fun p => Ev.register p.1 p.2) ++ ops

/-! ### Proofs -/

theorem run_append (s : St) (a b : List Ev) : run s (a ++ b) = (run s a).bind fun s => run s b := by
  induction a generalizing s with
  | nil => rfl
  | cons e a ih =>
    show (match step s e with | none => none | some s => run s (a ++ b)) = (match step s e with | none => none | some s => run s a).bind _
    cases step s e with
    | none => rfl
    | some s => exact ih s

theorem run_one (s : St) (e : Ev) : run s [e] = step s e := by
  show (match step s e with | none => none | some s => run s []) = _
  cases step s e <;> rfl

theorem wanted_snoc (regs : List (Str × Nat)) (ops : List Ev) (e : Ev) (f : Nat) : Wanted regs (ops ++ [e]) f ↔ Wanted regs ops f ∨ asked regs e = some f := by
  unfold Wanted
  constructor
  · rintro ⟨x, h1, h2⟩
    rcases List.mem_append.mp h1 with h | h
    · exact Or.inl ⟨x, h, h2⟩
    · simp at h; subst h; exact Or.inr h2
  · rintro (⟨x, h1, h2⟩ | h)
    · exact ⟨x, List.mem_append_left _ h1, h2⟩
    · exact ⟨e, by simp, h⟩

theorem on_wanted (regs : List (Str × Nat)) (ops : List Ev) (f : Nat) (h : On regs ops f) : Wanted regs ops f := by
  obtain ⟨a, e, b, h1, _, h3⟩ := h
  rw [h1]
  rcases h3 with h3 | ⟨_, x, h4, h5⟩
  · exact ⟨e, by simp, h3⟩
  · exact ⟨x, by simp [h4], h5⟩

theorem on_snoc (regs : List (Str × Nat)) (ops : List Ev) (e : Ev) (f : Nat) :
    On regs (ops ++ [e]) f ↔ (e ≠ .offAll ∧ On regs ops f) ∨ asked regs e = some f ∨ (e = .onAll ∧ Wanted regs ops f) := by
  constructor
  · rintro ⟨a, x, b, h1, h2, h3⟩
    rcases List.eq_nil_or_concat b with hb | ⟨b', y, hb⟩
    · subst hb
      have := List.append_inj' h1 rfl
      obtain ⟨rfl, h5⟩ := this
      cases h5
      exact Or.inr h3
    · rw [List.concat_eq_append] at hb
      subst hb
      have h1' : ops ++ [e] = (a ++ x :: b') ++ [y] := by rw [h1]; simp
      have := List.append_inj' h1' rfl
      obtain ⟨rfl, h5⟩ := this
      cases h5
      exact Or.inl ⟨h2 _ (by simp), a, x, b', rfl, fun z hz => h2 z (by simp [hz]), h3⟩
  · rintro (⟨h0, a, x, b, h1, h2, h3⟩ | h)
    · refine ⟨a, x, b ++ [e], by rw [h1]; simp, fun z hz => ?_, h3⟩
      rcases List.mem_append.mp hz with h | h
      · exact h2 z h
      · simp at h; subst h; exact h0
    · exact ⟨ops, e, [], rfl, fun z hz => (by cases hz), h⟩

/-- The state after operations that are simple: `seen` are the flags with a slot, in the order of the slots. -/
structure Inv (P : List (Str × Nat)) (s : St) (seen : List Nat) (O : Nat → Prop) : Prop where
  nodup : seen.Nodup
  next : s.next = seen.length + 1
  few : seen.length ≤ 63
  table : (s.table = none ∧ s.pending = P) ∨ s.table = some P
  fields : ∀ f, s.fields f = if f ∈ seen then BitVec.twoPow 64 (seen.idxOf f + 1) else 0#64
  start : ∀ i, s.start.getLsbD i = true ↔ ∃ f, f ∈ seen ∧ seen.idxOf f + 1 = i
  current : ∀ i, s.current.getLsbD i = true ↔ ∃ f, f ∈ seen ∧ seen.idxOf f + 1 = i ∧ O f

theorem twoPow_bit (k i : Nat) (hk : k < 64) : (BitVec.twoPow 64 k).getLsbD i = true ↔ k = i := by
  rw [BitVec.getLsbD_twoPow]; simp [hk]

theorem ne_zero_iff (b : BitVec 64) : b ≠ 0#64 ↔ ∃ i, b.getLsbD i = true := by
  constructor
  · intro h
    apply Classical.byContradiction
    intro hn
    apply h
    apply BitVec.eq_of_getLsbD_eq
    intro i _
    rw [BitVec.getLsbD_zero]
    cases hb : b.getLsbD i with
    | false => rfl
    | true => exact absurd ⟨i, hb⟩ hn
  · rintro ⟨i, h⟩ e
    rw [e, BitVec.getLsbD_zero] at h
    cases h

theorem mask_bit {P : List (Str × Nat)} {s : St} {seen : List Nat} {O : Nat → Prop} (h : Inv P s seen O) (fs : List Nat) (i : Nat) :
    (mask s fs).getLsbD i = true ↔ ∃ f, f ∈ fs ∧ f ∈ seen ∧ seen.idxOf f + 1 = i := by
  induction fs with
  | nil => show (0#64).getLsbD i = true ↔ _; rw [BitVec.getLsbD_zero]; simp
  | cons f fs ih =>
    show (s.fields f ||| mask s fs).getLsbD i = true ↔ _
    rw [BitVec.getLsbD_or, Bool.or_eq_true, ih, h.fields f]
    constructor
    · rintro (h1 | ⟨g, h1, h2⟩)
      · by_cases hf : f ∈ seen
        · rw [if_pos hf, twoPow_bit _ _ (by have := List.idxOf_lt_length_of_mem hf; have := h.few; omega)] at h1
          exact ⟨f, by simp, hf, h1⟩
        · rw [if_neg hf, BitVec.getLsbD_zero] at h1; cases h1
      · exact ⟨g, by simp [h1], h2⟩
    · rintro ⟨g, h1, h2, h3⟩
      rcases List.mem_cons.mp h1 with h1 | h1
      · subst h1
        left
        rw [if_pos h2, twoPow_bit _ _ (by have := List.idxOf_lt_length_of_mem h2; have := h.few; omega)]
        exact h3
      · exact Or.inr ⟨g, h1, h2, h3⟩

theorem idx_inj {l : List Nat} {a b : Nat} (ha : a ∈ l) (hb : b ∈ l) (h : l.idxOf a = l.idxOf b) : a = b := by
  have h1 := List.getElem_idxOf (List.idxOf_lt_length_of_mem ha)
  have h2 := List.getElem_idxOf (List.idxOf_lt_length_of_mem hb)
  rw [← h1, ← h2]
  simp only [h]

theorem inv_prints {P : List (Str × Nat)} {s : St} {seen : List Nat} {O : Nat → Prop} (h : Inv P s seen O) (hO : ∀ f, O f → f ∈ seen) (fs : List Nat) :
    prints s fs = true ↔ ∃ f, f ∈ fs ∧ O f := by
  unfold prints
  rw [decide_eq_true_iff, ne_zero_iff]
  constructor
  · rintro ⟨i, hi⟩
    rw [BitVec.getLsbD_and, Bool.and_eq_true, h.current, mask_bit h] at hi
    obtain ⟨⟨f, h1, h2, h3⟩, g, h4, h5, h6⟩ := hi
    have : f = g := idx_inj h1 h5 (by omega)
    exact ⟨f, this ▸ h4, h3⟩
  · rintro ⟨f, h1, h2⟩
    refine ⟨seen.idxOf f + 1, ?_⟩
    rw [BitVec.getLsbD_and, Bool.and_eq_true, h.current, mask_bit h]
    exact ⟨⟨f, hO f h2, rfl, h2⟩, f, h1, hO f h2, rfl⟩

theorem fields_zero {P : List (Str × Nat)} {s : St} {seen : List Nat} {O : Nat → Prop} (h : Inv P s seen O) (f : Nat) : s.fields f = 0#64 ↔ f ∉ seen := by
  rw [h.fields]
  by_cases hf : f ∈ seen
  · rw [if_pos hf]
    constructor
    · intro e
      exfalso
      have := (twoPow_bit (seen.idxOf f + 1) (seen.idxOf f + 1) (by have := List.idxOf_lt_length_of_mem hf; have := h.few; omega)).mpr rfl
      rw [e, BitVec.getLsbD_zero] at this
      cases this
    · intro h; exact absurd hf h
  · rw [if_neg hf]; exact ⟨fun _ => hf, fun _ => rfl⟩

theorem idx_snoc {l : List Nat} {a x : Nat} (ha : a ∈ l) : (l ++ [x]).idxOf a = l.idxOf a := by
  rw [List.idxOf_append, if_pos ha]

theorem idx_last {l : List Nat} {x : Nat} (hx : x ∉ l) : (l ++ [x]).idxOf x = l.length := by
  rw [List.idxOf_append, if_neg hx]; simp

theorem inv_check {P : List (Str × Nat)} {s : St} {seen : List Nat} {O : Nat → Prop} (h : Inv P s seen O) : Inv P (checkInit s) seen O ∧ (checkInit s).table = some P := by
  unfold checkInit
  rcases h.table with ⟨h1, h2⟩ | h1
  · rw [h1]
    exact ⟨⟨h.nodup, h.next, h.few, Or.inr (by rw [h2]), h.fields, h.start, h.current⟩, by rw [h2]⟩
  · rw [h1]
    exact ⟨h, h1⟩

/-- Turning on a flag. -/
theorem inv_on {P : List (Str × Nat)} {s : St} {seen : List Nat} {O : Nat → Prop} (h : Inv P s seen O) (hO : ∀ f, O f → f ∈ seen) (f : Nat) :
    (turnOn s f = none ∧ f ∉ seen ∧ seen.length = 63) ∨
    ∃ s', turnOn s f = some s' ∧ Inv P s' (if f ∈ seen then seen else seen ++ [f]) (fun g => g = f ∨ O g) := by
  unfold turnOn
  by_cases hf : f ∈ seen
  · rw [if_neg (by rw [fields_zero h]; simpa using hf), if_pos hf]
    right
    have hb : ∀ i, (s.fields f).getLsbD i = true ↔ seen.idxOf f + 1 = i := by
      intro i
      rw [h.fields, if_pos hf, twoPow_bit _ _ (by have := List.idxOf_lt_length_of_mem hf; have := h.few; omega)]
    refine ⟨_, rfl, h.nodup, h.next, h.few, h.table, h.fields, ?_, ?_⟩
    · intro i
      show (s.start ||| s.fields f).getLsbD i = true ↔ _
      rw [BitVec.getLsbD_or, Bool.or_eq_true, h.start, hb]
      exact ⟨fun h => h.elim id fun h => ⟨f, hf, h⟩, Or.inl⟩
    · intro i
      show (s.current ||| s.fields f).getLsbD i = true ↔ _
      rw [BitVec.getLsbD_or, Bool.or_eq_true, h.current, hb]
      constructor
      · rintro (⟨g, h1, h2, h3⟩ | h1)
        · exact ⟨g, h1, h2, Or.inr h3⟩
        · exact ⟨f, hf, h1, Or.inl rfl⟩
      · rintro ⟨g, h1, h2, h3 | h3⟩
        · exact Or.inr (h3 ▸ h2)
        · exact Or.inl ⟨g, h1, h2, h3⟩
  · rw [if_pos ((fields_zero h f).mpr hf), if_neg hf]
    unfold assign
    by_cases hm : 63 < s.next
    · rw [if_pos hm]
      left
      have := h.next
      have := h.few
      exact ⟨rfl, hf, by omega⟩
    · rw [if_neg hm]
      right
      have hn := h.next
      obtain ⟨hc, _⟩ := inv_check h
      have e1 : (checkInit s).start = s.start := by unfold checkInit; cases s.table <;> rfl
      have e2 : (checkInit s).current = s.current := by unfold checkInit; cases s.table <;> rfl
      have hb : ∀ i, (BitVec.twoPow 64 s.next).getLsbD i = true ↔ seen.length + 1 = i := by
        intro i; rw [twoPow_bit _ _ (by omega), hn]
      refine ⟨_, rfl, ?_, ?_, ?_, hc.table, ?_, ?_, ?_⟩
      · rw [List.nodup_append]
        refine ⟨h.nodup, by simp, fun a ha b hb => ?_⟩
        simp at hb
        subst hb
        exact fun e => hf (e ▸ ha)
      · show s.next + 1 = _
        rw [hn]; simp
      · rw [List.length_append]; simp; omega
      · intro g
        show setF s.fields f (BitVec.twoPow 64 s.next) g = _
        unfold setF
        by_cases hg : g = f
        · subst hg
          rw [if_pos rfl, if_pos (by simp), idx_last hf, hn]
        · rw [if_neg hg, h.fields]
          by_cases hs : g ∈ seen
          · rw [if_pos hs, if_pos (by simp [hs]), idx_snoc hs]
          · rw [if_neg hs, if_neg (by simp [hs, hg])]
      · intro i
        show ((checkInit s).start ||| setF s.fields f (BitVec.twoPow 64 s.next) f).getLsbD i = true ↔ _
        unfold setF
        rw [if_pos rfl, BitVec.getLsbD_or, Bool.or_eq_true, e1, h.start, hb]
        constructor
        · rintro (⟨g, h1, h2⟩ | h1)
          · exact ⟨g, by simp [h1], by rw [idx_snoc h1]; exact h2⟩
          · exact ⟨f, by simp, by rw [idx_last hf]; exact h1⟩
        · rintro ⟨g, h1, h2⟩
          rcases List.mem_append.mp h1 with h1 | h1
          · exact Or.inl ⟨g, h1, by rw [idx_snoc h1] at h2; exact h2⟩
          · simp at h1; subst h1; rw [idx_last hf] at h2; exact Or.inr h2
      · intro i
        show ((checkInit s).current ||| setF s.fields f (BitVec.twoPow 64 s.next) f).getLsbD i = true ↔ _
        unfold setF
        rw [if_pos rfl, BitVec.getLsbD_or, Bool.or_eq_true, e2, h.current, hb]
        constructor
        · rintro (⟨g, h1, h2, h3⟩ | h1)
          · exact ⟨g, by simp [h1], by rw [idx_snoc h1]; exact h2, Or.inr h3⟩
          · exact ⟨f, by simp, by rw [idx_last hf]; exact h1, Or.inl rfl⟩
        · rintro ⟨g, h1, h2, h3⟩
          rcases List.mem_append.mp h1 with h1 | h1
          · rcases h3 with h3 | h3
            · exact absurd (h3 ▸ h1) hf
            · exact Or.inl ⟨g, h1, by rw [idx_snoc h1] at h2; exact h2, h3⟩
          · simp at h1; subst h1; rw [idx_last hf] at h2; exact Or.inr h2

theorem nodup_sub : ∀ (l l' : List Nat), l.Nodup → (∀ x, x ∈ l → x ∈ l') → l.length ≤ l'.length
  | [], _, _, _ => Nat.zero_le _
  | a :: l, l', hn, hs => by
    have ha := hs a (by simp)
    have hn' := List.nodup_cons.mp hn
    have := nodup_sub l (l'.erase a) hn'.2 (fun x hx => (List.mem_erase_of_ne (show x ≠ a from fun e => hn'.1 (e ▸ hx))).mpr (hs x (by simp [hx])))
    rw [List.length_erase_of_mem ha] at this
    have := List.length_pos_of_mem ha
    simp only [List.length_cons]
    omega

/-- The table of registrations. -/
def tableOf (regs : List (Str × Nat)) : List (Str × Nat) := regs.foldl (fun m p => put m p.1 p.2) []

theorem find_table (regs : List (Str × Nat)) (n : Str) : find (tableOf regs) n = flagOf regs n := by
  induction regs using snoc with
  | h0 => rfl
  | h1 l e ih =>
    unfold tableOf
    rw [List.foldl_append, List.foldl_cons, List.foldl_nil, find_put]
    unfold flagOf
    rw [List.reverse_append, List.reverse_singleton, List.singleton_append, List.find?_cons]
    by_cases hn : n = e.1
    · rw [if_pos hn]; simp [hn]
    · rw [if_neg hn]
      have : decide (e.1 = n) = false := by simpa using fun h => hn h.symm
      rw [this]
      exact ih

theorem run_regs (regs : List (Str × Nat)) : run .init (regs.map fun p => Ev.register p.1 p.2) = some { St.init with pending := tableOf regs } := by
  induction regs using snoc with
  | h0 => rfl
  | h1 l e ih =>
    rw [List.map_append, run_append, ih]
    rw [Option.bind_some, List.map_singleton, run_one]
    unfold tableOf
    rw [List.foldl_append]
    rfl

theorem inv_run (regs : List (Str × Nat)) (ops : List Ev) (h : ∀ e, e ∈ ops → e.simple) :
    (run .init (prog regs ops) = none ∧ ((∃ n, .onName n ∈ ops ∧ flagOf regs n = none) ∨ ∃ l : List Nat, l.Nodup ∧ l.length = 64 ∧ ∀ f, f ∈ l → Wanted regs ops f)) ∨
    ∃ s seen, run .init (prog regs ops) = some s ∧ Inv (tableOf regs) s seen (On regs ops) ∧ (∀ f, f ∈ seen ↔ Wanted regs ops f) ∧ ∀ n, .onName n ∈ ops → flagOf regs n ≠ none := by
  induction ops using snoc with
  | h0 =>
    right
    refine ⟨{ St.init with pending := tableOf regs }, [], ?_, ⟨List.nodup_nil, rfl, by simp, Or.inl ⟨rfl, rfl⟩, fun f => rfl, fun i => ?_, fun i => ?_⟩, fun f => ?_, fun n hn => (by cases hn)⟩
    · unfold prog
      rw [List.append_nil]
      exact run_regs regs
    · show (0#64).getLsbD i = true ↔ _
      rw [BitVec.getLsbD_zero]; simp
    · show (0#64).getLsbD i = true ↔ _
      rw [BitVec.getLsbD_zero]; simp
    · unfold Wanted; simp
  | h1 ops e ih =>
    have hprog : run .init (prog regs (ops ++ [e])) = (run .init (prog regs ops)).bind fun s => step s e := by
      unfold prog
      rw [← List.append_assoc, run_append]
      congr
      funext s
      exact run_one s e
    rw [hprog]
    rcases ih fun x hx => h x (by simp [hx]) with ⟨hr, hw⟩ | ⟨s, seen, hr, hinv, hseen, hnames⟩
    · left
      rw [hr]
      refine ⟨rfl, hw.imp ?_ ?_⟩
      · rintro ⟨n, h1, h2⟩; exact ⟨n, by simp [h1], h2⟩
      · rintro ⟨l, h1, h2, h3⟩; exact ⟨l, h1, h2, fun f hf => (wanted_snoc regs ops e f).mpr (Or.inl (h3 f hf))⟩
    · rw [hr]
      have hO : ∀ f, On regs ops f → f ∈ seen := fun f hf => (hseen f).mpr (on_wanted regs ops f hf)
      -- turning on a flag, from a state with the same invariant
      have hon : ∀ s1 f, Inv (tableOf regs) s1 seen (On regs ops) → step s e = turnOn s1 f → asked regs e = some f → e ≠ .offAll → e ≠ .onAll → (∀ n, e = .onName n → flagOf regs n ≠ none) →
          ((some s).bind (fun s => step s e) = none ∧ ((∃ n, .onName n ∈ ops ++ [e] ∧ flagOf regs n = none) ∨ ∃ l : List Nat, l.Nodup ∧ l.length = 64 ∧ ∀ f, f ∈ l → Wanted regs (ops ++ [e]) f)) ∨
          ∃ s' seen, (some s).bind (fun s => step s e) = some s' ∧ Inv (tableOf regs) s' seen (On regs (ops ++ [e])) ∧ (∀ f, f ∈ seen ↔ Wanted regs (ops ++ [e]) f) ∧ ∀ n, .onName n ∈ ops ++ [e] → flagOf regs n ≠ none := by
        intro s1 f hi hst hask ho1 ho2 hnm
        rw [Option.bind_some, hst]
        rcases inv_on hi hO f with ⟨h1, h2, h3⟩ | ⟨s', h1, h2⟩
        · left
          refine ⟨h1, Or.inr ⟨seen ++ [f], ?_, by simp [h3], ?_⟩⟩
          · rw [List.nodup_append]
            refine ⟨hinv.nodup, by simp, fun a ha b hb => ?_⟩
            simp at hb
            subst hb
            exact fun e => h2 (e ▸ ha)
          · intro g hg
            rw [wanted_snoc]
            rcases List.mem_append.mp hg with hg | hg
            · exact Or.inl ((hseen g).mp hg)
            · simp at hg; subst hg; exact Or.inr hask
        · right
          refine ⟨s', if f ∈ seen then seen else seen ++ [f], h1, ?_, ?_, ?_⟩
          · have : (fun g => g = f ∨ On regs ops g) = On regs (ops ++ [e]) := by
              funext g
              rw [on_snoc, hask]
              apply propext
              constructor
              · rintro (rfl | hg)
                · exact Or.inr (Or.inl rfl)
                · exact Or.inl ⟨ho1, hg⟩
              · rintro (⟨_, hg⟩ | hg | ⟨hg, _⟩)
                · exact Or.inr hg
                · exact Or.inl (Option.some.inj hg).symm
                · exact absurd hg ho2
            rw [← this]
            exact h2
          · intro g
            rw [wanted_snoc, hask, ← hseen]
            by_cases hf : f ∈ seen
            · rw [if_pos hf]
              exact ⟨Or.inl, fun h => h.elim id fun h => (Option.some.inj h) ▸ hf⟩
            · rw [if_neg hf]
              simp [eq_comm]
          · intro n hn
            rcases List.mem_append.mp hn with hn | hn
            · exact hnames n hn
            · simp at hn; exact hnm n hn.symm
      -- turning output off or on again
      have hcur : ∀ c, step s e = some { s with current := c } → asked regs e = none → (∀ n, e ≠ .onName n) →
          (∀ i, c.getLsbD i = true ↔ ∃ f, f ∈ seen ∧ seen.idxOf f + 1 = i ∧ On regs (ops ++ [e]) f) →
          ∃ s' seen, (some s).bind (fun s => step s e) = some s' ∧ Inv (tableOf regs) s' seen (On regs (ops ++ [e])) ∧ (∀ f, f ∈ seen ↔ Wanted regs (ops ++ [e]) f) ∧ ∀ n, .onName n ∈ ops ++ [e] → flagOf regs n ≠ none := by
        intro c hst hask hnm hc
        refine ⟨{ s with current := c }, seen, hst, ⟨hinv.nodup, hinv.next, hinv.few, hinv.table, hinv.fields, hinv.start, hc⟩, fun f => ?_, fun n hn => ?_⟩
        · rw [wanted_snoc, hask, hseen]; simp
        · rcases List.mem_append.mp hn with hn | hn
          · exact hnames n hn
          · simp at hn; exact absurd hn.symm (hnm n)
      cases e with
      | register n f => exact (h (.register n f) (by simp)).elim
      | off f => exact (h (.off f) (by simp)).elim
      | on f => exact hon s f hinv rfl rfl (by intro h; cases h) (by intro h; cases h) (fun n h => (by cases h))
      | onName n =>
        obtain ⟨hc, ht⟩ := inv_check hinv
        cases hf : flagOf regs n with
        | none =>
          left
          refine ⟨?_, Or.inl ⟨n, by simp, hf⟩⟩
          rw [Option.bind_some]
          simp only [step]
          rw [ht, Option.getD_some, find_table, hf]
        | some f =>
          apply hon (checkInit s) f hc ?_ hf (by intro h; cases h) (by intro h; cases h) (fun m h => (by cases h; rw [hf]; simp))
          simp only [step]
          rw [ht, Option.getD_some, find_table, hf]
      | onAll =>
        right
        apply hcur s.start rfl rfl (fun n h => (by cases h))
        intro i
        rw [hinv.start]
        constructor
        · rintro ⟨f, h1, h2⟩
          exact ⟨f, h1, h2, (on_snoc regs ops .onAll f).mpr (Or.inr (Or.inr ⟨rfl, (hseen f).mp h1⟩))⟩
        · rintro ⟨f, h1, h2, _⟩; exact ⟨f, h1, h2⟩
      | offAll =>
        right
        apply hcur 0#64 rfl rfl (fun n h => (by cases h))
        intro i
        rw [BitVec.getLsbD_zero]
        constructor
        · intro h; cases h
        · rintro ⟨f, _, _, h3⟩
          exfalso
          rcases (on_snoc regs ops .offAll f).mp h3 with ⟨h, _⟩ | h | ⟨h, _⟩
          · exact h rfl
          · cases h
          · cases h

/-! ### Theorems -/

/-- A message is printed exactly if one of its flags is on. -/
theorem C136_flags_partial (regs : List (Str × Nat)) (ops : List Ev) (h : ∀ e, e ∈ ops → e.simple) (s : St) (hr : run .init (prog regs ops) = some s) (fs : List Nat) :
    prints s fs = true ↔ ∃ f, f ∈ fs ∧ On regs ops f := by
  rcases inv_run regs ops h with ⟨h1, _⟩ | ⟨s', seen, h1, h2, h3, _⟩
  · rw [hr] at h1; cases h1
  · rw [hr] at h1
    cases h1
    exact inv_prints h2 (fun f hf => (h3 f).mpr (on_wanted regs ops f hf)) fs

/-- It is an error exactly if a name is not known or more than 63 flags are turned on. -/
theorem C136_errors_partial (regs : List (Str × Nat)) (ops : List Ev) (h : ∀ e, e ∈ ops → e.simple) :
    run .init (prog regs ops) = none ↔ (∃ n, .onName n ∈ ops ∧ flagOf regs n = none) ∨ ∃ l : List Nat, l.Nodup ∧ l.length = 64 ∧ ∀ f, f ∈ l → Wanted regs ops f := by
  rcases inv_run regs ops h with ⟨h1, h2⟩ | ⟨s, seen, h1, h2, h3, h4⟩
  · exact ⟨fun _ => h2, fun _ => h1⟩
  · rw [h1]
    constructor
    · intro h; cases h
    · rintro (⟨n, h5, h6⟩ | ⟨l, h5, h6, h7⟩)
      · exact absurd h6 (h4 n h5)
      · exfalso
        have : l.length ≤ seen.length := nodup_sub l seen h5 fun f hf => (h3 f).mpr (h7 f hf)
        have := h2.few
        omega

/-- Two flags, one by its name; then all output is turned off, one of the flags on again. -/
example : (∀ e, e ∈ [Ev.onName ['a'], .on 2, .offAll, .on 2] → e.simple) ∧
    (∃ s, run .init (prog [(['a'], 1), (['b'], 2)] [.onName ['a'], .on 2, .offAll, .on 2]) = some s ∧ prints s [1] = false ∧ prints s [2] = true ∧ prints s [1, 2] = true) := by
  refine ⟨fun e he => ?_, _, rfl, by decide, by decide, by decide⟩
  simp at he
  rcases he with rfl | rfl | rfl | rfl <;> trivial

/-- A flag that is turned off stays on as soon as there is another one, and turning it on again turns on the others. -/
theorem C136_off_refuted : (∃ s, run .init [.on 0, .on 1, .off 0] = some s ∧ prints s [0] = true) ∧
    ∃ s, run .init [.on 0, .on 1, .off 0, .offAll, .on 0] = some s ∧ prints s [1] = true :=
  ⟨⟨_, rfl, by decide⟩, _, rfl, by decide⟩

/-- Turning off one flag does not change the output of the others. -/
theorem C136_off_others_partial (regs : List (Str × Nat)) (ops : List Ev) (h : ∀ e, e ∈ ops → e.simple) (s : St) (f : Nat) (hr : run .init (prog regs (ops ++ [.off f])) = some s) (g : Nat) (hg : g ≠ f) :
    prints s [g] = true ↔ On regs ops g := by
  have hprog : run .init (prog regs (ops ++ [.off f])) = (run .init (prog regs ops)).bind fun s => some (turnOff s f) := by
    unfold prog
    rw [← List.append_assoc, run_append]
    rfl
  rw [hprog] at hr
  rcases inv_run regs ops h with ⟨h1, _⟩ | ⟨s0, seen, h1, h2, h3, _⟩
  · rw [h1] at hr; cases hr
  · rw [h1] at hr
    cases hr
    have hO : ∀ f, On regs ops f → f ∈ seen := fun f hf => (h3 f).mpr (on_wanted regs ops f hf)
    have hp := inv_prints h2 hO [g]
    simp only [List.mem_singleton, exists_eq_left] at hp
    rw [← hp]
    unfold turnOff
    by_cases hf : s0.fields f = 0#64
    · rw [if_pos hf]
    · rw [if_neg hf]
      have hf : f ∈ seen := Classical.byContradiction fun hn => hf ((fields_zero h2 f).mpr hn)
      have hff : ∀ i, (s0.fields f).getLsbD i = true ↔ seen.idxOf f + 1 = i := by
        intro i
        rw [h2.fields, if_pos hf, twoPow_bit _ _ (by have := List.idxOf_lt_length_of_mem hf; have := h2.few; omega)]
      have hm := mask_bit h2 [g]
      simp only [List.mem_singleton, exists_eq_left] at hm
      unfold prints
      rw [decide_eq_true_iff, decide_eq_true_iff, ne_zero_iff, ne_zero_iff]
      have em : mask { s0 with fields := setF s0.fields f (~~~ s0.fields f), start := s0.start &&& ~~~ s0.fields f, current := s0.current &&& ~~~ s0.fields f } [g] = mask s0 [g] := by
        show setF s0.fields f _ g ||| 0#64 = s0.fields g ||| 0#64
        unfold setF
        rw [if_neg hg]
      rw [em]
      apply exists_congr
      intro i
      show ((s0.current &&& ~~~ s0.fields f) &&& _).getLsbD i = true ↔ _
      rw [BitVec.getLsbD_and, BitVec.getLsbD_and, BitVec.getLsbD_and, Bool.and_eq_true, Bool.and_eq_true, Bool.and_eq_true, BitVec.getLsbD_not]
      constructor
      · rintro ⟨⟨a, _⟩, b⟩; exact ⟨a, b⟩
      · rintro ⟨a, b⟩
        refine ⟨⟨a, ?_⟩, b⟩
        obtain ⟨b1, b2⟩ := (hm i).mp b
        have hi : i < 64 := by have := List.idxOf_lt_length_of_mem b1; have := h2.few; omega
        cases hx : (s0.fields f).getLsbD i with
        | false => simp [hi]
        | true => exact absurd (idx_inj b1 hf (by have := (hff i).mp hx; omega)) hg

example : ∃ s, run .init (prog [] ([.on 0, .on 1] ++ [.off 0])) = some s ∧ prints s [1] = true ∧ prints s [2] = false := ⟨_, rfl, by decide, by decide⟩

/-- A conditional message, and so each message of MPI, is printed exactly if the condition holds and one of its flags is on, as long as output
was never turned off. -/
theorem C136_conditional_partial (regs : List (Str × Nat)) (ops : List Ev) (h : ∀ e, e ∈ ops → e.simple ∧ e ≠ .offAll) (s : St) (hr : run .init (prog regs ops) = some s) (fs : List Nat) (cond : Bool) :
    condPrints s fs cond = true ↔ cond = true ∧ ∃ f, f ∈ fs ∧ On regs ops f := by
  have hOW : ∀ f, On regs ops f ↔ Wanted regs ops f := by
    intro f
    refine ⟨on_wanted regs ops f, ?_⟩
    rintro ⟨e, h1, h2⟩
    obtain ⟨a, b, rfl⟩ := List.append_of_mem h1
    exact ⟨a, e, b, rfl, fun x hx => (h x (by simp [hx])).2, Or.inl h2⟩
  rcases inv_run regs ops fun e he => (h e he).1 with ⟨h1, _⟩ | ⟨s', seen, h1, h2, h3, _⟩
  · rw [hr] at h1; cases h1
  · rw [hr] at h1
    cases h1
    unfold condPrints
    rw [decide_eq_true_iff, ne_zero_iff]
    have hm : mask s fs ≠ 0#64 ↔ ∃ f, f ∈ fs ∧ On regs ops f := by
      rw [ne_zero_iff]
      constructor
      · rintro ⟨i, hi⟩
        obtain ⟨f, a, b, _⟩ := (mask_bit h2 fs i).mp hi
        exact ⟨f, a, (hOW f).mpr ((h3 f).mp b)⟩
      · rintro ⟨f, a, b⟩
        exact ⟨_, (mask_bit h2 fs _).mpr ⟨f, a, (h3 f).mpr ((hOW f).mp b), rfl⟩⟩
    rw [← hm, @and_comm (cond = true)]
    by_cases hc : mask s fs ≠ 0#64 ∧ cond = true
    · rw [if_pos hc]
      refine ⟨fun _ => hc, fun _ => ⟨1, ?_⟩⟩
      rw [BitVec.getLsbD_and, Bool.and_eq_true, h2.current, twoPow_bit _ _ (by omega)]
      refine ⟨?_, rfl⟩
      cases seen with
      | nil =>
        obtain ⟨f, _, b⟩ := hm.mp hc.1
        have := (h3 f).mpr ((hOW f).mp b)
        cases this
      | cons x r => exact ⟨x, by simp, by simp, (hOW x).mpr ((h3 x).mp (by simp))⟩
    · rw [if_neg hc]
      refine ⟨?_, fun h => absurd h hc⟩
      rintro ⟨i, hi⟩
      rw [BitVec.getLsbD_and, Bool.and_eq_true, h2.current, twoPow_bit _ _ (by omega)] at hi
      obtain ⟨⟨f, _, b, _⟩, c⟩ := hi
      omega

/-- With output turned off and the second flag on again, its conditional messages are not printed, while its other messages are. -/
theorem C136_conditional_refuted : ∃ s, run .init [.on 0, .on 1, .offAll, .on 1] = some s ∧ prints s [1] = true ∧ condPrints s [1] true = false := ⟨_, rfl, by decide, by decide⟩

example : ∃ s, run .init (prog [] [.on 0, .on 1]) = some s ∧ condPrints s [1] true = true ∧ condPrints s [2] true = false ∧ condPrints s [1] false = false := ⟨_, rfl, by decide, by decide, by decide⟩

/-- A flag that is registered after the first use, as by a library that is loaded later, is not known. -/
theorem C136_late_refuted : run .init [.register ['a'] 0, .onName ['a'], .register ['b'] 1, .onName ['b']] = none := by rfl

/-- A list of names with commas turns on each of them, and it is an error exactly if one of them is. -/
theorem C136_list (s : St) (list : Str) (names : List Str) (h : Words ',' list names) : activate s list = run s (names.map Ev.onName) := by
  unfold activate
  rw [(C129_words ',' list names).mp h]

example : Words ',' ['a', ',', 'b'] [['a'], ['b']] := (C129_words _ _ _).mpr (by decide)

/-- A list as the help text, help.cc:85-89, asks for, or with a blank after the comma, is an error though both flags are known. -/
theorem C136_list_refuted : (∃ s, run .init [.register ['a'] 0, .register ['b'] 1] = some s ∧ activate s ['a', ' ', '|', ' ', 'b'] = none ∧ activate s ['a', ',', ' ', 'b'] = none) :=
  ⟨_, rfl, rfl, rfl⟩

/-! ### The list of flags -/

/-- Words with separators. -/
def join (sep : Str) : List Str → Str
  | [] => []
  | [x] => x
  | x :: y :: r => x ++ sep ++ join sep (y :: r)

/-- A new line begins only with a word that does not fit. -/
def Greedy (width : Nat) : List (List Str) → Prop
  | l :: m :: r => (∃ w t, m = w :: t ∧ width < (join [' '] l).length + 1 + w.length) ∧ Greedy width (m :: r)
  | _ => True

/-- The lines, as a function. -/
def lines (width : Nat) : List Str → List Str → List (List Str)
  | cur, [] => [cur]
  | cur, w :: ws => if width < (join [' '] cur).length + (w.length + 1) then cur :: lines width [w] ws else lines width (cur ++ [w]) ws

theorem join_snoc (sep : Str) (l : List Str) (w : Str) (h : l ≠ []) : join sep (l ++ [w]) = join sep l ++ sep ++ w := by
  induction l with
  | nil => exact absurd rfl h
  | cons x l ih =>
    cases l with
    | nil => rfl
    | cons y r =>
      show x ++ sep ++ join sep ((y :: r) ++ [w]) = x ++ sep ++ join sep (y :: r) ++ sep ++ w
      rw [ih (by simp)]
      simp

theorem join_pos (l : List Str) (h : l ≠ []) (hw : ∀ w, w ∈ l → w ≠ []) : (join [' '] l).length ≠ 0 := by
  cases l with
  | nil => exact absurd rfl h
  | cons x l =>
    have hx : x.length ≠ 0 := fun e => hw x (by simp) (List.eq_nil_of_length_eq_zero e)
    cases l with
    | nil => exact hx
    | cons y r =>
      show (x ++ [' '] ++ join [' '] (y :: r)).length ≠ 0
      simp only [List.length_append]
      omega

theorem lines_ne (width : Nat) (cur ws : List Str) : ∃ m r t, lines width cur ws = m :: r ∧ m = cur ++ t := by
  induction ws generalizing cur with
  | nil => exact ⟨cur, [], [], rfl, by simp⟩
  | cons w ws ih =>
    unfold lines
    split
    · exact ⟨cur, _, [], rfl, by simp⟩
    · obtain ⟨m, r, t, h1, h2⟩ := ih (cur ++ [w])
      exact ⟨m, r, w :: t, h1, by rw [h2]; simp⟩

theorem wrapGo_lines (indent : Str) (width : Nat) (pre : Str) (cur ws : List Str) (hc : cur ≠ []) (h1 : ∀ w, w ∈ cur → w ≠ []) (h2 : ∀ w, w ∈ ws → w ≠ []) :
    wrapGo indent width (pre ++ join [' '] cur) (join [' '] cur).length ws = pre ++ join ('\n' :: indent) ((lines width cur ws).map (join [' '])) := by
  induction ws generalizing pre cur with
  | nil => rfl
  | cons w ws ih =>
    unfold wrapGo lines
    rw [if_neg (join_pos cur hc h1)]
    have hw := h2 w (by simp)
    have h2' : ∀ w, w ∈ ws → w ≠ [] := fun x hx => h2 x (by simp [hx])
    by_cases hlt : width < (join [' '] cur).length + (w.length + 1)
    · rw [if_pos hlt, if_pos hlt]
      have := ih (pre ++ join [' '] cur ++ ['\n'] ++ indent) [w] (by simp) (by simpa using hw) h2'
      have e : join [' '] [w] = w := rfl
      rw [e] at this
      rw [this]
      obtain ⟨m, r, t, h3, _⟩ := lines_ne width [w] ws
      rw [h3]
      show _ = pre ++ (join [' '] cur ++ ('\n' :: indent) ++ join ('\n' :: indent) ((m :: r).map (join [' '])))
      simp
    · rw [if_neg hlt, if_neg hlt]
      have := ih pre (cur ++ [w]) (by simp) (fun x hx => by
        rcases List.mem_append.mp hx with hx | hx
        · exact h1 x hx
        · simp at hx; subst hx; exact hw) h2'
      rw [join_snoc _ _ _ hc] at this
      rw [← this]
      simp only [List.length_append, List.append_assoc, List.length_singleton]
      congr 1
      omega

theorem lines_spec (width : Nat) (cur ws : List Str) (hc : cur ≠ []) (hfit : cur.length = 1 ∨ (join [' '] cur).length ≤ width) :
    (lines width cur ws).flatten = cur ++ ws ∧ (∀ l, l ∈ lines width cur ws → l ≠ [] ∧ (l.length = 1 ∨ (join [' '] l).length ≤ width)) ∧ Greedy width (lines width cur ws) := by
  induction ws generalizing cur with
  | nil =>
    refine ⟨by simp [lines], fun l hl => ?_, trivial⟩
    simp [lines] at hl
    subst hl
    exact ⟨hc, hfit⟩
  | cons w ws ih =>
    unfold lines
    by_cases hlt : width < (join [' '] cur).length + (w.length + 1)
    · rw [if_pos hlt]
      obtain ⟨h1, h2, h3⟩ := ih [w] (by simp) (Or.inl rfl)
      refine ⟨by rw [List.flatten_cons, h1]; rfl, fun l hl => ?_, ?_⟩
      · rcases List.mem_cons.mp hl with hl | hl
        · subst hl; exact ⟨hc, hfit⟩
        · exact h2 l hl
      · obtain ⟨m, r, t, h4, h5⟩ := lines_ne width [w] ws
        rw [h4] at h3 ⊢
        exact ⟨⟨w, t, h5, by omega⟩, h3⟩
    · rw [if_neg hlt]
      obtain ⟨h1, h2, h3⟩ := ih (cur ++ [w]) (by simp) (Or.inr (by rw [join_snoc _ _ _ hc]; simp only [List.length_append, List.length_singleton]; omega))
      exact ⟨by rw [h1]; simp, h2, h3⟩

/-- The description of a flag is printed with all of its words in order, on lines that are no longer than the width unless they are a single word,
and each line has as many words as fit. -/
theorem C136_wrap (doc indent : Str) (width : Nat) (words : List Str) (h : Words ' ' doc words) :
    ∃ ls : List (List Str), ls.flatten = words ∧ wrap doc indent width = indent ++ join ('\n' :: indent) (ls.map (join [' '])) ∧
      (∀ l, l ∈ ls → l ≠ [] ∧ (l.length = 1 ∨ (join [' '] l).length ≤ width)) ∧ Greedy width ls := by
  have hne : ∀ w, w ∈ words → w ≠ [] := by
    clear indent width
    induction h with
    | nil => intro w hw; cases hw
    | gap _ ih => exact ih
    | last h1 _ => intro w hw; simp at hw; subst hw; exact h1
    | word h1 _ _ ih =>
      intro w hw
      rcases List.mem_cons.mp hw with hw | hw
      · subst hw; exact h1
      · exact ih w hw
  unfold wrap
  rw [(C129_words ' ' doc words).mp h]
  cases words with
  | nil => exact ⟨[], rfl, by simp [wrapGo, join], fun l hl => (by cases hl), trivial⟩
  | cons w ws =>
    obtain ⟨h1, h2, h3⟩ := lines_spec width [w] ws (by simp) (Or.inl rfl)
    refine ⟨lines width [w] ws, h1, ?_, h2, h3⟩
    have := wrapGo_lines indent width indent [w] ws (by simp) (by simpa using hne w (by simp)) (fun x hx => hne x (by simp [hx]))
    rw [← this]
    show (if (0 : Nat) = 0 then _ else _) = _
    rw [if_pos rfl]
    rfl

example : wrap ['a', 'b', ' ', 'c', ' ', ' ', 'd', 'e'] ['-'] 4 = ['-', 'a', 'b', ' ', 'c', '\n', '-', 'd', 'e'] := by decide

end Verif.Util.DebugFlags
