import Verif.Coll.Engine
/-!
C36: the engine starts every action of a collective exactly once, after its dependencies, and
signals completion exactly once, after all actions.
-/
set_option autoImplicit false
namespace SST.Coll.Engine

/-- The calls of `addDependency` that build a graph. -/
abbrev Calls := List (Option Nat × Nat)

/-- The actions of a graph. -/
def acts (C : Calls) : List Nat := C.map (·.2)

/-- Specification of a history, newest event first: an action starts once and only after the
completion of everything it depends on; it completes once, after its start; completion of
the collective is signalled once, after the completion of all actions. -/
def WellOrdered (C : Calls) : List Ev → Prop
  | [] => True
  | .start a :: l => a ∈ acts C ∧ (∀ b, (some b, a) ∈ C → .finish b ∈ l) ∧ .start a ∉ l ∧ WellOrdered C l
  | .finish a :: l => .start a ∈ l ∧ .finish a ∉ l ∧ WellOrdered C l
  | .notify :: l => (∀ a ∈ acts C, .finish a ∈ l) ∧ .notify ∉ l ∧ WellOrdered C l

/-- The graph is acyclic and every dependency is itself an action of the graph. -/
structure Acyclic (C : Calls) : Prop where
  closed : ∀ b a, (some b, a) ∈ C → b ∈ acts C
  rank : ∃ rk : Nat → Nat, ∀ b a, (some b, a) ∈ C → rk b < rk a

theorem countP_erase_mem {α : Type} [BEq α] [LawfulBEq α] (p : α → Bool) (e : α) :
    ∀ l : List α, e ∈ l → l.countP p = (l.erase e).countP p + (if p e then 1 else 0) := by
  intro l
  induction l with
  | nil => intro h; simp at h
  | cons x l ih =>
    intro h
    by_cases hx : x = e
    · subst hx
      simp [List.countP_cons]
    · have he : e ∈ l := by
        rcases List.mem_cons.mp h with h | h
        · exact absurd h.symm hx
        · exact h
      rw [List.erase_cons_tail (by simpa using hx)]
      simp only [List.countP_cons]
      rw [ih he]
      omega

/-- How many dependencies an action waits for. -/
def cnt (a : Nat) (l : List (Nat × Nat)) : Nat := l.countP (fun e => e.2 == a)

theorem cnt_zero {a : Nat} {l : List (Nat × Nat)} : cnt a l = 0 ↔ ∀ b, (b, a) ∉ l := by
  unfold cnt
  rw [List.countP_eq_zero]
  constructor
  · intro h b hb
    exact h _ hb (by simp)
  · intro h e he hc
    obtain ⟨b, x⟩ := e
    simp only [beq_iff_eq] at hc
    subst hc
    exact h b he

/-! ### Building the graph -/

/-- Invariant while the graph is built. -/
structure BInv (P : Calls) (s : St) : Prop where
  pend : ∀ b a, (b, a) ∈ s.pending ↔ (some b, a) ∈ P
  join : ∀ a, s.join a = cnt a s.pending
  init : ∀ a, a ∈ s.initial ↔ a ∈ acts P ∧ ∀ b, (some b, a) ∉ P
  nodup : s.initial.Nodup
  rest : s.active = [] ∧ s.stack = [] ∧ s.complete = false ∧ s.log = []

theorem addDep_binv {P : Calls} {s : St} (h : BInv P s) (c : Option Nat × Nat) : BInv (P ++ [c]) (addDep s c) := by
  obtain ⟨ob, a⟩ := c
  cases ob with
  | some b =>
    refine ⟨?_, ?_, ?_, ?_, h.rest⟩
    · intro b' a'
      simp only [addDep, List.mem_append, List.mem_singleton, Prod.mk.injEq, Option.some.injEq]
      rw [h.pend]
    · intro x
      simp only [addDep, cnt, List.countP_append]
      rw [h.join a, h.join x]
      by_cases hx : x = a
      · subst hx; simp [cnt]
      · have : ¬ a = x := fun e => hx e.symm
        simp [hx, cnt, this]
    · intro x
      simp only [addDep, List.mem_filter, decide_eq_true_eq, acts, List.map_append, List.map_cons, List.map_nil,
        List.mem_append, List.mem_singleton, Prod.mk.injEq, Option.some.injEq]
      rw [h.init]
      constructor
      · rintro ⟨⟨h1, h2⟩, h3⟩
        refine ⟨Or.inl h1, ?_⟩
        intro b' hb'
        rcases hb' with hb' | hb'
        · exact h2 b' hb'
        · exact h3 hb'.2
      · rintro ⟨h1, h2⟩
        have hne : x ≠ a := fun e => h2 b (Or.inr ⟨rfl, e⟩)
        refine ⟨⟨?_, fun b' hb' => h2 b' (Or.inl hb')⟩, hne⟩
        rcases h1 with h1 | h1
        · exact h1
        · exact absurd h1 hne
    · exact h.nodup.sublist List.filter_sublist
  | none =>
    have hmem : ∀ b x, (some b, x) ∈ P ++ [(none, a)] ↔ (some b, x) ∈ P := by
      intro b x; simp
    have hacts : ∀ x, x ∈ acts (P ++ [(none, a)]) ↔ x ∈ acts P ∨ x = a := by
      intro x; simp [acts]
    simp only [addDep]
    split
    · rename_i hc
      refine ⟨?_, h.join, ?_, ?_, h.rest⟩
      · intro b' a'
        rw [hmem]
        exact h.pend b' a'
      · intro x
        show x ∈ s.initial ++ [a] ↔ _
        rw [hacts, List.mem_append, List.mem_singleton, h.init]
        simp only [hmem]
        constructor
        · rintro (⟨h1, h2⟩ | h1)
          · exact ⟨Or.inl h1, h2⟩
          · subst h1
            refine ⟨Or.inr rfl, ?_⟩
            intro b hb
            have h1 := (h.pend b x).mpr hb
            have h0 := hc.1
            rw [h.join, cnt_zero] at h0
            exact h0 b h1
        · rintro ⟨h1, h2⟩
          rcases h1 with h1 | h1
          · exact Or.inl ⟨h1, h2⟩
          · exact Or.inr h1
      · rw [List.nodup_append]
        refine ⟨h.nodup, by simp, ?_⟩
        intro x hx y hy e
        simp only [List.mem_singleton] at hy
        subst hy
        subst e
        exact hc.2 hx
    · rename_i hc
      refine ⟨?_, h.join, ?_, h.nodup, h.rest⟩
      · intro b' a'
        rw [hmem]
        exact h.pend b' a'
      · intro x
        rw [h.init, hacts]
        simp only [hmem]
        constructor
        · rintro ⟨h1, h2⟩; exact ⟨Or.inl h1, h2⟩
        · rintro ⟨h1, h2⟩
          rcases h1 with h1 | h1
          · exact ⟨h1, h2⟩
          · subst h1
            have h0 : s.join x = 0 := by
              rw [h.join, cnt_zero]
              intro b hb
              exact h2 b ((h.pend b x).mp hb)
            have hin : x ∈ s.initial := Classical.byContradiction fun hx => hc ⟨h0, hx⟩
            exact ⟨((h.init x).mp hin).1, h2⟩

theorem build_binv (C : Calls) : BInv C (build C) := by
  have : ∀ (C2 P : Calls) (s : St), BInv P s → BInv (P ++ C2) (C2.foldl addDep s) := by
    intro C2
    induction C2 with
    | nil => intro P s h; simpa using h
    | cons c C2 ih =>
      intro P s h
      have := ih (P ++ [c]) _ (addDep_binv h c)
      simpa using this
  have h0 : BInv [] {} := by
    refine ⟨?_, ?_, ?_, ?_, ?_⟩
    · intro b a; simp
    · intro a; simp [cnt]
    · intro a; simp [acts]
    · simp
    · exact ⟨rfl, rfl, rfl, rfl⟩
  simpa [build] using this C [] {} h0

/-! ### Running it -/

/-- Invariant while the graph runs. -/
structure Inv (C : Calls) (s : St) : Prop where
  join : ∀ a, s.join a = cnt a s.pending
  sub : ∀ b a, (b, a) ∈ s.pending → (some b, a) ∈ C
  gone : ∀ b a, (some b, a) ∈ C → (b, a) ∉ s.pending → .finish b ∈ s.log
  stk : ∀ b a, (b, a) ∈ s.pending → .finish b ∈ s.log → b ∈ s.stack
  stkfin : ∀ b, b ∈ s.stack → .finish b ∈ s.log
  init : ∀ a, a ∈ s.initial → a ∈ acts C ∧ .start a ∉ s.log ∧ ∀ b, (b, a) ∉ s.pending
  nodup : s.initial.Nodup
  unst : ∀ a, a ∈ acts C → .start a ∉ s.log → a ∈ s.initial ∨ ∃ b, (b, a) ∈ s.pending
  st : ∀ a, .start a ∈ s.log → ∀ b, (b, a) ∉ s.pending
  act : ∀ a, a ∈ s.active ↔ (.start a ∈ s.log ∧ .finish a ∉ s.log)
  actnd : s.active.Nodup
  ord : WellOrdered C s.log
  cmp : s.complete = true ↔ .notify ∈ s.log

/-- Nothing is left to do, so completion has been signalled. -/
def Signalled (s : St) : Prop :=
  s.active = [] → s.pending = [] → s.initial = [] → .notify ∈ s.log

theorem WellOrdered.finish_start {C : Calls} {l : List Ev} (h : WellOrdered C l) {a : Nat} (hf : .finish a ∈ l) :
    .start a ∈ l := by
  induction l with
  | nil => simp at hf
  | cons e l ih =>
    cases e with
    | start x =>
      simp only [List.mem_cons, reduceCtorEq, false_or] at hf
      exact List.mem_cons_of_mem _ (ih h.2.2.2 hf)
    | finish x =>
      rcases List.mem_cons.mp hf with hf | hf
      · simp only [Ev.finish.injEq] at hf
        subst hf
        exact List.mem_cons_of_mem _ h.1
      · exact List.mem_cons_of_mem _ (ih h.2.2 hf)
    | notify =>
      simp only [List.mem_cons, reduceCtorEq, false_or] at hf
      exact List.mem_cons_of_mem _ (ih h.2.2 hf)

theorem WellOrdered.start_mem {C : Calls} {l : List Ev} (h : WellOrdered C l) {a : Nat} (hf : .start a ∈ l) :
    a ∈ acts C := by
  induction l with
  | nil => simp at hf
  | cons e l ih =>
    cases e with
    | start x =>
      rcases List.mem_cons.mp hf with hf | hf
      · simp only [Ev.start.injEq] at hf
        subst hf
        exact h.1
      · exact ih h.2.2.2 hf
    | finish x =>
      simp only [List.mem_cons, reduceCtorEq, false_or] at hf
      exact ih h.2.2 hf
    | notify =>
      simp only [List.mem_cons, reduceCtorEq, false_or] at hf
      exact ih h.2.2 hf

/-- All actions are complete when nothing is waiting, active or initial. -/
theorem all_finished {C : Calls} {s : St} (h : Inv C s) (h1 : s.active = []) (h2 : s.pending = [])
    (h3 : s.initial = []) : ∀ a ∈ acts C, .finish a ∈ s.log := by
  intro a ha
  by_cases hs : .start a ∈ s.log
  · refine Classical.byContradiction fun hf => ?_
    have := (h.act a).mpr ⟨hs, hf⟩
    rw [h1] at this
    simp at this
  · rcases h.unst a ha hs with h' | ⟨b, h'⟩
    · rw [h3] at h'; simp at h'
    · rw [h2] at h'; simp at h'

theorem check_inv {C : Calls} {s : St} (h : Inv C s) : Inv C (check s) ∧ Signalled (check s) := by
  unfold check
  split
  · rename_i hc
    have hn : Ev.notify ∉ s.log := by
      intro hn
      rw [← h.cmp, hc.2.2.2] at hn
      simp at hn
    refine ⟨⟨h.join, h.sub, ?_, ?_, ?_, ?_, h.nodup, ?_, ?_, ?_, h.actnd, ?_, ?_⟩, ?_⟩
    · intro b a h1 h2
      exact List.mem_cons_of_mem _ (h.gone b a h1 h2)
    · intro b a h1 h2
      simp only [List.mem_cons, reduceCtorEq, false_or] at h2
      exact h.stk b a h1 h2
    · intro b hb
      exact List.mem_cons_of_mem _ (h.stkfin b hb)
    · intro a ha
      obtain ⟨e1, e2, e3⟩ := h.init a ha
      exact ⟨e1, by simpa using e2, e3⟩
    · intro a ha hs
      simp only [List.mem_cons, reduceCtorEq, false_or] at hs
      exact h.unst a ha hs
    · intro a ha
      simp only [List.mem_cons, reduceCtorEq, false_or] at ha
      exact h.st a ha
    · intro a
      simp only [List.mem_cons, reduceCtorEq, false_or]
      exact h.act a
    · exact ⟨all_finished h hc.1 hc.2.1 hc.2.2.1, hn, h.ord⟩
    · simp
    · intro _ _ _
      exact List.mem_cons_self
  · rename_i hc
    refine ⟨h, ?_⟩
    intro h1 h2 h3
    rw [← h.cmp]
    cases hcm : s.complete with
    | true => rfl
    | false => exact absurd ⟨h1, h2, h3, hcm⟩ hc

theorem clear_inv {C : Calls} {s : St} (h : Inv C s) {a : Nat} (hst : .start a ∈ s.log) (hfin : .finish a ∉ s.log) :
    Inv C (clear a s) ∧ Signalled (clear a s) := by
  -- the frame may be put on the stack before the check
  have e : clear a s = check { s with active := s.active.erase a, log := .finish a :: s.log, stack := a :: s.stack } := by
    unfold clear check
    simp only
    split <;> rfl
  rw [e]
  apply check_inv
  have hmem := (h.act a).mpr ⟨hst, hfin⟩
  refine ⟨h.join, h.sub, ?_, ?_, ?_, ?_, h.nodup, ?_, ?_, ?_, h.actnd.erase a, ?_, ?_⟩
  · intro b x h1 h2
    exact List.mem_cons_of_mem _ (h.gone b x h1 h2)
  · intro b x h1 h2
    rcases List.mem_cons.mp h2 with h2 | h2
    · simp only [Ev.finish.injEq] at h2
      subst h2
      exact List.mem_cons_self
    · exact List.mem_cons_of_mem _ (h.stk b x h1 h2)
  · intro b hb
    rcases List.mem_cons.mp hb with hb | hb
    · subst hb; exact List.mem_cons_self
    · exact List.mem_cons_of_mem _ (h.stkfin b hb)
  · intro x hx
    obtain ⟨e1, e2, e3⟩ := h.init x hx
    exact ⟨e1, by simpa using e2, e3⟩
  · intro x hx hs
    simp only [List.mem_cons, reduceCtorEq, false_or] at hs
    exact h.unst x hx hs
  · intro x hx
    simp only [List.mem_cons, reduceCtorEq, false_or] at hx
    exact h.st x hx
  · intro x
    simp only [List.mem_cons, reduceCtorEq, false_or, Ev.finish.injEq]
    rw [h.actnd.mem_erase_iff, h.act x]
    constructor
    · rintro ⟨h1, h2, h3⟩
      exact ⟨h2, fun hh => hh.elim h1 h3⟩
    · rintro ⟨h1, h2⟩
      exact ⟨fun hh => h2 (Or.inl hh), h1, fun hh => h2 (Or.inr hh)⟩
  · exact ⟨hst, hfin, h.ord⟩
  · simp only [List.mem_cons, reduceCtorEq, false_or]
    exact h.cmp

/-- The invariant of a state in which action `a` is about to start: it is neither initial nor
waiting any more. -/
structure Ready (C : Calls) (s : St) (a : Nat) : Prop where
  join : ∀ a, s.join a = cnt a s.pending
  sub : ∀ b a, (b, a) ∈ s.pending → (some b, a) ∈ C
  gone : ∀ b a, (some b, a) ∈ C → (b, a) ∉ s.pending → .finish b ∈ s.log
  stk : ∀ b a, (b, a) ∈ s.pending → .finish b ∈ s.log → b ∈ s.stack
  stkfin : ∀ b, b ∈ s.stack → .finish b ∈ s.log
  init : ∀ a, a ∈ s.initial → a ∈ acts C ∧ .start a ∉ s.log ∧ ∀ b, (b, a) ∉ s.pending
  nodup : s.initial.Nodup
  unst : ∀ x, x ∈ acts C → x ≠ a → .start x ∉ s.log → x ∈ s.initial ∨ ∃ b, (b, x) ∈ s.pending
  st : ∀ a, .start a ∈ s.log → ∀ b, (b, a) ∉ s.pending
  act : ∀ a, a ∈ s.active ↔ (.start a ∈ s.log ∧ .finish a ∉ s.log)
  actnd : s.active.Nodup
  ord : WellOrdered C s.log
  cmp : s.complete = true ↔ .notify ∈ s.log
  mem : a ∈ acts C
  notinit : a ∉ s.initial
  notst : .start a ∉ s.log
  notpend : ∀ b, (b, a) ∉ s.pending

theorem startAct_inv {C : Calls} (isComm : Nat → Bool) {s : St} {a : Nat} (h : Ready C s a) :
    Inv C (startAct isComm a s) ∧ Signalled (startAct isComm a s) := by
  have hfin : Ev.finish a ∉ s.log := fun hf => h.notst (h.ord.finish_start hf)
  have base : ∀ act' : List Nat, (∀ x, x ∈ act' ↔ (.start x ∈ Ev.start a :: s.log ∧ .finish x ∉ Ev.start a :: s.log)) →
      act'.Nodup → Inv C { s with log := .start a :: s.log, active := act' } := by
    intro act' ha1 ha2
    refine ⟨h.join, h.sub, ?_, ?_, ?_, ?_, h.nodup, ?_, ?_, ha1, ha2, ?_, ?_⟩
    · intro b x h1 h2
      exact List.mem_cons_of_mem _ (h.gone b x h1 h2)
    · intro b x h1 h2
      simp only [List.mem_cons, reduceCtorEq, false_or] at h2
      exact h.stk b x h1 h2
    · intro b hb
      exact List.mem_cons_of_mem _ (h.stkfin b hb)
    · intro x hx
      obtain ⟨e1, e2, e3⟩ := h.init x hx
      refine ⟨e1, ?_, e3⟩
      simp only [List.mem_cons, Ev.start.injEq]
      intro hh
      rcases hh with hh | hh
      · subst hh; exact h.notinit hx
      · exact e2 hh
    · intro x hx hs
      simp only [List.mem_cons, Ev.start.injEq] at hs
      exact h.unst x hx (fun e => hs (Or.inl e)) (fun e => hs (Or.inr e))
    · intro x hx
      rcases List.mem_cons.mp hx with hx | hx
      · simp only [Ev.start.injEq] at hx
        subst hx
        exact h.notpend
      · exact h.st x hx
    · exact ⟨h.mem, fun b hb => h.gone b a hb (h.notpend b), h.notst, h.ord⟩
    · simp only [List.mem_cons, reduceCtorEq, false_or]
      exact h.cmp
  have hact : ∀ x, x ∈ a :: s.active ↔ (.start x ∈ Ev.start a :: s.log ∧ .finish x ∉ Ev.start a :: s.log) := by
    intro x
    simp only [List.mem_cons, Ev.start.injEq, reduceCtorEq, false_or]
    rw [h.act x]
    constructor
    · rintro (rfl | ⟨h1, h2⟩)
      · exact ⟨Or.inl rfl, hfin⟩
      · exact ⟨Or.inr h1, h2⟩
    · rintro ⟨h1 | h1, h2⟩
      · exact Or.inl h1
      · exact Or.inr ⟨h1, h2⟩
  have hnd : (a :: s.active).Nodup := by
    rw [List.nodup_cons]
    exact ⟨fun hh => h.notst ((h.act a).mp hh).1, h.actnd⟩
  unfold startAct
  simp only
  split
  · refine ⟨base _ hact hnd, ?_⟩
    intro h1
    simp at h1
  · -- a local action: as if it had become active and was cleared
    have := clear_inv (base _ hact hnd) (a := a) List.mem_cons_self (by simpa using hfin)
    have e : clear a { s with log := .start a :: s.log, active := a :: s.active } =
        clear a { s with log := .start a :: s.log } := by
      have hno : a ∉ s.active := fun hh => h.notst ((h.act a).mp hh).1
      unfold clear
      simp only [List.erase_cons_head, List.erase_of_not_mem hno]
    rw [← e]
    exact this

theorem step_inv {C : Calls} {isComm : Nat → Bool} {s s' : St} (h : Inv C s) (hs : Signalled s)
    (st : Step isComm s s') : Inv C s' ∧ Signalled s' := by
  cases st with
  | init a ha =>
    obtain ⟨e1, e2, e3⟩ := h.init a ha
    apply startAct_inv
    refine ⟨h.join, h.sub, h.gone, h.stk, h.stkfin, ?_, h.nodup.erase a, ?_, h.st, h.act, h.actnd, h.ord, h.cmp,
      e1, ?_, e2, e3⟩
    · intro x hx
      exact h.init x (List.mem_of_mem_erase hx)
    · intro x hx hne hns
      rcases h.unst x hx hns with h1 | h1
      · exact Or.inl ((List.mem_erase_of_ne hne).mpr h1)
      · exact Or.inr h1
    · intro hh
      exact (h.nodup.mem_erase_iff.mp hh).1 rfl
  | complete a ha =>
    have := (h.act a).mp ha
    exact clear_inv h this.1 this.2
  | release b a rest hst hp =>
    have hcnt := countP_erase_mem (fun e : Nat × Nat => e.2 == a) (b, a) s.pending hp
    simp only [beq_self_eq_true, if_true] at hcnt
    have hja : s.join a = cnt a (s.pending.erase (b, a)) + 1 := by rw [h.join]; exact hcnt
    have hjoin : ∀ x, (if x = a then s.join a - 1 else s.join x) = cnt x (s.pending.erase (b, a)) := by
      intro x
      by_cases hx : x = a
      · subst hx; simp [hja]
      · rw [if_neg hx, h.join]
        have := countP_erase_mem (fun e : Nat × Nat => e.2 == x) (b, a) s.pending hp
        have hax : ¬ a = x := fun e => hx e.symm
        simp only [beq_iff_eq, hax, if_false, Nat.add_zero] at this
        exact this
    have hfb : Ev.finish b ∈ s.log := h.stkfin b (by rw [hst]; exact List.mem_cons_self)
    have hsub : ∀ e, e ∈ s.pending.erase (b, a) → e ∈ s.pending := fun e he => List.mem_of_mem_erase he
    have hgone : ∀ b' a', (some b', a') ∈ C → (b', a') ∉ s.pending.erase (b, a) → .finish b' ∈ s.log := by
      intro b' a' h1 h2
      by_cases he : (b', a') = (b, a)
      · simp only [Prod.mk.injEq] at he
        rw [he.1]
        exact hfb
      · exact h.gone b' a' h1 (fun hh => h2 ((List.mem_erase_of_ne he).mpr hh))
    have hunst : ∀ x, x ∈ acts C → x ≠ a → .start x ∉ s.log → x ∈ s.initial ∨ ∃ b', (b', x) ∈ s.pending.erase (b, a) := by
      intro x hx hne hns
      rcases h.unst x hx hns with h1 | ⟨b', h1⟩
      · exact Or.inl h1
      · exact Or.inr ⟨b', (List.mem_erase_of_ne (by simp [hne])).mpr h1⟩
    have hinit : ∀ x, x ∈ s.initial → x ∈ acts C ∧ .start x ∉ s.log ∧ ∀ b', (b', x) ∉ s.pending.erase (b, a) := by
      intro x hx
      obtain ⟨e1, e2, e3⟩ := h.init x hx
      exact ⟨e1, e2, fun b' hb' => e3 b' (hsub _ hb')⟩
    have hmemC := h.sub b a hp
    have hmem : a ∈ acts C := List.mem_map.mpr ⟨_, hmemC, rfl⟩
    have hns : Ev.start a ∉ s.log := fun hh => h.st a hh b hp
    unfold release
    simp only [if_true]
    split
    · rename_i hz
      have hnp : ∀ b', (b', a) ∉ s.pending.erase (b, a) := by
        rw [← cnt_zero]
        omega
      apply startAct_inv
      exact ⟨hjoin, fun b' a' hh => h.sub b' a' (hsub _ hh), hgone, fun b' a' h1 h2 => h.stk b' a' (hsub _ h1) h2,
        h.stkfin, hinit, h.nodup, hunst, fun x hx b' hb' => h.st x hx b' (hsub _ hb'), h.act, h.actnd, h.ord,
        h.cmp, hmem, fun hh => (h.init a hh).2.2 b hp, hns, hnp⟩
    · rename_i hz
      have hex : ∃ b', (b', a) ∈ s.pending.erase (b, a) := by
        refine Classical.byContradiction fun hne => hz ?_
        have := cnt_zero.mpr (fun b' hb' => hne ⟨b', hb'⟩)
        omega
      refine ⟨⟨hjoin, fun b' a' hh => h.sub b' a' (hsub _ hh), hgone, fun b' a' h1 h2 => h.stk b' a' (hsub _ h1) h2,
        h.stkfin, hinit, h.nodup, ?_, fun x hx b' hb' => h.st x hx b' (hsub _ hb'), h.act, h.actnd, h.ord,
        h.cmp⟩, ?_⟩
      · intro x hx hns'
        by_cases hxa : x = a
        · subst hxa; exact Or.inr hex
        · exact hunst x hx hxa hns'
      · intro _ h2 _
        obtain ⟨b', hb'⟩ := hex
        simp only at h2
        rw [h2] at hb'
        simp at hb'
  | ret b rest hst hp =>
    refine ⟨⟨h.join, h.sub, h.gone, ?_, ?_, h.init, h.nodup, h.unst, h.st, h.act, h.actnd, h.ord, h.cmp⟩, hs⟩
    · intro b' a' h1 h2
      have h3 := h.stk b' a' h1 h2
      rw [hst] at h3
      rcases List.mem_cons.mp h3 with h3 | h3
      · subst h3; exact absurd h1 (hp a')
      · exact h3
    · intro b' hb'
      exact h.stkfin b' (by rw [hst]; exact List.mem_cons_of_mem _ hb')

theorem reach_inv {C : Calls} {isComm : Nat → Bool} (hne : C ≠ []) {s : St}
    (h : Reach isComm C s) : Inv C s ∧ Signalled s := by
  induction h with
  | init =>
    have hb := build_binv C
    obtain ⟨r1, r2, r3, r4⟩ := hb.rest
    have hl : ∀ e, e ∉ (build C).log := by rw [r4]; simp
    refine ⟨⟨hb.join, fun b a hh => (hb.pend b a).mp hh, fun b a h1 h2 => absurd ((hb.pend b a).mpr h1) h2,
      fun b a _ h2 => absurd h2 (hl _), ?_, ?_, hb.nodup, ?_, fun a ha => absurd ha (hl _), ?_, ?_, ?_, ?_⟩, ?_⟩
    · rw [r2]; intro b hb'; simp at hb'
    · intro a ha
      obtain ⟨e1, e2⟩ := (hb.init a).mp ha
      exact ⟨e1, hl _, fun b hb' => e2 b ((hb.pend b a).mp hb')⟩
    · intro a ha _
      by_cases hd : ∃ b, (some b, a) ∈ C
      · obtain ⟨b, hd⟩ := hd
        exact Or.inr ⟨b, (hb.pend b a).mpr hd⟩
      · exact Or.inl ((hb.init a).mpr ⟨ha, fun b hb' => hd ⟨b, hb'⟩⟩)
    · intro a
      rw [r1, r4]
      simp
    · rw [r1]; simp
    · rw [r4]; trivial
    · rw [r3, r4]; simp
    · intro _ h2 h3
      exfalso
      obtain ⟨⟨ob, a⟩, C', rfl⟩ : ∃ c C', C = c :: C' := by
        cases C with
        | nil => exact absurd rfl hne
        | cons c C' => exact ⟨c, C', rfl⟩
      have ha : a ∈ acts ((ob, a) :: C') := by simp [acts]
      have h3' := fun x => hb.init x
      rw [h3] at h3'
      have h2' := fun b x => hb.pend b x
      rw [h2] at h2'
      have := (h3' a).mpr ⟨ha, fun b hb' => by have := (h2' b a).mpr hb'; simp at this⟩
      simp at this
  | step h st ih => exact step_inv ih.1 ih.2 st

/-- C36: in every execution, whatever the order of completions, every action starts at most
once and only after all its dependencies are complete, completes at most once, and completion
is signalled at most once, after all actions are complete. -/
theorem C36_ordered (C : Calls) (isComm : Nat → Bool) (hne : C ≠ []) (s : St)
    (h : Reach isComm C s) : WellOrdered C s.log :=
  (reach_inv hne h).1.ord

/-- C36: when the rank has nothing left to do, all its actions have started and completed and
completion has been signalled. -/
theorem C36_completes (C : Calls) (isComm : Nat → Bool) (hac : Acyclic C) (hne : C ≠ []) (s : St)
    (h : Reach isComm C s) (hq : ¬ ∃ s', Step isComm s s') :
    (∀ a ∈ acts C, .start a ∈ s.log ∧ .finish a ∈ s.log) ∧ .notify ∈ s.log := by
  obtain ⟨inv, sig⟩ := reach_inv hne h
  have hinit : s.initial = [] := by
    cases hi : s.initial with
    | nil => rfl
    | cons a l => exact absurd ⟨_, Step.init s a (by rw [hi]; exact List.mem_cons_self)⟩ hq
  have hact : s.active = [] := by
    cases hi : s.active with
    | nil => rfl
    | cons a l => exact absurd ⟨_, Step.complete s a (by rw [hi]; exact List.mem_cons_self)⟩ hq
  have hstk : s.stack = [] := by
    cases hi : s.stack with
    | nil => rfl
    | cons b l =>
      exfalso
      apply hq
      by_cases hp : ∃ a, (b, a) ∈ s.pending
      · obtain ⟨a, hp⟩ := hp
        exact ⟨_, Step.release s b a l hi hp⟩
      · exact ⟨_, Step.ret s b l hi (fun a ha => hp ⟨a, ha⟩)⟩
  obtain ⟨rk, hrk⟩ := hac.rank
  have hpend : ∀ n b a, rk b ≤ n → (b, a) ∉ s.pending := by
    intro n
    induction n with
    | zero =>
      intro b a hn hp
      have hnf : Ev.finish b ∉ s.log := by
        intro hf
        have := inv.stk b a hp hf
        rw [hstk] at this
        simp at this
      have hb := hac.closed b a (inv.sub b a hp)
      by_cases hs : .start b ∈ s.log
      · have := (inv.act b).mpr ⟨hs, hnf⟩
        rw [hact] at this
        simp at this
      · rcases inv.unst b hb hs with h1 | ⟨b', h1⟩
        · rw [hinit] at h1; simp at h1
        · have := hrk b' b (inv.sub b' b h1)
          omega
    | succ n ih =>
      intro b a hn hp
      have hnf : Ev.finish b ∉ s.log := by
        intro hf
        have := inv.stk b a hp hf
        rw [hstk] at this
        simp at this
      have hb := hac.closed b a (inv.sub b a hp)
      by_cases hs : .start b ∈ s.log
      · have := (inv.act b).mpr ⟨hs, hnf⟩
        rw [hact] at this
        simp at this
      · rcases inv.unst b hb hs with h1 | ⟨b', h1⟩
        · rw [hinit] at h1; simp at h1
        · have := hrk b' b (inv.sub b' b h1)
          exact ih b' b (by omega) h1
  have hp : s.pending = [] := by
    cases hi : s.pending with
    | nil => rfl
    | cons e l =>
      obtain ⟨b, a⟩ := e
      exact absurd (by rw [hi]; exact List.mem_cons_self) (hpend (rk b) b a (Nat.le_refl _))
  refine ⟨?_, sig hact hp hinit⟩
  intro a ha
  have hf := all_finished inv hact hp hinit a ha
  exact ⟨inv.ord.finish_start hf, hf⟩

/-- Work left. -/
def measure (s : St) : Nat := 3 * s.initial.length + 3 * s.pending.length + 2 * s.active.length + s.stack.length

theorem check_measure (s : St) : measure (check s) = measure s := by
  unfold check; split <;> rfl

theorem clear_measure (a : Nat) (s : St) :
    measure (clear a s) = 3 * s.initial.length + 3 * s.pending.length + 2 * (s.active.erase a).length + s.stack.length + 1 := by
  have e : clear a s = check { s with active := s.active.erase a, log := .finish a :: s.log, stack := a :: s.stack } := by
    unfold clear check
    simp only
    split <;> rfl
  rw [e, check_measure]
  simp [measure]
  omega

theorem startAct_measure (isComm : Nat → Bool) (a : Nat) (s : St) : measure (startAct isComm a s) ≤ measure s + 2 := by
  unfold startAct
  simp only
  split
  · simp [measure]; omega
  · rw [clear_measure]
    have : (s.active.erase a).length ≤ s.active.length := List.erase_sublist.length_le
    simp only [measure]
    omega

theorem step_measure {isComm : Nat → Bool} {s s' : St} (st : Step isComm s s') : measure s' < measure s := by
  cases st with
  | init a ha =>
    have h1 := startAct_measure isComm a { s with initial := s.initial.erase a }
    have h2 := List.length_erase_of_mem ha
    have h3 : 0 < s.initial.length := List.length_pos_of_mem ha
    simp only [measure] at h1 ⊢
    omega
  | complete a ha =>
    rw [clear_measure]
    have h2 := List.length_erase_of_mem ha
    have h3 : 0 < s.active.length := List.length_pos_of_mem ha
    simp only [measure]
    omega
  | release b a rest hs hp =>
    have h2 := List.length_erase_of_mem hp
    have h3 : 0 < s.pending.length := List.length_pos_of_mem hp
    unfold release
    simp only [if_true]
    split
    · refine Nat.lt_of_le_of_lt (startAct_measure isComm a _) ?_
      simp only [measure]
      omega
    · simp only [measure]
      omega
  | ret b rest hs hp =>
    simp only [measure, hs, List.length_cons]
    omega

/-- C36: no execution goes on forever. -/
theorem C36_terminates (C : Calls) (isComm : Nat → Bool) :
    ¬ ∃ f : Nat → St, f 0 = build C ∧ ∀ n, Step isComm (f n) (f (n + 1)) := by
  rintro ⟨f, _, hf⟩
  have : ∀ n, measure (f n) + n ≤ measure (f 0) := by
    intro n
    induction n with
    | zero => omega
    | succ n ih => have := step_measure (hf n); omega
  have := this (measure (f 0) + 1)
  omega

/-- C36: without any action completion is never signalled: such a rank would wait forever. -/
theorem C36_empty_never_signals (isComm : Nat → Bool) : ¬ ∃ s', Step isComm (build []) s' := by
  rintro ⟨s', st⟩
  cases st with
  | init a ha => simp [build] at ha
  | complete a ha => simp [build] at ha
  | release b a rest hs hp => simp [build] at hp
  | ret b rest hs hp => simp [build] at hs

/-- A round of the alltoall: shuffle 0 (added twice below a previous round in the program),
send 1 and receive 2, shuffle 3.  The graph meets the conditions, and an execution in which
the receive completes before the send signals completion. -/
example : Acyclic [(none, 0), (some 0, 1), (some 0, 2), (some 1, 3), (some 2, 3)] := by
  refine ⟨?_, ⟨id, ?_⟩⟩
  · intro b a h
    simp only [List.mem_cons, Prod.mk.injEq, reduceCtorEq, false_and, Option.some.injEq, List.not_mem_nil, or_false,
      false_or] at h
    simp [acts]
    omega
  · intro b a h
    simp only [List.mem_cons, Prod.mk.injEq, reduceCtorEq, false_and, Option.some.injEq, List.not_mem_nil, or_false,
      false_or] at h
    simp only [id]
    omega

example :
    (let comm := fun a => a == 1 || a == 2
     let s := build [(none, 0), (some 0, 1), (some 0, 2), (some 1, 3), (some 2, 3)]
     let s := startAct comm 0 { s with initial := [] }
     let s := release comm 0 1 s
     let s := release comm 0 2 s
     let s := clear 2 { s with stack := [] }
     let s := release comm 2 3 s
     let s := clear 1 { s with stack := [] }
     let s := release comm 1 3 s
     s.log.reverse) =
    [.start 0, .finish 0, .start 1, .start 2, .finish 2, .finish 1, .start 3, .finish 3, .notify] := by
  decide

end SST.Coll.Engine
