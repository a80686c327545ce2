import Verif.Os.Exit
/-
C146: when a process ends, the node, the loader, the launcher and the caller of the simulator learn
of it.
-/
set_option autoImplicit false
namespace SST.Os.Exit

/-! ### Specification: what a history says -/

/-- The processes that were started and have not ended. -/
def alive : List Op → List Proc := List.foldl (fun l op => match op with
  | .start p => l ++ [p]
  | .finish p (.returns _) => l.erase p
  | .finish p (.exits _) => l.erase p
  | .finish p (.threadExits _) => l.erase p
  | _ => l) []

/-- How often the launcher announced an application and has not released it. -/
def held (aid : Nat) (ops : List Op) : Int := (ops.count (.lock aid) : Int) - ops.count (.unlock aid)

/-- The applications whose rank 0 ended and was to be reported. -/
def ended : List Op → List Nat := List.filterMap (fun op => match op with
  | .finish p _ => if p.rank = 0 ∧ p.notify = true then some p.aid else none
  | _ => none)

/-- What the processes returned, in order. -/
def codes : List Op → List Int := List.filterMap (fun op => match op with
  | .finish _ (.returns rc) => some rc
  | .finish _ (.exits c) => some c
  | .finish _ (.threadExits c) => some c
  | _ => none)

/-- A possible next event: only processes that run end, only what is held is released. -/
def Possible (ops : List Op) : Op → Prop
  | .lock _ => True
  | .unlock a => 0 < held a ops
  | .start p => p ∉ alive ops
  | .finish p _ => p ∈ alive ops

/-- Histories and what the simulator makes of them. -/
inductive Run (exe : Nat → Bool) : List Op → World → Prop
  | init : Run exe [] {}
  | step {ops : List Op} {w : World} (h : Run exe ops w) (op : Op) (hp : Possible ops op) : Run exe (ops ++ [op]) (exec exe w op)

/-- All processes end by returning from `main`. -/
def Returning (ops : List Op) : Prop := ∀ op ∈ ops, ∀ p how, op = .finish p how → ∃ rc, how = .returns rc

/-! ### Proof -/

theorem alive_append (ops : List Op) (op : Op) : alive (ops ++ [op]) = (match op with
  | .start p => alive ops ++ [p]
  | .finish p (.returns _) => (alive ops).erase p
  | .finish p (.exits _) => (alive ops).erase p
  | .finish p (.threadExits _) => (alive ops).erase p
  | _ => alive ops) := by
  simp only [alive, List.foldl_append, List.foldl_cons, List.foldl_nil]

/-- The count of an entry. -/
def refs : Option (Int × Bool) → Int
  | none => 0
  | some e => e.1

/-- What holds after every history of processes that return. -/
structure Inv (exe : Nat → Bool) (ops : List Op) (w : World) : Prop where
  run : w.running = alive ops
  nodes : ∀ n, w.nodes n = (alive ops).countP (·.node = n)
  libs : ∀ a, exe a = true → refs (w.libs a) = held a ops + (alive ops).countP (·.aid = a)
  loaded : ∀ a, exe a = true → 0 < (alive ops).countP (·.aid = a) → ∃ n, w.libs a = some (n, true)
  heldn : ∀ a, 0 ≤ held a ops
  stops : w.stops = ended ops
  rc : w.rc = ((codes ops).getLast?).getD 0
  lost : w.lost = []
  pos : ∀ a n, exe a = true → w.libs a = some (n, true) → 0 < n

theorem countP_erase_int {l : List Proc} {p : Proc} (h : p ∈ l) (q : Proc → Bool) :
    ((l.erase p).countP q : Int) = l.countP q - (if q p = true then 1 else 0) := by
  have h1 := (List.perm_cons_erase h).countP_eq q
  rw [List.countP_cons] at h1
  by_cases hq : q p = true
  · simp only [hq, if_true] at h1 ⊢; omega
  · simp only [hq, if_false] at h1 ⊢; simp at h1 ⊢; omega

theorem held_append (a : Nat) (ops : List Op) (op : Op) :
    held a (ops ++ [op]) = held a ops + (if op = .lock a then 1 else 0) - (if op = .unlock a then 1 else 0) := by
  unfold held
  rw [List.count_append, List.count_append]
  simp only [List.count_singleton, beq_iff_eq]
  by_cases h1 : op = .lock a <;> by_cases h2 : op = .unlock a <;> simp [h1, h2] <;> omega

theorem set_same {β : Type} (f : Nat → β) (k : Nat) (v : β) : set f k v k = v := by simp [set]

theorem set_ne {β : Type} (f : Nat → β) (k k' : Nat) (v : β) (h : k' ≠ k) : set f k v k' = f k' := by simp [set, h]

theorem refs_lock (e : Option (Int × Bool)) : refs (lockLib e) = refs e + 1 := by
  rcases e with _ | ⟨n, l⟩ <;> simp [refs, lockLib]

theorem refs_open (e : Option (Int × Bool)) : refs (openLib e) = refs e + 1 := by
  rcases e with _ | ⟨n, l⟩ <;> simp [refs, openLib]

theorem refs_close (e : Option (Int × Bool)) (h : 0 < refs e) : refs (closeLib e) = refs e - 1 := by
  rcases e with _ | ⟨n, l⟩
  · simp [refs] at h
  · simp only [closeLib]
    split
    · next h' => simp only [refs]; omega
    · rfl

theorem close_loaded {e : Option (Int × Bool)} {n : Int} (h : e = some (n, true)) (hn : 1 < n) : closeLib e = some (n - 1, true) := by
  subst h
  simp only [closeLib]
  exact if_neg (by omega)

theorem close_pos {e : Option (Int × Bool)} {n : Int} (hp : ∀ m, e = some (m, true) → 0 < m) (h : closeLib e = some (n, true)) : 0 < n := by
  rcases e with _ | ⟨m, l⟩
  · simp [closeLib] at h
  · simp only [closeLib] at h
    split at h
    · cases h
    · next h' =>
      obtain ⟨rfl, rfl⟩ := Prod.mk.inj (Option.some.inj h)
      have := hp m rfl
      simp only [and_true] at h'
      omega

theorem inv (exe : Nat → Bool) {ops : List Op} {w : World} (h : Run exe ops w) : Returning ops → Inv exe ops w := by
  induction h with
  | init =>
    intro _
    exact ⟨rfl, by simp [alive], by simp [refs, held, alive], by simp [alive], by simp [held], rfl, rfl, rfl, by intro a n _ h; cases h⟩
  | @step ops w h op hp ih =>
    intro hr
    have hi := ih (fun o ho => hr o (List.mem_append_left _ ho))
    have hh : ∀ a, held a (ops ++ [op]) = held a ops + (if op = .lock a then 1 else 0) - (if op = .unlock a then 1 else 0) := fun a => held_append a ops op
    cases op with
    | lock b =>
      have ha : alive (ops ++ [.lock b]) = alive ops := alive_append _ _
      refine ⟨?_, ?_, ?_, ?_, ?_, ?_, ?_, hi.lost, ?_⟩
      · rw [ha]; exact hi.run
      · rw [ha]; exact hi.nodes
      · intro a he
        rw [ha, hh]
        simp only [exec, reduceCtorEq, if_false, Op.lock.injEq]
        by_cases e : a = b
        · subst e; rw [set_same, refs_lock, hi.libs a he]; simp; omega
        · rw [set_ne _ _ _ _ e, hi.libs a he, if_neg (fun x => e x.symm)]; omega
      · intro a he hc
        rw [ha] at hc
        obtain ⟨n, hn⟩ := hi.loaded a he hc
        simp only [exec]
        by_cases e : a = b
        · subst e; rw [set_same, hn]; exact ⟨n + 1, rfl⟩
        · rw [set_ne _ _ _ _ e]; exact ⟨n, hn⟩
      · intro a
        have := hi.heldn a
        rw [hh]; simp only [reduceCtorEq, if_false]; split <;> omega
      · simp only [exec]; rw [hi.stops]; simp [ended]
      · simp only [exec]; rw [hi.rc]; simp [codes]
      · intro a n he hl
        simp only [exec] at hl
        by_cases e : a = b
        · subst e
          rw [set_same] at hl
          cases hx : w.libs a with
          | none => rw [hx] at hl; simp [lockLib] at hl
          | some e =>
            obtain ⟨m, l⟩ := e
            rw [hx] at hl
            simp only [lockLib, Option.some.injEq, Prod.mk.injEq] at hl
            have := hi.pos a m he (by rw [hx, hl.2])
            omega
        · rw [set_ne _ _ _ _ e] at hl; exact hi.pos a n he hl
    | unlock b =>
      have ha : alive (ops ++ [.unlock b]) = alive ops := alive_append _ _
      have hpos : 0 < held b ops := hp
      refine ⟨?_, ?_, ?_, ?_, ?_, ?_, ?_, hi.lost, ?_⟩
      · rw [ha]; exact hi.run
      · rw [ha]; exact hi.nodes
      · intro a he
        rw [ha, hh]
        simp only [exec, reduceCtorEq, if_false, Op.unlock.injEq]
        by_cases e : a = b
        · subst e
          rw [set_same, refs_close _ (by rw [hi.libs a he]; omega), hi.libs a he]; simp; omega
        · rw [set_ne _ _ _ _ e, hi.libs a he, if_neg (fun x => e x.symm)]; omega
      · intro a he hc
        rw [ha] at hc
        obtain ⟨n, hn⟩ := hi.loaded a he hc
        simp only [exec]
        by_cases e : a = b
        · subst e
          rw [set_same]
          have := hi.libs a he
          rw [hn] at this
          simp only [refs] at this
          exact ⟨n - 1, close_loaded hn (by omega)⟩
        · rw [set_ne _ _ _ _ e]; exact ⟨n, hn⟩
      · intro a
        have := hi.heldn a
        rw [hh]; simp only [reduceCtorEq, if_false, Op.unlock.injEq]
        split
        · next e => subst e; omega
        · omega
      · simp only [exec]; rw [hi.stops]; simp [ended]
      · simp only [exec]; rw [hi.rc]; simp [codes]
      · intro a n he hl
        simp only [exec] at hl
        by_cases e : a = b
        · subst e
          rw [set_same] at hl
          exact close_pos (fun m hm => hi.pos a m he hm) hl
        · rw [set_ne _ _ _ _ e] at hl; exact hi.pos a n he hl
    | start p =>
      have ha : alive (ops ++ [.start p]) = alive ops ++ [p] := alive_append _ _
      have hcount : ∀ q : Proc → Bool, ((alive ops ++ [p]).countP q : Int) = (alive ops).countP q + (if q p = true then 1 else 0) := by
        intro q
        rw [List.countP_append, List.countP_singleton]
        split <;> simp
      refine ⟨?_, ?_, ?_, ?_, ?_, ?_, ?_, hi.lost, ?_⟩
      · rw [ha]; simp only [exec]; rw [hi.run]
      · intro n
        rw [ha, hcount]
        simp only [exec, decide_eq_true_eq]
        by_cases e : n = p.node
        · subst e; rw [set_same, hi.nodes, if_pos rfl]
        · rw [set_ne _ _ _ _ e, hi.nodes, if_neg (fun x => e x.symm)]; omega
      · intro a he
        rw [ha, hcount, hh]
        simp only [exec, reduceCtorEq, if_false, decide_eq_true_eq]
        by_cases e : a = p.aid
        · subst e; rw [if_pos he, set_same, refs_open, hi.libs _ he]; simp; omega
        · rw [if_neg (fun x : p.aid = a => e x.symm)]
          split
          · rw [set_ne _ _ _ _ e, hi.libs a he]; omega
          · rw [hi.libs a he]; omega
      · intro a he hc
        simp only [exec]
        by_cases e : a = p.aid
        · subst e
          rw [if_pos he, set_same]
          rcases w.libs p.aid with _ | ⟨n, l⟩
          · exact ⟨1, rfl⟩
          · exact ⟨n + 1, rfl⟩
        · have h1 := hcount (fun q => decide (q.aid = a))
          simp only [decide_eq_true_eq, if_neg (fun x : p.aid = a => e x.symm)] at h1
          rw [ha] at hc
          obtain ⟨n, hn⟩ := hi.loaded a he (by omega)
          split
          · rw [set_ne _ _ _ _ e]; exact ⟨n, hn⟩
          · exact ⟨n, hn⟩
      · intro a; rw [hh]; simp only [reduceCtorEq, if_false]; have := hi.heldn a; omega
      · simp only [exec]; rw [hi.stops]; simp [ended]
      · simp only [exec]; rw [hi.rc]; simp [codes]
      · intro a n he hl
        simp only [exec] at hl
        by_cases e : a = p.aid
        · subst e
          rw [if_pos he, set_same] at hl
          have h1 := refs_open (w.libs p.aid)
          rw [hl, hi.libs _ he] at h1
          simp only [refs] at h1
          have := hi.heldn p.aid
          omega
        · split at hl
          · rw [set_ne _ _ _ _ e] at hl; exact hi.pos a n he hl
          · exact hi.pos a n he hl
    | finish p how =>
      obtain ⟨rc, rfl⟩ := hr (.finish p how) (by simp) p how rfl
      have ha : alive (ops ++ [.finish p (.returns rc)]) = (alive ops).erase p := alive_append _ _
      have hm : p ∈ alive ops := hp
      have hcount := fun q => countP_erase_int hm q
      have hpc : 0 < (alive ops).countP (·.aid = p.aid) := List.countP_pos_iff.mpr ⟨p, hm, by simp⟩
      refine ⟨?_, ?_, ?_, ?_, ?_, ?_, ?_, hi.lost, ?_⟩
      · rw [ha]; simp only [exec]; rw [hi.run]
      · intro n
        rw [ha, hcount]
        simp only [exec, decide_eq_true_eq]
        by_cases e : n = p.node
        · subst e; rw [set_same, hi.nodes, if_pos rfl]
        · rw [set_ne _ _ _ _ e, hi.nodes, if_neg (fun x => e x.symm)]; omega
      · intro a he
        rw [ha, hcount, hh]
        simp only [exec, reduceCtorEq, if_false, decide_eq_true_eq]
        by_cases e : a = p.aid
        · subst e
          have := hi.heldn p.aid
          rw [set_same, refs_close _ (by rw [hi.libs _ he]; omega), hi.libs _ he, if_pos rfl]; omega
        · rw [set_ne _ _ _ _ e, hi.libs a he, if_neg (fun x => e x.symm)]; omega
      · intro a he hc
        have h1 := hcount (fun q => decide (q.aid = a))
        rw [ha] at hc
        simp only [exec]
        by_cases e : a = p.aid
        · subst e
          obtain ⟨n, hn⟩ := hi.loaded p.aid he hpc
          rw [set_same]
          have h2 := hi.libs p.aid he
          rw [hn] at h2
          simp only [refs] at h2
          simp only [decide_true, if_true] at h1
          have := hi.heldn p.aid
          exact ⟨n - 1, close_loaded hn (by omega)⟩
        · rw [set_ne _ _ _ _ e]
          simp only [decide_eq_true_eq, if_neg (fun x : p.aid = a => e x.symm)] at h1
          exact hi.loaded a he (by omega)
      · intro a; rw [hh]; simp only [reduceCtorEq, if_false]; have := hi.heldn a; omega
      · simp only [exec]; rw [hi.stops]
        simp only [ended, List.filterMap_append, List.filterMap_cons, List.filterMap_nil]
        split <;> simp_all
      · simp only [exec]; simp [codes]
      · intro a n he hl
        simp only [exec] at hl
        by_cases e : a = p.aid
        · subst e
          rw [set_same] at hl
          exact close_pos (fun m hm' => hi.pos _ m he hm') hl
        · rw [set_ne _ _ _ _ e] at hl; exact hi.pos a n he hl

/-! ### C146 -/

/-- C146 (partial: processes that return from `main`).  After every history each node counts the
processes that run on it, every application from an executable is loaded while a process of
it runs and not loaded when none runs and the launcher has released it, the launcher was told
exactly of the jobs whose rank 0 ended, in order, and no thread is lost. -/
theorem C146_return_partial (exe : Nat → Bool) (ops : List Op) (w : World) (h : Run exe ops w) (hr : Returning ops) :
    (∀ n, w.nodes n = (alive ops).countP (·.node = n))
    ∧ (∀ p ∈ alive ops, exe p.aid = true → ∃ n, w.libs p.aid = some (n, true))
    ∧ (∀ a, exe a = true → held a ops = 0 → (∀ p ∈ alive ops, p.aid ≠ a) → ¬ ∃ n, w.libs a = some (n, true))
    ∧ w.stops = ended ops ∧ w.lost = [] := by
  have hi := inv exe h hr
  refine ⟨hi.nodes, fun p hp he => hi.loaded p.aid he (List.countP_pos_iff.mpr ⟨p, hp, by simp⟩), ?_, hi.stops, hi.lost⟩
  rintro a he h0 hn ⟨n, hl⟩
  have h1 := hi.libs a he
  have h2 : (alive ops).countP (·.aid = a) = 0 := List.countP_eq_zero.mpr (fun p hp => by simpa using hn p hp)
  have h3 := hi.pos a n he hl
  rw [hl, h0, h2] at h1
  simp only [refs] at h1
  omega

/-- C146 (partial: processes that return from `main`).  With `--use-app-rc` the exit status is what the
last process returned. -/
theorem C146_status_partial (exe : Nat → Bool) (ops : List Op) (w : World) (h : Run exe ops w) (hr : Returning ops) :
    status true w = ((codes ops).getLast?).getD 0 := (inv exe h hr).rc

/-- Two ranks of an application with an executable. -/
def p0 : Proc := ⟨1, 0, 10, true⟩
/-- The other rank. -/
def p1 : Proc := ⟨1, 1, 11, true⟩

/-- A run in which both return, the second with an error. -/
def sample : List Op := [.lock 1, .start p0, .start p1, .finish p0 (.returns 0), .unlock 1, .finish p1 (.returns 3)]

theorem run_of (exe : Nat → Bool) : ∀ (l ops : List Op) (w : World), Run exe ops w →
    (∀ a op b, l = a ++ op :: b → Possible (ops ++ a) op) → Run exe (ops ++ l) (l.foldl (exec exe) w) := by
  intro l
  induction l with
  | nil => intro ops w h _; simpa using h
  | cons x l ih =>
    intro ops w h hp
    have h1 := Run.step h x (by have := hp [] x l rfl; simpa using this)
    have h2 := ih (ops ++ [x]) _ h1 (fun a op b e => by have := hp (x :: a) op b (by rw [e]; rfl); simpa using this)
    simpa using h2

/-- Whether an event is possible can be decided. -/
instance (ops : List Op) (op : Op) : Decidable (Possible ops op) := by
  cases op <;> simp only [Possible] <;> infer_instance

/-- Whether all events of a history are possible. -/
def check : List Op → List Op → Bool
  | _, [] => true
  | ops, x :: l => decide (Possible ops x) && check (ops ++ [x]) l

theorem check_possible : ∀ (l ops : List Op), check ops l = true → ∀ a op b, l = a ++ op :: b → Possible (ops ++ a) op := by
  intro l
  induction l with
  | nil => intro ops _ a op b e; simp at e
  | cons x l ih =>
    intro ops h a op b e
    simp only [check, Bool.and_eq_true, decide_eq_true_eq] at h
    cases a with
    | nil => simp only [List.nil_append, List.cons.injEq] at e; rw [← e.1]; simpa using h.1
    | cons y a =>
      simp only [List.cons_append, List.cons.injEq] at e
      have := ih (ops ++ [x]) h.2 a op b e.2
      rw [← e.1]; simpa using this

theorem run_check (exe : Nat → Bool) (l : List Op) (h : check [] l = true) : Run exe l (l.foldl (exec exe) {}) := by
  have := run_of exe l [] {} .init (check_possible l [] h)
  simpa using this

/-- The hypotheses are met, and all four facts are seen. -/
example : Run (fun _ => true) sample (sample.foldl (exec (fun _ => true)) {}) ∧ Returning sample
    ∧ alive sample = [] ∧ held 1 sample = 0 ∧ ended sample = [1] ∧ codes sample = [0, 3] := by
  refine ⟨run_check _ _ (by decide), ?_, by decide, by decide, by decide, by decide⟩
  intro op ho p how e
  subst e
  simp only [sample, List.mem_cons, reduceCtorEq, List.not_mem_nil, or_false, false_or, Op.finish.injEq] at ho
  rcases ho with h | h
  · exact ⟨0, h.2⟩
  · exact ⟨3, h.2⟩

/-- C146 refuted for the status: a rank fails, the last one does not, the simulator reports success. -/
theorem C146_status_refuted (c : Int) :
    ∃ ops w, Run (fun _ => true) ops w ∧ Returning ops ∧ codes ops = [c, 0] ∧ status true w = 0 := by
  refine ⟨[.start p0, .start p1, .finish p1 (.returns c), .finish p0 (.returns 0)], _,
    .step (.step (.step (.step .init _ ?_) _ ?_) _ ?_) _ ?_, ?_, rfl, rfl⟩
  · simp only [Possible]; decide
  · simp only [Possible, List.nil_append]; decide
  · simp only [Possible, List.nil_append, List.cons_append]; decide
  · simp only [Possible, List.nil_append, List.cons_append]
    show p0 ∈ [p0]
    decide
  · intro op ho p how e
    subst e
    simp only [List.mem_cons, reduceCtorEq, List.not_mem_nil, or_false, false_or, Op.finish.injEq] at ho
    rcases ho with h | h
    · exact ⟨c, h.2⟩
    · exact ⟨0, h.2⟩

/-- C146 refuted for `_exit(0)`: rank 0 has ended, but the node still counts it, the launcher is not
told, and the executable stays loaded after the launcher has released it. -/
theorem C146_exit_refuted :
    ∃ ops w, Run (fun _ => true) ops w ∧ alive ops = [] ∧ held 1 ops = 0 ∧ ended ops = [1]
      ∧ w.nodes 10 = 1 ∧ w.stops = [] ∧ w.libs 1 = some (1, true) :=
  ⟨[.lock 1, .start p0, .finish p0 (.exits 0), .unlock 1], _, run_check _ _ (by decide), by decide, by decide, by decide, by decide, by decide, by decide⟩

/-- C146 refuted for `_exit` with another code: in addition the thread never gives control back. -/
theorem C146_exit_code_refuted (c : Int) (hc : c ≠ 0) :
    ∃ ops w, Run (fun _ => true) ops w ∧ alive ops = [] ∧ codes ops = [c] ∧ w.lost = [p0] ∧ status true w = 0 := by
  refine ⟨[.start p0, .finish p0 (.exits c)], _, .step (.step .init _ ?_) _ ?_, rfl, rfl, ?_, rfl⟩
  · simp only [Possible]; decide
  · simp only [Possible, List.nil_append]; decide
  · simp [exec, hc]

/-- C146 refuted for `_exit` in another thread: the process has called `_exit`, but its main thread
runs on. -/
theorem C146_thread_exit_refuted (c : Int) :
    ∃ ops w, Run (fun _ => true) ops w ∧ alive ops = [] ∧ w.running = [p0] := by
  refine ⟨[.start p0, .finish p0 (.threadExits c)], _, .step (.step .init _ ?_) _ ?_, rfl, rfl⟩
  · simp only [Possible]; decide
  · simp only [Possible, List.nil_append]; decide

end SST.Os.Exit
