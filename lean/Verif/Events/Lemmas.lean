import Verif.Events.Model
/-! Lemmas about the event queue and the kernel loop. -/
namespace SST.Events
variable {S P : Type}

theorem lt_iff (a b : Event P) : a.lt b = true ↔
    a.time < b.time ∨ (a.time = b.time ∧ (a.link < b.link ∨ (a.link = b.link ∧ a.seq < b.seq))) := by
  unfold Event.lt
  split <;> rename_i h
  · simp; omega
  · split <;> simp <;> omega

theorem lt_irrefl (a : Event P) : a.lt a = false := by
  have := lt_iff a a
  cases h : a.lt a
  · rfl
  · rw [h] at this; simp at this

theorem lt_trans {a b c : Event P} (h1 : a.lt b = true) (h2 : b.lt c = true) : a.lt c = true := by
  rw [lt_iff] at *; omega

theorem lt_asymm {a b : Event P} (h1 : a.lt b = true) (h2 : b.lt a = true) : False := by
  rw [lt_iff] at *; omega

theorem key_eq {a b : Event P} (h1 : a.lt b ≠ true) (h2 : b.lt a ≠ true) :
    a.time = b.time ∧ a.link = b.link ∧ a.seq = b.seq := by
  rw [Ne, lt_iff] at *; omega

/-- strictly increasing -/
abbrev Sorted (q : List (Event P)) : Prop := q.Pairwise (fun a b => a.lt b = true)

theorem mem_of_mem_insert {e x : Event P} {q : List (Event P)} :
    x ∈ insert e q → x = e ∨ x ∈ q := by
  induction q with
  | nil => simp [insert]
  | cons y ys ih =>
    simp only [insert]
    split
    · simp
    · split
      · simp only [List.mem_cons]
        intro h
        rcases h with h | h
        · simp [h]
        · rcases ih h with h | h <;> simp [h]
      · intro h; exact Or.inr h

theorem mem_insert_of_mem {e x : Event P} {q : List (Event P)} (h : x ∈ q) : x ∈ insert e q := by
  induction q with
  | nil => simp at h
  | cons y ys ih =>
    simp only [insert]
    split
    · simp at h ⊢; right; exact h
    · split
      · simp at h ⊢
        rcases h with h | h
        · exact Or.inl h
        · exact Or.inr (ih h)
      · exact h

theorem insert_sorted {e : Event P} {q : List (Event P)} (hq : Sorted q) : Sorted (insert e q) := by
  induction q with
  | nil => simp [insert, Sorted]
  | cons y ys ih =>
    have hq' := hq
    rw [Sorted, List.pairwise_cons] at hq
    simp only [insert]
    split
    · rename_i h
      rw [Sorted, List.pairwise_cons]
      refine ⟨?_, hq'⟩
      intro z hz
      rcases List.mem_cons.1 hz with rfl | hz
      · exact h
      · exact lt_trans h (hq.1 z hz)
    · split
      · rename_i h
        rw [Sorted, List.pairwise_cons]
        refine ⟨?_, ih hq.2⟩
        intro z hz
        rcases mem_of_mem_insert hz with rfl | hz
        · exact h
        · exact hq.1 z hz
      · exact hq'

theorem insert_cases (e : Event P) (q : List (Event P)) :
    (insert e q = q ∧ ∃ x ∈ q, x.lt e = false ∧ e.lt x = false) ∨ (insert e q).Perm (e :: q) := by
  induction q with
  | nil => right; exact List.Perm.refl _
  | cons y ys ih =>
    simp only [insert]
    split
    · right; exact List.Perm.refl _
    · split
      · rcases ih with ⟨h, x, hx, hx2⟩ | h
        · left; exact ⟨by rw [h], x, List.mem_cons_of_mem _ hx, hx2⟩
        · right
          exact (List.Perm.cons _ h).trans (List.Perm.swap _ _ _)
      · rename_i h1 h2
        left; exact ⟨rfl, y, List.mem_cons_self .., by simpa using h2, by simpa using h1⟩

theorem insert_perm_of_len {e : Event P} {q : List (Event P)}
    (h : (insert e q).length ≠ q.length) : (insert e q).Perm (e :: q) := by
  rcases insert_cases e q with ⟨h1, _⟩ | h1
  · rw [h1] at h; exact absurd rfl h
  · exact h1

theorem insert_perm_of_fresh {e : Event P} {q : List (Event P)}
    (h : ∀ x ∈ q, ¬ (x.link = e.link ∧ x.seq = e.seq)) : (insert e q).Perm (e :: q) := by
  rcases insert_cases e q with ⟨_, x, hx, h1, h2⟩ | h1
  · exact absurd ((key_eq (a := x) (b := e) (by simp [h1]) (by simp [h2])).2) (h x hx)
  · exact h1

/-- strictly sorted lists with the same elements are equal -/
theorem sorted_ext {q r : List (Event P)} (hq : Sorted q) (hr : Sorted r)
    (h : ∀ x, x ∈ q ↔ x ∈ r) : q = r := by
  induction q generalizing r with
  | nil =>
    cases r with
    | nil => rfl
    | cons y ys => exact absurd ((h y).2 (List.mem_cons_self ..)) (by simp)
  | cons x xs ih =>
    cases r with
    | nil => exact absurd ((h x).1 (List.mem_cons_self ..)) (by simp)
    | cons y ys =>
      rw [Sorted, List.pairwise_cons] at hq hr
      have hxy : x = y := by
        rcases List.mem_cons.1 ((h x).1 (List.mem_cons_self ..)) with h1 | h1
        · exact h1
        · rcases List.mem_cons.1 ((h y).2 (List.mem_cons_self ..)) with h2 | h2
          · exact h2.symm
          · exact (lt_asymm (hr.1 x h1) (hq.1 y h2)).elim
      subst hxy
      congr 1
      apply ih hq.2 hr.2
      intro z
      constructor
      · intro hz
        rcases List.mem_cons.1 ((h z).1 (List.mem_cons_of_mem _ hz)) with h1 | h1
        · subst h1; have := hq.1 z hz; rw [lt_irrefl] at this; cases this
        · exact h1
      · intro hz
        rcases List.mem_cons.1 ((h z).2 (List.mem_cons_of_mem _ hz)) with h1 | h1
        · subst h1; have := hr.1 z hz; rw [lt_irrefl] at this; cases this
        · exact h1

/-! ### schedule -/

theorem schedule_true {m m' : Mgr P} {e : Event P} (h : schedule true m e = some m') :
    m.now ≤ e.time ∧ m' = { m with queue := insert e m.queue } ∧
      (insert e m.queue).Perm (e :: m.queue) := by
  unfold schedule at h
  split at h
  · cases h
  · rename_i h1
    simp only at h
    split at h
    · cases h
    · rename_i h2
      simp at h1 h2 h
      exact ⟨h1, h.symm, insert_perm_of_len h2⟩

theorem schedule_false (m : Mgr P) (e : Event P) :
    schedule false m e = some { m with queue := insert e m.queue } := by
  simp [schedule]

theorem schedule_some {s : Bool} {m m' : Mgr P} {e : Event P} (h : schedule s m e = some m') :
    m' = { m with queue := insert e m.queue } := by
  cases s
  · rw [schedule_false] at h; exact (Option.some.inj h).symm
  · exact (schedule_true h).2.1

/-- A property of executions preserved by every action, every pop and `enter`, holds of
every history. -/
theorem history_induct {s : Bool} {h : Handler S P} (I : Exec S P → Prop)
    (hact : ∀ x a y, I x → doAct s x a = some y → I y)
    (hpop : ∀ x e q u, I x → x.mgr.queue = e :: q → (s = true → x.mgr.now ≤ e.time) →
      I { mgr := { x.mgr with now := e.time, queue := q }, user := u,
          trace := x.trace ++ [e], calls := x.calls })
    (henter : ∀ x, I x → I { x with mgr := { x.mgr with minIpc := none } })
    {x y : Exec S P} {ops : List (Op P)} (hx : I x) (hr : doOps s h x ops = some y) : I y := by
  have hacts : ∀ as (x y : Exec S P), I x → doActs s x as = some y → I y := by
    intro as
    induction as with
    | nil => intro x y hx h; simp [doActs] at h; exact h ▸ hx
    | cons a as ih =>
      intro x y hx h
      simp only [doActs] at h
      split at h
      · cases h
      · rename_i z hz
        exact ih z y (hact x a z hx hz) h
  have hop : ∀ o (x y : Exec S P), I x → doOp s h x o = some y → I y := by
    intro o x y hx ho
    cases o with
    | sched e => exact hact x (.schedule e) y hx ho
    | enter => simp [doOp] at ho; rw [← ho]; exact henter x hx
    | tick hz =>
      simp only [doOp, step] at ho
      split at ho
      · cases ho; exact hx
      · cases ho
      · rename_i z hz'
        cases ho
        split at hz'
        · cases hz'
        · rename_i e q heq
          split at hz'
          · cases hz'
          · rename_i hnow
            split at hz'
            · cases hz'
            · split at hz'
              · cases hz'
              · rename_i w hw
                cases hz'
                refine hacts _ _ _ (hpop x e q _ hx heq ?_) hw
                intro hs; simp [hs] at hnow; exact hnow
  induction ops generalizing x with
  | nil => simp [doOps] at hr; exact hr ▸ hx
  | cons o os ih =>
    simp only [doOps] at hr
    split at hr
    · cases hr
    · rename_i z hz
      exact ih (hop o x z hx hz) hr

/-- basic facts of a checked execution -/
structure Good (x : Exec S P) : Prop where
  sorted : Sorted x.mgr.queue
  future : ∀ e ∈ x.mgr.queue, x.mgr.now ≤ e.time
  past : ∀ e ∈ x.trace, e.time ≤ x.mgr.now
  order : x.trace.Pairwise (fun a b => a.time ≤ b.time)
  last : x.trace.getLast?.map (·.time) = if x.trace = [] then none else some x.mgr.now
  init : x.trace = [] → x.mgr.now = 0
  early : ∀ c ∈ x.calls, c.1 ≤ c.2.time

theorem good_start (u : S) : Good (start u : Exec S P) := by
  constructor <;> simp [start, Mgr.init]

theorem good_act {x y : Exec S P} {a : Act P} (hx : Good x) (h : doAct true x a = some y) :
    Good y := by
  cases a with
  | schedule e =>
    simp only [doAct] at h
    split at h
    · cases h
    · rename_i m hm
      cases h
      obtain ⟨h1, h2, h3⟩ := schedule_true hm
      subst h2
      refine ⟨insert_sorted hx.sorted, ?_, hx.past, hx.order, hx.last, hx.init, ?_⟩
      · intro z hz
        rcases mem_of_mem_insert hz with rfl | hz
        · exact h1
        · exact hx.future z hz
      · intro c hc
        simp only [List.mem_append, List.mem_singleton] at hc
        rcases hc with hc | hc
        · exact hx.early c hc
        · subst hc; exact h1
  | remote e => simp [doAct] at h; subst h; exact ⟨hx.1, hx.2, hx.3, hx.4, hx.5, hx.6, hx.7⟩
  | stop => simp [doAct] at h; subst h; exact ⟨by simp [Sorted], by simp, hx.3, hx.4, hx.5, hx.6, hx.7⟩

theorem good_pop {x : Exec S P} {e : Event P} {q : List (Event P)} {u : S} (hx : Good x)
    (hq : x.mgr.queue = e :: q) (hn : x.mgr.now ≤ e.time) :
    Good { mgr := { x.mgr with now := e.time, queue := q }, user := u,
           trace := x.trace ++ [e], calls := x.calls } := by
  have hs := hx.sorted
  rw [hq, Sorted, List.pairwise_cons] at hs
  constructor
  · exact hs.2
  · intro z hz
    have := hs.1 z hz
    rw [lt_iff] at this
    simp only
    omega
  · intro z hz
    simp at hz
    rcases hz with hz | rfl
    · exact Nat.le_trans (hx.past z hz) hn
    · exact Nat.le_refl _
  · rw [List.pairwise_append]
    refine ⟨hx.order, by simp, ?_⟩
    intro a ha b hb
    simp at hb
    subst hb
    exact Nat.le_trans (hx.past a ha) hn
  · simp
  · simp
  · exact hx.early

theorem good_enter {x : Exec S P} (hx : Good x) :
    Good { x with mgr := { x.mgr with minIpc := none } } :=
  ⟨hx.1, hx.2, hx.3, hx.4, hx.5, hx.6, hx.7⟩

theorem good_ops {h : Handler S P} {x y : Exec S P} {ops : List (Op P)} (hx : Good x)
    (hr : doOps true h x ops = some y) : Good y :=
  history_induct Good (fun _ _ _ hx h => good_act hx h)
    (fun _ _ _ _ hx hq hn => good_pop hx hq (hn rfl)) (fun _ hx => good_enter hx) hx hr

/-- a checked history that does not abort runs identically without the checks -/
theorem acts_unchecked {as : List (Act P)} {x y : Exec S P}
    (h : doActs true x as = some y) : doActs false x as = some y := by
  induction as generalizing x with
  | nil => exact h
  | cons a as ih =>
    simp only [doActs] at h ⊢
    split at h
    · cases h
    · rename_i z hz
      have : doAct false x a = some z := by
        cases a with
        | schedule e =>
          simp only [doAct] at hz ⊢
          split at hz
          · cases hz
          · rename_i m hm
            obtain ⟨_, h2, _⟩ := schedule_true hm
            rw [schedule_false]
            cases hz
            subst h2
            rfl
        | remote e => exact hz
        | stop => exact hz
      rw [this]
      exact ih h

theorem step_unchecked {h : Handler S P} {hz : Option Nat} {x : Exec S P} :
    (∀ y, step true h hz x = .next y → step false h hz x = .next y) ∧
    (step true h hz x = .halt → step false h hz x = .halt) := by
  unfold step
  split
  · simp
  · rename_i e q hq
    simp only [Bool.true_and, Bool.false_and]
    split
    · simp
    · split
      · simp
      · simp only [Bool.false_eq_true, if_false]
        constructor
        · intro y hy
          split at hy
          · cases hy
          · rename_i z hz'
            cases hy
            rw [acts_unchecked hz']
        · intro hy
          split at hy <;> cases hy

theorem ops_unchecked {h : Handler S P} {ops : List (Op P)} {x y : Exec S P}
    (hr : doOps true h x ops = some y) : doOps false h x ops = some y := by
  induction ops generalizing x with
  | nil => exact hr
  | cons o os ih =>
    simp only [doOps] at hr ⊢
    split at hr
    · cases hr
    · rename_i z hz
      have : doOp false h x o = some z := by
        cases o with
        | sched e =>
          have h1 : doActs true x [.schedule e] = some z := by
            simp only [doOp] at hz
            simp [doActs, hz]
          have h2 := acts_unchecked h1
          simp only [doActs] at h2
          simp only [doOp]
          split at h2
          · cases h2
          · rename_i w hw; rw [hw, h2]
        | enter => exact hz
        | tick t =>
          simp only [doOp] at hz ⊢
          split at hz
          · rename_i h1; rw [step_unchecked.2 h1]; exact hz
          · cases hz
          · rename_i w h1; rw [step_unchecked.1 _ h1]; exact hz
      rw [this]
      exact ih hr

/-- conservation: without `stop`, executed plus queued events are exactly the scheduled ones -/
def Conserved (x : Exec S P) : Prop :=
  x.mgr.stopped = false → (x.trace ++ x.mgr.queue).Perm (x.calls.map (·.2))

theorem conserved_ops {h : Handler S P} {x y : Exec S P} {ops : List (Op P)} (hx : Conserved x)
    (hr : doOps true h x ops = some y) : Conserved y := by
  refine history_induct Conserved ?_ ?_ ?_ hx hr
  · intro x a y hx h
    cases a with
    | schedule e =>
      simp only [doAct] at h
      split at h
      · cases h
      · rename_i m hm
        cases h
        obtain ⟨h1, h2, h3⟩ := schedule_true hm
        subst h2
        intro hs
        simp only [List.map_append, List.map_cons, List.map_nil]
        have := hx hs
        refine (List.Perm.append_left _ h3).trans ?_
        refine List.perm_middle.trans ?_
        refine (List.Perm.cons _ this).trans ?_
        exact (List.perm_append_singleton _ _).symm
    | remote e => simp [doAct] at h; subst h; exact hx
    | stop => simp [doAct] at h; subst h; intro hs; simp at hs
  · intro x e q u hx hq _ hs
    have := hx hs
    rw [hq] at this
    simpa using this
  · intro x hx; exact hx

end SST.Events
