import Verif.Os.ThreadsLemmas
set_option autoImplicit false
/-
C107: simulated threads run one at a time, block for as long as they asked, are woken at the
moment they are signalled, and joining waits for the end of the joined thread.
-/
namespace SST.Os.Threads

/-! ### Running programs, for the examples -/

instance (s : Sys) (t : Nat) (c : Call) : Decidable (Proper s t c) := by
  cases c <;> (unfold Proper; infer_instance)

/-- One step, if it is proper. -/
def Sys.stepP (s : Sys) : Act → Option Sys
  | .call t c => if Proper s t c then (s.step (.call t c)).toOption else none
  | .pop => (s.step .pop).toOption

/-- Several proper steps, with `t` not running before any of them (`none`: no condition). -/
def Sys.runP (w : Option Nat) (s : Sys) : List Act → Option Sys
  | [] => some s
  | a :: as =>
    if w.all (fun t => (s.th t).st ≠ .running) then (s.stepP a).bind fun s' => s'.runP w as else none

theorem stepP_next {s s' : Sys} {a : Act} (h : s.stepP a = some s') : s.Next s' := by
  cases a with
  | call t c =>
    simp only [Sys.stepP] at h
    split at h
    · rename_i hp
      refine Or.inl ⟨t, c, hp, ?_⟩
      cases hc : s.step (.call t c) with
      | error e => rw [hc] at h; cases h
      | ok v => rw [hc] at h; cases h; rfl
    · cases h
  | pop =>
    right
    simp only [Sys.stepP] at h
    cases hc : s.step .pop with
    | error e => rw [hc] at h; cases h
    | ok v => rw [hc] at h; cases h; rfl

theorem runP_reach {w : Option Nat} {as : List Act} {s s' : Sys} (hs : Reach s)
    (h : s.runP w as = some s') : Reach s' := by
  induction as generalizing s with
  | nil => cases h; exact hs
  | cons a as ih =>
    simp only [Sys.runP] at h
    split at h
    · cases hc : s.stepP a with
      | none => rw [hc] at h; cases h
      | some v => rw [hc] at h; exact ih (hs.next (stepP_next hc)) h
    · cases h

theorem while_trans {P : Sys → Prop} {s₁ s₂ s₃ : Sys} (h : Sys.While P s₁ s₂) (h' : Sys.While P s₂ s₃) :
    Sys.While P s₁ s₃ := by
  induction h' with
  | refl => exact h
  | next _ hp hn ih => exact .next ih hp hn

theorem runP_while {t : Nat} {as : List Act} {s s' : Sys} (h : s.runP (some t) as = some s') :
    Sys.While (fun x => ¬ x.Runs t) s s' := by
  induction as generalizing s with
  | nil => cases h; exact .refl _
  | cons a as ih =>
    simp only [Sys.runP] at h
    split at h
    · rename_i hr
      cases hc : s.stepP a with
      | none => rw [hc] at h; cases h
      | some v =>
        rw [hc] at h
        refine while_trans (.next (.refl s) ?_ (stepP_next hc)) (ih h)
        simpa [Sys.Runs] using hr
    · cases h

theorem getD_ok {o : Option Sys} (h : o.isSome = true) : o = some (o.getD Sys.start) := by
  cases o with
  | none => cases h
  | some v => rfl

/-- The main thread starts a joinable thread 1, which waits, and a detached thread 2, which
computes for 5 and then wakes thread 1; the main thread joins thread 1. -/
def demo : List Act :=
  [.call 0 (.spawn 1 true), .call 0 (.spawn 2 false), .call 0 (.join 1), .pop, .call 1 .wait, .pop]

/-- Thread 2 computes for 5. -/
def demo2 : List Act := demo ++ [.call 2 (.compute 5), .pop]

/-- Thread 2 wakes thread 1, which computes for 3. -/
def demo3 : List Act := demo2 ++ [.call 2 (.wake 1), .call 2 .exit, .pop, .call 1 (.compute 3)]

/-- Everything ends. -/
def demo4 : List Act := demo3 ++ [.pop, .pop, .call 1 .exit, .pop, .call 0 .exit, .pop]

/-! ### Nothing goes wrong, and one thread runs at a time -/

/-- A proper program never uses a deleted thread: every proper call of the running thread
succeeds, and so does every pending event. -/
theorem C107_safe {s : Sys} (h : Reach s) :
    (∀ t c, s.Runs t → Proper s t c → ∃ s', s.step (.call t c) = .ok s') ∧
    (s.active = none → s.queue ≠ [] → ∃ s', s.step .pop = .ok s') := by
  constructor
  · intro t c hr hp
    have ha := (h.inv.act t).2 hr
    obtain ⟨s', h1, _⟩ := call_spec h.inv ha hp
    exact ⟨s', by simp only [Sys.step, if_pos ha, h1]⟩
  · intro ha hq
    obtain ⟨q, qs, hq'⟩ := List.exists_cons_of_ne_nil hq
    obtain ⟨s', h1, _⟩ := pop_spec h.inv ha hq'
    exact ⟨s', by simp only [Sys.step, if_pos ha, h1]⟩

example : ∃ s, Reach s ∧ s.Runs 2 ∧ Proper s 2 (.wake 1) := by
  have h : (Sys.start.runP none demo2).isSome = true := by decide +kernel
  exact ⟨_, runP_reach .start (getD_ok h), by unfold Sys.Runs; decide +kernel, by decide +kernel⟩

/-- At most one thread of the node runs, and it is the one the operating system calls active. -/
theorem C107_one_runs {s : Sys} (h : Reach s) {t u : Nat} (ht : s.Runs t) (hu : s.Runs u) :
    t = u ∧ s.active = some t := by
  have h1 := (h.inv.act t).2 ht
  have h2 := (h.inv.act u).2 hu
  rw [h1] at h2
  exact ⟨by simpa using h2, h1⟩

example : ∃ s, Reach s ∧ s.Runs 1 ∧ ¬ s.Runs 0 := by
  have h : (Sys.start.runP none (demo.take 4)).isSome = true := by decide +kernel
  exact ⟨_, runP_reach .start (getD_ok h), by unfold Sys.Runs; decide +kernel, by unfold Sys.Runs; decide +kernel⟩

/-! ### Computing takes exactly the requested time -/

/-- A thread that computes (or sleeps) for `d` does not run for `d` and runs again exactly
`d` later, whatever the other threads do. -/
theorem C107_compute {s s₁ s₂ : Sys} {t d : Nat} (h : Reach s)
    (hc : s.step (.call t (.compute d)) = .ok s₁)
    (hw : Sys.While (fun x => ¬ x.Runs t) s₁ s₂) :
    s₂.now ≤ s.now + d ∧ (s₂.Runs t → s₂.now = s.now + d) := by
  have hr₁ : Reach s₁ := Reach.call (c := .compute d) h trivial hc
  have hb : (s₁.th t).st = .blocked (.timer (s.now + d)) ∧ s₁.now = s.now := by
    simp only [Sys.step] at hc
    split at hc
    · simp only [Sys.call, Except.ok.injEq] at hc
      subst hc
      simp [Sys.block, Sys.push, Sys.upd]
    · cases hc
  suffices Reach s₂ ∧ ((s₂.th t).st = .blocked (.timer (s.now + d)) ∧ s₂.now ≤ s.now + d ∨
      s₂.Runs t ∧ s₂.now = s.now + d) by
    rcases this with ⟨_, ⟨h1, h2⟩ | ⟨h1, h2⟩⟩
    · refine ⟨h2, fun hr => ?_⟩
      unfold Sys.Runs at hr; rw [h1] at hr; cases hr
    · exact ⟨Nat.le_of_eq h2, fun _ => h2⟩
  induction hw with
  | refl => exact ⟨hr₁, Or.inl ⟨hb.1, by rw [hb.2]; omega⟩⟩
  | @next a b _ hP hn ih =>
    obtain ⟨ha, ih⟩ := ih
    refine ⟨ha.next hn, ?_⟩
    rcases ih with ⟨ih, hle⟩ | ⟨ih, _⟩
    · rcases next_cases ha.inv hn with ⟨u, c, hu, _, _, hcl⟩ | ⟨_, hpp⟩
      · left
        have hne : t ≠ u := fun he => by
          have := (ha.inv.act u).1 hu; rw [← he, ih] at this; cases this
        rcases hcl.others t hne with h1 | ⟨h1, _⟩
        · exact ⟨by rw [h1, ih], by rw [hcl.now]; exact hle⟩
        · rw [ih] at h1; cases h1
      · rcases hpp.each t with h1 | ⟨h1, h2⟩
        · left; exact ⟨by rw [h1, ih], hpp.due t _ ih⟩
        · right
          refine ⟨h1, ?_⟩
          rw [ih] at h2
          rcases h2 with ⟨h2, _⟩ | h2 | ⟨h2, _⟩ | ⟨u, h2, _⟩ <;> simp at h2
          omega
    · exact absurd ih hP

example : ∃ s s₁ s₂, Reach s ∧ s.step (.call 2 (.compute 5)) = .ok s₁ ∧
    Sys.While (fun x => ¬ x.Runs 2) s₁ s₂ ∧ s₂.Runs 2 ∧ s₂.now = 5 := by
  have h : (Sys.start.runP none demo).isSome = true := by decide +kernel
  have h1 : ((Sys.start.runP none demo).getD Sys.start).active = some 2 := by decide +kernel
  have h2 : (((((Sys.start.runP none demo).getD Sys.start).push 5 (.unblock 2)).block 2
      (.timer (((Sys.start.runP none demo).getD Sys.start).now + 5))).runP (some 2) [.pop]).isSome = true := by
    decide +kernel
  exact ⟨_, _, _, runP_reach .start (getD_ok h), by simp only [Sys.step, if_pos h1]; rfl,
    runP_while (getD_ok h2), by unfold Sys.Runs; decide +kernel, by decide +kernel⟩

/-! ### Waiting and waking -/

/-- A thread that waits stays blocked until some thread wakes it. -/
theorem C107_waits {s s' : Sys} {t : Nat} (h : Reach s) (ht : t ∈ s.waiting) (hn : s.Next s')
    (hno : ∀ u, s.step (.call u (.wake t)) ≠ .ok s') : t ∈ s'.waiting ∧ ¬ s'.Runs t := by
  have hi := (h.next hn).inv
  have : t ∈ s'.waiting := by
    rcases next_cases h.inv hn with ⟨u, c, hu, _, hs, hcl⟩ | ⟨_, hpp⟩
    · rcases hcl.waiting t ht with h1 | h1
      · exact h1
      · subst h1
        exact absurd (show s.step (.call u (.wake t)) = .ok s' by simp only [Sys.step, if_pos hu, hs]) (hno u)
    · rw [hpp.waiting]; exact ht
  exact ⟨this, fun hr => by
    unfold Sys.Runs at hr
    have := hi.wl t this; rw [hr] at this; cases this⟩

example : ∃ s, Reach s ∧ 1 ∈ s.waiting ∧ ∃ s', s.Next s' := by
  have h : (Sys.start.runP none demo).isSome = true := by decide +kernel
  have h1 : (((Sys.start.runP none demo).getD Sys.start).stepP (.call 2 (.compute 5))).isSome = true := by
    decide +kernel
  exact ⟨_, runP_reach .start (getD_ok h), by decide +kernel, _,
    stepP_next (getD_ok h1)⟩

/-- A thread that is woken runs at the same simulated time: until it does, the clock stands
still. -/
theorem C107_wake {s s₁ s₂ : Sys} {t u : Nat} (h : Reach s) (hu : u ∈ s.waiting)
    (hc : s.step (.call t (.wake u)) = .ok s₁)
    (hw : Sys.While (fun x => ¬ x.Runs u) s₁ s₂) :
    s₂.now = s.now ∧ (s₂.Runs u ∨ s₂.queue ≠ [] ∧ (s₂.th u).st = .blocked .list) := by
  have hr₁ : Reach s₁ := Reach.call (c := .wake u) h hu hc
  have hb : (s₁.th u).st = .blocked .list ∧ u ∉ s₁.waiting ∧ s₁.now = s.now := by
    simp only [Sys.step] at hc
    split at hc
    · rename_i ha
      have hnd : (s.th u).deleted = false := by
        cases hx : (s.th u).deleted with
        | false => rfl
        | true => have h1 := h.inv.dd u hx; have h2 := h.inv.wl u hu; rw [h1] at h2; simp at h2
      simp [Sys.call, Sys.wakeup, hnd, h.inv.nc u, ha] at hc
      subst hc
      refine ⟨h.inv.wl u hu, ?_, rfl⟩
      simp only [Sys.push]
      exact fun hm => ((List.Nodup.mem_erase_iff h.inv.nd).1 hm).1 rfl
    · cases hc
  have hq : ∀ x : Sys, Inv x → (x.th u).st = .blocked .list → u ∉ x.waiting → x.queue ≠ [] := by
    intro x hx hb hn hq
    have := hx.wk u
    simp [Sys.wakes, Sys.want, hq, hb, hn] at this
  suffices Reach s₂ ∧ ((s₂.th u).st = .blocked .list ∧ u ∉ s₂.waiting ∧ s₂.now = s.now ∨
      s₂.Runs u ∧ s₂.now = s.now) by
    rcases this with ⟨hr, ⟨h1, h2, h3⟩ | ⟨h1, h2⟩⟩
    · exact ⟨h3, Or.inr ⟨hq _ hr.inv h1 h2, h1⟩⟩
    · exact ⟨h2, Or.inl h1⟩
  induction hw with
  | refl => exact ⟨hr₁, Or.inl hb⟩
  | @next a b _ hP hn ih =>
    obtain ⟨ha, ih⟩ := ih
    refine ⟨ha.next hn, ?_⟩
    rcases ih with ⟨ih, hnw, hle⟩ | ⟨ih, _⟩
    · rcases next_cases ha.inv hn with ⟨v, c, hv, _, _, hcl⟩ | ⟨_, hpp⟩
      · left
        have hne : u ≠ v := fun he => by
          have := (ha.inv.act v).1 hv; rw [← he, ih] at this; cases this
        rcases hcl.others u hne with h1 | ⟨h1, _⟩
        · refine ⟨by rw [h1, ih], fun hm => ?_, by rw [hcl.now]; exact hle⟩
          rcases hcl.woken u hm with h2 | ⟨_, h2⟩
          · exact hnw h2
          · exact hne h2
        · rw [ih] at h1; cases h1
      · have hst : b.now = a.now :=
          hpp.stay u ⟨a.now, .switchTo u⟩ (by simp [Sys.want, ih, hnw]) rfl
        rcases hpp.each u with h1 | ⟨h1, h2⟩
        · left; exact ⟨by rw [h1, ih], by rw [hpp.waiting]; exact hnw, by omega⟩
        · right; exact ⟨h1, by omega⟩
    · exact absurd ih hP

example : ∃ s s₁ s₂, Reach s ∧ 1 ∈ s.waiting ∧ s.step (.call 2 (.wake 1)) = .ok s₁ ∧
    Sys.While (fun x => ¬ x.Runs 1) s₁ s₂ ∧ s₂.Runs 1 ∧ s₂.now = 5 := by
  have h : (Sys.start.runP none demo2).isSome = true := by decide +kernel
  have h0 : Reach ((Sys.start.runP none demo2).getD Sys.start) := runP_reach .start (getD_ok h)
  have hw : 1 ∈ ((Sys.start.runP none demo2).getD Sys.start).waiting := by decide +kernel
  obtain ⟨s₁, h1⟩ := (C107_safe h0).1 2 (.wake 1) (by unfold Sys.Runs; decide +kernel) hw
  have h2 : (((((Sys.start.runP none demo2).getD Sys.start)).step (.call 2 (.wake 1))).toOption.bind
      fun x => x.runP (some 1) [.call 2 .exit, .pop]).isSome = true := by decide +kernel
  have h3 : (((((Sys.start.runP none demo2).getD Sys.start)).step (.call 2 (.wake 1))).toOption.bind
      fun x => x.runP (some 1) [.call 2 .exit, .pop]).all
        (fun x => decide ((x.th 1).st = .running ∧ x.now = 5)) = true := by decide +kernel
  rw [h1] at h2 h3
  simp only [Except.toOption, Option.bind_some] at h2 h3
  rw [getD_ok h2] at h3
  simp only [Option.all_some, decide_eq_true_eq] at h3
  exact ⟨_, _, _, h0, hw, h1, runP_while (getD_ok h2), h3.1, h3.2⟩

/-! ### Joining -/

/-- A thread that joins another goes on only when the other has finished; the other thread's
object is then deleted. -/
theorem C107_join {s s₁ s₂ : Sys} {t u : Nat} (h : Reach s) (hp : Proper s t (.join u))
    (hc : s.step (.call t (.join u)) = .ok s₁)
    (hw : Sys.While (fun x => ¬ x.Runs t) s₁ s₂) (hr : s₂.Runs t) :
    s₂.Finished u ∧ (s₂.th u).deleted = true := by
  have hr₁ : Reach s₁ := .call h hp hc
  have hb : (s₁.th t).st = .blocked (.join u) ∨ s₁.Runs t ∧ s₁.Finished u ∧ (s₁.th u).deleted = true := by
    simp only [Sys.step] at hc
    split at hc
    · rename_i ha
      have hrt := (h.inv.act t).1 ha
      simp only [Sys.call] at hc
      split at hc
      · cases hc
      · split at hc
        · rename_i hd hdone
          simp only [Sys.upd, if_true] at hdone
          simp only [Sys.del, Sys.upd, if_true, hd] at hc
          simp at hc
          subst hc
          right
          refine ⟨?_, ?_, ?_⟩
          · simp [Sys.Runs, hp.1.symm, hrt]
          · simp [Sys.Finished, hdone]
          · simp
        · simp only [Except.ok.injEq] at hc
          subst hc
          left
          simp [Sys.block, Sys.upd]
    · cases hc
  suffices Reach s₂ ∧ ((s₂.th t).st = .blocked (.join u) ∨ s₂.Runs t ∧ s₂.Finished u ∧ (s₂.th u).deleted = true) by
    rcases this with ⟨_, h1 | ⟨_, h1⟩⟩
    · unfold Sys.Runs at hr; rw [h1] at hr; cases hr
    · exact h1
  clear hr
  induction hw with
  | refl => exact ⟨hr₁, hb⟩
  | @next a b _ hP hn ih =>
    obtain ⟨ha, ih⟩ := ih
    refine ⟨ha.next hn, ?_⟩
    rcases ih with ih | ⟨ih, _⟩
    · rcases next_cases ha.inv hn with ⟨v, c, hv, _, _, hcl⟩ | ⟨_, hpp⟩
      · left
        have hne : t ≠ v := fun he => by
          have := (ha.inv.act v).1 hv; rw [← he, ih] at this; cases this
        rcases hcl.others t hne with h1 | ⟨h1, _⟩
        · rw [h1, ih]
        · rw [ih] at h1; cases h1
      · rcases hpp.each t with h1 | ⟨h1, h2⟩
        · left; rw [h1, ih]
        · right
          rw [ih] at h2
          rcases h2 with ⟨h2, _⟩ | h2 | ⟨h2, _⟩ | ⟨w, h2, _, h3, h4, _⟩
          · cases h2
          · cases h2
          · cases h2
          · simp only [St.blocked.injEq, Wait.join.injEq] at h2
            subst h2
            exact ⟨h1, h3, h4⟩
    · exact absurd ih hP

example : ∃ s s₁ s₂, Reach s ∧ Proper s 0 (.join 1) ∧ s.step (.call 0 (.join 1)) = .ok s₁ ∧
    Sys.While (fun x => ¬ x.Runs 0) s₁ s₂ ∧ s₂.Runs 0 ∧ s₂.now = 8 := by
  have h : (Sys.start.runP none (demo.take 2)).isSome = true := by decide +kernel
  have h0 : Reach ((Sys.start.runP none (demo.take 2)).getD Sys.start) := runP_reach .start (getD_ok h)
  have hw : Proper ((Sys.start.runP none (demo.take 2)).getD Sys.start) 0 (.join 1) := by decide +kernel
  obtain ⟨s₁, h1⟩ := (C107_safe h0).1 0 (.join 1) (by unfold Sys.Runs; decide +kernel) hw
  have h2 : (((((Sys.start.runP none (demo.take 2)).getD Sys.start)).step (.call 0 (.join 1))).toOption.bind
      fun x => x.runP (some 0) (demo4.drop 3 |>.take 13)).isSome = true := by decide +kernel
  have h3 : (((((Sys.start.runP none (demo.take 2)).getD Sys.start)).step (.call 0 (.join 1))).toOption.bind
      fun x => x.runP (some 0) (demo4.drop 3 |>.take 13)).all
        (fun x => decide ((x.th 0).st = .running ∧ x.now = 8)) = true := by decide +kernel
  rw [h1] at h2 h3
  simp only [Except.toOption, Option.bind_some] at h2 h3
  rw [getD_ok h2] at h3
  simp only [Option.all_some, decide_eq_true_eq] at h3
  exact ⟨_, _, _, h0, hw, h1, runP_while (getD_ok h2), h3.1, h3.2⟩

/-- When the joined thread has finished, its joiner runs at the same simulated time: until it
does, the clock stands still. -/
theorem C107_join_now {s s' : Sys} {t u : Nat} (h : Reach s) (hb : (s.th t).st = .blocked (.join u))
    (hd : s.Finished u) (hn : s.Next s') : s'.now = s.now ∧ (s'.Runs t ∨
      (s'.th t).st = .blocked (.join u) ∧ s'.Finished u ∧ s'.queue ≠ []) := by
  have hwant : (⟨s.now, .switchTo t⟩ : Q) ∈ s.want t := by
    have : (s.th u).st = .done := hd
    simp [Sys.want, hb, this]
  have hi' := (h.next hn).inv
  have hq : (s'.th t).st = .blocked (.join u) → (s'.th u).st = .done → s'.queue ≠ [] := by
    intro h1 h2 hq
    have := hi'.wk t
    simp [Sys.wakes, Sys.want, hq, h1, h2] at this
  rcases next_cases h.inv hn with ⟨v, c, hv, _, _, hcl⟩ | ⟨_, hpp⟩
  · have hrv := (h.inv.act v).1 hv
    have hne : t ≠ v := fun he => by rw [← he, hb] at hrv; cases hrv
    have hneu : u ≠ v := fun he => by
      have : (s.th u).st = .done := hd
      rw [← he, this] at hrv; cases hrv
    have h1 : (s'.th t).st = .blocked (.join u) := by
      rcases hcl.others t hne with h1 | ⟨h1, _⟩
      · rw [h1, hb]
      · rw [hb] at h1; cases h1
    have h2 : (s'.th u).st = .done := by
      have hd' : (s.th u).st = .done := hd
      rcases hcl.others u hneu with h2 | ⟨h2, _⟩
      · rw [h2, hd']
      · rw [hd'] at h2; cases h2
    exact ⟨hcl.now, Or.inr ⟨h1, h2, hq h1 h2⟩⟩
  · refine ⟨hpp.stay t _ hwant rfl, ?_⟩
    have hd' : (s.th u).st = .done := hd
    rcases hpp.each t with h1 | ⟨h1, _⟩
    · right
      rw [hb] at h1
      have h2 : (s'.th u).st = .done := by
        rcases hpp.each u with h2 | ⟨_, h2⟩
        · rw [h2, hd']
        · rw [hd'] at h2
          rcases h2 with ⟨h2, _⟩ | h2 | ⟨h2, _⟩ | ⟨w, h2, _⟩ <;> simp at h2
      exact ⟨h1, h2, hq h1 h2⟩
    · exact Or.inl h1

example : ∃ s, Reach s ∧ (s.th 0).st = .blocked (.join 1) ∧ s.Finished 1 ∧ ∃ s', s.Next s' := by
  have h : (Sys.start.runP none (demo4.take 15)).isSome = true := by decide +kernel
  have h1 : (((Sys.start.runP none (demo4.take 15)).getD Sys.start).stepP .pop).isSome = true := by
    decide +kernel
  exact ⟨_, runP_reach .start (getD_ok h), by decide +kernel, by unfold Sys.Finished; decide +kernel, _,
    stepP_next (getD_ok h1)⟩

/-- A thread object is deleted only after the thread finished: by the thread that joined it,
at the moment that thread goes on, or, if it is detached, at the time it ended. -/
theorem C107_freed {s s' : Sys} {u : Nat} (h : Reach s) (hn : s.Next s')
    (h0 : (s.th u).deleted = false) (h1 : (s'.th u).deleted = true) :
    s.Finished u ∧ s'.now = s.now ∧
      ((s.th u).joinable = false ∨
        (∃ t, s.step (.call t (.join u)) = .ok s') ∨
        ∃ t, (s.th t).st = .blocked (.join u) ∧ s'.Runs t) := by
  rcases next_cases h.inv hn with ⟨v, c, hv, _, hs, hcl⟩ | ⟨_, hpp⟩
  · obtain ⟨hc, hd⟩ := hcl.freed u h0 h1
    subst hc
    exact ⟨hd, hcl.now, Or.inr (Or.inl ⟨v, by simp only [Sys.step, if_pos hv, hs]⟩)⟩
  · obtain ⟨hd, hnow, hj⟩ := hpp.freed u h0 h1
    refine ⟨hd, hnow, ?_⟩
    rcases hj with hj | hj
    · exact Or.inl hj
    · exact Or.inr (Or.inr hj)

example : ∃ s s', Reach s ∧ s.Next s' ∧ (s.th 1).deleted = false ∧ (s'.th 1).deleted = true := by
  have h : (Sys.start.runP none (demo4.take 15)).isSome = true := by decide +kernel
  have h1 : (((Sys.start.runP none (demo4.take 15)).getD Sys.start).stepP .pop).isSome = true := by
    decide +kernel
  exact ⟨_, _, runP_reach .start (getD_ok h), stepP_next (getD_ok h1), by decide +kernel,
    by decide +kernel⟩

/-- Once deleted, a thread object stays so and no event refers to it, so nothing deletes it
again. -/
theorem C107_freed_once {s : Sys} {u : Nat} (h : Reach s) (hd : (s.th u).deleted = true) :
    (∀ q ∈ s.queue, q.ev ≠ .switchTo u ∧ q.ev ≠ .start u ∧ q.ev ≠ .unblock u ∧ q.ev ≠ .delete u ∧
      ∀ c, q.ev ≠ .timeout u c) ∧
    (∀ t, (s.th t).st ≠ .blocked (.join u)) ∧ (∀ s', s.Next s' → (s'.th u).deleted = true) := by
  have hi := h.inv
  have hdone := hi.dd u hd
  have hw : s.wakes u = [] := by rw [hi.wk u]; simp [Sys.want, hdone]
  have hx : s.dels u = [] := by rw [hi.dl u]; simp [Sys.wantDel, hd]
  refine ⟨fun q hq => ?_, fun t ht => ?_, fun s' hn => ?_⟩
  · have h1 := List.filter_eq_nil_iff.1 hw q hq
    have h2 := List.filter_eq_nil_iff.1 hx q hq
    refine ⟨?_, ?_, ?_, ?_, ?_⟩
    · intro he; rw [he] at h1; simp [Ev.target] at h1
    · intro he; rw [he] at h1; simp [Ev.target] at h1
    · intro he; rw [he] at h1; simp [Ev.target] at h1
    · intro he; rw [he] at h2; simp at h2
    · intro c he; rw [he] at h1; simp [Ev.target] at h1
  · have := (hi.jt t u ht).2.2.1; rw [hd] at this; cases this
  · rcases next_cases hi hn with ⟨v, c, hv, _, hs, hcl⟩ | ⟨_, hpp⟩
    · exact hcl.kept u hd
    · exact hpp.kept u hd

example : ∃ s, Reach s ∧ (s.th 1).deleted = true := by
  have h : (Sys.start.runP none (demo4.take 16)).isSome = true := by decide +kernel
  exact ⟨_, runP_reach .start (getD_ok h), by decide +kernel⟩

/-! ### No wake-up is lost -/

/-- When the node is idle, every thread that was created has finished, or waits and has not
been woken, or joins a thread that has not finished; every finished thread has been deleted
unless nobody joined it. -/
theorem C107_idle {s : Sys} (h : Reach s) (hid : s.Idle) (t : Nat) :
    (s.th t).st = .new ∨
    (s.Finished t ∧ ((s.th t).deleted = true ∨ ((s.th t).joinable = true ∧ (s.th t).claimed = false))) ∨
    ((s.th t).st = .blocked .list ∧ t ∈ s.waiting) ∨
    ∃ u, (s.th t).st = .blocked (.join u) ∧ ¬ s.Finished u := by
  have hi := h.inv
  have hw : ∀ t, s.want t = [] := fun t => by rw [← hi.wk t]; simp [Sys.wakes, hid.2]
  have hx : ∀ t, s.wantDel t = [] := fun t => by rw [← hi.dl t]; simp [Sys.dels, hid.2]
  have hwt := hw t
  have hxt := hx t
  cases hst : (s.th t).st with
  | new => exact Or.inl rfl
  | pending => simp [Sys.want, hst] at hwt
  | running => have := (hi.act t).2 hst; rw [hid.1] at this; cases this
  | done =>
    refine Or.inr (Or.inl ⟨hst, ?_⟩)
    cases hd : (s.th t).deleted with
    | true => exact Or.inl rfl
    | false =>
      right
      cases hj : (s.th t).joinable with
      | false => simp [Sys.wantDel, hst, hd, hj] at hxt
      | true =>
        refine ⟨rfl, ?_⟩
        cases hc : (s.th t).claimed with
        | false => rfl
        | true =>
          rcases hi.ca t hc with h1 | ⟨v, hv⟩
          · rw [hd] at h1; cases h1
          · have := hw v; simp [Sys.want, hv, hst] at this
  | blocked w =>
    cases w with
    | timer d => simp [Sys.want, hst] at hwt
    | timed => exact absurd hst (hi.nt t)
    | list =>
      by_cases hm : t ∈ s.waiting
      · exact Or.inr (Or.inr (Or.inl ⟨rfl, hm⟩))
      · simp [Sys.want, hst, hm] at hwt
    | join u =>
      refine Or.inr (Or.inr (Or.inr ⟨u, rfl, fun hd => ?_⟩))
      have : (s.th u).st = .done := hd
      simp [Sys.want, hst, this] at hwt

example : ∃ s, Reach s ∧ s.Idle ∧ s.now = 8 ∧ (∀ t < 3, s.Finished t ∧ (s.th t).deleted = true) := by
  have h : (Sys.start.runP none demo4).isSome = true := by decide +kernel
  exact ⟨_, runP_reach .start (getD_ok h), ⟨by decide +kernel, by decide +kernel⟩, by decide +kernel,
    by unfold Sys.Finished; decide +kernel⟩

/-! ### What goes wrong outside these rules -/

/-- The state after a run, for the counterexamples. -/
def Sys.runO (s : Sys) (as : List Act) : Option Sys := (s.run as).toOption

/-- A waiting thread with a time limit that is woken early, ends and is joined: when the limit
expires, its timeout event reads the deleted thread. -/
theorem C107_timeout_refuted :
    Sys.start.run
      [.call 0 (.spawn 1 true), .call 0 (.compute 1), .pop, .call 1 (.waitTimeout 10), .pop,
       .call 0 (.wake 1), .call 0 (.join 1), .pop, .call 1 .exit, .pop, .call 0 (.compute 20),
       .pop] = .error .ub ∧
    Sys.start.run
      [.call 0 (.spawn 1 true), .call 0 (.compute 1), .pop, .call 1 (.waitTimeout 10), .pop,
       .call 0 (.wake 1), .call 0 (.join 1), .pop, .call 1 .exit, .pop, .call 0 (.compute 20)]
      ≠ .error .ub := by
  constructor
  · have h : (match Sys.start.run
      [.call 0 (.spawn 1 true), .call 0 (.compute 1), .pop, .call 1 (.waitTimeout 10), .pop,
       .call 0 (.wake 1), .call 0 (.join 1), .pop, .call 1 .exit, .pop, .call 0 (.compute 20),
       .pop] with | .error .ub => true | _ => false) = true := by decide +kernel
    split at h
    · assumption
    · cases h
  · intro hc
    have h : (match Sys.start.run
      [.call 0 (.spawn 1 true), .call 0 (.compute 1), .pop, .call 1 (.waitTimeout 10), .pop,
       .call 0 (.wake 1), .call 0 (.join 1), .pop, .call 1 .exit, .pop, .call 0 (.compute 20)]
      with | .error .ub => false | _ => true) = true := by decide +kernel
    rw [hc] at h
    cases h

/-- A thread woken at the very moment its limit expires is resumed twice: the second time it
is computing, so a computation of 100 that starts at time 5 ends at time 5. -/
theorem C107_double_wake_refuted : ∃ s s₁ s₂ : Sys,
    Sys.start.runO
      [.call 0 (.spawn 1 true), .call 0 (.compute 5), .pop, .call 1 (.waitTimeout 5), .pop,
       .call 0 (.wake 1), .call 0 (.join 1), .pop] = some s ∧
    s.now = 5 ∧ s.runO [.call 1 (.compute 100)] = some s₁ ∧ s₁.runO [.pop] = some s₂ ∧
    s₂.Runs 1 ∧ s₂.now = 5 := by
  have h : (Sys.start.runO
      [.call 0 (.spawn 1 true), .call 0 (.compute 5), .pop, .call 1 (.waitTimeout 5), .pop,
       .call 0 (.wake 1), .call 0 (.join 1), .pop]).isSome = true := by decide +kernel
  have h1 : (((Sys.start.runO
      [.call 0 (.spawn 1 true), .call 0 (.compute 5), .pop, .call 1 (.waitTimeout 5), .pop,
       .call 0 (.wake 1), .call 0 (.join 1), .pop]).getD Sys.start).runO [.call 1 (.compute 100)]).isSome = true := by
    decide +kernel
  have h2 : (((((Sys.start.runO
      [.call 0 (.spawn 1 true), .call 0 (.compute 5), .pop, .call 1 (.waitTimeout 5), .pop,
       .call 0 (.wake 1), .call 0 (.join 1), .pop]).getD Sys.start).runO [.call 1 (.compute 100)]).getD Sys.start).runO
         [.pop]).isSome = true := by decide +kernel
  exact ⟨_, _, _, (getD_ok h), by decide +kernel, (getD_ok h1),
    (getD_ok h2), by unfold Sys.Runs; decide +kernel, by decide +kernel⟩

theorem del_ctr {s s' : Sys} {u t : Nat} (h : s.del u = .ok s') : (s'.th t).ctr = (s.th t).ctr := by
  unfold Sys.del at h
  split at h
  · cases h
  · cases h; simp only [Sys.upd]; split <;> rfl

theorem resume_ctr {s s' : Sys} {u t : Nat} (h : s.resume u = .ok s') : (s.th t).ctr ≤ (s'.th t).ctr := by
  unfold Sys.resume at h
  split at h
  · cases h
  · split at h
    · simp only at h
      split at h
      · rw [del_ctr h (t := t)]; simp only [Sys.upd]; split <;> simp
      · cases h; split <;> simp only [Sys.upd] <;> split <;> simp
      · cases h; simp only [Sys.upd]; split <;> simp
    · cases h

theorem wakeup_ctr {s s' : Sys} {u t : Nat} (h : s.wakeup u = .ok s') : (s.th t).ctr ≤ (s'.th t).ctr := by
  unfold Sys.wakeup at h
  split at h
  · cases h
  · split at h
    · exact Nat.le_of_eq (del_ctr h).symm
    · split at h
      · exact resume_ctr h
      · cases h; exact Nat.le_refl _

theorem wakeJoiners_ctr {l : List Nat} {s s' : Sys} {t : Nat} (h : s.wakeJoiners l = .ok s') :
    (s.th t).ctr ≤ (s'.th t).ctr := by
  induction l generalizing s with
  | nil => cases h; exact Nat.le_refl _
  | cons j js ih =>
    simp only [Sys.wakeJoiners, bind, Except.bind] at h
    cases hw : s.wakeup j with
    | error e => rw [hw] at h; cases h
    | ok v => rw [hw] at h; exact Nat.le_trans (wakeup_ctr hw) (ih h)

theorem finish_ctr {s s' : Sys} {u t : Nat} (h : s.finish u = .ok s') : (s.th t).ctr ≤ (s'.th t).ctr := by
  simp only [Sys.finish, bind, Except.bind] at h
  split at h
  · cases h
  · rename_i v hw
    cases h
    refine Nat.le_trans (m := (v.th t).ctr) (Nat.le_trans ?_ (wakeJoiners_ctr hw (t := t))) (Nat.le_refl _)
    simp only [Sys.upd]
    split <;> split <;> simp [Sys.push]

theorem call_ctr {s s' : Sys} {u t : Nat} {c : Call} (h : s.call u c = .ok s') :
    (s.th t).ctr ≤ (s'.th t).ctr := by
  cases c with
  | compute d => cases h; simp only [Sys.block, Sys.push, Sys.upd]; split <;> simp
  | wait => cases h; simp only [Sys.block, Sys.upd]; split <;> simp
  | waitTimeout d => cases h; simp only [Sys.block, Sys.push, Sys.upd]; split <;> simp
  | wake v => exact wakeup_ctr (s := { s with waiting := s.waiting.erase v }) h
  | spawn v j => cases h; simp only [Sys.push, Sys.upd]; split <;> simp
  | join v =>
    simp only [Sys.call] at h
    split at h
    · cases h
    · split at h
      · rw [del_ctr h (t := t)]; simp only [Sys.upd]; split <;> simp
      · cases h; simp only [Sys.block, Sys.upd]; (repeat' split) <;> simp
  | exit => exact finish_ctr h
  | pthreadExit => cases h
  | appExit l =>
    refine Nat.le_trans ?_ (finish_ctr (t := t) h)
    simp only; split <;> simp

theorem pop_ctr {s s' : Sys} {t : Nat} (h : s.pop = .ok s') : (s.th t).ctr ≤ (s'.th t).ctr := by
  unfold Sys.pop at h
  split at h
  · cases h
  · rename_i q qs _
    simp only at h
    split at h
    · exact resume_ctr (s := { s with now := q.time, queue := qs }) h
    · split at h
      · cases h
      · cases h; simp only [Sys.upd]; split <;> simp
    · exact wakeup_ctr (s := { s with now := q.time, queue := qs }) h
    · split at h
      · cases h
      · split at h
        · refine Nat.le_trans ?_ (wakeup_ctr (t := t) h)
          simp only [Sys.upd]; split <;> simp
        · cases h; exact Nat.le_refl _
    · exact Nat.le_of_eq (del_ctr (s := { s with now := q.time, queue := qs }) h).symm

theorem run_ctr {as : List Act} {s s' : Sys} {t : Nat} (h : s.run as = .ok s') :
    (s.th t).ctr ≤ (s'.th t).ctr := by
  induction as generalizing s with
  | nil => cases h; exact Nat.le_refl _
  | cons a as ih =>
    simp only [Sys.run, bind, Except.bind] at h
    cases hw : s.step a with
    | error e => rw [hw] at h; cases h
    | ok v =>
      rw [hw] at h
      refine Nat.le_trans ?_ (ih h)
      cases a with
      | call u c =>
        simp only [Sys.step] at hw
        split at hw
        · exact call_ctr hw
        · cases hw
      | pop =>
        simp only [Sys.step] at hw
        split at hw
        · exact pop_ctr hw
        · cases hw

/-- The part of the behaviour of time limits that holds, for every program: once a thread has
been resumed from a wait with a limit, the expiry of that limit changes nothing, at any later
time, as long as the thread has not been deleted.  Missing: deleted threads
(`C107_timeout_refuted`) and a wake-up that is already on its way when the limit expires
(`C107_double_wake_refuted`). -/
theorem C107_timeout_partial {s s' : Sys} {as : List Act} {t c n : Nat} {qs : List Q}
    (hr : s.run as = .ok s') (hc : c < (s.th t).ctr) (hn : s'.active = none)
    (hq : s'.queue = ⟨n, .timeout t c⟩ :: qs) (hd : (s'.th t).deleted = false) :
    s'.step .pop = .ok { s' with now := n, queue := qs } := by
  have := run_ctr hr (t := t)
  have hne : (s'.th t).ctr ≠ c := by omega
  simp [Sys.step, hn, Sys.pop, hq, hd, hne]

example : ∃ s s' : Sys, ∃ as qs, s.run as = .ok s' ∧ 0 < (s.th 1).ctr ∧ s'.active = none ∧
    s'.queue = ⟨10, .timeout 1 0⟩ :: qs ∧ (s'.th 1).deleted = false := by
  have hx : ∀ {o : Except Bad Sys}, o.toOption.isSome = true → o = .ok (o.toOption.getD Sys.start) := by
    intro o h
    cases o with
    | error e => cases h
    | ok v => rfl
  have h1 : ((((Sys.start.runO
      [.call 0 (.spawn 1 true), .call 0 (.compute 1), .pop, .call 1 (.waitTimeout 10), .pop,
       .call 0 (.wake 1), .call 0 (.compute 20), .pop]).getD Sys.start).run
         [.call 1 (.compute 20)]).toOption).isSome = true := by decide +kernel
  exact ⟨_, _, _, [⟨21, .unblock 0⟩, ⟨21, .unblock 1⟩], hx h1, by decide +kernel, by decide +kernel,
    by decide +kernel, by decide +kernel⟩

/-- A thread whose limit expires before anybody wakes it runs at that time, marked as timed
out and off the waiting list. -/
theorem C107_timeout_fires {s : Sys} {t n d : Nat} {s₁ : Sys}
    (hc : s.step (.call t (.waitTimeout d)) = .ok s₁) (hnm : t ∉ s.waiting)
    (hdel : (s.th t).deleted = false) (hcan : (s.th t).cancelled = false)
    (hq : ∀ q ∈ s.queue, s.now + d < q.time) (hn : n = s.now + d) :
    ∃ s₂, s₁.step .pop = .ok s₂ ∧ s₂.Runs t ∧ s₂.now = n ∧ (s₂.th t).timedOut = true ∧ t ∉ s₂.waiting := by
  simp only [Sys.step] at hc
  split at hc
  · simp only [Sys.call, Except.ok.injEq] at hc
    have hins : ins ⟨s.now + d, .timeout t (s.th t).ctr⟩ s.queue = ⟨s.now + d, .timeout t (s.th t).ctr⟩ :: s.queue := by
      cases hqq : s.queue with
      | nil => rfl
      | cons x xs =>
        have := hq x (by rw [hqq]; exact List.mem_cons_self)
        simp only [ins, if_neg (show ¬ x.time ≤ s.now + d by omega)]
    subst hc
    subst hn
    simp [Sys.step, Sys.block, Sys.push, Sys.upd, hins, Sys.pop, Sys.wakeup, Sys.resume, hdel, hcan, Sys.Runs]
    rw [List.erase_append_right _ hnm]
    simpa using hnm
  · cases hc

example : ∃ s₁, Sys.start.step (.call 0 (.waitTimeout 7)) = .ok s₁ ∧ (∀ q ∈ Sys.start.queue, Sys.start.now + 7 < q.time) ∧
    (Sys.start.th 0).deleted = false ∧ (Sys.start.th 0).cancelled = false ∧ 0 ∉ Sys.start.waiting :=
  ⟨_, rfl, by decide +kernel, by decide +kernel, by decide +kernel, by decide +kernel⟩

/-- Two threads that join the same thread delete it twice. -/
theorem C107_two_joiners_refuted :
    (match Sys.start.run
      [.call 0 (.spawn 1 true), .call 0 (.spawn 2 true), .call 0 (.join 1), .pop,
       .call 1 (.compute 5), .pop, .call 2 (.join 1), .pop, .call 1 .exit, .pop,
       .call 0 (.compute 1), .pop] with | .error .ub => true | _ => false) = true := by
  decide +kernel

/-- A thread that calls `pthread_exit`, wherever it is and whatever else runs, ends the whole
simulator instead of itself. -/
theorem C107_pthread_exit_refuted {s : Sys} {t : Nat} (h : Reach s) (hr : s.Runs t) :
    s.step (.call t .pthreadExit) = .error .processExit := by
  simp only [Sys.step, if_pos ((h.inv.act t).2 hr), Sys.call]

/-- After the application ended, its threads still run: one that was created but not
started, and one that had just been woken. -/
theorem C107_cancel_refuted :
    (∃ s : Sys, Sys.start.runO [.call 0 (.spawn 1 true), .call 0 (.appExit [1]), .pop] = some s ∧
      s.Finished 0 ∧ s.Runs 1) ∧
    (∃ s : Sys, Sys.start.runO
      [.call 0 (.spawn 1 true), .call 0 (.compute 5), .pop, .call 1 .wait, .pop,
       .call 0 (.wake 1), .call 0 (.appExit [1]), .pop] = some s ∧
      s.Finished 0 ∧ s.Runs 1 ∧ (s.th 1).cancelled = true) := by
  constructor
  · have h : (Sys.start.runO [.call 0 (.spawn 1 true), .call 0 (.appExit [1]), .pop]).isSome = true := by
      decide +kernel
    exact ⟨_, (getD_ok h), by unfold Sys.Finished; decide +kernel,
      by unfold Sys.Runs; decide +kernel⟩
  · have h : (Sys.start.runO
      [.call 0 (.spawn 1 true), .call 0 (.compute 5), .pop, .call 1 .wait, .pop,
       .call 0 (.wake 1), .call 0 (.appExit [1]), .pop]).isSome = true := by decide +kernel
    exact ⟨_, (getD_ok h), by unfold Sys.Finished; decide +kernel,
      by unfold Sys.Runs; decide +kernel, by decide +kernel⟩

/-- The part of "a thread of an application that ended never runs again" that holds: waking a
cancelled thread, by its timer or by another thread, deletes it and runs nothing.  Missing:
threads that were not started or had already been woken (`C107_cancel_refuted`). -/
theorem C107_cancel_partial {s s' : Sys} {t : Nat} (hc : (s.th t).cancelled = true)
    (hw : s.wakeup t = .ok s') :
    (s'.th t).deleted = true ∧ (s'.th t).st = (s.th t).st ∧ s'.active = s.active ∧ s'.queue = s.queue := by
  unfold Sys.wakeup at hw
  split at hw
  · cases hw
  · unfold Sys.del at hw
    split at hw
    · cases hw
    · cases hw
      simp [Sys.upd]

example : ∃ s s' : Sys, Sys.start.runO
      [.call 0 (.spawn 1 true), .call 0 (.compute 5), .pop, .call 1 (.compute 9), .pop,
       .call 0 (.appExit [1]), .pop] = some s ∧ (s.th 1).cancelled = true ∧
      s.runO [.pop] = some s' ∧ (s'.th 1).deleted = true ∧ ¬ s'.Runs 1 := by
  have h : (Sys.start.runO
      [.call 0 (.spawn 1 true), .call 0 (.compute 5), .pop, .call 1 (.compute 9), .pop,
       .call 0 (.appExit [1]), .pop]).isSome = true := by decide +kernel
  have h1 : (((Sys.start.runO
      [.call 0 (.spawn 1 true), .call 0 (.compute 5), .pop, .call 1 (.compute 9), .pop,
       .call 0 (.appExit [1]), .pop]).getD Sys.start).runO [.pop]).isSome = true := by decide +kernel
  exact ⟨_, _, (getD_ok h), by decide +kernel, (getD_ok h1),
    by decide +kernel, by unfold Sys.Runs; decide +kernel⟩

end SST.Os.Threads
