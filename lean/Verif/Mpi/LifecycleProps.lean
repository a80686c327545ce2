import Verif.Mpi.Lifecycle
set_option autoImplicit false

/-!
# Theorems about MPI_Init and MPI_Finalize
-/

namespace Verif.Mpi.Lifecycle

/-! ### Specification -/

/-- Calls that initialise. -/
def Op.inits : Op → Bool
  | .init | .initThread _ => true
  | _ => false

/-- MPI has been initialised. -/
def Inited (h : List Op) : Prop := ∃ o, o ∈ h ∧ o.inits = true

/-- Of initialisations and MPI_Finalize, the last was an initialisation. -/
def Running (h : List Op) : Prop := ∃ a o b, h = a ++ o :: b ∧ o.inits = true ∧ Op.finalize ∉ b

/-- Of initialisations and MPI_Finalize, the last was MPI_Finalize. -/
def Over (h : List Op) : Prop := ∃ a b, h = a ++ .finalize :: b ∧ ∀ o, o ∈ b → o.inits = false

/-- The call after a history that is an error. -/
def Wrong (h : List Op) : Op → Prop
  | .init | .initThread _ => Running h
  | .finalize | .world => ¬ Inited h
  | .checked => ¬ Running h
  | _ => False

/-- What MPI says: MPI_Init is called once, first, and MPI_Finalize last. -/
def Legal (h : List Op) : Op → Prop
  | .init | .initThread _ => ¬ Inited h
  | .finalize | .world | .checked => Inited h ∧ Op.finalize ∉ h
  | _ => True

/-- The answer of a call. -/
def Answer (h : List Op) : Op → Out → Prop
  | .initialized, a => ∃ b, a = .flag b ∧ (b = true ↔ Running h)
  | .finalized, a => ∃ b, a = .flag b ∧ (b = true ↔ Over h)
  | .initThread r, a => a = .provided r
  | _, a => a = .done

/-! ### Proofs -/

theorem running_snoc (h : List Op) (o : Op) : Running (h ++ [o]) ↔ o.inits = true ∨ (o ≠ .finalize ∧ Running h) := by
  constructor
  · rintro ⟨a, x, b, e, hx, hb⟩
    rcases List.eq_nil_or_concat b with rfl | ⟨b', y, rfl⟩
    · have := List.append_inj' e rfl
      have h2 : o = x := by simpa using this.2
      exact Or.inl (h2 ▸ hx)
    · rw [List.concat_eq_append] at e hb
      have e : h ++ [o] = (a ++ x :: b') ++ [y] := by rw [e]; simp
      have := List.append_inj' e rfl
      have h2 : o = y := by simpa using this.2
      refine Or.inr ⟨fun h3 => hb (by simp [← h2, h3]), a, x, b', this.1, hx, fun h3 => hb (by simp [h3])⟩
  · rintro (ho | ⟨ho, a, x, b, rfl, hx, hb⟩)
    · exact ⟨h, o, [], rfl, ho, by simp⟩
    · refine ⟨a, x, b ++ [o], by simp, hx, fun h3 => ?_⟩
      rcases List.mem_append.mp h3 with h3 | h3
      · exact hb h3
      · exact ho (List.mem_singleton.mp h3).symm

theorem over_snoc (h : List Op) (o : Op) : Over (h ++ [o]) ↔ o = .finalize ∨ (o.inits = false ∧ Over h) := by
  constructor
  · rintro ⟨a, b, e, hb⟩
    rcases List.eq_nil_or_concat b with rfl | ⟨b', y, rfl⟩
    · have := List.append_inj' e rfl
      exact Or.inl (by simpa using this.2)
    · rw [List.concat_eq_append] at e hb
      have e : h ++ [o] = (a ++ .finalize :: b') ++ [y] := by rw [e]; simp
      have := List.append_inj' e rfl
      have h2 : o = y := by simpa using this.2
      refine Or.inr ⟨h2 ▸ hb y (by simp), a, b', this.1, fun z hz => hb z (by simp [hz])⟩
  · rintro (rfl | ⟨ho, a, b, rfl, hb⟩)
    · exact ⟨h, [], rfl, fun x hx => (by cases hx)⟩
    · refine ⟨a, b ++ [o], by simp, fun z hz => ?_⟩
      rcases List.mem_append.mp hz with hz | hz
      · exact hb z hz
      · have : z = o := by simpa using hz
        exact this ▸ ho

theorem inited_snoc (h : List Op) (o : Op) : Inited (h ++ [o]) ↔ o.inits = true ∨ Inited h := by
  constructor
  · rintro ⟨x, hx, hi⟩
    rcases List.mem_append.mp hx with hx | hx
    · exact Or.inr ⟨x, hx, hi⟩
    · have : x = o := by simpa using hx
      exact Or.inl (this ▸ hi)
  · rintro (ho | ⟨x, hx, hi⟩)
    · exact ⟨o, by simp, ho⟩
    · exact ⟨x, by simp [hx], hi⟩

/-- The state after a history. -/
structure After (h : List Op) (s : St) : Prop where
  running : s.status = .initialized ↔ Running h
  over : s.status = .finalized ↔ Over h
  world : s.world = true ↔ Inited h

theorem after_nil : After [] .init := by
  refine ⟨⟨fun h => (by cases h), ?_⟩, ⟨fun h => (by cases h), ?_⟩, ⟨fun h => (by cases h), ?_⟩⟩
  · rintro ⟨a, o, b, h, _⟩; cases a <;> cases h
  · rintro ⟨a, b, h, _⟩; cases a <;> cases h
  · rintro ⟨o, h, _⟩; cases h

theorem after_keep {h : List Op} {s : St} (o : Op) (ha : After h s) (h1 : o.inits = false) (h2 : o ≠ .finalize) : After (h ++ [o]) s := by
  refine ⟨?_, ?_, ?_⟩
  · rw [running_snoc, ha.running]; simp [h1, h2]
  · rw [over_snoc, ha.over]; simp [h1, h2]
  · rw [inited_snoc, ha.world]; simp [h1]

theorem after_init {h : List Op} {s s' : St} (o : Op) (h1 : o.inits = true) (h2 : o ≠ .finalize) (hd : doInit s = some s') : After (h ++ [o]) s' := by
  have : s' = ⟨.initialized, true⟩ := by
    unfold doInit at hd
    split at hd
    · cases hd
    · exact (Option.some.inj hd).symm
  subst this
  refine ⟨?_, ?_, ?_⟩
  · rw [running_snoc]; simp [h1]
  · rw [over_snoc]; simp [h1, h2]
  · rw [inited_snoc]; simp [h1]

/-- One call. -/
theorem step_after {h : List Op} {s : St} (ha : After h s) (o : Op) : (Wrong h o → step s o = none) ∧
    (¬ Wrong h o → ∃ s' a, step s o = some (s', a) ∧ After (h ++ [o]) s' ∧ Answer h o a) := by
  have hrun : Running h → doInit s = none := fun hr => by unfold doInit; rw [ha.running.mpr hr]
  have hnrun : ¬ Running h → ∃ s', doInit s = some s' := fun hr => by
    unfold doInit
    cases hs : s.status with
    | initialized => exact absurd (ha.running.mp hs) hr
    | fresh => exact ⟨_, rfl⟩
    | finalized => exact ⟨_, rfl⟩
  have hri : Running h → Inited h := fun ⟨a, o, b, e, ho, _⟩ => ⟨o, by simp [e], ho⟩
  cases o with
  | init =>
    refine ⟨fun hw => by simp only [step, hrun hw]; rfl, fun hw => ?_⟩
    obtain ⟨s', hs'⟩ := hnrun hw
    exact ⟨s', .done, by simp only [step, hs']; rfl, after_init .init rfl (by decide) hs', rfl⟩
  | initThread r =>
    refine ⟨fun hw => by simp only [step, hrun hw]; rfl, fun hw => ?_⟩
    obtain ⟨s', hs'⟩ := hnrun hw
    exact ⟨s', .provided r, by simp only [step, hs']; rfl, after_init (.initThread r) rfl (by simp) hs', rfl⟩
  | finalize =>
    refine ⟨fun hw => ?_, fun hw => ?_⟩
    · simp only [step]; rw [if_neg (fun h => hw (ha.world.mp h))]
    · have hw : Inited h := Classical.byContradiction hw
      refine ⟨{ s with status := .finalized }, .done, by simp only [step]; rw [if_pos (ha.world.mpr hw)], ⟨?_, ?_, ?_⟩, rfl⟩
      · rw [running_snoc]; simp [Op.inits]
      · rw [over_snoc]; simp
      · rw [inited_snoc, ha.world]; simp [Op.inits]
  | initialized => exact ⟨fun hw => hw.elim, fun _ => ⟨s, _, rfl, after_keep .initialized ha rfl (by decide), _, rfl, by rw [decide_eq_true_iff]; exact ha.running⟩⟩
  | finalized => exact ⟨fun hw => hw.elim, fun _ => ⟨s, _, rfl, after_keep .finalized ha rfl (by decide), _, rfl, by rw [decide_eq_true_iff]; exact ha.over⟩⟩
  | checked =>
    refine ⟨fun hw => ?_, fun hw => ?_⟩
    · simp only [step]; rw [if_neg (fun h => hw (ha.running.mp h))]
    · have hw : Running h := Classical.byContradiction hw
      exact ⟨s, .done, by simp only [step]; rw [if_pos (ha.running.mpr hw), if_pos (ha.world.mpr (hri hw))], after_keep .checked ha rfl (by decide), rfl⟩
  | world =>
    refine ⟨fun hw => ?_, fun hw => ?_⟩
    · simp only [step]; rw [if_neg (fun h => hw (ha.world.mp h))]
    · have hw : Inited h := Classical.byContradiction hw
      exact ⟨s, .done, by simp only [step]; rw [if_pos (ha.world.mpr hw)], after_keep .world ha rfl (by decide), rfl⟩
  | free => exact ⟨fun hw => hw.elim, fun _ => ⟨s, .done, rfl, after_keep .free ha rfl (by decide), rfl⟩⟩

theorem exec_append (s : St) (l l' : List Op) : exec s (l ++ l') = match exec s l with | none => none | some (s', a) => (exec s' l').map fun r => (r.1, a ++ r.2) := by
  induction l generalizing s with
  | nil => simp only [exec, List.nil_append]; cases exec s l' <;> rfl
  | cons o l ih =>
    simp only [exec, List.cons_append]
    cases step s o with
    | none => rfl
    | some r =>
      obtain ⟨s', a⟩ := r
      simp only [ih]
      cases exec s' l with
      | none => rfl
      | some r =>
        obtain ⟨s'', a'⟩ := r
        simp only [Option.map_some]
        cases exec s'' l' <;> rfl

theorem exec_after (h l : List Op) (s : St) (ha : After h s) :
    ((∃ a o b, l = a ++ o :: b ∧ Wrong (h ++ a) o) → exec s l = none) ∧
    ((∀ a o b, l = a ++ o :: b → ¬ Wrong (h ++ a) o) → ∃ s' outs, exec s l = some (s', outs) ∧ After (h ++ l) s' ∧ outs.length = l.length ∧
      ∀ a o b x, l = a ++ o :: b → outs[a.length]? = some x → Answer (h ++ a) o x) := by
  induction l generalizing h s with
  | nil =>
    refine ⟨fun ⟨a, o, b, e, _⟩ => (by cases a <;> cases e), fun _ => ⟨s, [], rfl, by rw [List.append_nil]; exact ha, rfl, fun a o b x e => (by cases a <;> cases e)⟩⟩
  | cons o l ih =>
    have hst := step_after ha o
    by_cases hw : Wrong h o
    · refine ⟨fun _ => by simp only [exec, hst.1 hw], fun hall => absurd (by rw [List.append_nil]; exact hw) (hall [] o l rfl)⟩
    · obtain ⟨s', x, hs, ha', hx⟩ := hst.2 hw
      obtain ⟨ih1, ih2⟩ := ih (h ++ [o]) s' ha'
      refine ⟨fun ⟨a, o', b, e, hw'⟩ => ?_, fun hall => ?_⟩
      · cases a with
        | nil => cases e; rw [List.append_nil] at hw'; exact absurd hw' hw
        | cons y a =>
          cases e
          simp only [exec, hs]
          rw [ih1 ⟨a, o', b, rfl, by rw [List.append_assoc]; exact hw'⟩]
          rfl
      · obtain ⟨s'', outs, he, ha'', hl, hans⟩ := ih2 fun a o' b e => (by rw [List.append_assoc]; exact hall (o :: a) o' b (by rw [e]; rfl))
        refine ⟨s'', x :: outs, by simp only [exec, hs, he]; rfl, by rw [List.append_assoc] at ha''; exact ha'', by simp [hl], fun a o' b y e hy => ?_⟩
        cases a with
        | nil =>
          cases e
          have : x = y := by simpa using hy
          rw [List.append_nil]
          exact this ▸ hx
        | cons z a =>
          cases e
          have := hans a o' b y rfl (by simpa using hy)
          rw [List.append_assoc] at this
          exact this

/-! ### Theorems -/

/-- A program is stopped exactly if it initialises while it is running, needs MPI before it was ever initialised, or duplicates a communicator
while it is not running; otherwise every call is answered as specified. -/
theorem C139_calls (l : List Op) :
    (exec .init l = none ↔ ∃ a o b, l = a ++ o :: b ∧ Wrong a o) ∧
    ∀ s outs, exec .init l = some (s, outs) → outs.length = l.length ∧ ∀ a o b x, l = a ++ o :: b → outs[a.length]? = some x → Answer a o x := by
  have := exec_after [] l .init after_nil
  simp only [List.nil_append] at this
  refine ⟨⟨fun h => ?_, this.1⟩, fun s outs h => ?_⟩
  · apply Classical.byContradiction
    intro hn
    obtain ⟨s', outs, he, _⟩ := this.2 fun a o b e hw => hn ⟨a, o, b, e, hw⟩
    rw [h] at he
    cases he
  · obtain ⟨s', outs', he, _, hl, hans⟩ := this.2 fun a o b e hw => (by rw [this.1 ⟨a, o, b, e, hw⟩] at h; cases h)
    rw [h] at he
    cases he
    exact ⟨hl, hans⟩

example : ∃ s, exec .init [.initialized, .init, .world, .checked, .initialized, .finalized, .finalize, .finalized] =
    some (s, [.flag false, .done, .done, .done, .flag true, .flag false, .done, .flag true]) := ⟨_, rfl⟩

/-- A program that is legal for MPI is never stopped, and MPI_Finalized answers whether MPI_Finalize was called; so does MPI_Initialized for
initialisation as long as MPI_Finalize has not been called. -/
theorem C139_legal_partial (l : List Op) (h : ∀ a o b, l = a ++ o :: b → Legal a o) : ∃ s outs, exec .init l = some (s, outs) ∧
    (∀ a b x, l = a ++ .finalized :: b → outs[a.length]? = some x → ∃ f, x = .flag f ∧ (f = true ↔ .finalize ∈ a)) ∧
    ∀ a b x, l = a ++ .initialized :: b → outs[a.length]? = some x → .finalize ∉ a → ∃ f, x = .flag f ∧ (f = true ↔ Inited a) := by
  have hnr : ∀ a, Running a → Inited a := fun a ⟨b, o, c, e, ho, _⟩ => ⟨o, by simp [e], ho⟩
  have hir : ∀ a, .finalize ∉ a → Inited a → Running a := by
    rintro a hf ⟨o, ho, hi⟩
    obtain ⟨b, c, e⟩ := List.append_of_mem ho
    exact ⟨b, o, c, e, hi, fun hm => hf (by simp [e, hm])⟩
  have hC := C139_calls l
  cases he : exec .init l with
  | none =>
    obtain ⟨a, o, b, e, hw⟩ := hC.1.mp he
    have hl := h a o b e
    cases o with
    | init => exact absurd (hnr a hw) hl
    | initThread r => exact absurd (hnr a hw) hl
    | finalize => exact absurd hl.1 hw
    | world => exact absurd hl.1 hw
    | checked => exact absurd (hir a hl.2 hl.1) hw
    | initialized => exact hw.elim
    | finalized => exact hw.elim
    | free => exact hw.elim
  | some r =>
    obtain ⟨s, outs⟩ := r
    refine ⟨s, outs, rfl, fun a b x e hx => ?_, fun a b x e hx hf => ?_⟩
    · obtain ⟨f, rfl, hf⟩ := (hC.2 s outs he).2 a .finalized b x e hx
      refine ⟨f, rfl, hf.trans ⟨fun ⟨p, q, e', _⟩ => by simp [e'], fun hm => ?_⟩⟩
      obtain ⟨p, q, e'⟩ := List.append_of_mem hm
      refine ⟨p, q, e', fun o ho => ?_⟩
      cases hoi : o.inits with
      | false => rfl
      | true =>
        -- an initialisation after MPI_Finalize is not legal
        obtain ⟨q1, q2, eq⟩ := List.append_of_mem ho
        have h1 := h p .finalize (q ++ .finalized :: b) (by rw [e, e']; simp)
        have h2 := h (p ++ .finalize :: q1) o (q2 ++ .finalized :: b) (by rw [e, e', eq]; simp)
        have hin : Inited (p ++ .finalize :: q1) := by
          obtain ⟨z, hz, hzi⟩ := h1.1
          exact ⟨z, by simp [hz], hzi⟩
        cases o <;> first | exact absurd hin h2 | cases hoi
    · obtain ⟨f, rfl, hf'⟩ := (hC.2 s outs he).2 a .initialized b x e hx
      exact ⟨f, rfl, hf'.trans ⟨hnr a, hir a hf⟩⟩

/-- After MPI_Finalize, MPI_Initialized answers that MPI was not initialised. -/
theorem C139_initialized_refuted : ∃ s, exec .init [.init, .finalize, .initialized] = some (s, [.done, .done, .flag false]) := ⟨_, rfl⟩

/-- MPI_Init, sends and MPI_Finalize are accepted after MPI_Finalize, and MPI_Init_thread provides whatever is asked for. -/
theorem C139_after_finalize_refuted (r : Int) : (∃ s a, exec .init [.init, .finalize, .init] = some (s, a)) ∧ (∃ s a, exec .init [.init, .finalize, .world] = some (s, a)) ∧
    (∃ s a, exec .init [.init, .finalize, .finalize] = some (s, a)) ∧ ∃ s, exec .init [.initThread r] = some (s, [.provided r]) :=
  ⟨⟨_, _, rfl⟩, ⟨_, _, rfl⟩, ⟨_, _, rfl⟩, _, rfl⟩

end Verif.Mpi.Lifecycle
