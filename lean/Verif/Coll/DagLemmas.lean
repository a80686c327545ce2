import Verif.Coll.Dag
/-!
Schedule independence.  `Good S t M0 B` says that the actions can be laid out in time
(`t`), that conflicting accesses are ordered by dependencies, and that `B τ` is the memory
after all actions before time `τ` when they are executed in that order.  Then every
execution, under every schedule, ends and leaves the memory `B τ` (τ late enough).
-/
set_option autoImplicit false
set_option linter.unusedSectionVars false
namespace SST.Coll
variable {A L V K : Type} [DecidableEq A]

/-- `Waits S b a`: b waits for a, directly or through other actions. -/
inductive Waits (S : Sys A L V K) : A → A → Prop
  | one {b a : A} (h : S.dep b a) : Waits S b a
  | more {c b a : A} (h : S.dep c b) (hw : Waits S b a) : Waits S c a

/-- The payload an action gets in the ideal execution. -/
def ideal (S : Sys A L V K) (t : A → Nat) (B : Nat → L → V) (a : A) : List V :=
  if S.kind a = .recv then (S.reads (S.peer a)).map (B (t a)) else []

/-- A schedule `t` of the actions and the memory `B` after each of its times describe an ideal execution of the system, and actions that use the same element wait for each other. -/
structure Good (S : Sys A L V K) (t : A → Nat) (M0 : L → V) (B : Nat → L → V) : Prop where
  init : B 0 = M0
  dep_mem : ∀ a b, a ∈ S.all → S.dep a b → b ∈ S.all
  dep_time : ∀ a b, a ∈ S.all → S.dep a b → t b < t a
  send_peer : ∀ a, a ∈ S.all → S.kind a = .send → S.peer a ∈ S.all ∧ S.kind (S.peer a) = .recv ∧
    S.key a = S.key (S.peer a) ∧ t (S.peer a) = t a ∧ S.peer (S.peer a) = a
  recv_peer : ∀ r, r ∈ S.all → S.kind r = .recv → S.peer r ∈ S.all ∧ S.kind (S.peer r) = .send ∧
    S.peer (S.peer r) = r
  key_inj : ∀ r r', r ∈ S.all → r' ∈ S.all → S.kind r = .recv → S.kind r' = .recv →
    S.key r = S.key r' → r = r'
  reads_touch : ∀ a l, S.kind a = .send → l ∈ S.reads a → S.touch a l
  send_quiet : ∀ a l, a ∈ S.all → S.kind a = .send → ¬ S.writes a l
  frame : ∀ a pl M l, a ∈ S.all → ¬ S.writes a l → S.eff a pl M l = M l
  locality : ∀ a pl M M' l, a ∈ S.all → S.writes a l → (∀ x, S.touch a x → M x = M' x) →
    S.eff a pl M l = S.eff a pl M' l
  race : ∀ a b l, a ∈ S.all → b ∈ S.all → a ≠ b → S.writes a l → (S.writes b l ∨ S.touch b l) →
    (t a < t b ∧ Waits S b a) ∨ (t b < t a ∧ Waits S a b)
  ideal_write : ∀ a l, a ∈ S.all → S.writes a l →
    B (t a + 1) l = S.eff a (ideal S t B a) (B (t a)) l
  ideal_keep : ∀ τ l, (∀ a ∈ S.all, t a = τ → ¬ S.writes a l) → B (τ + 1) l = B τ l

/-- The invariant of the execution. -/
structure Inv (S : Sys A L V K) (t : A → Nat) (B : Nat → L → V) (s : State A L V) : Prop where
  deps : ∀ a, a ∈ S.all → s.st a ≠ .idle → ∀ b, S.dep a b → s.st b = .done
  unsent : ∀ a, a ∈ S.all → S.kind a = .send → s.st a = .idle → s.net a = .unsent
  sent : ∀ a, a ∈ S.all → S.kind a = .send → s.st a = .done → s.net a ≠ .unsent ∧ s.net a ≠ .rdvz
  eager : ∀ a pl, a ∈ S.all → S.kind a = .send → s.net a = .eager pl → pl = (S.reads a).map (B (t a))
  gone : ∀ a, a ∈ S.all → S.kind a = .send → (s.net a = .gone ↔ s.st (S.peer a) = .done)
  mem : ∀ l τ, (∀ a ∈ S.all, S.writes a l → (s.st a = .done ↔ t a < τ)) → s.mem l = B τ l

variable {S : Sys A L V K} {t : A → Nat} {M0 : L → V} {B : Nat → L → V}

theorem waits_mem (g : Good S t M0 B) {b a : A} (hb : b ∈ S.all) (h : Waits S b a) : a ∈ S.all := by
  induction h with
  | one h => exact g.dep_mem _ _ hb h
  | more h _ ih => exact ih (g.dep_mem _ _ hb h)

theorem waits_done (g : Good S t M0 B) {s : State A L V} (hi : Inv S t B s) {b a : A} (hb : b ∈ S.all)
    (h : Waits S b a) (hs : s.st b ≠ .idle) : s.st a = .done := by
  induction h with
  | one h => exact hi.deps _ hb hs _ h
  | more h _ ih =>
    have h1 := hi.deps _ hb hs _ h
    exact ih (g.dep_mem _ _ hb h) (by rw [h1]; simp)

/-- Everything an active action uses has its ideal value. -/
theorem view (g : Good S t M0 B) {s : State A L V} (hi : Inv S t B s) {b : A} (hb : b ∈ S.all)
    (hs : s.st b = .active) (l : L) (hu : S.writes b l ∨ S.touch b l) : s.mem l = B (t b) l := by
  apply hi.mem
  intro a ha hw
  by_cases hab : a = b
  · subst hab
    rw [hs]
    simp
  · rcases g.race a b l ha hb hab hw hu with ⟨h1, h2⟩ | ⟨h1, h2⟩
    · have := waits_done g hi hb h2 (by rw [hs]; simp)
      rw [this]
      simp [h1]
    · constructor
      · intro hd
        have := waits_done g hi ha h2 (by rw [hd]; simp)
        rw [hs] at this
        simp at this
      · intro h
        omega

theorem keep_range (g : Good S t M0 B) (l : L) (τ d : Nat)
    (h : ∀ a ∈ S.all, S.writes a l → τ ≤ t a → t a < τ + d → False) : B (τ + d) l = B τ l := by
  induction d with
  | zero => rfl
  | succ d ih =>
    rw [← Nat.add_assoc, g.ideal_keep (τ + d) l (fun a ha ht hw => h a ha hw (by omega) (by omega))]
    exact ih (fun a ha hw h1 h2 => h a ha hw h1 (by omega))

/-- Executing an action that is active, with its ideal payload, keeps the memory part. -/
theorem mem_step (g : Good S t M0 B) {s : State A L V} (hi : Inv S t B s) {r : A} (hr : r ∈ S.all)
    (hs : s.st r = .active) (st' : A → Status)
    (hst : ∀ a ∈ S.all, ∀ l, S.writes a l → (st' a = .done ↔ (s.st a = .done ∨ a = r))) (l : L) (τ : Nat)
    (h : ∀ a ∈ S.all, S.writes a l → (st' a = .done ↔ t a < τ)) :
    S.eff r (ideal S t B r) s.mem l = B τ l := by
  by_cases hw : S.writes r l
  · have hlt : t r < τ := (h r hr hw).mp ((hst r hr l hw).mpr (Or.inr rfl))
    obtain ⟨d, rfl⟩ : ∃ d, τ = t r + 1 + d := ⟨τ - (t r + 1), by omega⟩
    rw [keep_range g l (t r + 1) d, g.ideal_write r l hr hw]
    · exact g.locality r _ _ _ l hr hw (fun x hx => view g hi hr hs x (Or.inr hx))
    · intro a ha hwa h1 h2
      have hne : a ≠ r := by intro e; subst e; omega
      have hd : st' a = .done := (h a ha hwa).mpr h2
      have hd' : s.st a = .done := by
        rcases (hst a ha l hwa).mp hd with h | h
        · exact h
        · exact absurd h hne
      rcases g.race a r l ha hr hne hwa (Or.inl hw) with ⟨h3, _⟩ | ⟨_, h4⟩
      · omega
      · have := waits_done g hi ha h4 (by rw [hd']; simp)
        rw [hs] at this
        simp at this
  · rw [g.frame r _ _ l hr hw]
    apply hi.mem
    intro a ha hwa
    rw [← h a ha hwa, hst a ha l hwa]
    constructor
    · exact Or.inl
    · rintro (h | rfl)
      · exact h
      · exact absurd hwa hw

theorem Inv.init (g : Good S t M0 B) : Inv S t B (start M0) := by
  refine ⟨?_, ?_, ?_, ?_, ?_, ?_⟩
  · intro a _ h; exact absurd rfl h
  · intro a _ _ _; rfl
  · intro a _ _ h; simp [start] at h
  · intro a pl _ _ h; simp [start] at h
  · intro a _ _; simp [start]
  · intro l τ h
    have : B (0 + τ) l = B 0 l := keep_range g l 0 τ (by
      intro a ha hw _ h2
      have := (h a ha hw).mpr (by omega)
      simp [start] at this)
    rw [Nat.zero_add] at this
    rw [this, g.init]
    rfl

theorem upd_self {C : Type} (f : A → C) (a : A) (x : C) : upd f a x a = x := by simp [upd]

theorem upd_ne {C : Type} (f : A → C) (a b : A) (x : C) (h : b ≠ a) : upd f a x b = f b := by simp [upd, h]

theorem peer_eq (g : Good S t M0 B) {a r : A} (ha : a ∈ S.all) (hk : S.kind a = .send) (hr : r ∈ S.all)
    (hkr : S.kind r = .recv) (hkey : S.key a = S.key r) : S.peer a = r := by
  obtain ⟨h1, h2, h3, _⟩ := g.send_peer a ha hk
  exact g.key_inj _ _ h1 hr h2 hkr (h3.symm.trans hkey)

theorem Inv.step (g : Good S t M0 B) {s s' : State A L V} (hi : Inv S t B s) (hs : Step S s s') :
    Inv S t B s' := by
  cases hs with
  | start a h hidle hd =>
    refine ⟨?_, ?_, ?_, hi.eager, ?_, ?_⟩
    · intro b hb hn c hc
      have hcd : s.st c = .done := by
        by_cases hba : b = a
        · subst hba; exact hd c hc
        · simp only [upd_ne _ _ _ _ hba] at hn
          exact hi.deps b hb hn c hc
      have hca : c ≠ a := by intro e; subst e; rw [hidle] at hcd; simp at hcd
      simp only [upd_ne _ _ _ _ hca]
      exact hcd
    · intro b hb hk hn
      by_cases hba : b = a
      · subst hba; simp [upd_self] at hn
      · simp only [upd_ne _ _ _ _ hba] at hn
        exact hi.unsent b hb hk hn
    · intro b hb hk hn
      by_cases hba : b = a
      · subst hba; simp [upd_self] at hn
      · simp only [upd_ne _ _ _ _ hba] at hn
        exact hi.sent b hb hk hn
    · intro b hb hk
      rw [hi.gone b hb hk]
      by_cases hba : S.peer b = a
      · simp [hba, upd_self, hidle]
      · simp [upd_ne _ _ _ _ hba]
    · intro l τ hw
      apply hi.mem
      intro b hb hwb
      rw [← hw b hb hwb]
      by_cases hba : b = a
      · subst hba; simp [upd_self, hidle]
      · simp [upd_ne _ _ _ _ hba]
  | postEager a h hk hact hun =>
    refine ⟨hi.deps, ?_, ?_, ?_, ?_, hi.mem⟩
    · intro b hb hkb hn
      by_cases hba : b = a
      · subst hba; simp only [hact] at hn; cases hn
      · simp only [upd_ne _ _ _ _ hba]
        exact hi.unsent b hb hkb hn
    · intro b hb hkb hn
      by_cases hba : b = a
      · subst hba; simp only [hact] at hn; cases hn
      · simp only [upd_ne _ _ _ _ hba]
        exact hi.sent b hb hkb hn
    · intro b pl hb hkb hn
      by_cases hba : b = a
      · subst hba
        simp only [upd_self, Net.eager.injEq] at hn
        rw [← hn]
        apply List.map_congr_left
        intro l hl
        exact view g hi hb hact l (Or.inr (g.reads_touch b l hk hl))
      · simp only [upd_ne _ _ _ _ hba] at hn
        exact hi.eager b pl hb hkb hn
    · intro b hb hkb
      by_cases hba : b = a
      · subst hba
        have := hi.gone b hb hkb
        rw [hun] at this
        simp only [upd_self, reduceCtorEq, false_iff]
        simpa using this
      · simp only [upd_ne _ _ _ _ hba]
        exact hi.gone b hb hkb
  | postRdvz a h hk hact hun =>
    refine ⟨hi.deps, ?_, ?_, ?_, ?_, hi.mem⟩
    · intro b hb hkb hn
      by_cases hba : b = a
      · subst hba; simp only [hact] at hn; cases hn
      · simp only [upd_ne _ _ _ _ hba]
        exact hi.unsent b hb hkb hn
    · intro b hb hkb hn
      by_cases hba : b = a
      · subst hba; simp only [hact] at hn; cases hn
      · simp only [upd_ne _ _ _ _ hba]
        exact hi.sent b hb hkb hn
    · intro b pl hb hkb hn
      by_cases hba : b = a
      · subst hba
        simp [upd_self] at hn
      · simp only [upd_ne _ _ _ _ hba] at hn
        exact hi.eager b pl hb hkb hn
    · intro b hb hkb
      by_cases hba : b = a
      · subst hba
        have := hi.gone b hb hkb
        rw [hun] at this
        simp only [upd_self, reduceCtorEq, false_iff]
        simpa using this
      · simp only [upd_ne _ _ _ _ hba]
        exact hi.gone b hb hkb
  | ack a h hk hact hn =>
    refine ⟨?_, ?_, ?_, hi.eager, ?_, ?_⟩
    · intro b hb hne c hc
      have hbi : s.st b ≠ .idle := by
        by_cases hba : b = a
        · subst hba; rw [hact]; simp
        · simpa only [upd_ne _ _ _ _ hba] using hne
      have hcd := hi.deps b hb hbi c hc
      by_cases hca : c = a
      · subst hca; simp [upd_self]
      · simp only [upd_ne _ _ _ _ hca]; exact hcd
    · intro b hb hkb hid
      by_cases hba : b = a
      · subst hba; simp [upd_self] at hid
      · simp only [upd_ne _ _ _ _ hba] at hid
        exact hi.unsent b hb hkb hid
    · intro b hb hkb hdn
      by_cases hba : b = a
      · subst hba
        rcases hn with ⟨pl, hn⟩ | hn <;> simp [hn]
      · simp only [upd_ne _ _ _ _ hba] at hdn
        exact hi.sent b hb hkb hdn
    · intro b hb hkb
      have hpa : S.peer b ≠ a := by
        intro e
        have := (g.send_peer b hb hkb).2.1
        rw [e, hk] at this
        simp at this
      simp only [upd_ne _ _ _ _ hpa]
      exact hi.gone b hb hkb
    · intro l τ hw
      apply hi.mem
      intro b hb hwb
      have hba : b ≠ a := by intro e; subst e; exact g.send_quiet b l hb hk hwb
      rw [← hw b hb hwb]
      simp only [upd_ne _ _ _ _ hba]
  | recvEager a r pl h hk hr hkr hact hn hkey =>
    have hpr := peer_eq g h hk hr hkr hkey
    have hra : r ≠ a := by intro e; subst e; rw [hk] at hkr; simp at hkr
    have hpl : pl = ideal S t B r := by
      rw [hi.eager a pl h hk hn]
      have := g.send_peer a h hk
      unfold ideal
      rw [if_pos hkr, ← hpr, this.2.2.2.2, this.2.2.2.1]
    refine ⟨?_, ?_, ?_, ?_, ?_, ?_⟩
    · intro b hb hne c hc
      have hbi : s.st b ≠ .idle := by
        by_cases hba : b = r
        · subst hba; rw [hact]; simp
        · simpa only [upd_ne _ _ _ _ hba] using hne
      have hcd := hi.deps b hb hbi c hc
      by_cases hca : c = r
      · subst hca; simp [upd_self]
      · simp only [upd_ne _ _ _ _ hca]; exact hcd
    · intro b hb hkb hid
      have hbr : b ≠ r := by intro e; subst e; rw [hkb] at hkr; simp at hkr
      simp only [upd_ne _ _ _ _ hbr] at hid
      have := hi.unsent b hb hkb hid
      have hba : b ≠ a := by intro e; subst e; rw [hn] at this; simp at this
      simp only [upd_ne _ _ _ _ hba]
      exact this
    · intro b hb hkb hdn
      have hbr : b ≠ r := by intro e; subst e; rw [hkb] at hkr; simp at hkr
      simp only [upd_ne _ _ _ _ hbr] at hdn
      by_cases hba : b = a
      · subst hba; simp [upd_self]
      · simp only [upd_ne _ _ _ _ hba]
        exact hi.sent b hb hkb hdn
    · intro b pl' hb hkb hnb
      by_cases hba : b = a
      · subst hba; simp [upd_self] at hnb
      · simp only [upd_ne _ _ _ _ hba] at hnb
        exact hi.eager b pl' hb hkb hnb
    · intro b hb hkb
      by_cases hba : b = a
      · subst hba; simp [upd_self, hpr]
      · have hpb : S.peer b ≠ r := by
          intro e
          apply hba
          have h1 := (g.send_peer b hb hkb).2.2.2.2
          have h2 := (g.send_peer a h hk).2.2.2.2
          rw [e] at h1
          rw [hpr] at h2
          exact h1.symm.trans h2
        simp only [upd_ne _ _ _ _ hba, upd_ne _ _ _ _ hpb]
        exact hi.gone b hb hkb
    · intro l τ hw
      simp only [hpl]
      refine mem_step g hi hr hact (upd s.st r .done) ?_ l τ hw
      intro b _ _ _
      by_cases hbr : b = r
      · subst hbr; simp [upd_self]
      · simp [upd_ne _ _ _ _ hbr, hbr]
  | recvRdvz a r h hk hr hkr hact hn hkey =>
    have hpr := peer_eq g h hk hr hkr hkey
    have hra : r ≠ a := by intro e; subst e; rw [hk] at hkr; simp at hkr
    have haact : s.st a = .active := by
      cases hc : s.st a with
      | idle => have := hi.unsent a h hk hc; rw [hn] at this; simp at this
      | active => rfl
      | done => exact absurd hn (hi.sent a h hk hc).2
    have hpl : (S.reads a).map s.mem = ideal S t B r := by
      have := g.send_peer a h hk
      unfold ideal
      rw [if_pos hkr, ← hpr, this.2.2.2.2, this.2.2.2.1]
      apply List.map_congr_left
      intro l hl
      exact view g hi h haact l (Or.inr (g.reads_touch a l hk hl))
    have hst : ∀ b, upd (upd s.st r .done) a .done b = .done ↔ (s.st b = .done ∨ b = r ∨ b = a) := by
      intro b
      by_cases hba : b = a
      · subst hba; simp [upd_self]
      · rw [upd_ne _ _ _ _ hba]
        by_cases hbr : b = r
        · subst hbr; simp [upd_self]
        · rw [upd_ne _ _ _ _ hbr]; simp [hba, hbr]
    refine ⟨?_, ?_, ?_, ?_, ?_, ?_⟩
    · intro b hb hne c hc
      have hbi : s.st b ≠ .idle := by
        by_cases hba : b = a
        · subst hba; rw [haact]; simp
        · simp only [upd_ne _ _ _ _ hba] at hne
          by_cases hbr : b = r
          · subst hbr; rw [hact]; simp
          · simpa only [upd_ne _ _ _ _ hbr] using hne
      exact (hst c).mpr (Or.inl (hi.deps b hb hbi c hc))
    · intro b hb hkb hid
      have hbr : b ≠ r := by intro e; subst e; rw [hkb] at hkr; simp at hkr
      have hba : b ≠ a := by intro e; subst e; simp [upd_self] at hid
      simp only [upd_ne _ _ _ _ hba, upd_ne _ _ _ _ hbr] at hid
      simp only [upd_ne _ _ _ _ hba]
      exact hi.unsent b hb hkb hid
    · intro b hb hkb hdn
      by_cases hba : b = a
      · subst hba; simp [upd_self]
      · have hbr : b ≠ r := by intro e; subst e; rw [hkb] at hkr; simp at hkr
        simp only [upd_ne _ _ _ _ hba, upd_ne _ _ _ _ hbr] at hdn
        simp only [upd_ne _ _ _ _ hba]
        exact hi.sent b hb hkb hdn
    · intro b pl' hb hkb hnb
      by_cases hba : b = a
      · subst hba; simp [upd_self] at hnb
      · simp only [upd_ne _ _ _ _ hba] at hnb
        exact hi.eager b pl' hb hkb hnb
    · intro b hb hkb
      by_cases hba : b = a
      · subst hba
        simp only [upd_self, true_iff]
        exact (hst _).mpr (Or.inr (Or.inl hpr))
      · have hpb : S.peer b ≠ r := by
          intro e
          apply hba
          have h1 := (g.send_peer b hb hkb).2.2.2.2
          have h2 := (g.send_peer a h hk).2.2.2.2
          rw [e] at h1
          rw [hpr] at h2
          exact h1.symm.trans h2
        have hpa : S.peer b ≠ a := by
          intro e
          have := (g.send_peer b hb hkb).2.1
          rw [e, hk] at this
          simp at this
        simp only [upd_ne _ _ _ _ hba, upd_ne _ _ _ _ hpb, upd_ne _ _ _ _ hpa]
        exact hi.gone b hb hkb
    · intro l τ hw
      simp only [hpl]
      refine mem_step g hi hr hact _ ?_ l τ hw
      intro b hb l' hwb
      have hba : b ≠ a := by intro e; subst e; exact g.send_quiet b l' hb hk hwb
      rw [hst b]
      simp [hba]
  | «local» a h hk hact =>
    have hpl : ([] : List V) = ideal S t B a := by
      unfold ideal
      rw [if_neg (by rw [hk]; simp)]
    refine ⟨?_, ?_, ?_, hi.eager, ?_, ?_⟩
    · intro b hb hne c hc
      have hbi : s.st b ≠ .idle := by
        by_cases hba : b = a
        · subst hba; rw [hact]; simp
        · simpa only [upd_ne _ _ _ _ hba] using hne
      have hcd := hi.deps b hb hbi c hc
      by_cases hca : c = a
      · subst hca; simp [upd_self]
      · simp only [upd_ne _ _ _ _ hca]; exact hcd
    · intro b hb hkb hid
      have hba : b ≠ a := by intro e; subst e; rw [hkb] at hk; simp at hk
      simp only [upd_ne _ _ _ _ hba] at hid
      exact hi.unsent b hb hkb hid
    · intro b hb hkb hdn
      have hba : b ≠ a := by intro e; subst e; rw [hkb] at hk; simp at hk
      simp only [upd_ne _ _ _ _ hba] at hdn
      exact hi.sent b hb hkb hdn
    · intro b hb hkb
      have hpa : S.peer b ≠ a := by
        intro e
        have := (g.send_peer b hb hkb).2.1
        rw [e, hk] at this
        simp at this
      simp only [upd_ne _ _ _ _ hpa]
      exact hi.gone b hb hkb
    · intro l τ hw
      simp only [hpl]
      refine mem_step g hi h hact (upd s.st a .done) ?_ l τ hw
      intro b _ _ _
      by_cases hba : b = a
      · subst hba; simp [upd_self]
      · simp [upd_ne _ _ _ _ hba, hba]

theorem Inv.reach (g : Good S t M0 B) {s : State A L V} (h : Reach S M0 s) : Inv S t B s := by
  induction h with
  | init => exact Inv.init g
  | step _ hs ih => exact ih.step g hs

/-- Whatever the schedule, the memory at the end is the ideal one. -/
theorem final_mem (g : Good S t M0 B) {s : State A L V} (h : Reach S M0 s) (hf : Finished S s)
    (T : Nat) (hT : ∀ a ∈ S.all, t a < T) : s.mem = B T := by
  funext l
  apply (Inv.reach g h).mem
  intro a ha _
  simp [hf a ha, hT a ha]

/-- No message is left over at the end. -/
theorem final_net (g : Good S t M0 B) {s : State A L V} (h : Reach S M0 s) (hf : Finished S s)
    (a : A) (ha : a ∈ S.all) (hk : S.kind a = .send) : s.net a = .gone :=
  ((Inv.reach g h).gone a ha hk).mpr (hf _ (g.send_peer a ha hk).1)

theorem exists_min (l : List A) (p : A → Prop) [DecidablePred p] (t : A → Nat) (h : ∃ a ∈ l, p a) :
    ∃ a ∈ l, p a ∧ ∀ b ∈ l, p b → t a ≤ t b := by
  induction l with
  | nil => obtain ⟨a, ha, _⟩ := h; simp at ha
  | cons x l ih =>
    by_cases hl : ∃ a ∈ l, p a
    · obtain ⟨a, ha, hp, hm⟩ := ih hl
      by_cases hx : p x ∧ t x < t a
      · refine ⟨x, by simp, hx.1, ?_⟩
        intro b hb hpb
        simp only [List.mem_cons] at hb
        rcases hb with rfl | hb
        · omega
        · have := hm b hb hpb; omega
      · refine ⟨a, by simp [ha], hp, ?_⟩
        intro b hb hpb
        simp only [List.mem_cons] at hb
        rcases hb with rfl | hb
        · have : ¬ t b < t a := fun h => hx ⟨hpb, h⟩
          omega
        · exact hm b hb hpb
    · obtain ⟨a, ha, hp⟩ := h
      simp only [List.mem_cons] at ha
      rcases ha with rfl | ha
      · refine ⟨a, by simp, hp, ?_⟩
        intro b hb hpb
        simp only [List.mem_cons] at hb
        rcases hb with rfl | hb
        · omega
        · exact absurd ⟨b, hb, hpb⟩ hl
      · exact absurd ⟨a, ha, hp⟩ hl

/-- No deadlock: as long as some action is not complete, some step is possible. -/
theorem progress (g : Good S t M0 B) {s : State A L V} (h : Reach S M0 s) (hf : ¬ Finished S s) :
    ∃ s', Step S s s' := by
  have hi := Inv.reach g h
  have hex : ∃ a ∈ S.all, s.st a ≠ .done := by
    refine Classical.byContradiction fun hc => hf ?_
    intro a ha
    refine Classical.byContradiction fun hn => hc ⟨a, ha, hn⟩
  obtain ⟨a, ha, hna, hmin⟩ := exists_min S.all (fun a => s.st a ≠ .done) t hex
  have hearly : ∀ b ∈ S.all, t b < t a → s.st b = .done := by
    intro b hb hlt
    refine Classical.byContradiction fun hn => ?_
    have := hmin b hb hn
    omega
  have hstart : ∀ b ∈ S.all, t b = t a → s.st b = .idle → ∃ s', Step S s s' := by
    intro b hb hbt hbi
    refine ⟨_, Step.start s b hb hbi ?_⟩
    intro c hc
    exact hearly c (g.dep_mem b c hb hc) (by have := g.dep_time b c hb hc; omega)
  cases hst : s.st a with
  | done => exact absurd hst hna
  | idle => exact hstart a ha rfl hst
  | active =>
    cases hk : S.kind a with
    | loc => exact ⟨_, Step.local s a ha hk hst⟩
    | send =>
      cases hn : s.net a with
      | unsent => exact ⟨_, Step.postEager s a ha hk hst hn⟩
      | eager pl => exact ⟨_, Step.ack s a ha hk hst (Or.inl ⟨pl, hn⟩)⟩
      | gone => exact ⟨_, Step.ack s a ha hk hst (Or.inr hn)⟩
      | rdvz =>
        obtain ⟨h1, h2, h3, h4, h5⟩ := g.send_peer a ha hk
        cases hp : s.st (S.peer a) with
        | idle => exact hstart _ h1 h4 hp
        | active => exact ⟨_, Step.recvRdvz s a (S.peer a) ha hk h1 h2 hp hn h3⟩
        | done =>
          have := (hi.gone a ha hk).mpr hp
          rw [hn] at this
          simp at this
    | recv =>
      obtain ⟨h1, h2, h3⟩ := g.recv_peer a ha hk
      obtain ⟨_, _, h6, h7, _⟩ := g.send_peer _ h1 h2
      rw [h3] at h6 h7
      cases hn : s.net (S.peer a) with
      | eager pl => exact ⟨_, Step.recvEager s (S.peer a) a pl h1 h2 ha hk hst hn h6⟩
      | rdvz => exact ⟨_, Step.recvRdvz s (S.peer a) a h1 h2 ha hk hst hn h6⟩
      | gone =>
        have := (hi.gone _ h1 h2).mp hn
        rw [h3, hst] at this
        simp at this
      | unsent =>
        cases hp : s.st (S.peer a) with
        | idle => exact hstart _ h1 h7.symm hp
        | active => exact ⟨_, Step.postEager s (S.peer a) h1 h2 hp hn⟩
        | done => exact absurd hn (hi.sent _ h1 h2 hp).1

/-- Work left for one action. -/
def left (s : State A L V) (a : A) : Nat :=
  (match s.st a with | .idle => 2 | .active => 1 | .done => 0) +
  (match s.net a with | .unsent => 1 | _ => 0)

/-- Work left. -/
def work (S : Sys A L V K) (s : State A L V) : Nat := (S.all.map (left s)).sum

theorem sum_le {l : List A} {f g : A → Nat} (h : ∀ a ∈ l, f a ≤ g a) : (l.map f).sum ≤ (l.map g).sum := by
  induction l with
  | nil => simp
  | cons x l ih =>
    simp only [List.map_cons, List.sum_cons]
    have := h x (by simp)
    have := ih (fun a ha => h a (by simp [ha]))
    omega

theorem sum_lt {l : List A} {f g : A → Nat} (h : ∀ a ∈ l, f a ≤ g a) (a : A) (ha : a ∈ l) (hlt : f a < g a) :
    (l.map f).sum < (l.map g).sum := by
  induction l with
  | nil => simp at ha
  | cons x l ih =>
    simp only [List.map_cons, List.sum_cons]
    have h1 := h x (by simp)
    have h2 := sum_le (l := l) (fun a ha => h a (by simp [ha]))
    simp only [List.mem_cons] at ha
    rcases ha with rfl | ha
    · omega
    · have := ih (fun a ha => h a (by simp [ha])) ha
      omega

/-- Every step reduces the work left, so every execution ends (at most three steps per
action). -/
theorem step_work {s s' : State A L V} (hs : Step S s s') : work S s' < work S s := by
  have hst : ∀ (f : A → Status) (x : A) (b : A),
      f x ≠ .idle → (match upd f x .done b with | .idle => 2 | .active => 1 | .done => 0) ≤
        (match f b with | .idle => 2 | .active => 1 | .done => 0) := by
    intro f x b hx
    by_cases hb : b = x
    · subst hb; simp [upd_self]
    · simp [upd_ne _ _ _ _ hb]
  cases hs with
  | start a h hidle hd =>
    refine sum_lt ?_ a h ?_
    · intro b _
      by_cases hb : b = a
      · subst hb; simp [left, upd_self, hidle]
      · simp [left, upd_ne _ _ _ _ hb]
    · simp [left, upd_self, hidle]
  | postEager a h hk hact hun =>
    refine sum_lt ?_ a h ?_
    · intro b _
      by_cases hb : b = a
      · subst hb; simp [left, upd_self, hun]
      · simp [left, upd_ne _ _ _ _ hb]
    · simp [left, upd_self, hun]
  | postRdvz a h hk hact hun =>
    refine sum_lt ?_ a h ?_
    · intro b _
      by_cases hb : b = a
      · subst hb; simp [left, upd_self, hun]
      · simp [left, upd_ne _ _ _ _ hb]
    · simp [left, upd_self, hun]
  | ack a h hk hact hn =>
    refine sum_lt ?_ a h ?_
    · intro b _
      by_cases hb : b = a
      · subst hb; simp [left, upd_self, hact]
      · simp [left, upd_ne _ _ _ _ hb]
    · simp [left, upd_self, hact]
  | recvEager a r pl h hk hr hkr hact hn hkey =>
    refine sum_lt ?_ r hr ?_
    · intro b _
      by_cases hb : b = r
      · subst hb
        by_cases hba : b = a
        · subst hba; rw [hk] at hkr; simp at hkr
        · simp [left, upd_self, upd_ne _ _ _ _ hba, hact]
      · by_cases hba : b = a
        · subst hba; simp [left, upd_self, upd_ne _ _ _ _ hb]
        · simp [left, upd_ne _ _ _ _ hb, upd_ne _ _ _ _ hba]
    · have hra : r ≠ a := by intro e; subst e; rw [hk] at hkr; simp at hkr
      simp [left, upd_self, upd_ne _ _ _ _ hra, hact]
  | recvRdvz a r h hk hr hkr hact hn hkey =>
    refine sum_lt ?_ r hr ?_
    · intro b _
      by_cases hba : b = a
      · subst hba; simp [left, upd_self]
      · by_cases hb : b = r
        · subst hb; simp [left, upd_self, upd_ne _ _ _ _ hba, hact]
        · simp [left, upd_ne _ _ _ _ hb, upd_ne _ _ _ _ hba]
    · have hra : r ≠ a := by intro e; subst e; rw [hk] at hkr; simp at hkr
      simp [left, upd_self, upd_ne _ _ _ _ hra, hact]
  | «local» a h hk hact =>
    refine sum_lt ?_ a h ?_
    · intro b _
      by_cases hb : b = a
      · subst hb; simp [left, upd_self, hact]
      · simp [left, upd_ne _ _ _ _ hb]
    · simp [left, upd_self, hact]

theorem yields (g : Good S t M0 B) (T : Nat) (hT : ∀ a ∈ S.all, t a < T) (Q : (L → V) → Prop)
    (hQ : Q (B T)) : Yields S M0 Q := by
  constructor
  · intro s hr hn
    have hf : Finished S s := by
      refine Classical.byContradiction fun hf => hn (progress g hr hf)
    refine ⟨hf, ?_, ?_⟩
    · intro a ha hk
      rw [final_net g hr hf a ha hk]
      trivial
    · rw [final_mem g hr hf T hT]
      exact hQ
  · rintro ⟨f, h0, hs⟩
    have : ∀ n, work S (f n) + n ≤ work S (f 0) := by
      intro n
      induction n with
      | zero => omega
      | succ n ih => have := step_work (hs n); omega
    have := this (work S (f 0) + 1)
    omega

/-- Some execution ends. -/
theorem exists_end (S : Sys A L V K) (M0 : L → V) :
    ∃ s, Reach S M0 s ∧ ¬ ∃ s', Step S s s' := by
  have hrun : ∀ k (s : State A L V), Reach S M0 s → work S s ≤ k →
      ∃ s', Reach S M0 s' ∧ ¬ ∃ s'', Step S s' s'' := by
    intro k
    induction k with
    | zero =>
      intro s hs hw
      refine ⟨s, hs, ?_⟩
      rintro ⟨s'', hst⟩
      have := step_work hst
      omega
    | succ k ih =>
      intro s hs hw
      by_cases hex : ∃ s'', Step S s s''
      · obtain ⟨s'', hst⟩ := hex
        exact ih s'' (hs.step hst) (by have := step_work hst; omega)
      · exact ⟨s, hs, hex⟩
  exact hrun _ _ Reach.init (Nat.le_refl _)

/-- Two guaranteed outcomes are compatible; used to refute claims. -/
theorem Yields.both {S : Sys A L V K} {M0 : L → V} {Q Q' : (L → V) → Prop} (h : Yields S M0 Q)
    (h' : Yields S M0 Q') : ∃ mem, Q mem ∧ Q' mem := by
  obtain ⟨s, hs, hn⟩ := exists_end S M0
  exact ⟨s.mem, (h.1 s hs hn).2.2, (h'.1 s hs hn).2.2⟩

end SST.Coll
