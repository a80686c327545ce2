import Verif.Coll.DagLemmas
/-!
Completion of a collective does not depend on the data: a system without race freedom still
ends if the same actions without memory do.
-/
set_option autoImplicit false
namespace SST.Coll

variable {A L V K : Type} [DecidableEq A]

/-- The same actions, messages and dependencies without data. -/
def Sys.ctl (S : Sys A L V K) : Sys A Unit Unit K where
  all := S.all
  kind := S.kind
  peer := S.peer
  key := S.key
  dep := S.dep
  reads := fun _ => []
  writes := fun _ _ => False
  touch := fun _ _ => False
  eff := fun _ _ M => M

/-- A message without its payload. -/
def Net.ctl : Net V → Net Unit
  | .unsent => .unsent
  | .eager _ => .eager []
  | .rdvz => .rdvz
  | .gone => .gone

/-- A state without data. -/
def State.ctl (s : State A L V) : State A Unit Unit := ⟨s.st, fun a => (s.net a).ctl, fun _ => ()⟩

theorem net_upd (f : A → Net V) (a : A) (x : Net V) :
    (fun b => (upd f a x b).ctl) = upd (fun b => (f b).ctl) a x.ctl := by
  funext b
  unfold upd
  split <;> rfl

theorem state_ext {s t : State A Unit Unit} (h1 : s.st = t.st) (h2 : s.net = t.net) : s = t := by
  cases s; cases t
  simp only at h1 h2
  subst h1; subst h2
  congr
  funext x
  rfl

theorem step_cast {S : Sys A Unit Unit K} {s u v : State A Unit Unit} (h : Step S s u) (h1 : v.st = u.st)
    (h2 : v.net = u.net) : Step S s v := by
  rw [state_ext h1 h2]
  exact h

theorem step_ctl {S : Sys A L V K} {s s' : State A L V} (h : Step S s s') : Step S.ctl s.ctl s'.ctl := by
  cases h with
  | start a h hi hd => exact Step.start (S := S.ctl) s.ctl a h hi hd
  | postEager a h hk hi hn =>
    have := Step.postEager (S := S.ctl) s.ctl a h hk hi (by show (s.net a).ctl = _; rw [hn]; rfl)
    exact step_cast this rfl (net_upd _ _ _)
  | postRdvz a h hk hi hn =>
    have := Step.postRdvz (S := S.ctl) s.ctl a h hk hi (by show (s.net a).ctl = _; rw [hn]; rfl)
    exact step_cast this rfl (net_upd _ _ _)
  | ack a h hk hi hn =>
    refine Step.ack (S := S.ctl) s.ctl a h hk hi ?_
    rcases hn with ⟨pl, hn⟩ | hn
    · exact Or.inl ⟨[], by show (s.net a).ctl = _; rw [hn]; rfl⟩
    · exact Or.inr (by show (s.net a).ctl = _; rw [hn]; rfl)
  | recvEager a r pl h hk hr hkr hi hn hkey =>
    have := Step.recvEager (S := S.ctl) s.ctl a r [] h hk hr hkr hi (by show (s.net a).ctl = _; rw [hn]; rfl) hkey
    exact step_cast this rfl (net_upd _ _ _)
  | recvRdvz a r h hk hr hkr hi hn hkey =>
    have := Step.recvRdvz (S := S.ctl) s.ctl a r h hk hr hkr hi (by show (s.net a).ctl = _; rw [hn]; rfl) hkey
    exact step_cast this rfl (net_upd _ _ _)
  | «local» a h hk hi => exact Step.local (S := S.ctl) s.ctl a h hk hi

theorem ctl_step {S : Sys A L V K} {s : State A L V} {u : State A Unit Unit} (h : Step S.ctl s.ctl u) :
    ∃ s', Step S s s' := by
  have un : ∀ a, (s.net a).ctl = .unsent → s.net a = .unsent := by
    intro a ha; cases hn : s.net a <;> rw [hn] at ha <;> first | rfl | cases ha
  have rd : ∀ a, (s.net a).ctl = .rdvz → s.net a = .rdvz := by
    intro a ha; cases hn : s.net a <;> rw [hn] at ha <;> first | rfl | cases ha
  have go : ∀ a, (s.net a).ctl = .gone → s.net a = .gone := by
    intro a ha; cases hn : s.net a <;> rw [hn] at ha <;> first | rfl | cases ha
  have ea : ∀ a pl, (s.net a).ctl = .eager pl → ∃ pl, s.net a = .eager pl := by
    intro a pl ha; cases hn : s.net a <;> rw [hn] at ha <;> first | exact ⟨_, rfl⟩ | cases ha
  cases h with
  | start a h hi hd => exact ⟨_, Step.start s a h hi hd⟩
  | postEager a h hk hi hn => exact ⟨_, Step.postEager s a h hk hi (un a hn)⟩
  | postRdvz a h hk hi hn => exact ⟨_, Step.postRdvz s a h hk hi (un a hn)⟩
  | ack a h hk hi hn =>
    refine ⟨_, Step.ack s a h hk hi ?_⟩
    rcases hn with ⟨pl, hn⟩ | hn
    · exact Or.inl (ea a pl hn)
    · exact Or.inr (go a hn)
  | recvEager a r pl h hk hr hkr hi hn hkey =>
    obtain ⟨pl', hn'⟩ := ea a pl hn
    exact ⟨_, Step.recvEager s a r pl' h hk hr hkr hi hn' hkey⟩
  | recvRdvz a r h hk hr hkr hi hn hkey => exact ⟨_, Step.recvRdvz s a r h hk hr hkr hi (rd a hn) hkey⟩
  | «local» a h hk hi => exact ⟨_, Step.local s a h hk hi⟩

theorem reach_ctl {S : Sys A L V K} {M0 : L → V} {s : State A L V} (h : Reach S M0 s) :
    Reach S.ctl (fun _ => ()) s.ctl := by
  induction h with
  | init => exact .init
  | step _ hs ih => exact ih.step (step_ctl hs)

/-- If the actions without data always complete, so do the actions with data. -/
theorem yields_ctl {S : Sys A L V K} {M0 : L → V} {Q : (L → V) → Prop}
    (hy : Yields S.ctl (fun _ => ()) (fun _ => True))
    (hq : ∀ s, Reach S M0 s → Finished S s → Q s.mem) : Yields S M0 Q := by
  refine ⟨?_, ?_⟩
  · intro s hr hn
    obtain ⟨h1, h2, _⟩ := hy.1 s.ctl (reach_ctl hr) (fun ⟨u, hu⟩ => hn (ctl_step hu))
    refine ⟨h1, ?_, hq s hr h1⟩
    intro a ha hk
    have := h2 a ha hk
    cases hh : s.net a <;> simp [State.ctl, hh, Net.ctl] at this ⊢
  · rintro ⟨f, h0, hf⟩
    exact hy.2 ⟨fun n => (f n).ctl, by show (f 0).ctl = _; rw [h0]; rfl, fun n => step_ctl (hf n)⟩

end SST.Coll
