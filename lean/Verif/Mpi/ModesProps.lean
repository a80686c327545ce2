import Verif.Mpi.Modes
import Verif.Mpi.XferProps
set_option autoImplicit false

/-!
# Theorems about the modes of sending
-/

namespace SST.Mpi.Xfer

/-! ### Specification -/

/-- A receive has been paired with the message: it has been completed or it is recorded for the message. -/
def Taken (s : St) (f : Nat) (m : Msg) : Prop := m.recvDone = 1 ∨ ∃ r, s.recvFlows f = some r

/-- Rank 0 sends to rank 1, message 0, and rank 1 to rank 0, message 1; each posts receives when its own send is complete, and sends nothing else. -/
inductive Crossed (soft : Bool) (mode : Mode) (vshort eager : Nat) (l0 l1 : List Nat) : St → Prop
  | start (mem : Mem) (s : St) (h : run soft (St.init mem) [sendIn mode vshort eager 0 0 1 l0 true l0.length, sendIn mode vshort eager 1 1 0 l1 true l1.length] = .ok s) :
      Crossed soft mode vshort eager l0 l1 s
  | step {s s' : St} (op : Op) (h : Crossed soft mode vshort eager l0 l1 s) (hs : step soft s op = .ok s')
      (hsend : ∀ f src dst prot locs contig count, op ≠ .send f src dst prot locs contig count)
      (hpost : ∀ rank locs contig psize, op = .post rank locs contig psize → ∃ m, s.msgs rank = some m ∧ m.src = rank ∧ 1 ≤ m.sendDone) :
      Crossed soft mode vshort eager l0 l1 s'

/-! ### Proofs -/

/-- Both messages wait. -/
def Waits (s : St) : Prop := s.posted = [] ∧ (∀ f, s.msgs f ≠ none → f = 0 ∨ f = 1) ∧
  ∀ f m, s.msgs f = some m → m.src = f ∧ m.prot = .rendezvous ∧ m.sendDone = 0 ∧ m.nicAck = false ∧ (m.phase = .out ∨ m.phase = .here)

theorem waits_step {soft : Bool} {s s' : St} (op : Op) (hw : Waits s) (hs : step soft s op = .ok s')
    (hsend : ∀ f src dst prot locs contig count, op ≠ .send f src dst prot locs contig count)
    (hpost : ∀ rank locs contig psize, op = .post rank locs contig psize → ∃ m, s.msgs rank = some m ∧ m.src = rank ∧ 1 ≤ m.sendDone) : Waits s' := by
  obtain ⟨hp, hf, hm⟩ := hw
  cases op with
  | send f src dst prot locs contig count => exact (hsend _ _ _ _ _ _ _ rfl).elim
  | post rank locs contig psize =>
    obtain ⟨m, h1, _, h3⟩ := hpost _ _ _ _ rfl
    have := (hm _ m h1).2.2.1
    omega
  | write p a v =>
    simp only [step] at hs
    cases hs
    exact ⟨hp, hf, hm⟩
  | arrive f =>
    simp only [step] at hs
    cases hmf : s.msgs f with
    | none => rw [hmf] at hs; cases hs; exact ⟨hp, hf, hm⟩
    | some m =>
      rw [hmf] at hs
      simp only at hs
      split at hs
      · cases hs
        refine ⟨hp, fun g hg => ?_, fun g m' hg => ?_⟩
        · by_cases e : g = f
          · subst e; exact hf g (by rw [hmf]; exact nofun)
          · simp only [set, if_neg e] at hg; exact hf g hg
        · by_cases e : g = f
          · subst e
            simp only [set, if_true] at hg
            cases hg
            have := hm g m hmf
            exact ⟨this.1, this.2.1, this.2.2.1, this.2.2.2.1, Or.inr rfl⟩
          · simp only [set, if_neg e] at hg; exact hm g m' hg
      · cases hs; exact ⟨hp, hf, hm⟩
  | pair f rid =>
    simp only [step, hp, List.find?_nil] at hs
    cases hmf : s.msgs f with
    | none => rw [hmf] at hs; cases hs; exact ⟨hp, hf, hm⟩
    | some m => rw [hmf] at hs; cases hs; exact ⟨hp, hf, hm⟩
  | fetch f =>
    simp only [step] at hs
    cases hmf : s.msgs f with
    | none => rw [hmf] at hs; cases hs; exact ⟨hp, hf, hm⟩
    | some m =>
      rw [hmf] at hs
      simp only [(hm f m hmf).2.1] at hs
      rw [if_neg (fun h => nomatch h.2)] at hs
      cases hs; exact ⟨hp, hf, hm⟩
  | nicGet f =>
    simp only [step] at hs
    cases hmf : s.msgs f with
    | none => rw [hmf] at hs; cases hs; exact ⟨hp, hf, hm⟩
    | some m =>
      rw [hmf] at hs
      rcases (hm f m hmf).2.2.2.2 with e | e <;> simp only [e] at hs <;> cases hs <;> exact ⟨hp, hf, hm⟩
  | nicGetLocal f =>
    simp only [step] at hs
    cases hmf : s.msgs f with
    | none => rw [hmf] at hs; cases hs; exact ⟨hp, hf, hm⟩
    | some m =>
      rw [hmf] at hs
      rcases (hm f m hmf).2.2.2.2 with e | e <;> simp only [e] at hs <;> cases hs <;> exact ⟨hp, hf, hm⟩
  | nicPay f =>
    simp only [step] at hs
    cases hmf : s.msgs f with
    | none => rw [hmf] at hs; cases hs; exact ⟨hp, hf, hm⟩
    | some m =>
      rw [hmf] at hs
      rcases (hm f m hmf).2.2.2.2 with e | e <;> simp only [e] at hs <;> cases hs <;> exact ⟨hp, hf, hm⟩
  | payload f =>
    simp only [step] at hs
    cases hmf : s.msgs f with
    | none => rw [hmf] at hs; cases hs; exact ⟨hp, hf, hm⟩
    | some m =>
      rw [hmf] at hs
      rcases (hm f m hmf).2.2.2.2 with e | e <;> simp only [e] at hs <;> cases hs <;> exact ⟨hp, hf, hm⟩
  | ack f =>
    simp only [step] at hs
    cases hmf : s.msgs f with
    | none => rw [hmf] at hs; cases hs; exact ⟨hp, hf, hm⟩
    | some m =>
      rw [hmf] at hs
      rcases (hm f m hmf).2.2.2.2 with e | e <;> simp only [e] at hs <;> rw [if_neg nofun] at hs <;> cases hs <;> exact ⟨hp, hf, hm⟩
  | nicAck f =>
    simp only [step] at hs
    cases hmf : s.msgs f with
    | none => rw [hmf] at hs; cases hs; exact ⟨hp, hf, hm⟩
    | some m =>
      rw [hmf] at hs
      simp only [(hm f m hmf).2.2.2.1] at hs
      rw [if_neg nofun] at hs
      cases hs; exact ⟨hp, hf, hm⟩

theorem prot_long (v e n : Nat) (h1 : v < n) (h2 : e < n) : protFor v e n = .rendezvous := by
  unfold protFor
  rw [if_neg (by omega), if_neg (by omega)]

/-! ### Theorems -/

/-- A synchronous send of more bytes than the limit for eager messages is complete only when a receive has taken the message, in all executions; `hp`: the message
is one of a synchronous send. -/
theorem C142_synchronous_partial (soft : Bool) (s : St) (hr : Reach soft s) (f : Nat) (m : Msg) (hm : s.msgs f = some m) (vshort eager : Nat)
    (hv : vshort < m.locs.length) (he : eager < m.locs.length) (hp : sendIn .synchronous vshort eager f m.src m.dst m.locs m.contig m.count = .send f m.src m.dst m.prot m.locs m.contig m.count)
    (hd : m.sendDone ≠ 0) : Taken s f m := by
  replace hp : m.prot = protFor vshort eager m.locs.length := by injection hp with _ _ _ h; exact h.symm
  have hok := hr.inv.msgs f m hm
  rw [prot_long _ _ _ hv he] at hp
  have := hok.phase
  unfold PhaseOk at this
  unfold Taken
  cases hph : m.phase with
  | out => rw [hph] at this; exact absurd (this.2.2 hp).1 hd
  | here => rw [hph] at this; exact absurd (this.2.2 hp).1 hd
  | fetch => rw [hph] at this; rw [hp] at this; exact nomatch this.1
  | fetched w => rw [hph] at this; rw [hp] at this; exact nomatch this.1
  | ready w => rw [hph] at this; rw [hp] at this; exact nomatch this.1
  | get r => rw [hph] at this; exact absurd this.2.2.2.1.1 hd
  | pay r w => rw [hph] at this; exact Or.inr ⟨r, this.2.2.2.2.1⟩
  | paid r => rw [hph] at this; exact Or.inr ⟨r, this.2.2.2.1.1⟩
  | ack => rw [hph] at this; exact absurd this.2.2.2.1.1 hd
  | gone => rw [hph] at this; exact Or.inl this.1

/-- A synchronous send of fewer bytes is complete at once, before any receive exists. -/
theorem C142_synchronous_refuted (soft : Bool) (mem : Mem) (vshort eager f src dst : Nat) (locs : List Nat) (contig : Bool) (count : Nat) (h : locs.length ≤ eager ∨ locs.length ≤ vshort) :
    ∃ s m, step soft (St.init mem) (sendIn .synchronous vshort eager f src dst locs contig count) = .ok s ∧ s.msgs f = some m ∧ m.sendDone = 1 ∧ ¬ Taken s f m ∧ s.posted = [] := by
  have hp : protFor vshort eager locs.length = .eager0 ∨ protFor vshort eager locs.length = .eager1 := by
    unfold protFor
    split
    · exact Or.inl rfl
    · rw [if_pos (by omega)]; exact Or.inr rfl
  refine ⟨_, _, rfl, if_pos rfl, ?_, ?_, rfl⟩
  · simp only [if_pos hp]
  · rintro (h1 | ⟨r, h1⟩)
    · simp only at h1; exact nomatch h1
    · simp only [St.init] at h1; exact nomatch h1

/-- A buffered send of fewer bytes than the limit is complete at once, in every state. -/
theorem C142_buffered_partial (soft : Bool) (s : St) (vshort eager f src dst : Nat) (locs : List Nat) (contig : Bool) (count : Nat) (h : locs.length ≤ eager ∨ locs.length ≤ vshort) :
    ∃ s' m, step soft s (sendIn .buffered vshort eager f src dst locs contig count) = .ok s' ∧ s'.msgs f = some m ∧ m.sendDone = 1 ∧ m.orig = load s.mem src locs := by
  have hp : protFor vshort eager locs.length = .eager0 ∨ protFor vshort eager locs.length = .eager1 := by
    unfold protFor
    split
    · exact Or.inl rfl
    · rw [if_pos (by omega)]; exact Or.inr rfl
  refine ⟨_, _, rfl, if_pos rfl, ?_, rfl⟩
  simp only [if_pos hp]

/-- Two ranks that send each other more bytes in buffered mode, then receive, never come to receive: neither send is ever complete and no receive is
ever posted, in any execution, however much buffer they attached.  MPI (3.1, section 3.6) requires both sends to complete. -/
theorem C142_buffered_refuted (soft : Bool) (vshort eager : Nat) (l0 l1 : List Nat) (h0 : vshort < l0.length ∧ eager < l0.length) (h1 : vshort < l1.length ∧ eager < l1.length) (s : St)
    (h : Crossed soft .buffered vshort eager l0 l1 s) : s.posted = [] ∧ ∀ f m, s.msgs f = some m → m.sendDone = 0 := by
  have hw : Waits s := by
    induction h with
    | start mem s h =>
      simp only [run, sendIn, step, prot_long _ _ _ h0.1 h0.2, prot_long _ _ _ h1.1 h1.2] at h
      cases h
      refine ⟨rfl, fun f hf => ?_, fun f m hm => ?_⟩
      · by_cases e1 : f = 1
        · exact Or.inr e1
        · by_cases e0 : f = 0
          · exact Or.inl e0
          · simp only [set, if_neg e1, if_neg e0, St.init] at hf
            exact absurd rfl hf
      · by_cases e1 : f = 1
        · subst e1
          simp only [set, if_true] at hm
          cases hm
          exact ⟨rfl, rfl, rfl, rfl, Or.inl rfl⟩
        · by_cases e0 : f = 0
          · subst e0
            simp only [set, if_neg e1, if_true] at hm
            cases hm
            exact ⟨rfl, rfl, rfl, rfl, Or.inl rfl⟩
          · simp only [set, if_neg e1, if_neg e0, St.init] at hm
            exact nomatch hm
    | step op _ hs hsend hpost ih => exact waits_step op ih hs hsend hpost
  exact ⟨hw.1, fun f m hm => (hw.2.2 f m hm).2.2.1⟩

/-- Such executions exist, and the messages are there. -/
example : ∃ s m, Crossed true .buffered 4 8 (List.range 9) (List.range 9) s ∧ s.msgs 0 = some m ∧ m.phase = .here := by
  refine ⟨_, _, .step (.arrive 0) (.start (fun _ _ => 0) _ rfl) rfl nofun nofun, rfl, rfl⟩

/-- The hypotheses of `C142_synchronous_partial` are met: after all steps of a long message the send is complete. -/
example : ∃ s m, Reach true s ∧ s.msgs 0 = some m ∧ m.sendDone = 1 ∧ m.prot = protFor 4 8 m.locs.length ∧ 8 < m.locs.length := by
  have h0 : Reach true (St.init fun _ _ => 0) := .init _
  have h1 := Reach.step (op := sendIn .synchronous 4 8 0 0 1 (List.range 9) true 9) h0 ⟨rfl, by decide, fun r hr => nomatch hr⟩ rfl
  have h2 := Reach.step (op := .post 1 (List.range 9) true 1) h1 (by
    refine ⟨by decide, ?_, ?_⟩
    · intro r hr; cases hr
    · intro f m hm hs
      by_cases e : f = 0
      · subst e; cases hm; cases hs
      · exact nomatch (show (none : Option Msg) = some m from (if_neg e).symm.trans hm)) rfl
  have h3 := Reach.step (op := .arrive 0) h2 trivial rfl
  have h4 := Reach.step (op := .pair 0 0) h3 (fun m r hm hr hi => by
    cases List.mem_singleton.mp hr
    cases hm
    exact ⟨by decide, nofun⟩) rfl
  have h5 := Reach.step (op := .nicGet 0) h4 trivial rfl
  have h6 := Reach.step (op := .nicPay 0) h5 trivial rfl
  have h7 := Reach.step (op := .payload 0) h6 trivial rfl
  have h8 := Reach.step (op := .ack 0) h7 trivial rfl
  exact ⟨_, _, h8, rfl, rfl, rfl, by decide⟩

end SST.Mpi.Xfer
