import Verif.Snappr.Port
/-
C54, C66 and C77 for a snappr output port with any arbitrator.
-/
set_option autoImplicit false
namespace SST.Snappr

variable {σ : Type}

/-- What a port needs of its arbitrator: `J s k` holds throughout, with `k` the number of packets it has. -/
structure Law (A : Arb σ) (J : σ → Nat → Prop) : Prop where
  ins : ∀ s k c p, J s k → J (A.insert s c p) (k + 1)
  cred : ∀ s k v n, J s k → J (A.addCredits s v n) k
  pop : ∀ s k c, J s k → A.empty s = false → ∃ s' p, A.pop s c = some (s', p) ∧ J s' (k - 1)
  some_ : ∀ s k, J s k → A.empty s = false → k ≠ 0

/-- When a packet has left the link. -/
def PCfg.finish (C : PCfg σ) (x : Sent) : Nat := x.start + x.pkt.bytes * C.byteDelay + C.flit

/-- What holds of a port between the parts of an event. -/
structure Core (C : PCfg σ) (J : σ → Nat → Prop) (s : Port σ) (t : Nat) (log : List Sent) : Prop where
  inv : J s.arb s.total
  apart : log.Pairwise fun a b => C.finish a ≤ b.start
  done : ∀ x ∈ log, C.finish x ≤ s.nextFree ∧ x.start ≤ t
  stallLe : s.stall ≤ t
  stallGe : s.stall ≠ 0 → s.nextFree ≤ s.stall
  time : s.active + s.idle + s.stalled + C.flit * log.length = s.nextFree

/-- What holds of a port between events. -/
structure Inv (C : PCfg σ) (J : σ → Nat → Prop) (s : Port σ) (t : Nat) (log : List Sent) : Prop extends Core C J s t log where
  busy : C.A.empty s.arb = false → s.sched.isSome
  sched : ∀ T, s.sched = some T → T = s.nextFree ∧ t ≤ T ∧ s.total ≠ 0

theorem account_time (s : Port σ) (now : Nat) (h : s.nextFree ≤ now) (h1 : s.stall ≤ now) (h2 : s.stall ≠ 0 → s.nextFree ≤ s.stall) :
    (s.account now).active = s.active ∧ (s.account now).idle + (s.account now).stalled + s.nextFree = s.idle + s.stalled + now ∧
    (s.account now).stall = 0 ∧ (s.account now).arb = s.arb ∧ (s.account now).total = s.total ∧ (s.account now).sched = s.sched := by
  unfold Port.account
  split
  · rename_i hs
    have := h2 hs
    refine ⟨rfl, ?_, rfl, rfl, rfl, rfl⟩
    simp only
    split <;> omega
  · rename_i hs
    have hs : s.stall = 0 := by omega
    split
    · refine ⟨rfl, ?_, hs, rfl, rfl, rfl⟩
      simp only
      omega
    · exact ⟨rfl, by omega, hs, rfl, rfl, rfl⟩

theorem send_ok {C : PCfg σ} {J : σ → Nat → Prop} (L : Law C.A J) {s : Port σ} {t : Nat} {log : List Sent}
    (h : Core C J s t log) (hsched : s.sched = none) (hfree : s.nextFree ≤ t) (p : Pkt) :
    ∃ s', C.send s p t = some (s', [⟨t, p⟩]) ∧ Inv C J s' t (log ++ [⟨t, p⟩]) := by
  obtain ⟨a1, a2, a3, a4, a5, a6⟩ := account_time s t hfree h.stallLe h.stallGe
  unfold PCfg.send
  rw [if_neg (by omega)]
  simp only
  let s1 : Port σ := { s.account t with active := (s.account t).active + p.bytes * C.byteDelay, nextFree := t + p.bytes * C.byteDelay + C.flit, arb := if C.fc then (s.account t).arb else C.A.addCredits (s.account t).arb p.vl p.bytes }
  have hJ : J s1.arb s1.total := by
    show J (if C.fc then (s.account t).arb else _) (s.account t).total
    rw [a5]
    split
    · rw [a4]; exact h.inv
    · rw [a4]; exact L.cred _ _ _ _ h.inv
  have hcore : ∀ o, Core C J { s1 with sched := o } t (log ++ [⟨t, p⟩]) := by
    intro o
    refine ⟨hJ, ?_, ?_, ?_, ?_, ?_⟩
    · rw [List.pairwise_append]
      refine ⟨h.apart, List.pairwise_singleton _ _, ?_⟩
      intro a ha b hb
      rw [List.mem_singleton] at hb
      rw [hb]
      exact Nat.le_trans (h.done a ha).1 hfree
    · intro x hx
      show C.finish x ≤ t + p.bytes * C.byteDelay + C.flit ∧ _
      rcases List.mem_append.mp hx with hx | hx
      · have := h.done x hx
        exact ⟨by omega, this.2⟩
      · rw [List.mem_singleton] at hx
        rw [hx]
        exact ⟨Nat.le_refl _, Nat.le_refl _⟩
    · show (s.account t).stall ≤ t
      rw [a3]; exact Nat.zero_le _
    · intro hc
      exact (hc a3).elim
    · show (s.account t).active + p.bytes * C.byteDelay + (s.account t).idle + (s.account t).stalled + C.flit * (log ++ [(⟨t, p⟩ : Sent)]).length =
        t + p.bytes * C.byteDelay + C.flit
      rw [List.length_append, List.length_singleton, Nat.mul_add, Nat.mul_one]
      have := h.time
      omega
  by_cases hem : C.A.empty s1.arb = true
  · refine ⟨s1, ?_, ?_⟩
    · exact if_pos hem
    · have hs1 : s1 = { s1 with sched := none } := by
        show s1 = { s1 with sched := none }
        have : s1.sched = none := a6.trans hsched
        cases hs : s1
        rw [hs] at this
        simp only at this
        rw [this]
      refine ⟨by rw [hs1]; exact hcore none, ?_, ?_⟩
      · intro hc; rw [hem] at hc; cases hc
      · intro T hT
        have hn : s1.sched = none := a6.trans hsched
        rw [hn] at hT
        cases hT
  · have hem' : C.A.empty s1.arb = false := by simpa using hem
    have htot : s1.total ≠ 0 := L.some_ _ _ hJ hem'
    refine ⟨{ s1 with sched := some s1.nextFree }, ?_, ?_⟩
    · refine (if_neg hem).trans ?_
      unfold PCfg.schedule
      rw [if_neg]
      · rfl
      · intro hc
        rcases hc with hc | hc
        · rw [show s1.sched = none from a6.trans hsched] at hc
          cases hc
        · exact htot hc
    · refine ⟨hcore _, fun _ => rfl, ?_⟩
      intro T hT
      cases hT
      exact ⟨rfl, by show t ≤ t + p.bytes * C.byteDelay + C.flit; omega, htot⟩

theorem arbitrate_ok {C : PCfg σ} {J : σ → Nat → Prop} (L : Law C.A J) {s : Port σ} {t : Nat} {log : List Sent}
    (h : Core C J s t log) (htot : s.total ≠ 0) (hfree : s.nextFree ≤ t) :
    ∃ s' out, C.arbitrate s t = some (s', out) ∧ Inv C J s' t (log ++ out) := by
  unfold PCfg.arbitrate
  rw [if_neg (by omega)]
  simp only
  by_cases hem : C.A.empty s.arb = true
  · rw [if_pos hem]
    refine ⟨_, [], rfl, ?_⟩
    rw [List.append_nil]
    split
    · refine ⟨⟨h.inv, h.apart, h.done, Nat.le_refl _, fun _ => hfree, h.time⟩, ?_, ?_⟩
      · intro hc; rw [hem] at hc; cases hc
      · intro T hT; cases hT
    · refine ⟨⟨h.inv, h.apart, h.done, h.stallLe, h.stallGe, h.time⟩, ?_, ?_⟩
      · intro hc; rw [hem] at hc; cases hc
      · intro T hT; cases hT
  · rw [if_neg hem]
    obtain ⟨a, p, h1, h2⟩ := L.pop s.arb s.total t h.inv (by simpa using hem)
    rw [h1]
    simp only
    obtain ⟨s', e1, e2⟩ := send_ok L (s := { s with sched := none, arb := a, total := s.total - 1 }) (t := t) (log := log)
      ⟨h2, h.apart, h.done, h.stallLe, h.stallGe, h.time⟩ rfl hfree p
    exact ⟨s', _, e1, e2⟩

theorem request_ok {C : PCfg σ} {J : σ → Nat → Prop} (L : Law C.A J) {s : Port σ} {t : Nat} {log : List Sent}
    (h : Core C J s t log) (htot : s.total ≠ 0) (hs : s.sched = none) :
    ∃ s' out, C.request s t = some (s', out) ∧ Inv C J s' t (log ++ out) := by
  unfold PCfg.request
  rw [if_neg (by rw [hs]; simp [htot])]
  by_cases hf : t < s.nextFree
  · rw [if_pos hf]
    unfold PCfg.schedule
    rw [if_neg (by rw [hs]; simp [htot])]
    refine ⟨_, _, rfl, ?_⟩
    rw [List.append_nil]
    refine ⟨⟨h.inv, h.apart, h.done, h.stallLe, h.stallGe, h.time⟩, fun _ => rfl, ?_⟩
    intro T hT
    cases hT
    exact ⟨rfl, Nat.le_of_lt hf, htot⟩
  · rw [if_neg hf]
    exact arbitrate_ok L h htot (by omega)

theorem Core.later {C : PCfg σ} {J : σ → Nat → Prop} {s : Port σ} {t t' : Nat} {log : List Sent} (h : Core C J s t log)
    (ht : t ≤ t') : Core C J s t' log :=
  ⟨h.inv, h.apart, fun x hx => ⟨(h.done x hx).1, Nat.le_trans (h.done x hx).2 ht⟩, Nat.le_trans h.stallLe ht, h.stallGe, h.time⟩

theorem step_ok {C : PCfg σ} {J : σ → Nat → Prop} (L : Law C.A J) {s : Port σ} {t : Nat} {log : List Sent}
    (h : Inv C J s t log) (e : PEv) (hc : s.CanHappen t e) :
    ∃ s' out, C.step s e = some (s', out) ∧ Inv C J s' e.time (log ++ out) := by
  obtain ⟨h1, h2, h3⟩ := hc
  have hl := h.toCore.later h1
  cases e with
  | arb t' =>
    have hs := h3 t' rfl
    obtain ⟨e1, _, e3⟩ := h.sched t' hs
    exact arbitrate_ok L hl e3 (by rw [← e1]; exact Nat.le_refl _)
  | pkt t' p =>
    have hcore : Core C J { s with arb := C.A.insert s.arb t' p, total := s.total + 1 } t' log :=
      ⟨L.ins _ _ _ _ h.inv, hl.apart, hl.done, hl.stallLe, hl.stallGe, hl.time⟩
    simp only [PCfg.step]
    cases hs : s.sched with
    | some T =>
      refine ⟨_, [], rfl, ?_⟩
      rw [List.append_nil]
      obtain ⟨e1, _, _⟩ := h.sched T hs
      refine ⟨?_, fun _ => rfl, ?_⟩
      · exact ⟨hcore.inv, hcore.apart, hcore.done, hcore.stallLe, hcore.stallGe, hcore.time⟩
      · intro T' hT'
        cases hT'
        exact ⟨e1, h2 T hs, Nat.succ_ne_zero _⟩
    | none =>
      refine request_ok L (s := { s with arb := C.A.insert s.arb t' p, total := s.total + 1, sched := none }) ?_ (Nat.succ_ne_zero _) rfl
      exact ⟨hcore.inv, hcore.apart, hcore.done, hcore.stallLe, hcore.stallGe, hcore.time⟩
  | credit t' v n =>
    have hcore : Core C J { s with arb := C.A.addCredits s.arb v n } t' log :=
      ⟨L.cred _ _ _ _ h.inv, hl.apart, hl.done, hl.stallLe, hl.stallGe, hl.time⟩
    simp only [PCfg.step]
    cases hs : s.sched with
    | some T =>
      obtain ⟨e1, _, e3⟩ := h.sched T hs
      refine ⟨_, [], if_pos (Or.inl rfl), ?_⟩
      rw [List.append_nil]
      refine ⟨?_, fun _ => rfl, ?_⟩
      · exact ⟨hcore.inv, hcore.apart, hcore.done, hcore.stallLe, hcore.stallGe, hcore.time⟩
      · intro T' hT'
        cases hT'
        exact ⟨e1, h2 T hs, e3⟩
    | none =>
      by_cases ht : s.total = 0
      · refine ⟨_, [], if_pos (Or.inr ht), ?_⟩
        rw [List.append_nil]
        refine ⟨⟨hcore.inv, hcore.apart, hcore.done, hcore.stallLe, hcore.stallGe, hcore.time⟩, ?_, ?_⟩
        · intro hem
          exact (L.some_ _ _ hcore.inv hem ht).elim
        · intro T' hT'
          cases hT'
      · rw [if_neg (by simp [ht])]
        refine request_ok L (s := { s with arb := C.A.addCredits s.arb v n, sched := none }) ?_ ht rfl
        exact ⟨hcore.inv, hcore.apart, hcore.done, hcore.stallLe, hcore.stallGe, hcore.time⟩

theorem reach_inv {C : PCfg σ} {J : σ → Nat → Prop} (L : Law C.A J) {a0 : σ} (h0 : J a0 0)
    {s : Port σ} {t : Nat} {log : List Sent} (h : C.Reach a0 s t log) : Inv C J s t log := by
  induction h with
  | init =>
    refine ⟨⟨h0, List.Pairwise.nil, (fun x hx => by cases hx), Nat.le_refl _, fun h => (h rfl).elim, rfl⟩, ?_, ?_⟩
    · intro he
      exact (L.some_ _ _ h0 he rfl).elim
    · intro T hT; cases hT
  | next _ hc hs ih =>
    obtain ⟨s', out, e1, e2⟩ := step_ok L ih _ hc
    rw [hs] at e1
    obtain ⟨rfl, rfl⟩ := Prod.mk.inj (Option.some.inj e1)
    exact e2

/-! ### The first come first served arbitrator -/

/-- Bytes of the packets of lane `v`. -/
def bytesOn (v : Nat) (l : List Pkt) : Nat := (l.map fun p => if p.vl = v then p.bytes else 0).sum

theorem drain_spec (c : Nat) (l : List Pkt) : (drain c l).2.2 ++ (drain c l).2.1 = l ∧
    (drain c l).1 + ((drain c l).2.2.map Pkt.bytes).sum = c ∧ (∀ p ps, (drain c l).2.1 = p :: ps → (drain c l).1 < p.bytes) := by
  fun_induction drain c l with
  | case1 c => exact ⟨rfl, rfl, by intro p ps h; cases h⟩
  | case2 c p ps h r ih =>
    obtain ⟨h1, h2, h3⟩ := ih
    refine ⟨by rw [List.cons_append]; congr 1, ?_, h3⟩
    show r.1 + ((p :: r.2.2).map Pkt.bytes).sum = c
    have h2 : r.1 + (r.2.2.map Pkt.bytes).sum = c - p.bytes := h2
    rw [List.map_cons, List.sum_cons]
    omega
  | case3 c p ps h =>
    refine ⟨rfl, by simp, ?_⟩
    intro q qs he
    cases he
    simp only
    omega

theorem setAt_same {α : Type} (f : Nat → α) (i : Nat) (a : α) : setAt f i a i = a := if_pos rfl

theorem setAt_other {α : Type} (f : Nat → α) (i j : Nat) (a : α) (h : j ≠ i) : setAt f i a j = f j := if_neg h

theorem fifo_insert_wait {s : Fifo} (h : ∀ v p ps, (s.lanes v).pending = p :: ps → (s.lanes v).credits < p.bytes) (p : Pkt) :
    ∀ v q qs, ((s.insert p).lanes v).pending = q :: qs → ((s.insert p).lanes v).credits < q.bytes := by
  intro v q qs
  unfold Fifo.insert
  simp only
  split
  · rename_i hf
    by_cases hv : v = p.vl
    · subst hv
      simp only [setAt_same]
      intro he
      have := h _ _ _ he
      omega
    · simp only [setAt_other _ _ _ _ hv]
      exact h v q qs
  · rename_i hf
    by_cases hv : v = p.vl
    · subst hv
      simp only [setAt_same]
      intro he
      cases hc : (s.lanes p.vl).pending with
      | nil =>
        rw [hc] at he
        cases he
        omega
      | cons x xs =>
        rw [hc] at he
        cases he
        exact h _ _ _ hc
    · simp only [setAt_other _ _ _ _ hv]
      exact h v q qs

theorem fifo_credit_wait {s : Fifo} (h : ∀ v p ps, (s.lanes v).pending = p :: ps → (s.lanes v).credits < p.bytes) (vl n : Nat) :
    ∀ v q qs, ((s.addCredits vl n).lanes v).pending = q :: qs → ((s.addCredits vl n).lanes v).credits < q.bytes := by
  intro v q qs
  unfold Fifo.addCredits
  simp only
  by_cases hv : v = vl
  · subst hv
    simp only [setAt_same]
    exact (drain_spec _ _).2.2 q qs
  · simp only [setAt_other _ _ _ _ hv]
    exact h v q qs

/-- What can happen to an arbitrator. -/
inductive AEv
  | insert (cycle : Nat) (p : Pkt)
  | credit (vl n : Nat)
  | pop (cycle : Nat)
deriving DecidableEq, Repr

/-- One operation on an arbitrator; `pop` only when it is not empty (as `arbitrate` does). The packet
popped, if any. -/
def Arb.step (A : Arb σ) (s : σ) : AEv → σ × List Pkt
  | .insert c p => (A.insert s c p, [])
  | .credit v n => (A.addCredits s v n, [])
  | .pop c => if A.empty s then (s, []) else match A.pop s c with | none => (s, []) | some (s', p) => (s', [p])

/-- Any history of operations; the packets popped, in order. -/
def Arb.run (A : Arb σ) (s : σ) : List AEv → σ × List Pkt
  | [] => (s, [])
  | e :: es =>
    let r := A.step s e
    let t := A.run r.1 es
    (t.1, r.2 ++ t.2)

/-- The packets of a history that go to lane `v`. -/
def given (v : Nat) (evs : List AEv) : List Pkt := evs.filterMap fun | .insert _ p => if p.vl = v then some p else none | _ => none

/-- The credits of a history for lane `v`. -/
def returned (v : Nat) (evs : List AEv) : Nat := (evs.map fun | .credit v' n => if v' = v then n else 0 | _ => 0).sum

/-- Packets of lane `v`. -/
def onLane (v : Nat) (l : List Pkt) : List Pkt := l.filter (·.vl == v)

theorem arb_run_append (A : Arb σ) (a b : List AEv) (s : σ) :
    A.run s (a ++ b) = ((A.run (A.run s a).1 b).1, (A.run s a).2 ++ (A.run (A.run s a).1 b).2) := by
  induction a generalizing s with
  | nil => rfl
  | cons e a ih => simp only [List.cons_append, Arb.run]; rw [ih, List.append_assoc]

theorem fifo_step_wait {s : Fifo} (h : ∀ v p ps, (s.lanes v).pending = p :: ps → (s.lanes v).credits < p.bytes) (e : AEv) :
    ∀ v q qs, ((fifo.step s e).1.lanes v).pending = q :: qs → ((fifo.step s e).1.lanes v).credits < q.bytes := by
  cases e with
  | insert c p => exact fifo_insert_wait h p
  | credit v n => exact fifo_credit_wait h v n
  | pop c =>
    obtain ⟨lanes, queue⟩ := s
    cases queue with
    | nil => exact h
    | cons p q => exact h

/-- **C66** (snappr, first come first served). In every history the packet at the head of a lane that
waits for credits does not have enough. -/
theorem C66_snappr_fifo (credits : Nat → Nat) (evs : List AEv) (v : Nat) (p : Pkt) (ps : List Pkt)
    (h : ((fifo.run (fifo0 credits) evs).1.lanes v).pending = p :: ps) : ((fifo.run (fifo0 credits) evs).1.lanes v).credits < p.bytes := by
  have gen : ∀ (evs : List AEv) (s : Fifo), (∀ v p ps, (s.lanes v).pending = p :: ps → (s.lanes v).credits < p.bytes) →
      ∀ v p ps, ((fifo.run s evs).1.lanes v).pending = p :: ps → ((fifo.run s evs).1.lanes v).credits < p.bytes := by
    intro evs
    induction evs with
    | nil => intro s h; exact h
    | cons e es ih => intro s h; exact ih _ (fifo_step_wait h e)
  exact gen evs (fifo0 credits) (by intro v p ps h; cases h) v p ps h

theorem bytesOn_append (v : Nat) (a b : List Pkt) : bytesOn v (a ++ b) = bytesOn v a + bytesOn v b := by
  unfold bytesOn; rw [List.map_append, List.sum_append_nat]

theorem bytesOn_lane {v : Nat} {l : List Pkt} (h : ∀ p ∈ l, p.vl = v) (w : Nat) :
    bytesOn w l = if w = v then (l.map Pkt.bytes).sum else 0 := by
  induction l with
  | nil => unfold bytesOn; simp
  | cons p l ih =>
    have e := ih (fun q hq => h q (List.mem_cons_of_mem _ hq))
    have hp := h p (List.mem_cons_self ..)
    have hc : bytesOn w (p :: l) = (if p.vl = w then p.bytes else 0) + bytesOn w l := by unfold bytesOn; rw [List.map_cons, List.sum_cons]
    rw [hc, e, hp, List.map_cons, List.sum_cons]
    by_cases hw : w = v
    · rw [if_pos hw, if_pos hw, if_pos hw.symm]
    · rw [if_neg hw, if_neg hw, if_neg (Ne.symm hw)]

theorem fifo_step_credit {s : Fifo} (hl : ∀ v, ∀ p ∈ (s.lanes v).pending, p.vl = v) (e : AEv) (v : Nat) :
    ((fifo.step s e).1.lanes v).credits + bytesOn v (fifo.step s e).1.queue + bytesOn v (fifo.step s e).2 =
      (s.lanes v).credits + bytesOn v s.queue + returned v [e] := by
  have hn : bytesOn v [] = 0 := rfl
  cases e with
  | insert c p =>
    show ((s.insert p).lanes v).credits + bytesOn v (s.insert p).queue + bytesOn v [] = _ + 0
    unfold Fifo.insert
    simp only
    split
    · rename_i hf
      simp only
      rw [bytesOn_append]
      have h1 : bytesOn v [p] = if p.vl = v then p.bytes else 0 := by simp [bytesOn]
      rw [h1]
      by_cases hv : v = p.vl
      · subst hv; rw [setAt_same, if_pos rfl]; simp only; omega
      · rw [setAt_other _ _ _ _ hv, if_neg (Ne.symm hv)]; omega
    · simp only
      by_cases hv : v = p.vl
      · subst hv; rw [setAt_same]; simp only; omega
      · rw [setAt_other _ _ _ _ hv]
        omega
  | credit w n =>
    show ((s.addCredits w n).lanes v).credits + bytesOn v (s.addCredits w n).queue + bytesOn v [] = _ + returned v [AEv.credit w n]
    have hr : returned v [AEv.credit w n] = if w = v then n else 0 := by simp [returned]
    unfold Fifo.addCredits
    simp only
    obtain ⟨d1, d2, _⟩ := drain_spec ((s.lanes w).credits + n) (s.lanes w).pending
    have hd : ∀ p ∈ (drain ((s.lanes w).credits + n) (s.lanes w).pending).2.2, p.vl = w := by
      intro p hp
      apply hl w p
      rw [← d1]
      exact List.mem_append_left _ hp
    rw [bytesOn_append, bytesOn_lane hd, hr]
    by_cases hv : v = w
    · subst hv; rw [setAt_same, if_pos rfl, if_pos rfl]; simp only; omega
    · rw [setAt_other _ _ _ _ hv, if_neg hv, if_neg (Ne.symm hv)]; omega
  | pop c =>
    obtain ⟨lanes, queue⟩ := s
    cases queue with
    | nil => show _ + _ + bytesOn v [] = _ + 0; rfl
    | cons p q =>
      show (lanes v).credits + bytesOn v q + bytesOn v [p] = (lanes v).credits + bytesOn v (p :: q) + 0
      have : bytesOn v (p :: q) = bytesOn v [p] + bytesOn v q := bytesOn_append v [p] q
      omega

theorem fifo_step_lane {s : Fifo} (hl : ∀ v, ∀ p ∈ (s.lanes v).pending, p.vl = v) (e : AEv) :
    ∀ v, ∀ p ∈ ((fifo.step s e).1.lanes v).pending, p.vl = v := by
  cases e with
  | insert c q =>
    intro v p hp
    change p ∈ ((s.insert q).lanes v).pending at hp
    unfold Fifo.insert at hp
    simp only at hp
    split at hp
    · simp only at hp
      by_cases hv : v = q.vl
      · subst hv
        rw [setAt_same] at hp
        exact hl _ p hp
      · rw [setAt_other _ _ _ _ hv] at hp
        exact hl _ p hp
    · simp only at hp
      by_cases hv : v = q.vl
      · subst hv
        rw [setAt_same] at hp
        rcases List.mem_append.mp hp with h | h
        · exact hl _ p h
        · rw [List.mem_singleton] at h; rw [h]
      · rw [setAt_other _ _ _ _ hv] at hp
        exact hl _ p hp
  | credit w n =>
    intro v p hp
    change p ∈ ((s.addCredits w n).lanes v).pending at hp
    unfold Fifo.addCredits at hp
    simp only at hp
    by_cases hv : v = w
    · subst hv
      rw [setAt_same] at hp
      apply hl v p
      rw [← (drain_spec ((s.lanes v).credits + n) (s.lanes v).pending).1]
      exact List.mem_append_right _ hp
    · rw [setAt_other _ _ _ _ hv] at hp
      exact hl _ p hp
  | pop c =>
    obtain ⟨lanes, queue⟩ := s
    cases queue with
    | nil => exact hl
    | cons p q => exact hl

/-- **C50** (snappr, one port, first come first served). In every history the credits of a lane plus the
bytes of its packets that have been let through are the initial credits plus those that came back: no
packet is let through without credits, and none are lost or made up. -/
theorem C50_snappr_fifo (credits : Nat → Nat) (evs : List AEv) (v : Nat) :
    ((fifo.run (fifo0 credits) evs).1.lanes v).credits + bytesOn v (fifo.run (fifo0 credits) evs).1.queue +
      bytesOn v (fifo.run (fifo0 credits) evs).2 = credits v + returned v evs := by
  have gen : ∀ (evs : List AEv) (s : Fifo), (∀ v, ∀ p ∈ (s.lanes v).pending, p.vl = v) →
      ((fifo.run s evs).1.lanes v).credits + bytesOn v (fifo.run s evs).1.queue + bytesOn v (fifo.run s evs).2 =
        (s.lanes v).credits + bytesOn v s.queue + returned v evs := by
    intro evs
    induction evs with
    | nil => intro s _; show _ + _ + 0 = _ + _ + 0; rfl
    | cons e es ih =>
      intro s hl
      have h1 := fifo_step_credit hl e v
      have h2 := ih _ (fifo_step_lane hl e)
      have h3 : returned v (e :: es) = returned v [e] + returned v es := by
        show returned v ([e] ++ es) = _
        unfold returned; rw [List.map_append, List.sum_append_nat]
      simp only [Arb.run]
      rw [bytesOn_append, h3]
      omega
  have := gen evs (fifo0 credits) (by intro v p hp; cases hp)
  refine this.trans ?_
  show credits v + 0 + _ = _
  omega

/-- **C51** (snappr, first come first served, refuted). A later, smaller packet of the same lane
overtakes one that waits for credits. -/
theorem C51_snappr_fifo_refuted : ∃ (credits : Nat → Nat) (evs : List AEv),
    onLane 0 (fifo.run (fifo0 credits) evs).2 = [⟨2, 50, 0⟩] ∧ given 0 evs = [⟨1, 100, 0⟩, ⟨2, 50, 0⟩] :=
  ⟨fun _ => 60, [.insert 0 ⟨1, 100, 0⟩, .insert 0 ⟨2, 50, 0⟩, .pop 0], by decide, by decide⟩

/-- Every operation of a history gives lane `v` only packets of `b` bytes. -/
def SameSize (v b : Nat) (evs : List AEv) : Prop := ∀ p ∈ given v evs, p.bytes = b

/-- **C51** (snappr, first come first served, partial). If the packets of a lane all have the same size,
they leave in the order they came: those that have left, those ready to leave and those waiting for
credits are, in this order, those that came. -/
theorem C51_snappr_fifo_partial (credits : Nat → Nat) (evs : List AEv) (v b : Nat) (hb : SameSize v b evs) :
    onLane v (fifo.run (fifo0 credits) evs).2 ++ onLane v (fifo.run (fifo0 credits) evs).1.queue ++
      ((fifo.run (fifo0 credits) evs).1.lanes v).pending = given v evs := by
  have gen : ∀ (evs : List AEv) (s : Fifo), SameSize v b evs → (∀ w, ∀ p ∈ (s.lanes w).pending, p.vl = w) →
      (∀ p ∈ (s.lanes v).pending, p.bytes = b) →
      (∀ v p ps, (s.lanes v).pending = p :: ps → (s.lanes v).credits < p.bytes) →
      onLane v (fifo.run s evs).2 ++ onLane v (fifo.run s evs).1.queue ++ ((fifo.run s evs).1.lanes v).pending =
        onLane v s.queue ++ (s.lanes v).pending ++ given v evs := by
    intro evs
    induction evs with
    | nil => intro s _ _ _ _; simp [Arb.run, onLane, given]
    | cons e es ih =>
      intro s hs hl hp hw
      have hg : given v (e :: es) = given v [e] ++ given v es := by
        show given v ([e] ++ es) = _
        unfold given; rw [List.filterMap_append]
      have hsz : SameSize v b es := by
        intro p hp; exact hs p (by rw [hg]; exact List.mem_append_right _ hp)
      have hs1 : SameSize v b [e] := by
        intro p hp; exact hs p (by rw [hg]; exact List.mem_append_left _ hp)
      have key : onLane v (fifo.step s e).2 ++ onLane v (fifo.step s e).1.queue ++ ((fifo.step s e).1.lanes v).pending =
          onLane v s.queue ++ (s.lanes v).pending ++ given v [e] ∧ ∀ p ∈ ((fifo.step s e).1.lanes v).pending, p.bytes = b := by
        cases e with
        | insert c p =>
          show onLane v [] ++ onLane v (s.insert p).queue ++ ((s.insert p).lanes v).pending = _ ∧
            ∀ q ∈ ((s.insert p).lanes v).pending, q.bytes = b
          by_cases hv : p.vl = v
          · have hgp : given v [.insert c p] = [p] := by simp [given, hv]
            have hpb : p.bytes = b := hs1 p (by rw [hgp]; exact List.mem_singleton_self _)
            rw [hgp]
            unfold Fifo.insert
            simp only
            split
            · rename_i hf
              have hnil : (s.lanes v).pending = [] := by
                cases hc : (s.lanes v).pending with
                | nil => rfl
                | cons x xs =>
                  have h1 := hw v x xs hc
                  have h2 := hp x (by rw [hc]; exact List.mem_cons_self ..)
                  rw [hv] at hf
                  omega
              simp only
              rw [hv, setAt_same]
              simp only
              rw [hnil]
              refine ⟨?_, by intro q hq; cases hq⟩
              simp [onLane, hv]
            · simp only
              rw [hv, setAt_same]
              simp only
              refine ⟨by simp [onLane], ?_⟩
              intro q hq
              rcases List.mem_append.mp hq with h | h
              · exact hp q h
              · rw [List.mem_singleton] at h; rw [h]; exact hpb
          · have hgp : given v [.insert c p] = [] := by simp [given, hv]
            rw [hgp]
            unfold Fifo.insert
            simp only
            split
            · simp only
              rw [setAt_other _ _ _ _ (Ne.symm hv)]
              exact ⟨by simp [onLane, hv], hp⟩
            · simp only
              rw [setAt_other _ _ _ _ (Ne.symm hv)]
              exact ⟨by simp [onLane], hp⟩
        | credit w n =>
          show onLane v [] ++ onLane v (s.addCredits w n).queue ++ ((s.addCredits w n).lanes v).pending = _ ++ _ ++ [] ∧
            ∀ q ∈ ((s.addCredits w n).lanes v).pending, q.bytes = b
          unfold Fifo.addCredits
          simp only
          obtain ⟨d1, _, _⟩ := drain_spec ((s.lanes w).credits + n) (s.lanes w).pending
          generalize hD : drain ((s.lanes w).credits + n) (s.lanes w).pending = D at *
          have hd : ∀ p ∈ D.2.2, p.vl = w := fun p hp => hl w p (by rw [← d1]; exact List.mem_append_left _ hp)
          by_cases hv : v = w
          · subst hv
            rw [setAt_same]
            simp only
            have hf : onLane v D.2.2 = D.2.2 := by
              unfold onLane
              rw [List.filter_eq_self]
              intro p hp
              simp [hd p hp]
            have hq : onLane v (s.queue ++ D.2.2) = onLane v s.queue ++ D.2.2 := by
              rw [← hf]; unfold onLane; rw [List.filter_append, List.filter_filter]; simp
            rw [hq, ← d1]
            refine ⟨by simp [onLane], ?_⟩
            intro q hq
            exact hp q (by rw [← d1]; exact List.mem_append_right _ hq)
          · rw [setAt_other _ _ _ _ hv]
            have hf : onLane v D.2.2 = [] := by
              unfold onLane
              rw [List.filter_eq_nil_iff]
              intro p hp
              simp [hd p hp, Ne.symm hv]
            have hq : onLane v (s.queue ++ D.2.2) = onLane v s.queue := by
              have : onLane v (s.queue ++ D.2.2) = onLane v s.queue ++ onLane v D.2.2 := by unfold onLane; rw [List.filter_append]
              rw [this, hf, List.append_nil]
            rw [hq]
            exact ⟨by simp [onLane], hp⟩
        | pop c =>
          obtain ⟨lanes, queue⟩ := s
          cases queue with
          | nil => exact ⟨by simp [onLane, given, Arb.step, fifo], hp⟩
          | cons p q =>
            refine ⟨?_, hp⟩
            show onLane v [p] ++ onLane v q ++ (lanes v).pending = onLane v (p :: q) ++ (lanes v).pending ++ []
            have : onLane v (p :: q) = onLane v [p] ++ onLane v q := by
              show onLane v ([p] ++ q) = _
              unfold onLane; rw [List.filter_append]
            rw [this, List.append_nil]
      have h2 := ih _ hsz (fifo_step_lane hl e) key.2 (fifo_step_wait hw e)
      simp only [Arb.run]
      have h3 : onLane v ((fifo.step s e).2 ++ (fifo.run (fifo.step s e).1 es).2) =
          onLane v (fifo.step s e).2 ++ onLane v (fifo.run (fifo.step s e).1 es).2 := by unfold onLane; rw [List.filter_append]
      rw [h3, hg, List.append_assoc, List.append_assoc, ← List.append_assoc (onLane v (fifo.run _ es).2), h2, ← List.append_assoc,
        ← List.append_assoc, key.1, List.append_assoc]
  have := gen evs (fifo0 credits) hb (by intro v p hp; cases hp) (by intro p hp; cases hp) (by intro v p ps h; cases h)
  exact this

example : SameSize 0 100 [.insert 0 ⟨1, 100, 0⟩, .insert 0 ⟨2, 100, 0⟩, .credit 0 100, .pop 0] ∧
    (fifo.run (fifo0 fun _ => 50) [.insert 0 ⟨1, 100, 0⟩, .insert 0 ⟨2, 100, 0⟩, .credit 0 100, .pop 0]).2 = [⟨1, 100, 0⟩] := by
  refine ⟨?_, by decide⟩
  intro p hp
  revert p
  decide

/-- A first come first served arbitrator with `k` packets; `W` is the lanes of the waiting packets. -/
def FifoHas (s : Fifo) (k : Nat) : Prop := ∃ W : List Nat, W.length + s.queue.length = k ∧ ∀ v, W.count v = (s.lanes v).pending.length

theorem count_filter_ne (W : List Nat) (w : Nat) : (W.filter (· != w)).length + W.count w = W.length := by
  induction W with
  | nil => rfl
  | cons x W ih =>
    by_cases h : x = w
    · subst h; simp; omega
    · have h1 : (x != w) = true := by simpa using h
      rw [List.filter_cons_of_pos (by simpa using h1), List.count_cons_of_ne h, List.length_cons, List.length_cons]
      omega

theorem fifo_law : Law fifo FifoHas where
  ins := by
    intro s k c p ⟨W, h1, h2⟩
    show FifoHas (s.insert p) (k + 1)
    unfold Fifo.insert
    simp only
    split
    · refine ⟨W, by simp only [List.length_append, List.length_singleton]; omega, ?_⟩
      intro v
      by_cases hv : v = p.vl
      · subst hv; simp only [setAt_same]; exact h2 _
      · simp only [setAt_other _ _ _ _ hv]; exact h2 _
    · refine ⟨p.vl :: W, by simp only [List.length_cons]; omega, ?_⟩
      intro v
      by_cases hv : v = p.vl
      · subst hv; simp only [setAt_same, List.length_append, List.length_singleton, List.count_cons_self]; rw [h2]
      · simp only [setAt_other _ _ _ _ hv]
        rw [List.count_cons_of_ne (Ne.symm hv)]; exact h2 _
  cred := by
    intro s k w n ⟨W, h1, h2⟩
    show FifoHas (s.addCredits w n) k
    unfold Fifo.addCredits
    simp only
    obtain ⟨d1, _, _⟩ := drain_spec ((s.lanes w).credits + n) (s.lanes w).pending
    generalize hD : drain ((s.lanes w).credits + n) (s.lanes w).pending = D at *
    have hlen : D.2.2.length + D.2.1.length = (s.lanes w).pending.length := by rw [← d1, List.length_append]
    have hf := count_filter_ne W w
    refine ⟨W.filter (· != w) ++ List.replicate D.2.1.length w, ?_, ?_⟩
    · simp only [List.length_append, List.length_replicate]
      have := h2 w
      omega
    · intro v
      rw [List.count_append]
      by_cases hv : v = w
      · subst hv
        simp only [setAt_same]
        rw [List.count_replicate_self, List.count_eq_zero.mpr]
        · omega
        · intro hm
          have := (List.mem_filter.mp hm).2
          simp at this
      · simp only [setAt_other _ _ _ _ hv]
        rw [List.count_filter (by simpa using hv), h2, List.count_replicate]
        simp [Ne.symm hv]
  pop := by
    intro s k c ⟨W, h1, h2⟩ he
    obtain ⟨lanes, queue⟩ := s
    cases queue with
    | nil => cases he
    | cons p q =>
      refine ⟨⟨lanes, q⟩, p, rfl, W, ?_, h2⟩
      simp only [List.length_cons] at h1 ⊢
      omega
  some_ := by
    intro s k ⟨W, h1, _⟩ he
    obtain ⟨lanes, queue⟩ := s
    cases queue with
    | nil => cases he
    | cons p q =>
      simp only [List.length_cons] at h1
      omega

/-- A port with the first come first served arbitrator. -/
def fifoCfg (byteDelay flit : Nat) (fc : Bool) : PCfg Fifo := ⟨fifo, byteDelay, flit, fc⟩

theorem fifo_inv {bd flit : Nat} {fc : Bool} {credits : Nat → Nat} {s : Port Fifo} {t : Nat} {log : List Sent}
    (h : (fifoCfg bd flit fc).Reach (fifo0 credits) s t log) : Inv (fifoCfg bd flit fc) FifoHas s t log :=
  reach_inv (C := fifoCfg bd flit fc) fifo_law ⟨[], rfl, fun _ => rfl⟩ h

/-- **C54** (snappr, first come first served). The packets a port sends never overlap on its link, with
any arrival and credit times: each starts when the one before it, which takes its size times the byte
delay, has gone. -/
theorem C54_snappr_fifo {bd flit : Nat} {fc : Bool} {credits : Nat → Nat} {s : Port Fifo} {t : Nat} {log : List Sent}
    (h : (fifoCfg bd flit fc).Reach (fifo0 credits) s t log) :
    log.Pairwise fun a b => a.start + a.pkt.bytes * bd + flit ≤ b.start :=
  (fifo_inv h).apart

/-- **C66** (snappr port, first come first served). While a packet is ready to be sent, the port has an
arbitration scheduled for the moment its link is free, which has not passed. -/
theorem C66_snappr_port {bd flit : Nat} {fc : Bool} {credits : Nat → Nat} {s : Port Fifo} {t : Nat} {log : List Sent}
    (h : (fifoCfg bd flit fc).Reach (fifo0 credits) s t log) (hr : s.arb.queue ≠ []) : s.sched = some s.nextFree ∧ t ≤ s.nextFree := by
  have hi := fifo_inv h
  have hb := hi.busy (by
    show s.arb.queue.isEmpty = false
    cases hq : s.arb.queue with
    | nil => exact (hr hq).elim
    | cons a b => rfl)
  obtain ⟨T, hT⟩ := Option.isSome_iff_exists.mp hb
  obtain ⟨h1, h2, _⟩ := hi.sched T hT
  rw [hT, h1]
  exact ⟨rfl, h1 ▸ h2⟩

/-- **C77** (first come first served). No sanity check of the port fails, whatever comes when. -/
theorem C77_checks_fifo {bd flit : Nat} {fc : Bool} {credits : Nat → Nat} {s : Port Fifo} {t : Nat} {log : List Sent}
    (h : (fifoCfg bd flit fc).Reach (fifo0 credits) s t log) (e : PEv) (he : s.CanHappen t e) :
    ((fifoCfg bd flit fc).step s e).isSome := by
  obtain ⟨s', out, h1, _⟩ := step_ok (C := fifoCfg bd flit fc) fifo_law (fifo_inv h) e he
  rw [h1]; rfl

/-- **C77** (first come first served). The active, idle and stalled times a port reports, with the flit
overhead of each packet, are the time until its link is free: no time is lost or counted twice. -/
theorem C77_time_fifo {bd flit : Nat} {fc : Bool} {credits : Nat → Nat} {s : Port Fifo} {t : Nat} {log : List Sent}
    (h : (fifoCfg bd flit fc).Reach (fifo0 credits) s t log) : s.active + s.idle + s.stalled + flit * log.length = s.nextFree :=
  (fifo_inv h).time

/-- `CanHappen`, as a computation. -/
def Port.can (s : Port σ) (last : Nat) (e : PEv) : Bool :=
  decide (last ≤ e.time) && (match s.sched with | none => true | some T => decide (e.time ≤ T)) &&
    (match e with | .arb t => s.sched == some t | _ => true)

theorem can_spec {s : Port σ} {last : Nat} {e : PEv} (h : s.can last e = true) : s.CanHappen last e := by
  unfold Port.can at h
  simp only [Bool.and_eq_true, decide_eq_true_eq] at h
  obtain ⟨⟨h1, h2⟩, h3⟩ := h
  refine ⟨h1, ?_, ?_⟩
  · intro T hT
    rw [hT] at h2
    simpa using h2
  · intro t ht
    subst ht
    simpa using h3

/-- Run a port on a list of events; `none` if an event cannot happen or a sanity check fails. -/
def PCfg.runAll (C : PCfg σ) (s : Port σ) (t : Nat) : List PEv → Option (Port σ × Nat × List Sent)
  | [] => some (s, t, [])
  | e :: es => if s.can t e then
      match C.step s e with
      | none => none
      | some (s', out) => (C.runAll s' e.time es).map fun r => (r.1, r.2.1, out ++ r.2.2)
    else none

theorem runAll_reach {C : PCfg σ} {a0 : σ} (es : List PEv) {s s' : Port σ} {t t' : Nat} {log out : List Sent} (h : C.Reach a0 s t log)
    (hr : C.runAll s t es = some (s', t', out)) : C.Reach a0 s' t' (log ++ out) := by
  induction es generalizing s t log out with
  | nil =>
    obtain ⟨rfl, h2⟩ := Prod.mk.inj (Option.some.inj hr)
    obtain ⟨rfl, rfl⟩ := Prod.mk.inj h2
    rw [List.append_nil]; exact h
  | cons e es ih =>
    simp only [PCfg.runAll] at hr
    split at hr
    · rename_i hc
      cases hs : C.step s e with
      | none => rw [hs] at hr; cases hr
      | some r =>
        obtain ⟨s1, o1⟩ := r
        rw [hs] at hr
        simp only [Option.map_eq_some_iff] at hr
        obtain ⟨r2, h1, h2⟩ := hr
        obtain ⟨rfl, h3⟩ := Prod.mk.inj h2
        obtain ⟨rfl, rfl⟩ := Prod.mk.inj h3
        rw [← List.append_assoc]
        exact ih (.next h (can_spec hc) hs) h1
    · cases hr

/-- A packet comes while the first is being sent and there are not enough credits for it. -/
def demoPort : List PEv := [.pkt 5 ⟨1, 100, 0⟩, .pkt 6 ⟨2, 100, 0⟩, .arb 206, .credit 300 0 100]

example : ((fifoCfg 2 1 true).runAll (port0 (fifo0 fun _ => 150)) 0 demoPort).map
      (fun r => (r.2, r.1.sched, r.1.nextFree, r.1.active, r.1.idle, r.1.stalled)) =
    some ((300, [⟨5, ⟨1, 100, 0⟩⟩, ⟨300, ⟨2, 100, 0⟩⟩]), none, 501, 400, 5, 94) := by decide

example : ((fifoCfg 2 1 true).runAll (port0 (fifo0 fun _ => 250)) 0 [.pkt 5 ⟨1, 100, 0⟩, .pkt 6 ⟨2, 100, 0⟩]).map
      (fun r => (r.1.arb.queue, r.1.sched, r.1.nextFree)) = some ([⟨2, 100, 0⟩], some 206, 206) := by decide

end SST.Snappr
