import Verif.Snappr.WrrProps
/-
C78: how fast a lane with a bandwidth limit sends while other lanes compete.
-/
set_option autoImplicit false
namespace SST.Snappr

/-- The cycle of an operation. -/
def AEv.cycle? : AEv → Option Nat
  | .insert c _ => some c
  | .credit _ _ => none
  | .pop c => some c

/-- Operations happen in the order of time, none before `t`. -/
def InTime : Nat → List AEv → Prop
  | _, [] => True
  | t, e :: es => (∀ c, e.cycle? = some c → t ≤ c) ∧ InTime (e.cycle?.getD t) es

/-- Whenever the port chooses a packet, some lane within its limit has one, or the time of lane `v` has come. -/
def Contested (choose : (Nat → WLane) → List Nat → Nat) (lbd v : Nat) : Wrr → List AEv → Prop
  | _, [] => True
  | s, e :: es => (∀ c, e = .pop c → s.portQ ≠ [] ∨ (s.lanes v).nextFree ≤ c) ∧ Contested choose lbd v ((wrr choose lbd).step s e).1 es

/-- What an operation keeps of a limited lane. -/
structure MaxLane (v bd t : Nat) (s : Wrr) : Prop where
  ok : s.Ok
  sel : (s.lanes v).sel = .max
  bd : (s.lanes v).byteDelay = bd
  due : v ∈ s.portQ → (s.lanes v).nextFree ≤ t

theorem lanes_push (s : Wrr) (p : Pkt) (v : Nat) :
    ((s.push p).lanes v).sel = (s.lanes v).sel ∧ ((s.push p).lanes v).byteDelay = (s.lanes v).byteDelay ∧
    ((s.push p).lanes v).nextFree = (s.lanes v).nextFree ∧ (s.push p).portQ = s.portQ := by
  unfold Wrr.push
  by_cases h : v = p.vl
  · subst h; simp [setAt_same]
  · simp [setAt_other _ _ _ _ h]

theorem insert_max {v bd t c : Nat} {s : Wrr} (h : MaxLane v bd t s) (hc : t ≤ c) (p : Pkt) :
    ((s.insert c p).lanes v).sel = .max ∧ ((s.insert c p).lanes v).byteDelay = bd ∧ (s.lanes v).nextFree ≤ ((s.insert c p).lanes v).nextFree ∧
    (v ∈ (s.insert c p).portQ → ((s.insert c p).lanes v).nextFree ≤ c) := by
  unfold Wrr.insert
  simp only
  have hd : v ∈ s.portQ → (s.lanes v).nextFree ≤ c := fun hv => Nat.le_trans (h.due hv) hc
  split
  · split
    · obtain ⟨e1, e2, e3, e4⟩ := lanes_push (s.admit c p) p v
      rw [e1, e2, e3, e4]
      unfold Wrr.admit
      simp only
      by_cases hv : v = p.vl
      · subst hv
        rw [h.sel]
        simp only
        split
        · simp only [setAt_same, h.sel, h.bd, true_and]
          exact ⟨Nat.le_refl _, hd⟩
        · simp only [setAt_same, h.sel, h.bd, true_and]
          exact ⟨by omega, fun _ => Nat.le_refl _⟩
      · have key : ∀ (w : WLane) (q : List Nat) (q' : List Nat), (∀ x, x ∈ q ↔ x ∈ s.portQ ∨ x = p.vl) ∨ (∀ x, x ∈ q ↔ x ∈ s.portQ) →
            ((⟨setAt s.lanes p.vl w, q, q'⟩ : Wrr).lanes v).sel = .max ∧ ((⟨setAt s.lanes p.vl w, q, q'⟩ : Wrr).lanes v).byteDelay = bd ∧
            (s.lanes v).nextFree ≤ ((⟨setAt s.lanes p.vl w, q, q'⟩ : Wrr).lanes v).nextFree ∧
            (v ∈ (⟨setAt s.lanes p.vl w, q, q'⟩ : Wrr).portQ → ((⟨setAt s.lanes p.vl w, q, q'⟩ : Wrr).lanes v).nextFree ≤ c) := by
          intro w q q' hq
          simp only [setAt_other _ _ _ _ hv]
          refine ⟨h.sel, h.bd, Nat.le_refl _, fun hm => hd ?_⟩
          rcases hq with hq | hq
          · rcases (hq v).1 hm with h' | h'
            · exact h'
            · exact absurd h' hv
          · exact (hq v).1 hm
        cases (s.lanes p.vl).sel with
        | none => exact key _ _ _ (.inl fun x => by simp)
        | min => exact key _ _ _ (.inl fun x => by simp)
        | max =>
          simp only
          split
          · exact key _ _ _ (.inr fun x => Iff.rfl)
          · exact key _ _ _ (.inl fun x => by simp)
    · obtain ⟨e1, e2, e3, e4⟩ := lanes_push { s with lanes := setAt s.lanes p.vl { (s.lanes p.vl) with stalled := true } } p v
      rw [e1, e2, e3, e4]
      by_cases hv : v = p.vl
      · subst hv
        simp only [setAt_same]
        exact ⟨h.sel, h.bd, Nat.le_refl _, hd⟩
      · simp only [setAt_other _ _ _ _ hv]
        exact ⟨h.sel, h.bd, Nat.le_refl _, hd⟩
  · obtain ⟨e1, e2, e3, e4⟩ := lanes_push s p v
    rw [e1, e2, e3, e4]
    exact ⟨h.sel, h.bd, Nat.le_refl _, hd⟩

theorem credit_max {v bd t : Nat} {s : Wrr} (h : MaxLane v bd t s) (w n : Nat) :
    ((s.addCredits w n).lanes v).sel = .max ∧ ((s.addCredits w n).lanes v).byteDelay = bd ∧
    ((s.addCredits w n).lanes v).nextFree = (s.lanes v).nextFree ∧ (v ∈ (s.addCredits w n).portQ → v ∈ s.portQ) := by
  have plain : ∀ (x : WLane), (w = v → x.sel = (s.lanes w).sel ∧ x.byteDelay = (s.lanes w).byteDelay ∧ x.nextFree = (s.lanes w).nextFree) →
      (setAt s.lanes w x v).sel = .max ∧ (setAt s.lanes w x v).byteDelay = bd ∧ (setAt s.lanes w x v).nextFree = (s.lanes v).nextFree := by
    intro x hx
    by_cases hv : v = w
    · subst hv
      obtain ⟨a, b, c⟩ := hx rfl
      rw [setAt_same, a, b, c]
      exact ⟨h.sel, h.bd, rfl⟩
    · rw [setAt_other _ _ _ _ hv]
      exact ⟨h.sel, h.bd, rfl⟩
  unfold Wrr.addCredits
  simp only
  split
  · split
    · have := plain { (s.lanes w) with credits := (s.lanes w).credits + n } (fun _ => ⟨rfl, rfl, rfl⟩)
      exact ⟨this.1, this.2.1, this.2.2, id⟩
    · rename_i p ps _
      split
      · have := plain { (s.lanes w) with credits := (s.lanes w).credits + n - p.bytes, stalled := false } (fun _ => ⟨rfl, rfl, rfl⟩)
        split
        · exact ⟨this.1, this.2.1, this.2.2, id⟩
        · rename_i hs
          refine ⟨this.1, this.2.1, this.2.2, ?_⟩
          intro hm
          rcases List.mem_append.1 hm with hm | hm
          · exact hm
          · rw [List.mem_singleton] at hm
            subst hm
            exact absurd h.sel hs
      · have := plain { (s.lanes w) with credits := (s.lanes w).credits + n } (fun _ => ⟨rfl, rfl, rfl⟩)
        exact ⟨this.1, this.2.1, this.2.2, id⟩
  · have := plain { (s.lanes w) with credits := (s.lanes w).credits + n } (fun _ => ⟨rfl, rfl, rfl⟩)
    exact ⟨this.1, this.2.1, this.2.2, id⟩

/-- A packet sent when its lane's time has come pushes that time back by at least what the limit demands. -/
theorem advanceMax_ge {lbd c nf b bd : Nat} (h : nf ≤ c) : nf + bd * b ≤ advanceMax lbd c nf b bd := by
  have e : b * bd = bd * b := Nat.mul_comm ..
  unfold advanceMax
  simp only
  have := Nat.zero_le (b * lbd)
  split <;> split <;> omega

theorem popNext_max {v : Nat} {s : Wrr} (c w : Nat) (q : Pkt) (hsel : (s.lanes v).sel = .max) :
    ((s.popNext c w q).lanes v).sel = .max ∧ ((s.popNext c w q).lanes v).byteDelay = (s.lanes v).byteDelay ∧
    ((s.popNext c w q).lanes v).nextFree = (s.lanes v).nextFree ∧ (v ∈ (s.popNext c w q).portQ → v ∈ s.portQ) := by
  by_cases hv : v = w
  · subst hv
    unfold Wrr.popNext
    simp only [hsel]
    split <;> simp [setAt_same]
  · unfold Wrr.popNext
    simp only
    split
    · cases (s.lanes w).sel <;> simp [setAt_other _ _ _ _ hv, hsel, hv]
    · cases (s.lanes w).sel <;> simp [setAt_other _ _ _ _ hv, hsel]

/-- A pop: either it takes no packet of the lane, or the lane's time had come. -/
theorem pop_max {choose : (Nat → WLane) → List Nat → Nat} (hch : Chooses choose) {v bd t c : Nat} (lbd : Nat) {s : Wrr} (h : MaxLane v bd t s) (hc : t ≤ c)
    (hq : s.portQ ≠ [] ∨ (s.lanes v).nextFree ≤ c) {s' : Wrr} {p : Pkt} (hp : s.pop choose lbd c = some (s', p)) :
    (s'.lanes v).sel = .max ∧ (s'.lanes v).byteDelay = bd ∧ (s.lanes v).nextFree + bd * (if p.vl = v then p.bytes else 0) ≤ (s'.lanes v).nextFree ∧
    (v ∈ s'.portQ → (s'.lanes v).nextFree ≤ c) ∧ (p.vl = v → (s.lanes v).nextFree ≤ c) := by
  have hdue : p.vl = v → (s.lanes v).nextFree ≤ c := by
    intro e
    rcases hq with hq | hq
    · rcases C78_partial hch h.ok hq hp with hm | ⟨_, hm⟩
      · rw [e] at hm
        exact Nat.le_trans (h.due hm) hc
      · rwa [e] at hm
    · exact hq
  obtain ⟨ok, hsel, hbd, hd⟩ := h
  unfold Wrr.pop at hp
  simp only at hp
  generalize hdueq : (s.capQ.filter fun v => decide ((s.lanes v).nextFree ≤ c)) = due at hp
  generalize hcapq : (s.capQ.filter fun v => !decide ((s.lanes v).nextFree ≤ c)) = capQ at hp
  split at hp
  · cases hp
  · generalize hw : (if (s.portQ ++ due).isEmpty then choose s.lanes capQ else choose s.lanes (s.portQ ++ due)) = w at hp
    generalize hs1 : (if (s.portQ ++ due).isEmpty then ⟨s.lanes, [], capQ.erase w⟩ else ⟨s.lanes, (s.portQ ++ due).erase w, capQ⟩ : Wrr) = s1 at hp
    have hl1 : s1.lanes = s.lanes := by rw [← hs1]; split <;> rfl
    have hdue1 : ∀ x ∈ s1.portQ, (x = v → (s.lanes v).nextFree ≤ c) := by
      intro x hx e
      subst e
      rw [← hs1] at hx
      split at hx
      · cases hx
      · rcases List.mem_append.1 (List.mem_of_mem_erase hx) with hm | hm
        · exact Nat.le_trans (hd hm) hc
        · rw [← hdueq, List.mem_filter, decide_eq_true_eq] at hm
          exact hm.2
    split at hp
    · cases hp
    · rename_i p0 ps hpd
      have hpv : p0.vl = w := (ok w).2 p0 (by rw [show (s.view w).pending = p0 :: ps from hpd]; exact List.mem_cons_self ..)
      -- the lane is up at most once
      have hnot : w = v → v ∉ s1.portQ := by
        intro e hm
        subst e
        have hcnt : s.portQ.count w + s.capQ.count w ≤ 1 := by
          have := (ok w).1
          unfold LView.Ok at this
          rw [show (s.view w).pending = p0 :: ps from hpd] at this
          simp only at this
          have h1 : (s.view w).cnt = s.portQ.count w + s.capQ.count w := rfl
          split at this <;> omega
        have hsplit := count_split s.capQ (fun v => decide ((s.lanes v).nextFree ≤ c)) w
        rw [hdueq, hcapq] at hsplit
        rw [← hs1] at hm
        split at hm
        · cases hm
        · have h1 := List.count_pos_iff.2 hm
          rw [count_erase', if_pos rfl, List.count_append] at h1
          omega
      generalize hv1 : (if (s.lanes w).sel = .max then { (s.lanes w) with pending := ps, nextFree := advanceMax lbd c (s.lanes w).nextFree p0.bytes (s.lanes w).byteDelay } else { (s.lanes w) with pending := ps } : WLane) = v1 at hp
      -- the state before the next packet of the lane is put up
      have base : ((setAt s1.lanes w v1) v).sel = .max ∧ ((setAt s1.lanes w v1) v).byteDelay = bd ∧
          (p0.vl = v → (s.lanes v).nextFree ≤ c → (s.lanes v).nextFree + bd * p0.bytes ≤ ((setAt s1.lanes w v1) v).nextFree) ∧
          (p0.vl ≠ v → ((setAt s1.lanes w v1) v).nextFree = (s.lanes v).nextFree) := by
        by_cases hv : v = w
        · subst hv
          rw [setAt_same, ← hv1, if_pos hsel]
          refine ⟨hsel, hbd, fun _ hle => ?_, fun hne => absurd hpv hne⟩
          simp only
          rw [hbd]
          exact advanceMax_ge hle
        · rw [setAt_other _ _ _ _ hv, hl1]
          exact ⟨hsel, hbd, fun e _ => absurd (e.symm.trans hpv) hv, fun _ => rfl⟩
      have fin : ∀ s'' : Wrr, p0 = p → (s''.lanes v).sel = .max → (s''.lanes v).byteDelay = ((setAt s1.lanes w v1) v).byteDelay →
          (s''.lanes v).nextFree = ((setAt s1.lanes w v1) v).nextFree → (v ∈ s''.portQ → v ∈ s1.portQ) →
          (s''.lanes v).sel = .max ∧ (s''.lanes v).byteDelay = bd ∧ (s.lanes v).nextFree + bd * (if p.vl = v then p.bytes else 0) ≤ (s''.lanes v).nextFree ∧
          (v ∈ s''.portQ → (s''.lanes v).nextFree ≤ c) ∧ (p.vl = v → (s.lanes v).nextFree ≤ c) := by
        intro s'' ep f1 f2 f3 f4
        subst ep
        refine ⟨f1, f2.trans base.2.1, ?_, ?_, hdue⟩
        · rw [f3]
          by_cases e : p0.vl = v
          · rw [if_pos e]
            exact base.2.2.1 e (hdue e)
          · rw [if_neg e, base.2.2.2 e]
            omega
        · intro hm
          have hm1 := f4 hm
          by_cases e : w = v
          · exact absurd hm1 (hnot e)
          · rw [f3, base.2.2.2 (by rw [hpv]; exact e)]
            exact hdue1 v hm1 rfl
      split at hp
      · have := Option.some.inj hp
        simp only [Prod.mk.injEq] at this
        obtain ⟨rfl, rfl⟩ := this
        exact fin _ rfl base.1 rfl rfl id
      · rename_i q qs
        have := Option.some.inj hp
        simp only [Prod.mk.injEq] at this
        obtain ⟨rfl, rfl⟩ := this
        obtain ⟨g1, g2, g3, g4⟩ := popNext_max (v := v) (s := { s1 with lanes := setAt s1.lanes w v1 }) c w q base.1
        exact fin _ rfl g1 g2 g3 g4

theorem step_max {choose : (Nat → WLane) → List Nat → Nat} (hch : Chooses choose) {v bd t : Nat} (lbd : Nat) {s : Wrr} (h : MaxLane v bd t s) (e : AEv)
    (ht : ∀ c, e.cycle? = some c → t ≤ c) (hq : ∀ c, e = .pop c → s.portQ ≠ [] ∨ (s.lanes v).nextFree ≤ c) :
    MaxLane v bd (e.cycle?.getD t) ((wrr choose lbd).step s e).1 ∧
    (s.lanes v).nextFree + bd * bytesOn v ((wrr choose lbd).step s e).2 ≤ (((wrr choose lbd).step s e).1.lanes v).nextFree ∧
    (∀ c, e = .pop c → onLane v ((wrr choose lbd).step s e).2 ≠ [] → (s.lanes v).nextFree ≤ c) := by
  have hok := (wrr_step hch lbd h.ok e 0).1
  cases e with
  | insert c p =>
    obtain ⟨a, b, d, f⟩ := insert_max h (ht c rfl) p
    exact ⟨⟨hok, a, b, f⟩, d, fun _ h => nomatch h⟩
  | credit w n =>
    obtain ⟨a, b, d, f⟩ := credit_max h w n
    refine ⟨⟨hok, a, b, fun hm => ?_⟩, Nat.le_of_eq d.symm, fun _ h => nomatch h⟩
    show ((s.addCredits w n).lanes v).nextFree ≤ t
    rw [d]
    exact h.due (f hm)
  | pop c =>
    have hc := ht c rfl
    simp only [Arb.step] at hok ⊢
    split
    · refine ⟨⟨h.ok, h.sel, h.bd, fun hm => Nat.le_trans (h.due hm) hc⟩, by simp [bytesOn], fun _ _ hne => absurd rfl hne⟩
    · rename_i he
      rw [if_neg he] at hok
      have hpop : (wrr choose lbd).pop s c = s.pop choose lbd c := rfl
      rw [hpop] at hok ⊢
      cases hp : s.pop choose lbd c with
      | none => exact ⟨⟨h.ok, h.sel, h.bd, fun hm => Nat.le_trans (h.due hm) hc⟩, by simp [bytesOn], fun _ _ hne => absurd rfl hne⟩
      | some r =>
        obtain ⟨s', p⟩ := r
        rw [hp] at hok
        obtain ⟨a, b, d, f, g⟩ := pop_max hch lbd h hc (hq c rfl) hp
        refine ⟨⟨hok, a, b, f⟩, ?_, ?_⟩
        · simpa [bytesOn] using d
        · intro c' e hne
          cases e
          apply g
          unfold onLane at hne
          by_cases e : p.vl = v
          · exact e
          · simp [e] at hne

theorem run_max {choose : (Nat → WLane) → List Nat → Nat} (hch : Chooses choose) {v bd : Nat} (lbd : Nat) (evs : List AEv) : ∀ (t : Nat) (s : Wrr), MaxLane v bd t s →
    InTime t evs → Contested choose lbd v s evs →
    (s.lanes v).nextFree + bd * bytesOn v ((wrr choose lbd).run s evs).2 ≤ (((wrr choose lbd).run s evs).1.lanes v).nextFree ∧
    ∃ t', MaxLane v bd t' ((wrr choose lbd).run s evs).1 ∧ ∀ es, InTime t (evs ++ es) → InTime t' es := by
  induction evs with
  | nil => intro t s h _ _; exact ⟨by simp [Arb.run, bytesOn], t, h, fun _ h => h⟩
  | cons e es ih =>
    intro t s h ht hq
    obtain ⟨a1, a2, _⟩ := step_max hch lbd h e ht.1 hq.1
    obtain ⟨b1, t', b2, b3⟩ := ih _ _ a1 ht.2 hq.2
    simp only [Arb.run]
    refine ⟨?_, t', b2, ?_⟩
    · rw [bytesOn_append, Nat.mul_add]
      omega
    · intro es' h'
      exact b3 es' h'.2

theorem contested_append {choose : (Nat → WLane) → List Nat → Nat} {lbd v : Nat} (a b : List AEv) : ∀ (s : Wrr),
    Contested choose lbd v s (a ++ b) → Contested choose lbd v s a ∧ Contested choose lbd v ((wrr choose lbd).run s a).1 b := by
  induction a with
  | nil => intro s h; exact ⟨trivial, h⟩
  | cons e es ih =>
    intro s h
    obtain ⟨h1, h2⟩ := ih _ h.2
    exact ⟨⟨h.1, h1⟩, h2⟩

theorem inTime_left {t : Nat} (a b : List AEv) (h : InTime t (a ++ b)) : InTime t a := by
  induction a generalizing t with
  | nil => trivial
  | cons e es ih => exact ⟨h.1, ih h.2⟩

/-- **C78** (partial). While lanes within their limits compete for the port, a limited lane keeps to its limit: in any
history from the start, when it sends a packet at cycle `c`, everything it has sent before took at least the time
its limit demands. What is missing: without competition (`C78_refuted`). -/
theorem C78_rate_partial {choose : (Nat → WLane) → List Nat → Nat} (hch : Chooses choose) (lbd : Nat) (sel : Nat → Sel) (bd : Nat → Nat) (prio : Nat → Int)
    (credits : Nat → Nat) (v : Nat) (hv : sel v = .max) (evs : List AEv) (c : Nat) (ht : InTime 0 (evs ++ [.pop c]))
    (hq : Contested choose lbd v (wrr0 sel bd prio credits) (evs ++ [.pop c]))
    (hs : onLane v ((wrr choose lbd).step ((wrr choose lbd).run (wrr0 sel bd prio credits) evs).1 (.pop c)).2 ≠ []) :
    bytesOn v ((wrr choose lbd).run (wrr0 sel bd prio credits) evs).2 * bd v ≤ c := by
  have h0 : MaxLane v (bd v) 0 (wrr0 sel bd prio credits) := ⟨wrr_ok0 sel bd prio credits, hv, rfl, (fun h => nomatch h)⟩
  obtain ⟨q1, q2⟩ := contested_append evs [.pop c] _ hq
  obtain ⟨r1, t', r2, r3⟩ := run_max hch lbd evs 0 _ h0 (inTime_left _ _ ht) q1
  obtain ⟨_, _, s3⟩ := step_max hch lbd r2 (.pop c) (r3 _ ht).1 q2.1
  have := s3 c rfl hs
  rw [Nat.mul_comm]
  omega

/-- Two lanes: the first is limited to a byte in ten cycles, the second is not limited. The limited one sends its second
packet when its time has come. -/
example : ∃ evs : List AEv, ∃ s0 : Wrr, s0 = wrr0 (fun v => if v = 0 then .max else .none) (fun _ => 10) (fun v => if v = 0 then 1 else 0) (fun _ => 10000) ∧
    InTime 0 (evs ++ [.pop 1200]) ∧ Contested top 1 0 s0 (evs ++ [.pop 1200]) ∧
    ((wrr top 1).run s0 (evs ++ [.pop 1200])).2.map (·.id) = [1, 3, 2] := by
  refine ⟨[.insert 0 ⟨1, 100, 0⟩, .insert 0 ⟨2, 100, 0⟩, .insert 0 ⟨3, 100, 1⟩, .insert 0 ⟨4, 100, 1⟩, .pop 0, .pop 100], _, rfl, ?_, ?_, by decide⟩
  · simp [InTime, AEv.cycle?]
  · refine ⟨nofun, nofun, nofun, nofun, ?_, ?_, ?_, trivial⟩
    all_goals (intro c hc; left; decide)

end SST.Snappr
